import Verif.Propagation.RungeKutta

/-!
# C28, C29: trajectories over gate sequences, and the series exponential

`Experiment.compute_states` and `compute_final_state` (c3/experiment.py:634-725).
-/

set_option linter.unusedSectionVars false

namespace C3.Propagation

open Matrix

variable {V H : Type*} [AddCommGroup V] [Module ℂ V]

/-! ## Model -/

/-- What a gate contributes to a state solver: the Hamiltonian samples and the time stamps of its own
signal (c3/model.py:641-689). -/
structure GateRun (H : Type*) where
  Hs : ℕ → H
  ts : List ℝ

/-- Loop state of `compute_states`: `state_list`, `ts_list`, `init_state`, `ts_init`. -/
structure TrajState (V : Type*) where
  states : List V
  times : List ℝ
  init : V
  tsInit : ℝ

/-- c3/experiment.py:661-680, the body of the loop; `none` is the exception of an unknown gate or of
`[-1]` on an empty result. -/
noncomputable def trajStep (s : Solver) (f : V → H → V) (instr : String → Option (GateRun H))
    (st : TrajState V) (gate : String) : Option (TrajState V) :=
  match instr gate with
  | none => none
  | some g =>
    let res := odeSolver s f g.Hs g.ts.length st.init
    match res.getLast?, g.ts.getLast? with
    | some last, some tlast =>
      some ⟨st.states ++ res, st.times ++ g.ts.map (· + st.tsInit), last, tlast⟩
    | _, _ => none

/-- The loop over the sequence. -/
noncomputable def trajLoop (s : Solver) (f : V → H → V) (instr : String → Option (GateRun H)) :
    TrajState V → List String → Option (TrajState V)
  | st, [] => some st
  | st, g :: gs =>
    match trajStep s f instr st g with
    | none => none
    | some st' => trajLoop s f instr st' gs

/-- c3/experiment.py:634-682 `compute_states`: states and time stamps. -/
noncomputable def computeStates (s : Solver) (f : V → H → V) (instr : String → Option (GateRun H))
    (init : V) (seq : List String) : Option (List V × List ℝ) :=
  (trajLoop s f instr ⟨[init], [0], init, 0⟩ seq).map fun st => (st.states, st.times)

/-- c3/experiment.py:706-725, the loop of `compute_final_state`. -/
noncomputable def finalLoop (s : Solver) (f : V → H → V) (instr : String → Option (GateRun H)) :
    V → List String → Option V
  | x, [] => some x
  | x, g :: gs =>
    match instr g with
    | none => none
    | some r => finalLoop s f instr (odeSolverFinal s f r.Hs r.ts.length x) gs

/-- c3/experiment.py:684-725 `compute_final_state`; the variable `result` is unbound for an empty
sequence. -/
noncomputable def computeFinalState (s : Solver) (f : V → H → V)
    (instr : String → Option (GateRun H)) (init : V) (seq : List String) : Option V :=
  if seq = [] then none else finalLoop s f instr init seq

/-! ## C28 for sequences -/

theorem trajLoop_init (s : Solver) (f : V → H → V) (instr : String → Option (GateRun H))
    (hts : ∀ g r, instr g = some r → r.ts ≠ []) (seq : List String) (st : TrajState V)
    (hst : st.states.getLast? = some st.init) :
    (trajLoop s f instr st seq).map TrajState.init = finalLoop s f instr st.init seq ∧
      ∀ st', trajLoop s f instr st seq = some st' → st'.states.getLast? = some st'.init := by
  induction seq generalizing st with
  | nil => simp [trajLoop, finalLoop, hst]
  | cons g gs ih =>
    simp only [trajLoop, finalLoop]
    rcases hg : instr g with _ | r
    · simp [trajStep, hg]
    · have hne := hts g r hg
      have hN : 1 ≤ r.ts.length := by
        rcases hr : r.ts with _ | _
        · exact absurd hr hne
        · simp
      have hlast := C28_final_is_last s f r.Hs r.ts.length hN st.init
      obtain ⟨t, ht⟩ : ∃ t, r.ts.getLast? = some t := by
        rcases hx : r.ts.getLast? with _ | t
        · exact absurd (List.getLast?_eq_none_iff.1 hx) hne
        · exact ⟨t, rfl⟩
      simp only [trajStep, hg, hlast, ht]
      apply ih
      simp only
      rw [List.getLast?_append, hlast]
      rfl

/-- **C28** (experiment level): for every non-empty sequence of known gates, `compute_final_state`
succeeds exactly when `compute_states` does and returns the last state of its trajectory. -/
theorem C28_experiment (s : Solver) (f : V → H → V) (instr : String → Option (GateRun H))
    (hts : ∀ g r, instr g = some r → r.ts ≠ []) (init : V) (seq : List String) (hseq : seq ≠ []) :
    computeFinalState s f instr init seq =
      (computeStates s f instr init seq).bind fun p => p.1.getLast? := by
  unfold computeFinalState computeStates
  rw [if_neg hseq]
  obtain ⟨h1, h2⟩ := trajLoop_init s f instr hts seq ⟨[init], [0], init, 0⟩ rfl
  rw [← h1]
  rcases hx : trajLoop s f instr ⟨[init], [0], init, 0⟩ seq with _ | st'
  · rfl
  · simp [h2 st' hx]

/-! ## C29 -/

/-- Specification: the time stamps of a sequence of gates played one after the other, `ends` being
the last stamp of each. -/
def cumulativeTimes : ℝ → List (List ℝ) → List ℝ
  | _, [] => []
  | off, ts :: rest => ts.map (· + off) ++ cumulativeTimes (off + ts.getLastD 0) rest

/-- What the code computes: every gate is shifted by the last stamp of its predecessor only. -/
def codeTimes : ℝ → List (List ℝ) → List ℝ
  | _, [] => []
  | off, ts :: rest => ts.map (· + off) ++ codeTimes (ts.getLastD 0) rest

theorem trajLoop_times (s : Solver) (f : V → H → V) (instr : String → Option (GateRun H))
    (hts : ∀ g r, instr g = some r → r.ts ≠ []) (seq : List String)
    (hk : ∀ g ∈ seq, (instr g).isSome) (st : TrajState V) :
    ∃ st', trajLoop s f instr st seq = some st' ∧
      st'.times = st.times ++ codeTimes st.tsInit (seq.map fun g => ((instr g).map GateRun.ts).getD [])
    := by
  induction seq generalizing st with
  | nil => exact ⟨st, rfl, by simp [codeTimes]⟩
  | cons g gs ih =>
    obtain ⟨r, hr⟩ := Option.isSome_iff_exists.1 (hk g List.mem_cons_self)
    have hne := hts g r hr
    have hN : 1 ≤ r.ts.length := by
      rcases hr : r.ts with _ | _
      · exact absurd hr hne
      · simp
    have hlast := C28_final_is_last s f r.Hs r.ts.length hN st.init
    obtain ⟨t, ht⟩ : ∃ t, r.ts.getLast? = some t := by
      rcases hx : r.ts.getLast? with _ | t
      · exact absurd (List.getLast?_eq_none_iff.1 hx) hne
      · exact ⟨t, rfl⟩
    have ht' : r.ts.getLastD 0 = t := by
      rw [List.getLastD_eq_getLast?, ht]; rfl
    obtain ⟨st', h1, h2⟩ := ih (fun g hg => hk g (List.mem_cons_of_mem _ hg))
      ⟨st.states ++ odeSolver s f r.Hs r.ts.length st.init, st.times ++ r.ts.map (· + st.tsInit),
        odeSolverFinal s f r.Hs r.ts.length st.init, t⟩
    refine ⟨st', ?_, ?_⟩
    · simp only [trajLoop, trajStep, hr, hlast, ht]
      exact h1
    · rw [h2]
      simp only [List.map_cons, hr, Option.map_some, Option.getD_some, codeTimes, ht']
      rw [List.append_assoc]

/-- **C29** (exact behaviour): every gate's stamps are shifted by the last stamp of the gate before
it, whatever came earlier. Missing for the full claim: the shift does not accumulate, see
`C29_false`. -/
theorem C29_times_partial (s : Solver) (f : V → H → V) (instr : String → Option (GateRun H))
    (hts : ∀ g r, instr g = some r → r.ts ≠ []) (init : V) (seq : List String)
    (hk : ∀ g ∈ seq, (instr g).isSome) :
    ∃ states, computeStates s f instr init seq =
      some (states, 0 :: codeTimes 0 (seq.map fun g => ((instr g).map GateRun.ts).getD [])) := by
  obtain ⟨st', h1, h2⟩ := trajLoop_times s f instr hts seq hk ⟨[init], [0], init, 0⟩
  refine ⟨st'.states, ?_⟩
  unfold computeStates
  rw [h1]
  simp [h2]

/-- **C29** (two gates): for sequences of at most two gates the stamps are the cumulative ones. -/
theorem C29_two_gates_partial (s : Solver) (f : V → H → V) (instr : String → Option (GateRun H))
    (hts : ∀ g r, instr g = some r → r.ts ≠ []) (init : V) (seq : List String)
    (hk : ∀ g ∈ seq, (instr g).isSome) (hlen : seq.length ≤ 2) :
    ∃ states, computeStates s f instr init seq =
      some (states,
        0 :: cumulativeTimes 0 (seq.map fun g => ((instr g).map GateRun.ts).getD [])) := by
  obtain ⟨states, h⟩ := C29_times_partial s f instr hts init seq hk
  refine ⟨states, ?_⟩
  rw [h]
  match seq, hlen with
  | [], _ => rfl
  | [a], _ => rfl
  | [a, b], _ => simp [codeTimes, cumulativeTimes]

/-- **C29 is false**: three gates of length one; the third starts at time 1 instead of 2, so that time
stamps repeat. -/
theorem C29_false :
    ∃ (instr : String → Option (GateRun ℂ)) (states : List ℂ),
      computeStates .rk4 (fun x h => h * x) instr 1 ["x", "x", "x"] =
        some (states, [0, 1, 2, 2]) ∧
      cumulativeTimes 0 [[1], [1], [1]] = [1, 2, 3] ∧
      ¬ ([0, 1, 2, 2] : List ℝ).Pairwise (· < ·) := by
  obtain ⟨states, h⟩ := C29_times_partial .rk4 (fun (x h : ℂ) => h * x)
    (fun _ => some ⟨fun _ => 1, [1]⟩) (by rintro g r ⟨⟩; simp) 1 ["x", "x", "x"] (by simp)
  refine ⟨fun _ => some ⟨fun _ => 1, [1]⟩, states, ?_, ?_, ?_⟩
  · rw [h]
    simp [codeTimes]
    norm_num
  · simp [cumulativeTimes]; norm_num
  · intro h
    simp [List.pairwise_cons] at h

/-! ## The series exponential -/

section Expm

variable {n : Type*} [Fintype n] [DecidableEq n]

/-- The partial sums of the exponential series. -/
noncomputable def expSum (A : Matrix n n ℂ) (m : ℕ) : Matrix n n ℂ :=
  ∑ k ∈ Finset.range m, ((k.factorial : ℂ)⁻¹) • A ^ k

theorem expmLoop (A : Matrix n n ℂ) (k : ℕ) :
    (List.range' 2 k).foldl (expmStep A) (1 + A, A) =
      (expSum A (k + 2), (((k + 1).factorial : ℂ)⁻¹) • A ^ (k + 1)) := by
  induction k with
  | zero => simp [expSum, Finset.sum_range_succ]
  | succ k ih =>
    rw [List.range'_1_concat, List.foldl_append, ih]
    have h : (((2 + k : ℕ) : ℂ)⁻¹) • (((((k + 1).factorial : ℂ)⁻¹) • A ^ (k + 1)) * A) =
        (((k + 2).factorial : ℂ)⁻¹) • A ^ (k + 2) := by
      rw [smul_mul_assoc, ← pow_succ, smul_smul, ← mul_inv, Nat.factorial_succ (k + 1)]
      push_cast
      congr 2
      ring
    simp only [List.foldl_cons, List.foldl_nil, expmStep, h]
    congr 1
    rw [expSum, expSum, Finset.sum_range_succ _ (k + 2)]

/-- **C90**: `tf_expm(A, terms)` is the sum of the first `max(terms, 2)` terms of the exponential
series. -/
theorem C90_tfExpm (A : Matrix n n ℂ) (terms : ℕ) :
    tfExpm A terms = ∑ k ∈ Finset.range (max terms 2), ((k.factorial : ℂ)⁻¹) • A ^ k := by
  unfold tfExpm
  rw [expmLoop]
  have : terms - 2 + 2 = max terms 2 := by omega
  simp only [this]
  rfl

open scoped Norms.Operator in
/-- **C90** (convergence): with growing number of terms `tf_expm` converges to the matrix
exponential. -/
theorem C90_tendsto (A : Matrix n n ℂ) :
    Filter.Tendsto (tfExpm A) Filter.atTop (nhds (NormedSpace.exp A)) := by
  have h := (NormedSpace.exp_series_hasSum_exp' (𝕂 := ℂ) A).tendsto_sum_nat
  apply h.congr'
  filter_upwards [Filter.eventually_ge_atTop 2] with m hm
  rw [C90_tfExpm, max_eq_left hm]

example : tfExpm (!![0, 1; 0, 0] : Matrix (Fin 2) (Fin 2) ℂ) 1 = 1 + !![0, 1; 0, 0] := by
  rw [C90_tfExpm]; simp [Finset.sum_range_succ]

end Expm

/-! ## Kets and density matrices -/

section Dm

variable {n : Type*} [Fintype n] [DecidableEq n]

/-- **C88** (real kets): `tf_state_to_dm` returns `psi psiᵀ`, which is `|psi><psi|` for real kets.
Missing for the full claim: complex kets, see `C88_false`. -/
theorem C88_real_partial (psi : n → ℂ) (h : ∀ i, star (psi i) = psi i) :
    stateToDm psi = vecMulVec psi (star psi) := by
  ext i j
  simp only [stateToDm, of_apply, vecMulVec_apply, Pi.star_apply]
  rw [h j]

/-- **C88 is false**: for the normalised ket `(3i/5, 4/5)` the result is neither Hermitian nor of
trace one. -/
theorem C88_false : ∃ psi : Fin 2 → ℂ, (∑ i, ‖psi i‖ ^ 2 = 1) ∧ (stateToDm psi).trace ≠ 1 ∧
    ¬ (stateToDm psi).IsHermitian := by
  refine ⟨![3 / 5 * Complex.I, 4 / 5], ?_, ?_, ?_⟩
  · simp [Fin.sum_univ_two]; norm_num
  · simp only [stateToDm, trace, Fin.sum_univ_two, diag_apply, of_apply, cons_val_zero,
      cons_val_one]
    intro h
    have := congrArg Complex.re h
    norm_num at this
  · intro h
    have h1 := congrFun (congrFun h 0) 1
    simp [stateToDm, conjTranspose_apply] at h1
    have := congrArg Complex.im h1
    norm_num at this

end Dm

end C3.Propagation
