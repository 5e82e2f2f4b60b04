import Verif.Experiment.Decays
import Verif.Experiment.Exchange
import Verif.Hilbert.Thermal

/-!
# C239: a qubit that waits at a temperature

A two-level qubit with a relaxation time and a temperature (c3/libraries/chip.py:216-239, 434-464) and no dephasing time
waits: `compute_propagators` (C68) computes silent gates, `evaluate_legacy` (C65) runs sequences of them, on a state of
`InitialiseGround.initialise` (c3/libraries/tasks.py:46-88, C42) or after the turns of a relaxation sequence (C66).
-/

set_option linter.unusedSectionVars false

noncomputable section

namespace C3.Experiment.Warm

open Matrix C3.Propagation C3.Hilbert C3.Experiment C3.Experiment.Compute C3.Experiment.EndToEnd
  C3.Experiment.WeakNoise C3.Experiment.Waiting C3.Experiment.Decays C3.Experiment.Exchange C3.Gates

/-! ## Specification -/

/-- The Boltzmann factor of an energy difference `ħ f` at a temperature. -/
def factor (f T : ℝ) : ℝ := Real.exp (-(hBar * f) / (kB * T))

/-- Excited population of a two-level system in thermal equilibrium. -/
def thermal (f T : ℝ) : ℝ := factor f T / (1 + factor f T)

/-- What is given: a chip with one qubit that has a relaxation time and a temperature, and an experiment that has computed
the propagators of its gates. -/
structure Given (c : Chip [2]) (e : Fin 2 → ℝ) (k : Kind) (t1 T freq : ℝ) (ps : List (String × Pulse))
    (t' : Exp (SOp [2])) : Prop where
  wf : c.WF
  drift : c.h0 = (diagonal fun j => (e j : ℂ) : Matrix (Fin 2) (Fin 2) ℂ)
  decay : ∃ (ks : ℕ → Kind) (d : ℕ → Decay) (anhar : ℝ), FromComponents c ks d ∧ ks 0 = k ∧
    d 0 = ⟨some t1, some T, none, freq, anhar⟩
  done : ∃ t : Exp (SOp [2]), t.propMethod = none ∧ t.optGates = none ∧ ∃ table, compute (opened c ps) t = (.ok table, t')

/-- The gates of a sequence are silent. -/
def Silent (ps : List (String × Pulse)) (seq : List String) : Prop :=
  ∀ g ∈ seq, ∃ p, ps.lookup g = some p ∧ ∀ row ∈ p.values, ∀ x ∈ row, x = 0

/-! ## The computed wait -/

theorem sum_warm_two (x : ℂ) (b : Fin 2 → ℂ) : x • (!![0, 1; 0, 0] : Matrix (Fin 2) (Fin 2) ℂ) +
    x • ((!![0, 1; 0, 0] : Matrix (Fin 2) (Fin 2) ℂ)ᴴ * diagonal b) = !![0, x; x * b 0, 0] := by
  ext i j
  fin_cases i <;> fin_cases j <;> simp [Matrix.mul_apply, conjTranspose_apply, diagonal]

theorem collapse_warm (k : Kind) (t1 T freq anhar : ℝ) (hT : T ≠ 0) :
    getLindbladian k ⟨some t1, some T, none, freq, anhar⟩ [2] 0 = some
      (!![0, ((Real.sqrt (relaxRate k t1) : ℝ) : ℂ);
        ((Real.sqrt (relaxRate k t1) * factor freq T : ℝ) : ℂ), 0] : Matrix (Fin 2) (Fin 2) ℂ) := by
  have hu : tempUsed k ⟨some t1, some T, none, freq, anhar⟩ = some T := by
    unfold tempUsed
    simp [hT]
  unfold getLindbladian
  have hl : collapseList k ⟨some t1, some T, none, freq, anhar⟩ [2] 0 =
      [((Real.sqrt (relaxRate k t1) : ℝ) : ℂ) • ann [2] 0, ((Real.sqrt (relaxRate k t1) : ℝ) : ℂ) •
          ((ann [2] 0)ᴴ * emb (detBalArr ([2].getD 0 0) ⟨some t1, some T, none, freq, anhar⟩ T) 0 [2])] := by
    unfold collapseList
    rw [hu]
    rfl
  rw [hl, if_neg (List.cons_ne_nil _ _), detBal_diagonal [2] 0 (by simp), ann_two]
  simp only [List.sum_cons, List.sum_nil, add_zero]
  refine congrArg some ((sum_warm_two _ _).trans ?_)
  have : Real.exp (-hBar * freqDiff ([2].getD 0 0) ⟨some t1, some T, none, freq, anhar⟩ (levelAt [2] 0 (0 : Fin 2)) *
      (1 / (T * kB))) = factor freq T := by
    unfold factor
    rw [level_two]
    simp [freqDiff]
    ring_nf
  rw [Complex.ofReal_mul]
  refine congrArg (fun z : ℂ => (!![0, ((Real.sqrt (relaxRate k t1) : ℝ) : ℂ);
        ((Real.sqrt (relaxRate k t1) : ℝ) : ℂ) * z, 0] : Matrix (Fin 2) (Fin 2) ℂ)) ?_
  exact congrArg _ this

theorem cols_warm (c : Chip [2]) (k : ℕ → Kind) (d : ℕ → Decay) (hd : FromComponents c k d) (t1 T freq anhar : ℝ)
    (hT : T ≠ 0) (h0 : d 0 = ⟨some t1, some T, none, freq, anhar⟩) :
    c.cols = [(!![0, ((Real.sqrt (relaxRate (k 0) t1) : ℝ) : ℂ);
        ((Real.sqrt (relaxRate (k 0) t1) * factor freq T : ℝ) : ℂ), 0] : Matrix (Fin 2) (Fin 2) ℂ)] := by
  unfold FromComponents at hd
  have hr : List.range [2].length = [0] := rfl
  rw [hr, List.mapM_cons, List.mapM_nil, h0, collapse_warm _ _ _ _ _ hT] at hd
  exact (Option.some.inj hd).symm

/-- The master equation for the populations. -/
theorem master_warm (e : Fin 2 → ℝ) (x u : ℝ) (rho : Matrix (Fin 2) (Fin 2) ℂ) :
    masterRHS (diagonal fun j => (e j : ℂ)) [!![0, (x : ℂ); (u : ℂ), 0]] rho 1 1 =
      ((u ^ 2 : ℝ) : ℂ) * rho 0 0 - ((x ^ 2 : ℝ) : ℂ) * rho 1 1 := by
  have hc : (!![0, (x : ℂ); (u : ℂ), 0] : Matrix (Fin 2) (Fin 2) ℂ)ᴴ = !![0, (u : ℂ); (x : ℂ), 0] := by
    ext i j
    fin_cases i <;> fin_cases j <;> simp [conjTranspose_apply]
  unfold masterRHS
  simp only [List.map_cons, List.map_nil, List.sum_cons, List.sum_nil, add_zero, hc]
  simp [Matrix.mul_apply, vecMul, dotProduct, Fin.sum_univ_two, diagonal]
  ring

/-- The functional that reads the distance from a stationary population. -/
def apart (P : ℝ) : Fin 2 × Fin 2 → ℂ := Pi.single (1, 1) 1 - (P : ℂ) • traceForm

theorem apart_dot (P : ℝ) (v : Fin 2 × Fin 2 → ℂ) : apart P ⬝ᵥ v = v (1, 1) - P * (v (0, 0) + v (1, 1)) := by
  unfold apart
  rw [sub_dotProduct, single_dotProduct, one_mul, smul_dotProduct, traceForm_dot, smul_eq_mul]

theorem apart_gen (e : Fin 2 → ℝ) (r b : ℝ) :
    apart (b ^ 2 / (1 + b ^ 2)) ᵥ* lindOp (diagonal fun j => (e j : ℂ)) [!![0, (r : ℂ); ((r * b : ℝ) : ℂ), 0]] =
      ((-(r ^ 2 * (1 + b ^ 2)) : ℝ) : ℂ) • apart (b ^ 2 / (1 + b ^ 2)) := by
  refine functional_lindOp _ _ _ _ fun rho => ?_
  have htr := masterRHS_trace (diagonal fun j => (e j : ℂ)) [!![0, (r : ℂ); ((r * b : ℝ) : ℂ), 0]] rho
  rw [Matrix.trace_fin_two] at htr
  rw [apart_dot, apart_dot]
  change masterRHS _ _ rho 1 1 - _ * (masterRHS _ _ rho 0 0 + masterRHS _ _ rho 1 1) = _ * (rho 1 1 - _ * (rho 0 0 + rho 1 1))
  rw [htr, mul_zero, sub_zero, master_warm]
  have hb : (1 + (b : ℂ) ^ 2) ≠ 0 := by
    have : (1 + b ^ 2 : ℝ) ≠ 0 := by positivity
    exact_mod_cast this
  push_cast
  field_simp
  ring

/-- A wait keeps the trace and shrinks the distance from the stationary population. -/
structure Settles (W : Matrix (Fin 2 × Fin 2) (Fin 2 × Fin 2) ℂ) (P a : ℝ) : Prop where
  exc : ∀ v, (W *ᵥ v) (1, 1) - P * (v (0, 0) + v (1, 1)) = a * (v (1, 1) - P * (v (0, 0) + v (1, 1)))
  tot : ∀ v, (W *ᵥ v) (0, 0) + (W *ᵥ v) (1, 1) = v (0, 0) + v (1, 1)

theorem framed_pop (b : Bool) (f : Fin 2 → ℝ) (S' : Matrix (Fin 2 × Fin 2) (Fin 2 × Fin 2) ℂ) (i : Fin 2)
    (v : Fin 2 × Fin 2 → ℂ) :
    (((if b then tfSuper (diagonal fun i => Complex.exp (Complex.I * (f i : ℝ))) else 1) * S') *ᵥ v) (i, i) =
      (S' *ᵥ v) (i, i) := by
  rw [framed_two]
  simp

theorem settles_two (S : Matrix (Fin 2 × Fin 2) (Fin 2 × Fin 2) ℂ) (b : Bool) (f : Fin 2 → ℝ)
    (S1 S2 : Matrix (Fin 2 × Fin 2) (Fin 2 × Fin 2) ℂ) (P a : ℝ) (h1 : apart P ᵥ* S1 = (a : ℂ) • apart P)
    (h2 : traceForm ᵥ* S2 = Complex.exp 0 • traceForm)
    (e1 : S = (if b then tfSuper (diagonal fun i => Complex.exp (Complex.I * (f i : ℝ))) else 1) * S1)
    (e2 : S = (if b then tfSuper (diagonal fun i => Complex.exp (Complex.I * (f i : ℝ))) else 1) * S2) :
    Settles S P a := by
  have p1 : ∀ i v, (S *ᵥ v) (i, i) = (S1 *ᵥ v) (i, i) := fun i v => by rw [e1, framed_pop]
  have p2 : ∀ i v, (S *ᵥ v) (i, i) = (S2 *ᵥ v) (i, i) := fun i v => by rw [e2, framed_pop]
  have ht : ∀ v, (S *ᵥ v) (0, 0) + (S *ᵥ v) (1, 1) = v (0, 0) + v (1, 1) := by
    intro v
    rw [p2, p2, ← traceForm_dot, Matrix.dotProduct_mulVec, h2, Complex.exp_zero, one_smul, traceForm_dot]
  refine ⟨fun v => ?_, ht⟩
  have := apart_dot P (S1 *ᵥ v)
  rw [← p1, ← p1, ht, Matrix.dotProduct_mulVec, h1, smul_dotProduct, apart_dot, smul_eq_mul] at this
  exact this.symm

theorem given_wait (c : Chip [2]) (e : Fin 2 → ℝ) (k : Kind) (t1 T freq : ℝ) (h1 : 0 < t1) (hT : T ≠ 0)
    (ps : List (String × Pulse)) (t' : Exp (SOp [2])) (h : Given c e k t1 T freq ps t') (g : String) (p : Pulse)
    (hp : ps.lookup g = some p) (hsil : ∀ row ∈ p.values, ∀ x ∈ row, x = 0) :
    ∃ W : SOp [2], t'.propagators g = some W ∧ Settles W (factor freq T ^ 2 / (1 + factor freq T ^ 2))
      (Real.exp (-(relaxRate k t1 * (1 + factor freq T ^ 2) * (p.dt * p.values.length)))) := by
  obtain ⟨t, ht, hopt, table, hcomp⟩ := h.done
  obtain ⟨ks, d, anhar, hd, rfl, h0⟩ := h.decay
  obtain ⟨S, hS, hS'⟩ := computed c ps t ht hopt table t' hcomp g p hp
  have hcols := cols_warm c ks d hd t1 T freq anhar hT h0
  obtain ⟨p1, hp1, k1⟩ := silent_gate c h.wf ps (apart (factor freq T ^ 2 / (1 + factor freq T ^ 2))) _
    (by rw [h.drift, hcols]; exact apart_gen e _ _) g S hS
  obtain ⟨p2, hp2, k2⟩ := silent_gate c h.wf ps traceForm 0 (by rw [h.drift, hcols]; exact traceForm_gen _ _) g S hS
  obtain rfl : p1 = p := by rw [hp] at hp1; exact (Option.some.inj hp1).symm
  obtain rfl : p2 = p1 := by rw [hp] at hp2; exact (Option.some.inj hp2).symm
  obtain ⟨S1, a1, b1⟩ := k1 hsil
  obtain ⟨S2, a2, b2⟩ := k2 hsil
  rw [zero_mul] at a2
  rw [← Complex.ofReal_mul, ← Complex.ofReal_exp, Real.sq_sqrt (relaxRate_nonneg _ _ h1), neg_mul] at a1
  exact ⟨S, hS', settles_two S c.useFR _ S1 S2 _ _ a1 a2 b1 b2⟩

/-- A sequence of waits. -/
theorem run_waits (c : Chip [2]) (e : Fin 2 → ℝ) (k : Kind) (t1 T freq : ℝ) (h1 : 0 < t1) (hT : T ≠ 0)
    (ps : List (String × Pulse)) (t' : Exp (SOp [2])) (h : Given c e k t1 T freq ps t')
    (props : String → Option (Matrix (Fin 2 × Fin 2) (Fin 2 × Fin 2) ℂ)) (seq : List String) (hseq : Silent ps seq)
    (hw : ∀ g ∈ seq, props g = t'.propagators g) (v : Fin 2 × Fin 2 → ℂ) (hv : v (0, 0) + v (1, 1) = 1) :
    ∃ y, runSeq props seq v = some y ∧ y (0, 0) + y (1, 1) = 1 ∧
      y (1, 1) - thermal freq (T / 2) = (Real.exp (-(relaxRate k t1 * (1 + factor freq T ^ 2) * duration ps seq)) : ℝ) *
        (v (1, 1) - thermal freq (T / 2)) := by
  have hP : factor freq T ^ 2 / (1 + factor freq T ^ 2) = thermal freq (T / 2) := by
    have : factor freq T ^ 2 = factor freq (T / 2) := by
      unfold factor
      rw [← Real.exp_nat_mul]
      congr 1
      have := kB_pos.ne'
      field_simp
      push_cast
      ring
    rw [this, thermal]
  induction seq generalizing v with
  | nil => exact ⟨v, rfl, hv, by simp [duration]⟩
  | cons g gs ih =>
    obtain ⟨p, hp, hsil⟩ := hseq g (List.mem_cons_self ..)
    obtain ⟨W, hW, hs⟩ := given_wait c e k t1 T freq h1 hT ps t' h g p hp hsil
    rw [hP] at hs
    have htot := (hs.tot v).trans hv
    obtain ⟨y, hy, y0, y1⟩ := ih (fun g hg => hseq g (List.mem_cons_of_mem _ hg))
      (fun g hg => hw g (List.mem_cons_of_mem _ hg)) (W *ᵥ v) htot
    refine ⟨y, (run_one props g W ((hw g (List.mem_cons_self ..)).trans hW) gs v).trans hy, y0, ?_⟩
    have hx := hs.exc v
    rw [hv, mul_one] at hx
    refine y1.trans ((congrArg (fun z => _ * z) hx).trans ?_)
    rw [← mul_assoc, ← Complex.ofReal_mul, ← Real.exp_add]
    congr 3
    unfold duration
    rw [List.map_cons, List.sum_cons, hp]
    ring

theorem evaluate_two (props : String → Option (Matrix (Fin 2 × Fin 2) (Fin 2 × Fin 2) ℂ)) (s1 s2 : List String)
    (v y1 y2 : Fin 2 × Fin 2 → ℂ) (h1 : runSeq props s1 v = some y1) (h2 : runSeq props s2 v = some y2) :
    evaluateOpen props [s1, s2] v = some [popsOpen y1, popsOpen y2] := by
  unfold evaluateOpen
  rw [List.mapM_cons, List.mapM_cons, List.mapM_nil, h1, h2]
  rfl

/-! ## C239 -/

/-- **C239**: while the qubit waits, for any sequence of silent gates and whatever the frame, its excited population goes
exponentially to that of a thermal state at half the temperature, with the rate of the relaxation times one plus the square
of the Boltzmann factor. -/
theorem C239_law (c : Chip [2]) (e : Fin 2 → ℝ) (k : Kind) (t1 T freq : ℝ) (h1 : 0 < t1) (hT : T ≠ 0)
    (ps : List (String × Pulse)) (t' : Exp (SOp [2])) (h : Given c e k t1 T freq ps t') (seq : List String)
    (hseq : Silent ps seq) (v : Fin 2 × Fin 2 → ℂ) (hv : v (0, 0) + v (1, 1) = 1) :
    ∃ pops : Fin 2 → ℝ, evaluateOpen (n := Fin 2) t'.propagators [seq] v = some [pops] ∧
      pops 1 = thermal freq (T / 2) +
        ((v (1, 1)).re - thermal freq (T / 2)) * Real.exp (-(relaxRate k t1 * (1 + factor freq T ^ 2) * duration ps seq)) ∧
      pops 0 = 1 - pops 1 := by
  obtain ⟨y, hy, y0, y1⟩ := run_waits c e k t1 T freq h1 hT ps t' h t'.propagators seq hseq (fun _ _ => rfl) v hv
  refine ⟨popsOpen y, evaluate_one t'.propagators seq v y hy, ?_, ?_⟩
  · change (y (1, 1)).re = _
    have := congrArg Complex.re y1
    rw [Complex.re_ofReal_mul, Complex.sub_re, Complex.sub_re, Complex.ofReal_re] at this
    linarith
  · change (y (0, 0)).re = 1 - (y (1, 1)).re
    have := congrArg Complex.re y0
    rw [Complex.add_re, Complex.one_re] at this
    linarith

theorem factor_pos (f T : ℝ) : 0 < factor f T := Real.exp_pos _

/-- The thermal population grows with the temperature. -/
theorem thermal_half (f T : ℝ) (hf : 0 < f) (hT : 0 < T) : thermal f (T / 2) < thermal f T := by
  have h : factor f (T / 2) < factor f T := by
    unfold factor
    rw [Real.exp_lt_exp, neg_div, neg_div, neg_lt_neg_iff]
    exact div_lt_div_of_pos_left (mul_pos hBar_pos hf) (mul_pos kB_pos (by linarith))
      (mul_lt_mul_of_pos_left (by linarith) kB_pos)
  unfold thermal
  have a := factor_pos f T
  have b := factor_pos f (T / 2)
  rw [div_lt_div_iff₀ (by linarith) (by linarith)]
  nlinarith

/-- The state that `initialise` returns for a two-level qubit. -/
theorem thermal_state (e : Fin 2 → ℝ) (T : ℝ) (hT : 2 ^ (-52 : ℤ) < T) :
    ∃ v : Fin 2 × Fin 2 → ℂ, initialise (n := 1) (diagonal fun j => (e j : ℂ)) true T = some (.vec v) ∧
      v (0, 0) + v (1, 1) = 1 ∧ v (1, 1) = (thermal (e 1 - e 0) T : ℝ) := by
  have hp : ∀ j, boltzmann (n := 1) (diagonal fun j => (e j : ℂ)) T j =
      ((Real.exp (-hBar * (e j - e 0) / (T * kB)) / (1 + factor (e 1 - e 0) T) : ℝ) : ℂ) := by
    intro j
    rw [boltzmann_real _ (by
      rw [Matrix.IsHermitian, diagonal_conjTranspose]
      congr 1
      funext j
      simp)]
    simp only [diagonal_apply_eq, Complex.ofReal_re]
    rw [Fin.sum_univ_two]
    have : Real.exp (-hBar * (e 1 - e 0) / (T * kB)) = factor (e 1 - e 0) T := by
      unfold factor
      congr 1
      rw [mul_comm T kB, neg_mul]
    rw [this, sub_self, mul_zero, zero_div, Real.exp_zero]
  have hone : (1 + factor (e 1 - e 0) T) ≠ 0 := by
    have := factor_pos (e 1 - e 0) T
    positivity
  have h1 : Real.exp (-hBar * (e 1 - e 0) / (T * kB)) = factor (e 1 - e 0) T := by
    unfold factor
    congr 1
    rw [mul_comm T kB, neg_mul]
  have ha : (2 : ℝ) ^ (-52 : ℤ) < |T| := lt_of_lt_of_le hT (le_abs_self T)
  refine ⟨_, by unfold initialise; rw [if_pos ha, if_pos rfl], ?_, ?_⟩
  · change (diagonal (boltzmann (n := 1) (diagonal fun j => (e j : ℂ)) T)) 0 0 +
      (diagonal (boltzmann (n := 1) (diagonal fun j => (e j : ℂ)) T)) 1 1 = 1
    rw [diagonal_apply_eq, diagonal_apply_eq, hp, hp, h1, ← Complex.ofReal_add, ← add_div, sub_self, mul_zero, zero_div,
      Real.exp_zero, div_self hone, Complex.ofReal_one]
  · change (diagonal (boltzmann (n := 1) (diagonal fun j => (e j : ℂ)) T)) 1 1 = _
    rw [diagonal_apply_eq, hp, h1, thermal]

/-- C239 fails for the temperature that was given: a qubit that starts in the thermal state of `initialise` at its own
temperature does not stay there. While it waits it cools, and it remains warmer than at half the temperature. -/
theorem C239_false_thermal (c : Chip [2]) (e : Fin 2 → ℝ) (k : Kind) (t1 T freq : ℝ) (h1 : 0 < t1)
    (hT : 2 ^ (-52 : ℤ) < T) (hf : 0 < freq) (hgap : e 1 - e 0 = freq) (ps : List (String × Pulse)) (t' : Exp (SOp [2]))
    (h : Given c e k t1 T freq ps t') (seq : List String) (hseq : Silent ps seq) (hd : 0 < duration ps seq) :
    ∃ (v : Fin 2 × Fin 2 → ℂ) (start pops : Fin 2 → ℝ), initialise (n := 1) c.h0 true T = some (.vec v) ∧
      evaluateOpen (n := Fin 2) t'.propagators [[], seq] v = some [start, pops] ∧
      start 1 = thermal freq T ∧ thermal freq (T / 2) < pops 1 ∧ pops 1 < start 1 := by
  have hT0 : 0 < T := lt_trans (by positivity) hT
  obtain ⟨v, hv, v0, v1⟩ := thermal_state e T hT
  rw [hgap] at v1
  obtain ⟨y, hy, y0, y1⟩ := run_waits c e k t1 T freq h1 hT0.ne' ps t' h t'.propagators seq hseq (fun _ _ => rfl) v v0
  have hr : 0 < relaxRate k t1 := by cases k <;> unfold relaxRate <;> positivity
  have hlt := thermal_half freq T hf hT0
  have hex : Real.exp (-(relaxRate k t1 * (1 + factor freq T ^ 2) * duration ps seq)) < 1 := by
    rw [Real.exp_lt_one_iff, neg_lt_zero]
    positivity
  have hep := Real.exp_pos (-(relaxRate k t1 * (1 + factor freq T ^ 2) * duration ps seq))
  have hre := congrArg Complex.re y1
  rw [Complex.re_ofReal_mul, Complex.sub_re, Complex.sub_re, Complex.ofReal_re, v1, Complex.ofReal_re] at hre
  refine ⟨v, popsOpen v, popsOpen y, by rw [h.drift]; exact hv, ?_, ?_, ?_, ?_⟩
  · exact evaluate_two t'.propagators [] seq v v y rfl hy
  · change (v (1, 1)).re = _
    rw [v1, Complex.ofReal_re]
  · change _ < (y (1, 1)).re
    nlinarith
  · change (y (1, 1)).re < (v (1, 1)).re
    rw [v1, Complex.ofReal_re]
    nlinarith

/-- C239, partial since the temperature is half of the one that was given: the thermal state of `initialise` at half the
temperature of the qubit keeps its populations, however long the qubit waits. -/
theorem C239_kept_partial (c : Chip [2]) (e : Fin 2 → ℝ) (k : Kind) (t1 T freq : ℝ) (h1 : 0 < t1)
    (hT : 2 ^ (-52 : ℤ) < T / 2) (hgap : e 1 - e 0 = freq) (ps : List (String × Pulse)) (t' : Exp (SOp [2]))
    (h : Given c e k t1 T freq ps t') (seq : List String) (hseq : Silent ps seq) :
    ∃ (v : Fin 2 × Fin 2 → ℂ) (pops : Fin 2 → ℝ), initialise (n := 1) c.h0 true (T / 2) = some (.vec v) ∧
      evaluateOpen (n := Fin 2) t'.propagators [seq] v = some [pops] ∧
      pops 1 = thermal freq (T / 2) ∧ pops 0 = 1 - thermal freq (T / 2) := by
  have hT0 : 0 < T / 2 := lt_trans (by positivity) hT
  obtain ⟨v, hv, v0, v1⟩ := thermal_state e (T / 2) hT
  rw [hgap] at v1
  obtain ⟨pops, hp, p1, p0⟩ := C239_law c e k t1 T freq h1 (by linarith) ps t' h seq hseq v v0
  rw [v1, Complex.ofReal_re, sub_self, zero_mul, add_zero] at p1
  exact ⟨v, pops, by rw [h.drift]; exact hv, hp, p1, by rw [p0, p1]⟩

/-- C239: from every state of trace one, many repetitions of a wait lead to the thermal populations at half the
temperature. -/
theorem C239_limit (c : Chip [2]) (e : Fin 2 → ℝ) (k : Kind) (t1 T freq : ℝ) (h1 : 0 < t1) (hT : T ≠ 0)
    (ps : List (String × Pulse)) (t' : Exp (SOp [2])) (h : Given c e k t1 T freq ps t') (g : String)
    (hg : Silent ps [g]) (hd : 0 < duration ps [g]) (v : Fin 2 × Fin 2 → ℂ) (hv : v (0, 0) + v (1, 1) = 1) :
    ∃ pops : ℕ → Fin 2 → ℝ, (∀ n, evaluateOpen (n := Fin 2) t'.propagators [List.replicate n g] v = some [pops n]) ∧
      Filter.Tendsto (fun n => pops n 1) Filter.atTop (nhds (thermal freq (T / 2))) := by
  have hs : ∀ n, Silent ps (List.replicate n g) := fun n g' hg' => by
    rw [List.eq_of_mem_replicate hg']
    exact hg g (List.mem_singleton.2 rfl)
  choose pops h2 h3 h4 using fun n => C239_law c e k t1 T freq h1 hT ps t' h (List.replicate n g) (hs n) v hv
  refine ⟨pops, h2, ?_⟩
  have hdur : ∀ n : ℕ, duration ps (List.replicate n g) = n * duration ps [g] := by
    intro n
    unfold duration
    rw [List.map_replicate, List.sum_replicate, nsmul_eq_mul]
    simp
  have hr : 0 < relaxRate k t1 := by cases k <;> unfold relaxRate <;> positivity
  have hex : ∀ n : ℕ, Real.exp (-(relaxRate k t1 * (1 + factor freq T ^ 2) * duration ps (List.replicate n g))) =
      Real.exp (-(relaxRate k t1 * (1 + factor freq T ^ 2) * duration ps [g])) ^ n := by
    intro n
    rw [hdur, ← Real.exp_nat_mul]
    congr 1
    ring
  have hlim := tendsto_pow_atTop_nhds_zero_of_lt_one
    (Real.exp_pos (-(relaxRate k t1 * (1 + factor freq T ^ 2) * duration ps [g]))).le
    (by rw [Real.exp_lt_one_iff, neg_lt_zero]; positivity)
  have := (hlim.const_mul ((v (1, 1)).re - thermal freq (T / 2))).const_add (thermal freq (T / 2))
  rw [mul_zero, add_zero] at this
  refine this.congr fun n => ?_
  rw [h3 n, hex]

/-- C239: what the relaxation sequence shows at a temperature: the excited population goes from one to the thermal one at
half the temperature with the time `T1 / (1 + b²)` for a qubit, and twice that for a transmon. -/
theorem C239_sequence (c : Chip [2]) (e : Fin 2 → ℝ) (k : Kind) (t1 T freq : ℝ) (h1 : 0 < t1) (hT : T ≠ 0)
    (ps : List (String × Pulse)) (t' : Exp (SOp [2])) (h : Given c e k t1 T freq ps t') (hs : Silent ps ["Id"])
    (target : ℕ) (props : String → Option (SOp [2])) (hp : Turns props target) (hw : props "Id" = t'.propagators "Id")
    (n : ℕ) :
    ∃ pops : Fin 2 → ℝ, evaluateOpen (n := Fin 2) props [t1Sequence n target] ground = some [pops] ∧
      pops 1 = thermal freq (T / 2) + (1 - thermal freq (T / 2)) *
        Real.exp (-(relaxRate k t1 * (1 + factor freq T ^ 2) * (n * duration ps ["Id"]))) ∧
      pops 0 = 1 - pops 1 := by
  have e0 : t1Sequence n target = onTarget "rx90p" target :: onTarget "rx90p" target :: List.replicate n "Id" := by
    simp [t1Sequence, List.replicate]
  obtain ⟨a1, a2, a3, a4⟩ := first_turn
  obtain ⟨b1, b2, b3, b4⟩ := plus_entries (tfSuper x90p *ᵥ ground)
  rw [a1, a2, a3, a4] at b1 b2
  have hI : (tfSuper x90p *ᵥ (tfSuper x90p *ᵥ ground)) (1, 1) = 1 := by
    rw [b2]
    ring_nf
    rw [Complex.I_sq]
    ring
  have h0 : (tfSuper x90p *ᵥ (tfSuper x90p *ᵥ ground)) (0, 0) + (tfSuper x90p *ᵥ (tfSuper x90p *ᵥ ground)) (1, 1) = 1 := by
    rw [b1, b2]
    ring_nf
  obtain ⟨y, hy, y0, y1⟩ := run_waits c e k t1 T freq h1 hT ps t' h props (List.replicate n "Id")
    (fun g hg => by rw [List.eq_of_mem_replicate hg]; exact hs "Id" (List.mem_singleton.2 rfl))
    (fun g hg => by rw [List.eq_of_mem_replicate hg]; exact hw) _ h0
  have hrun : runSeq props (t1Sequence n target) ground = some y := by
    rw [e0]
    exact (run_one props _ _ hp.plus _ _).trans ((run_one props _ _ hp.plus _ _).trans hy)
  have hdur : duration ps (List.replicate n "Id") = n * duration ps ["Id"] := by
    unfold duration
    rw [List.map_replicate, List.sum_replicate, nsmul_eq_mul]
    simp
  rw [hI, hdur] at y1
  refine ⟨popsOpen y, evaluate_one props _ _ y hrun, ?_, ?_⟩
  · change (y (1, 1)).re = _
    have := congrArg Complex.re y1
    rw [Complex.re_ofReal_mul, Complex.sub_re, Complex.sub_re, Complex.ofReal_re, Complex.one_re] at this
    linarith
  · change (y (0, 0)).re = 1 - (y (1, 1)).re
    have := congrArg Complex.re y0
    rw [Complex.add_re, Complex.one_re] at this
    linarith

/-- C239 fails for the decay time: in the relaxation sequence at a temperature the distance from the stationary population
decays faster than with the relaxation time that was given for the qubit. -/
theorem C239_false_time (c : Chip [2]) (e : Fin 2 → ℝ) (t1 T freq : ℝ) (h1 : 0 < t1) (hT : T ≠ 0)
    (ps : List (String × Pulse)) (t' : Exp (SOp [2])) (h : Given c e .qubit t1 T freq ps t') (hs : Silent ps ["Id"])
    (hd : 0 < duration ps ["Id"]) (target : ℕ) (props : String → Option (SOp [2])) (hp : Turns props target)
    (hw : props "Id" = t'.propagators "Id") (n : ℕ) (hn : 0 < n) :
    ∃ pops : Fin 2 → ℝ, evaluateOpen (n := Fin 2) props [t1Sequence n target] ground = some [pops] ∧
      pops 1 - thermal freq (T / 2) < (1 - thermal freq (T / 2)) * Real.exp (-(n * duration ps ["Id"]) / t1) := by
  obtain ⟨pops, k1, k2, -⟩ := C239_sequence c e .qubit t1 T freq h1 hT ps t' h hs target props hp hw n
  refine ⟨pops, k1, ?_⟩
  have hb : 0 < factor freq T ^ 2 := by have := factor_pos freq T; positivity
  have ht : 0 < n * duration ps ["Id"] := by positivity
  have hlt : Real.exp (-(relaxRate .qubit t1 * (1 + factor freq T ^ 2) * (n * duration ps ["Id"]))) <
      Real.exp (-(n * duration ps ["Id"]) / t1) := by
    rw [Real.exp_lt_exp, neg_div, neg_lt_neg_iff]
    unfold relaxRate
    have : 0 < factor freq T ^ 2 * (n * duration ps ["Id"] / t1) := by positivity
    calc n * duration ps ["Id"] / t1 < n * duration ps ["Id"] / t1 + factor freq T ^ 2 * (n * duration ps ["Id"] / t1) := by
          linarith
      _ = _ := by ring
  have hP : 0 < 1 - thermal freq (T / 2) := by
    have := factor_pos freq (T / 2)
    unfold thermal
    rw [sub_pos, div_lt_one (by linarith)]
    linarith
  rw [k2, add_sub_cancel_left]
  exact mul_lt_mul_of_pos_left hlt hP

/-! ## Example -/

/-- A two-level qubit with frequency `ω`, a relaxation time and a temperature. -/
def warmChip (ω : ℝ) (k : Kind) (t1 T : ℝ) (fr : Bool) : Chip [2] :=
  { Resonant.chipOf [2] (fun _ => ω) (fun _ => 0) (fun _ => "q") (fun _ => "d") (fun _ => some 0) 1 with
    cols := (getLindbladian k ⟨some t1, some T, none, ω, 0⟩ [2] 0).toList, useFR := fr }

/-- C239: such chips and experiments exist: every two-level qubit with a relaxation time and a temperature. -/
theorem C239_setup (ω ω' L : ℝ) (hL : 0 ≤ L) (N : ℕ) (hN : 0 < N) (k : Kind) (t1 T : ℝ) (hT : T ≠ 0) (fr : Bool)
    (g : String) :
    ∃ t', Given (warmChip ω k t1 T fr) ![0, ω] k t1 T ω [(g, waitPulse ω' L N)] t' ∧
      Silent [(g, waitPulse ω' L N)] [g] ∧ duration [(g, waitPulse ω' L N)] [g] = L := by
  have hw : (warmChip ω k t1 T fr).WF := by
    refine ⟨?_, ?_, le_rfl⟩
    · intro l hl
      obtain ⟨k, hk, rfl⟩ := List.mem_map.1 hl
      intro i hi
      rw [List.mem_singleton.1 hi]
      exact List.mem_range.1 hk
    · intro l q h
      cases h
      decide
  have hlook : List.lookup g [(g, waitPulse ω' L N)] = some (waitPulse ω' L N) := by simp
  obtain ⟨V, h⟩ := C199_computed (warmChip ω k t1 T fr) hw [(g, waitPulse ω' L N)] g (waitPulse ω' L N) hlook
    (by
      intro h0
      have := congrArg List.length h0
      simp [waitPulse] at this
      omega) (by simp [waitPulse])
    (fun l _ => ⟨⟨0, rfl⟩, 0, by simp, rfl⟩)
  obtain ⟨S, h1, -⟩ := C225_gates (warmChip ω k t1 T fr) hw [(g, waitPulse ω' L N)] g (by
    intro p hp
    rw [hlook] at hp
    cases hp
    exact div_nonneg hL (Nat.cast_nonneg N)) V h
  let t : Exp (SOp [2]) := ⟨none, .name "pwc", none, none, false, fun _ => none⟩
  obtain ⟨table, t', ht⟩ := (C68_succeeds_iff (opened (warmChip ω k t1 T fr) [(g, waitPulse ω' L N)])
    (opened_wf _ _) t rfl).2 (by
    intro g' hg
    have : g' = g := by simpa [t, opened] using hg
    rw [this]
    exact ⟨S, h1⟩)
  refine ⟨t', ⟨hw, ?_, ⟨fun _ => k, fun _ => ⟨some t1, some T, none, ω, 0⟩, 0, ?_, rfl, rfl⟩, t, rfl, rfl, table, ht⟩,
    ?_, ?_⟩
  · refine (Resonant.h0_eq [2] (fun _ => ω) (fun _ => 0) (fun _ => "q") (fun _ => "d") (fun _ => some 0) 1).trans ?_
    change @Eq (Matrix (Fin 2) (Fin 2) ℂ) _ _
    refine congrArg diagonal (funext fun j => ?_)
    exact congrArg (fun r : ℝ => (r : ℂ)) (energy_two ω j)
  · unfold FromComponents
    have hr : List.range [2].length = [0] := rfl
    rw [hr, List.mapM_cons, List.mapM_nil]
    have hc : (warmChip ω k t1 T fr).cols = (getLindbladian k ⟨some t1, some T, none, ω, 0⟩ [2] 0).toList := rfl
    rw [hc, collapse_warm _ _ _ _ _ hT]
    rfl
  · intro g' hg'
    rw [List.mem_singleton.1 hg']
    refine ⟨_, hlook, fun row hr x hx => ?_⟩
    rw [List.eq_of_mem_replicate hr] at hx
    simp at hx
  · unfold duration
    rw [List.map_cons, hlook]
    have : (N : ℝ) ≠ 0 := by positivity
    simp [waitPulse]
    field_simp

/-- A qubit at 5 GHz and 50 mK whose relaxation time is 20 µs cools during a wait of 1 µs. -/
example : ∃ (t' : Exp (SOp [2])) (v : Fin 2 × Fin 2 → ℂ) (start pops : Fin 2 → ℝ),
    initialise (n := 1) (warmChip (2 * Real.pi * 5e9) .qubit 20e-6 50e-3 true).h0 true 50e-3 = some (.vec v) ∧
    evaluateOpen (n := Fin 2) t'.propagators [[], ["Id"]] v = some [start, pops] ∧ pops 1 < start 1 := by
  obtain ⟨t', h1, h2, h3⟩ := C239_setup (2 * Real.pi * 5e9) (2 * Real.pi * 5e9) 1e-6 (by norm_num) 4 (by norm_num) .qubit
    20e-6 50e-3 (by norm_num) true "Id"
  have hπ := Real.pi_pos
  obtain ⟨v, start, pops, a, b, -, -, d⟩ := C239_false_thermal _ _ _ _ _ _ (by norm_num) (by norm_num) (by positivity)
    (by simp) _ t' h1 ["Id"] h2 (by rw [h3]; norm_num)
  exact ⟨t', v, start, pops, a, b, d⟩

end C3.Experiment.Warm
