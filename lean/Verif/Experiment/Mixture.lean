import Verif.Experiment.WeakNoise
import Verif.Experiment.Waiting

/-!
# C266: mixed initial states show mixed populations

The whole chain of C199 for an initial state that is prepared at random. The populations after any sequence of gates are the
averages of those of the states that may have been prepared. Without decoherence they are the averages over runs of the
closed system, started in the basis states with the initial populations as probabilities.
-/

set_option linter.unusedSectionVars false

noncomputable section

namespace C3.Experiment.Mixture

open Matrix Finset C3.Propagation C3.Hilbert C3.Experiment C3.Experiment.Compute C3.Experiment.EndToEnd

/-! ## Specification -/

section
variable {n : Type} [Fintype n] [DecidableEq n] {κ : Type} [Fintype κ]

/-- The state that is `rho k` with probability `w k`. -/
def mixed (w : κ → ℝ) (rho : κ → Matrix n n ℂ) : Matrix n n ℂ := ∑ k, (w k : ℂ) • rho k

/-- The probabilities of outcomes if the distribution is `p k` with probability `w k`. -/
def average (w : κ → ℝ) (p : κ → n → ℝ) : n → ℝ := fun i => ∑ k, w k * p k i

/-- The state with populations `w` and without coherences. -/
def incoherent (w : n → ℝ) : Matrix n n ℂ := Matrix.diagonal fun k => (w k : ℂ)

/-! ## Lemmas -/

theorem pops_mixed (S : Matrix (n × n) (n × n) ℂ) (w : κ → ℝ) (rho : κ → Matrix n n ℂ) :
    popsOpen (S *ᵥ dmToVec (mixed w rho)) = average w fun k => popsOpen (S *ᵥ dmToVec (rho k)) := by
  have e : dmToVec (mixed w rho) = ∑ k, (w k : ℂ) • dmToVec (rho k) := by
    funext p
    simp [dmToVec, mixed, Matrix.sum_apply]
  funext i
  have e2 : S *ᵥ dmToVec (mixed w rho) = ∑ k, (w k : ℂ) • (S *ᵥ dmToVec (rho k)) := by
    rw [e, ← Matrix.mulVecLin_apply, map_sum]
    simp
  rw [e2]
  simp [popsOpen, vecToDm, average, Finset.sum_apply]

theorem incoherent_mixed (w : n → ℝ) : incoherent w = mixed w fun k => vecMulVec (Pi.single k 1) (Pi.single k 1) := by
  ext i j
  unfold mixed incoherent
  rw [Matrix.sum_apply]
  simp only [Matrix.smul_apply, vecMulVec_apply, Pi.single_apply, smul_eq_mul, diagonal_apply]
  by_cases h : i = j
  · subst h
    simp
  · rw [if_neg h, sum_eq_zero]
    intro k _
    by_cases hk : i = k
    · rw [if_neg (c := j = k) fun e => h (hk.trans e.symm)]
      simp
    · simp [hk]

theorem pops_super (U : Matrix n n ℂ) (psi : n → ℂ) :
    popsOpen (tfSuper U *ᵥ dmToVec (vecMulVec (star psi) psi)) = popsClosed (U *ᵥ psi) := by
  have e : dmToVec (vecMulVec (star psi) psi) = rowVec (vecMulVec psi (star psi)) := by
    funext p
    simp [dmToVec, rowVec, vecMulVec_apply, mul_comm]
  rw [e, C26_super_row]
  funext i
  simp only [popsOpen, popsClosed, vecToDm, rowVec, transpose_apply, of_apply]
  rw [mul_vecMulVec, vecMulVec_mul, ← star_mulVec, vecMulVec_apply, Pi.star_apply, RCLike.star_def, Complex.mul_conj']
  norm_cast

theorem super_one : tfSuper (1 : Matrix n n ℂ) = 1 := by
  unfold tfSuper spre spost
  simp

theorem super_mul (A B : Matrix n n ℂ) : tfSuper (A * B) = tfSuper A * tfSuper B := by
  apply Matrix.ext_of_mulVec_single
  intro p
  rw [← rowVec_unRow (Pi.single p 1), C26_super_row, ← Matrix.mulVec_mulVec, C26_super_row, C26_super_row,
    conjTranspose_mul]
  simp only [Matrix.mul_assoc]

theorem run_super (props : String → Option (Matrix n n ℂ)) (sprops : String → Option (Matrix (n × n) (n × n) ℂ))
    (s : List String) (h : ∀ g ∈ s, ∃ U, props g = some U ∧ sprops g = some (tfSuper U)) :
    ∃ U, (∀ psi, runSeq props s psi = some (U *ᵥ psi)) ∧ ∀ v, runSeq sprops s v = some (tfSuper U *ᵥ v) := by
  induction s with
  | nil => exact ⟨1, fun psi => by simp [runSeq], fun v => by simp [runSeq, super_one]⟩
  | cons g s ih =>
    obtain ⟨U, hU, hS⟩ := h g List.mem_cons_self
    obtain ⟨V, h1, h2⟩ := ih fun g hg => h g (List.mem_cons_of_mem _ hg)
    refine ⟨V * U, fun psi => ?_, fun v => ?_⟩
    · simp only [runSeq, hU]
      rw [h1, Matrix.mulVec_mulVec]
    · simp only [runSeq, hS]
      rw [h2, Matrix.mulVec_mulVec, super_mul]

theorem evaluate_closed_all (props : String → Option (Matrix n n ℂ)) (seqs : List (List String)) (psi : n → ℂ)
    (f : List String → n → ℂ) (h : ∀ s ∈ seqs, runSeq props s psi = some (f s)) :
    evaluateClosed props seqs psi = some (seqs.map fun s => popsClosed (f s)) := by
  unfold evaluateClosed
  induction seqs with
  | nil => rfl
  | cons s l ih =>
    rw [List.mapM_cons, h s List.mem_cons_self, ih fun s hs => h s (List.mem_cons_of_mem _ hs)]
    rfl

/-- C266: whatever the propagators, the populations of a mixed initial state are the averages of the populations of the
states it is mixed from. -/
theorem C266_mixed (props : String → Option (Matrix (n × n) (n × n) ℂ)) (seqs : List (List String))
    (ha : Available props seqs) (w : κ → ℝ) (rho : κ → Matrix n n ℂ) :
    ∃ p : κ → List String → n → ℝ, (∀ k, evaluateOpen props seqs (dmToVec (rho k)) = some (seqs.map (p k))) ∧
      evaluateOpen props seqs (dmToVec (mixed w rho)) = some (seqs.map fun s => average w fun k => p k s) := by
  refine ⟨fun k s => popsOpen (C3.Fold.seqProp (fun g => (props g).getD 1) s *ᵥ dmToVec (rho k)), fun k => ?_, ?_⟩
  · exact Waiting.evaluate_all _ seqs _ _ fun q hq => runSeq_eq _ q _ (ha q hq)
  · rw [Waiting.evaluate_all _ seqs _ _ fun q hq => runSeq_eq _ q _ (ha q hq)]
    simp only [pops_mixed]

end

/-! ## Experiments -/

variable {dims : List ℕ}

/-- The gates of two experiments on the same chip without decoherence, one with state vectors and one with density
matrices. -/
theorem gates (c : Chip dims) (hc : c.WF) (hcols : c.cols = []) (ps : List (String × Pulse))
    (hdt : ∀ g p, ps.lookup g = some p → 0 ≤ p.dt) (s : Exp (Op dims)) (hm : s.propMethod = none)
    (hp : ∀ g, s.propagators g = none) (es : List (Event (Op dims))) (he : ∀ e ∈ es, e.w = closed c ps)
    (s' : Exp (SOp dims)) (hm' : s'.propMethod = none) (hp' : ∀ g, s'.propagators g = none)
    (es' : List (Event (SOp dims))) (he' : ∀ e ∈ es', e.w = opened c ps) (g : String) (U : Op dims) (S : SOp dims)
    (hU : (runEvents s es).propagators g = some U) (hS : (runEvents s' es').propagators g = some S) : S = tfSuper U := by
  obtain ⟨pre, e, post, rfl, -, -, h1, -⟩ := (C68_history s hm hp es (fun e h => by rw [he e h]; exact closed_wf c ps) g U).1 hU
  obtain ⟨pre', e', post', rfl, -, -, h2, -⟩ :=
    (C68_history s' hm' hp' es' (fun e h => by rw [he' e h]; exact opened_wf c ps) g S).1 hS
  rw [he e (by simp)] at h1
  rw [he' e' (by simp)] at h2
  have h3 := WeakNoise.C225_none c hc ps g (hdt g) hcols U h1
  rw [h2] at h3
  exact Except.ok.inj h3

/-- C266: without collapse operators the open system started in a mixture of state vectors shows the averages of the
populations of the closed system started in each of them. The density vector is that of the transposed density matrix. -/
theorem C266_ensemble {κ : Type} [Fintype κ] (c : Chip dims) (hc : c.WF) (hcols : c.cols = []) (ps : List (String × Pulse))
    (hdt : ∀ g p, ps.lookup g = some p → 0 ≤ p.dt) (s : Exp (Op dims)) (hm : s.propMethod = none)
    (hp : ∀ g, s.propagators g = none) (es : List (Event (Op dims))) (he : ∀ e ∈ es, e.w = closed c ps)
    (s' : Exp (SOp dims)) (hm' : s'.propMethod = none) (hp' : ∀ g, s'.propagators g = none)
    (es' : List (Event (SOp dims))) (he' : ∀ e ∈ es', e.w = opened c ps) (seqs : List (List String))
    (ha : Available (runEvents s es).propagators seqs) (ha' : Available (runEvents s' es').propagators seqs)
    (w : κ → ℝ) (psi : κ → Fin dims.prod → ℂ) :
    ∃ p : κ → List String → Fin dims.prod → ℝ,
      (∀ k, evaluateClosed (runEvents s es).propagators seqs (psi k) = some (seqs.map (p k))) ∧
      evaluateOpen (runEvents s' es').propagators seqs (dmToVec (mixed w fun k => vecMulVec (psi k) (star (psi k)))ᵀ) =
        some (seqs.map fun q => average w fun k => p k q) := by
  have hr : ∀ q ∈ seqs, ∃ U, (∀ psi, runSeq (runEvents s es).propagators q psi = some (U *ᵥ psi)) ∧
      ∀ v, runSeq (runEvents s' es').propagators q v = some (tfSuper U *ᵥ v) := fun q hq =>
    run_super _ _ q fun g hg => by
      obtain ⟨U, hU⟩ := ha q hq g hg
      obtain ⟨S, hS⟩ := ha' q hq g hg
      refine ⟨U, hU, ?_⟩
      rw [hS, gates c hc hcols ps hdt s hm hp es he s' hm' hp' es' he' g U S hU hS]
  choose! U h1 h2 using hr
  have ht : (mixed w fun k => vecMulVec (psi k) (star (psi k)))ᵀ = mixed w fun k => vecMulVec (star (psi k)) (psi k) := by
    unfold mixed
    rw [transpose_sum]
    refine sum_congr rfl fun k _ => ?_
    rw [transpose_smul, transpose_vecMulVec]
  refine ⟨fun k q => popsClosed (U q *ᵥ psi k), fun k => ?_, ?_⟩
  · exact evaluate_closed_all _ seqs _ (fun q => U q *ᵥ psi k) fun q hq => h1 q hq _
  · rw [ht, Waiting.evaluate_all _ seqs _ (fun q => tfSuper (U q) *ᵥ _) fun q hq => h2 q hq _]
    simp only [pops_mixed, pops_super]

/-- C266: without collapse operators the open system started without coherences, for example in a thermal state, shows the
averages of the populations of the closed system started in the basis states. -/
theorem C266_incoherent (c : Chip dims) (hc : c.WF) (hcols : c.cols = []) (ps : List (String × Pulse))
    (hdt : ∀ g p, ps.lookup g = some p → 0 ≤ p.dt) (s : Exp (Op dims)) (hm : s.propMethod = none)
    (hp : ∀ g, s.propagators g = none) (es : List (Event (Op dims))) (he : ∀ e ∈ es, e.w = closed c ps)
    (s' : Exp (SOp dims)) (hm' : s'.propMethod = none) (hp' : ∀ g, s'.propagators g = none)
    (es' : List (Event (SOp dims))) (he' : ∀ e ∈ es', e.w = opened c ps) (seqs : List (List String))
    (ha : Available (runEvents s es).propagators seqs) (ha' : Available (runEvents s' es').propagators seqs)
    (w : Fin dims.prod → ℝ) :
    ∃ p : Fin dims.prod → List String → Fin dims.prod → ℝ,
      (∀ k, evaluateClosed (runEvents s es).propagators seqs (Pi.single k 1) = some (seqs.map (p k))) ∧
      evaluateOpen (runEvents s' es').propagators seqs (dmToVec (incoherent w)) =
        some (seqs.map fun q => average w fun k => p k q) := by
  obtain ⟨p, h1, h2⟩ := C266_ensemble c hc hcols ps hdt s hm hp es he s' hm' hp' es' he' seqs ha ha' w fun k => Pi.single k 1
  refine ⟨p, h1, ?_⟩
  rw [← h2]
  congr 2
  have : (incoherent w)ᵀ = incoherent w := diagonal_transpose _
  rw [← this, incoherent_mixed]
  congr 2
  funext k
  rw [← Pi.single_star, star_one]

/-! ## Examples -/

/-- A mixture of two states of a qubit. -/
example : incoherent (![1 / 4, 3 / 4] : Fin 2 → ℝ) = !![1 / 4, 0; 0, 3 / 4] := by
  ext i j
  fin_cases i <;> fin_cases j <;> simp [incoherent]

/-- The average of two certain outcomes is uncertain. -/
example : average (![1 / 4, 3 / 4] : Fin 2 → ℝ) (fun k => Pi.single k 1) 1 = 3 / 4 := by
  simp [average, Fin.sum_univ_two]

/-- A flip exchanges the populations of an incoherent state, as it exchanges the basis states. -/
example : evaluateOpen (fun _ => some (tfSuper !![0, 1; 1, 0])) [["x"]] (dmToVec (incoherent (![1 / 4, 3 / 4] : Fin 2 → ℝ))) =
    some [![3 / 4, 1 / 4]] := by
  have e : dmToVec (incoherent (![1 / 4, 3 / 4] : Fin 2 → ℝ)) = rowVec !![1 / 4, 0; 0, 3 / 4] := by
    funext p
    obtain ⟨i, j⟩ := p
    fin_cases i <;> fin_cases j <;> simp [incoherent, dmToVec, rowVec]
  have h : runSeq (fun _ => some (tfSuper (!![0, 1; 1, 0] : Matrix (Fin 2) (Fin 2) ℂ))) ["x"]
      (dmToVec (incoherent (![1 / 4, 3 / 4] : Fin 2 → ℝ))) = some (rowVec !![3 / 4, 0; 0, 1 / 4]) := by
    rw [e]
    simp only [runSeq]
    rw [C26_super_row]
    congr 2
    ext i j
    fin_cases i <;> fin_cases j <;> simp [Matrix.mul_apply, Fin.sum_univ_two, conjTranspose_apply]
  rw [Waiting.evaluate_all _ [["x"]] _ (fun _ => rowVec !![3 / 4, 0; 0, 1 / 4]) fun q hq => by
    rw [List.mem_singleton.1 hq]
    exact h]
  simp only [List.map_cons, List.map_nil]
  congr 2
  funext i
  fin_cases i <;> norm_num [popsOpen, vecToDm, rowVec]

/-- Both experiments exist: a driven qubit without decoherence, with state vectors and with density matrices. -/
example : exChip.WF ∧ ∃ V, physical (closed { exChip with cols := [] } [("rx", ⟨["d"], [[1], [2]], 1, [("d", 5)], fun _ => some 0, 2⟩)])
      (.name "pwc") "rx" = .ok V ∧
    physical (opened { exChip with cols := [] } [("rx", ⟨["d"], [[1], [2]], 1, [("d", 5)], fun _ => some 0, 2⟩)])
      (.name "pwc") "rx" = .ok (tfSuper V) := by
  have hw : ({ exChip with cols := [] } : Chip [2]).WF := ⟨exChip_wf.lines, exChip_wf.target, exChip_wf.batch⟩
  obtain ⟨V, h⟩ := C199_computed { exChip with cols := [] } hw
    [("rx", ⟨["d"], [[1], [2]], 1, [("d", 5)], fun _ => some 0, 2⟩)] "rx" _ rfl (by simp)
    (by
      intro k hk
      rw [List.mem_singleton.1 hk]
      exact ⟨_, rfl⟩)
    (fun l _ => ⟨⟨0, rfl⟩, 0, by simp, rfl⟩)
  exact ⟨exChip_wf, V, h, WeakNoise.C225_none _ hw _ "rx" (by
    intro p hp
    cases hp
    norm_num) rfl V h⟩

end C3.Experiment.Mixture
