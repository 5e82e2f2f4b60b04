import Verif.Propagation.Positive
import Verif.Fidelity.Benchmark

/-!
# C65, C108, C109, C110: evaluating sequences, expectation values, initial states

Models c3/experiment.py:273-335 (`evaluate_legacy`, `evaluate_qasm`), 603-632 (`populations`,
`expect_oper`), c3/libraries/fidelities.py:483-511 (`populations`, `population`) and c3/model.py:63-107,
323-335 (initial state).
-/

set_option linter.unusedSectionVars false

namespace C3.Experiment

open Matrix Finset C3.Propagation
open scoped ComplexOrder

variable {n : Type*} [Fintype n] [DecidableEq n] {d : Type*} [Fintype d] [DecidableEq d]

/-! ## Model -/

/-- c3/experiment.py:297-298, the loop over the gates of a sequence; `none` is the `KeyError` of an
unknown gate. -/
def runSeq (props : String → Option (Matrix d d ℂ)) : List String → (d → ℂ) → Option (d → ℂ)
  | [], psi => some psi
  | g :: gs, psi =>
    match props g with
    | none => none
    | some U => runSeq props gs (U *ᵥ psi)

/-- c3/experiment.py:624 `populations` of a state vector. -/
noncomputable def popsClosed (psi : n → ℂ) : n → ℝ := fun i => ‖psi i‖ ^ 2

/-- c3/experiment.py:619-622 `populations` of a density vector. -/
def popsOpen (v : n × n → ℂ) : n → ℝ := fun i => (vecToDm v i i).re

/-- c3/experiment.py:273-302 `evaluate_legacy`, closed system. -/
noncomputable def evaluateClosed (props : String → Option (Matrix n n ℂ)) (seqs : List (List String))
    (psi : n → ℂ) : Option (List (n → ℝ)) :=
  seqs.mapM fun s => (runSeq props s psi).map popsClosed

/-- c3/experiment.py:273-302 `evaluate_legacy`, open system. -/
noncomputable def evaluateOpen (props : String → Option (Matrix (n × n) (n × n) ℂ))
    (seqs : List (List String)) (v : n × n → ℂ) : Option (List (n → ℝ)) :=
  seqs.mapM fun s => (runSeq props s v).map popsOpen

/-- c3/libraries/fidelities.py:483-493 `populations`; the diagonal entries `n * dim + n` are the pairs
`(i, i)`. -/
noncomputable def fidPopsOpen (v : n × n → ℂ) : n → ℝ := fun i => ‖v (i, i)‖

/-- c3/experiment.py:626-632 `expect_oper`, closed system. -/
def expectClosed (psi : n → ℂ) (oper : Matrix n n ℂ) : ℝ := (stateToDm psi * oper).trace.re

/-- c3/experiment.py:626-632 `expect_oper`, open system. -/
def expectOpen (v : n × n → ℂ) (oper : Matrix n n ℂ) : ℝ := (vecToDm v * oper).trace.re

/-! ## Specification -/

/-- A probability distribution. -/
def IsProb (p : n → ℝ) : Prop := (∀ i, 0 ≤ p i) ∧ ∑ i, p i = 1

/-! ## C65 -/

theorem runSeq_eq (props : String → Option (Matrix d d ℂ)) (s : List String) (psi : d → ℂ)
    (h : ∀ g ∈ s, ∃ U, props g = some U) :
    runSeq props s psi = some (C3.Fold.seqProp (fun g => (props g).getD 1) s *ᵥ psi) := by
  induction s generalizing psi with
  | nil => simp [runSeq, C3.Fold.seqProp, C3.Fold.timeOrdered]
  | cons g s ih =>
    obtain ⟨U, hU⟩ := h g List.mem_cons_self
    unfold runSeq
    rw [hU]
    simp only
    rw [ih _ fun g hg => h g (List.mem_cons_of_mem _ hg), show g :: s = [g] ++ s from rfl,
      C3.Fold.C21_concat]
    have ha : C3.Fold.seqProp (fun g => (props g).getD 1) [g] = U := by
      simp [C3.Fold.seqProp, C3.Fold.timeOrdered, hU]
    rw [ha, Matrix.mulVec_mulVec]

/-- C65: evaluating sequences of known unitary gates on a normalised state returns one probability
distribution per sequence: the squared moduli of the time-ordered product applied to the state. -/
theorem C65_closed (props : String → Option (Matrix n n ℂ)) (seqs : List (List String)) (psi : n → ℂ)
    (hk : ∀ s ∈ seqs, ∀ g ∈ s, ∃ U, props g = some U ∧ Uᴴ * U = 1) (hpsi : ∑ i, ‖psi i‖ ^ 2 = 1) :
    evaluateClosed props seqs psi = some (seqs.map fun s =>
        fun i => ‖(C3.Fold.seqProp (fun g => (props g).getD 1) s *ᵥ psi) i‖ ^ 2) ∧
      ∀ s ∈ seqs, IsProb fun i => ‖(C3.Fold.seqProp (fun g => (props g).getD 1) s *ᵥ psi) i‖ ^ 2 := by
  constructor
  · unfold evaluateClosed
    induction seqs with
    | nil => rfl
    | cons s ss ih =>
      rw [List.mapM_cons, ih fun s hs => hk s (List.mem_cons_of_mem _ hs), runSeq_eq props s psi
        fun g hg => (hk s List.mem_cons_self g hg).imp fun U h => h.1]
      rfl
  · intro s hs
    refine ⟨fun i => sq_nonneg _, ?_⟩
    rw [C3.Fidelity.sum_norm_mulVec _ _ psi, hpsi]
    apply C3.Fidelity.seqProp_unitary
    intro g hg
    obtain ⟨U, hU, hu⟩ := hk s hs g hg
    rw [hU]
    exact hu

/-- C65: a gate without propagator raises, wherever it stands. -/
theorem C65_unknown (props : String → Option (Matrix n n ℂ)) (seqs : List (List String)) (psi : n → ℂ)
    (s : List String) (hs : s ∈ seqs) (g : String) (hg : g ∈ s) (hu : props g = none) :
    evaluateClosed props seqs psi = none := by
  have hrun : ∀ psi, runSeq props s psi = none := by
    clear hs
    induction s with
    | nil => simp at hg
    | cons a s ih =>
      intro psi
      unfold runSeq
      cases ha : props a with
      | none => rfl
      | some U =>
        rcases List.mem_cons.1 hg with rfl | hg
        · rw [hu] at ha
          cases ha
        · exact ih hg _
  unfold evaluateClosed
  induction seqs with
  | nil => simp at hs
  | cons a ss ih =>
    rw [List.mapM_cons]
    rcases List.mem_cons.1 hs with rfl | hs
    · rw [hrun]
      rfl
    · rw [ih hs]
      cases runSeq props a psi <;> rfl

theorem popsOpen_density (rho : Matrix n n ℂ) (h : IsDensity rho) : IsProb fun i => (rho i i).re := by
  refine ⟨fun i => ?_, ?_⟩
  · have := h.1.diag_nonneg (i := i)
    exact (Complex.le_def.1 this).1
  · have := congrArg Complex.re h.2
    rw [Matrix.trace, Complex.re_sum] at this
    simpa using this

/-- C65: evaluating sequences of gates whose superoperators preserve trace and positivity (every gate
computed by the library does, see C25 and C89) on a density vector returns probability distributions. -/
theorem C65_open (props : String → Option (Matrix (n × n) (n × n) ℂ)) (seqs : List (List String))
    (rho : Matrix n n ℂ)
    (hk : ∀ s ∈ seqs, ∀ g ∈ s, ∃ S, props g = some S ∧ S ∈ tracePreserving n ∧ S ∈ positiveMaps n)
    (hrho : IsDensity rho) :
    ∃ ps, evaluateOpen props seqs (dmToVec rho) = some ps ∧ ps.length = seqs.length ∧
      ∀ p ∈ ps, IsProb p := by
  unfold evaluateOpen
  induction seqs with
  | nil => exact ⟨[], rfl, rfl, by simp⟩
  | cons s ss ih =>
    obtain ⟨ps, h1, h2, h3⟩ := ih fun s hs => hk s (List.mem_cons_of_mem _ hs)
    have hs := hk s List.mem_cons_self
    rw [List.mapM_cons, h1, runSeq_eq props s _ fun g hg => (hs g hg).imp fun S h => h.1]
    refine ⟨_, rfl, by simp [h2], ?_⟩
    intro p hp
    rcases List.mem_cons.1 hp with rfl | hp
    · have hmem : ∀ M : Submonoid (Matrix (n × n) (n × n) ℂ), (∀ g ∈ s, ∃ S, props g = some S ∧ S ∈ M) →
          C3.Fold.seqProp (fun g => (props g).getD 1) s ∈ M := by
        intro M hM
        unfold C3.Fold.seqProp
        apply timeOrdered_mem
        intro x hx
        obtain ⟨g, hg, rfl⟩ := List.mem_map.1 hx
        obtain ⟨S, hS, hm⟩ := hM g hg
        rw [hS]
        exact hm
      have htp := hmem (tracePreserving n) fun g hg => (hs g hg).imp fun S h => ⟨h.1, h.2.1⟩
      have hpo := hmem (positiveMaps n) fun g hg => (hs g hg).imp fun S h => ⟨h.1, h.2.2⟩
      rw [dmToVec_eq]
      set T := C3.Fold.seqProp (fun g => (props g).getD 1) s
      have hd : IsDensity (unRow (T *ᵥ rowVec rhoᵀ)) := by
        refine ⟨hpo _ hrho.1.transpose, ?_⟩
        have := htp (rowVec rhoᵀ)
        rw [vecTrace_rowVec, Matrix.trace_transpose, hrho.2] at this
        exact this
      have := popsOpen_density _ hd
      exact this
    · exact h3 p hp

/-- C65: for a state without coherences the open-system evaluation of unitary gates gives the populations
of the closed system, averaged over the initial states. -/
theorem C65_open_closed (U : Matrix n n ℂ) (p : n → ℝ) (i : n) :
    popsOpen (tfSuper U *ᵥ dmToVec (Matrix.diagonal fun k => (p k : ℂ))) i =
      ∑ k, p k * popsClosed (U *ᵥ Pi.single k 1) i := by
  unfold popsOpen
  rw [C26_populations_partial U _ (Matrix.diagonal_transpose _)]
  rw [Matrix.mul_apply, Complex.re_sum]
  apply sum_congr rfl
  intro k _
  rw [Matrix.mul_diagonal, Matrix.conjTranspose_apply]
  unfold popsClosed
  rw [Matrix.mulVec_single_one]
  have : U i k * (p k : ℂ) * star (U i k) = ((p k * ‖U i k‖ ^ 2 : ℝ) : ℂ) := by
    push_cast
    rw [← Complex.mul_conj' (U i k)]
    simp only [Complex.star_def]
    ring
  rw [this, Complex.ofReal_re]
  rfl

/-- C65: the two implementations of the populations agree on density vectors. -/
theorem C65_implementations (rho : Matrix n n ℂ) (h : rho.PosSemidef) :
    fidPopsOpen (dmToVec rho) = popsOpen (dmToVec rho) := by
  funext i
  unfold fidPopsOpen popsOpen
  rw [vecToDm_dmToVec]
  have h0 := h.diag_nonneg (i := i)
  have hre := (Complex.le_def.1 h0).1
  have him := (Complex.le_def.1 h0).2
  simp only [Complex.zero_re, Complex.zero_im] at hre him
  have hz : rho i i = ((rho i i).re : ℂ) := Complex.ext (by simp) (by simp [← him])
  show ‖rho i i‖ = (rho i i).re
  rw [hz, Complex.norm_real, Real.norm_eq_abs, Complex.ofReal_re, abs_of_nonneg hre]

example : IsDensity (Matrix.diagonal ![(1 : ℂ), 0]) := by
  refine ⟨?_, by simp [Matrix.trace_diagonal]⟩
  rw [Matrix.posSemidef_diagonal_iff]
  intro i
  fin_cases i <;> simp

/-! ## C108: expectation values -/

/-- C108: for real states the value is the quantum mechanical expectation value. -/
theorem C108_real_partial (psi : n → ℂ) (oper : Matrix n n ℂ) (h : ∀ i, star (psi i) = psi i) :
    expectClosed psi oper = (star psi ⬝ᵥ (oper *ᵥ psi)).re := by
  unfold expectClosed
  congr 1
  have hs : star psi = psi := funext h
  rw [hs, dotProduct_mulVec]
  unfold stateToDm
  simp only [Matrix.trace, Matrix.diag, Matrix.mul_apply, Matrix.of_apply, dotProduct, vecMul]
  apply sum_congr rfl
  intro i _
  rw [sum_mul]
  exact sum_congr rfl fun j _ => by ring

/-- C108: for open systems it is the trace with the density matrix. -/
theorem C108_open (rho oper : Matrix n n ℂ) : expectOpen (dmToVec rho) oper = (rho * oper).trace.re := rfl

/-- C108: for a complex state it is not: the identity has expectation value 0 in (|0> + i|1>)/√2. -/
theorem C108_false : ∃ psi : Fin 2 → ℂ, ∑ i, ‖psi i‖ ^ 2 = 1 ∧ expectClosed psi 1 = 0 := by
  refine ⟨![((√(1 / 2) : ℝ) : ℂ), ((√(1 / 2) : ℝ) : ℂ) * Complex.I], ?_, ?_⟩
  · have : √(1 / 2 : ℝ) ^ 2 = 1 / 2 := Real.sq_sqrt (by norm_num)
    simp only [Fin.sum_univ_two, Matrix.cons_val_zero, Matrix.cons_val_one, norm_mul, Complex.norm_I,
      Complex.norm_real, Real.norm_eq_abs, mul_one, sq_abs]
    linarith
  · unfold expectClosed stateToDm
    rw [Matrix.mul_one, Matrix.trace_fin_two]
    simp only [Matrix.of_apply, Matrix.cons_val_zero, Matrix.cons_val_one]
    have : ((√(1 / 2) : ℝ) : ℂ) * ((√(1 / 2) : ℝ) : ℂ) +
        ((√(1 / 2) : ℝ) : ℂ) * Complex.I * (((√(1 / 2) : ℝ) : ℂ) * Complex.I) = 0 := by
      linear_combination ((√(1 / 2) : ℝ) : ℂ) ^ 2 * Complex.I_mul_I
    rw [this]
    rfl

end C3.Experiment
