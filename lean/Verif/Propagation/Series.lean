import Verif.Propagation.Trajectory
import Verif.Propagation.Unitary
import Mathlib.Analysis.SpecialFunctions.Exponential
import Mathlib.LinearAlgebra.Matrix.Notation
import Mathlib.Tactic.NoncommRing

/-!
# `pwc_trott_drift` (C139) and `tf_expm_dynamic` (C140)

c3/libraries/propagation.py:443-458, 658-684.
-/

namespace C3.Propagation

open Matrix NormedSpace

variable {n : Type*} [Fintype n] [DecidableEq n]

/-! ## C139 -/

/-- c3/libraries/propagation.py:443-458 `pwc_trott_drift` for one slice; `e`, `v` are what
`tf.linalg.eigh(h0)` returns, `ht` is the sum of the control Hamiltonians times their fields. Simplified:
`ort.T` is read as the transposed matrix (tensors have no such attribute, so the code raises here).
`tf.identity(dU0)` is a copy of `dU0`. -/
noncomputable def trottDrift (h0 : Matrix n n ℂ) (e : n → ℝ) (v ht : Matrix n n ℂ) (dt : ℝ) :
    Matrix n n ℂ :=
  let dE : n → ℂ := fun i => Complex.exp (-Complex.I * e i * dt)
  let dU0 := v * Matrix.diagonal dE * vᵀ
  let comm := h0 * ht - ht * h0
  let dcomm := -(((dt : ℂ) ^ 2 / 2) • comm)
  dU0 * exp ((dt : ℂ) • (-Complex.I) • ht) * (dU0 - dcomm)

theorem drift_exp (h0 : Matrix n n ℂ) (e : n → ℝ) (v : Matrix n n ℂ) (dt : ℝ) (hv : v * vᵀ = 1)
    (heig : h0 * v = v * Matrix.diagonal fun i => (e i : ℂ)) :
    v * Matrix.diagonal (fun i => Complex.exp (-Complex.I * e i * dt)) * vᵀ =
      exp ((dt : ℂ) • (-Complex.I) • h0) := by
  have hv' : vᵀ * v = 1 := mul_eq_one_comm.1 hv
  have hd : Matrix.diagonal (fun i => Complex.exp (-Complex.I * e i * dt)) =
      exp (Matrix.diagonal fun i => (dt : ℂ) * (-Complex.I * e i)) := by
    rw [exp_diagonal]
    congr 1
    funext i
    rw [Pi.exp_def, Complex.exp_eq_exp_ℂ]
    congr 1
    ring
  let u : (Matrix n n ℂ)ˣ := ⟨v, vᵀ, hv, hv'⟩
  have h0e : (dt : ℂ) • (-Complex.I) • h0 =
      u * (Matrix.diagonal fun i => (dt : ℂ) * (-Complex.I * e i)) * ((u⁻¹ : (Matrix n n ℂ)ˣ) : Matrix n n ℂ) := by
    have h1 : h0 = v * (Matrix.diagonal fun i => (e i : ℂ)) * vᵀ := by
      rw [← heig, Matrix.mul_assoc, hv, Matrix.mul_one]
    have h2 : (Matrix.diagonal fun i => (dt : ℂ) * (-Complex.I * e i)) =
        (dt : ℂ) • (-Complex.I) • Matrix.diagonal fun i => (e i : ℂ) := by
      ext a b
      by_cases hab : a = b
      · subst hab; simp
      · simp [hab]
    rw [h2]
    show _ = v * _ * vᵀ
    rw [Matrix.mul_smul, Matrix.mul_smul, Matrix.smul_mul, Matrix.smul_mul, ← h1]
  rw [h0e, Matrix.exp_units_conj, ← hd]
  rfl

/-- **C139 is false**: for every drift with real eigenvectors and no control fields the step applies the
drift *twice*: the last factor starts from a copy of the drift propagator instead of the identity. -/
theorem C139_false_drift (h0 : Matrix n n ℂ) (e : n → ℝ) (v : Matrix n n ℂ) (dt : ℝ)
    (hv : v * vᵀ = 1) (heig : h0 * v = v * Matrix.diagonal fun i => (e i : ℂ)) :
    trottDrift h0 e v 0 dt = exp ((dt : ℂ) • (-Complex.I) • h0) * exp ((dt : ℂ) • (-Complex.I) • h0) := by
  simp only [trottDrift, Matrix.mul_zero, Matrix.zero_mul, sub_zero, smul_zero, neg_zero,
    NormedSpace.exp_zero, Matrix.mul_one]
  rw [drift_exp h0 e v dt hv heig]

/-- C139, a concrete case: the drift `diag(0, 1)` for the time `π/2` with no fields gives `σ_z`, not
`diag(1, -i)`. -/
theorem C139_false_witness :
    trottDrift (Matrix.diagonal ![0, 1]) ![0, 1] (1 : Matrix (Fin 2) (Fin 2) ℂ) 0 (Real.pi / 2) ≠
      exp (((Real.pi / 2 : ℝ) : ℂ) • (-Complex.I) • Matrix.diagonal ![0, 1]) := by
  have heig : (Matrix.diagonal ![0, 1] : Matrix (Fin 2) (Fin 2) ℂ) * 1 =
      1 * Matrix.diagonal fun i => ((![0, 1] i : ℝ) : ℂ) := by
    rw [Matrix.mul_one, Matrix.one_mul]
    congr 1
    funext i
    fin_cases i <;> simp
  rw [C139_false_drift _ _ _ _ (by simp) heig]
  intro h
  have hu := exp_unitary (Matrix.diagonal ![0, 1] : Matrix (Fin 2) (Fin 2) ℂ) (by
    ext i j
    fin_cases i <;> fin_cases j <;> simp [conjTranspose_apply]) (Real.pi / 2)
  rw [mem_unitaryGroup_iff] at hu
  have h1 := congrArg (· * star (exp (((Real.pi / 2 : ℝ) : ℂ) • (-Complex.I) •
    (Matrix.diagonal ![0, 1] : Matrix (Fin 2) (Fin 2) ℂ)))) h
  simp only [Matrix.mul_assoc, hu, Matrix.mul_one] at h1
  rw [← drift_exp _ _ 1 _ (by simp) heig] at h1
  have h2 := congrFun (congrFun h1 1) 1
  simp at h2
  have h3 : Complex.exp (-(Complex.I * (Real.pi / 2 : ℂ))) = -Complex.I := by
    rw [show -(Complex.I * (Real.pi / 2 : ℂ)) = -(Real.pi / 2 * Complex.I) by ring, Complex.exp_neg,
      Complex.exp_pi_div_two_mul_I, Complex.inv_I]
  rw [h3] at h2
  have := congrArg Complex.im h2
  simp at this

/-- **C139**, what holds: without fields the step is the drift propagator up to one more application of
it, which can be undone with the conjugate phases. -/
theorem C139_intended_partial (h0 : Matrix n n ℂ) (e : n → ℝ) (v : Matrix n n ℂ) (dt : ℝ)
    (hv : v * vᵀ = 1) (heig : h0 * v = v * Matrix.diagonal fun i => (e i : ℂ)) :
    trottDrift h0 e v 0 dt * (v * Matrix.diagonal (fun i => Complex.exp (Complex.I * e i * dt)) * vᵀ) =
      exp ((dt : ℂ) • (-Complex.I) • h0) := by
  have hv' : vᵀ * v = 1 := mul_eq_one_comm.1 hv
  rw [C139_false_drift h0 e v dt hv heig, Matrix.mul_assoc]
  conv_lhs => rw [← drift_exp h0 e v dt hv heig]
  have : v * Matrix.diagonal (fun i => Complex.exp (-Complex.I * e i * dt)) * vᵀ *
      (v * Matrix.diagonal (fun i => Complex.exp (Complex.I * e i * dt)) * vᵀ) = 1 := by
    calc _ = v * (Matrix.diagonal (fun i => Complex.exp (-Complex.I * e i * dt)) * (vᵀ * v) *
          Matrix.diagonal (fun i => Complex.exp (Complex.I * e i * dt))) * vᵀ := by
          simp only [Matrix.mul_assoc]
      _ = 1 := by
        rw [hv', Matrix.mul_one, Matrix.diagonal_mul_diagonal]
        have : (fun i => Complex.exp (-Complex.I * e i * dt) * Complex.exp (Complex.I * e i * dt)) =
            fun _ => (1 : ℂ) := by
          funext i
          rw [← Complex.exp_add]
          ring_nf
          simp
        rw [this, Matrix.diagonal_one, Matrix.mul_one, hv]
  rw [this, Matrix.mul_one, drift_exp h0 e v dt hv heig]

/-! ## C140 -/

section Dynamic

/-- `tf.reduce_max(tf.abs(A)) > acc`. -/
def Exceeds (A : Matrix n n ℂ) (acc : ℝ) : Prop := ∃ i j, acc < ‖A i j‖

open scoped Classical in
/-- The loop c3/libraries/propagation.py:680-683, for at most `fuel` iterations; `none` if it is still
running. -/
noncomputable def dynLoop (A : Matrix n n ℂ) (acc : ℝ) :
    ℕ → ℕ → Matrix n n ℂ → Matrix n n ℂ → Option (Matrix n n ℂ)
  | 0, _, _, _ => none
  | fuel + 1, ii, p, r =>
    if Exceeds p acc then
      let p' := ((ii : ℂ)⁻¹) • (p * A)
      dynLoop A acc fuel (ii + 1) p' (r + p')
    else some r

/-- c3/libraries/propagation.py:658-684 `tf_expm_dynamic`. -/
noncomputable def tfExpmDynamic (A : Matrix n n ℂ) (acc : ℝ) (fuel : ℕ) : Option (Matrix n n ℂ) :=
  dynLoop A acc fuel 2 A (1 + A)

/-- The terms of the exponential series. -/
noncomputable def term (A : Matrix n n ℂ) (k : ℕ) : Matrix n n ℂ := ((k.factorial : ℂ)⁻¹) • A ^ k

theorem term_succ (A : Matrix n n ℂ) (k : ℕ) :
    (((k + 1 : ℕ) : ℂ)⁻¹) • (term A k * A) = term A (k + 1) := by
  rw [term, term, Matrix.smul_mul, smul_smul, ← pow_succ, Nat.factorial_succ]
  congr 1
  push_cast
  rw [mul_inv]

theorem dynLoop_spec (A : Matrix n n ℂ) (acc : ℝ) (fuel k : ℕ) (K : ℕ) (hk : k ≤ K)
    (hrun : ∀ j, k ≤ j → j < K → Exceeds (term A j) acc) (hstop : ¬ Exceeds (term A K) acc)
    (hf : K - k < fuel) :
    dynLoop A acc fuel (k + 1) (term A k) (∑ j ∈ Finset.range (k + 1), term A j) =
      some (∑ j ∈ Finset.range (K + 1), term A j) := by
  induction fuel generalizing k with
  | zero => omega
  | succ fuel ih =>
    rw [dynLoop]
    by_cases h : k = K
    · subst h
      rw [if_neg hstop]
    · rw [if_pos (hrun k le_rfl (by omega))]
      simp only [term_succ]
      rw [← Finset.sum_range_succ]
      exact ih (k + 1) (by omega) (fun j h1 h2 => hrun j (by omega) h2) (by omega)

/-- The terms tend to zero, so that some term is below every positive accuracy. -/
theorem term_small (A : Matrix n n ℂ) (acc : ℝ) (hacc : 0 < acc) : ∃ K, 1 ≤ K ∧ ¬ Exceeds (term A K) acc := by
  let _ : NormedRing (Matrix n n ℂ) := Matrix.linftyOpNormedRing
  let _ : NormedAlgebra ℂ (Matrix n n ℂ) := Matrix.linftyOpNormedAlgebra
  have hs : Summable fun k : ℕ => term A k := by
    have := NormedSpace.exp_series_hasSum_exp' (𝕂 := ℂ) A
    exact this.summable
  have ht := hs.tendsto_atTop_zero
  have hij : ∀ p : n × n, ∀ᶠ k in Filter.atTop, ‖term A k p.1 p.2‖ < acc := by
    intro p
    have h1 : Filter.Tendsto (fun k => term A k p.1 p.2) Filter.atTop (nhds 0) :=
      ((continuous_id.matrix_elem p.1 p.2).tendsto (0 : Matrix n n ℂ)).comp ht
    have h2 := h1.norm
    rw [norm_zero] at h2
    exact h2.eventually (gt_mem_nhds hacc)
  have hall := (Filter.eventually_all (ι := n × n)).2 hij
  obtain ⟨K, hK1, hK2⟩ := (hall.and (Filter.eventually_ge_atTop 1)).exists
  refine ⟨K, hK2, ?_⟩
  rintro ⟨i, j, h⟩
  exact absurd (hK1 (i, j)) (not_lt.2 h.le)

open scoped Classical in
/-- **C140**, what holds: for every matrix and every positive accuracy the loop ends, and the result is
the exponential series up to and including the first term (after the zeroth) with no entry above the
accuracy. Missing: the distance to the exponential, see the negation. -/
theorem C140_series_partial (A : Matrix n n ℂ) (acc : ℝ) (hacc : 0 < acc) :
    ∃ K, 1 ≤ K ∧ ¬ Exceeds (((K.factorial : ℂ)⁻¹) • A ^ K) acc ∧
      (∀ k, 1 ≤ k → k < K → Exceeds (((k.factorial : ℂ)⁻¹) • A ^ k) acc) ∧
      ∀ fuel, K ≤ fuel → tfExpmDynamic A acc fuel =
        some (∑ k ∈ Finset.range (K + 1), ((k.factorial : ℂ)⁻¹) • A ^ k) := by
  obtain ⟨hK1, hK2⟩ := Nat.find_spec (term_small A acc hacc)
  have hmin : ∀ k, 1 ≤ k → k < Nat.find (term_small A acc hacc) → Exceeds (term A k) acc := by
    intro k h1 h2
    by_contra h3
    exact Nat.find_min (term_small A acc hacc) h2 ⟨h1, h3⟩
  refine ⟨Nat.find (term_small A acc hacc), hK1, hK2, hmin, ?_⟩
  intro fuel hf
  have := dynLoop_spec A acc fuel 1 _ hK1 hmin hK2 (by omega)
  have e1 : term A 1 = A := by simp [term]
  have e2 : ∑ j ∈ Finset.range (1 + 1), term A j = 1 + A := by
    simp [Finset.sum_range_succ, term]
  rw [e1, e2] at this
  exact this

/-- A matrix whose square is small though it has a large entry. -/
noncomputable def lopsided : Matrix (Fin 2) (Fin 2) ℂ := !![0, 12; 1 / 6, 0]

/-- **C140 is false** for the accuracy: with `acc = 1` the loop stops after the second order, but the
entry `(0, 1)` of the result is more than 4 below that of the exponential. -/
theorem C140_false_accuracy : ∃ r, (∀ fuel, 2 ≤ fuel → tfExpmDynamic lopsided 1 fuel = some r) ∧
    4 ≤ ((exp lopsided - r) 0 1).re := by
  have hsq : lopsided ^ 2 = (2 : ℂ) • 1 := by
    rw [pow_two]
    ext i j
    fin_cases i <;> fin_cases j <;> simp [lopsided] <;> norm_num
  refine ⟨1 + lopsided + (2 : ℂ)⁻¹ • lopsided ^ 2, ?_, ?_⟩
  · intro fuel hf
    have h1 : ∀ j, 1 ≤ j → j < 2 → Exceeds (term lopsided j) 1 := by
      intro j h1 h2
      obtain rfl : j = 1 := by omega
      refine ⟨0, 1, ?_⟩
      simp [term, lopsided]
    have h2 : ¬ Exceeds (term lopsided 2) 1 := by
      rintro ⟨i, j, h⟩
      rw [term, hsq] at h
      fin_cases i <;> fin_cases j <;> simp at h <;> norm_num at h
    have := dynLoop_spec lopsided 1 fuel 1 2 (by norm_num) h1 h2 (by omega)
    have e1 : term lopsided 1 = lopsided := by simp [term]
    have e2 : ∑ j ∈ Finset.range (1 + 1), term lopsided j = 1 + lopsided := by
      simp [Finset.sum_range_succ, term]
    rw [e1, e2] at this
    unfold tfExpmDynamic
    rw [this]
    simp [Finset.sum_range_succ, term]
  · let _ : NormedRing (Matrix (Fin 2) (Fin 2) ℂ) := Matrix.linftyOpNormedRing
    let _ : NormedAlgebra ℂ (Matrix (Fin 2) (Fin 2) ℂ) := Matrix.linftyOpNormedAlgebra
    have hs : HasSum (fun k : ℕ => term lopsided k) (exp lopsided) :=
      NormedSpace.exp_series_hasSum_exp' (𝕂 := ℂ) lopsided
    have h01 : HasSum (fun k : ℕ => (term lopsided k 0 1).re) ((exp lopsided) 0 1).re := by
      let φ : Matrix (Fin 2) (Fin 2) ℂ →+ ℝ :=
        { toFun := fun M => (M 0 1).re, map_zero' := by simp, map_add' := by simp }
      exact hs.map φ (Complex.continuous_re.comp (continuous_id.matrix_elem 0 1))
    have hpos : ∀ k, 0 ≤ (term lopsided k 0 1).re := by
      intro k
      rcases Nat.even_or_odd' k with ⟨m, rfl | rfl⟩
      · simp [term, pow_mul, hsq, smul_pow]
      · have hp : (lopsided ^ (2 * m + 1)) 0 1 = ((2 ^ m * 12 : ℝ) : ℂ) := by
          rw [pow_succ, pow_mul, hsq, smul_pow, one_pow]
          simp [lopsided]
        simp only [term, Matrix.smul_apply, hp, smul_eq_mul]
        rw [show (((2 * m + 1).factorial : ℂ)⁻¹) = (((((2 * m + 1).factorial : ℝ)⁻¹ : ℝ)) : ℂ) by
          push_cast; rfl, ← Complex.ofReal_mul, Complex.ofReal_re]
        positivity
    have hle := sum_le_hasSum (Finset.range 4) (fun k _ => hpos k) h01
    have h3 : (term lopsided 3 0 1).re = 4 := by
      have : lopsided ^ 3 = (2 : ℂ) • lopsided := by
        rw [pow_succ, hsq, Matrix.smul_mul, Matrix.one_mul]
      rw [term, this]
      simp [lopsided, Nat.factorial]
      norm_num
    have h0 : (term lopsided 0 0 1).re = 0 := by simp [term]
    have h1 : (term lopsided 1 0 1).re = 12 := by simp [term, lopsided]
    have h2 : (term lopsided 2 0 1).re = 0 := by simp [term, hsq]
    simp only [Finset.sum_range_succ, Finset.sum_range_zero, h0, h1, h2, h3] at hle
    have hr : ((1 + lopsided + (2 : ℂ)⁻¹ • lopsided ^ 2 : Matrix (Fin 2) (Fin 2) ℂ) 0 1).re = 12 := by
      rw [hsq]; simp [lopsided]
    rw [Matrix.sub_apply, Complex.sub_re, hr]
    linarith

example : ∃ fuel, tfExpmDynamic (0 : Matrix (Fin 2) (Fin 2) ℂ) 1 fuel = some 1 := by
  obtain ⟨K, _, _, _, h⟩ := C140_series_partial (0 : Matrix (Fin 2) (Fin 2) ℂ) 1 one_pos
  refine ⟨K, ?_⟩
  rw [h K le_rfl, Finset.sum_range_succ']
  simp

end Dynamic

end C3.Propagation
