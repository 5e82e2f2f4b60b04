import Verif.Propagation.Exists
import Mathlib.Analysis.SpecialFunctions.Trigonometric.Deriv
import Mathlib.Analysis.Calculus.Deriv.Star
import Mathlib.MeasureTheory.Integral.IntervalIntegral.FundThmCalculus

/-!
# C209: what a drive does in the rotating frame

Drives with carriers act on a system with a diagonal drift (c3/model.py, `get_Hamiltonians` and c3/generator/devices.py,
`Mixer`, `LONoise` and `VoltsToHertz` give the amplitude on a carrier; c3/libraries/propagation.py solves for the evolution).
In the frame that rotates with the energies, only the transitions on resonance remain, up to an explicit constant over the
detuning of the others.
-/

namespace C3.Propagation.Average

open Set Converge Matrix
open scoped Matrix.Norms.L2Operator

variable {n : Type} [Fintype n] [DecidableEq n]

theorem hasDeriv_conjTranspose {U : ℝ → Matrix n n ℂ} {U' : Matrix n n ℂ} {s : Set ℝ} {t : ℝ}
    (h : HasDerivWithinAt U U' s t) : HasDerivWithinAt (fun t => (U t)ᴴ) U'ᴴ s t := by
  refine hasDeriv_of_entries _ _ _ _ fun i j => ?_
  exact (Exists.entries h j i).star

theorem norm_le_one_of_unitary {U : Matrix n n ℂ} (h : Uᴴ * U = 1) : ‖U‖ ≤ 1 := by
  have h1 : ‖U‖ * ‖U‖ ≤ 1 := by
    rw [← CStarRing.norm_star_mul_self, star_eq_conjTranspose, h]
    exact norm_one_le
  nlinarith [norm_nonneg U]

/-- Solutions of an equation with a Hermitian generator stay unitary. -/
theorem unitary_of_hermitian (K U : ℝ → Matrix n n ℂ) (T : ℝ) (hK : ∀ t ∈ Icc 0 T, (K t)ᴴ = K t) (h0 : U 0 = 1)
    (hU : ∀ t ∈ Icc 0 T, HasDerivWithinAt U ((-Complex.I) • (K t * U t)) (Icc 0 T) t) :
    ∀ t ∈ Icc 0 T, (U t)ᴴ * U t = 1 := by
  have hd : ∀ t ∈ Icc 0 T, HasDerivWithinAt (fun t => (U t)ᴴ * U t) 0 (Icc 0 T) t := by
    intro t ht
    have h := (hasDeriv_conjTranspose (hU t ht)).mul (hU t ht)
    refine h.congr_deriv ?_
    rw [conjTranspose_smul, conjTranspose_mul, hK t ht]
    simp [mul_assoc]
  intro t ht
  have := (convex_Icc (0 : ℝ) T).norm_image_sub_le_of_norm_hasDerivWithin_le (C := 0) hd (fun x _ => by simp)
    ⟨le_rfl, ht.1.trans ht.2⟩ ht
  rw [zero_mul, norm_le_zero_iff, sub_eq_zero] at this
  rw [this, h0]
  simp

/-- Two evolutions whose generators differ by `K₁`, where `K₁` is the derivative of `S` up to `Q`: their distance is
bounded by `S` and `Q`. -/
theorem averaging (K0 K1 S Q W V : ℝ → Matrix n n ℂ) (T : ℝ) (hT : 0 ≤ T) (hW0 : W 0 = 1) (hV0 : V 0 = 1)
    (hW : ∀ t ∈ Icc 0 T, HasDerivWithinAt W ((-Complex.I) • ((K0 t + K1 t) * W t)) (Icc 0 T) t)
    (hV : ∀ t ∈ Icc 0 T, HasDerivWithinAt V ((-Complex.I) • (K0 t * V t)) (Icc 0 T) t)
    (hS : ∀ t ∈ Icc 0 T, HasDerivWithinAt S (K1 t + Q t) (Icc 0 T) t)
    (hK0 : ∀ t ∈ Icc 0 T, (K0 t)ᴴ = K0 t) (hK1 : ∀ t ∈ Icc 0 T, (K1 t)ᴴ = K1 t)
    (k0 k1 s q : ℝ) (b0 : ∀ t ∈ Icc 0 T, ‖K0 t‖ ≤ k0) (b1 : ∀ t ∈ Icc 0 T, ‖K1 t‖ ≤ k1)
    (bS : ∀ t ∈ Icc 0 T, ‖S t‖ ≤ s) (bQ : ∀ t ∈ Icc 0 T, ‖Q t‖ ≤ q) :
    ‖W T - V T‖ ≤ 2 * s + T * ((2 * k0 + k1) * s + q) := by
  have uW := unitary_of_hermitian (fun t => K0 t + K1 t) W T
    (fun t ht => by rw [conjTranspose_add, hK0 t ht, hK1 t ht]) hW0 hW
  have uV := unitary_of_hermitian K0 V T hK0 hV0 hV
  have nW : ∀ t ∈ Icc 0 T, ‖W t‖ ≤ 1 := fun t ht => norm_le_one_of_unitary (uW t ht)
  have nV : ∀ t ∈ Icc 0 T, ‖V t‖ ≤ 1 := fun t ht => norm_le_one_of_unitary (uV t ht)
  have nV' : ∀ t ∈ Icc 0 T, ‖(V t)ᴴ‖ ≤ 1 := fun t ht => by
    rw [l2_opNorm_conjTranspose]
    exact nV t ht
  have m0 : (0 : ℝ) ∈ Icc 0 T := ⟨le_rfl, hT⟩
  have mT : T ∈ Icc 0 T := ⟨hT, le_rfl⟩
  have s0 : 0 ≤ s := (norm_nonneg _).trans (bS 0 m0)
  have hd : ∀ t ∈ Icc 0 T, HasDerivWithinAt (fun t => (V t)ᴴ * (1 + Complex.I • S t) * W t)
      ((V t)ᴴ * (-(K0 t * S t) + S t * (K0 t + K1 t) + Complex.I • Q t) * W t) (Icc 0 T) t := by
    intro t ht
    have h := ((hasDeriv_conjTranspose (hV t ht)).mul (((hS t ht).const_smul Complex.I).const_add 1)).mul (hW t ht)
    refine h.congr_deriv ?_
    rw [conjTranspose_smul, conjTranspose_mul, hK0 t ht]
    simp only [Pi.smul_apply, Pi.mul_apply, star_neg, Complex.star_def, Complex.conj_I, neg_neg, neg_smul,
      smul_mul_assoc, mul_smul_comm, mul_neg, smul_add, mul_add, add_mul, mul_one, mul_assoc, neg_mul,
      smul_smul]
    simp only [Complex.I_mul_I]
    module
  have hbound : ∀ t ∈ Icc 0 T, ‖(V t)ᴴ * (-(K0 t * S t) + S t * (K0 t + K1 t) + Complex.I • Q t) * W t‖ ≤
      (2 * k0 + k1) * s + q := by
    intro t ht
    have e1 : ‖K0 t * S t‖ ≤ k0 * s := (norm_mul_le _ _).trans
      (mul_le_mul (b0 t ht) (bS t ht) (norm_nonneg _) ((norm_nonneg _).trans (b0 t ht)))
    have e2 : ‖S t * (K0 t + K1 t)‖ ≤ s * (k0 + k1) := (norm_mul_le _ _).trans
      (mul_le_mul (bS t ht) ((norm_add_le _ _).trans (add_le_add (b0 t ht) (b1 t ht))) (norm_nonneg _) s0)
    have e3 : ‖Complex.I • Q t‖ ≤ q := by
      rw [norm_smul, Complex.norm_I, one_mul]
      exact bQ t ht
    have e4 : ‖-(K0 t * S t) + S t * (K0 t + K1 t) + Complex.I • Q t‖ ≤ (2 * k0 + k1) * s + q := by
      refine (norm_add_le _ _).trans ?_
      have := norm_add_le (-(K0 t * S t)) (S t * (K0 t + K1 t))
      rw [norm_neg] at this
      linarith
    have e5 := (norm_nonneg _).trans e4
    calc _ ≤ ‖(V t)ᴴ‖ * ‖-(K0 t * S t) + S t * (K0 t + K1 t) + Complex.I • Q t‖ * ‖W t‖ :=
          (norm_mul_le _ _).trans (mul_le_mul_of_nonneg_right (norm_mul_le _ _) (norm_nonneg _))
      _ ≤ 1 * ((2 * k0 + k1) * s + q) * 1 := by
          refine mul_le_mul (mul_le_mul (nV' t ht) e4 (norm_nonneg _) zero_le_one) (nW t ht) (norm_nonneg _) (by linarith)
      _ = _ := by ring
  have hdiff := (convex_Icc (0 : ℝ) T).norm_image_sub_le_of_norm_hasDerivWithin_le hd hbound m0 mT
  rw [Real.norm_eq_abs, sub_zero, abs_of_nonneg hT] at hdiff
  have hVV : V T * (V T)ᴴ = 1 := mul_eq_one_comm.1 (uV T mT)
  have e : W T - V T = V T * (((V T)ᴴ * (1 + Complex.I • S T) * W T - (V 0)ᴴ * (1 + Complex.I • S 0) * W 0) -
      (V T)ᴴ * (Complex.I • S T) * W T + Complex.I • S 0) := by
    rw [hV0, hW0]
    have : V T * ((V T)ᴴ * (1 + Complex.I • S T) * W T) - V T * ((V T)ᴴ * (Complex.I • S T) * W T) = W T := by
      rw [← mul_sub, ← sub_mul, ← mul_sub, add_sub_cancel_right, mul_one, ← mul_assoc, hVV, one_mul]
    rw [mul_add, mul_sub, mul_sub, sub_right_comm, this]
    simp only [conjTranspose_one, one_mul, mul_one, mul_add]
    abel
  rw [e]
  have f1 : ‖(V T)ᴴ * (Complex.I • S T) * W T‖ ≤ s := by
    calc _ ≤ ‖(V T)ᴴ‖ * ‖Complex.I • S T‖ * ‖W T‖ :=
          (norm_mul_le _ _).trans (mul_le_mul_of_nonneg_right (norm_mul_le _ _) (norm_nonneg _))
      _ ≤ 1 * s * 1 := by
          refine mul_le_mul (mul_le_mul (nV' T mT) ?_ (norm_nonneg _) zero_le_one) (nW T mT) (norm_nonneg _)
            (by linarith)
          rw [norm_smul, Complex.norm_I, one_mul]
          exact bS T mT
      _ = s := by ring
  have f2 : ‖Complex.I • S 0‖ ≤ s := by
    rw [norm_smul, Complex.norm_I, one_mul]
    exact bS 0 m0
  refine (norm_mul_le _ _).trans ((mul_le_of_le_one_left (norm_nonneg _) (nV T mT)).trans ?_)
  refine (norm_add_le _ _).trans ?_
  have := norm_sub_le ((V T)ᴴ * (1 + Complex.I • S T) * W T - (V 0)ᴴ * (1 + Complex.I • S 0) * W 0)
    ((V T)ᴴ * (Complex.I • S T) * W T)
  linarith

theorem norm_single_le (i j : n) : ‖(single i j (1 : ℂ) : Matrix n n ℂ)‖ ≤ 1 := by
  have h : ‖(single i j (1 : ℂ) : Matrix n n ℂ)‖ * ‖(single i j (1 : ℂ) : Matrix n n ℂ)‖ ≤ 1 := by
    rw [← CStarRing.norm_star_mul_self, star_eq_conjTranspose, conjTranspose_single, single_mul_single_same, star_one,
      one_mul, ← diagonal_single, l2_opNorm_diagonal]
    refine (pi_norm_le_iff_of_nonneg zero_le_one).2 fun k => ?_
    by_cases hk : k = j
    · subst hk
      simp
    · simp [hk]
  nlinarith [norm_nonneg (single i j (1 : ℂ) : Matrix n n ℂ)]

/-- The norm is at most the sum over the entries. -/
theorem norm_le_sum (M : Matrix n n ℂ) : ‖M‖ ≤ ∑ i, ∑ j, ‖M i j‖ := by
  have e : M = ∑ i, ∑ j, M i j • single i j (1 : ℂ) := by
    conv_lhs => rw [matrix_eq_sum_single M]
    simp [smul_single]
  conv_lhs => rw [e]
  refine (norm_sum_le _ _).trans (Finset.sum_le_sum fun i _ => (norm_sum_le _ _).trans (Finset.sum_le_sum fun j _ => ?_))
  rw [norm_smul]
  exact mul_le_of_le_one_right (norm_nonneg _) (norm_single_le i j)

/-! ## Specification -/

/-- Levels with energies `E` under drives with amplitudes `A k`, carrier frequencies `ω k` and phases `φ k`, each on an
operator `X k`. -/
noncomputable def driven {d : Type} [Fintype d] (E : n → ℝ) (A : d → ℝ → ℝ) (ω φ : d → ℝ) (X : d → Matrix n n ℂ)
    (t : ℝ) : Matrix n n ℂ :=
  diagonal (fun i => (E i : ℂ)) + ∑ k, ((A k t * Real.cos (ω k * t - φ k) : ℝ) : ℂ) • X k

open scoped Classical in
/-- The part of a drive that is on resonance: every transition whose energy is that of the carrier, at half the
amplitude and with the phase of the carrier. -/
noncomputable def resonant (E : n → ℝ) (ω φ : ℝ) (X : Matrix n n ℂ) : Matrix n n ℂ := Matrix.of fun i j =>
  X i j / 2 * ((if E i - E j = ω then Complex.exp (φ * Complex.I) else 0) +
    (if E i - E j = -ω then Complex.exp (-φ * Complex.I) else 0))

/-- The frame that rotates with the energies. -/
noncomputable def frame (E : n → ℝ) (t : ℝ) : Matrix n n ℂ := diagonal fun i => Complex.exp ((E i * t : ℝ) * Complex.I)

/-- Every transition that a drive acts on is on resonance or detuned by at least `κ`. -/
def Detuned (E : n → ℝ) (ω : ℝ) (X : Matrix n n ℂ) (κ : ℝ) : Prop :=
  ∀ i j, X i j ≠ 0 → (E i - E j = ω ∨ κ ≤ |E i - E j - ω|) ∧ (E i - E j = -ω ∨ κ ≤ |E i - E j + ω|)

/-! ## Drives in the rotating frame -/

/-- A drive in the rotating frame, with `w ν` for the oscillation at frequency `ν`. -/
noncomputable def osc (w : ℝ → ℂ) (E : n → ℝ) (ω φ : ℝ) (X : Matrix n n ℂ) : Matrix n n ℂ := Matrix.of fun i j =>
  X i j / 2 * (Complex.exp (φ * Complex.I) * w (E i - E j - ω) + Complex.exp (-φ * Complex.I) * w (E i - E j + ω))

/-- The full oscillation. -/
noncomputable def full (t ν : ℝ) : ℂ := Complex.exp ((ν * t : ℝ) * Complex.I)

open scoped Classical in
/-- Only what does not oscillate. -/
noncomputable def still (ν : ℝ) : ℂ := if ν = 0 then 1 else 0

open scoped Classical in
/-- Only what oscillates. -/
noncomputable def fast (t ν : ℝ) : ℂ := if ν = 0 then 0 else Complex.exp ((ν * t : ℝ) * Complex.I)

open scoped Classical in
/-- The integral of what oscillates. -/
noncomputable def swing (t ν : ℝ) : ℂ := if ν = 0 then 0 else Complex.exp ((ν * t : ℝ) * Complex.I) / (ν * Complex.I)

theorem full_eq (t ν : ℝ) : full t ν = still ν + fast t ν := by
  unfold full still fast
  split_ifs with h
  · simp [h]
  · simp

theorem norm_full (t ν : ℝ) : ‖full t ν‖ = 1 := Complex.norm_exp_ofReal_mul_I _

theorem norm_fast (t ν : ℝ) : ‖fast t ν‖ ≤ 1 := by
  unfold fast
  split_ifs with h
  · simp
  · exact (Complex.norm_exp_ofReal_mul_I _).le

theorem norm_still (ν : ℝ) : ‖still ν‖ ≤ 1 := by
  unfold still
  split_ifs with h <;> simp

theorem norm_swing (t ν κ : ℝ) (hκ : 0 < κ) (h : ν = 0 ∨ κ ≤ |ν|) : ‖swing t ν‖ ≤ 1 / κ := by
  unfold swing
  split_ifs with h'
  · simp only [norm_zero]
    positivity
  · have h2 := h.resolve_left h'
    rw [norm_div, Complex.norm_exp_ofReal_mul_I, norm_mul, Complex.norm_I, mul_one, Complex.norm_real, Real.norm_eq_abs]
    exact one_div_le_one_div_of_le hκ h2

theorem hasDeriv_full (t ν : ℝ) : HasDerivAt (fun t => full t ν) (ν * Complex.I * full t ν) t := by
  have h1 : HasDerivAt (fun t : ℝ => ((ν * t : ℝ) : ℂ) * Complex.I) (ν * Complex.I) t := by
    have := (((hasDerivAt_id t).const_mul ν).ofReal_comp).mul_const Complex.I
    simpa using this
  have := h1.cexp
  rw [mul_comm] at this
  exact this

theorem hasDeriv_swing (t ν : ℝ) : HasDerivAt (fun t => swing t ν) (fast t ν) t := by
  by_cases h : ν = 0
  · simp only [swing, fast, h, if_true]
    exact hasDerivAt_const _ _
  · have h2 := (hasDeriv_full t ν).div_const (ν * Complex.I)
    simp only [swing, fast, h, if_false]
    refine h2.congr_deriv ?_
    have : (ν : ℂ) ≠ 0 := by exact_mod_cast h
    rw [mul_div_right_comm, div_self (mul_ne_zero this Complex.I_ne_zero), one_mul]
    rfl

omit [Fintype n] [DecidableEq n] in
theorem osc_add (w v : ℝ → ℂ) (E : n → ℝ) (ω φ : ℝ) (X : Matrix n n ℂ) :
    osc (fun ν => w ν + v ν) E ω φ X = osc w E ω φ X + osc v E ω φ X := by
  ext i j
  simp only [osc, of_apply, Matrix.add_apply]
  ring

omit [Fintype n] [DecidableEq n] in
theorem osc_still (E : n → ℝ) (ω φ : ℝ) (X : Matrix n n ℂ) : osc still E ω φ X = resonant E ω φ X := by
  ext i j
  simp only [osc, resonant, of_apply, still, sub_eq_zero, add_eq_zero_iff_eq_neg]
  split_ifs <;> simp

omit [Fintype n] [DecidableEq n] in
theorem osc_hermitian (w : ℝ → ℂ) (hw : ∀ ν, star (w ν) = w (-ν)) (E : n → ℝ) (ω φ : ℝ) (X : Matrix n n ℂ)
    (hX : Xᴴ = X) : (osc w E ω φ X)ᴴ = osc w E ω φ X := by
  ext i j
  have h1 : star (X j i) = X i j := by
    conv_rhs => rw [← hX]
    rfl
  have h2 : ∀ x : ℂ, star (x / 2) = star x / 2 := fun x => by simp
  have h3 : star (Complex.exp (φ * Complex.I)) = Complex.exp (-φ * Complex.I) := by
    rw [Complex.star_def, ← Complex.exp_conj]
    simp
  have h4 : star (Complex.exp (-φ * Complex.I)) = Complex.exp (φ * Complex.I) := by
    rw [Complex.star_def, ← Complex.exp_conj]
    simp
  simp only [osc, conjTranspose_apply, of_apply, star_mul', star_add, h2, h1, h3, h4, hw]
  rw [show -(E j - E i - ω) = E i - E j + ω by ring, show -(E j - E i + ω) = E i - E j - ω by ring]
  ring

omit [Fintype n] [DecidableEq n] in
theorem osc_entry (w : ℝ → ℂ) (E : n → ℝ) (ω φ c : ℝ) (X : Matrix n n ℂ) (i j : n)
    (h : X i j ≠ 0 → ‖w (E i - E j - ω)‖ ≤ c ∧ ‖w (E i - E j + ω)‖ ≤ c) : ‖osc w E ω φ X i j‖ ≤ ‖X i j‖ * c := by
  by_cases h0 : X i j = 0
  · simp [osc, h0]
  · obtain ⟨h1, h2⟩ := h h0
    have e : ∀ x : ℝ, ‖Complex.exp (x * Complex.I)‖ = 1 := Complex.norm_exp_ofReal_mul_I
    have e' : ‖Complex.exp (-φ * Complex.I)‖ = 1 := by
      rw [← Complex.ofReal_neg]
      exact e _
    have h3 : ‖Complex.exp (φ * Complex.I) * w (E i - E j - ω) + Complex.exp (-φ * Complex.I) * w (E i - E j + ω)‖ ≤
        2 * c := by
      refine (norm_add_le _ _).trans ?_
      rw [norm_mul, norm_mul, e, e']
      linarith
    simp only [osc, of_apply]
    rw [norm_mul, norm_div, Complex.norm_ofNat]
    have := norm_nonneg (X i j)
    calc ‖X i j‖ / 2 * _ ≤ ‖X i j‖ / 2 * (2 * c) := mul_le_mul_of_nonneg_left h3 (by positivity)
      _ = ‖X i j‖ * c := by ring

variable {d : Type} [Fintype d]

theorem sum_osc_norm (w : ℝ → ℂ) (E : n → ℝ) (ω φ : d → ℝ) (X : d → Matrix n n ℂ) (B : d → ℝ) (a c : ℝ)
    (hB : ∀ k, |B k| ≤ a)
    (h : ∀ k i j, X k i j ≠ 0 → ‖w (E i - E j - ω k)‖ ≤ c ∧ ‖w (E i - E j + ω k)‖ ≤ c) :
    ‖∑ k, (B k : ℂ) • osc w E (ω k) (φ k) (X k)‖ ≤ a * c * ∑ k, ∑ i, ∑ j, ‖X k i j‖ := by
  refine (norm_sum_le _ _).trans ?_
  rw [Finset.mul_sum]
  refine Finset.sum_le_sum fun k _ => ?_
  rw [norm_smul, Complex.norm_real, Real.norm_eq_abs]
  have h1 : ‖osc w E (ω k) (φ k) (X k)‖ ≤ c * ∑ i, ∑ j, ‖X k i j‖ := by
    refine (norm_le_sum _).trans ?_
    rw [Finset.mul_sum]
    refine Finset.sum_le_sum fun i _ => ?_
    rw [Finset.mul_sum]
    refine Finset.sum_le_sum fun j _ => ?_
    rw [mul_comm]
    exact osc_entry w E (ω k) (φ k) c (X k) i j (h k i j)
  rw [mul_assoc]
  exact mul_le_mul (hB k) h1 (norm_nonneg _) ((abs_nonneg _).trans (hB k))

/-- The drives seen from the rotating frame. -/
theorem frame_driven (E : n → ℝ) (A : d → ℝ → ℝ) (ω φ : d → ℝ) (X : d → Matrix n n ℂ) (a b t : ℝ)
    (U : ℝ → Matrix n n ℂ)
    (hU : HasDerivWithinAt U ((-Complex.I) • (driven E A ω φ X t * U t)) (Icc a b) t) :
    HasDerivWithinAt (fun t => frame E t * U t)
      ((-Complex.I) • ((∑ k, (A k t : ℂ) • osc (full t) E (ω k) (φ k) (X k)) * (frame E t * U t))) (Icc a b) t := by
  have hc : ∀ k i j, Complex.exp ((E i * t : ℝ) * Complex.I) * (((Real.cos (ω k * t - φ k) : ℝ) : ℂ) * X k i j) =
      osc (full t) E (ω k) (φ k) (X k) i j * Complex.exp ((E j * t : ℝ) * Complex.I) := by
    intro k i j
    simp only [osc, of_apply, full]
    rw [Complex.ofReal_cos, Complex.cos]
    have e1 : Complex.exp (φ k * Complex.I) * Complex.exp (((E i - E j - ω k) * t : ℝ) * Complex.I) *
        Complex.exp ((E j * t : ℝ) * Complex.I) =
        Complex.exp ((E i * t : ℝ) * Complex.I) * Complex.exp (-((ω k * t - φ k : ℝ) : ℂ) * Complex.I) := by
      rw [← Complex.exp_add, ← Complex.exp_add, ← Complex.exp_add]
      congr 1
      push_cast
      ring
    have e2 : Complex.exp (-φ k * Complex.I) * Complex.exp (((E i - E j + ω k) * t : ℝ) * Complex.I) *
        Complex.exp ((E j * t : ℝ) * Complex.I) =
        Complex.exp ((E i * t : ℝ) * Complex.I) * Complex.exp (((ω k * t - φ k : ℝ) : ℂ) * Complex.I) := by
      rw [← Complex.exp_add, ← Complex.exp_add, ← Complex.exp_add]
      congr 1
      push_cast
      ring
    linear_combination (-(X k i j) / 2) * e1 + (-(X k i j) / 2) * e2
  have hF : ∀ i, HasDerivWithinAt (fun t => Complex.exp ((E i * t : ℝ) * Complex.I))
      (E i * Complex.I * Complex.exp ((E i * t : ℝ) * Complex.I)) (Icc a b) t :=
    fun i => (hasDeriv_full t (E i)).hasDerivWithinAt
  refine hasDeriv_of_entries _ _ _ _ fun i j => ?_
  have h := (hF i).mul (Exists.entries hU i j)
  have hfun : (fun t => (frame E t * U t) i j) = fun t => Complex.exp ((E i * t : ℝ) * Complex.I) * U t i j := by
    funext t
    simp [frame, diagonal_mul]
  rw [hfun]
  refine h.congr_deriv ?_
  simp only [driven, add_mul, Matrix.smul_apply, Matrix.add_apply, diagonal_mul, smul_eq_mul, frame]
  have h1 : ((∑ k, ((A k t * Real.cos (ω k * t - φ k) : ℝ) : ℂ) • X k) * U t) i j =
      ∑ k, ∑ l, ((A k t * Real.cos (ω k * t - φ k) : ℝ) : ℂ) * X k i l * U t l j := by
    rw [Finset.sum_mul, Matrix.sum_apply]
    refine Finset.sum_congr rfl fun k _ => ?_
    simp [mul_apply]
  have h2 : ((∑ k, (A k t : ℂ) • osc (full t) E (ω k) (φ k) (X k)) *
      (diagonal (fun i => Complex.exp ((E i * t : ℝ) * Complex.I)) * U t)) i j =
      ∑ k, ∑ l, (A k t : ℂ) * osc (full t) E (ω k) (φ k) (X k) i l * (Complex.exp ((E l * t : ℝ) * Complex.I) * U t l j) := by
    rw [Finset.sum_mul, Matrix.sum_apply]
    refine Finset.sum_congr rfl fun k _ => ?_
    rw [Matrix.smul_mul, Matrix.smul_apply, mul_apply, Finset.smul_sum]
    refine Finset.sum_congr rfl fun l _ => ?_
    rw [diagonal_mul, smul_eq_mul, mul_assoc]
  rw [h1, h2]
  have h3 : Complex.exp ((E i * t : ℝ) * Complex.I) *
      (∑ k, ∑ l, ((A k t * Real.cos (ω k * t - φ k) : ℝ) : ℂ) * X k i l * U t l j) =
      ∑ k, ∑ l, (A k t : ℂ) * osc (full t) E (ω k) (φ k) (X k) i l *
        (Complex.exp ((E l * t : ℝ) * Complex.I) * U t l j) := by
    rw [Finset.mul_sum]
    refine Finset.sum_congr rfl fun k _ => ?_
    rw [Finset.mul_sum]
    refine Finset.sum_congr rfl fun l _ => ?_
    push_cast
    have := hc k i l
    push_cast at this
    linear_combination ((A k t : ℂ) * U t l j) * this
  linear_combination (-Complex.I) * h3

theorem star_full (t ν : ℝ) : star (full t ν) = full t (-ν) := by
  unfold full
  rw [Complex.star_def, ← Complex.exp_conj]
  simp

theorem star_still (ν : ℝ) : star (still ν) = still (-ν) := by
  unfold still
  by_cases h : ν = 0 <;> simp [h]

theorem star_fast (t ν : ℝ) : star (fast t ν) = fast t (-ν) := by
  unfold fast
  by_cases h : ν = 0
  · simp [h]
  · simp only [h, neg_eq_zero, if_false]
    exact star_full t ν

omit [Fintype n] [DecidableEq n] in
theorem sum_hermitian (w : ℝ → ℂ) (hw : ∀ ν, star (w ν) = w (-ν)) (E : n → ℝ) (ω φ : d → ℝ) (X : d → Matrix n n ℂ)
    (hX : ∀ k, (X k)ᴴ = X k) (B : d → ℝ) :
    (∑ k, (B k : ℂ) • osc w E (ω k) (φ k) (X k))ᴴ = ∑ k, (B k : ℂ) • osc w E (ω k) (φ k) (X k) := by
  rw [conjTranspose_sum]
  refine Finset.sum_congr rfl fun k _ => ?_
  rw [conjTranspose_smul, osc_hermitian w hw E _ _ _ (hX k)]
  simp

theorem hasDeriv_swings (E : n → ℝ) (A A' : d → ℝ → ℝ) (ω φ : d → ℝ) (X : d → Matrix n n ℂ) (a b t : ℝ)
    (hA : ∀ k, HasDerivWithinAt (A k) (A' k t) (Icc a b) t) :
    HasDerivWithinAt (fun t => ∑ k, (A k t : ℂ) • osc (swing t) E (ω k) (φ k) (X k))
      ((∑ k, (A k t : ℂ) • osc (fast t) E (ω k) (φ k) (X k)) +
        ∑ k, (A' k t : ℂ) • osc (swing t) E (ω k) (φ k) (X k)) (Icc a b) t := by
  rw [← Finset.sum_add_distrib]
  have h : ∀ k ∈ Finset.univ, HasDerivWithinAt (fun t => (A k t : ℂ) • osc (swing t) E (ω k) (φ k) (X k))
      ((A k t : ℂ) • osc (fast t) E (ω k) (φ k) (X k) + (A' k t : ℂ) • osc (swing t) E (ω k) (φ k) (X k))
      (Icc a b) t := by
    intro k _
    refine hasDeriv_of_entries _ _ _ _ fun i j => ?_
    simp only [Matrix.smul_apply, Matrix.add_apply, osc, of_apply, smul_eq_mul]
    have h1 := (((hasDeriv_swing t (E i - E j - ω k)).const_mul (Complex.exp (φ k * Complex.I))).add
      ((hasDeriv_swing t (E i - E j + ω k)).const_mul (Complex.exp (-φ k * Complex.I)))).const_mul (X k i j / 2)
    refine ((hA k).ofReal_comp.mul h1.hasDerivWithinAt).congr_deriv ?_
    simp only [Pi.add_apply]
    ring
  have := HasDerivWithinAt.fun_sum h
  exact this

/-- **C209** (averaging): under drives whose transitions are on resonance or detuned by at least `κ`, the evolution in the
rotating frame follows the resonant transitions alone, up to a constant over `κ`. The constant is made of bounds on the
amplitudes, on their derivatives, on the operators and the length of the pulse. -/
theorem C209_average (E : n → ℝ) (A A' : d → ℝ → ℝ) (ω φ : d → ℝ) (X : d → Matrix n n ℂ) (T a a' κ : ℝ) (hT : 0 ≤ T)
    (hκ : 0 < κ) (hX : ∀ k, (X k)ᴴ = X k) (hdet : ∀ k, Detuned E (ω k) (X k) κ)
    (hA : ∀ k, ∀ t ∈ Icc 0 T, HasDerivWithinAt (A k) (A' k t) (Icc 0 T) t ∧ |A k t| ≤ a ∧ |A' k t| ≤ a')
    (U V : ℝ → Matrix n n ℂ) (hU : Schrodinger (driven E A ω φ X) 0 T U)
    (hV : Schrodinger (fun t => ∑ k, (A k t : ℂ) • resonant E (ω k) (φ k) (X k)) 0 T V) :
    ‖frame E T * U T - V T‖ ≤
      (∑ k, ∑ i, ∑ j, ‖X k i j‖) * (2 * a + T * (3 * a ^ 2 * (∑ k, ∑ i, ∑ j, ‖X k i j‖) + a')) / κ := by
  set x := ∑ k, ∑ i, ∑ j, ‖X k i j‖ with hx
  have hfr0 : frame E 0 = 1 := by
    unfold frame
    simp
  have hdU : ∀ t ∈ Icc 0 T, HasDerivWithinAt U ((-Complex.I) • (driven E A ω φ X t * U t)) (Icc 0 T) t :=
    fun t ht => hasDeriv_of_entries _ _ _ _ (hU.2 t ht)
  have hsw : ∀ t k i j, X k i j ≠ 0 → ‖swing t (E i - E j - ω k)‖ ≤ 1 / κ ∧ ‖swing t (E i - E j + ω k)‖ ≤ 1 / κ := by
    intro t k i j hx
    obtain ⟨h1, h2⟩ := hdet k i j hx
    refine ⟨norm_swing _ _ κ hκ (h1.imp sub_eq_zero.2 id), norm_swing _ _ κ hκ (h2.imp (fun h => ?_) id)⟩
    rw [h]
    ring
  have h := averaging (fun t => ∑ k, (A k t : ℂ) • osc still E (ω k) (φ k) (X k))
    (fun t => ∑ k, (A k t : ℂ) • osc (fast t) E (ω k) (φ k) (X k))
    (fun t => ∑ k, (A k t : ℂ) • osc (swing t) E (ω k) (φ k) (X k))
    (fun t => ∑ k, (A' k t : ℂ) • osc (swing t) E (ω k) (φ k) (X k))
    (fun t => frame E t * U t) V T hT (by rw [hfr0, hU.1, one_mul]) hV.1
    (by
      intro t ht
      have := frame_driven E A ω φ X 0 T t U (hdU t ht)
      refine this.congr_deriv ?_
      congr 2
      rw [← Finset.sum_add_distrib]
      refine Finset.sum_congr rfl fun k _ => ?_
      rw [← smul_add, ← osc_add]
      congr 2
      funext ν
      exact full_eq t ν)
    (by
      intro t ht
      simp only [osc_still]
      exact hasDeriv_of_entries _ _ _ _ (hV.2 t ht))
    (fun t ht => hasDeriv_swings E A A' ω φ X 0 T t fun k => (hA k t ht).1)
    (fun t _ => sum_hermitian _ star_still E ω φ X hX _)
    (fun t _ => sum_hermitian _ (star_fast t) E ω φ X hX _)
    (a * 1 * x) (a * 1 * x) (a * (1 / κ) * x) (a' * (1 / κ) * x)
    (fun t ht => sum_osc_norm _ E ω φ X _ a 1 (fun k => (hA k t ht).2.1)
      fun k i j _ => ⟨norm_still _, norm_still _⟩)
    (fun t ht => sum_osc_norm _ E ω φ X _ a 1 (fun k => (hA k t ht).2.1)
      fun k i j _ => ⟨norm_fast _ _, norm_fast _ _⟩)
    (fun t ht => sum_osc_norm _ E ω φ X _ a (1 / κ) (fun k => (hA k t ht).2.1) (hsw t))
    (fun t ht => sum_osc_norm _ E ω φ X _ a' (1 / κ) (fun k => (hA k t ht).2.2) (hsw t))
  refine h.trans (le_of_eq ?_)
  field_simp
  ring

/-! ## Commuting transitions: the area of the pulse -/

/-- The integral of a function that is continuous on an interval has it as derivative there. -/
theorem hasDeriv_integral {A : ℝ → ℝ} {T : ℝ} (hT : 0 ≤ T) (hA : ContinuousOn A (Icc 0 T)) (t : ℝ) (ht : t ∈ Icc 0 T) :
    HasDerivWithinAt (fun t => ∫ s in (0 : ℝ)..t, A s) (A t) (Icc 0 T) t := by
  have hc : Continuous (IccExtend hT ((Icc 0 T).domRestrict A)) := (continuousOn_iff_continuous_domRestrict.1 hA).Icc_extend'
  have he : ∀ s ∈ Icc 0 T, IccExtend hT ((Icc 0 T).domRestrict A) s = A s := by
    intro s hs
    rw [IccExtend_of_mem hT _ hs]
    rfl
  have h1 := (intervalIntegral.integral_hasDerivAt_right (hc.intervalIntegrable 0 t)
    (hc.stronglyMeasurableAtFilter _ _) hc.continuousAt).hasDerivWithinAt (s := Icc 0 T)
  rw [he t ht] at h1
  have he2 : ∀ u ∈ Icc 0 T, ∫ s in (0 : ℝ)..u, A s = ∫ s in (0 : ℝ)..u, IccExtend hT ((Icc 0 T).domRestrict A) s := by
    intro u hu
    refine intervalIntegral.integral_congr fun s hs => ?_
    rw [uIcc_of_le hu.1] at hs
    exact (he s ⟨hs.1, hs.2.trans hu.2⟩).symm
  exact h1.congr he2 (he2 t ht)

theorem commuting {d : Type} (l : List d) (R : d → Matrix n n ℂ) (hR : ∀ j k, Commute (R j) (R k)) (A Θ : d → ℝ → ℝ)
    (s : Set ℝ) (t : ℝ) (hΘ : ∀ k, HasDerivWithinAt (Θ k) (A k t) s t) :
    HasDerivWithinAt (fun t => (l.map fun k => NormedSpace.exp ((-Complex.I * (Θ k t : ℂ)) • R k)).prod)
      ((-Complex.I) • ((l.map fun k => (A k t : ℂ) • R k).sum *
        (l.map fun k => NormedSpace.exp ((-Complex.I * (Θ k t : ℂ)) • R k)).prod)) s t := by
  induction l with
  | nil => simpa using hasDerivWithinAt_const t s (1 : Matrix n n ℂ)
  | cons k l ih =>
    simp only [List.map_cons, List.prod_cons, List.sum_cons]
    have h1 : HasDerivWithinAt (fun t => -Complex.I * (Θ k t : ℂ)) (-Complex.I * (A k t : ℂ)) s t :=
      (hΘ k).ofReal_comp.const_mul _
    have h2 : HasDerivWithinAt (fun t => NormedSpace.exp ((-Complex.I * (Θ k t : ℂ)) • R k))
        ((-Complex.I * (A k t : ℂ)) • (NormedSpace.exp ((-Complex.I * (Θ k t : ℂ)) • R k) * R k)) s t :=
      HasDerivAt.scomp_hasDerivWithinAt (g₁ := fun z : ℂ => NormedSpace.exp (z • R k)) t
        (hasDerivAt_exp_smul_const (𝕂 := ℂ) (R k) (-Complex.I * (Θ k t : ℂ))) h1
    refine (h2.mul ih).congr_deriv ?_
    have c1 : Commute (NormedSpace.exp ((-Complex.I * (Θ k t : ℂ)) • R k)) (R k) :=
      ((Commute.refl (R k)).smul_left _).exp_left
    have c2 : Commute (NormedSpace.exp ((-Complex.I * (Θ k t : ℂ)) • R k)) (l.map fun k => (A k t : ℂ) • R k).sum := by
      refine Commute.list_sum_right _ _ fun x hx => ?_
      obtain ⟨j, _, rfl⟩ := List.mem_map.1 hx
      exact (((hR k j).smul_right _).smul_left _).exp_left
    rw [c1.eq, mul_smul_comm, ← mul_assoc _ (l.map fun k => (A k t : ℂ) • R k).sum, c2.eq]
    simp only [add_mul, smul_add, smul_mul_assoc, mul_assoc, smul_smul]

/-- **C209** (rotations): if the resonant transitions of the drives commute, every drive rotates them by the area under its
amplitude, up to a constant over the detuning of all other transitions. -/
theorem C209_rotations {m : ℕ} (E : n → ℝ) (A A' : Fin m → ℝ → ℝ) (ω φ : Fin m → ℝ) (X : Fin m → Matrix n n ℂ)
    (T a a' κ : ℝ) (hT : 0 ≤ T) (hκ : 0 < κ) (hX : ∀ k, (X k)ᴴ = X k) (hdet : ∀ k, Detuned E (ω k) (X k) κ)
    (hcomm : ∀ j k, Commute (resonant E (ω j) (φ j) (X j)) (resonant E (ω k) (φ k) (X k)))
    (hA : ∀ k, ∀ t ∈ Icc 0 T, HasDerivWithinAt (A k) (A' k t) (Icc 0 T) t ∧ |A k t| ≤ a ∧ |A' k t| ≤ a')
    (U : ℝ → Matrix n n ℂ) (hU : Schrodinger (driven E A ω φ X) 0 T U) :
    ‖frame E T * U T - ((List.finRange m).map fun k =>
        NormedSpace.exp ((-Complex.I * ((∫ t in (0 : ℝ)..T, A k t : ℝ) : ℂ)) • resonant E (ω k) (φ k) (X k))).prod‖ ≤
      (∑ k, ∑ i, ∑ j, ‖X k i j‖) * (2 * a + T * (3 * a ^ 2 * (∑ k, ∑ i, ∑ j, ‖X k i j‖) + a')) / κ := by
  have hc : ∀ k, ContinuousOn (A k) (Icc 0 T) := fun k t ht => (hA k t ht).1.continuousWithinAt
  refine C209_average E A A' ω φ X T a a' κ hT hκ hX hdet hA U (fun t => ((List.finRange m).map fun k =>
    NormedSpace.exp ((-Complex.I * ((∫ s in (0 : ℝ)..t, A k s : ℝ) : ℂ)) • resonant E (ω k) (φ k) (X k))).prod) hU
    ⟨?_, fun t ht i j => ?_⟩
  · simp
  · have h := commuting (List.finRange m) (fun k => resonant E (ω k) (φ k) (X k)) hcomm A
      (fun k t => ∫ s in (0 : ℝ)..t, A k s) (Icc 0 T) t fun k => hasDeriv_integral hT (hc k) t ht
    have e : (∑ k, (A k t : ℂ) • resonant E (ω k) (φ k) (X k)) =
        ((List.finRange m).map fun k => (A k t : ℂ) • resonant E (ω k) (φ k) (X k)).sum := by
      rw [← List.ofFn_eq_map, List.sum_ofFn]
    simp only
    rw [e]
    exact Exists.entries h i j

/-- A qubit with transition frequency 100 driven on resonance: the hypotheses hold with detuning 200. -/
example : ∃ U, Schrodinger (driven ![0, 100] (fun (_ : Fin 1) _ => Real.pi) (fun _ => 100) (fun _ => 0)
      fun _ => !![0, 1; 1, 0]) 0 1 U ∧
    ‖frame ![0, 100] 1 * U 1 - ((List.finRange 1).map fun _ => NormedSpace.exp ((-Complex.I *
        ((∫ _ in (0 : ℝ)..1, Real.pi : ℝ) : ℂ)) • resonant ![0, 100] 100 0 !![0, 1; 1, 0])).prod‖ ≤
      2 * (2 * Real.pi + 1 * (3 * Real.pi ^ 2 * 2 + 0)) / 200 := by
  obtain ⟨U, hU, _⟩ := Exists.C202_solution (driven ![0, 100] (fun (_ : Fin 1) _ => Real.pi) (fun _ => 100) (fun _ => 0)
    fun _ => !![0, 1; 1, 0]) 0 1 zero_le_one (by
      intro i j
      unfold driven
      simp only [Matrix.add_apply, Matrix.sum_apply, Matrix.smul_apply]
      fun_prop)
  refine ⟨U, hU, ?_⟩
  have h := C209_rotations ![0, 100] (fun (_ : Fin 1) _ => Real.pi) (fun _ _ => 0) (fun _ => 100) (fun _ => 0)
    (fun _ => !![0, 1; 1, 0]) 1 Real.pi 0 200 zero_le_one (by norm_num)
    (by
      intro _
      ext i j
      fin_cases i <;> fin_cases j <;> simp)
    (by
      intro _ i j hij
      fin_cases i <;> fin_cases j <;> simp at hij ⊢ <;> norm_num)
    (fun _ _ => Commute.refl _)
    (fun _ t _ => ⟨hasDerivWithinAt_const _ _ _, by rw [abs_of_pos Real.pi_pos], by simp⟩) U hU
  refine h.trans (le_of_eq ?_)
  have e : (∑ _ : Fin 1, ∑ i : Fin 2, ∑ j : Fin 2, ‖(!![0, 1; 1, 0] : Matrix (Fin 2) (Fin 2) ℂ) i j‖) = 2 := by
    simp [Fin.sum_univ_two]
    norm_num
  rw [e]

end C3.Propagation.Average
