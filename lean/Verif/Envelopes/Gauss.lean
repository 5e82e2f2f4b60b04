import Mathlib.Analysis.SpecialFunctions.Gaussian.GaussianIntegral
import Mathlib.Analysis.SpecialFunctions.ExpDeriv
import Mathlib.MeasureTheory.Integral.IntervalIntegral.FundThmCalculus
import Mathlib.MeasureTheory.Integral.IntervalIntegral.IntegrationByParts
import Mathlib.Tactic.Linarith
import Mathlib.Tactic.NormNum
import Mathlib.Tactic.Ring
import Mathlib.Tactic.FieldSimp
import Mathlib.Tactic.Positivity

/-!
# C82, C83, C120: Gaussian and DRAG envelopes, error function flat tops

Models c3/libraries/envelopes.py:227-250 (`flattop_risefall`), 253-278 (`flattop`), 305-327
(`flattop_cut_center`), 374-396 (`gaussian_sigma`), 470-487 (`gaussian_nonorm`), 491-516
(`gaussian_der_nonorm`, `gaussian_der`), 520-529 (`drag_sigma`), 546-562 (`drag_der`) as real functions of
one time; the code evaluates them for a vector of times.
-/

namespace C3.Envelopes

open Real intervalIntegral MeasureTheory

/-! ## Model -/

/-- `tf.math.erf`. -/
noncomputable def erf (x : ℝ) : ℝ := 2 / √π * ∫ s in (0 : ℝ)..x, exp (-s ^ 2)

/-- c3/libraries/envelopes.py:470-487 `gaussian_nonorm`. -/
noncomputable def gaussianNonorm (T σ t : ℝ) : ℝ := exp (-(t - T / 2) ^ 2 / (2 * σ ^ 2))

/-- The `offset` of c3/libraries/envelopes.py:391, 528, 553. -/
noncomputable def offset (T σ : ℝ) : ℝ := exp (-T ^ 2 / (8 * σ ^ 2))

/-- The `norm` of c3/libraries/envelopes.py:392-395, 513-515, 525-527, 550-552. -/
noncomputable def norm (T σ : ℝ) : ℝ := √(2 * π * σ ^ 2) * erf (T / (√8 * σ)) - T * offset T σ

/-- c3/libraries/envelopes.py:374-396 `gaussian_sigma`. -/
noncomputable def gaussianSigma (T σ t : ℝ) : ℝ :=
  (exp (-(t - T / 2) ^ 2 / (2 * σ ^ 2)) - offset T σ) / norm T σ

/-- c3/libraries/envelopes.py:491-500 `gaussian_der_nonorm`. -/
noncomputable def gaussianDerNonorm (T σ t : ℝ) : ℝ :=
  exp (-(t - T / 2) ^ 2 / (2 * σ ^ 2)) * (t - T / 2) / σ ^ 2

/-- c3/libraries/envelopes.py:504-516 `gaussian_der`. -/
noncomputable def gaussianDer (T σ t : ℝ) : ℝ :=
  exp (-(t - T / 2) ^ 2 / (2 * σ ^ 2)) * (t - T / 2) / σ ^ 2 / norm T σ

/-- c3/libraries/envelopes.py:520-529 `drag_sigma`. -/
noncomputable def dragSigma (T σ t : ℝ) : ℝ :=
  (exp (-(t - T / 2) ^ 2 / (2 * σ ^ 2)) - offset T σ) ^ 2 / norm T σ

/-- c3/libraries/envelopes.py:546-562 `drag_der`. -/
noncomputable def dragDer (T σ t : ℝ) : ℝ :=
  -2 * (exp (-(t - T / 2) ^ 2 / (2 * σ ^ 2)) - offset T σ) * exp (-(t - T / 2) ^ 2 / (2 * σ ^ 2)) *
    (t - T / 2) / σ ^ 2 / norm T σ

/-- c3/libraries/envelopes.py:253-278 `flattop`. -/
noncomputable def flattop (up down r t : ℝ) : ℝ :=
  (1 + erf ((t - up) / r)) / 2 * (1 + erf ((-t + down) / r)) / 2

/-- c3/libraries/envelopes.py:227-250 `flattop_risefall`. -/
noncomputable def flattopRisefall (T r t : ℝ) : ℝ := flattop r (T - r) r t

/-- c3/libraries/envelopes.py:305-327 `flattop_cut_center`. -/
noncomputable def flattopCutCenter (T w r t : ℝ) : ℝ :=
  max 0 (min 2 (erf ((t - (T / 2 - w / 2)) / r) * erf ((-t + (T / 2 + w / 2)) / r)))

/-! ## The error function -/

theorem erf_neg (x : ℝ) : erf (-x) = -erf x := by
  unfold erf
  have h := integral_comp_neg (a := 0) (b := x) (fun s : ℝ => exp (-s ^ 2))
  simp only [neg_sq, neg_zero] at h
  rw [integral_symm, ← h]
  ring

theorem erf_zero : erf 0 = 0 := by simp [erf]

theorem exp_sq_integrable : Integrable (fun s : ℝ => exp (-s ^ 2)) := by
  have := integrable_exp_neg_mul_sq (b := 1) one_pos
  simpa using this

theorem erf_nonneg (x : ℝ) (h : 0 ≤ x) : 0 ≤ erf x := by
  unfold erf
  refine mul_nonneg (by positivity) (integral_nonneg h fun s _ => (exp_pos _).le)

theorem erf_le_one (x : ℝ) : erf x ≤ 1 := by
  rcases le_total 0 x with h | h
  · unfold erf
    have h1 : ∫ s in (0 : ℝ)..x, exp (-s ^ 2) ≤ √π / 2 := by
      have h2 := integral_gaussian_Ioi 1
      simp only [neg_mul, one_mul, div_one] at h2
      rw [← h2, integral_of_le h]
      exact setIntegral_mono_set exp_sq_integrable.integrableOn
        (Filter.Eventually.of_forall fun s => (exp_pos _).le)
        (Filter.Eventually.of_forall fun s hs => hs.1)
    have hpi : 0 < √π := sqrt_pos.2 pi_pos
    calc 2 / √π * ∫ s in (0 : ℝ)..x, exp (-s ^ 2) ≤ 2 / √π * (√π / 2) :=
          mul_le_mul_of_nonneg_left h1 (by positivity)
      _ = 1 := by field_simp
  · have := erf_nonneg (-x) (by linarith)
    rw [erf_neg] at this
    linarith

theorem neg_one_le_erf (x : ℝ) : -1 ≤ erf x := by
  have := erf_le_one (-x)
  rw [erf_neg] at this
  linarith

theorem hasDerivAt_erf (x : ℝ) : HasDerivAt erf (2 / √π * exp (-x ^ 2)) x := by
  unfold erf
  have hc : Continuous fun s : ℝ => exp (-s ^ 2) := by fun_prop
  exact (integral_hasDerivAt_right (hc.intervalIntegrable _ _) (hc.stronglyMeasurableAtFilter _ _)
    hc.continuousAt).const_mul _

/-! ## Area of the Gaussian -/

theorem gauss_area (T σ : ℝ) (hσ : 0 < σ) :
    ∫ t in (0 : ℝ)..T, gaussianNonorm T σ t = √(2 * π * σ ^ 2) * erf (T / (√8 * σ)) := by
  have h2 : (0 : ℝ) < √2 := sqrt_pos.2 (by norm_num)
  have hc : (√2 * σ) ≠ 0 := by positivity
  have hsq : √2 ^ 2 = 2 := sq_sqrt (by norm_num)
  have hf : ∀ t, gaussianNonorm T σ t = (fun s : ℝ => exp (-s ^ 2)) (t / (√2 * σ) - T / (2 * (√2 * σ))) := by
    intro t
    unfold gaussianNonorm
    simp only
    congr 1
    have : t / (√2 * σ) - T / (2 * (√2 * σ)) = (t - T / 2) / (√2 * σ) := by field_simp
    rw [this, div_pow, mul_pow, hsq, neg_div]
  simp_rw [hf]
  rw [integral_comp_div_sub (fun s : ℝ => exp (-s ^ 2)) hc]
  have hy1 : (0 : ℝ) / (√2 * σ) - T / (2 * (√2 * σ)) = -(T / (√8 * σ)) := by
    have h8 : √8 = 2 * √2 := by
      rw [show (8 : ℝ) = 2 ^ 2 * 2 by norm_num, sqrt_mul (by positivity), sqrt_sq (by norm_num)]
    rw [h8]; field_simp; ring
  have hy2 : T / (√2 * σ) - T / (2 * (√2 * σ)) = T / (√8 * σ) := by
    have h8 : √8 = 2 * √2 := by
      rw [show (8 : ℝ) = 2 ^ 2 * 2 by norm_num, sqrt_mul (by positivity), sqrt_sq (by norm_num)]
    rw [h8]; field_simp; ring
  rw [hy1, hy2]
  set y := T / (√8 * σ)
  have hcont : Continuous fun s : ℝ => exp (-s ^ 2) := by fun_prop
  have hsplit : ∫ s in (-y)..y, exp (-s ^ 2) = 2 * ∫ s in (0 : ℝ)..y, exp (-s ^ 2) := by
    rw [← integral_add_adjacent_intervals (b := 0) (hcont.intervalIntegrable _ _)
      (hcont.intervalIntegrable _ _)]
    have h := integral_comp_neg (a := 0) (b := y) (fun s : ℝ => exp (-s ^ 2))
    simp only [neg_sq, neg_zero] at h
    rw [← h]
    ring
  rw [hsplit]
  unfold erf
  have hsqrt : √(2 * π * σ ^ 2) = √2 * √π * σ := by
    rw [sqrt_mul (by positivity), sqrt_mul (by norm_num), sqrt_sq hσ.le]
  have hpi : √π ≠ 0 := (sqrt_pos.2 pi_pos).ne'
  rw [hsqrt, smul_eq_mul]
  field_simp

/-- Inside the pulse the Gaussian is above its value at the ends. -/
theorem offset_lt (T σ t : ℝ) (hσ : 0 < σ) (h0 : 0 < t) (hT : t < T) : offset T σ < gaussianNonorm T σ t := by
  unfold offset gaussianNonorm
  rw [exp_lt_exp]
  rw [div_lt_div_iff₀ (by positivity) (by positivity)]
  have h : (t - T / 2) ^ 2 < (T / 2) ^ 2 := by nlinarith
  have hs : 0 < σ ^ 2 := by positivity
  nlinarith

theorem offset_eq_ends (T σ : ℝ) : gaussianNonorm T σ 0 = offset T σ ∧ gaussianNonorm T σ T = offset T σ := by
  constructor <;> (unfold offset gaussianNonorm; congr 1; rcases eq_or_ne σ 0 with h | h)
  · simp [h]
  · field_simp; ring
  · simp [h]
  · field_simp; ring

theorem gauss_cont (T σ : ℝ) : Continuous (gaussianNonorm T σ) := by
  unfold gaussianNonorm
  fun_prop

theorem norm_eq_integral (T σ : ℝ) (hσ : 0 < σ) :
    norm T σ = ∫ t in (0 : ℝ)..T, (gaussianNonorm T σ t - offset T σ) := by
  rw [integral_sub ((gauss_cont T σ).intervalIntegrable _ _) (continuous_const.intervalIntegrable _ _),
    gauss_area T σ hσ, intervalIntegral.integral_const, smul_eq_mul, sub_zero]
  rfl

theorem norm_pos (T σ : ℝ) (hσ : 0 < σ) (hT : 0 < T) : 0 < norm T σ := by
  rw [norm_eq_integral T σ hσ]
  refine intervalIntegral_pos_of_pos_on ?_ ?_ hT
  · exact ((gauss_cont T σ).sub continuous_const).intervalIntegrable _ _
  · intro t ht
    exact sub_pos.2 (offset_lt T σ t hσ ht.1 ht.2)

/-- C120: the area of `gaussian_sigma` over the pulse is one, for every length and width. -/
theorem C120_area (T σ : ℝ) (hσ : 0 < σ) (hT : 0 < T) : ∫ t in (0 : ℝ)..T, gaussianSigma T σ t = 1 := by
  have h : ∀ t, gaussianSigma T σ t = (gaussianNonorm T σ t - offset T σ) / norm T σ := fun t => rfl
  simp_rw [h]
  rw [intervalIntegral.integral_div, ← norm_eq_integral T σ hσ, div_self (norm_pos T σ hσ hT).ne']

example : (0 : ℝ) < 5 ∧ (0 : ℝ) < 20 := by norm_num

/-- The code does not cut the envelope: outside the pulse it is negative. -/
theorem C120_outside (T σ t : ℝ) (hσ : 0 < σ) (hT : 0 < T) (h : t < 0 ∨ T < t) : gaussianSigma T σ t < 0 := by
  have hn := norm_pos T σ hσ hT
  refine div_neg_of_neg_of_pos ?_ hn
  rw [sub_neg]
  unfold offset
  rw [exp_lt_exp, div_lt_div_iff₀ (by positivity) (by positivity)]
  have h2 : (T / 2) ^ 2 < (t - T / 2) ^ 2 := by rcases h with h | h <;> nlinarith
  have hs : 0 < σ ^ 2 := by positivity
  nlinarith

/-! ## C82: derivatives -/

theorem hasDerivAt_gauss (T σ t : ℝ) (hσ : σ ≠ 0) :
    HasDerivAt (fun t => exp (-(t - T / 2) ^ 2 / (2 * σ ^ 2)))
      (-(exp (-(t - T / 2) ^ 2 / (2 * σ ^ 2)) * (t - T / 2) / σ ^ 2)) t := by
  have h1 : HasDerivAt (fun t : ℝ => -(t - T / 2) ^ 2 / (2 * σ ^ 2)) (-(2 * (t - T / 2)) / (2 * σ ^ 2)) t := by
    have := ((((hasDerivAt_id t).sub_const (T / 2)).pow 2).neg).div_const (2 * σ ^ 2)
    simpa using this
  have h2 := h1.exp
  convert h2 using 1
  field_simp

/-- C82 for `drag_der`: it is the derivative of `drag_sigma`. -/
theorem C82_drag (T σ t : ℝ) (hσ : σ ≠ 0) : HasDerivAt (dragSigma T σ) (dragDer T σ t) t := by
  have h := ((hasDerivAt_gauss T σ t hσ).sub_const (offset T σ)).pow 2 |>.div_const (norm T σ)
  refine HasDerivAt.congr_deriv h ?_
  unfold dragDer
  push_cast
  ring

example : (5 : ℝ) ≠ 0 := by norm_num

/-- C82 up to the sign for `gaussian_der_nonorm` and `gaussian_der`: the derivatives of the Gaussians are minus
these envelopes. Missing: the sign, see `C82_sign_false`. -/
theorem C82_gaussian_partial (T σ t : ℝ) (hσ : σ ≠ 0) :
    HasDerivAt (gaussianNonorm T σ) (-gaussianDerNonorm T σ t) t ∧
      HasDerivAt (gaussianSigma T σ) (-gaussianDer T σ t) t := by
  constructor
  · exact hasDerivAt_gauss T σ t hσ
  · have h := ((hasDerivAt_gauss T σ t hσ).sub_const (offset T σ)).div_const (norm T σ)
    refine HasDerivAt.congr_deriv h ?_
    unfold gaussianDer
    ring

/-- C82 fails for the Gaussian derivatives: except in the middle of the pulse they have the wrong sign. -/
theorem C82_sign_false (T σ t : ℝ) (hσ : 0 < σ) (hT : 0 < T) (ht : t ≠ T / 2) :
    ¬ HasDerivAt (gaussianNonorm T σ) (gaussianDerNonorm T σ t) t ∧
      ¬ HasDerivAt (gaussianSigma T σ) (gaussianDer T σ t) t := by
  have hne : gaussianDerNonorm T σ t ≠ 0 := by
    unfold gaussianDerNonorm
    have := (exp_pos (-(t - T / 2) ^ 2 / (2 * σ ^ 2))).ne'
    have := sub_ne_zero.2 ht
    positivity
  have hne' : gaussianDer T σ t ≠ 0 := by
    have : gaussianDer T σ t = gaussianDerNonorm T σ t / norm T σ := rfl
    rw [this]
    exact div_ne_zero hne (norm_pos T σ hσ hT).ne'
  constructor
  · intro h
    have := h.unique (C82_gaussian_partial T σ t hσ.ne').1
    apply hne; linarith
  · intro h
    have := h.unique (C82_gaussian_partial T σ t hσ.ne').2
    apply hne'; linarith

example : (0 : ℝ) < 5 ∧ (0 : ℝ) < 20 ∧ (1 : ℝ) ≠ 20 / 2 := by norm_num

/-! ## C83: bounds and symmetry -/

/-- Symmetric about the middle of the pulse. -/
def Symmetric (T : ℝ) (f : ℝ → ℝ) : Prop := ∀ t, f (T - t) = f t

theorem gauss_symm (T σ t : ℝ) : exp (-(T - t - T / 2) ^ 2 / (2 * σ ^ 2)) = exp (-(t - T / 2) ^ 2 / (2 * σ ^ 2)) := by
  congr 2; ring

/-- `gaussian_nonorm` stays in (0, 1], is symmetric, and is 1 exactly in the middle. It does not vanish at the
ends. -/
theorem C83_gaussian_nonorm (T σ : ℝ) (hσ : 0 < σ) :
    (∀ t, 0 < gaussianNonorm T σ t ∧ gaussianNonorm T σ t ≤ 1) ∧ Symmetric T (gaussianNonorm T σ) ∧
      (∀ t, gaussianNonorm T σ t = 1 ↔ t = T / 2) := by
  refine ⟨fun t => ⟨exp_pos _, ?_⟩, fun t => gauss_symm T σ t, fun t => ?_⟩
  · unfold gaussianNonorm
    rw [exp_le_one_iff]
    exact div_nonpos_of_nonpos_of_nonneg (neg_nonpos.2 (sq_nonneg _)) (by positivity)
  · unfold gaussianNonorm
    rw [exp_eq_one_iff, div_eq_zero_iff, or_iff_left (by positivity), neg_eq_zero, sq_eq_zero_iff, sub_eq_zero]

example : (0 : ℝ) < 5 := by norm_num

/-- `gaussian_sigma` and `drag_sigma` are symmetric, vanish exactly at the ends of the pulse, are positive inside
and largest in the middle. -/
theorem C83_gaussian_sigma (T σ : ℝ) (hσ : 0 < σ) (hT : 0 < T) :
    Symmetric T (gaussianSigma T σ) ∧ Symmetric T (dragSigma T σ) ∧
      gaussianSigma T σ 0 = 0 ∧ gaussianSigma T σ T = 0 ∧ dragSigma T σ 0 = 0 ∧ dragSigma T σ T = 0 ∧
      (∀ t, 0 < t → t < T → 0 < gaussianSigma T σ t ∧ gaussianSigma T σ t ≤ gaussianSigma T σ (T / 2) ∧
        0 < dragSigma T σ t ∧ dragSigma T σ t ≤ dragSigma T σ (T / 2)) := by
  have hn := norm_pos T σ hσ hT
  obtain ⟨e1, e2⟩ := offset_eq_ends T σ
  have f1 : ∀ t, gaussianSigma T σ t = (gaussianNonorm T σ t - offset T σ) / norm T σ := fun t => rfl
  have f2 : ∀ t, dragSigma T σ t = (gaussianNonorm T σ t - offset T σ) ^ 2 / norm T σ := fun t => rfl
  have hs := (C83_gaussian_nonorm T σ hσ).2.1
  refine ⟨fun t => by rw [f1, f1, hs t], fun t => by rw [f2, f2, hs t], ?_, ?_, ?_, ?_, ?_⟩
  · rw [f1, e1]; simp
  · rw [f1, e2]; simp
  · rw [f2, e1]; simp
  · rw [f2, e2]; simp
  · intro t h0 h1
    have hlt := offset_lt T σ t hσ h0 h1
    have hmid : gaussianNonorm T σ t ≤ gaussianNonorm T σ (T / 2) := by
      rw [((C83_gaussian_nonorm T σ hσ).2.2 (T / 2)).2 rfl]
      exact ((C83_gaussian_nonorm T σ hσ).1 t).2
    have hd : 0 < gaussianNonorm T σ t - offset T σ := by linarith
    rw [f1, f1, f2, f2]
    refine ⟨div_pos hd hn, div_le_div_of_nonneg_right (by linarith) hn.le, div_pos (pow_pos hd 2) hn,
      div_le_div_of_nonneg_right ?_ hn.le⟩
    exact pow_le_pow_left₀ hd.le (by linarith) 2

example : (0 : ℝ) < 5 ∧ (0 : ℝ) < 20 := by norm_num

theorem tendsto_erf : Filter.Tendsto erf Filter.atTop (nhds 1) := by
  have h1 := intervalIntegral_tendsto_integral_Ioi (f := fun s : ℝ => exp (-s ^ 2)) (μ := volume) 0
    exp_sq_integrable.integrableOn (Filter.tendsto_id (α := ℝ) (x := Filter.atTop))
  have h2 := integral_gaussian_Ioi 1
  simp only [neg_mul, one_mul, div_one] at h2
  rw [h2] at h1
  have hpi : 0 < √π := sqrt_pos.2 pi_pos
  have h3 := h1.const_mul (2 / √π)
  rw [show 2 / √π * (√π / 2) = 1 by field_simp] at h3
  exact h3

/-- C83: the steeper the edges, the closer the flat top is to one between its ends, to zero outside and to one half at
them. -/
theorem C83_flattop_edges (up down : ℝ) (h : up < down) :
    (∀ t, up < t → t < down → Filter.Tendsto (fun r => flattop up down r t) (nhdsWithin 0 (Set.Ioi 0)) (nhds 1)) ∧
    (∀ t, t < up ∨ down < t → Filter.Tendsto (fun r => flattop up down r t) (nhdsWithin 0 (Set.Ioi 0)) (nhds 0)) ∧
    (∀ t, t = up ∨ t = down →
      Filter.Tendsto (fun r => flattop up down r t) (nhdsWithin 0 (Set.Ioi 0)) (nhds (1 / 2))) := by
  have hpos : ∀ x : ℝ, 0 < x → Filter.Tendsto (fun r => erf (x / r)) (nhdsWithin 0 (Set.Ioi 0)) (nhds 1) := by
    intro x hx
    refine tendsto_erf.comp (g := erf) (f := fun r => x / r) ?_
    simp only [div_eq_mul_inv]
    exact tendsto_inv_nhdsGT_zero.const_mul_atTop hx
  have hneg : ∀ x : ℝ, x < 0 → Filter.Tendsto (fun r => erf (x / r)) (nhdsWithin 0 (Set.Ioi 0)) (nhds (-1)) := by
    intro x hx
    have := (hpos (-x) (by linarith)).neg
    refine this.congr fun r => ?_
    rw [neg_div, erf_neg, neg_neg]
  have hzero : Filter.Tendsto (fun r : ℝ => erf (0 / r)) (nhdsWithin 0 (Set.Ioi 0)) (nhds 0) := by
    simp only [zero_div, erf_zero]
    exact tendsto_const_nhds
  have key : ∀ t a b : ℝ, Filter.Tendsto (fun r => erf ((t - up) / r)) (nhdsWithin 0 (Set.Ioi 0)) (nhds a) →
      Filter.Tendsto (fun r => erf ((-t + down) / r)) (nhdsWithin 0 (Set.Ioi 0)) (nhds b) →
      Filter.Tendsto (fun r => flattop up down r t) (nhdsWithin 0 (Set.Ioi 0)) (nhds ((1 + a) / 2 * (1 + b) / 2)) :=
    fun t a b ha hb => (((ha.const_add 1).div_const 2).mul (hb.const_add 1)).div_const 2
  refine ⟨fun t h1 h2 => ?_, fun t ht => ?_, fun t ht => ?_⟩
  · have := key t 1 1 (hpos _ (by linarith)) (hpos _ (by linarith))
    norm_num at this
    exact this
  · rcases ht with ht | ht
    · have := key t (-1) 1 (hneg _ (by linarith)) (hpos _ (by linarith))
      norm_num at this
      exact this
    · have := key t 1 (-1) (hpos _ (by linarith)) (hneg _ (by linarith))
      norm_num at this
      exact this
  · rcases ht with rfl | rfl
    · have := key t 0 1 (by rw [sub_self]; exact hzero) (hpos _ (by linarith))
      norm_num at this
      exact this
    · have := key t 1 0 (hpos _ (by linarith)) (by rw [neg_add_cancel]; exact hzero)
      norm_num at this
      exact this

/-- `flattop` lies in [0, 1] and is symmetric about the middle between its ramps, `flattop_risefall` about the
middle of the pulse. -/
theorem C83_flattop (up down r T : ℝ) :
    (∀ t, 0 ≤ flattop up down r t ∧ flattop up down r t ≤ 1) ∧ Symmetric (up + down) (flattop up down r) ∧
      Symmetric T (flattopRisefall T r) ∧ ∀ t, 0 ≤ flattopRisefall T r t ∧ flattopRisefall T r t ≤ 1 := by
  have hb : ∀ up down t, 0 ≤ flattop up down r t ∧ flattop up down r t ≤ 1 := by
    intro up down t
    unfold flattop
    have a1 := erf_le_one ((t - up) / r)
    have a2 := neg_one_le_erf ((t - up) / r)
    have b1 := erf_le_one ((-t + down) / r)
    have b2 := neg_one_le_erf ((-t + down) / r)
    constructor
    · have : 0 ≤ (1 + erf ((t - up) / r)) * (1 + erf ((-t + down) / r)) :=
        mul_nonneg (by linarith) (by linarith)
      nlinarith
    · nlinarith
  have hs : ∀ up down, Symmetric (up + down) (flattop up down r) := by
    intro up down t
    unfold flattop
    have h1 : (up + down - t - up) / r = (-t + down) / r := by ring
    have h2 : (-(up + down - t) + down) / r = (t - up) / r := by ring
    rw [h1, h2]
    ring
  refine ⟨hb up down, hs up down, ?_, hb r (T - r)⟩
  intro t
  have := hs r (T - r) t
  unfold flattopRisefall
  rwa [show r + (T - r) = T by ring] at this

/-- `flattop_cut_center` lies in [0, 1], is symmetric about the middle of the pulse, and vanishes outside the
window of the given width. -/
theorem C83_flattop_cut_center (T w r : ℝ) (hr : 0 < r) (hw : 0 ≤ w) :
    (∀ t, 0 ≤ flattopCutCenter T w r t ∧ flattopCutCenter T w r t ≤ 1) ∧ Symmetric T (flattopCutCenter T w r) ∧
      ∀ t, w / 2 ≤ |t - T / 2| → flattopCutCenter T w r t = 0 := by
  refine ⟨fun t => ⟨le_max_left _ _, ?_⟩, fun t => ?_, fun t ht => ?_⟩
  · unfold flattopCutCenter
    refine max_le zero_le_one ((min_le_right _ _).trans ?_)
    have a1 := erf_le_one ((t - (T / 2 - w / 2)) / r)
    have a2 := neg_one_le_erf ((t - (T / 2 - w / 2)) / r)
    have b1 := erf_le_one ((-t + (T / 2 + w / 2)) / r)
    have b2 := neg_one_le_erf ((-t + (T / 2 + w / 2)) / r)
    nlinarith
  · unfold flattopCutCenter
    have h1 : (T - t - (T / 2 - w / 2)) / r = (-t + (T / 2 + w / 2)) / r := by ring
    have h2 : (-(T - t) + (T / 2 + w / 2)) / r = (t - (T / 2 - w / 2)) / r := by ring
    rw [h1, h2, mul_comm]
  · unfold flattopCutCenter
    refine max_eq_left ((min_le_right _ _).trans ?_)
    rcases le_total 0 (t - T / 2) with h | h
    · rw [abs_of_nonneg h] at ht
      have h1 := erf_nonneg ((t - (T / 2 - w / 2)) / r) (div_nonneg (by linarith) hr.le)
      have h2 := erf_nonneg (-((-t + (T / 2 + w / 2)) / r)) (by
        rw [← neg_div]; exact div_nonneg (by linarith) hr.le)
      rw [erf_neg] at h2
      nlinarith
    · rw [abs_of_nonpos h] at ht
      have h1 := erf_nonneg ((-t + (T / 2 + w / 2)) / r) (div_nonneg (by linarith) hr.le)
      have h2 := erf_nonneg (-((t - (T / 2 - w / 2)) / r)) (by
        rw [← neg_div]; exact div_nonneg (by linarith) hr.le)
      rw [erf_neg] at h2
      nlinarith

example : (0 : ℝ) < 1 ∧ (0 : ℝ) ≤ 10 := by norm_num

end C3.Envelopes
