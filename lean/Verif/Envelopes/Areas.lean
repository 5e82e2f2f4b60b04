import Verif.Envelopes.Shapes
import Verif.Envelopes.Drag

/-!
# C221: areas of the envelopes

The area of a resonant pulse is the angle of its rotation (C209, C219), so amplitudes are chosen by the areas of the
shapes of c3/libraries/envelopes.py. Continuous shapes are integrated; `cosine_flattop`, which works on samples, is
summed.
-/

noncomputable section

namespace C3.Envelopes

open Real intervalIntegral MeasureTheory

/-! ## Trapezoid -/

theorem trapezoid_min (T r : ℝ) (hr : 0 < r) (hfit : r * 5 ≤ T) (t : ℝ) :
    trapezoid T r t = min (t / (r * 2.5)) (min 1 ((T - t) / (r * 2.5))) := by
  have hs : 0 < r * 2.5 := by positivity
  have hfit' : r * 2.5 + r * 2.5 ≤ T := by norm_num at *; linarith
  unfold trapezoid
  generalize r * 2.5 = s at *
  by_cases h1 : T - s ≤ t
  · rw [if_pos h1]
    have a : (T - t) / s ≤ 1 := by rw [div_le_one hs]; linarith
    have b : (T - t) / s ≤ t / s := by gcongr; linarith
    rw [min_eq_right a, min_eq_right b]
  · rw [if_neg h1]
    push Not at h1
    have a : 1 ≤ (T - t) / s := by rw [one_le_div hs]; linarith
    rw [min_eq_left a]
    by_cases h2 : t ≤ s
    · rw [if_pos h2, min_eq_left (by rw [div_le_one hs]; exact h2)]
    · rw [if_neg h2, min_eq_right (by rw [one_le_div hs]; linarith)]

/-- **C221**: the area of a trapezoid whose slopes fit is its length less that of one slope. -/
theorem C221_trapezoid_partial (T r : ℝ) (hr : 0 < r) (hfit : r * 5 ≤ T) :
    ∫ t in (0 : ℝ)..T, trapezoid T r t = T - r * 2.5 := by
  have hcont : Continuous (trapezoid T r) := by
    rw [show trapezoid T r = _ from funext (trapezoid_min T r hr hfit)]
    fun_prop
  obtain ⟨-, -, -, -, hmid⟩ := C83_trapezoid_partial T r hr hfit
  have hs : 0 < r * 2.5 := by positivity
  have hfit' : r * 2.5 + r * 2.5 ≤ T := by norm_num at *; linarith
  have hup : ∀ t ≤ r * 2.5, trapezoid T r t = t / (r * 2.5) := by
    intro t ht
    rw [trapezoid_min T r hr hfit, min_eq_left]
    refine le_min ?_ ?_
    · rw [div_le_one hs]; exact ht
    · gcongr; linarith
  have hdn : ∀ t, T - r * 2.5 ≤ t → trapezoid T r t = (T - t) / (r * 2.5) := by
    intro t ht
    unfold trapezoid
    rw [if_pos ht]
  generalize r * 2.5 = s at *
  rw [← integral_add_adjacent_intervals (b := s) (hcont.intervalIntegrable _ _) (hcont.intervalIntegrable _ _),
    ← integral_add_adjacent_intervals (a := s) (b := T - s) (hcont.intervalIntegrable _ _) (hcont.intervalIntegrable _ _)]
  have i1 : ∫ t in (0 : ℝ)..s, trapezoid T r t = s / 2 := by
    rw [integral_congr (g := fun t => t / s) (fun t ht => hup t (by rw [Set.uIcc_of_le hs.le] at ht; exact ht.2)),
      intervalIntegral.integral_div, integral_id]
    field_simp
    ring
  have i2 : ∫ t in s..(T - s), trapezoid T r t = T - s - s := by
    have hle : s ≤ T - s := by linarith
    rw [integral_congr (g := fun _ => 1) (fun t ht => by rw [Set.uIcc_of_le hle] at ht; exact hmid t ht.1 ht.2)]
    simp
  have i3 : ∫ t in (T - s)..T, trapezoid T r t = s / 2 := by
    have hle : T - s ≤ T := by linarith
    rw [integral_congr (g := fun t => (T - t) / s) (fun t ht => hdn t (by rw [Set.uIcc_of_le hle] at ht; exact ht.1)),
      intervalIntegral.integral_div, intervalIntegral.integral_sub (continuous_const.intervalIntegrable _ _)
        ((by fun_prop : Continuous fun x : ℝ => x).intervalIntegrable _ _), integral_id, intervalIntegral.integral_const, smul_eq_mul]
    field_simp
    ring
  rw [i1, i2, i3]
  ring

example : ∫ t in (0 : ℝ)..20, trapezoid 20 2 t = 15 := by
  rw [C221_trapezoid_partial 20 2 (by norm_num) (by norm_num)]
  norm_num

/-- If the slopes do not fit, the area is another one. -/
theorem C221_false_trapezoid : ∫ t in (0 : ℝ)..1, trapezoid 1 1 t = 1 / 5 ∧ (1 : ℝ) - 1 * 2.5 < 0 := by
  have h : ∀ t ∈ Set.uIcc (0 : ℝ) 1, trapezoid 1 1 t = (1 - t) / 2.5 := by
    intro t ht
    rw [Set.uIcc_of_le (by norm_num)] at ht
    unfold trapezoid
    rw [if_pos (by have := ht.1; norm_num; linarith), one_mul]
  refine ⟨?_, by norm_num⟩
  rw [integral_congr h, intervalIntegral.integral_div, intervalIntegral.integral_sub (continuous_const.intervalIntegrable _ _)
        ((by fun_prop : Continuous fun x : ℝ => x).intervalIntegrable _ _), integral_id, intervalIntegral.integral_const, smul_eq_mul]
  norm_num

/-! ## Gaussians -/

theorem odd_area (T : ℝ) (f : ℝ → ℝ) (h : ∀ t, f (T - t) = -f t) : ∫ t in (0 : ℝ)..T, f t = 0 := by
  have h1 := integral_comp_sub_left (a := 0) (b := T) f T
  simp only [h, sub_self, sub_zero] at h1
  rw [intervalIntegral.integral_neg] at h1
  linarith

theorem gauss_flip (T σ t : ℝ) : exp (-(T - t - T / 2) ^ 2 / (2 * σ ^ 2)) = exp (-(t - T / 2) ^ 2 / (2 * σ ^ 2)) := by
  congr 2
  ring

/-- **C221**: the derivatives have no area: they do not turn the qubit. -/
theorem C221_derivatives (T σ : ℝ) :
    ∫ t in (0 : ℝ)..T, gaussianDerNonorm T σ t = 0 ∧ ∫ t in (0 : ℝ)..T, gaussianDer T σ t = 0 ∧
      ∫ t in (0 : ℝ)..T, dragDer T σ t = 0 := by
  refine ⟨odd_area T _ fun t => ?_, odd_area T _ fun t => ?_, odd_area T _ fun t => ?_⟩
  · unfold gaussianDerNonorm
    rw [gauss_flip]
    ring
  · unfold gaussianDer
    rw [gauss_flip]
    ring
  · unfold dragDer
    rw [gauss_flip]
    ring

/-- **C221**: the areas of the Gaussian, of the normalized one and of the second order one. -/
theorem C221_gaussian (T σ : ℝ) (hσ : 0 < σ) (hT : 0 < T) :
    ∫ t in (0 : ℝ)..T, gaussianNonorm T σ t = √(2 * π) * σ * erf (T / (2 * √2 * σ)) ∧
    ∫ t in (0 : ℝ)..T, gaussianSigma T σ t = 1 ∧
    ∫ t in (0 : ℝ)..T, dragSigma T σ t =
      (√π * σ * erf (T / (2 * σ)) - 2 * exp (-T ^ 2 / (8 * σ ^ 2)) * (√(2 * π) * σ * erf (T / (2 * √2 * σ))) +
        exp (-T ^ 2 / (8 * σ ^ 2)) ^ 2 * T) / norm T σ := by
  have h8 : √8 = 2 * √2 := by
    rw [show (8 : ℝ) = 2 ^ 2 * 2 by norm_num, sqrt_mul (by positivity), sqrt_sq (by norm_num)]
  have hsq : √(2 * π * σ ^ 2) = √(2 * π) * σ := by rw [sqrt_mul (by positivity), sqrt_sq hσ.le]
  have h1 : ∫ t in (0 : ℝ)..T, gaussianNonorm T σ t = √(2 * π) * σ * erf (T / (2 * √2 * σ)) := by
    rw [gauss_area T σ hσ, hsq, h8]
  refine ⟨h1, C120_area T σ hσ hT, ?_⟩
  have hs2 : 0 < σ / √2 := by positivity
  have hsq2 : √2 ^ 2 = 2 := sq_sqrt (by norm_num)
  have e : ∀ t, dragSigma T σ t = (gaussianNonorm T (σ / √2) t - 2 * offset T σ * gaussianNonorm T σ t + offset T σ ^ 2) /
      norm T σ := by
    intro t
    have : gaussianNonorm T (σ / √2) t = gaussianNonorm T σ t ^ 2 := by
      unfold gaussianNonorm
      rw [← exp_nat_mul, div_pow, hsq2]
      congr 1
      push_cast
      field_simp
    rw [this]
    unfold dragSigma gaussianNonorm
    ring
  simp_rw [e]
  rw [intervalIntegral.integral_div, intervalIntegral.integral_add, intervalIntegral.integral_sub,
    intervalIntegral.integral_const_mul, intervalIntegral.integral_const, h1, gauss_area T _ hs2]
  · congr 1
    have a1 : √(2 * π * (σ / √2) ^ 2) = √π * σ := by
      rw [div_pow, hsq2, show 2 * π * (σ ^ 2 / 2) = π * σ ^ 2 by ring, sqrt_mul (by positivity), sqrt_sq hσ.le]
    have a2 : T / (√8 * (σ / √2)) = T / (2 * σ) := by
      rw [h8]
      have : √2 ≠ 0 := by positivity
      field_simp
    rw [a1, a2, smul_eq_mul, sub_zero]
    unfold offset
    ring
  · exact (gauss_cont T _).intervalIntegrable _ _
  · exact ((gauss_cont T _).const_mul _).intervalIntegrable _ _
  · exact ((gauss_cont T _).sub ((gauss_cont T _).const_mul _)).intervalIntegrable _ _
  · exact continuous_const.intervalIntegrable _ _

example : (0 : ℝ) < 5 ∧ (0 : ℝ) < 20 := by norm_num

/-! ## Flat top with cosine ramps -/

/-- **C221**: the samples of `cosine_flattop` add up to one per slice, except for one ramp: each sample of the ramp down
completes one of the ramp up. -/
theorem C221_cosine_flattop (ts : List ℝ) (tRise : ℝ) (l : List ℝ) (h : cosineFlattop ts tRise = some l) :
    l.sum = ts.length - (⌊tRise / (ts.getD 1 0 - ts.getD 0 0)⌋₊ : ℕ) := by
  unfold cosineFlattop at h
  simp only at h
  generalize ⌊tRise / (ts.getD 1 0 - ts.getD 0 0)⌋₊ = n at *
  split_ifs at h with hn
  obtain rfl := Option.some.inj h
  have key : ∀ u : List ℝ, (u.map fun t => 0.5 * (1 - cos (π * t / tRise))).sum +
      (u.map fun t => 0.5 * (1 + cos (π * t / tRise))).sum = u.length := by
    intro u
    induction u with
    | nil => simp
    | cons a u ih =>
      simp only [List.map_cons, List.sum_cons, List.length_cons]
      push_cast
      rw [← ih]
      ring
  have hk := key (ts.take n)
  rw [List.length_take, Nat.min_eq_left (by omega)] at hk
  rw [List.sum_append, List.sum_append, List.sum_replicate, nsmul_eq_mul, mul_one, Nat.cast_sub (by omega)]
  push_cast
  linarith

/-- **C221**: on centred samples with ramps of whole slices the area is the length less that of one ramp. -/
theorem C221_cosine_flattop_area (dt : ℝ) (hdt : 0 < dt) (N n : ℕ) (hn : 0 < n) (hN : 2 * n ≤ N) :
    ∃ l, cosineFlattop (centered dt N) (n * dt) = some l ∧ l.sum * dt = N * dt - n * dt := by
  obtain ⟨l, hl, -⟩ := C83_cosine_flattop dt hdt N n hn hN
  refine ⟨l, hl, ?_⟩
  have hget : ∀ k, k < N → (centered dt N).getD k 0 = ((k : ℝ) + 1 / 2) * dt := by
    intro k hk
    simp [centered, List.getD_eq_getElem?_getD, hk]
  have hd : (centered dt N).getD 1 0 - (centered dt N).getD 0 0 = dt := by
    rw [hget 1 (by omega), hget 0 (by omega)]; push_cast; ring
  rw [C221_cosine_flattop _ _ l hl, hd, mul_div_assoc, div_self hdt.ne', mul_one, Nat.floor_natCast]
  simp [centered]
  ring

/-! ## Fourier series -/

/-- **C221**: the area of a Fourier pulse is the sum of the areas of its waves. -/
theorem C221_fourier (amps freqs phases : List ℝ) (hf : ∀ w ∈ freqs, w ≠ 0) (T : ℝ) :
    ∫ t in (0 : ℝ)..T, fourierSin amps freqs phases t =
      (List.zipWith (· * ·) amps (List.zipWith (fun w p => (cos p - cos (w * T + p)) / w) freqs phases)).sum ∧
    ∫ t in (0 : ℝ)..T, fourierCos amps freqs t =
      (List.zipWith (· * ·) amps (freqs.map fun w => sin (w * T) / w)).sum := by
  constructor
  · unfold fourierSin
    induction amps generalizing freqs phases with
    | nil => simp
    | cons a amps ih =>
      cases freqs with
      | nil => simp
      | cons w freqs =>
        cases phases with
        | nil => simp
        | cons p phases =>
          have hw : w ≠ 0 := hf w (by simp)
          simp only [List.zipWith_cons_cons, List.sum_cons]
          have hcont : ∀ (amps freqs phases : List ℝ), Continuous fun t =>
              (List.zipWith (· * ·) amps (List.zipWith (fun w p => sin (w * t + p)) freqs phases)).sum := by
            intro amps
            induction amps with
            | nil => intro f p; simpa using continuous_const
            | cons a amps ih =>
              intro f p
              cases f with
              | nil => simpa using continuous_const
              | cons w f =>
                cases p with
                | nil => simpa using continuous_const
                | cons q p =>
                  simp only [List.zipWith_cons_cons, List.sum_cons]
                  exact (by fun_prop : Continuous fun t : ℝ => a * sin (w * t + q)).add (ih f p)
          rw [intervalIntegral.integral_add ((by fun_prop : Continuous fun t : ℝ => a * sin (w * t + p)).intervalIntegrable _ _)
            ((hcont _ _ _).intervalIntegrable _ _), ih freqs phases fun x hx => hf x (by simp [hx]),
            intervalIntegral.integral_const_mul, integral_comp_mul_add (fun x => sin x) hw, integral_sin]
          simp only [mul_zero, zero_add, smul_eq_mul]
          ring
  · unfold fourierCos
    induction amps generalizing freqs with
    | nil => simp
    | cons a amps ih =>
      cases freqs with
      | nil => simp
      | cons w freqs =>
        have hw : w ≠ 0 := hf w (by simp)
        simp only [List.map_cons, List.zipWith_cons_cons, List.sum_cons]
        have hcont : ∀ (amps freqs : List ℝ), Continuous fun t =>
            (List.zipWith (· * ·) amps (freqs.map fun w => cos (w * t))).sum := by
          intro amps
          induction amps with
          | nil => intro f; simpa using continuous_const
          | cons a amps ih =>
            intro f
            cases f with
            | nil => simpa using continuous_const
            | cons w f =>
              simp only [List.map_cons, List.zipWith_cons_cons, List.sum_cons]
              exact (by fun_prop : Continuous fun t : ℝ => a * cos (w * t)).add (ih f)
        rw [intervalIntegral.integral_add ((by fun_prop : Continuous fun t : ℝ => a * cos (w * t)).intervalIntegrable _ _)
          ((hcont _ _).intervalIntegrable _ _), ih freqs fun x hx => hf x (by simp [hx]),
          intervalIntegral.integral_const_mul, integral_comp_mul_left (fun x => cos x) hw, integral_cos]
        simp only [mul_zero, sin_zero, sub_zero, smul_eq_mul]
        ring

example : ∫ t in (0 : ℝ)..1, fourierCos [1] [π / 2] t = 2 / π := by
  rw [(C221_fourier [1] [π / 2] [] (by simp [pi_ne_zero]) 1).2]
  simp

/-! ## Interpolated and Slepian pulses -/

/-- **C221**: the area of an interpolated pulse is that of the trapezoidal rule for its samples. -/
theorem C221_pwc_shape (s e : ℝ) (hse : s < e) (ys : List ℝ) (hn : 2 ≤ ys.length) :
    ∫ t in s..e, interp s e ys t = ∑ k ∈ Finset.range (ys.length - 1),
      (e - s) / (ys.length - 1 : ℕ) * ((ys.getD k 0 + ys.getD (k + 1) 0) / 2) := by
  have hcast : ((ys.length - 1 : ℕ) : ℝ) = (ys.length : ℝ) - 1 := by
    rw [Nat.cast_sub (by omega)]
    simp
  have hn' : (0 : ℝ) < (ys.length : ℝ) - 1 := by
    have : (2 : ℝ) ≤ ys.length := by exact_mod_cast hn
    linarith
  rw [hcast]
  set h := (e - s) / ((ys.length : ℝ) - 1) with hh
  have hpos : 0 < h := by
    have : 0 < e - s := by linarith
    positivity
  have hline : ∀ k < ys.length - 1, ∀ x ∈ Set.uIcc (s + (k : ℝ) * h) (s + ((k + 1 : ℕ) : ℝ) * h), interp s e ys x =
      ys.getD k 0 + (x - (s + k * h)) / h * (ys.getD (k + 1) 0 - ys.getD k 0) := by
    intro k hk x hx
    rw [Set.uIcc_of_le (by push_cast; nlinarith)] at hx
    obtain ⟨h0, h1⟩ := hx
    have hy : ys[k]? = some (ys.getD k 0) := by
      rw [List.getD_eq_getElem?_getD, List.getElem?_eq_getElem (by omega), Option.getD_some]
    have hz : ys[k + 1]? = some (ys.getD (k + 1) 0) := by
      rw [List.getD_eq_getElem?_getD, List.getElem?_eq_getElem (by omega), Option.getD_some]
    rcases eq_or_lt_of_le h1 with h1 | h1
    · rw [h1, C121_node s e hse ys hn (k + 1) _ hz]
      push_cast
      field_simp
      ring
    · have := C121_linear s e hse ys k _ _ hy hz ((x - (s + k * h)) / h) (div_nonneg (by linarith) hpos.le) (by
        rw [div_lt_one hpos]
        push_cast at h1
        linarith)
      rw [← hh] at this
      rw [show s + ((k : ℝ) + (x - (s + k * h)) / h) * h = x by field_simp; ring] at this
      rw [this]
      ring
  have hcl : ∀ k : ℕ, Continuous fun x : ℝ => ys.getD k 0 + (x - (s + k * h)) / h * (ys.getD (k + 1) 0 - ys.getD k 0) :=
    fun k => by fun_prop
  have hint : ∀ k < ys.length - 1,
      IntervalIntegrable (interp s e ys) volume (s + (k : ℝ) * h) (s + ((k + 1 : ℕ) : ℝ) * h) := by
    intro k hk
    refine ((hcl k).intervalIntegrable _ _).congr ?_
    intro x hx
    exact (hline k hk x (Set.uIoc_subset_uIcc hx)).symm
  have hsum := sum_integral_adjacent_intervals (f := interp s e ys) (μ := volume) (a := fun k : ℕ => s + (k : ℝ) * h)
    (n := ys.length - 1) hint
  have hend : s + ((ys.length - 1 : ℕ) : ℝ) * h = e := by
    rw [hcast, hh]
    field_simp
    ring
  simp only [Nat.cast_zero, zero_mul, add_zero, hend] at hsum
  rw [← hsum]
  refine Finset.sum_congr rfl fun k hk => ?_
  rw [integral_congr (hline k (Finset.mem_range.1 hk))]
  have hF : ∀ x ∈ Set.uIcc (s + (k : ℝ) * h) (s + ((k + 1 : ℕ) : ℝ) * h), HasDerivAt
      (fun x => ys.getD k 0 * x + (x - (s + k * h)) ^ 2 / (2 * h) * (ys.getD (k + 1) 0 - ys.getD k 0))
      (ys.getD k 0 + (x - (s + k * h)) / h * (ys.getD (k + 1) 0 - ys.getD k 0)) x := by
    intro x _
    have h1 := (hasDerivAt_id x).const_mul (ys.getD k 0)
    have h2 := ((((hasDerivAt_id x).sub_const (s + k * h)).pow 2).div_const (2 * h)).mul_const
      (ys.getD (k + 1) 0 - ys.getD k 0)
    refine (h1.add h2).congr_deriv ?_
    simp only [id, mul_one, Nat.cast_ofNat]
    field_simp
    ring
  rw [integral_eq_sub_of_hasDerivAt hF ((hcl k).intervalIntegrable _ _)]
  push_cast
  field_simp
  ring

example : ∫ t in (0 : ℝ)..2, interp 0 2 [0, 1, 0] t = 1 := by
  rw [C221_pwc_shape 0 2 (by norm_num) _ (by norm_num)]
  simp [Finset.sum_range_succ]
  norm_num

theorem integral_list_sum {α : Type} (l : List α) (f : α → ℝ → ℝ) (a b : ℝ) (hf : ∀ x ∈ l, Continuous (f x)) :
    ∫ t in a..b, (l.map fun x => f x t).sum = (l.map fun x => ∫ t in a..b, f x t).sum ∧
      Continuous fun t => (l.map fun x => f x t).sum := by
  induction l with
  | nil => exact ⟨by simp, by simpa using continuous_const⟩
  | cons x l ih =>
    obtain ⟨h1, h2⟩ := ih fun y hy => hf y (by simp [hy])
    have hx := hf x (by simp)
    simp only [List.map_cons, List.sum_cons]
    refine ⟨?_, hx.add h2⟩
    rw [intervalIntegral.integral_add (hx.intervalIntegrable _ _) (h2.intervalIntegrable _ _), h1]

/-- **C221**: the area of a Slepian pulse without plateau, before it is scaled to maximum one: each cosine coefficient
counts with the width of the pulse, each sine coefficient with the area of one arc of its wave. -/
theorem C221_slepian (T w : ℝ) (hw : 0 < w) (cs ss : List ℝ) :
    ∫ t in ((T - w) / 2)..((T + w) / 2), slepianRaw T w none cs ss t =
      w * cs.sum + (ss.zipIdx.map fun cn => cn.1 * (2 * w / (π * (2 * cn.2 + 1)))).sum := by
  have hpi := pi_pos
  have e1 : ∫ t in ((T - w) / 2)..((T + w) / 2), slepianRaw T w none cs ss t =
      ∫ t in ((T - w) / 2)..((T + w) / 2), slepianSeries T w cs ss t := by
    refine integral_congr fun t ht => ?_
    rw [Set.uIcc_of_le (by linarith)] at ht
    unfold slepianRaw
    rw [if_neg]
    rw [not_lt, abs_le]
    constructor <;> linarith [ht.1, ht.2]
  rw [e1]
  unfold slepianSeries
  obtain ⟨c1, c2⟩ := integral_list_sum cs.zipIdx
    (fun cn t => cn.1 * (1 - cos (2 * π * (cn.2 + 1) * (t - (T - w) / 2) / w))) ((T - w) / 2) ((T + w) / 2)
    (fun x _ => by fun_prop)
  obtain ⟨s1, s2⟩ := integral_list_sum ss.zipIdx
    (fun cn t => cn.1 * sin (π * (2 * cn.2 + 1) * (t - (T - w) / 2) / w)) ((T - w) / 2) ((T + w) / 2)
    (fun x _ => by fun_prop)
  rw [intervalIntegral.integral_add (c2.intervalIntegrable _ _) (s2.intervalIntegrable _ _), c1, s1]
  congr 1
  · have : ∀ cn ∈ cs.zipIdx, ∫ t in ((T - w) / 2)..((T + w) / 2),
        cn.1 * (1 - cos (2 * π * (cn.2 + 1) * (t - (T - w) / 2) / w)) = w * cn.1 := by
      intro cn _
      have hc : (2 * π * ((cn.2 : ℝ) + 1) / w) ≠ 0 := by positivity
      have e : ∀ t : ℝ, 2 * π * ((cn.2 : ℝ) + 1) * (t - (T - w) / 2) / w =
          2 * π * ((cn.2 : ℝ) + 1) / w * t + -(2 * π * ((cn.2 : ℝ) + 1) * ((T - w) / 2) / w) := fun t => by ring
      simp_rw [e]
      rw [intervalIntegral.integral_const_mul, intervalIntegral.integral_sub (continuous_const.intervalIntegrable _ _)
        ((by fun_prop : Continuous _).intervalIntegrable _ _), integral_comp_mul_add (fun x => cos x) hc, integral_cos,
        intervalIntegral.integral_const]
      have a1 : 2 * π * ((cn.2 : ℝ) + 1) / w * ((T - w) / 2) + -(2 * π * ((cn.2 : ℝ) + 1) * ((T - w) / 2) / w) = 0 := by ring
      have a2 : 2 * π * ((cn.2 : ℝ) + 1) / w * ((T + w) / 2) + -(2 * π * ((cn.2 : ℝ) + 1) * ((T - w) / 2) / w) =
          ((cn.2 + 1 : ℕ) : ℝ) * (2 * π) := by
        push_cast
        field_simp
        ring
      rw [a1, a2, sin_zero, show sin (((cn.2 + 1 : ℕ) : ℝ) * (2 * π)) = 0 by
        have := sin_nat_mul_pi (2 * (cn.2 + 1))
        rw [← this]
        congr 1
        push_cast
        ring]
      simp only [smul_eq_mul]
      ring
    rw [List.map_congr_left this, List.sum_map_mul_left, List.zipIdx_map_fst]
  · refine congrArg List.sum (List.map_congr_left fun cn _ => ?_)
    have hc : (π * (2 * (cn.2 : ℝ) + 1) / w) ≠ 0 := by positivity
    have e : ∀ t : ℝ, π * (2 * (cn.2 : ℝ) + 1) * (t - (T - w) / 2) / w =
        π * (2 * (cn.2 : ℝ) + 1) / w * t + -(π * (2 * (cn.2 : ℝ) + 1) * ((T - w) / 2) / w) := fun t => by ring
    simp_rw [e]
    rw [intervalIntegral.integral_const_mul, integral_comp_mul_add (fun x => sin x) hc, integral_sin]
    have a1 : π * (2 * (cn.2 : ℝ) + 1) / w * ((T - w) / 2) + -(π * (2 * (cn.2 : ℝ) + 1) * ((T - w) / 2) / w) = 0 := by ring
    have a2 : π * (2 * (cn.2 : ℝ) + 1) / w * ((T + w) / 2) + -(π * (2 * (cn.2 : ℝ) + 1) * ((T - w) / 2) / w) =
        (cn.2 : ℝ) * (2 * π) + π := by
      field_simp
      ring
    rw [a1, a2, cos_zero, cos_nat_mul_two_pi_add_pi, smul_eq_mul]
    field_simp
    ring

end C3.Envelopes
