import Verif.Envelopes.Gauss
import Mathlib.Analysis.SpecialFunctions.Trigonometric.Basic
import Mathlib.Analysis.SpecialFunctions.Trigonometric.Deriv
import Mathlib.Analysis.SpecialFunctions.Integrals.Basic
import Mathlib.Algebra.Order.Floor.Ring

/-!
# C83, C121-C123: cosine, trapezoid, interpolated and flat-top envelopes, tensor shapes

Models c3/libraries/envelopes.py:37-68 (`pwc_shape`), 72-101 (`pwc_shape_plateau`), 105-125
(`pwc_symmetric`), 201-224 (`trapezoid`), 284-301 (`flattop_cut`), 331-363 (`slepian_fourier`), 421-437
(`cosine`), 441-466 (`cosine_flattop`), 566-590 (`flattop_variant`), and the shapes of the tensors in
c3/signal/pulse.py:98-141.

Simplified: envelopes are real functions of one time, or lists where the code looks at all samples;
`t_rise / dt` is exact before it is truncated.
-/

namespace C3.Envelopes

open Real

/-! ## Cosine -/

/-- c3/libraries/envelopes.py:421-437 `cosine`. -/
noncomputable def cosine (T t : ℝ) : ℝ := 0.5 * (1 - cos (2 * π * t / T))

/-- `cosine` stays in [0, 1], is symmetric, vanishes at both ends and is 1 in the middle; its area is half the
length of the pulse. -/
theorem C83_cosine (T : ℝ) (hT : 0 < T) :
    (∀ t, 0 ≤ cosine T t ∧ cosine T t ≤ 1) ∧ Symmetric T (cosine T) ∧ cosine T 0 = 0 ∧ cosine T T = 0 ∧
      cosine T (T / 2) = 1 ∧ ∫ t in (0 : ℝ)..T, cosine T t = T / 2 := by
  have hT' := hT.ne'
  refine ⟨fun t => ?_, fun t => ?_, ?_, ?_, ?_, ?_⟩
  · unfold cosine
    have h1 := cos_le_one (2 * π * t / T)
    have h2 := neg_one_le_cos (2 * π * t / T)
    norm_num
    constructor <;> linarith
  · unfold cosine
    have : 2 * π * (T - t) / T = 2 * π - 2 * π * t / T := by field_simp
    rw [this, cos_two_pi_sub]
  · simp [cosine]
  · unfold cosine
    rw [mul_div_assoc, div_self hT', mul_one, cos_two_pi]; norm_num
  · unfold cosine
    have : 2 * π * (T / 2) / T = π := by field_simp
    rw [this, cos_pi]; norm_num
  · unfold cosine
    have hc : (2 * π / T) ≠ 0 := by positivity
    have h1 : ∀ t : ℝ, 2 * π * t / T = (2 * π / T) * t := fun t => by ring
    simp_rw [h1]
    rw [intervalIntegral.integral_const_mul, intervalIntegral.integral_sub
      (continuous_const.intervalIntegrable _ _) ((by fun_prop : Continuous fun t : ℝ => cos (2 * π / T * t)).intervalIntegrable _ _),
      intervalIntegral.integral_comp_mul_left (fun x => cos x) hc, integral_cos]
    have h2 : 2 * π / T * T = 2 * π := by field_simp
    rw [h2, sin_two_pi, mul_zero, sin_zero]
    simp
    ring

example : (0 : ℝ) < 20 := by norm_num

/-! ## Trapezoid -/

open scoped Classical in
/-- c3/libraries/envelopes.py:201-224 `trapezoid`; the second `tf.where` wins. -/
noncomputable def trapezoid (T r t : ℝ) : ℝ :=
  if T - r * 2.5 ≤ t then (T - t) / (r * 2.5)
  else if t ≤ r * 2.5 then t / (r * 2.5)
  else 1

/-- `trapezoid` with slopes that fit into the pulse: in [0, 1] inside the pulse, symmetric, zero at the ends and
one between the slopes. Missing: longer slopes, see `C83_trapezoid_false`. -/
theorem C83_trapezoid_partial (T r : ℝ) (hr : 0 < r) (hfit : r * 5 ≤ T) :
    (∀ t, 0 ≤ t → t ≤ T → 0 ≤ trapezoid T r t ∧ trapezoid T r t ≤ 1) ∧ Symmetric T (trapezoid T r) ∧
      trapezoid T r 0 = 0 ∧ trapezoid T r T = 0 ∧
      ∀ t, r * 2.5 ≤ t → t ≤ T - r * 2.5 → trapezoid T r t = 1 := by
  have hs : 0 < r * 2.5 := by positivity
  have hfit' : r * 2.5 + r * 2.5 ≤ T := by norm_num at *; linarith
  refine ⟨fun t h0 h1 => ?_, fun t => ?_, ?_, ?_, fun t h0 h1 => ?_⟩
  · unfold trapezoid
    split
    · constructor
      · exact div_nonneg (by linarith) hs.le
      · rw [div_le_one hs]; linarith
    · split
      · constructor
        · exact div_nonneg h0 hs.le
        · rw [div_le_one hs]; assumption
      · norm_num
  · unfold trapezoid
    generalize r * 2.5 = s at *
    by_cases h1 : T - s ≤ t
    · by_cases h2 : t ≤ s
      · have ht : t = s := by linarith
        have hT : T = s + s := by linarith
        subst ht
        rw [if_pos (by linarith), if_pos h1, hT]
        ring
      · push Not at h2
        rw [if_pos h1]
        by_cases h3 : T - s ≤ T - t
        · linarith
        · rw [if_neg h3, if_pos (by linarith)]
    · rw [if_neg h1]
      by_cases h2 : t ≤ s
      · rw [if_pos h2, if_pos (by linarith)]
        congr 1; ring
      · rw [if_neg h2, if_neg (by linarith), if_neg (by linarith)]
  · unfold trapezoid
    rw [if_neg (by linarith), if_pos hs.le, zero_div]
  · unfold trapezoid
    rw [if_pos (by linarith), sub_self, zero_div]
  · unfold trapezoid
    rcases eq_or_lt_of_le h1 with h | h
    · rw [if_pos h.ge, h]
      rw [sub_sub_cancel, div_self hs.ne']
    · rw [if_neg (by linarith)]
      rcases eq_or_lt_of_le h0 with h' | h'
      · rw [if_pos h'.ge, ← h', div_self hs.ne']
      · rw [if_neg (by linarith)]

example : (0 : ℝ) < 1 ∧ (1 : ℝ) * 5 ≤ 20 := by norm_num

/-- With slopes longer than the pulse the trapezoid neither starts at zero nor is symmetric. -/
theorem C83_trapezoid_false : trapezoid 1 1 0 ≠ 0 ∧ ¬ Symmetric 1 (trapezoid 1 1) := by
  have h0 : trapezoid 1 1 0 = 2 / 5 := by norm_num [trapezoid]
  have h1 : trapezoid 1 1 1 = 0 := by norm_num [trapezoid]
  refine ⟨by rw [h0]; norm_num, fun h => ?_⟩
  have := h 0
  rw [sub_zero, h0, h1] at this
  norm_num at this

/-! ## Interpolated envelopes -/

open scoped Classical in
/-- `tfp.math.interp_regular_1d_grid(x, s, e, ys, fill_value_below=0, fill_value_above=0)` for `s < e`. -/
noncomputable def interp (s e : ℝ) (ys : List ℝ) (x : ℝ) : ℝ :=
  if x < s ∨ e < x then 0
  else
    let f := (x - s) / (e - s) * ((ys.length : ℝ) - 1)
    let k := ⌊f⌋₊
    (f - k) * ys.getD (min (k + 1) (ys.length - 1)) 0 + (1 - (f - k)) * ys.getD k 0

/-- C121: at grid point `k` the interpolation is sample `k`. -/
theorem C121_node (s e : ℝ) (hse : s < e) (ys : List ℝ) (hn : 2 ≤ ys.length) (k : ℕ) (y : ℝ)
    (hk : ys[k]? = some y) : interp s e ys (s + k * ((e - s) / ((ys.length : ℝ) - 1))) = y := by
  have hklt : k < ys.length := (List.getElem?_eq_some_iff.1 hk).1
  have hn' : (0 : ℝ) < (ys.length : ℝ) - 1 := by
    have : (2 : ℝ) ≤ ys.length := by exact_mod_cast hn
    linarith
  have hd : 0 < e - s := by linarith
  have hk' : (k : ℝ) ≤ (ys.length : ℝ) - 1 := by
    have : (k : ℝ) + 1 ≤ ys.length := by exact_mod_cast hklt
    linarith
  have hf : (s + k * ((e - s) / ((ys.length : ℝ) - 1)) - s) / (e - s) * ((ys.length : ℝ) - 1) = k := by
    field_simp
    ring
  unfold interp
  rw [if_neg]
  · simp only [hf, Nat.floor_natCast, sub_self, zero_mul, sub_zero, one_mul, zero_add]
    simp [List.getD_eq_getElem?_getD, hk]
  · push Not
    have h0 : 0 ≤ (k : ℝ) * ((e - s) / ((ys.length : ℝ) - 1)) := by positivity
    constructor
    · linarith
    · have : (k : ℝ) * ((e - s) / ((ys.length : ℝ) - 1)) ≤ ((ys.length : ℝ) - 1) * ((e - s) / ((ys.length : ℝ) - 1)) :=
        mul_le_mul_of_nonneg_right hk' (by positivity)
      rw [mul_div_cancel₀ _ hn'.ne'] at this
      linarith

example : ∃ ys : List ℝ, 2 ≤ ys.length ∧ ys[1]? = some 3 := ⟨[1, 3], by norm_num, rfl⟩

/-- C121: between two neighbouring grid points the interpolation is the straight line between their samples. -/
theorem C121_linear (s e : ℝ) (hse : s < e) (ys : List ℝ) (k : ℕ) (y z : ℝ)
    (hy : ys[k]? = some y) (hz : ys[k + 1]? = some z) (l : ℝ) (h0 : 0 ≤ l) (h1 : l < 1) :
    interp s e ys (s + (k + l) * ((e - s) / ((ys.length : ℝ) - 1))) = (1 - l) * y + l * z := by
  have hklt : k + 1 < ys.length := (List.getElem?_eq_some_iff.1 hz).1
  have hk' : (k : ℝ) + 1 ≤ (ys.length : ℝ) - 1 := by
    have : (k : ℝ) + 1 + 1 ≤ ys.length := by exact_mod_cast hklt
    linarith
  have hk0 : (0 : ℝ) ≤ k := Nat.cast_nonneg k
  have hn' : (0 : ℝ) < (ys.length : ℝ) - 1 := by linarith
  have hd : 0 < e - s := by linarith
  have hf : (s + (k + l) * ((e - s) / ((ys.length : ℝ) - 1)) - s) / (e - s) * ((ys.length : ℝ) - 1) = k + l := by
    field_simp
    ring
  have hfloor : ⌊(k : ℝ) + l⌋₊ = k := by
    rw [Nat.floor_eq_iff (by positivity)]
    constructor <;> linarith
  unfold interp
  rw [if_neg]
  · simp only [hf, hfloor]
    rw [Nat.min_eq_left (by omega)]
    simp only [List.getD_eq_getElem?_getD, hy, hz, Option.getD_some]
    ring
  · push Not
    have h2 : 0 ≤ ((k : ℝ) + l) * ((e - s) / ((ys.length : ℝ) - 1)) := by positivity
    constructor
    · linarith
    · have : ((k : ℝ) + l) * ((e - s) / ((ys.length : ℝ) - 1)) ≤ ((ys.length : ℝ) - 1) * ((e - s) / ((ys.length : ℝ) - 1)) :=
        mul_le_mul_of_nonneg_right (by linarith) (by positivity)
      rw [mul_div_cancel₀ _ hn'.ne'] at this
      linarith

/-- C121: outside the grid the pulse is zero. -/
theorem C121_outside (s e : ℝ) (ys : List ℝ) (x : ℝ) (h : x < s ∨ e < x) : interp s e ys x = 0 := by
  unfold interp; rw [if_pos h]

/-- C121: the interpolation never leaves the range of the samples. -/
theorem C121_bounded (s e : ℝ) (hse : s < e) (ys : List ℝ) (hn : 2 ≤ ys.length) (lo hi : ℝ)
    (hys : ∀ y ∈ ys, lo ≤ y ∧ y ≤ hi) (x : ℝ) (h0 : s ≤ x) (h1 : x ≤ e) :
    lo ≤ interp s e ys x ∧ interp s e ys x ≤ hi := by
  have hn' : (0 : ℝ) < (ys.length : ℝ) - 1 := by
    have : (2 : ℝ) ≤ ys.length := by exact_mod_cast hn
    linarith
  have hd : 0 < e - s := by linarith
  unfold interp
  rw [if_neg (by push Not; exact ⟨h0, h1⟩)]
  set f := (x - s) / (e - s) * ((ys.length : ℝ) - 1) with hf
  have hf0 : 0 ≤ f := mul_nonneg (div_nonneg (by linarith) hd.le) hn'.le
  have hf1 : f ≤ (ys.length : ℝ) - 1 := by
    have : (x - s) / (e - s) ≤ 1 := by rw [div_le_one hd]; linarith
    nlinarith
  have hk1 := Nat.floor_le hf0
  have hk2 := Nat.lt_floor_add_one f
  have hklt : ⌊f⌋₊ < ys.length := by
    have : (⌊f⌋₊ : ℝ) < ys.length := by linarith
    exact_mod_cast this
  have hget : ∀ i, i < ys.length → lo ≤ ys.getD i 0 ∧ ys.getD i 0 ≤ hi := by
    intro i hi'
    rw [List.getD_eq_getElem?_getD, List.getElem?_eq_getElem hi']
    exact hys _ (List.getElem_mem hi')
  have ha := hget (min (⌊f⌋₊ + 1) (ys.length - 1)) (by omega)
  have hb := hget ⌊f⌋₊ hklt
  simp only
  have t0 : 0 ≤ f - ⌊f⌋₊ := by linarith
  have t1 : 0 ≤ 1 - (f - ⌊f⌋₊) := by linarith
  have a1 := mul_le_mul_of_nonneg_left ha.1 t0
  have a2 := mul_le_mul_of_nonneg_left ha.2 t0
  have b1 := mul_le_mul_of_nonneg_left hb.1 t1
  have b2 := mul_le_mul_of_nonneg_left hb.2 t1
  constructor <;> linarith

open scoped Classical in
/-- c3/libraries/envelopes.py:105-125 `pwc_symmetric`. -/
noncomputable def pwcSymmetric (T s e : ℝ) (ys : List ℝ) (t : ℝ) : ℝ :=
  interp s e ys (if T / 2 < t then -t + T else t)

/-- `pwc_symmetric` is symmetric about the middle of the pulse for all samples and grids. -/
theorem C83_pwc_symmetric (T s e : ℝ) (ys : List ℝ) : Symmetric T (pwcSymmetric T s e ys) := by
  intro t
  unfold pwcSymmetric
  by_cases h : T / 2 < t
  · rw [if_pos h, if_neg (by linarith)]
    congr 1; ring
  · rw [if_neg h]
    by_cases h' : T / 2 < T - t
    · rw [if_pos h']; congr 1; ring
    · rw [if_neg h']
      congr 1; linarith

open scoped Classical in
/-- The time map of c3/libraries/envelopes.py:79-83 (`pwc_shape_plateau`); the last `tf.where` wins. -/
noncomputable def plateauMap (s e w t : ℝ) : ℝ :=
  let p := w - (e - s)
  let m := (e - s) / 2
  if t < m + p ∧ m < t then m
  else if t < m then t
  else if m + p < t then t - p
  else t

open scoped Classical in
/-- c3/libraries/envelopes.py:72-101 `pwc_shape_plateau` with a width, at one time. -/
noncomputable def pwcShapePlateau (s e w : ℝ) (ys : List ℝ) (t : ℝ) : ℝ :=
  if plateauMap s e w t = (e - s) / 2 then 1 else interp s e ys (plateauMap s e w t)

/-- C122 for `pwc_shape_plateau`: for a grid starting at zero and a width at least its length, the pulse rises as
the samples say, is 1 on the plateau without its end, and continues with the rest of the samples, delayed by
the plateau. Missing: the end of the plateau and grids not starting at zero, see `C122_end_false` and
`C122_start_false`. -/
theorem C122_plateau_partial (e w : ℝ) (hw : e ≤ w) (ys : List ℝ) (t : ℝ) :
    (t < e / 2 → pwcShapePlateau 0 e w ys t = interp 0 e ys t) ∧
    (e / 2 ≤ t → t < e / 2 + (w - e) → pwcShapePlateau 0 e w ys t = 1) ∧
    (e / 2 + (w - e) < t → pwcShapePlateau 0 e w ys t = interp 0 e ys (t - (w - e))) := by
  have hmap : plateauMap 0 e w t = if t < e / 2 + (w - e) ∧ e / 2 < t then e / 2
      else if t < e / 2 then t else if e / 2 + (w - e) < t then t - (w - e) else t := by
    unfold plateauMap; simp only [sub_zero]
  unfold pwcShapePlateau
  rw [sub_zero]
  refine ⟨fun h => ?_, fun h0 h1 => ?_, fun h => ?_⟩
  · have : plateauMap 0 e w t = t := by
      rw [hmap, if_neg (by rintro ⟨-, h'⟩; linarith), if_pos h]
    rw [this, if_neg (by linarith)]
  · have : plateauMap 0 e w t = e / 2 := by
      rw [hmap]
      rcases eq_or_lt_of_le h0 with h | h
      · rw [if_neg (by rintro ⟨-, h'⟩; linarith), if_neg (by linarith), if_neg (by linarith), h]
      · rw [if_pos ⟨h1, h⟩]
    rw [this, if_pos rfl]
  · have : plateauMap 0 e w t = t - (w - e) := by
      rw [hmap, if_neg (by rintro ⟨h', -⟩; linarith), if_neg (by linarith), if_pos h]
    rw [this, if_neg (by linarith)]

example : (4 : ℝ) ≤ 6 ∧ (3 : ℝ) < 4 / 2 + (6 - 4) := by norm_num

/-- At the end of the plateau the time is not shifted back: the pulse of samples 0, 1, 0 drops to zero there,
although both the plateau and its continuation are one. -/
theorem C122_end_false : pwcShapePlateau 0 4 6 [0, 1, 0] 4 = 0 ∧ interp 0 4 [0, 1, 0] (4 - (6 - 4)) = 1 ∧
    pwcShapePlateau 0 4 6 [0, 1, 0] 3 = 1 := by
  have hm : plateauMap 0 4 6 4 = 4 := by norm_num [plateauMap]
  refine ⟨?_, ?_, ?_⟩
  · unfold pwcShapePlateau
    rw [hm, if_neg (by norm_num)]
    have := C121_node 0 4 (by norm_num) [0, 1, 0] (by norm_num) 2 0 rfl
    norm_num at this
    exact this
  · have := C121_node 0 4 (by norm_num) [0, 1, 0] (by norm_num) 1 1 rfl
    norm_num at this ⊢
    exact this
  · exact (C122_plateau_partial 4 6 (by norm_num) [0, 1, 0] 3).2.1 (by norm_num) (by norm_num)

/-- A grid that starts later has its middle computed wrongly: with samples 0, 1, 0 on [4, 8] and a plateau of
length 2, the pulse is one at time 3, before the grid starts. -/
theorem C122_start_false : pwcShapePlateau 4 8 6 [0, 1, 0] 3 = 1 := by
  have hm : plateauMap 4 8 6 3 = 2 := by norm_num [plateauMap]
  unfold pwcShapePlateau
  rw [hm, if_pos (by norm_num)]

/-! ## Slepian pulses -/

open scoped Classical in
/-- The time map of c3/libraries/envelopes.py:343-346. -/
noncomputable def slepianMap (T p t : ℝ) : ℝ :=
  if |t - T / 2| < p / 2 then T / 2
  else if t < (T - p) / 2 then t + p / 2
  else if (T + p) / 2 < t then t - p / 2
  else t

/-- c3/libraries/envelopes.py:351-360: the Fourier series in the stretched time. -/
noncomputable def slepianSeries (T L : ℝ) (cs ss : List ℝ) (x : ℝ) : ℝ :=
  (cs.zipIdx.map fun cn => cn.1 * (1 - cos (2 * π * (cn.2 + 1) * (x - (T - L) / 2) / L))).sum +
    (ss.zipIdx.map fun cn => cn.1 * sin (π * (2 * cn.2 + 1) * (x - (T - L) / 2) / L)).sum

open scoped Classical in
/-- c3/libraries/envelopes.py:330-360 `slepian_fourier` before the normalisation; `rise` is the option
`risefall`. -/
noncomputable def slepianRaw (T w : ℝ) (rise : Option ℝ) (cs ss : List ℝ) (t : ℝ) : ℝ :=
  if w / 2 < |T / 2 - t| then 0
  else match rise with
    | some r => slepianSeries T (r * 2) cs ss (slepianMap T (w - r * 2) t)
    | none => slepianSeries T w cs ss t

theorem slepianSeries_symm (T L : ℝ) (hL : L ≠ 0) (cs ss : List ℝ) (x : ℝ) :
    slepianSeries T L cs ss (T - x) = slepianSeries T L cs ss x := by
  unfold slepianSeries
  congr 1
  · congr 1
    refine List.map_congr_left fun cn _ => ?_
    congr 2
    have : 2 * π * ((cn.2 : ℝ) + 1) * (T - x - (T - L) / 2) / L =
        ((cn.2 + 1 : ℕ) : ℝ) * (2 * π) - 2 * π * (cn.2 + 1) * (x - (T - L) / 2) / L := by
      push_cast
      field_simp
      ring
    rw [this, cos_nat_mul_two_pi_sub]
  · congr 1
    refine List.map_congr_left fun cn _ => ?_
    congr 1
    have : π * (2 * (cn.2 : ℝ) + 1) * (T - x - (T - L) / 2) / L =
        π - π * (2 * cn.2 + 1) * (x - (T - L) / 2) / L + (cn.2 : ℝ) * (2 * π) := by
      field_simp
      ring
    rw [this, sin_add_nat_mul_two_pi, sin_pi_sub]

theorem slepianMap_symm (T p : ℝ) (hp : 0 ≤ p) (t : ℝ) : slepianMap T p (T - t) = T - slepianMap T p t := by
  unfold slepianMap
  have habs : |T - t - T / 2| = |t - T / 2| := by
    rw [show T - t - T / 2 = -(t - T / 2) by ring, abs_neg]
  rw [habs]
  by_cases h : |t - T / 2| < p / 2
  · rw [if_pos h, if_pos h]; ring
  · rw [if_neg h, if_neg h]
    by_cases h1 : t < (T - p) / 2
    · rw [if_pos h1, if_neg (by linarith), if_pos (by linarith)]; ring
    · rw [if_neg h1]
      by_cases h2 : (T + p) / 2 < t
      · rw [if_pos h2, if_pos (by linarith)]; ring
      · rw [if_neg h2, if_neg (by linarith), if_neg (by linarith)]

/-- `slepian_fourier` is symmetric about the middle of the pulse for all coefficients and vanishes outside its
width and at the ends of it. -/
theorem C83_slepian (T w : ℝ) (rise : Option ℝ) (hw : 0 < w) (hr : ∀ r, rise = some r → 0 < r ∧ r * 2 ≤ w)
    (cs ss : List ℝ) :
    Symmetric T (slepianRaw T w rise cs ss) ∧ ∀ t, w / 2 ≤ |T / 2 - t| → slepianRaw T w rise cs ss t = 0 := by
  have hzero : ∀ L, slepianSeries T L cs ss ((T - L) / 2) = 0 := by
    intro L
    unfold slepianSeries
    have h1 : (cs.zipIdx.map fun cn => cn.1 * (1 - cos (2 * π * (cn.2 + 1) * ((T - L) / 2 - (T - L) / 2) / L))) =
        cs.zipIdx.map fun _ => (0 : ℝ) := by
      refine List.map_congr_left fun cn _ => ?_
      simp
    have h2 : (ss.zipIdx.map fun cn => cn.1 * sin (π * (2 * cn.2 + 1) * ((T - L) / 2 - (T - L) / 2) / L)) =
        ss.zipIdx.map fun _ => (0 : ℝ) := by
      refine List.map_congr_left fun cn _ => ?_
      simp
    rw [h1, h2]
    simp
  have hsymm : Symmetric T (slepianRaw T w rise cs ss) := by
    intro t
    unfold slepianRaw
    have habs : |T / 2 - (T - t)| = |T / 2 - t| := by
      rw [show T / 2 - (T - t) = -(T / 2 - t) by ring, abs_neg]
    rw [habs]
    by_cases h : w / 2 < |T / 2 - t|
    · rw [if_pos h, if_pos h]
    · rw [if_neg h, if_neg h]
      cases rise with
      | none => exact slepianSeries_symm T w hw.ne' cs ss t
      | some r =>
        obtain ⟨h1, h2⟩ := hr r rfl
        simp only
        rw [slepianMap_symm T _ (by linarith), slepianSeries_symm T (r * 2) (by positivity)]
  refine ⟨hsymm, ?_⟩
  have hleft : slepianRaw T w rise cs ss (T / 2 - w / 2) = 0 := by
    unfold slepianRaw
    have : T / 2 - (T / 2 - w / 2) = w / 2 := by ring
    rw [this, abs_of_pos (by linarith), if_neg (lt_irrefl _)]
    cases rise with
    | none =>
      simp only
      rw [show T / 2 - w / 2 = (T - w) / 2 by ring]
      exact hzero w
    | some r =>
      obtain ⟨h1, h2⟩ := hr r rfl
      simp only
      have hx : slepianMap T (w - r * 2) (T / 2 - w / 2) = (T - r * 2) / 2 := by
        unfold slepianMap
        have : T / 2 - w / 2 - T / 2 = -(w / 2) := by ring
        rw [this, abs_neg, abs_of_pos (by linarith), if_neg (by linarith), if_pos (by linarith)]
        ring
      rw [hx]
      exact hzero (r * 2)
  intro t ht
  rcases eq_or_lt_of_le ht with h | h
  · rcases abs_cases (T / 2 - t) with ⟨h1, -⟩ | ⟨h1, -⟩
    · have : t = T / 2 - w / 2 := by linarith
      rw [this]; exact hleft
    · have : t = T - (T / 2 - w / 2) := by linarith
      rw [this, hsymm]; exact hleft
  · unfold slepianRaw
    rw [if_pos h]

example : (0 : ℝ) < 4 ∧ ∀ r : ℝ, some (1 : ℝ) = some r → 0 < r ∧ r * 2 ≤ 4 := by
  refine ⟨by norm_num, fun r h => ?_⟩
  cases h; norm_num

/-- C122 for `slepian_fourier`: inside the plateau the envelope is constant. Missing: the ends of the plateau,
see `C122_slepian_false`. -/
theorem C122_slepian_partial (T w r : ℝ) (cs ss : List ℝ) (t : ℝ) (hr : 0 < r)
    (ht : |t - T / 2| < (w - r * 2) / 2) :
    slepianRaw T w (some r) cs ss t = slepianRaw T w (some r) cs ss (T / 2) := by
  have hp : 0 < (w - r * 2) / 2 := lt_of_le_of_lt (abs_nonneg _) ht
  unfold slepianRaw
  rw [if_neg (by rw [abs_sub_comm]; linarith), if_neg (by simp; linarith)]
  simp only
  unfold slepianMap
  rw [if_pos ht, if_pos (by simp; linarith)]

example : (0 : ℝ) < 1 ∧ |(5 / 2 : ℝ) - 4 / 2| < (4 - 1 * 2) / 2 := by
  refine ⟨by norm_num, ?_⟩
  rw [abs_of_pos] <;> norm_num

/-- At the end of the plateau the time is not mapped, so a sample there breaks the plateau: for one cosine
coefficient it is zero instead of two. -/
theorem C122_slepian_false : slepianRaw 4 4 (some 1) [1] [] 3 = 0 ∧ slepianRaw 4 4 (some 1) [1] [] 2 = 2 := by
  constructor
  · unfold slepianRaw
    have h1 : ¬ (4 / 2 : ℝ) < |4 / 2 - 3| := by norm_num [abs_of_neg]
    have h2 : slepianMap 4 (4 - 1 * 2) 3 = 3 := by
      unfold slepianMap
      norm_num
    rw [if_neg h1]
    simp only [h2, slepianSeries]
    norm_num
  · unfold slepianRaw
    have h1 : ¬ (4 / 2 : ℝ) < |4 / 2 - 2| := by norm_num
    have h2 : slepianMap 4 (4 - 1 * 2) 2 = 2 := by
      unfold slepianMap
      norm_num
    rw [if_neg h1]
    simp only [h2, slepianSeries]
    norm_num

/-! ## Normalisation to the maximum -/

/-- `tf.reduce_max`. -/
noncomputable def listMax : List ℝ → ℝ
  | [] => 0
  | x :: l => l.foldl max x

theorem listMax_spec (l : List ℝ) (h : l ≠ []) : listMax l ∈ l ∧ ∀ x ∈ l, x ≤ listMax l := by
  obtain ⟨x, l, rfl⟩ := List.exists_cons_of_ne_nil h
  unfold listMax
  clear h
  induction l generalizing x with
  | nil => simp
  | cons y l ih =>
    obtain ⟨h1, h2⟩ := ih (max x y)
    simp only at h1 h2 ⊢
    rw [List.foldl_cons]
    constructor
    · rcases List.mem_cons.1 h1 with h | h
      · rw [h]; rcases max_choice x y with h' | h' <;> rw [h'] <;> simp
      · simp [h]
    · have h0 := h2 _ List.mem_cons_self
      intro z hz
      rcases List.mem_cons.1 hz with rfl | hz
      · exact (le_max_left _ _).trans h0
      · rcases List.mem_cons.1 hz with rfl | hz
        · exact (le_max_right _ _).trans h0
        · exact h2 z (by simp [hz])

/-- c3/libraries/envelopes.py:361-362: `shape /= max; shape = shape*(1 - offset/amp) + offset/amp`. -/
noncomputable def slepianNorm (off amp : ℝ) (l : List ℝ) : List ℝ :=
  l.map fun v => v / listMax l * (1 - off / amp) + off / amp

/-- c3/libraries/envelopes.py:300-301 of `flattop_cut`: clip to [0, 1], divide by the maximum. -/
noncomputable def cutNorm (l : List ℝ) : List ℝ :=
  let c := l.map fun v => max 0 (min 1 v)
  c.map fun v => v / listMax c

/-- `slepian_fourier` scales the samples so that the largest is 1 and zero becomes `offset / amp`, if some sample is
positive. -/
theorem C83_slepian_norm (off amp : ℝ) (l : List ℝ) (hpos : ∃ x ∈ l, 0 < x) :
    (1 : ℝ) ∈ slepianNorm off amp l ∧ (off / amp ≤ 1 → ∀ v ∈ slepianNorm off amp l, v ≤ 1) ∧
      ∀ i : ℕ, l[i]? = some 0 → (slepianNorm off amp l)[i]? = some (off / amp) := by
  obtain ⟨x, hx, hx0⟩ := hpos
  obtain ⟨h1, h2⟩ := listMax_spec l (List.ne_nil_of_mem hx)
  have hm : 0 < listMax l := lt_of_lt_of_le hx0 (h2 x hx)
  refine ⟨?_, ?_, ?_⟩
  · refine List.mem_map.2 ⟨listMax l, h1, ?_⟩
    rw [div_self hm.ne']; ring
  · intro ho v hv
    obtain ⟨y, hy, rfl⟩ := List.mem_map.1 hv
    have : y / listMax l ≤ 1 := by rw [div_le_one hm]; exact h2 y hy
    have h3 : y / listMax l * (1 - off / amp) ≤ 1 * (1 - off / amp) :=
      mul_le_mul_of_nonneg_right this (by linarith)
    linarith
  · intro i hi
    unfold slepianNorm
    rw [List.getElem?_map, hi]
    simp

example : ∃ x ∈ [(0 : ℝ), 2], 0 < x := ⟨2, by simp, by norm_num⟩

/-- `flattop_cut` lies in [0, 1] and reaches 1, if some sample is positive before clipping. -/
theorem C83_flattop_cut (l : List ℝ) (hpos : ∃ x ∈ l, 0 < x) :
    (1 : ℝ) ∈ cutNorm l ∧ ∀ v ∈ cutNorm l, 0 ≤ v ∧ v ≤ 1 := by
  obtain ⟨x, hx, hx0⟩ := hpos
  unfold cutNorm
  simp only
  set c := l.map fun v => max 0 (min 1 v) with hc
  have hxc : max 0 (min 1 x) ∈ c := List.mem_map.2 ⟨x, hx, rfl⟩
  have hxp : 0 < max 0 (min 1 x) := lt_max_of_lt_right (lt_min one_pos hx0)
  obtain ⟨h1, h2⟩ := listMax_spec c (List.ne_nil_of_mem hxc)
  have hm : 0 < listMax c := lt_of_lt_of_le hxp (h2 _ hxc)
  constructor
  · exact List.mem_map.2 ⟨listMax c, h1, div_self hm.ne'⟩
  · intro v hv
    obtain ⟨y, hy, rfl⟩ := List.mem_map.1 hv
    refine ⟨div_nonneg ?_ hm.le, by rw [div_le_one hm]; exact h2 y hy⟩
    obtain ⟨z, -, rfl⟩ := List.mem_map.1 hy
    exact le_max_left _ _

example : ∃ x ∈ [(-1 : ℝ), 1 / 2], 0 < x := ⟨1 / 2, by simp, by norm_num⟩

/-! ## Flat top with cosine ramps -/

/-- c3/libraries/envelopes.py:441-466 `cosine_flattop` for a column of times; `none` if the ramps are longer than
the pulse (`tf.ones` with a negative size). -/
noncomputable def cosineFlattop (ts : List ℝ) (tRise : ℝ) : Option (List ℝ) :=
  let dt := ts.getD 1 0 - ts.getD 0 0
  let n := ⌊tRise / dt⌋₊
  if ts.length < 2 * n then none
  else some ((ts.take n).map (fun t => 0.5 * (1 - cos (π * t / tRise))) ++
    List.replicate (ts.length - 2 * n) 1 ++ (ts.take n).map (fun t => 0.5 * (1 + cos (π * t / tRise))))

/-- Times in the middle of `N` slices of length `dt`. -/
noncomputable def centered (dt : ℝ) (N : ℕ) : List ℝ := (List.range N).map fun (k : ℕ) => ((k : ℝ) + 1 / 2) * dt

/-- `cosine_flattop` on centred samples with ramps of `n` whole slices: one value per sample, all in [0, 1],
symmetric, and 1 between the ramps. -/
theorem C83_cosine_flattop (dt : ℝ) (hdt : 0 < dt) (N n : ℕ) (hn : 0 < n) (hN : 2 * n ≤ N) :
    ∃ l, cosineFlattop (centered dt N) (n * dt) = some l ∧ l.length = N ∧ (∀ v ∈ l, 0 ≤ v ∧ v ≤ 1) ∧
      l.reverse = l ∧ ∀ k, n ≤ k → k < N - n → l[k]? = some 1 := by
  have hlen : (centered dt N).length = N := by simp [centered]
  have hget : ∀ k, k < N → (centered dt N).getD k 0 = ((k : ℝ) + 1 / 2) * dt := by
    intro k hk
    simp [centered, List.getD_eq_getElem?_getD, hk]
  have hd : (centered dt N).getD 1 0 - (centered dt N).getD 0 0 = dt := by
    rw [hget 1 (by omega), hget 0 (by omega)]; push_cast; ring
  have hfl : ⌊(n : ℝ) * dt / dt⌋₊ = n := by
    rw [mul_div_assoc, div_self hdt.ne', mul_one, Nat.floor_natCast]
  have htake : (centered dt N).take n = centered dt n := by
    unfold centered
    rw [← List.map_take, List.take_range, Nat.min_eq_left (by omega)]
  set up := (centered dt n).map (fun t => 0.5 * (1 - cos (π * t / (n * dt)))) with hup
  set dn := (centered dt n).map (fun t => 0.5 * (1 + cos (π * t / (n * dt)))) with hdn
  have hval : cosineFlattop (centered dt N) (n * dt) = some (up ++ List.replicate (N - 2 * n) 1 ++ dn) := by
    unfold cosineFlattop
    simp only [hd, hfl, hlen, htake]
    rw [if_neg (by omega)]
  have hul : up.length = n := by rw [hup]; simp [centered]
  have hdl : dn.length = n := by rw [hdn]; simp [centered]
  have hn' : (0 : ℝ) < n := by exact_mod_cast hn
  have hrev : up.reverse = dn := by
    refine List.ext_getElem (by rw [List.length_reverse, hul, hdl]) ?_
    intro i h1 h2
    rw [hdl] at h2
    rw [List.getElem_reverse]
    simp only [hup, hdn, centered, List.map_map, List.getElem_map, List.getElem_range, List.length_map,
      List.length_range, Function.comp]
    have hi : ((n - 1 - i : ℕ) : ℝ) = n - 1 - i := by
      rw [Nat.cast_sub (by omega), Nat.cast_sub (by omega)]; push_cast; ring
    have harg : π * ((((n - 1 - i : ℕ) : ℝ) + 1 / 2) * dt) / (n * dt) = π - π * (((i : ℝ) + 1 / 2) * dt) / (n * dt) := by
      rw [hi]; field_simp; ring
    rw [harg, cos_pi_sub]
    ring
  refine ⟨_, hval, ?_, ?_, ?_, ?_⟩
  · rw [List.length_append, List.length_append, hul, hdl, List.length_replicate]; omega
  · intro v hv
    have hcos : ∀ x : ℝ, (0 ≤ 0.5 * (1 - cos x) ∧ 0.5 * (1 - cos x) ≤ 1) ∧
        (0 ≤ 0.5 * (1 + cos x) ∧ 0.5 * (1 + cos x) ≤ 1) := by
      intro x
      have h1 := cos_le_one x
      have h2 := neg_one_le_cos x
      norm_num
      refine ⟨⟨?_, ?_⟩, ?_, ?_⟩ <;> linarith
    rcases List.mem_append.1 hv with hv | hv
    · rcases List.mem_append.1 hv with hv | hv
      · obtain ⟨t, -, rfl⟩ := List.mem_map.1 hv
        exact (hcos _).1
      · rw [List.eq_of_mem_replicate hv]; norm_num
    · obtain ⟨t, -, rfl⟩ := List.mem_map.1 hv
      exact (hcos _).2
  · rw [List.reverse_append, List.reverse_append, hrev, List.reverse_replicate, ← hrev, List.reverse_reverse,
      List.append_assoc]
  · intro k h1 h2
    rw [List.append_assoc, List.getElem?_append_right (by omega), hul,
      List.getElem?_append_left (by rw [List.length_replicate]; omega), List.getElem?_replicate,
      if_pos (by omega)]

example : (0 : ℝ) < 1 ∧ 0 < 3 ∧ 2 * 3 ≤ 10 := by norm_num

/-! ## flattop_variant -/

open scoped Classical in
/-- c3/libraries/envelopes.py:565-586 `flattop_variant`. -/
noncomputable def flattopVariant (up down ramp0 t : ℝ) : ℝ :=
  let ramp := if (down - up) / 2 < ramp0 then (down - up) / 2 else ramp0
  let σ := √2 * ramp * 0.2
  if up ≤ t ∧ t ≤ up + ramp then exp (-(t - up - ramp) ^ 2 / (2 * σ ^ 2))
  else if up + ramp < t ∧ t < down - ramp then 1
  else if t ≤ down ∧ down - ramp ≤ t then exp (-(t - down + ramp) ^ 2 / (2 * σ ^ 2))
  else 0

/-- `flattop_variant` lies in [0, 1], is symmetric about the middle between its ends, zero outside them and one
between the ramps. It does not vanish at the ends. -/
theorem C83_flattop_variant (up down ramp : ℝ) (hud : up < down) (hr : 0 < ramp) :
    (∀ t, 0 ≤ flattopVariant up down ramp t ∧ flattopVariant up down ramp t ≤ 1) ∧
      Symmetric (up + down) (flattopVariant up down ramp) ∧
      (∀ t, t < up ∨ down < t → flattopVariant up down ramp t = 0) ∧
      (∀ t, up + ramp ≤ t → t ≤ down - ramp → flattopVariant up down ramp t = 1) ∧
      0 < flattopVariant up down ramp up := by
  unfold flattopVariant
  simp only
  set ra := if (down - up) / 2 < ramp then (down - up) / 2 else ramp with hra
  have hra0 : 0 < ra := by rw [hra]; split <;> linarith
  have hrah : ra ≤ (down - up) / 2 := by rw [hra]; split <;> linarith
  have hrar : ra ≤ ramp := by rw [hra]; split <;> linarith
  set σ := √2 * ra * 0.2
  have hexp : ∀ x : ℝ, 0 ≤ exp (-x ^ 2 / (2 * σ ^ 2)) ∧ exp (-x ^ 2 / (2 * σ ^ 2)) ≤ 1 := fun x =>
    ⟨(exp_pos _).le, by
      rw [exp_le_one_iff]
      exact div_nonpos_of_nonpos_of_nonneg (neg_nonpos.2 (sq_nonneg _)) (by positivity)⟩
  refine ⟨fun t => ?_, fun t => ?_, fun t ht => ?_, fun t h0 h1 => ?_, ?_⟩
  · split
    · exact hexp _
    · split
      · norm_num
      · split
        · exact hexp _
        · norm_num
  · beta_reduce
    by_cases a : up ≤ t ∧ t ≤ up + ra
    · rw [if_pos a]
      by_cases b : up ≤ up + down - t ∧ up + down - t ≤ up + ra
      · rw [if_pos b]
        have h1 : t = up + ra := by linarith [a.2, b.2]
        have h2 : up + down - t = up + ra := by linarith [a.2, b.2]
        rw [h2, h1]
      · rw [if_neg b, if_neg (by rintro ⟨-, h⟩; linarith [a.2]),
          if_pos ⟨by linarith [a.1], by linarith [a.2]⟩]
        congr 3; ring
    · rw [if_neg a]
      by_cases c : up + ra < t ∧ t < down - ra
      · rw [if_pos c, if_neg (by rintro ⟨-, h⟩; linarith [c.2]),
          if_pos ⟨by linarith [c.2], by linarith [c.1]⟩]
      · rw [if_neg c]
        by_cases d : t ≤ down ∧ down - ra ≤ t
        · rw [if_pos d, if_pos ⟨by linarith [d.1], by linarith [d.2]⟩]
          congr 3; ring
        · rw [if_neg d]
          have hout : t < up ∨ down < t := by
            by_contra hc
            push Not at hc a c d
            rcases lt_or_ge (up + ra) t with h | h
            · have h1 := c h
              have h2 := d hc.2
              linarith
            · have := a hc.1; linarith
          rcases hout with h | h
          · rw [if_neg (by rintro ⟨-, h'⟩; linarith), if_neg (by rintro ⟨-, h'⟩; linarith),
              if_neg (by rintro ⟨h', -⟩; linarith)]
          · rw [if_neg (by rintro ⟨h', -⟩; linarith), if_neg (by rintro ⟨h', -⟩; linarith),
              if_neg (by rintro ⟨-, h'⟩; linarith)]
  · rcases ht with h | h
    · rw [if_neg (by rintro ⟨h', -⟩; linarith), if_neg (by rintro ⟨h', -⟩; linarith),
        if_neg (by rintro ⟨-, h'⟩; linarith)]
    · rw [if_neg (by rintro ⟨-, h'⟩; linarith), if_neg (by rintro ⟨-, h'⟩; linarith),
        if_neg (by rintro ⟨h', -⟩; linarith)]
  · by_cases a : up ≤ t ∧ t ≤ up + ra
    · rw [if_pos a]
      have : t - up - ra = 0 := by linarith [a.2]
      rw [this]; simp
    · rw [if_neg a]
      by_cases c : up + ra < t ∧ t < down - ra
      · rw [if_pos c]
      · rw [if_neg c]
        push Not at a c
        have h2 : up + ra < t := a (by linarith)
        have h3 := c h2
        rw [if_pos ⟨by linarith, h3⟩]
        have : t - down + ra = 0 := by linarith
        rw [this]; simp
  · rw [if_pos ⟨le_refl _, by linarith⟩]
    exact exp_pos _

example : (0 : ℝ) < 10 ∧ (0 : ℝ) < 2 := by norm_num

/-! ## C123: tensor shapes -/

/-- Broadcasting of two tensor shapes (right-aligned), reversed shapes. -/
def broadcastRev : List ℕ → List ℕ → Option (List ℕ)
  | [], b => some b
  | a, [] => some a
  | x :: a, y :: b =>
    if x = y ∨ y = 1 then (broadcastRev a b).map (x :: ·)
    else if x = 1 then (broadcastRev a b).map (y :: ·)
    else none

def broadcast (a b : List ℕ) : Option (List ℕ) := (broadcastRev a.reverse b.reverse).map List.reverse

/-- The envelopes by the shape of what they return for a vector of `N` times. -/
inductive Kind where
  | elementwise                -- one value per time: gaussian*, drag*, cosine, trapezoid, flattop*, slepian, rect, fourier
  | pwc (m : ℕ)                -- the values given, `m` of them
  | pwcSymmetric               -- reshaped to [len(t)]
  | pwcShape                   -- reshaped to [len(t), 1]
  | pwcShapePlateau (width : Bool)
  | cosineFlattop

/-- Shape of `self.shape(ts, self.params)` for `ts` of shape `[N]`; `none` if it raises. With a width,
`pwc_shape_plateau` combines the shapes `[N]` and `[N, 1]` in the last `tf.where`; `cosine_flattop` concatenates
vectors with a column. -/
def resultShape (N : ℕ) : Kind → Option (List ℕ)
  | .elementwise => some [N]
  | .pwc m => some [m]
  | .pwcSymmetric => some [N]
  | .pwcShape => some [N, 1]
  | .pwcShapePlateau false => some [N, 1]
  | .pwcShapePlateau true => broadcast [N] [N, 1]
  | .cosineFlattop => none

/-- c3/signal/pulse.py:132-141 `_get_shape_values_just`: `mask * self.shape(ts)`, the mask having the shape of
the times. -/
def shapeValues (N : ℕ) (k : Kind) : Option (List ℕ) := (resultShape N k).bind fun s => broadcast [N] s

/-- C123 for the elementwise envelopes and `pwc_symmetric`, and for `pwc` with as many values as samples: one
value per sample. Missing: the others, see `C123_column_false`. -/
theorem C123_vector_partial (N : ℕ) (k : Kind)
    (hk : k = .elementwise ∨ k = .pwcSymmetric ∨ k = .pwc N) : shapeValues N k = some [N] := by
  rcases hk with rfl | rfl | rfl <;> simp [shapeValues, resultShape, broadcast, broadcastRev]

example : shapeValues 5 .elementwise = some [5] := by decide

/-- C123 fails for `pwc_shape` and `pwc_shape_plateau`: they return columns, and the product with the mask is an
`N` by `N` matrix. `cosine_flattop` raises. -/
theorem C123_column_false (N : ℕ) (hN : 2 ≤ N) :
    shapeValues N .pwcShape = some [N, N] ∧ (∀ w, shapeValues N (.pwcShapePlateau w) = some [N, N]) ∧
      shapeValues N .cosineFlattop = none := by
  have h1 : N ≠ 1 := by omega
  refine ⟨?_, fun w => ?_, rfl⟩
  · simp [shapeValues, resultShape, broadcast, broadcastRev]
  · cases w <;> simp [shapeValues, resultShape, broadcast, broadcastRev]

example : (2 : ℕ) ≤ 5 := by decide

/-- `pwc` with another number of values (not one) raises. -/
theorem C123_pwc (N m : ℕ) (hN : 2 ≤ N) (hm : m ≠ 1) (hne : m ≠ N) : shapeValues N (.pwc m) = none := by
  have h1 : N ≠ 1 := by omega
  simp [shapeValues, resultShape, broadcast, broadcastRev, hm, Ne.symm hne, h1]

example : shapeValues 5 (.pwc 4) = none := by decide

/-- With a single sample the mask is repeated: `pwc` gives all its values. -/
theorem C123_one_sample (m : ℕ) : shapeValues 1 (.pwc m) = some [m] := by
  by_cases h : m = 1 <;> simp [shapeValues, resultShape, broadcast, broadcastRev, h, eq_comm (a := 1)]

end C3.Envelopes
