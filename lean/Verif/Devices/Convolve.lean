import Mathlib.RingTheory.RootsOfUnity.Complex
import Mathlib.RingTheory.RootsOfUnity.PrimitiveRoots
import Mathlib.Algebra.Field.GeomSum
import Mathlib.Algebra.BigOperators.Intervals
import Mathlib.Analysis.SpecialFunctions.Exp
import Mathlib.Data.List.GetD

/-!
# C51: convolutions through the Fourier transform

`tf_convolve` and `tf_convolve_legacy` (c3/utils/tf_utils.py:439-518), `HighpassFilter.convolve`
(c3/generator/devices.py:809-850), the step response filters (:705-751) and the Gaussian response
filters (:585-701).
-/

set_option linter.unusedSectionVars false

namespace C3.Devices

open Finset

/-! ## Model -/

/-- Entry of a list that is zero outside of the list. -/
noncomputable def at0 {R : Type*} [Zero R] (l : List R) (k : ℕ) : R := l.getD k 0

/-- `tf.signal.fft` on a vector of length `n`: `X_k = Σ_j x_j exp(-2πi jk/n)`. -/
noncomputable def fft (n : ℕ) (x : ℕ → ℂ) (k : ℕ) : ℂ :=
  ∑ j ∈ range n, x j * Complex.exp (-(2 * Real.pi * Complex.I * (j * k : ℕ) / n))

/-- `tf.signal.ifft` on a vector of length `n`: `x_j = 1/n Σ_k X_k exp(2πi jk/n)`. -/
noncomputable def ifft (n : ℕ) (X : ℕ → ℂ) (j : ℕ) : ℂ :=
  1 / n * ∑ k ∈ range n, X k * Complex.exp (2 * Real.pi * Complex.I * (j * k : ℕ) / n)

/-- c3/utils/tf_utils.py:439-473 `tf_convolve`: both vectors are padded with zeros to the length
`N + M`, transformed, multiplied, transformed back and cut to the first `N` entries. -/
noncomputable def tfConvolve (sig resp : List ℂ) : List ℂ :=
  let n := sig.length + resp.length
  let sigPad := sig ++ List.replicate resp.length 0
  let respPad := resp ++ List.replicate sig.length 0
  ((List.range n).map (ifft n fun k => fft n (at0 sigPad) k * fft n (at0 respPad) k)).take sig.length

/-- c3/utils/tf_utils.py:476-518 `tf_convolve_legacy`. -/
noncomputable def tfConvolveLegacy (sig resp : List ℂ) : List ℂ :=
  let n := resp.length + sig.length + resp.length
  let sigPad := List.replicate resp.length 0 ++ sig ++ List.replicate resp.length 0
  let respPad := resp ++ List.replicate (sig.length + resp.length) 0
  (((List.range n).map
    (ifft n fun k => fft n (at0 sigPad) k * fft n (at0 respPad) k)).take
      (sig.length + resp.length - 1)).drop (resp.length - 1)

/-- c3/generator/devices.py:809-850 `HighpassFilter.convolve`. The Python ranges are empty for a
negative length, as is the truncated subtraction here. -/
noncomputable def highpassConvolve (signal resp : List ℝ) : List ℝ :=
  let pad := List.replicate (resp.length / 2) 0 ++ signal ++
    List.replicate (resp.length * 3 / 2 + 1) 0
  (List.range (pad.length - 2 * resp.length)).map fun p =>
    ((List.zipWith (· * ·) ((pad.drop p).take resp.length) resp)).sum

/-- c3/generator/devices.py:719-731 `StepFuncFilter.process`, one key of the signal: the impulse
response is the difference of the step response, starting from zero. -/
noncomputable def impulse (step : List ℝ) : List ℝ := List.zipWith (· - ·) step (0 :: step)

/-! ## Specification: linear convolution -/

/-- `Σ_{i+j=m} sig_i resp_j` with zeros outside of the lists. -/
noncomputable def linConv {R : Type*} [Semiring R] (sig resp : List R) (m : ℕ) : R :=
  ∑ i ∈ range (m + 1), at0 sig i * at0 resp (m - i)

/-! ## Circular convolution theorem -/

theorem at0_append_replicate {R : Type*} [Zero R] (l : List R) (k : ℕ) :
    at0 (l ++ List.replicate k 0) = at0 l := by
  funext i
  unfold at0
  by_cases h : i < l.length
  · rw [List.getD_append _ _ _ _ h]
  · rw [List.getD_append_right _ _ _ _ (by omega), List.getD_eq_default l _ (by omega)]
    by_cases h2 : i - l.length < k
    · rw [List.getD_replicate _ h2]
    · rw [List.getD_eq_default _ _ (by simpa using h2)]

theorem at0_of_le {R : Type*} [Zero R] (l : List R) (k : ℕ) (h : l.length ≤ k) : at0 l k = 0 := by
  unfold at0
  rw [List.getD_eq_default _ _ h]

theorem root_exp (n : ℕ) (m : ℕ) : Complex.exp (2 * Real.pi * Complex.I * (m : ℕ) / n) =
    Complex.exp (2 * Real.pi * Complex.I / n) ^ m := by
  rw [← Complex.exp_nat_mul]
  congr 1
  ring

theorem orthogonality (n : ℕ) (hn : n ≠ 0) (s m : ℕ) :
    ∑ k ∈ range n, Complex.exp (-(2 * Real.pi * Complex.I * (s * k : ℕ) / n)) *
      Complex.exp (2 * Real.pi * Complex.I * (m * k : ℕ) / n) =
      if s % n = m % n then (n : ℂ) else 0 := by
  set w := Complex.exp (2 * Real.pi * Complex.I / n) with hw
  have hprim : IsPrimitiveRoot w n := Complex.isPrimitiveRoot_exp n hn
  have hw0 : w ≠ 0 := Complex.exp_ne_zero _
  have hterm : ∀ k ∈ range n, Complex.exp (-(2 * Real.pi * Complex.I * (s * k : ℕ) / n)) *
      Complex.exp (2 * Real.pi * Complex.I * (m * k : ℕ) / n) = (w ^ m / w ^ s) ^ k := by
    intro k _
    rw [Complex.exp_neg, root_exp, root_exp, ← hw, pow_mul, pow_mul, div_pow]
    field_simp
  rw [Finset.sum_congr rfl hterm]
  have hpow : (w ^ m / w ^ s) ^ n = 1 := by
    rw [div_pow, ← pow_mul, ← pow_mul, mul_comm m, mul_comm s, pow_mul, pow_mul, hprim.pow_eq_one]
    simp
  have hiff : w ^ m / w ^ s = 1 ↔ s % n = m % n := by
    rw [div_eq_one_iff_eq (pow_ne_zero _ hw0)]
    rw [pow_eq_pow_mod m hprim.pow_eq_one, pow_eq_pow_mod s hprim.pow_eq_one]
    constructor
    · intro h
      exact (hprim.pow_inj (Nat.mod_lt _ (by omega)) (Nat.mod_lt _ (by omega)) h).symm
    · intro h
      rw [h]
  by_cases h : s % n = m % n
  · rw [if_pos h, hiff.2 h]
    simp
  · rw [if_neg h, geom_sum_eq (fun he => h (hiff.1 he)), hpow]
    simp

theorem circular_convolution (n : ℕ) (hn : n ≠ 0) (x y : ℕ → ℂ) (m : ℕ) :
    ifft n (fun k => fft n x k * fft n y k) m =
      ∑ a ∈ range n, ∑ b ∈ range n, if (a + b) % n = m % n then x a * y b else 0 := by
  have hn' : (n : ℂ) ≠ 0 := Nat.cast_ne_zero.2 hn
  unfold ifft
  have h1 : ∀ k ∈ range n, fft n x k * fft n y k *
      Complex.exp (2 * Real.pi * Complex.I * (m * k : ℕ) / n) =
      ∑ a ∈ range n, ∑ b ∈ range n, x a * y b *
        (Complex.exp (-(2 * Real.pi * Complex.I * ((a + b) * k : ℕ) / n)) *
        Complex.exp (2 * Real.pi * Complex.I * (m * k : ℕ) / n)) := by
    intro k _
    unfold fft
    rw [Finset.sum_mul_sum, Finset.sum_mul]
    apply Finset.sum_congr rfl
    intro a _
    rw [Finset.sum_mul]
    apply Finset.sum_congr rfl
    intro b _
    have : Complex.exp (-(2 * Real.pi * Complex.I * ((a + b) * k : ℕ) / n)) =
        Complex.exp (-(2 * Real.pi * Complex.I * (a * k : ℕ) / n)) *
        Complex.exp (-(2 * Real.pi * Complex.I * (b * k : ℕ) / n)) := by
      rw [← Complex.exp_add]
      congr 1
      push_cast
      ring
    rw [this]
    ring
  rw [Finset.sum_congr rfl h1, Finset.sum_comm, Finset.mul_sum]
  apply Finset.sum_congr rfl
  intro a _
  rw [Finset.sum_comm, Finset.mul_sum]
  apply Finset.sum_congr rfl
  intro b _
  rw [← Finset.mul_sum, orthogonality n hn]
  split
  · field_simp
  · simp

/-- Circular convolution of vectors whose supports do not wrap around is linear convolution. -/
theorem convolution_no_wrap (n N M : ℕ) (hNM : N + M ≤ n + 1) (hn : n ≠ 0) (x y : ℕ → ℂ)
    (hx : ∀ a, N ≤ a → x a = 0) (hy : ∀ b, M ≤ b → y b = 0) (m : ℕ) (hm : m < n) :
    ifft n (fun k => fft n x k * fft n y k) m = ∑ i ∈ range (m + 1), x i * y (m - i) := by
  rw [circular_convolution n hn]
  have hinner : ∀ a ∈ range n, (∑ b ∈ range n, if (a + b) % n = m % n then x a * y b else 0) =
      if a ≤ m then x a * y (m - a) else 0 := by
    intro a ha
    rw [Finset.mem_range] at ha
    by_cases hxa : x a = 0
    · simp [hxa]
    have haN : a < N := by
      by_contra h
      exact hxa (hx a (by omega))
    have hcong : ∀ b ∈ range n, (if (a + b) % n = m % n then x a * y b else 0) =
        if a + b = m then x a * y b else 0 := by
      intro b hb
      rw [Finset.mem_range] at hb
      by_cases hyb : y b = 0
      · simp [hyb]
      have hbM : b < M := by
        by_contra h
        exact hyb (hy b (by omega))
      have hlt : a + b < n := by omega
      rw [Nat.mod_eq_of_lt hlt, Nat.mod_eq_of_lt hm]
    rw [Finset.sum_congr rfl hcong]
    by_cases ham : a ≤ m
    · rw [if_pos ham, Finset.sum_eq_single (m - a)]
      · rw [if_pos (by omega)]
      · intro b _ hb
        rw [if_neg (by omega)]
      · intro h
        rw [Finset.mem_range] at h
        omega
    · rw [if_neg ham]
      apply Finset.sum_eq_zero
      intro b _
      rw [if_neg (by omega)]
  rw [Finset.sum_congr rfl hinner, ← Finset.sum_filter]
  apply Finset.sum_congr
  · ext a
    simp only [Finset.mem_filter, Finset.mem_range]
    omega
  · intro _ _
    rfl

/-! ## C51 -/

theorem tfConvolve_length (sig resp : List ℂ) : (tfConvolve sig resp).length = sig.length := by
  simp [tfConvolve]

/-- C51: `tf_convolve` has as many entries as the signal, and entry `m` is the linear convolution
`Σ_{i+j=m} sig_i resp_j`, for all lengths of signal and response. -/
theorem C51_linear_convolution (sig resp : List ℂ) :
    tfConvolve sig resp = (List.range sig.length).map (linConv sig resp) := by
  apply List.ext_getElem
  · simp [tfConvolve_length]
  intro m h1 h2
  have hm : m < sig.length := by simpa using h2
  simp only [tfConvolve, List.getElem_take, List.getElem_map, List.getElem_range]
  rw [at0_append_replicate, at0_append_replicate]
  rw [convolution_no_wrap (sig.length + resp.length) sig.length resp.length (by omega) (by omega)
    _ _ (fun a h => at0_of_le _ _ h) (fun a h => at0_of_le _ _ h) m (by omega)]
  rfl

/-- C51: causality. Entry `m` depends only on the first `m + 1` signal samples. -/
theorem C51_causal (sig sig' resp : List ℂ) (m : ℕ) (hl : sig.length = sig'.length)
    (h : ∀ i ≤ m, sig[i]? = sig'[i]?) :
    (tfConvolve sig resp)[m]? = (tfConvolve sig' resp)[m]? := by
  rw [C51_linear_convolution, C51_linear_convolution, List.getElem?_map, List.getElem?_map, hl]
  by_cases hm : m < sig'.length
  · rw [List.getElem?_range hm]
    simp only [Option.map_some, Option.some.injEq]
    unfold linConv
    apply Finset.sum_congr rfl
    intro i hi
    rw [Finset.mem_range] at hi
    unfold at0
    rw [List.getD_eq_getElem?_getD (l := sig), List.getD_eq_getElem?_getD (l := sig'),
      h i (by omega)]
  · rw [List.getElem?_eq_none (by simpa using hm)]
    rfl

/-- C51: linearity in the signal. -/
theorem C51_linear (sig sig' resp : List ℂ) (c : ℂ) (hl : sig.length = sig'.length) :
    tfConvolve (List.zipWith (fun a b => c * a + b) sig sig') resp =
      List.zipWith (fun a b => c * a + b) (tfConvolve sig resp) (tfConvolve sig' resp) := by
  simp only [C51_linear_convolution]
  apply List.ext_getElem
  · simp [hl]
  intro m h1 h2
  simp only [List.getElem_map, List.getElem_range, List.getElem_zipWith]
  unfold linConv
  rw [Finset.mul_sum, ← Finset.sum_add_distrib]
  apply Finset.sum_congr rfl
  intro i hi
  have : at0 (List.zipWith (fun a b => c * a + b) sig sig') i = c * at0 sig i + at0 sig' i := by
    unfold at0
    by_cases h : i < sig.length
    · rw [List.getD_eq_getElem _ _ (by simp; omega), List.getD_eq_getElem _ _ h,
        List.getD_eq_getElem _ _ (by omega), List.getElem_zipWith]
    · rw [List.getD_eq_default _ _ (by simp; omega), List.getD_eq_default _ _ (by omega),
        List.getD_eq_default _ _ (by omega)]
      simp
  rw [this]
  ring

/-- C51: the legacy version computes the same convolution delayed by one sample. -/
theorem C51_legacy_delayed (sig resp : List ℂ) (hr : resp ≠ []) :
    tfConvolveLegacy sig resp = (List.range sig.length).map fun m =>
      if m = 0 then 0 else linConv sig resp (m - 1) := by
  have hM : 1 ≤ resp.length := List.length_pos_iff.2 hr
  have hlen : (tfConvolveLegacy sig resp).length = sig.length := by
    simp [tfConvolveLegacy]
    omega
  apply List.ext_getElem
  · simp [hlen]
  intro m h1 h2
  have hm : m < sig.length := by simpa using h2
  simp only [tfConvolveLegacy, List.getElem_take, List.getElem_map, List.getElem_range,
    List.getElem_drop]
  rw [at0_append_replicate, at0_append_replicate]
  have hat : ∀ a, at0 (List.replicate resp.length 0 ++ sig) a =
      if a < resp.length then 0 else at0 sig (a - resp.length) := by
    intro a
    unfold at0
    by_cases h : a < resp.length
    · rw [List.getD_append _ _ _ _ (by simpa using h), if_pos h, List.getD_replicate _ h]
    · rw [List.getD_append_right _ _ _ _ (by simpa using h), if_neg h]
      simp
  rw [convolution_no_wrap (resp.length + sig.length + resp.length) (resp.length + sig.length)
    resp.length (by omega) (by omega) _ _
    (fun a h => at0_of_le _ _ (by simp; omega)) (fun a h => at0_of_le _ _ h) _ (by omega)]
  by_cases h0 : m = 0
  · rw [if_pos h0]
    apply Finset.sum_eq_zero
    intro i hi
    rw [Finset.mem_range] at hi
    rw [hat, if_pos (by omega), zero_mul]
  · rw [if_neg h0]
    unfold linConv
    rw [show resp.length - 1 + m + 1 = resp.length + (m - 1 + 1) by omega, Finset.sum_range_add]
    have hz : ∑ i ∈ range resp.length, at0 (List.replicate resp.length 0 ++ sig) i *
        at0 resp (resp.length - 1 + m - i) = 0 := by
      apply Finset.sum_eq_zero
      intro i hi
      rw [Finset.mem_range] at hi
      rw [hat, if_pos hi, zero_mul]
    rw [hz, zero_add]
    apply Finset.sum_congr rfl
    intro i hi
    rw [hat, if_neg (by omega)]
    congr 2
    · omega
    · omega

/-- A convolution with a non-trivial result. -/
example : tfConvolve [1, 2, 3] [10, 1] = [10, 21, 32] := by
  rw [C51_linear_convolution]
  simp [linConv, at0, Finset.sum_range_succ, List.range_succ]
  norm_num

/-! ## Step response filters (C93) -/

theorem at0_impulse (step : List ℝ) (k : ℕ) (hk : k < step.length) :
    at0 (impulse step) k = at0 step k - if k = 0 then 0 else at0 step (k - 1) := by
  have hlen : (impulse step).length = step.length := by simp [impulse]
  unfold at0
  rw [List.getD_eq_getElem _ _ (by omega), List.getD_eq_getElem _ _ hk]
  simp only [impulse, List.getElem_zipWith]
  congr 1
  cases k with
  | zero => simp
  | succ k =>
    rw [if_neg (by omega)]
    simp only [List.getElem_cons_succ, Nat.add_sub_cancel]
    rw [List.getD_eq_getElem]

theorem impulse_prefix_sum (step : List ℝ) (m : ℕ) (hm : m < step.length) :
    ∑ k ∈ range (m + 1), at0 (impulse step) k = at0 step m := by
  induction m with
  | zero => simp [at0_impulse step 0 hm]
  | succ m ih =>
    rw [Finset.sum_range_succ, ih (by omega), at0_impulse step (m + 1) hm, if_neg (by omega)]
    simp

/-- C93: the filters defined by a step response do reproduce it: the unit step (all samples one) is
mapped to the step response itself. -/
theorem C93_step_response (step : List ℝ) (m : ℕ) (hm : m < step.length) :
    linConv (List.replicate step.length (1 : ℝ)) (impulse step) m = at0 step m := by
  rw [← impulse_prefix_sum step m hm, ← Finset.sum_range_reflect]
  unfold linConv
  apply Finset.sum_congr rfl
  intro i hi
  rw [Finset.mem_range] at hi
  have : at0 (List.replicate step.length (1 : ℝ)) i = 1 := by
    unfold at0
    rw [List.getD_replicate _ (by omega)]
  rw [this, one_mul]
  congr 1

/-! ## Complex casts -/

theorem linConv_ofReal (sig resp : List ℝ) (m : ℕ) :
    linConv (sig.map Complex.ofReal) (resp.map Complex.ofReal) m =
      ((linConv sig resp m : ℝ) : ℂ) := by
  have h : ∀ (l : List ℝ) i, at0 (l.map Complex.ofReal) i = ((at0 l i : ℝ) : ℂ) := by
    intro l i
    unfold at0
    rw [List.getD_eq_getElem?_getD, List.getD_eq_getElem?_getD, List.getElem?_map]
    cases l[i]? <;> simp
  unfold linConv
  rw [Complex.ofReal_sum]
  apply Finset.sum_congr rfl
  intro i _
  rw [h, h, Complex.ofReal_mul]

/-- C51, C93: the cast back to real numbers at the end of the filters
(c3/generator/devices.py:694-695, :728) loses nothing. -/
theorem C51_real_part (sig resp : List ℝ) :
    (tfConvolve (sig.map Complex.ofReal) (resp.map Complex.ofReal)).map Complex.re =
      (List.range sig.length).map (linConv sig resp) := by
  rw [C51_linear_convolution, List.map_map, List.length_map]
  apply List.map_congr_left
  intro m _
  simp [linConv_ofReal]

/-- C93 for the code path: convolving the unit step through the FFT gives the step response. -/
theorem C93_step_filter (step : List ℝ) :
    (tfConvolve ((List.replicate step.length (1 : ℝ)).map Complex.ofReal)
      ((impulse step).map Complex.ofReal)).map Complex.re = step := by
  rw [C51_real_part]
  apply List.ext_getElem
  · simp
  intro m h1 h2
  rw [List.getElem_map, List.getElem_range, C93_step_response step m h2]
  unfold at0
  rw [List.getD_eq_getElem _ _ h2]

example : impulse [1, 3, 4] = [1, 2, 1] := by norm_num [impulse]

/-! ## Gaussian response (C94) -/

/-- c3/generator/devices.py:675-688 (`ResponseFFT`): the unnormalised response samples. `n` is
`floor(rise_time * resolution)`, the samples are `linspace(0, rise_time, n)`. -/
noncomputable def riseFun (rise res : ℝ) (n : ℕ) : List ℝ :=
  let cen := (rise - 1 / res) / 2
  let sigma := rise / 4
  (List.range n).map fun k : ℕ =>
    Real.exp (-(((0 : ℝ) + rise / ((n - 1 : ℕ) : ℝ) * (k : ℝ) - cen) ^ 2) / (2 * sigma * sigma)) -
      Real.exp (-((-1 - cen) ^ 2) / (2 * sigma * sigma))

/-- `risefun / tf.reduce_sum(risefun)`. -/
noncomputable def normalised (l : List ℝ) : List ℝ := l.map (· / l.sum)

theorem list_sum_range (f : ℕ → ℝ) (n : ℕ) :
    ((List.range n).map f).sum = ∑ k ∈ range n, f k := by
  induction n with
  | zero => simp
  | succ n ih => rw [List.range_succ, Finset.sum_range_succ, ← ih]; simp

theorem sum_at0 (l : List ℝ) : ∑ k ∈ range l.length, at0 l k = l.sum := by
  rw [← list_sum_range]
  congr 1
  apply List.ext_getElem
  · simp
  intro i h1 h2
  rw [List.getElem_map, List.getElem_range]
  unfold at0
  rw [List.getD_eq_getElem _ _ h2]

theorem at0_nonneg (l : List ℝ) (h : ∀ r ∈ l, 0 ≤ r) (i : ℕ) : 0 ≤ at0 l i := by
  unfold at0
  by_cases hi : i < l.length
  · rw [List.getD_eq_getElem _ _ hi]
    exact h _ (List.getElem_mem hi)
  · rw [List.getD_eq_default _ _ (by omega)]

theorem prefix_sum_le (l : List ℝ) (h : ∀ r ∈ l, 0 ≤ r) (m : ℕ) :
    ∑ k ∈ range m, at0 l k ≤ l.sum := by
  rw [← sum_at0]
  rcases le_total m l.length with hm | hm
  · exact Finset.sum_le_sum_of_subset_of_nonneg (Finset.range_mono hm) fun i _ _ => at0_nonneg l h i
  · rw [← Finset.sum_subset (Finset.range_mono hm)]
    intro i _ hi
    exact at0_of_le _ _ (by simpa using hi)

theorem prefix_sum_eq (l : List ℝ) (m : ℕ) (hm : l.length ≤ m) :
    ∑ k ∈ range m, at0 l k = l.sum := by
  rw [← sum_at0, ← Finset.sum_subset (Finset.range_mono hm)]
  intro i _ hi
  exact at0_of_le _ _ (by simpa using hi)

theorem linConv_abs_le (sig resp : List ℝ) (c : ℝ) (hc : ∀ x ∈ sig, |x| ≤ c) (hc0 : 0 ≤ c)
    (hpos : ∀ r ∈ resp, 0 ≤ r) (hsum : resp.sum = 1) (m : ℕ) : |linConv sig resp m| ≤ c := by
  have hat : ∀ i, |at0 sig i| ≤ c := by
    intro i
    unfold at0
    by_cases h : i < sig.length
    · rw [List.getD_eq_getElem _ _ h]
      exact hc _ (List.getElem_mem h)
    · rw [List.getD_eq_default _ _ (by omega)]
      simpa using hc0
  have hrp := at0_nonneg resp hpos
  unfold linConv
  calc |∑ i ∈ range (m + 1), at0 sig i * at0 resp (m - i)|
      ≤ ∑ i ∈ range (m + 1), |at0 sig i * at0 resp (m - i)| := Finset.abs_sum_le_sum_abs _ _
    _ ≤ ∑ i ∈ range (m + 1), c * at0 resp (m - i) := by
        apply Finset.sum_le_sum
        intro i _
        rw [abs_mul, abs_of_nonneg (hrp _)]
        exact mul_le_mul_of_nonneg_right (hat i) (hrp _)
    _ = c * ∑ i ∈ range (m + 1), at0 resp i := by
        rw [← Finset.mul_sum, ← Finset.sum_range_reflect (at0 resp)]
        simp
    _ ≤ c * 1 := by
        apply mul_le_mul_of_nonneg_left _ hc0
        rw [← hsum]
        exact prefix_sum_le resp hpos _
    _ = c := mul_one c

theorem normalised_sum (l : List ℝ) (h : l.sum ≠ 0) : (normalised l).sum = 1 := by
  unfold normalised
  have : ∀ (s : ℝ) (l : List ℝ), (l.map (· / s)).sum = l.sum / s := by
    intro s l
    induction l with
    | nil => simp
    | cons a l ih => simp [ih, add_div]
  rw [this, div_self h]

/-- The samples of the response are not negative if the resolution is at least one sample per
second. -/
theorem riseFun_nonneg (rise res : ℝ) (n : ℕ) (hr : 0 < rise) (hres : 1 ≤ res) :
    ∀ r ∈ riseFun rise res n, 0 ≤ r := by
  intro r hmem
  simp only [riseFun, List.mem_map, List.mem_range] at hmem
  obtain ⟨k, hk, rfl⟩ := hmem
  rw [sub_nonneg, Real.exp_le_exp]
  have hs : 0 < 2 * (rise / 4) * (rise / 4) := by positivity
  apply div_le_div_of_nonneg_right _ hs.le
  rw [neg_le_neg_iff]
  have hinv : 1 / res ≤ 1 := by rw [div_le_one (by linarith)]; exact hres
  have hinv0 : 0 ≤ 1 / res := by positivity
  have ht0 : 0 ≤ rise / ((n - 1 : ℕ) : ℝ) * (k : ℝ) := by positivity
  have ht1 : rise / ((n - 1 : ℕ) : ℝ) * (k : ℝ) ≤ rise := by
    rcases Nat.eq_zero_or_pos (n - 1) with h0 | h0
    · rw [h0]; simp; exact hr.le
    · have : (0 : ℝ) < ((n - 1 : ℕ) : ℝ) := by exact_mod_cast h0
      rw [div_mul_eq_mul_div, div_le_iff₀ this]
      have hk' : (k : ℝ) ≤ ((n - 1 : ℕ) : ℝ) := by exact_mod_cast (by omega)
      nlinarith
  set t := rise / ((n - 1 : ℕ) : ℝ) * (k : ℝ) with htdef
  have e1 : 0 ≤ (1 + (rise - 1 / res) / 2) - (0 + t - (rise - 1 / res) / 2) := by linarith
  have e2 : 0 ≤ (1 + (rise - 1 / res) / 2) + (0 + t - (rise - 1 / res) / 2) := by linarith
  nlinarith [mul_nonneg e1 e2]

/-- C94: the bandwidth filter never amplifies: every sample of the filtered signal is bounded by the
largest input sample. -/
theorem C94_no_overshoot (sig : List ℝ) (rise res c : ℝ) (n : ℕ) (hr : 0 < rise) (hres : 1 ≤ res)
    (hne : (riseFun rise res n).sum ≠ 0) (hc : ∀ x ∈ sig, |x| ≤ c) (hc0 : 0 ≤ c) :
    ∀ y ∈ (tfConvolve (sig.map Complex.ofReal)
      ((normalised (riseFun rise res n)).map Complex.ofReal)).map Complex.re, |y| ≤ c := by
  rw [C51_real_part]
  intro y hy
  obtain ⟨m, -, rfl⟩ := List.mem_map.1 hy
  have hpos := riseFun_nonneg rise res n hr hres
  apply linConv_abs_le _ _ c hc hc0 _ (normalised_sum _ hne)
  intro r hr'
  obtain ⟨q, hq, rfl⟩ := List.mem_map.1 hr'
  exact div_nonneg (hpos q hq) (List.sum_nonneg hpos)

/-- C94: unit gain. A constant signal is reproduced once the filter is filled. -/
theorem C94_unit_gain (c : ℝ) (N : ℕ) (resp : List ℝ) (hne : resp.sum ≠ 0) (m : ℕ) (hm : m < N)
    (hfull : resp.length ≤ m + 1) :
    ((tfConvolve ((List.replicate N c).map Complex.ofReal)
      ((normalised resp).map Complex.ofReal)).map Complex.re)[m]? = some c := by
  rw [C51_real_part, List.getElem?_map, List.length_replicate, List.getElem?_range hm]
  simp only [Option.map_some, Option.some.injEq]
  unfold linConv
  have h1 : ∀ i ∈ range (m + 1), at0 (List.replicate N c) i * at0 (normalised resp) (m - i) =
      c * at0 (normalised resp) (m - i) := by
    intro i hi
    rw [Finset.mem_range] at hi
    congr 1
    unfold at0
    rw [List.getD_replicate _ (by omega)]
  rw [Finset.sum_congr rfl h1, ← Finset.mul_sum]
  have h2 : ∑ i ∈ range (m + 1), at0 (normalised resp) (m - i) = 1 := by
    rw [← normalised_sum resp hne, ← prefix_sum_eq (normalised resp) (m + 1) (by simpa [normalised]),
      ← Finset.sum_range_reflect (at0 (normalised resp))]
    simp
  rw [h2, mul_one]

example : (normalised [1, 3]) = [1 / 4, 3 / 4] := by norm_num [normalised]

/-- The normalisation hypothesis of C94 holds for example with two response samples. -/
example : (riseFun 2 1 2).sum ≠ 0 := by
  have hpos := riseFun_nonneg 2 1 2 (by norm_num) (by norm_num)
  have : 0 < (riseFun 2 1 2).sum := by
    have h2 : riseFun 2 1 2 = [Real.exp (-1 / 2) - Real.exp (-(9 / 2)), Real.exp (-(9 / 2)) - Real.exp (-(9 / 2))] := by
      simp [riseFun, List.range_succ]
      norm_num
    rw [h2]
    have : Real.exp (-(9 / 2)) < Real.exp (-1 / 2) := Real.exp_lt_exp.2 (by norm_num)
    simp
    linarith
  exact this.ne'

/-! ## Highpass filter (C92) -/

/-- C92: for a response with an odd number `2k + 1` of samples (the code makes it odd,
c3/generator/devices.py:877-878) the highpass convolution has the length of the signal and is the
centred correlation `Σ_i sig[p + i - k] resp[i]` with zeros outside of the signal. -/
theorem C92_highpass (signal resp : List ℝ) (k : ℕ) (hk : resp.length = 2 * k + 1) :
    highpassConvolve signal resp = (List.range signal.length).map fun p =>
      ∑ i ∈ range resp.length, (if p + i < k then 0 else at0 signal (p + i - k)) * at0 resp i := by
  have hpadlen : (List.replicate (resp.length / 2) (0 : ℝ) ++ signal ++
      List.replicate (resp.length * 3 / 2 + 1) 0).length - 2 * resp.length = signal.length := by
    simp
    omega
  unfold highpassConvolve
  simp only
  rw [hpadlen]
  apply List.map_congr_left
  intro p hp
  rw [List.mem_range] at hp
  set pad := List.replicate (resp.length / 2) (0 : ℝ) ++ signal ++
    List.replicate (resp.length * 3 / 2 + 1) 0 with hpad
  have hat : ∀ a, at0 pad a = if a < k then 0 else at0 signal (a - k) := by
    intro a
    rw [hpad, at0_append_replicate]
    have hk2 : resp.length / 2 = k := by omega
    rw [hk2]
    unfold at0
    by_cases h : a < k
    · rw [List.getD_append _ _ _ _ (by simpa using h), if_pos h, List.getD_replicate _ h]
    · rw [List.getD_append_right _ _ _ _ (by simpa using h), if_neg h]
      simp
  have hpl : pad.length = k + signal.length + (3 * k + 1 + 1) := by
    rw [hpad]
    simp
    omega
  rw [← sum_at0]
  have hlen : (List.zipWith (fun x1 x2 => x1 * x2) (List.take resp.length (List.drop p pad))
      resp).length = resp.length := by
    simp
    omega
  rw [hlen]
  apply Finset.sum_congr rfl
  intro i hi
  rw [Finset.mem_range] at hi
  rw [← hat]
  unfold at0
  rw [List.getD_eq_getElem _ _ (by omega), List.getD_eq_getElem _ _ hi,
    List.getD_eq_getElem _ _ (by omega), List.getElem_zipWith]
  simp

example : highpassConvolve [5, 7] [1, 2, 3] = [31, 19] := by
  rw [C92_highpass _ _ 1 rfl]
  simp [at0, Finset.sum_range_succ, List.range_succ]
  norm_num

end C3.Devices
