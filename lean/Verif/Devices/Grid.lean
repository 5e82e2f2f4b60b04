import Mathlib.Algebra.Order.Floor.Ring
import Mathlib.Algebra.Order.Archimedean.Real.Basic
import Mathlib.Tactic.FieldSimp
import Mathlib.Tactic.Linarith
import Mathlib.Tactic.Ring
import Mathlib.Tactic.Positivity

/-!
# C49, C95: sample times and upsampling

`Device.calc_slice_num`, `Device.create_ts` (c3/generator/devices.py:72-122) and
`DigitalToAnalog.process` (c3/generator/devices.py:306-351).
-/

namespace C3.Devices

/-! ## Model -/

/-- c3/generator/devices.py:72-85 `calc_slice_num`: `int(np.abs(t_start - t_end) * res)`. -/
noncomputable def sliceNum (res tStart tEnd : ℝ) : ℕ := ⌊|tStart - tEnd| * res⌋₊

/-- `tf.linspace(a, b, num)`: `none` for `num = 0` (TensorFlow raises), `[a]` for `num = 1`. -/
noncomputable def tfLinspace (a b : ℝ) (num : ℕ) : Option (List ℝ) :=
  if num = 0 then none
  else some ((List.range num).map fun k : ℕ => a + (b - a) / ((num - 1 : ℕ) : ℝ) * (k : ℝ))

/-- c3/generator/devices.py:87-122 `create_ts`. -/
noncomputable def createTs (res tStart tEnd : ℝ) (centered : Bool) : Option (List ℝ) :=
  let dt := 1 / res
  let offset := if centered then dt / 2 else 0
  let num := if centered then sliceNum res tStart tEnd else sliceNum res tStart tEnd + 1
  tfLinspace (tStart + offset) (tEnd - offset) num

/-! ## C49 -/

theorem sliceNum_mul (res t0 : ℝ) (hres : 0 < res) (n : ℕ) :
    sliceNum res t0 (t0 + n / res) = n := by
  unfold sliceNum
  have : |t0 - (t0 + n / res)| * res = n := by
    rw [show t0 - (t0 + (n : ℝ) / res) = -((n : ℝ) / res) by ring, abs_neg,
      abs_of_nonneg (by positivity)]
    field_simp
  rw [this, Nat.floor_natCast]

/-- C49: if the interval is a multiple `n` of the sample length, the centred samples are the `n`
midpoints of the slices. -/
theorem C49_centred (res t0 : ℝ) (hres : 0 < res) (n : ℕ) (hn : 0 < n) :
    createTs res t0 (t0 + n / res) true =
      some ((List.range n).map fun k : ℕ => t0 + ((k : ℝ) + 1 / 2) * (1 / res)) := by
  unfold createTs tfLinspace
  simp only [if_true, sliceNum_mul res t0 hres n]
  rw [if_neg (by omega)]
  congr 1
  apply List.map_congr_left
  intro k hk
  rw [List.mem_range] at hk
  rcases Nat.lt_or_ge 1 n with h1 | h1
  · have hc : ((n - 1 : ℕ) : ℝ) = (n : ℝ) - 1 := by
      rw [Nat.cast_sub (by omega)]
      simp
    have hpos : (0 : ℝ) < (n : ℝ) - 1 := by
      have : (1 : ℝ) < n := by exact_mod_cast h1
      linarith
    rw [hc]
    field_simp
    ring
  · have hk0 : k = 0 := by omega
    subst hk0
    simp
    ring

/-- C49: the samples which are not centred are the `n + 1` slice boundaries. -/
theorem C49_not_centred (res t0 : ℝ) (hres : 0 < res) (n : ℕ) (hn : 0 < n) :
    createTs res t0 (t0 + n / res) false =
      some ((List.range (n + 1)).map fun k : ℕ => t0 + (k : ℝ) * (1 / res)) := by
  unfold createTs tfLinspace
  simp only [Bool.false_eq_true, if_false, sliceNum_mul res t0 hres n]
  rw [if_neg (by omega)]
  congr 1
  apply List.map_congr_left
  intro k hk
  have hpos : (0 : ℝ) < (n : ℝ) := by exact_mod_cast hn
  rw [Nat.add_sub_cancel]
  field_simp
  ring

/-- The number of slices of an interval of length `L` is the integer with
`n·dt ≤ L < (n + 1)·dt`. -/
theorem C49_slice_number (res t0 t1 : ℝ) (hres : 0 < res) (h01 : t0 ≤ t1) (n : ℕ) :
    sliceNum res t0 t1 = n ↔ (n : ℝ) * (1 / res) ≤ t1 - t0 ∧ t1 - t0 < ((n : ℝ) + 1) * (1 / res) := by
  unfold sliceNum
  have habs : |t0 - t1| = t1 - t0 := by rw [abs_sub_comm, abs_of_nonneg (by linarith)]
  rw [habs, Nat.floor_eq_iff (mul_nonneg (by linarith) hres.le)]
  rw [mul_one_div, mul_one_div, div_le_iff₀ hres, lt_div_iff₀ hres]

/-- C49 for any interval that holds at least one slice: the number of samples is the number of whole
slices, all samples lie inside of the interval and at least half a slice from its ends, neighbouring
samples have the same distance, and this distance `d` is at least the nominal one, with
`(n - 1) d ≤ n dt`. -/
theorem C49_any_interval (res t0 t1 : ℝ) (hres : 0 < res) (h01 : t0 ≤ t1)
    (hn : 2 ≤ sliceNum res t0 t1) :
    ∃ ts d, createTs res t0 t1 true = some ts ∧ ts.length = sliceNum res t0 t1 ∧
      ts = (List.range ts.length).map (fun k : ℕ => t0 + 1 / res / 2 + d * (k : ℝ)) ∧
      1 / res ≤ d ∧ ((sliceNum res t0 t1 : ℝ) - 1) * d ≤ sliceNum res t0 t1 * (1 / res) ∧
      ∀ t ∈ ts, t0 + 1 / res / 2 ≤ t ∧ t ≤ t1 - 1 / res / 2 := by
  set n := sliceNum res t0 t1 with hndef
  obtain ⟨hlo, hhi⟩ := (C49_slice_number res t0 t1 hres h01 n).1 rfl
  set d := (t1 - 1 / res / 2 - (t0 + 1 / res / 2)) / ((n - 1 : ℕ) : ℝ) with hd
  have hc : ((n - 1 : ℕ) : ℝ) = (n : ℝ) - 1 := by
    rw [Nat.cast_sub (by omega)]
    simp
  have hn2 : (2 : ℝ) ≤ n := by exact_mod_cast hn
  have hpos : (0 : ℝ) < (n : ℝ) - 1 := by linarith
  have hdt : 0 < 1 / res := by positivity
  have hdmul : ((n : ℝ) - 1) * d = t1 - t0 - 1 / res := by
    rw [hd, hc]
    field_simp
    ring
  have hd1 : 1 / res ≤ d := by
    rw [hd, hc, le_div_iff₀ hpos]
    nlinarith
  refine ⟨(List.range n).map fun k : ℕ => t0 + 1 / res / 2 + d * (k : ℝ), d, ?_, by simp, by simp,
    hd1, ?_, ?_⟩
  · unfold createTs tfLinspace
    simp only [if_true, ← hndef]
    rw [if_neg (by omega)]
  · rw [hdmul]
    linarith
  · intro t ht
    obtain ⟨k, hk, rfl⟩ := List.mem_map.1 ht
    rw [List.mem_range] at hk
    have hk' : (k : ℝ) ≤ (n : ℝ) - 1 := by
      rw [← hc]
      exact_mod_cast (by omega)
    have hd0 : 0 ≤ d := hdt.le.trans hd1
    constructor
    · have := mul_nonneg hd0 (Nat.cast_nonneg k : (0 : ℝ) ≤ k)
      linarith
    · have : d * k ≤ d * ((n : ℝ) - 1) := mul_le_mul_of_nonneg_left hk' hd0
      rw [mul_comm d ((n : ℝ) - 1), hdmul] at this
      linarith

/-- An interval shorter than one slice makes `create_ts` raise. -/
theorem C49_too_short (res t0 t1 : ℝ) (hres : 0 < res) (h01 : t0 ≤ t1) (h : t1 - t0 < 1 / res) :
    createTs res t0 t1 true = none := by
  have : sliceNum res t0 t1 = 0 := by
    rw [C49_slice_number res t0 t1 hres h01]
    constructor
    · simp; exact h01
    · simpa using h
  unfold createTs tfLinspace
  simp [this]

example : createTs 2 0 (0 + 2 / 2) true = some [1 / 4, 3 / 4] := by
  have := C49_centred 2 0 (by norm_num) 2 (by norm_num)
  simp [List.range_succ] at this ⊢
  rw [this]
  norm_num

/-! ## C95: the digital to analog converter -/

/-- `tf.image.resize(..., method="nearest")` along one axis (half pixel centres): output pixel `i`
is input pixel `min(floor((i + 1/2)·old/new), old - 1)`. -/
def nearestIndex (old new i : ℕ) : ℕ := min ((2 * i + 1) * old / (2 * new)) (old - 1)

/-- c3/generator/devices.py:326-346: the resampled values with the default method. -/
def dacNearest {R : Type*} [Zero R] (sig : List R) (new : ℕ) : List R :=
  (List.range new).map fun i => sig.getD (nearestIndex sig.length new i) 0

theorem nearestIndex_mul (old k i : ℕ) (hk : 0 < k) (hi : i < k * old) :
    nearestIndex old (k * old) i = i / k := by
  have hold : 0 < old := by
    rcases Nat.eq_zero_or_pos old with h | h
    · subst h; simp at hi
    · exact h
  unfold nearestIndex
  have h1 : (2 * i + 1) * old / (2 * (k * old)) = i / k := by
    rw [show 2 * (k * old) = (2 * k) * old by ring, Nat.mul_div_mul_right _ _ hold]
    apply Nat.div_eq_of_lt_le
    · have := Nat.div_mul_le_self i k
      calc i / k * (2 * k) = 2 * (i / k * k) := by ring
        _ ≤ 2 * i + 1 := by omega
    · have := Nat.lt_div_mul_add (a := i) hk
      calc 2 * i + 1 < 2 * (i / k * k + k) := by omega
        _ = (i / k + 1) * (2 * k) := by ring
  rw [h1]
  apply min_eq_left
  have : i / k < old := by
    rw [Nat.div_lt_iff_lt_mul hk]
    rw [mul_comm] at hi
    exact hi
  omega

/-- C95: going from the AWG resolution to a simulation resolution that is `k` times higher repeats
every sample `k` times. -/
theorem C95_repeats_samples {R : Type*} [Zero R] (sig : List R) (k : ℕ) (hk : 0 < k) :
    dacNearest sig (k * sig.length) = sig.flatMap fun x => List.replicate k x := by
  apply List.ext_getElem?
  intro i
  have hlen : (sig.flatMap fun x => List.replicate k x).length = k * sig.length := by
    induction sig with
    | nil => simp
    | cons a l ih =>
      rw [List.flatMap_cons, List.length_append, ih, List.length_replicate, List.length_cons]
      ring
  by_cases hi : i < k * sig.length
  · have hik : i / k < sig.length := by
      rw [Nat.div_lt_iff_lt_mul hk, mul_comm]
      exact hi
    have hrhs : ∀ (l : List R) (i : ℕ), i < k * l.length →
        (l.flatMap fun x => List.replicate k x)[i]? = l[i / k]? := by
      intro l
      induction l with
      | nil => intro i h; simp at h
      | cons a l ih =>
        intro i h
        rw [List.flatMap_cons]
        by_cases hik : i < k
        · rw [List.getElem?_append_left (by simpa using hik), Nat.div_eq_of_lt hik]
          simp [hik]
        · rw [List.getElem?_append_right (by simpa using hik), List.length_replicate,
            ih _ (by simp [Nat.mul_add] at h; omega)]
          have : i / k = (i - k) / k + 1 := by
            rw [← Nat.add_div_right _ hk]
            congr 1
            omega
          rw [this, List.getElem?_cons_succ]
    rw [hrhs sig i hi]
    unfold dacNearest
    rw [List.getElem?_map, List.getElem?_range hi]
    simp only [Option.map_some]
    rw [nearestIndex_mul _ _ _ hk hi, List.getD_eq_getElem?_getD, List.getElem?_eq_getElem hik]
    rfl
  · rw [List.getElem?_eq_none (by simp [dacNearest]; omega), List.getElem?_eq_none (by omega)]

/-- C95: zero-order hold. The value at a fine sample is the AWG value of the slice in which that
sample time lies. -/
theorem C95_hold (t0 dt : ℝ) (hdt : 0 < dt) (k i : ℕ) (hk : 0 < k) :
    t0 + ((i / k : ℕ) : ℝ) * dt < t0 + ((i : ℝ) + 1 / 2) * (dt / k) ∧
      t0 + ((i : ℝ) + 1 / 2) * (dt / k) < t0 + (((i / k : ℕ) : ℝ) + 1) * dt := by
  have hk' : (0 : ℝ) < k := by exact_mod_cast hk
  have h1 : ((i / k : ℕ) : ℝ) * k ≤ i := by exact_mod_cast Nat.div_mul_le_self i k
  have h2 : (i : ℝ) + 1 ≤ ((i / k : ℕ) : ℝ) * k + k := by
    exact_mod_cast Nat.lt_div_mul_add (a := i) hk
  have e : ((i : ℝ) + 1 / 2) * (dt / k) = ((i : ℝ) + 1 / 2) / k * dt := by ring
  rw [e]
  constructor
  · have : ((i / k : ℕ) : ℝ) < ((i : ℝ) + 1 / 2) / k := by rw [lt_div_iff₀ hk']; linarith
    nlinarith
  · have : ((i : ℝ) + 1 / 2) / k < ((i / k : ℕ) : ℝ) + 1 := by
      rw [div_lt_iff₀ hk']
      nlinarith
    nlinarith

example : dacNearest [5, 7, 9] 6 = [5, 5, 7, 7, 9, 9] := by decide

end C3.Devices
