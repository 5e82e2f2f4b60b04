import Mathlib.Analysis.SpecialFunctions.Exp
import Mathlib.Analysis.Complex.Exponential
import Mathlib.Analysis.Complex.Basic
import Mathlib.Algebra.BigOperators.Group.List.Basic
import Mathlib.Data.List.GetD
import Mathlib.Tactic.Linarith

/-!
# C55, C58, C96: the waveform of the AWG

`Instruction.get_awg_signal` (c3/signal/gates.py:341-370), `Envelope.compute_mask` and
`_get_shape_values_just` (c3/signal/pulse.py:98-141), `EnvelopeNetZero.get_shape_values`
(c3/signal/pulse.py:222-238).
-/

set_option linter.unusedSectionVars false

namespace C3.Timing

open Complex

/-! ## Model -/

/-- `tf.sigmoid`. -/
noncomputable def sigmoid (x : ℝ) : ℝ := 1 / (1 + Real.exp (-x))

/-- c3/signal/pulse.py:98-116 `compute_mask` at one sample `t` (all samples use the same step `dt`).
`tFinal` is the smaller of the parameter and the length of the window. -/
noncomputable def maskAt (dt tFinal t : ℝ) : ℝ :=
  sigmoid ((t / dt + 0.001) * 1e6) * sigmoid ((0.999 * tFinal - t) / dt * 1e6)

/-- An envelope with its parameters evaluated. -/
structure Env where
  amp : ℝ
  xyAngle : ℝ
  freqOffset : ℝ
  tFinal : ℝ
  shape : ℝ → ℂ

/-- A component of a channel with its timings; carriers carry no envelope. -/
structure AComp where
  tStart : ℝ
  tEnd : ℝ
  env : Option Env

/-- c3/signal/pulse.py:132-141 `_get_shape_values_just` for all samples. -/
noncomputable def shapeValues (e : Env) (ts : List ℝ) (tWindow : ℝ) : List ℂ :=
  let dt := ts.getD 1 0 - ts.getD 0 0
  ts.map fun t => (maskAt dt (min e.tFinal tWindow) t : ℂ) * e.shape t

/-- c3/signal/gates.py:347-363: the contribution of one component to the complex signal. -/
noncomputable def contribution (c : AComp) (ts : List ℝ) : List ℂ :=
  match c.env with
  | none => ts.map fun _ => 0
  | some e =>
    let off := ts.map (· - c.tStart)
    List.zipWith (fun v t => (e.amp : ℂ) * v * exp (I * ((e.xyAngle - e.freqOffset * t : ℝ) : ℂ)))
      (shapeValues e off (c.tEnd - c.tStart)) off

/-- c3/signal/gates.py:341-370 `get_awg_signal`: the loop over the components of the channel. -/
noncomputable def awgComplex (comps : List AComp) (ts : List ℝ) : List ℂ :=
  comps.foldl (fun signal c => List.zipWith (· + ·) signal (contribution c ts)) (ts.map fun _ => 0)

/-- The returned in-phase and quadrature components. -/
noncomputable def awgSignal (comps : List AComp) (ts : List ℝ) : List ℝ × List ℝ :=
  ((awgComplex comps ts).map re, (awgComplex comps ts).map im)

/-- c3/signal/pulse.py:222-238 `EnvelopeNetZero.get_shape_values` for an arbitrary base envelope
(which returns one value per sample). -/
def netZero {R : Type*} [Neg R] [Zero R] (base : List ℝ → List R) (ts : List ℝ) : List R :=
  let v := base (ts.take (ts.length / 2))
  v ++ v.map (- ·) ++ List.replicate (ts.length % 2) 0

/-! ## C55 -/

/-- Specification: the value of a component at time `t`. -/
noncomputable def compAt (dt : ℝ) (c : AComp) (t : ℝ) : ℂ :=
  match c.env with
  | none => 0
  | some e => e.amp * (maskAt dt (min e.tFinal (c.tEnd - c.tStart)) (t - c.tStart) *
      e.shape (t - c.tStart)) * exp (I * ((e.xyAngle - e.freqOffset * (t - c.tStart) : ℝ) : ℂ))

theorem contribution_eq (c : AComp) (ts : List ℝ) (h2 : 2 ≤ ts.length) :
    contribution c ts = ts.map (compAt (ts.getD 1 0 - ts.getD 0 0) c) := by
  unfold contribution compAt
  cases c.env with
  | none => rfl
  | some e =>
    simp only [shapeValues, List.map_map]
    have hdt : (ts.map (· - c.tStart)).getD 1 0 - (ts.map (· - c.tStart)).getD 0 0 =
        ts.getD 1 0 - ts.getD 0 0 := by
      rw [List.getD_eq_getElem _ _ (by simp; omega), List.getD_eq_getElem _ _ (by simp; omega),
        List.getD_eq_getElem _ _ (by omega), List.getD_eq_getElem _ _ (by omega)]
      simp
    apply List.ext_getElem
    · simp
    intro n h1 h2
    simp only [List.getElem_zipWith, List.getElem_map, Function.comp, hdt]

theorem awg_fold (comps : List AComp) (ts : List ℝ) (h2 : 2 ≤ ts.length) (f : ℝ → ℂ) :
    comps.foldl (fun signal c => List.zipWith (· + ·) signal (contribution c ts)) (ts.map f) =
      ts.map fun t => f t + (comps.map fun c => compAt (ts.getD 1 0 - ts.getD 0 0) c t).sum := by
  induction comps generalizing f with
  | nil => simp
  | cons c comps ih =>
    rw [List.foldl_cons, contribution_eq c ts h2]
    have : List.zipWith (· + ·) (ts.map f) (ts.map (compAt (ts.getD 1 0 - ts.getD 0 0) c)) =
        ts.map fun t => f t + compAt (ts.getD 1 0 - ts.getD 0 0) c t := by
      apply List.ext_getElem <;> simp
    rw [this, ih]
    apply List.map_congr_left
    intro t _
    rw [List.map_cons, List.sum_cons, add_assoc]

/-- C55: at every sample the complex waveform is the sum of the values of all components, for any
number of components (carriers contribute nothing). In-phase and quadrature are its real and
imaginary parts. -/
theorem C55_sum_of_components (comps : List AComp) (ts : List ℝ) (h2 : 2 ≤ ts.length) :
    awgSignal comps ts =
      (ts.map fun t => (comps.map fun c => (compAt (ts.getD 1 0 - ts.getD 0 0) c t).re).sum,
        ts.map fun t => (comps.map fun c => (compAt (ts.getD 1 0 - ts.getD 0 0) c t).im).sum) := by
  have hre : ∀ l : List ℂ, l.sum.re = (l.map re).sum := by
    intro l
    induction l with
    | nil => rfl
    | cons a l ih => simp [ih]
  have him : ∀ l : List ℂ, l.sum.im = (l.map im).sum := by
    intro l
    induction l with
    | nil => rfl
    | cons a l ih => simp [ih]
  unfold awgSignal awgComplex
  rw [awg_fold comps ts h2 fun _ => 0]
  simp only [zero_add, List.map_map]
  congr 1
  · apply List.map_congr_left
    intro t _
    simp [hre, Function.comp_def]
  · apply List.map_congr_left
    intro t _
    simp [him, Function.comp_def]

/-! ### The mask -/

theorem sigmoid_nonneg (x : ℝ) : 0 ≤ sigmoid x := by
  unfold sigmoid
  have := Real.exp_pos (-x)
  positivity

theorem sigmoid_le_one (x : ℝ) : sigmoid x ≤ 1 := by
  unfold sigmoid
  have := Real.exp_pos (-x)
  rw [div_le_one (by linarith)]
  linarith

theorem sigmoid_le_exp (x : ℝ) : sigmoid x ≤ Real.exp x := by
  unfold sigmoid
  have h := Real.exp_pos (-x)
  rw [div_le_iff₀ (by linarith), mul_add, ← Real.exp_add]
  simp
  exact (Real.exp_pos x).le

theorem sigmoid_ge (x : ℝ) : 1 - Real.exp (-x) ≤ sigmoid x := by
  unfold sigmoid
  have h := Real.exp_pos (-x)
  rw [le_div_iff₀ (by linarith)]
  nlinarith

/-- C55: a component is suppressed by a factor of at least `exp(-499000)` half a step or more before
its start, and the same half a step or more after `0.999·tFinal`. -/
theorem C55_zero_outside (dt tFinal t : ℝ) (hdt : 0 < dt)
    (h : t ≤ -(dt / 2) ∨ 0.999 * tFinal + dt / 2 ≤ t) :
    0 ≤ maskAt dt tFinal t ∧ maskAt dt tFinal t ≤ Real.exp (-499000) := by
  unfold maskAt
  refine ⟨mul_nonneg (sigmoid_nonneg _) (sigmoid_nonneg _), ?_⟩
  rcases h with h | h
  · calc _ ≤ sigmoid ((t / dt + 0.001) * 1e6) * 1 :=
        mul_le_mul_of_nonneg_left (sigmoid_le_one _) (sigmoid_nonneg _)
      _ ≤ Real.exp ((t / dt + 0.001) * 1e6) := by rw [mul_one]; exact sigmoid_le_exp _
      _ ≤ _ := by
        rw [Real.exp_le_exp]
        have : t / dt ≤ -(1 / 2) := by
          rw [div_le_iff₀ hdt]
          linarith
        norm_num at this ⊢
        linarith
  · calc _ ≤ 1 * sigmoid ((0.999 * tFinal - t) / dt * 1e6) :=
        mul_le_mul_of_nonneg_right (sigmoid_le_one _) (sigmoid_nonneg _)
      _ ≤ Real.exp ((0.999 * tFinal - t) / dt * 1e6) := by rw [one_mul]; exact sigmoid_le_exp _
      _ ≤ _ := by
        rw [Real.exp_le_exp]
        have : (0.999 * tFinal - t) / dt ≤ -(1 / 2) := by
          rw [div_le_iff₀ hdt]
          linarith
        norm_num at this ⊢
        linarith

/-- C96: up to `0.999·tFinal - dt/1000` the mask is one up to `2 exp(-1000)`. -/
theorem C96_passes_inside_partial (dt tFinal t : ℝ) (hdt : 0 < dt) (h0 : 0 ≤ t)
    (h1 : t ≤ 0.999 * tFinal - dt / 1000) :
    1 - 2 * Real.exp (-1000) ≤ maskAt dt tFinal t ∧ maskAt dt tFinal t ≤ 1 := by
  unfold maskAt
  constructor
  · have e1 : 1 - Real.exp (-1000) ≤ sigmoid ((t / dt + 0.001) * 1e6) := by
      refine le_trans ?_ (sigmoid_ge _)
      have : Real.exp (-((t / dt + 0.001) * 1e6)) ≤ Real.exp (-1000) := by
        rw [Real.exp_le_exp]
        have : 0 ≤ t / dt := by positivity
        norm_num
        linarith
      linarith
    have e2 : 1 - Real.exp (-1000) ≤ sigmoid ((0.999 * tFinal - t) / dt * 1e6) := by
      refine le_trans ?_ (sigmoid_ge _)
      have : Real.exp (-((0.999 * tFinal - t) / dt * 1e6)) ≤ Real.exp (-1000) := by
        rw [Real.exp_le_exp]
        have : 1 / 1000 ≤ (0.999 * tFinal - t) / dt := by
          rw [le_div_iff₀ hdt]
          linarith
        norm_num at this ⊢
        linarith
      linarith
    have e3 : Real.exp (-1000) ≤ 1 := by
      rw [Real.exp_le_one_iff]
      norm_num
    have e4 := Real.exp_pos (-1000)
    nlinarith [sigmoid_nonneg ((t / dt + 0.001) * 1e6)]
  · calc _ ≤ 1 * (1 : ℝ) := mul_le_mul (sigmoid_le_one _) (sigmoid_le_one _) (sigmoid_nonneg _)
          (by norm_num)
      _ = 1 := one_mul 1

/-- C96 is false for the whole window: for a pulse of 1000 samples the last sample (at
`tFinal - dt/2`, inside of the window) is removed, because the mask ends at `0.999·tFinal`. -/
theorem C96_false_last_sample (dt : ℝ) (hdt : 0 < dt) :
    0 ≤ 1000 * dt - dt / 2 ∧ 1000 * dt - dt / 2 < 1000 * dt ∧
      maskAt dt (1000 * dt) (1000 * dt - dt / 2) ≤ Real.exp (-499000) := by
  refine ⟨by linarith, by linarith, ?_⟩
  exact (C55_zero_outside dt (1000 * dt) (1000 * dt - dt / 2) hdt
    (Or.inr (by norm_num; linarith))).2

/-- The hypothesis of the positive statement holds for the last sample of shorter pulses. -/
example (n : ℕ) (h1 : 1 ≤ n) (h : n ≤ 499) : (0 : ℝ) ≤ n - 1 / 2 ∧ (n : ℝ) - 1 / 2 ≤ 0.999 * n - 1 / 1000 := by
  have h1' : (1 : ℝ) ≤ n := by exact_mod_cast h1
  have h' : (n : ℝ) ≤ 499 := by exact_mod_cast h
  norm_num
  constructor <;> linarith

/-! ## C58 -/

/-- C58: the net-zero envelope has as many values as there are samples and they sum to zero, for
every base envelope and every number of samples. -/
theorem C58_net_zero {R : Type*} [AddCommGroup R] (base : List ℝ → List R)
    (hb : ∀ l, (base l).length = l.length) (ts : List ℝ) :
    (netZero base ts).length = ts.length ∧ (netZero base ts).sum = 0 := by
  unfold netZero
  constructor
  · simp [hb]
    omega
  · have hneg : ∀ l : List R, (l.map (- ·)).sum = - l.sum := by
      intro l
      induction l with
      | nil => simp
      | cons a l ih => simp [ih, add_comm]
    simp only [List.sum_append, hneg]
    simp

/-- C58: the second half is the negative of the first half. -/
theorem C58_halves {R : Type*} [AddCommGroup R] (base : List ℝ → List R)
    (hb : ∀ l, (base l).length = l.length) (ts : List ℝ) (n : ℕ) (hn : n < ts.length / 2) :
    (netZero base ts)[ts.length / 2 + n]? = ((netZero base ts)[n]?).map (- ·) := by
  unfold netZero
  have hl : (base (ts.take (ts.length / 2))).length = ts.length / 2 := by
    rw [hb]
    simp
    omega
  rw [List.getElem?_append_left (by simp [hl]; omega), List.getElem?_append_right (by omega),
    List.getElem?_append_left (by simp [hl]; omega), List.getElem?_append_left (by omega), hl]
  simp

example : netZero (R := ℤ) (fun l => l.map fun _ => 3) [0, 1, 2, 3, 4] = [3, 3, -3, -3, 0] := by
  simp [netZero]

end C3.Timing
