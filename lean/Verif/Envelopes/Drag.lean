import Verif.Envelopes.Gauss
import Mathlib.Analysis.Calculus.Deriv.Add
import Mathlib.Analysis.Calculus.Deriv.Mul
import Mathlib.Analysis.Calculus.Deriv.Comp
import Mathlib.Algebra.Order.BigOperators.Group.List
import Mathlib.Data.List.MinMax

/-!
# C157-C160: DRAG, widths set by envelopes, delta pulses and Fourier pulses

`EnvelopeDrag.get_shape_values` and `_get_shape_values_before` (c3/signal/pulse.py:118-130, 165-180), `gaussian`,
`drag` and `flattop_risefall_1ns` (c3/libraries/envelopes.py:367-371, 400-417, 533-542), `delta_pulse`
(c3/libraries/envelopes.py:128-139), `fourier_sin` and `fourier_cos` (c3/libraries/envelopes.py:142-191).

Simplified: the mask is a fixed list of numbers, so that its own derivative is left out.
-/

namespace C3.Envelopes

open Real Finset

/-! ## C157 -/

/-- c3/signal/pulse.py:132-141: masked shape values for the sample times `ts`. -/
def valuesJust {N : ℕ} (m : Fin N → ℝ) (f : ℝ → ℝ) (ts : Fin N → ℝ) : Fin N → ℝ := fun k => m k * f (ts k)

/-- c3/signal/pulse.py:118-130: the same, less the value one sample before the first. -/
def valuesBefore {N : ℕ} (m : Fin (N + 2) → ℝ) (f : ℝ → ℝ) (ts : Fin (N + 2) → ℝ) : Fin (N + 2) → ℝ :=
  fun k => m k * (f (ts k) - f (2 * ts 0 - ts 1))

/-- `tape.gradient(env, ts)`: the derivative of the sum of all values with respect to each sample time. -/
noncomputable def tapeGrad {N : ℕ} (env : (Fin N → ℝ) → Fin N → ℝ) (ts : Fin N → ℝ) : Fin N → ℝ :=
  fun k => deriv (fun x => ∑ j, env (Function.update ts k x) j) (ts k)

/-- c3/signal/pulse.py:171-181 `EnvelopeDrag.get_shape_values`: real and imaginary part. -/
noncomputable def dragValues {N : ℕ} (env : (Fin (N + 2) → ℝ) → Fin (N + 2) → ℝ) (delta : ℝ) (ts : Fin (N + 2) → ℝ) :
    Fin (N + 2) → ℝ × ℝ :=
  fun k => (env ts k, -(tapeGrad env ts k * (ts 1 - ts 0)) * delta)

/-- Specification: the values of a DRAG pulse, the envelope in phase and its derivative per sample in quadrature. -/
noncomputable def dragSpec {N : ℕ} (m : Fin (N + 2) → ℝ) (f : ℝ → ℝ) (c delta dt : ℝ) (ts : Fin (N + 2) → ℝ) :
    Fin (N + 2) → ℝ × ℝ :=
  fun k => (m k * (f (ts k) - c), -delta * (m k * deriv f (ts k) * dt))

/-- **C157** (partial): the quadrature of a DRAG envelope is the derivative of the envelope. Missing: envelopes with
`use_t_before`, see `C157_false_before`. -/
theorem C157_drag_partial {N : ℕ} (m : Fin (N + 2) → ℝ) (f : ℝ → ℝ) (hf : Differentiable ℝ f) (delta : ℝ)
    (ts : Fin (N + 2) → ℝ) :
    dragValues (valuesJust m f) delta ts = dragSpec m f 0 delta (ts 1 - ts 0) ts := by
  funext k
  have h : tapeGrad (valuesJust m f) ts k = m k * deriv f (ts k) := by
    unfold tapeGrad valuesJust
    have hs : (fun x => ∑ j, m j * f (Function.update ts k x j)) =
        fun x => m k * f x + ∑ j ∈ univ.erase k, m j * f (ts j) := by
      funext x
      rw [← Finset.add_sum_erase _ _ (mem_univ k), Function.update_self]
      congr 1
      apply Finset.sum_congr rfl
      intro j hj
      rw [Function.update_of_ne (Finset.ne_of_mem_erase hj)]
    rw [hs]
    exact (((hf (ts k)).hasDerivAt.const_mul (m k)).add_const _).deriv
  unfold dragValues dragSpec
  rw [h]
  simp only [valuesJust, sub_zero, Prod.mk.injEq, true_and]
  ring

/-- The gradient with `use_t_before`, for any sample. -/
theorem tapeGrad_before {N : ℕ} (m : Fin (N + 2) → ℝ) (f : ℝ → ℝ) (hf : Differentiable ℝ f) (ts : Fin (N + 2) → ℝ)
    (k : Fin (N + 2)) :
    tapeGrad (valuesBefore m f) ts k = m k * deriv f (ts k) -
      (∑ j, m j) * (if k = 0 then 2 else if k = 1 then -1 else 0) * deriv f (2 * ts 0 - ts 1) := by
  unfold tapeGrad valuesBefore
  set s : ℝ := if k = 0 then 2 else if k = 1 then -1 else 0 with hs
  have hlin : ∀ x, 2 * Function.update ts k x 0 - Function.update ts k x 1 =
      2 * ts 0 - ts 1 + s * (x - ts k) := by
    intro x
    by_cases h0 : k = 0
    · subst h0
      rw [Function.update_self, Function.update_of_ne (by simp)]
      simp only [hs, if_true]
      ring
    · rw [Function.update_of_ne (Ne.symm h0)]
      by_cases h1 : k = 1
      · subst h1
        rw [Function.update_self]
        simp only [hs, if_neg h0, if_true]
        ring
      · rw [Function.update_of_ne (Ne.symm h1)]
        simp only [hs, if_neg h0, if_neg h1]
        ring
  have hsum : (fun x => ∑ j, m j * (f (Function.update ts k x j) -
      f (2 * Function.update ts k x 0 - Function.update ts k x 1))) =
      fun x => m k * f x + ∑ j ∈ univ.erase k, m j * f (ts j) -
        (∑ j, m j) * f (2 * ts 0 - ts 1 + s * (x - ts k)) := by
    funext x
    simp only [hlin, mul_sub, Finset.sum_sub_distrib, ← Finset.sum_mul]
    congr 1
    rw [← Finset.add_sum_erase _ _ (mem_univ k), Function.update_self]
    congr 1
    apply Finset.sum_congr rfl
    intro j hj
    rw [Function.update_of_ne (Finset.ne_of_mem_erase hj)]
  rw [hsum]
  have h1 : HasDerivAt (fun x => 2 * ts 0 - ts 1 + s * (x - ts k)) s (ts k) := by
    have := (((hasDerivAt_id (ts k)).sub_const (ts k)).const_mul s).const_add (2 * ts 0 - ts 1)
    simpa using this
  have h2 : HasDerivAt f (deriv f (2 * ts 0 - ts 1)) (2 * ts 0 - ts 1 + s * (ts k - ts k)) := by
    rw [sub_self, mul_zero, add_zero]
    exact (hf _).hasDerivAt
  have h3 := (((hf (ts k)).hasDerivAt.const_mul (m k)).add_const (∑ j ∈ univ.erase k, m j * f (ts j))).sub
    ((h2.comp (ts k) h1).const_mul (∑ j, m j))
  rw [show (fun x => m k * f x + ∑ j ∈ univ.erase k, m j * f (ts j) -
      (∑ j, m j) * f (2 * ts 0 - ts 1 + s * (x - ts k))) = (fun x => m k * f x + ∑ j ∈ univ.erase k, m j * f (ts j)) -
      fun x => (∑ j, m j) * (f ∘ fun x => 2 * ts 0 - ts 1 + s * (x - ts k)) x from rfl, h3.deriv]
  ring

/-- **C157 is false** with `use_t_before`: the value before the first sample is differentiated as well, so that the
quadrature of the first sample misses the derivative by twice the sum of the mask times the slope at that earlier
time, and the second sample by half as much with the opposite sign. -/
theorem C157_false_before {N : ℕ} (m : Fin (N + 2) → ℝ) (f : ℝ → ℝ) (hf : Differentiable ℝ f) (delta : ℝ)
    (ts : Fin (N + 2) → ℝ) (hd : delta ≠ 0) (ht : ts 0 ≠ ts 1) (hm : ∑ j, m j ≠ 0)
    (hs : deriv f (2 * ts 0 - ts 1) ≠ 0) :
    dragValues (valuesBefore m f) delta ts ≠ dragSpec m f (f (2 * ts 0 - ts 1)) delta (ts 1 - ts 0) ts := by
  intro h
  have h0 := congrArg Prod.snd (congrFun h 0)
  simp only [dragValues, dragSpec, tapeGrad_before m f hf] at h0
  rw [if_pos trivial] at h0
  have : delta * (ts 1 - ts 0) * (∑ j, m j) * deriv f (2 * ts 0 - ts 1) = 0 := by linarith
  have ht' : ts 1 - ts 0 ≠ 0 := sub_ne_zero.2 (Ne.symm ht)
  exact (mul_ne_zero (mul_ne_zero (mul_ne_zero hd ht') hm) hs) this

/-- The other samples are right. -/
theorem C157_before_rest_partial {N : ℕ} (m : Fin (N + 2) → ℝ) (f : ℝ → ℝ) (hf : Differentiable ℝ f) (delta : ℝ)
    (ts : Fin (N + 2) → ℝ) (k : Fin (N + 2)) (hk : k ≠ 0) (hk1 : k ≠ 1) :
    dragValues (valuesBefore m f) delta ts k = dragSpec m f (f (2 * ts 0 - ts 1)) delta (ts 1 - ts 0) ts k := by
  unfold dragValues dragSpec
  rw [tapeGrad_before m f hf, if_neg hk, if_neg hk1]
  simp only [valuesBefore, Prod.mk.injEq, true_and]
  ring

example : ∃ (m : Fin 3 → ℝ) (f : ℝ → ℝ) (ts : Fin 3 → ℝ), Differentiable ℝ f ∧ ts 0 ≠ ts 1 ∧ ∑ j, m j ≠ 0 ∧
    deriv f (2 * ts 0 - ts 1) ≠ 0 := by
  refine ⟨fun _ => 1, id, fun k => k.val, differentiable_id, by norm_num, by norm_num, by simp⟩

/-! ## C158 -/

/-- Parameters of an envelope as objects: `obj k` is the object stored under the key `k`, `val o` the value of
an object. -/
structure Heap where
  obj : String → Option ℕ
  val : ℕ → ℝ
  next : ℕ

/-- The value stored under a key. -/
def Heap.get (h : Heap) (k : String) : Option ℝ := (h.obj k).map h.val

/-- `params[k] = Qty(value=v, …)`: a new object. -/
def Heap.put (h : Heap) (k : String) (v : ℝ) : Heap :=
  ⟨Function.update h.obj k (some h.next), Function.update h.val h.next v, h.next + 1⟩

/-- All objects were made before. -/
def Heap.WF (h : Heap) : Prop := ∀ k o, h.obj k = some o → o < h.next

/-- c3/libraries/envelopes.py:400-417 `gaussian` at one time. -/
noncomputable def gaussianFixed (h : Heap) (t : ℝ) : Option ℝ × Heap :=
  match h.get "t_final" with
  | none => (none, h)
  | some T =>
    let h' := h.put "sigma" (T / 6)
    ((h'.get "t_final").bind fun T => (h'.get "sigma").map fun s => gaussianSigma T s t, h')

/-- c3/libraries/envelopes.py:533-542 `drag` at one time. -/
noncomputable def dragFixed (h : Heap) (t : ℝ) : Option ℝ × Heap :=
  match h.get "t_final" with
  | none => (none, h)
  | some T =>
    let h' := h.put "sigma" (T / 4)
    ((h'.get "t_final").bind fun T => (h'.get "sigma").map fun s => dragSigma T s t, h')

/-- c3/libraries/envelopes.py:367-371 `flattop_risefall_1ns` at one time. -/
noncomputable def flattop1ns (h : Heap) (t : ℝ) : Option ℝ × Heap :=
  let h' := h.put "risefall" 1e-9
  ((h'.get "t_final").bind fun T => (h'.get "risefall").map fun r => flattopRisefall T r t, h')

theorem Heap.get_put (h : Heap) (hw : h.WF) (k k' : String) (v : ℝ) :
    (h.put k v).get k' = if k' = k then some v else h.get k' := by
  unfold Heap.put Heap.get
  by_cases hk : k' = k
  · subst hk; simp
  · simp only [Function.update_of_ne hk, if_neg hk]
    cases ho : h.obj k' with
    | none => rfl
    | some o =>
      have := hw k' o ho
      simp [Function.update_of_ne (show o ≠ h.next by omega)]

/-- Evaluating an envelope leaves the parameters well formed, so that it can be repeated. -/
theorem C158_repeat (h : Heap) (hw : h.WF) (t : ℝ) :
    (gaussianFixed h t).2.WF ∧ (dragFixed h t).2.WF ∧ (flattop1ns h t).2.WF := by
  have hput : ∀ k v, (h.put k v).WF := by
    intro k v k' o ho
    simp only [Heap.put] at ho ⊢
    by_cases hk : k' = k
    · subst hk
      rw [Function.update_self, Option.some.injEq] at ho
      omega
    · rw [Function.update_of_ne hk] at ho
      have := hw k' o ho
      omega
  refine ⟨?_, ?_, hput _ _⟩
  · unfold gaussianFixed
    split
    · exact hw
    · exact hput _ _
  · unfold dragFixed
    split
    · exact hw
    · exact hput _ _

/-- **C158**: the widths follow the length of the pulse, whatever the parameter `sigma` is: the values are those of the
general envelope with the fixed ratio. -/
theorem C158_values (h : Heap) (hw : h.WF) (T t : ℝ) (hT : h.get "t_final" = some T) :
    (gaussianFixed h t).1 = some (gaussianSigma T (T / 6) t) ∧
    (dragFixed h t).1 = some (dragSigma T (T / 4) t) ∧
    (flattop1ns h t).1 = some (flattopRisefall T 1e-9 t) := by
  refine ⟨?_, ?_, ?_⟩
  · unfold gaussianFixed
    simp only [hT, Heap.get_put h hw]
    simp
  · unfold dragFixed
    simp only [hT, Heap.get_put h hw]
    simp
  · unfold flattop1ns
    simp only [Heap.get_put h hw, hT]
    simp

/-- Other parameters keep their values. -/
theorem C158_rest_partial (h : Heap) (hw : h.WF) (t : ℝ) (k : String) (h1 : k ≠ "sigma") (h2 : k ≠ "risefall") :
    ((gaussianFixed h t).2).get k = h.get k ∧ ((dragFixed h t).2).get k = h.get k ∧
      ((flattop1ns h t).2).get k = h.get k := by
  refine ⟨?_, ?_, ?_⟩
  · unfold gaussianFixed
    split
    · rfl
    · simp only [Heap.get_put h hw, if_neg h1]
  · unfold dragFixed
    split
    · rfl
    · simp only [Heap.get_put h hw, if_neg h1]
  · unfold flattop1ns
    simp only [Heap.get_put h hw, if_neg h2]

/-- **C158 is false**: evaluating the envelope replaces its width by a new object: the object `o` that a parameter map
holds for `sigma` is no longer the one of the envelope and keeps its old value. -/
theorem C158_false_replaced (h : Heap) (hw : h.WF) (T t : ℝ) (o : ℕ) (hT : h.get "t_final" = some T)
    (ho : h.obj "sigma" = some o) :
    ((gaussianFixed h t).2).obj "sigma" ≠ some o ∧ ((gaussianFixed h t).2).val o = h.val o ∧
      ((gaussianFixed h t).2).get "sigma" = some (T / 6) := by
  have hlt := hw _ _ ho
  unfold gaussianFixed
  simp only [hT]
  refine ⟨?_, ?_, ?_⟩
  · simp only [Heap.put, Function.update_self, ne_eq, Option.some.injEq]
    omega
  · simp only [Heap.put]
    rw [Function.update_of_ne (by omega)]
  · rw [Heap.get_put h hw, if_pos rfl]

/-- The same for the DRAG envelope and for the rise time of the fixed flat top. -/
theorem C158_false_replaced_others (h : Heap) (hw : h.WF) (T t : ℝ) (o r : ℕ) (hT : h.get "t_final" = some T)
    (ho : h.obj "sigma" = some o) (hr : h.obj "risefall" = some r) :
    (((dragFixed h t).2).obj "sigma" ≠ some o ∧ ((dragFixed h t).2).val o = h.val o ∧
      ((dragFixed h t).2).get "sigma" = some (T / 4)) ∧
    (((flattop1ns h t).2).obj "risefall" ≠ some r ∧ ((flattop1ns h t).2).val r = h.val r ∧
      ((flattop1ns h t).2).get "risefall" = some 1e-9) := by
  have hlt := hw _ _ ho
  have hlr := hw _ _ hr
  unfold dragFixed flattop1ns
  simp only [hT]
  refine ⟨⟨?_, ?_, ?_⟩, ?_, ?_, ?_⟩
  · simp only [Heap.put, Function.update_self, ne_eq, Option.some.injEq]
    omega
  · simp only [Heap.put]
    rw [Function.update_of_ne (by omega)]
  · rw [Heap.get_put h hw, if_pos rfl]
  · simp only [Heap.put, Function.update_self, ne_eq, Option.some.injEq]
    omega
  · simp only [Heap.put]
    rw [Function.update_of_ne (by omega)]
  · rw [Heap.get_put h hw, if_pos rfl]

/-- ... so that a later write through the map has no effect on the envelope. -/
theorem C158_false_write (h : Heap) (hw : h.WF) (T t v : ℝ) (o : ℕ) (hT : h.get "t_final" = some T)
    (ho : h.obj "sigma" = some o) :
    let h' := (gaussianFixed h t).2
    Heap.get ⟨h'.obj, Function.update h'.val o v, h'.next⟩ "sigma" = some (T / 6) := by
  obtain ⟨h1, -, h3⟩ := C158_false_replaced h hw T t o hT ho
  simp only [Heap.get] at h3 ⊢
  cases hs : (gaussianFixed h t).2.obj "sigma" with
  | none => rw [hs] at h3; simp at h3
  | some o' =>
    rw [hs] at h3 h1
    have hne : o' ≠ o := fun e => h1 (by rw [e])
    simpa [Function.update_of_ne hne] using h3

/-- A pulse with length one and width five. -/
def exHeap : Heap := ⟨fun k => if k = "t_final" then some 0 else if k = "sigma" then some 1 else none,
  fun o => if o = 0 then 1 else 5, 2⟩

example : exHeap.WF ∧ exHeap.get "t_final" = some 1 ∧ exHeap.obj "sigma" = some 1 := by
  refine ⟨?_, by simp [exHeap, Heap.get], by simp [exHeap]⟩
  intro k o h
  simp only [exHeap] at h ⊢
  split at h
  · cases h; omega
  · split at h
    · cases h; omega
    · cases h

/-! ## C159 -/

open scoped Classical in
/-- c3/libraries/envelopes.py:128-139 `delta_pulse`: one at the samples at which the distance is minimal. -/
noncomputable def deltaPulse (sig ts : List ℝ) : List ℝ :=
  sig.foldl (fun shape s =>
    List.zipWith (fun t v => if ∀ u ∈ ts, (t - s - 1e-9) ^ 2 ≤ (u - s - 1e-9) ^ 2 then 1 else v) ts shape)
    (ts.map fun _ => 0)

/-- The sample `t` is as close to `x` as any other. -/
def Nearest (ts : List ℝ) (x t : ℝ) : Prop := ∀ u ∈ ts, |t - x| ≤ |u - x|

open scoped Classical in
/-- **C159** (partial): the pulse is one exactly at the samples nearest to one nanosecond after one of the given times,
and zero elsewhere. -/
theorem C159_samples_partial (sig ts : List ℝ) :
    deltaPulse sig ts = ts.map fun t => if ∃ s ∈ sig, Nearest ts (s + 1e-9) t then 1 else 0 := by
  have key : ∀ (sig : List ℝ) (g : ℝ → ℝ), sig.foldl (fun shape s =>
      List.zipWith (fun t v => if ∀ u ∈ ts, (t - s - 1e-9) ^ 2 ≤ (u - s - 1e-9) ^ 2 then 1 else v) ts shape)
      (ts.map g) = ts.map fun t => if ∃ s ∈ sig, Nearest ts (s + 1e-9) t then 1 else g t := by
    intro sig
    induction sig with
    | nil => intro g; simp
    | cons s sig ih =>
      intro g
      rw [List.foldl_cons]
      have hz : List.zipWith (fun t v => if ∀ u ∈ ts, (t - s - 1e-9) ^ 2 ≤ (u - s - 1e-9) ^ 2 then (1 : ℝ) else v) ts
          (ts.map g) = ts.map fun t => if Nearest ts (s + 1e-9) t then 1 else g t := by
        have hn : ∀ t, (∀ u ∈ ts, (t - s - 1e-9) ^ 2 ≤ (u - s - 1e-9) ^ 2) ↔ Nearest ts (s + 1e-9) t := by
          intro t
          unfold Nearest
          refine forall₂_congr fun u _ => ?_
          rw [sq_le_sq, sub_sub, sub_sub]
        simp only [hn]
        apply List.ext_getElem <;> simp
      rw [hz, ih]
      apply List.map_congr_left
      intro t _
      by_cases h1 : ∃ r ∈ sig, Nearest ts (r + 1e-9) t
      · have h2 : ∃ r ∈ s :: sig, Nearest ts (r + 1e-9) t := by
          obtain ⟨r, hr, h⟩ := h1
          exact ⟨r, List.mem_cons_of_mem _ hr, h⟩
        rw [if_pos h1, if_pos h2]
      · rw [if_neg h1]
        by_cases h3 : Nearest ts (s + 1e-9) t
        · rw [if_pos h3, if_pos ⟨s, List.mem_cons_self, h3⟩]
        · rw [if_neg h3, if_neg]
          rintro ⟨r, hr, h⟩
          rcases List.mem_cons.1 hr with rfl | hr
          · exact h3 h
          · exact h1 ⟨r, hr, h⟩
  unfold deltaPulse
  rw [key]

/-- **C159 is false**: with samples every half nanosecond the pulse is at the wrong sample. -/
theorem C159_false_shift : deltaPulse [0] [0, 0.5e-9, 1e-9, 1.5e-9] = [0, 0, 1, 0] := by
  rw [C159_samples_partial]
  have h : ∀ t : ℝ, (∃ s ∈ [(0 : ℝ)], Nearest [0, 0.5e-9, 1e-9, 1.5e-9] (s + 1e-9) t) ↔ t = 1e-9 := by
    intro t
    simp only [List.mem_singleton, exists_eq_left, zero_add]
    unfold Nearest
    constructor
    · intro h
      have := h 1e-9 (by simp)
      rw [sub_self, abs_zero] at this
      have := abs_nonpos_iff.1 this
      linarith
    · rintro rfl u _
      rw [sub_self, abs_zero]
      exact abs_nonneg _
  simp only [h, List.map_cons, List.map_nil]
  norm_num

/-- **C159 is false**: two samples at the same distance are both one. -/
theorem C159_false_tie : deltaPulse [0] [0, 2e-9] = [1, 1] := by
  rw [C159_samples_partial]
  have h : ∀ t : ℝ, t = 0 ∨ t = 2e-9 → (∃ s ∈ [(0 : ℝ)], Nearest [0, 2e-9] (s + 1e-9) t) := by
    intro t ht
    refine ⟨0, by simp, fun u hu => ?_⟩
    have hu' : u = 0 ∨ u = 2e-9 := by simpa using hu
    rcases ht with rfl | rfl <;> rcases hu' with rfl | rfl <;> rw [← sq_le_sq] <;> norm_num
  simp only [List.map_cons, List.map_nil, if_pos (h 0 (Or.inl rfl)), if_pos (h _ (Or.inr rfl))]

/-! ## C160 -/

/-- c3/libraries/envelopes.py:142-168 `fourier_sin` at one time, for lists of equal length. -/
noncomputable def fourierSin (amps freqs phases : List ℝ) (t : ℝ) : ℝ :=
  (List.zipWith (· * ·) amps (List.zipWith (fun w p => sin (w * t + p)) freqs phases)).sum

/-- c3/libraries/envelopes.py:171-191 `fourier_cos` at one time. -/
noncomputable def fourierCos (amps freqs : List ℝ) (t : ℝ) : ℝ :=
  (List.zipWith (· * ·) amps (freqs.map fun w => cos (w * t))).sum

theorem zip_bound (amps vs : List ℝ) (hv : ∀ v ∈ vs, |v| ≤ 1) :
    |(List.zipWith (· * ·) amps vs).sum| ≤ (amps.map abs).sum := by
  induction amps generalizing vs with
  | nil => simp
  | cons a amps ih =>
    have hpos : 0 ≤ (amps.map abs).sum := List.sum_nonneg (by
      intro x hx
      obtain ⟨y, -, rfl⟩ := List.mem_map.1 hx
      exact abs_nonneg y)
    cases vs with
    | nil =>
      simp only [List.zipWith_nil_right, List.sum_nil, abs_zero, List.map_cons, List.sum_cons]
      positivity
    | cons v vs =>
      simp only [List.zipWith_cons_cons, List.sum_cons, List.map_cons]
      have h1 := ih vs fun w hw => hv w (List.mem_cons_of_mem _ hw)
      have h2 : |a * v| ≤ |a| := by
        rw [abs_mul]
        exact mul_le_of_le_one_right (abs_nonneg a) (hv v List.mem_cons_self)
      exact (abs_add_le _ _).trans (add_le_add h2 h1)

/-- **C160**: Fourier pulses are bounded by the sum of the absolute amplitudes. -/
theorem C160_bounded (amps freqs phases : List ℝ) (t : ℝ) :
    |fourierSin amps freqs phases t| ≤ (amps.map abs).sum ∧ |fourierCos amps freqs t| ≤ (amps.map abs).sum := by
  constructor
  · apply zip_bound
    intro v hv
    rw [List.mem_iff_getElem] at hv
    obtain ⟨n, h1, rfl⟩ := hv
    rw [List.getElem_zipWith]
    exact abs_sin_le_one _
  · apply zip_bound
    intro v hv
    obtain ⟨w, -, rfl⟩ := List.mem_map.1 hv
    exact abs_cos_le_one _

/-- **C160**: at time zero the cosine pulse is the sum of its amplitudes; it is even in time; the sine pulse with all
phases a quarter period is the cosine pulse. -/
theorem C160_cos (amps freqs : List ℝ) (h : amps.length = freqs.length) (t : ℝ) :
    fourierCos amps freqs 0 = amps.sum ∧ fourierCos amps freqs (-t) = fourierCos amps freqs t ∧
      fourierSin amps freqs (freqs.map fun _ => π / 2) t = fourierCos amps freqs t := by
  refine ⟨?_, ?_, ?_⟩
  · unfold fourierCos
    congr 1
    apply List.ext_getElem
    · simp [h]
    · intro n h1 h2
      simp
  · unfold fourierCos
    simp only [mul_neg, cos_neg]
  · unfold fourierSin fourierCos
    congr 2
    apply List.ext_getElem
    · simp
    · intro n h1 h2
      simp [sin_add_pi_div_two]

/-- **C160**: Fourier pulses are linear in the amplitudes. -/
theorem C160_linear (a b freqs phases : List ℝ) (h : a.length = b.length) (c t : ℝ) :
    fourierSin (List.zipWith (fun x y => c * x + y) a b) freqs phases t =
      c * fourierSin a freqs phases t + fourierSin b freqs phases t ∧
    fourierCos (List.zipWith (fun x y => c * x + y) a b) freqs t = c * fourierCos a freqs t + fourierCos b freqs t := by
  have key : ∀ (a b vs : List ℝ), a.length = b.length →
      (List.zipWith (· * ·) (List.zipWith (fun x y => c * x + y) a b) vs).sum =
        c * (List.zipWith (· * ·) a vs).sum + (List.zipWith (· * ·) b vs).sum := by
    intro a
    induction a with
    | nil =>
      intro b vs hl
      have : b = [] := List.eq_nil_of_length_eq_zero hl.symm
      subst this
      simp
    | cons x a ih =>
      intro b vs hl
      cases b with
      | nil => simp at hl
      | cons y b =>
        cases vs with
        | nil => simp
        | cons v vs =>
          simp only [List.zipWith_cons_cons, List.sum_cons]
          rw [ih b vs (by simpa using hl)]
          ring
  exact ⟨key a b _ h, key a b _ h⟩

example : fourierCos [1, 2] [3, 4] 0 = 3 := by
  rw [(C160_cos [1, 2] [3, 4] rfl 0).1]
  norm_num

end C3.Envelopes
