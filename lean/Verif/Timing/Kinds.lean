import Verif.Timing.Awg

/-!
# C258: which envelopes an instruction can play

`Instruction.get_awg_signal` (c3/signal/gates.py:341-370) calls `get_shape_values` with two arguments for every component
that is an `Envelope`. The classes `Envelope`, `EnvelopeDrag` and `EnvelopeNetZero` (c3/signal/pulse.py:23-238) define this
method in different ways.

Simplified: the derivative `t.gradient(env, ts)` of a DRAG envelope is a parameter of the model (see C157 for its value);
parameters are numbers.
-/

set_option linter.unusedSectionVars false

noncomputable section

namespace C3.Timing.Kinds

open Complex C3.Timing

/-! ## Model -/

/-- The classes of envelopes. -/
inductive Kind where
  | plain
  | drag (delta : ℝ) (grad : (List ℝ → ℝ → List ℂ) → List ℝ → ℝ → List ℝ)
  | netZero

inductive PyErr where
  | typeError
deriving DecidableEq

/-- A component with its timings, c3/signal/gates.py:346-350; carriers carry no envelope. -/
structure KComp where
  tStart : ℝ
  tEnd : ℝ
  env : Option (Kind × Bool × Env)

/-- c3/signal/pulse.py:118-130 `_get_shape_values_before`. -/
def before (e : Env) (ts : List ℝ) (tWindow : ℝ) : List ℂ :=
  let dt := ts.getD 1 0 - ts.getD 0 0
  let offset := e.shape (2 * ts.getD 0 0 - ts.getD 1 0)
  ts.map fun t => (maskAt dt (min e.tFinal tWindow) t : ℂ) * (e.shape t - offset)

/-- c3/signal/pulse.py:92-96, 165-169, 216-220 `set_use_t_before`: the method that is used for the values. -/
def base (useTBefore : Bool) (e : Env) : List ℝ → ℝ → List ℂ := if useTBefore then before e else shapeValues e

/-- c3/signal/pulse.py:171-180 `EnvelopeDrag.get_shape_values`. -/
def dragValues (delta : ℝ) (grad : (List ℝ → ℝ → List ℂ) → List ℝ → ℝ → List ℝ) (f : List ℝ → ℝ → List ℂ) (ts : List ℝ)
    (tWindow : ℝ) : List ℂ :=
  let dt := ts.getD 1 0 - ts.getD 0 0
  let realPart : List ℝ → ℝ → List ℂ := fun ts t => (f ts t).map fun v => (v.re : ℂ)
  List.zipWith (fun v g => (v.re : ℂ) + I * ((-(g * dt) * delta : ℝ) : ℂ)) (f ts tWindow) (grad realPart ts tWindow)

/-- A call of `get_shape_values` with positional arguments: the sample times and, if given, the window. The method of
`EnvelopeNetZero` (c3/signal/pulse.py:222-238) has no second argument and uses the default of its base, 1. -/
def call (k : Kind) (b : Bool) (e : Env) (ts : List ℝ) (tWindow : Option ℝ) : Except PyErr (List ℂ) :=
  match k, tWindow with
  | .plain, w => .ok (base b e ts (w.getD 1))
  | .drag delta grad, w => .ok (dragValues delta grad (base b e) ts (w.getD 1))
  | .netZero, none => .ok (netZero (fun l => base b e l 1) ts)
  | .netZero, some _ => .error .typeError

/-- c3/signal/gates.py:349-363: one component of the loop. -/
def step (ts : List ℝ) (signal : List ℂ) (c : KComp) : Except PyErr (List ℂ) :=
  match c.env with
  | none => .ok signal
  | some (k, b, e) =>
    let off := ts.map (· - c.tStart)
    match call k b e off (some (c.tEnd - c.tStart)) with
    | .error err => .error err
    | .ok vs => .ok (List.zipWith (· + ·) signal
        (List.zipWith (fun v t => (e.amp : ℂ) * v * exp (I * ((e.xyAngle - e.freqOffset * t : ℝ) : ℂ))) vs off))

/-- c3/signal/gates.py:341-370 `get_awg_signal` before it is split into quadratures. -/
def play (comps : List KComp) (ts : List ℝ) : Except PyErr (List ℂ) := comps.foldlM (step ts) (ts.map fun _ => 0)

/-! ## Specification -/

/-- The component is a net-zero envelope. -/
def IsNetZero (c : KComp) : Prop := ∃ b e, c.env = some (.netZero, b, e)

/-- The value of a simple or offset envelope at a sample. -/
def plainAt (b : Bool) (e : Env) (dt t0 w t : ℝ) : ℂ :=
  (maskAt dt (min e.tFinal w) t : ℂ) * (e.shape t - if b then e.shape (t0 - dt) else 0)

/-- What a component adds to the sample with a number. -/
def valueAt (ts : List ℝ) (c : KComp) (n : ℕ) : ℂ :=
  match c.env with
  | none => 0
  | some (k, b, e) =>
    let dt := ts.getD 1 0 - ts.getD 0 0
    let t := ts.getD n 0 - c.tStart
    let t0 := ts.getD 0 0 - c.tStart
    let w := c.tEnd - c.tStart
    let v : ℂ := match k with
      | .plain => plainAt b e dt t0 w t
      | .drag delta grad => ((plainAt b e dt t0 w t).re : ℂ) - I * ((delta * dt *
          (grad (fun ts t => (base b e ts t).map fun v => (v.re : ℂ)) (ts.map (· - c.tStart)) w).getD n 0 : ℝ) : ℂ)
      | .netZero => 0
    e.amp * v * exp (I * ((e.xyAngle - e.freqOffset * t : ℝ) : ℂ))

/-- Derivatives have one value per sample. -/
def GradFits (c : KComp) : Prop :=
  ∀ delta grad b e, c.env = some (.drag delta grad, b, e) → ∀ f l w, (grad f l w).length = l.length

/-! ## Lemmas -/

theorem base_length (b : Bool) (e : Env) (ts : List ℝ) (w : ℝ) : (base b e ts w).length = ts.length := by
  unfold base
  split <;> simp [before, shapeValues]

theorem getD_off (ts : List ℝ) (s : ℝ) (n : ℕ) (h : n < ts.length) : (ts.map (· - s)).getD n 0 = ts.getD n 0 - s := by
  rw [List.getD_eq_getElem _ _ (by simpa using h), List.getD_eq_getElem _ _ h, List.getElem_map]

theorem base_get (b : Bool) (e : Env) (ts : List ℝ) (w s : ℝ) (h2 : 2 ≤ ts.length) (n : ℕ) (hn : n < ts.length) :
    (base b e (ts.map (· - s)) w)[n]'(by rw [base_length]; simpa using hn) =
      plainAt b e (ts.getD 1 0 - ts.getD 0 0) (ts.getD 0 0 - s) w (ts.getD n 0 - s) := by
  have e0 := getD_off ts s 0 (by omega)
  have e1 := getD_off ts s 1 (by omega)
  have en : ts[n] - s = ts.getD n 0 - s := by rw [List.getD_eq_getElem _ _ hn]
  have d : ts.getD 1 0 - s - (ts.getD 0 0 - s) = ts.getD 1 0 - ts.getD 0 0 := by ring
  have o : 2 * (ts.getD 0 0 - s) - (ts.getD 1 0 - s) = ts.getD 0 0 - s - (ts.getD 1 0 - ts.getD 0 0) := by ring
  unfold plainAt
  cases b with
  | true => simp only [base, if_true, before, List.getElem_map, e0, e1, en, d, o]
  | false => simp only [base, Bool.false_eq_true, if_false, shapeValues, List.getElem_map, e0, e1, en, d, sub_zero]

theorem step_ok (ts : List ℝ) (h2 : 2 ≤ ts.length) (signal : List ℂ) (hs : signal.length = ts.length) (c : KComp)
    (hc : ¬ IsNetZero c) (hg : GradFits c) :
    ∃ r, step ts signal c = .ok r ∧ r.length = ts.length ∧ ∀ n, n < ts.length → r.getD n 0 =
      signal.getD n 0 + valueAt ts c n := by
  unfold step valueAt
  cases he : c.env with
  | none => exact ⟨signal, rfl, hs, fun n h => (add_zero _).symm⟩
  | some x =>
    obtain ⟨k, b, e⟩ := x
    cases k with
    | netZero => exact absurd ⟨b, e, he⟩ hc
    | plain =>
      refine ⟨_, rfl, ?_, ?_⟩
      · simp [hs, base_length]
      · intro n h
        rw [List.getD_eq_getElem _ _ (by simpa [hs, base_length] using h), List.getD_eq_getElem signal _ (by omega)]
        simp only [List.getElem_zipWith, Option.getD_some, base_get b e ts _ c.tStart h2 n h, List.getElem_map]
        rw [List.getD_eq_getElem _ _ h]
    | drag delta grad =>
      have hl := hg delta grad b e he
      refine ⟨_, rfl, ?_, ?_⟩
      · simp [hs, base_length, dragValues, hl]
      · intro n h
        rw [List.getD_eq_getElem _ _ (by simpa [hs, base_length, dragValues, hl] using h), List.getD_eq_getElem signal _ (by omega)]
        have e0 := getD_off ts c.tStart 0 (by omega)
        have e1 := getD_off ts c.tStart 1 (by omega)
        have eg : (grad (fun ts t => (base b e ts t).map fun v => (v.re : ℂ)) (ts.map (· - c.tStart))
            (c.tEnd - c.tStart)).getD n 0 = _ := List.getD_eq_getElem _ _ (by rw [hl]; simpa using h)
        have et : ts.getD n 0 = ts[n] := List.getD_eq_getElem _ _ h
        simp only [List.getElem_zipWith, Option.getD_some, dragValues, base_get b e ts _ c.tStart h2 n h, List.getElem_map,
          e0, e1, eg, et]
        congr 3
        push_cast
        ring

/-! ## Theorems -/

/-- C258 (partial): every instruction without net-zero envelopes can be played, and at every sample the signal is the sum of
the values of its components. Missing: net-zero envelopes, see `C258_false`. -/
theorem C258_sum_partial (comps : List KComp) (ts : List ℝ) (h2 : 2 ≤ ts.length) (hc : ∀ c ∈ comps, ¬ IsNetZero c)
    (hg : ∀ c ∈ comps, GradFits c) :
    play comps ts = .ok ((List.range ts.length).map fun n => (comps.map fun c => valueAt ts c n).sum) := by
  have main : ∀ (comps : List KComp) (signal : List ℂ), signal.length = ts.length → (∀ c ∈ comps, ¬ IsNetZero c) →
      (∀ c ∈ comps, GradFits c) → ∃ r, comps.foldlM (step ts) signal = .ok r ∧ r.length = ts.length ∧
        ∀ n, n < ts.length → r.getD n 0 = signal.getD n 0 + (comps.map fun c => valueAt ts c n).sum := by
    intro comps
    induction comps with
    | nil => exact fun signal hs _ _ => ⟨signal, rfl, hs, fun n _ => by simp⟩
    | cons c comps ih =>
      intro signal hs hc hg
      obtain ⟨r, h1, h3, h4⟩ := step_ok ts h2 signal hs c (hc c List.mem_cons_self) (hg c List.mem_cons_self)
      obtain ⟨r', g1, g2, g3⟩ := ih r h3 (fun c h => hc c (List.mem_cons_of_mem _ h)) fun c h => hg c (List.mem_cons_of_mem _ h)
      refine ⟨r', ?_, g2, fun n hn => ?_⟩
      · rw [List.foldlM_cons, h1]
        exact g1
      · rw [g3 n hn, h4 n hn, List.map_cons, List.sum_cons, add_assoc]
  obtain ⟨r, h1, h3, h4⟩ := main comps (ts.map fun _ => 0) (by simp) hc hg
  unfold play
  rw [h1]
  congr 1
  apply List.ext_getElem (by simp [h3])
  intro n hn hn'
  have := h4 n (by omega)
  rw [List.getD_eq_getElem _ _ hn, List.getD_eq_getElem _ _ (by simp; omega)] at this
  rw [this]
  simp

/-- C258 is false for net-zero envelopes: every instruction with such an envelope raises when its signal is computed, for all
parameters and sample times. -/
theorem C258_false (comps : List KComp) (ts : List ℝ) (c : KComp) (hm : c ∈ comps) (hc : IsNetZero c) :
    play comps ts = .error .typeError := by
  unfold play
  generalize ts.map (fun _ => (0 : ℂ)) = signal
  induction comps generalizing signal with
  | nil => simp at hm
  | cons d comps ih =>
    rw [List.foldlM_cons]
    cases hs : step ts signal d with
    | error e =>
      cases e
      rfl
    | ok r =>
      rcases List.mem_cons.1 hm with rfl | hm
      · obtain ⟨b, e, he⟩ := hc
        unfold step at hs
        rw [he] at hs
        simp [call] at hs
      · exact ih hm r

/-- C258: so an instruction raises exactly if it has a net-zero envelope. -/
theorem C258_raises_iff_false (comps : List KComp) (ts : List ℝ) (h2 : 2 ≤ ts.length) (hg : ∀ c ∈ comps, GradFits c) :
    (∃ e, play comps ts = .error e) ↔ ∃ c ∈ comps, IsNetZero c := by
  constructor
  · rintro ⟨e, he⟩
    by_contra h
    push Not at h
    rw [C258_sum_partial comps ts h2 h hg] at he
    cases he
  · rintro ⟨c, hm, hc⟩
    exact ⟨_, C258_false comps ts c hm hc⟩

/-- C258: with a single argument, as in the tests, the net-zero envelope returns values; their sum is zero. -/
theorem C258_single_argument (b : Bool) (e : Env) (ts : List ℝ) :
    ∃ vs, call .netZero b e ts none = .ok vs ∧ vs.length = ts.length ∧ vs.sum = 0 :=
  ⟨_, rfl, C58_net_zero _ (fun l => base_length b e l 1) ts⟩

/-- C258: the quadrature of the shape of a DRAG envelope is lost. -/
theorem C258_drag_real (delta : ℝ) (grad : (List ℝ → ℝ → List ℂ) → List ℝ → ℝ → List ℝ) (b : Bool) (e : Env) (ts : List ℝ)
    (w : Option ℝ) (f : ℝ → ℂ) (hf : ∀ t, (f t).re = (e.shape t).re) :
    call (.drag delta grad) b { e with shape := f } ts w = call (.drag delta grad) b e ts w := by
  have key : ∀ l t, ((base b { e with shape := f } l t).map fun v => (v.re : ℂ)) = (base b e l t).map fun v => (v.re : ℂ) := by
    intro l t
    cases b <;> simp [base, before, shapeValues, hf]
  simp only [call, dragValues, key]
  congr 1
  have split : ∀ (l m : List ℂ) (g : List ℝ) (dt : ℝ), (l.map fun v => (v.re : ℂ)) = m.map (fun v => (v.re : ℂ)) →
      List.zipWith (fun v g => (v.re : ℂ) + I * ((-(g * dt) * delta : ℝ) : ℂ)) l g =
        List.zipWith (fun v g => (v.re : ℂ) + I * ((-(g * dt) * delta : ℝ) : ℂ)) m g := by
    intro l
    induction l with
    | nil =>
      intro m g dt h
      obtain rfl : m = [] := by simpa using h.symm
      rfl
    | cons a l ih =>
      intro m g dt h
      cases m with
      | nil => simp at h
      | cons a' m =>
        rw [List.map_cons, List.map_cons, List.cons.injEq] at h
        cases g with
        | nil => rfl
        | cons x g =>
          rw [List.zipWith_cons_cons, List.zipWith_cons_cons, ih m g dt h.2, h.1]
  exact split _ _ _ _ (key _ _)

/-- C258: for simple envelopes this is the signal of C55. -/
theorem C258_agrees (comps : List AComp) (ts : List ℝ) (h2 : 2 ≤ ts.length) :
    play (comps.map fun c => ⟨c.tStart, c.tEnd, c.env.map fun e => (.plain, false, e)⟩) ts = .ok (awgComplex comps ts) := by
  unfold play awgComplex
  have : ∀ (signal : List ℂ), signal.length = ts.length →
      (comps.map fun c => (⟨c.tStart, c.tEnd, c.env.map fun e => (.plain, false, e)⟩ : KComp)).foldlM (step ts) signal =
        .ok (comps.foldl (fun signal c => List.zipWith (· + ·) signal (contribution c ts)) signal) := by
    induction comps with
    | nil => exact fun _ _ => rfl
    | cons c comps ih =>
      intro signal hs
      rw [List.map_cons, List.foldlM_cons, List.foldl_cons]
      have e : step ts signal ⟨c.tStart, c.tEnd, c.env.map fun e => (.plain, false, e)⟩ =
          .ok (List.zipWith (· + ·) signal (contribution c ts)) := by
        unfold step contribution
        cases c.env with
        | none =>
          simp only [Option.map_none]
          congr 1
          apply List.ext_getElem (by simp [hs])
          intro n _ _
          simp
        | some e => rfl
      rw [e]
      refine ih _ ?_
      rw [List.length_zipWith, contribution_eq c ts h2, List.length_map, hs, min_self]
  exact this _ (by simp)

/-! ## Examples -/

/-- The hypotheses of the positive statement hold for an instruction with an offset envelope and a carrier. -/
example : play [⟨0, 2, some (.plain, true, ⟨1, 0, 0, 2, fun t => t⟩)⟩, ⟨0, 2, none⟩] [0, 1] =
    .ok ((List.range 2).map fun n => ([⟨0, 2, some (.plain, true, ⟨1, 0, 0, 2, fun t => t⟩)⟩, ⟨0, 2, none⟩].map
      fun c => valueAt [0, 1] c n).sum) := by
  refine C258_sum_partial _ _ (by simp) ?_ ?_
  · intro c hc
    rcases List.mem_cons.1 hc with rfl | hc
    · rintro ⟨b, e, h⟩
      simp at h
    · obtain rfl := List.mem_singleton.1 hc
      rintro ⟨b, e, h⟩
      simp at h
  · intro c hc delta grad b e h
    rcases List.mem_cons.1 hc with rfl | hc
    · simp at h
    · obtain rfl := List.mem_singleton.1 hc
      simp at h

/-- A net-zero envelope next to a carrier raises. -/
example : play [⟨0, 2, none⟩, ⟨0, 2, some (.netZero, false, ⟨1, 0, 0, 2, fun _ => 1⟩)⟩] [0, 1] = .error .typeError :=
  C258_false _ _ _ (List.mem_cons_of_mem _ List.mem_cons_self) ⟨_, _, rfl⟩

end C3.Timing.Kinds
