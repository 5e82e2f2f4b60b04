import Verif.ParamMap.Props
import Mathlib.Data.List.Induction

/-!
# C73, C112: the logged parameters and the end of an optimization

Models c3/optimizers/optimizer.py:243-313 (`fct_to_min`, `fct_to_min_autograd`) on top of the parameter
map, and the end of c3/optimizers/optimalcontrol.py:164-198 (`optimize_controls`), which reloads the best
point from its file. The goal function is `set_parameters_scaled` followed by an arbitrary function of
the parameter map (c3/optimizers/optimalcontrol.py:200-229), run eagerly.
-/

set_option linter.unusedSectionVars false

noncomputable section

namespace C3.Optim

open C3 C3.Quantity C3.PMap

/-! ## Model -/

/-- c3/optimizers/optimizer.py:259-264: the list `pars` logged by `fct_to_min`; `zip` pairs the quantities
with the entries of the flat vector and stops at the shorter one. -/
def loggedPars (s : PMap) (x : List ℝ) : Except PErr (List ℝ) :=
  match s.getParameters s.optMap with
  | .error e => .error e
  | .ok qs => .ok (List.zipWith (fun q y => q.getOtherValue y) qs x)

/-- c3/optimizers/optimizer.py:243-275 `fct_to_min`: parameter map afterwards, logged parameters, goal. -/
def fctToMin (f : PMap → ℝ) (s : PMap) (x : List ℝ) : Except PErr (PMap × List ℝ × ℝ) :=
  match loggedPars s x with
  | .error e => .error e
  | .ok pars =>
    match s.setParametersScaled x with
    | (_, some e) => .error e
    | (s', none) => .ok (s', pars, f s')

/-- c3/optimizers/optimizer.py:277-313 `fct_to_min_autograd`: after the goal run the parameters are set
once more, then the values are read from the map. -/
def fctToMinAutograd (f : PMap → ℝ) (s : PMap) (x : List ℝ) : Except PErr (PMap × List (List ℝ) × ℝ) :=
  match s.setParametersScaled x with
  | (_, some e) => .error e
  | (s1, none) =>
    match s1.setParametersScaled x with
    | (_, some e) => .error e
    | (s2, none) =>
      match s2.getParameters s2.optMap with
      | .error e => .error e
      | .ok qs => .ok (s2, qs.map Quantity.numpy, f s1)

inductive OErr where
  | pmap (e : PErr)
  /-- no best point file -/
  | noFile

open scoped Classical in
/-- The evaluations of an algorithm at the points `xs`, with the best point so far
(c3/optimizers/optimizer.py:173-185). -/
def evaluations (f : PMap → ℝ) : PMap → ℝ × Option (List ℝ) → List (List ℝ) →
    Except PErr (PMap × ℝ × Option (List ℝ))
  | s, b, [] => .ok (s, b)
  | s, b, x :: xs =>
    match fctToMin f s x with
    | .error e => .error e
    | .ok (s', pars, g) => evaluations f s' (if g < b.1 then (g, some pars) else b) xs

/-- c3/optimizers/optimalcontrol.py:164-198: run the algorithm, then load the best point. -/
def optimizeControls (f : PMap → ℝ) (s : PMap) (xs : List (List ℝ)) : Except OErr PMap :=
  match evaluations f s (9876543210.123456789, none) xs with
  | .error e => .error (.pmap e)
  | .ok (_, _, none) => .error .noFile
  | .ok (s', _, some pars) =>
    match s'.loadValues (s'.optMap, pars.map fun v => [v]) false with
    | (_, some e) => .error (.pmap e)
    | (s'', none) => .ok s''

/-! ## Lemmas -/

/-- Writes whose effect does not depend on the value before. -/
theorem runWrites_values (s : PMap) (ws : List (String × Op × List ℝ))
    (h : ∀ w ∈ ws, ∃ r, s.ref w.1 = some r ∧
      ∀ v, w.2.1.call { s.heap r with value := v } = .ok { s.heap r with value := w.2.2 }) :
    ∃ s', s.runWrites (ws.map fun w => (w.1, w.2.1)) = (s', none) ∧ s' = { s with heap := s'.heap } ∧
      ∀ r, ((∀ w ∈ ws, s.ref w.1 ≠ some r) → s'.heap r = s.heap r) ∧
        (∀ nv, (∃ w ∈ ws, s.ref w.1 = some r) → (∀ w ∈ ws, s.ref w.1 = some r → w.2.2 = nv) →
          s'.heap r = { s.heap r with value := nv }) := by
  induction ws generalizing s with
  | nil => exact ⟨s, rfl, rfl, fun r => ⟨fun _ => rfl, by simp⟩⟩
  | cons w ws ih =>
    obtain ⟨r, hr, hc⟩ := h w List.mem_cons_self
    have hc0 : w.2.1.call (s.heap r) = .ok { s.heap r with value := w.2.2 } := hc (s.heap r).value
    let s1 : PMap := { s with heap := Function.update s.heap r { s.heap r with value := w.2.2 } }
    have hw1 : s.write w.1 w.2.1 = (s1, none) := by
      unfold write
      rw [hr]
      simp only [hc0, step_of_ok hc0]
      rfl
    have hval : ∀ r' v, ({ s1.heap r' with value := v } : Quantity) = { s.heap r' with value := v } := by
      intro r' v
      by_cases e : r' = r
      · subst e; simp [s1]
      · simp [s1, Function.update_of_ne e]
    obtain ⟨s', h1, h2, h3⟩ := ih s1 (by
      intro w' hw'
      obtain ⟨r', hr', hc'⟩ := h w' (List.mem_cons_of_mem _ hw')
      refine ⟨r', hr', fun v => ?_⟩
      rw [hval, hc', hval])
    refine ⟨s', ?_, ?_, ?_⟩
    · simp only [List.map_cons, runWrites, hw1]
      exact h1
    · rw [h2]
    · intro r'
      constructor
      · intro hno
        have hne : r' ≠ r := fun e => hno w List.mem_cons_self (by rw [e]; exact hr)
        rw [(h3 r').1 fun w' hw' => hno w' (List.mem_cons_of_mem _ hw')]
        simp [s1, Function.update_of_ne hne]
      · intro nv hex hall
        by_cases htail : ∃ w' ∈ ws, s.ref w'.1 = some r'
        · rw [(h3 r').2 nv htail fun w' hw' => hall w' (List.mem_cons_of_mem _ hw'), hval]
        · push Not at htail
          obtain ⟨w', hw', hr'⟩ := hex
          rcases List.mem_cons.1 hw' with rfl | hw'
          · obtain rfl : r' = r := by rw [hr] at hr'; exact (Option.some.inj hr').symm
            rw [(h3 r').1 htail, ← hall w' List.mem_cons_self hr']
            simp [s1]
          · exact absurd hr' (htail w' hw')

/-- Maps of scalar parameters: groups are not empty, all names exist, no object is in two groups, members
of a group have the same limits. -/
structure ScalarMap (s : PMap) : Prop where
  good : Good s
  ne : ∀ g ∈ s.optMap, g ≠ []
  dfd : ∀ g ∈ s.optMap, ∀ k ∈ g, ∃ r, s.ref k = some r ∧ (s.heap r).length = 1
  disj : DisjointGroups s s.optMap
  lim : EqualLimits s s.optMap
  upd : s.updateModel = true → s.hasModel = true

theorem slices_scalar (s : PMap) (m : List (List String)) (hm : ∀ g ∈ m, s.lenOf (g.headD "") = 1)
    (x : List ℝ) (hx : x.length = m.length) : s.slices x m = x.map fun y => [y] := by
  induction m generalizing x with
  | nil => simp at hx; simp [slices, hx]
  | cons g gs ih =>
    cases x with
    | nil => simp at hx
    | cons y ys =>
      simp only [slices, hm g List.mem_cons_self]
      simp only [List.length_cons, Nat.add_right_cancel_iff] at hx
      simp [ih (fun g' hg' => hm g' (List.mem_cons_of_mem _ hg')) ys hx]

theorem head_mem {g : List String} (h : g ≠ []) : g.headD "" ∈ g := by
  cases g with
  | nil => exact absurd rfl h
  | cons a b => simp

/-- The state after `set_parameters_scaled`, described object by object. -/
theorem setScaled_spec (s : PMap) (hs : ScalarMap s) (x : List ℝ) (hx : x.length = s.optMap.length) :
    ∃ s', s.setParametersScaled x = (s', none) ∧
      s' = { s with heap := s'.heap, modelView := if s.updateModel then s'.heap else s.modelView } ∧
      ∀ r, ((∀ g ∈ s.optMap, ∀ k ∈ g, s.ref k ≠ some r) → s'.heap r = s.heap r) ∧
        ∀ p ∈ s.optMap.zip x, ∀ k ∈ p.1, s.ref k = some r →
          s'.heap r = { s.heap r with value := [foldOpt p.2] } := by
  have hlen : ∀ g ∈ s.optMap, s.lenOf (g.headD "") = 1 := by
    intro g hg
    obtain ⟨r, hr, hl⟩ := hs.dfd g hg _ (head_mem (hs.ne g hg))
    unfold lenOf
    rw [hr]
    exact hl
  let ws : List (String × Op × List ℝ) :=
    (s.optMap.zip x).flatMap fun p => p.1.map fun k => (k, Op.setOpt [p.2], [foldOpt p.2])
  have hsw : s.scaledWrites x s.optMap = ws.map fun w => (w.1, w.2.1) := by
    rw [scaledWrites_eq, slices_scalar s s.optMap hlen x hx]
    simp only [ws, List.map_flatMap, List.map_map, List.zip_map_right, List.flatMap_map]
    rfl
  have hmem : ∀ w ∈ ws, ∃ p ∈ s.optMap.zip x, w.1 ∈ p.1 ∧ w.2 = (Op.setOpt [p.2], [foldOpt p.2]) := by
    intro w hw
    obtain ⟨p, hp, hw⟩ := List.mem_flatMap.1 hw
    obtain ⟨k, hk, rfl⟩ := List.mem_map.1 hw
    exact ⟨p, hp, hk, rfl⟩
  obtain ⟨t, h1, h2, h3⟩ := runWrites_values s ws (by
    intro w hw
    obtain ⟨p, hp, hk, he⟩ := hmem w hw
    obtain ⟨r, hr, hl⟩ := hs.dfd p.1 (List.of_mem_zip hp).1 w.1 hk
    refine ⟨r, hr, fun v => ?_⟩
    rw [he]
    simp [Op.call, setOptValue, hl])
  rw [← hsw] at h1
  refine ⟨if s.updateModel then { t with modelView := t.heap } else t, ?_, ?_, ?_⟩
  · unfold setParametersScaled
    rw [setScaledLoop_eq s hs.good x _ hs.ne, h1]
    simp only
    split_ifs with h4 h5
    · rfl
    · exact absurd (hs.upd h4) h5
    · rfl
  · rw [h2]
    cases s.updateModel <;> simp
  · intro r
    have hheap : (if s.updateModel then { t with modelView := t.heap } else t).heap = t.heap := by
      split <;> rfl
    rw [hheap]
    constructor
    · intro hno
      apply (h3 r).1
      intro w hw
      obtain ⟨p, hp, hk, _⟩ := hmem w hw
      exact hno p.1 (List.of_mem_zip hp).1 _ hk
    · intro p hp k hk hr
      apply (h3 r).2
      · exact ⟨(k, Op.setOpt [p.2], [foldOpt p.2]),
          List.mem_flatMap.2 ⟨p, hp, List.mem_map.2 ⟨k, hk, rfl⟩⟩, hr⟩
      · intro w hw hwr
        obtain ⟨p', hp', hk', he⟩ := hmem w hw
        rw [he]
        have hpp : ∀ q ∈ s.optMap.zip x, (q.1, [q.2]) ∈ s.optMap.zip (x.map fun y => [y]) := by
          intro q hq
          rw [List.zip_map_right]
          exact List.mem_map.2 ⟨q, hq, rfl⟩
        have := zip_value_unique hs.disj (hpp p' hp') (hpp p hp) hk' hk (hwr.trans hr.symm)
        simp only [List.cons.injEq, and_true] at this
        rw [this]

theorem exists_zip (s : PMap) (x : List ℝ) (hx : x.length = s.optMap.length) (g : List String)
    (hg : g ∈ s.optMap) : ∃ y, (g, y) ∈ s.optMap.zip x := by
  obtain ⟨n, hn, rfl⟩ := List.mem_iff_getElem.1 hg
  refine ⟨x[n], ?_⟩
  rw [List.mem_iff_getElem]
  exact ⟨n, by simp [hn, hx], by simp⟩

theorem exists_value (s : PMap) (hs : ScalarMap s) (x : List ℝ) (hx : x.length = s.optMap.length) (s' : PMap)
    (h : s.setParametersScaled x = (s', none)) (r : ℕ) : ∃ v, s'.heap r = { s.heap r with value := v } := by
  obtain ⟨t, h1, _, h3⟩ := setScaled_spec s hs x hx
  rw [h] at h1
  simp only [Prod.mk.injEq, and_true] at h1
  subst h1
  by_cases hr : ∀ g ∈ s.optMap, ∀ k ∈ g, s.ref k ≠ some r
  · exact ⟨_, (h3 r).1 hr⟩
  · push Not at hr
    obtain ⟨g, hg, k, hk, hr⟩ := hr
    obtain ⟨y, hy⟩ := exists_zip s x hx g hg
    exact ⟨_, (h3 r).2 _ hy k hk hr⟩

/-- Setting parameters keeps the assumptions. -/
theorem ScalarMap.set {s s' : PMap} (hs : ScalarMap s) {x : List ℝ} (hx : x.length = s.optMap.length)
    (h : s.setParametersScaled x = (s', none)) : ScalarMap s' ∧ s'.ref = s.ref ∧ s'.optMap = s.optMap ∧
      s'.updateModel = s.updateModel := by
  have hval := exists_value s hs x hx s' h
  obtain ⟨t, h1, h2, h3⟩ := setScaled_spec s hs x hx
  rw [h] at h1
  simp only [Prod.mk.injEq, and_true] at h1
  subst h1
  have hr : s'.ref = s.ref := by rw [h2]
  have ho : s'.optMap = s.optMap := by rw [h2]
  have hu : s'.updateModel = s.updateModel := by rw [h2]
  refine ⟨⟨?_, ?_, ?_, ?_, ?_, by rw [h2]; exact hs.upd⟩, hr, ho, hu⟩
  · intro k r hk
    rw [hr] at hk
    have hw := hs.good k r hk
    by_cases hrr : ∀ g ∈ s.optMap, ∀ k ∈ g, s.ref k ≠ some r
    · rw [(h3 r).1 hrr]; exact hw
    · push Not at hrr
      obtain ⟨g, hg, k', hk', hrr⟩ := hrr
      obtain ⟨y, hy⟩ := exists_zip s x hx g hg
      rw [(h3 r).2 _ hy k' hk' hrr]
      obtain ⟨r', hr', hl⟩ := hs.dfd g hg k' hk'
      obtain rfl : r' = r := by rw [hrr] at hr'; exact (Option.some.inj hr').symm
      exact ⟨hw.scale_pos, hw.pref_pos, by simp [hl]⟩
  · rw [ho]; exact hs.ne
  · rw [ho, hr]
    intro g hg k hk
    obtain ⟨r, h5, h6⟩ := hs.dfd g hg k hk
    obtain ⟨v, hv⟩ := hval r
    exact ⟨r, h5, by rw [hv]; exact h6⟩
  · rw [ho]
    unfold DisjointGroups
    rw [hr]
    exact hs.disj
  · rw [ho]
    intro g hg k hk k' hk' r r' h5 h6
    rw [hr] at h5 h6
    obtain ⟨v, hv⟩ := hval r
    obtain ⟨v', hv'⟩ := hval r'
    rw [hv, hv']
    exact hs.lim g hg k hk k' hk' r r' h5 h6

/-- Only the last proposal matters. -/
theorem setScaled_last (s s1 : PMap) (hs : ScalarMap s) (x y : List ℝ) (hx : x.length = s.optMap.length)
    (hy : y.length = s.optMap.length) (h : s.setParametersScaled x = (s1, none)) :
    s1.setParametersScaled y = s.setParametersScaled y := by
  obtain ⟨hs1, hr, ho, hu⟩ := hs.set hx h
  have hval := exists_value s hs x hx s1 h
  obtain ⟨t, h1, h2, h3⟩ := setScaled_spec s hs x hx
  rw [h] at h1
  simp only [Prod.mk.injEq, and_true] at h1
  subst h1
  obtain ⟨t1, a1, a2, a3⟩ := setScaled_spec s1 hs1 y (by rw [ho]; exact hy)
  obtain ⟨t0, b1, b2, b3⟩ := setScaled_spec s hs y hy
  rw [a1, b1]
  have hheap : t1.heap = t0.heap := by
    funext r
    by_cases hrr : ∀ g ∈ s.optMap, ∀ k ∈ g, s.ref k ≠ some r
    · rw [(b3 r).1 hrr, (a3 r).1 (by rw [ho, hr]; exact hrr), (h3 r).1 hrr]
    · push Not at hrr
      obtain ⟨g, hg, k', hk', hrr⟩ := hrr
      obtain ⟨z, hz⟩ := exists_zip s y hy g hg
      obtain ⟨v, hv⟩ := hval r
      rw [(b3 r).2 _ hz k' hk' hrr, (a3 r).2 _ (by rw [ho]; exact hz) k' hk' (by rw [hr]; exact hrr), hv]
  have : t1 = t0 := by
    rw [a2, b2, hheap, hu, h2]
    cases s.updateModel <;> simp
  rw [this]

theorem numpy_scalar (q : Quantity) (y : ℝ) : ({ q with value := [y] } : Quantity).numpy = [q.getOtherValue y] := by
  simp [numpy, getValue, getOtherValue]

/-! ## C73 -/

/-- C73, what holds: for scalar parameters and proposals within [-1, 1] the values logged by `fct_to_min`
are those the goal function was evaluated with. Missing: proposals out of range and vector valued
parameters, see the negations. -/
theorem C73_scalar_partial (f : PMap → ℝ) (s : PMap) (hs : ScalarMap s) (x : List ℝ)
    (hx : x.length = s.optMap.length) (hr : ∀ y ∈ x, -1 ≤ y ∧ y ≤ 1) :
    ∃ s' pars qs, fctToMin f s x = .ok (s', pars, f s') ∧ s.setParametersScaled x = (s', none) ∧
      s'.getParameters s'.optMap = .ok qs ∧ qs.map Quantity.numpy = pars.map fun v => [v] := by
  obtain ⟨s', h1, h2, h3⟩ := setScaled_spec s hs x hx
  obtain ⟨hs', href, hopt, _⟩ := hs.set hx h1
  have hdef : ∀ g ∈ s.optMap, ∀ k ∈ g, ∃ r, s.ref k = some r := fun g hg k hk =>
    let ⟨r, hr, _⟩ := hs.dfd g hg k hk
    ⟨r, hr⟩
  refine ⟨s', List.zipWith (fun q y => q.getOtherValue y)
    (s.optMap.map fun g => s.heap ((s.ref (g.headD "")).getD 0)) x, _, ?_, h1,
    getParameters_eq s' s'.optMap hs'.ne (by rw [hopt, href]; exact hdef), ?_⟩
  · unfold fctToMin loggedPars
    rw [getParameters_eq s s.optMap hs.ne hdef, h1]
  · rw [hopt, List.map_map, List.zipWith_map_left]
    apply List.ext_getElem
    · simp [hx]
    · intro n hn hn'
      simp only [List.length_map] at hn
      simp only [List.getElem_map, Function.comp, List.getElem_zipWith]
      have hg := List.getElem_mem hn
      have hk := head_mem (hs.ne _ hg)
      obtain ⟨r, hr', _⟩ := hs.dfd _ hg _ hk
      have hz : (s.optMap[n], x[n]) ∈ s.optMap.zip x := by
        rw [List.mem_iff_getElem]
        exact ⟨n, by simp [hn, hx], by simp⟩
      have hr'' : s'.ref (s.optMap[n].headD "") = some r := by rw [href]; exact hr'
      rw [hr', hr'', Option.getD_some, (h3 r).2 _ hz _ hk hr', numpy_scalar]
      have hb := hr x[n] (List.getElem_mem (by omega))
      rw [foldOpt_of_mem hb.1 hb.2]

/-- C73: `fct_to_min_autograd` logs what was evaluated for every proposal, in range or not: the values
are read from the map after setting the proposal again, and setting it again changes nothing. -/
theorem C73_autograd (f : PMap → ℝ) (s : PMap) (hs : ScalarMap s) (x : List ℝ)
    (hx : x.length = s.optMap.length) :
    ∃ s' qs, s.setParametersScaled x = (s', none) ∧ s'.getParameters s'.optMap = .ok qs ∧
      fctToMinAutograd f s x = .ok (s', qs.map Quantity.numpy, f s') := by
  obtain ⟨s', h1, h2, h3⟩ := setScaled_spec s hs x hx
  obtain ⟨hs', href, hopt, _⟩ := hs.set hx h1
  have hdef : ∀ g ∈ s'.optMap, ∀ k ∈ g, ∃ r, s'.ref k = some r := fun g hg k hk =>
    let ⟨r, hr, _⟩ := hs'.dfd g hg k hk
    ⟨r, hr⟩
  refine ⟨s', _, h1, getParameters_eq s' s'.optMap hs'.ne hdef, ?_⟩
  unfold fctToMinAutograd
  rw [h1]
  simp only
  rw [setScaled_last s s' hs x x hx hx h1, h1]
  simp only
  rw [getParameters_eq s' s'.optMap hs'.ne hdef]

/-- One scalar parameter "a" with limits 0 and 2. -/
def exOne : PMap := { exS with optMap := [["a"]] }

theorem exOne_scalar : ScalarMap exOne := by
  refine ⟨exS_good, by simp [exOne], ?_, by simp [DisjointGroups, exOne], ?_, fun _ => rfl⟩
  · intro g hg k hk
    simp only [exOne, List.mem_singleton] at hg
    subst hg
    rw [List.mem_singleton] at hk
    subst hk
    exact ⟨1, by simp [exOne, exS], by simp [exOne, exS, exR]⟩
  · intro g hg k hk k' hk' r r' h h'
    simp only [exOne, List.mem_singleton] at hg
    subst hg
    rw [List.mem_singleton] at hk hk'
    subst hk hk'
    rw [h] at h'
    rw [Option.some.inj h']

example : ∃ s' pars qs, fctToMin (fun _ => 0) exOne [1 / 2] = .ok (s', pars, 0) ∧
    exOne.setParametersScaled [1 / 2] = (s', none) ∧
      s'.getParameters s'.optMap = .ok qs ∧ qs.map Quantity.numpy = pars.map fun v => [v] :=
  C73_scalar_partial (fun _ => 0) exOne exOne_scalar [1 / 2] rfl (by
    intro y hy
    rw [List.mem_singleton] at hy
    subst hy
    norm_num)

theorem foldOpt_three_halves : foldOpt (3 / 2) = 1 / 2 := by
  have h1 : Real.cos ((3 / 2 + 1) * Real.pi / 2) = Real.cos ((1 / 2 + 1) * Real.pi / 2) := by
    have : ((3 / 2 + 1) * Real.pi / 2 : ℝ) = 2 * Real.pi - (1 / 2 + 1) * Real.pi / 2 := by ring
    rw [this, Real.cos_two_pi_sub]
  have h2 : foldOpt (1 / 2) = 1 / 2 := foldOpt_of_mem (by norm_num) (by norm_num)
  unfold foldOpt at h2 ⊢
  rw [h1, h2]

/-- C73: a proposal outside [-1, 1] is folded into the limits for the evaluation, but logged unfolded:
here 2.5 is logged, outside the limits 0 and 2, and 1.5 evaluated. -/
theorem C73_false_fold : ∃ s', exOne.setParametersScaled [3 / 2] = (s', none) ∧
    s'.read "a" = some [3 / 2] ∧ ∀ f : PMap → ℝ, fctToMin f exOne [3 / 2] = .ok (s', [5 / 2], f s') := by
  obtain ⟨s', h1, h2, h3⟩ := setScaled_spec exOne exOne_scalar [3 / 2] rfl
  have hh := (h3 1).2 (["a"], 3 / 2) (by simp [exOne]) "a" (by simp) (by simp [exOne, exS])
  have href : s'.ref = exOne.ref := by rw [h2]
  refine ⟨s', h1, ?_, ?_⟩
  · unfold PMap.read
    rw [href]
    have : exOne.ref "a" = some 1 := by simp [exOne, exS]
    rw [this, Option.map_some, hh, numpy_scalar, foldOpt_three_halves]
    simp [exOne, exS, exR, getOtherValue]
    norm_num
  · intro f
    unfold fctToMin loggedPars
    rw [h1]
    have : exOne.getParameters exOne.optMap = .ok [exR [0]] := by
      simp [exOne, exS, getParameters]
    rw [this]
    simp [exR, getOtherValue]
    norm_num

/-- C73: for a parameter with two entries only one number is logged. -/
theorem C73_false_vector : ∃ s : PMap, s.optMap = [["w"]] ∧ ∃ s', s.setParametersScaled [0, 1 / 2] = (s', none) ∧
    s'.read "w" = some [1, 3 / 2] ∧ ∀ f : PMap → ℝ, fctToMin f s [0, 1 / 2] = .ok (s', [1], f s') := by
  have h0 : foldOpt 0 = 0 := foldOpt_of_mem (by norm_num) (by norm_num)
  have h1 : foldOpt 2⁻¹ = 2⁻¹ := foldOpt_of_mem (by norm_num) (by norm_num)
  have h1' : foldOpt (1 / 2) = 1 / 2 := foldOpt_of_mem (by norm_num) (by norm_num)
  refine ⟨{ exS with optMap := [["w"]] }, rfl, ?_⟩
  have hset : ∃ s', ({ exS with optMap := [["w"]] } : PMap).setParametersScaled [0, 1 / 2] = (s', none) ∧
      s'.ref = exS.ref ∧ s'.heap 3 = { exR [0, 0] with value := [0, 1 / 2] } := by
    refine ⟨{ exS with
      optMap := [["w"]]
      heap := Function.update exS.heap 3 { exR [0, 0] with value := [0, 1 / 2] } }, ?_, rfl, ?_⟩
    · simp [setParametersScaled, setScaledLoop, setScaledGroup, exS, setOptValue, exR, h0, h1]
    · simp
  obtain ⟨s', hs', href, hh⟩ := hset
  refine ⟨s', hs', ?_, ?_⟩
  · unfold PMap.read
    rw [href]
    have : exS.ref "w" = some 3 := by simp [exS]
    rw [this, Option.map_some, hh]
    simp [exR, numpy, getValue]
    norm_num
  · intro f
    unfold fctToMin loggedPars
    rw [hs']
    simp [exS, getParameters, exR, getOtherValue]

/-! ## C112 -/

theorem evaluations_spec (f : PMap → ℝ) (s : PMap) (hs : ScalarMap s) (xs : List (List ℝ))
    (hx : ∀ x ∈ xs, x.length = s.optMap.length) (cur : PMap)
    (hcur : cur = s ∨ ∃ x, x.length = s.optMap.length ∧ s.setParametersScaled x = (cur, none))
    (b : ℝ × Option (List ℝ)) :
    ∃ last b', evaluations f cur b xs = .ok (last, b') ∧
      (last = s ∨ ∃ x, x.length = s.optMap.length ∧ s.setParametersScaled x = (last, none)) ∧
      b'.1 ≤ b.1 ∧ (∀ x ∈ xs, b'.1 ≤ f (s.setParametersScaled x).1) ∧
      (b' = b ∨ ∃ x ∈ xs, b'.1 = f (s.setParametersScaled x).1 ∧ b'.1 < b.1 ∧ ∃ pars, b'.2 = some pars ∧
        loggedPars s x = .ok pars) := by
  induction xs generalizing cur b with
  | nil => exact ⟨cur, b, rfl, hcur, le_refl _, by simp, Or.inl rfl⟩
  | cons x xs ih =>
    have hxl := hx x List.mem_cons_self
    obtain ⟨s1, h1, _, _⟩ := setScaled_spec s hs x hxl
    have hset : cur.setParametersScaled x = (s1, none) := by
      rcases hcur with rfl | ⟨y, hy, hc⟩
      · exact h1
      · rw [setScaled_last s cur hs y x hy hxl hc, h1]
    have hdef : ∀ g ∈ s.optMap, ∀ k ∈ g, ∃ r, s.ref k = some r := fun g hg k hk =>
      let ⟨r, hr, _⟩ := hs.dfd g hg k hk
      ⟨r, hr⟩
    have hlog : loggedPars cur x = loggedPars s x := by
      rcases hcur with rfl | ⟨y, hy, hc⟩
      · rfl
      · obtain ⟨hs', href, hopt, _⟩ := hs.set hy hc
        have hval := exists_value s hs y hy cur hc
        unfold loggedPars
        rw [getParameters_eq s s.optMap hs.ne hdef,
          getParameters_eq cur cur.optMap hs'.ne (by rw [hopt, href]; exact hdef)]
        simp only [Except.ok.injEq]
        rw [hopt, List.zipWith_map_left, List.zipWith_map_left]
        congr 1
        funext g y'
        rw [href]
        obtain ⟨v, hv⟩ := hval ((s.ref (g.headD "")).getD 0)
        rw [hv]
        rfl
    have hpars : ∃ pars, loggedPars s x = .ok pars := by
      unfold loggedPars
      rw [getParameters_eq s s.optMap hs.ne hdef]
      exact ⟨_, rfl⟩
    obtain ⟨pars, hpars⟩ := hpars
    have hf : fctToMin f cur x = .ok (s1, pars, f s1) := by
      unfold fctToMin
      rw [hlog, hpars]
      simp only [hset]
    unfold evaluations
    rw [hf]
    simp only
    have hval1 : (s.setParametersScaled x).1 = s1 := by rw [h1]
    obtain ⟨last, b', e1, e2, e3, e4, e5⟩ := ih (fun y hy => hx y (List.mem_cons_of_mem _ hy)) s1
      (Or.inr ⟨x, hxl, h1⟩) (if f s1 < b.1 then (f s1, some pars) else b)
    refine ⟨last, b', e1, e2, ?_, ?_, ?_⟩
    · refine e3.trans ?_
      split
      · rename_i h; exact h.le
      · exact le_refl _
    · intro y hy
      rcases List.mem_cons.1 hy with rfl | hy
      · rw [hval1]
        refine e3.trans ?_
        split
        · exact le_refl _
        · rename_i h; exact not_lt.1 h
      · exact e4 y hy
    · by_cases hlt : f s1 < b.1
      · rw [if_pos hlt] at e5
        rcases e5 with rfl | ⟨y, hy, a, c, d⟩
        · exact Or.inr ⟨x, List.mem_cons_self, by rw [hval1], hlt, pars, rfl, hpars⟩
        · exact Or.inr ⟨y, List.mem_cons_of_mem _ hy, a, c.trans hlt, d⟩
      · rw [if_neg hlt] at e5
        rcases e5 with h | ⟨y, hy, a, c, d⟩
        · exact Or.inl h
        · exact Or.inr ⟨y, List.mem_cons_of_mem _ hy, a, c, d⟩

theorem optMap_setParameters (s : PMap) (values : List (List ℝ)) (m : List (List String)) (s' : PMap)
    (hg : Good s) (h : s.setParameters values m false = (s', none)) : s'.optMap = s.optMap := by
  unfold setParameters at h
  split at h
  · simp at h
  · rw [setGroups_eq] at h
    split at h
    · simp at h
    · rename_i t ht
      obtain ⟨_, _, _, _, _, h4, _⟩ := runWrites_spec s hg _ t none ht
      have : t.optMap = s.optMap := by rw [h4]
      simp only at h
      split at h <;> simp only [Prod.mk.injEq, and_true] at h <;> rw [← h] <;> exact this

/-- C112, the whole map: the parameter map after the optimization is the map as it was when the best point was evaluated, with
all objects and not only those that are optimized, except possibly for what the model was built from. This agrees as well when
`update_model` says whether parameters of the model are optimized, as `set_opt_map` (c3/parametermap.py:419-443) sets it.
Missing: proposals out of range, see `C112_false_range`. -/
theorem C112_map_partial (f : PMap → ℝ) (s : PMap) (hs : ScalarMap s) (xs : List (List ℝ))
    (hx : ∀ x ∈ xs, x.length = s.optMap.length) (hr : ∀ x ∈ xs, ∀ y ∈ x, -1 ≤ y ∧ y ≤ 1)
    (hsome : ∃ x ∈ xs, f (s.setParametersScaled x).1 < 9876543210.123456789) :
    ∃ fin x, optimizeControls f s xs = .ok fin ∧ x ∈ xs ∧ fin.getParametersScaled fin.optMap = .ok x ∧
      (∀ y ∈ xs, f (s.setParametersScaled x).1 ≤ f (s.setParametersScaled y).1) ∧
      fin = { (s.setParametersScaled x).1 with modelView := fin.modelView } ∧
      ((s.updateModel = true ↔ (∃ g ∈ s.optMap, ∃ k ∈ g, k ∈ s.modelIds) ∧ s.hasModel = true) →
        fin = (s.setParametersScaled x).1) := by
  obtain ⟨last, b', e1, e2, e3, e4, e5⟩ := evaluations_spec f s hs xs hx s (Or.inl rfl)
    (9876543210.123456789, none)
  obtain ⟨x0, hx0, hlt⟩ := hsome
  rcases e5 with rfl | ⟨x, hxm, hg, _, pars, hpars, hlog⟩
  · exact absurd (e4 x0 hx0) (not_le.2 hlt)
  have hxl := hx x hxm
  have hdef : ∀ g ∈ s.optMap, ∀ k ∈ g, ∃ r, s.ref k = some r := fun g hg k hk =>
    let ⟨r, hr, _⟩ := hs.dfd g hg k hk
    ⟨r, hr⟩
  have hlast : ScalarMap last ∧ last.ref = s.ref ∧ last.optMap = s.optMap ∧
      ∀ r, ∃ v, last.heap r = { s.heap r with value := v } := by
    rcases e2 with rfl | ⟨y, hy, hc⟩
    · exact ⟨hs, rfl, rfl, fun r => ⟨(last.heap r).value, rfl⟩⟩
    · obtain ⟨a, b, c, _⟩ := hs.set hy hc
      exact ⟨a, b, c, exists_value s hs y hy last hc⟩
  obtain ⟨hsl, hrefl, hoptl, hvall⟩ := hlast
  have hfree : last = { s with heap := last.heap, modelView := last.modelView } ∧
      (s.updateModel = false → last.modelView = s.modelView) ∧
      ∀ r, (∀ g ∈ s.optMap, ∀ k ∈ g, s.ref k ≠ some r) → last.heap r = s.heap r := by
    rcases e2 with rfl | ⟨y, hy, hc⟩
    · exact ⟨rfl, fun _ => rfl, fun _ _ => rfl⟩
    · obtain ⟨t, c1, c2, c3⟩ := setScaled_spec s hs y hy
      rw [hc] at c1
      simp only [Prod.mk.injEq, and_true] at c1
      subst c1
      refine ⟨?_, fun hu => ?_, fun r => (c3 r).1⟩
      · rw [c2]
      · rw [c2]; simp [hu]
  obtain ⟨hfree1, hfree2, hfree3⟩ := hfree
  have hparseq : pars = List.zipWith (fun g y => (s.heap ((s.ref (g.headD "")).getD 0)).getOtherValue y)
      s.optMap x := by
    unfold loggedPars at hlog
    rw [getParameters_eq s s.optMap hs.ne hdef] at hlog
    simp only [Except.ok.injEq] at hlog
    rw [← hlog, List.zipWith_map_left]
  have hplen : pars.length = s.optMap.length := by rw [hparseq]; simp [hxl]
  -- the writes of the load
  let nv : Quantity → ℝ → List ℝ := fun q v => [2 * (v * q.pref - q.offset) / q.scale - 1]
  let ws : List (String × Op × List ℝ) := (s.optMap.zip pars).flatMap fun p => p.1.map fun k =>
    (k, Op.set [p.2], nv (s.heap ((s.ref k).getD 0)) p.2)
  have hsw : setWrites false s.optMap (pars.map fun v => [v]) = ws.map fun w => (w.1, w.2.1) := by
    simp only [setWrites, ws, List.map_flatMap, List.map_map, List.zip_map_right, List.flatMap_map]
    rfl
  have hmem : ∀ w ∈ ws, ∃ p ∈ s.optMap.zip pars, w.1 ∈ p.1 ∧
      w.2 = (Op.set [p.2], nv (s.heap ((s.ref w.1).getD 0)) p.2) := by
    intro w hw
    obtain ⟨p, hp, hw⟩ := List.mem_flatMap.1 hw
    obtain ⟨k, hk, rfl⟩ := List.mem_map.1 hw
    exact ⟨p, hp, hk, rfl⟩
  have hpin : ∀ p ∈ s.optMap.zip pars, ∀ k ∈ p.1, ∀ r, s.ref k = some r →
      (s.heap r).getLimits.1 ≤ p.2 ∧ p.2 ≤ (s.heap r).getLimits.2 := by
    intro p hp k hk r hkr
    obtain ⟨n, hn, he⟩ := List.mem_iff_getElem.1 hp
    simp only [List.getElem_zip] at he
    have hn1 : n < s.optMap.length := by simp at hn; omega
    have hn2 : n < pars.length := by omega
    have hgm := List.getElem_mem hn1
    have hkh := head_mem (hs.ne _ hgm)
    obtain ⟨r0, hr0, _⟩ := hs.dfd _ hgm _ hkh
    rw [← he] at hk
    have hlims := hs.lim _ hgm k hk _ hkh r r0 hkr hr0
    rw [hlims]
    have hp2 : p.2 = (s.heap r0).getOtherValue (x[n]'(by omega)) := by
      rw [← he]
      simp only [hparseq, List.getElem_zipWith, hr0, Option.getD_some]
    have hb := hr x hxm (x[n]'(by omega)) (List.getElem_mem _)
    have hw := hs.good _ r0 hr0
    rw [hp2]
    simp only [getLimits, getOtherValue]
    have hp0 := hw.pref_pos
    have hs0 := hw.scale_pos
    constructor
    · rw [div_le_div_iff_of_pos_right hp0]
      nlinarith
    · rw [div_le_div_iff_of_pos_right hp0]
      nlinarith
  obtain ⟨t, h1, h2, h3⟩ := runWrites_values last ws (by
    intro w hw
    obtain ⟨p, hp, hk, he⟩ := hmem w hw
    obtain ⟨r, hr', hl⟩ := hs.dfd p.1 (List.of_mem_zip hp).1 w.1 hk
    refine ⟨r, by rw [hrefl]; exact hr', fun v => ?_⟩
    obtain ⟨v0, hv0⟩ := hvall r
    have hlim := hpin p hp w.1 hk r hr'
    have hw0 := hs.good _ r hr'
    rw [he, hv0, hr', Option.getD_some]
    by_cases hvl : v.length = 1
    · have hwf : WF ({ s.heap r with value := v } : Quantity) := ⟨hw0.scale_pos, hw0.pref_pos, by simp [hvl, hl]⟩
      have := setValueRaw_of_mem ({ s.heap r with value := v } : Quantity) hwf [p.2] (by
        intro y hy
        rw [List.mem_singleton] at hy
        subst hy
        exact hlim)
      simp only [Op.call, setValue, Bool.false_eq_true, if_false]
      rw [if_neg (by simp [hl]), this]
      rfl
    · have hwf : WF ({ s.heap r with value := [0] } : Quantity) := ⟨hw0.scale_pos, hw0.pref_pos, by simp [hl]⟩
      have := setValueRaw_of_mem ({ s.heap r with value := [0] } : Quantity) hwf [p.2] (by
        intro y hy
        rw [List.mem_singleton] at hy
        subst hy
        exact hlim)
      have hindep : ({ s.heap r with value := v } : Quantity).setValueRaw [p.2] =
          ({ s.heap r with value := [0] } : Quantity).setValueRaw [p.2] := by
        simp only [setValueRaw]
      simp only [Op.call, setValue, Bool.false_eq_true, if_false]
      rw [if_neg (by simp [hl]), hindep, this]
      rfl)
  have hload : ∃ fin, last.loadValues (last.optMap, pars.map fun v => [v]) false = (fin, none) ∧
      fin.heap = t.heap ∧ fin.ref = t.ref ∧ fin = { t with modelView := fin.modelView } ∧
      ((((∃ g ∈ s.optMap, ∃ k ∈ g, k ∈ last.modelIds) ∧ last.hasModel = true) ∧ fin.modelView = t.heap) ∨
        (¬ ((∃ g ∈ s.optMap, ∃ k ∈ g, k ∈ last.modelIds) ∧ last.hasModel = true) ∧ fin.modelView = t.modelView)) := by
    unfold loadValues setParameters
    simp only
    rw [if_neg (by simp [hplen, hoptl]), setGroups_eq, hoptl, hsw, h1]
    simp only
    split
    · rename_i hc
      exact ⟨_, rfl, rfl, rfl, rfl, Or.inl ⟨by simpa using hc, rfl⟩⟩
    · rename_i hc
      exact ⟨_, rfl, rfl, rfl, rfl, Or.inr ⟨by simpa using hc, rfl⟩⟩
  obtain ⟨fin, hfin, hfh, hfr, hfw, hfv⟩ := hload
  have hfo : fin.optMap = s.optMap := by
    rw [optMap_setParameters last _ _ fin hsl.good hfin, hoptl]
  have hfref : fin.ref = s.ref := by rw [hfr, h2, hrefl]
  obtain ⟨s1, q1, q2, q3⟩ := setScaled_spec s hs x hxl
  have hheapk : ∀ n (hn : n < s.optMap.length) k r, k ∈ s.optMap[n] → s.ref k = some r →
      fin.heap r = { s.heap r with value := [x[n]'(by omega)] } ∧
      s1.heap r = { s.heap r with value := [x[n]'(by omega)] } := by
    intro n hn k r hkh hr0
    have hgm := List.getElem_mem hn
    have hb := hr x hxm (x[n]'(by omega)) (List.getElem_mem _)
    constructor
    · have hz : (s.optMap[n], pars[n]'(by omega)) ∈ s.optMap.zip pars := by
        rw [List.mem_iff_getElem]
        exact ⟨n, by simp [hn, hplen], by simp⟩
      obtain ⟨v0, hv0⟩ := hvall r
      have hw := hs.good _ r hr0
      have hpn : pars[n]'(by omega) = (s.heap r).getOtherValue (x[n]'(by omega)) := by
        obtain ⟨r0, hr1, _⟩ := hs.dfd _ hgm _ (head_mem (hs.ne _ hgm))
        have hlims := hs.lim _ hgm _ hkh _ (head_mem (hs.ne _ hgm)) r r0 hr0 hr1
        simp only [hparseq, List.getElem_zipWith, hr1, Option.getD_some]
        simp only [getLimits, Prod.mk.injEq] at hlims
        have e : ∀ q : Quantity, q.getOtherValue (x[n]'(by omega)) =
            q.offset / q.pref + (x[n]'(by omega) + 1) / 2 * ((q.scale + q.offset) / q.pref - q.offset / q.pref) := by
          intro q
          unfold getOtherValue
          ring
        rw [e, e, hlims.1, hlims.2]
      rw [hfh, (h3 r).2 [x[n]'(by omega)]]
      · rw [hv0]
      · exact ⟨_, List.mem_flatMap.2 ⟨_, hz, List.mem_map.2 ⟨_, hkh, rfl⟩⟩, by rw [hrefl]; exact hr0⟩
      · intro w hw' hwr
        obtain ⟨p, hp, hk, he⟩ := hmem w hw'
        rw [hrefl] at hwr
        have hpp : ∀ q ∈ s.optMap.zip pars, (q.1, [q.2]) ∈ s.optMap.zip (pars.map fun y => [y]) := by
          intro q hq
          rw [List.zip_map_right]
          exact List.mem_map.2 ⟨q, hq, rfl⟩
        have hu := zip_value_unique hs.disj (hpp p hp) (hpp _ hz) hk hkh (hwr.trans hr0.symm)
        simp only [List.cons.injEq, and_true] at hu
        rw [he]
        simp only [hwr, Option.getD_some, hu, nv, hpn, getOtherValue]
        have hp0 := hw.pref_pos.ne'
        have hs0 := hw.scale_pos.ne'
        congr 1
        field_simp
        ring
    · have hz : (s.optMap[n], x[n]'(by omega)) ∈ s.optMap.zip x := by
        rw [List.mem_iff_getElem]
        exact ⟨n, by simp [hn, hxl], by simp⟩
      rw [(q3 r).2 _ hz _ hkh hr0]
      rw [foldOpt_of_mem hb.1 hb.2]
  have hheapn : ∀ n (hn : n < s.optMap.length) r, s.ref (s.optMap[n].headD "") = some r →
      fin.heap r = { s.heap r with value := [x[n]'(by omega)] } ∧
      s1.heap r = { s.heap r with value := [x[n]'(by omega)] } := fun n hn r hr0 =>
    hheapk n hn _ r (head_mem (hs.ne _ (List.getElem_mem hn))) hr0
  have hheap : t.heap = s1.heap := by
    rw [← hfh]
    funext r
    by_cases hrr : ∀ g ∈ s.optMap, ∀ k ∈ g, s.ref k ≠ some r
    · rw [(q3 r).1 hrr, ← hfree3 r hrr, hfh]
      refine (h3 r).1 fun w hw => ?_
      obtain ⟨p, hp, hk, _⟩ := hmem w hw
      rw [hrefl]
      exact hrr p.1 (List.of_mem_zip hp).1 _ hk
    · push Not at hrr
      obtain ⟨g, hg', k, hk, hkr⟩ := hrr
      obtain ⟨n, hn, rfl⟩ := List.mem_iff_getElem.1 hg'
      rw [(hheapk n hn k r hk hkr).1, (hheapk n hn k r hk hkr).2]
  have hwhole : fin = { s1 with modelView := fin.modelView } := by
    rw [hfw, h2, hheap, q2, hfree1]
  refine ⟨fin, x, ?_, hxm, ?_, ?_, by rw [q1]; exact hwhole, ?_⟩
  · unfold optimizeControls
    rw [e1]
    obtain ⟨b1, b2⟩ := b'
    simp only at hpars
    subst hpars
    simp only [hfin]
  · unfold getParametersScaled
    rw [hfo, getParameters_eq fin s.optMap hs.ne (by rw [hfref]; exact hdef)]
    simp only [Except.ok.injEq]
    rw [List.flatMap_map]
    have hmap : (s.optMap.map fun g => (fin.heap ((fin.ref (g.headD "")).getD 0)).getOptValue) = x.map fun y => [y] := by
      apply List.ext_getElem
      · simp [hxl]
      · intro n hn hn'
        simp only [List.length_map] at hn
        simp only [List.getElem_map]
        obtain ⟨r, hr0, _⟩ := hs.dfd _ (List.getElem_mem hn) _ (head_mem (hs.ne _ (List.getElem_mem hn)))
        have hr1 : fin.ref (s.optMap[n].headD "") = some r := by rw [hfref]; exact hr0
        rw [hr1, Option.getD_some, (hheapn n hn r hr0).1]
        rfl
    rw [List.flatMap_def, hmap]
    clear * -
    induction x with
    | nil => rfl
    | cons a l ih => simp at ih ⊢; exact ih
  · intro y hy
    rw [← hg]
    exact e4 y hy
  · intro hflag
    rw [q1]
    have hids : last.modelIds = s.modelIds ∧ last.hasModel = s.hasModel := by rw [hfree1]; exact ⟨rfl, rfl⟩
    rw [hids.1, hids.2, ← hflag] at hfv
    have hview : fin.modelView = s1.modelView := by
      rcases hfv with ⟨hu, hv⟩ | ⟨hu, hv⟩
      · rw [hv, hheap, q2]
        simp [hu]
      · rw [Bool.not_eq_true] at hu
        have : t.modelView = last.modelView := by rw [h2]
        rw [hv, this, hfree2 hu, q2]
        simp [hu]
    rw [hwhole, hview]

/-- C112, what holds: for scalar parameters and proposals within [-1, 1], if some goal is below the
initial best goal, the optimization ends with the parameters of an evaluated point whose goal is minimal
among all evaluations. Missing: proposals out of range, see `C112_false_range`. -/
theorem C112_best_partial (f : PMap → ℝ) (s : PMap) (hs : ScalarMap s) (xs : List (List ℝ))
    (hx : ∀ x ∈ xs, x.length = s.optMap.length) (hr : ∀ x ∈ xs, ∀ y ∈ x, -1 ≤ y ∧ y ≤ 1)
    (hsome : ∃ x ∈ xs, f (s.setParametersScaled x).1 < 9876543210.123456789) :
    ∃ fin x, optimizeControls f s xs = .ok fin ∧ x ∈ xs ∧ fin.getParametersScaled fin.optMap = .ok x ∧
      (∀ k, fin.read k = (s.setParametersScaled x).1.read k) ∧
      ∀ y ∈ xs, f (s.setParametersScaled x).1 ≤ f (s.setParametersScaled y).1 := by
  obtain ⟨fin, x, h1, h2, h3, h4, h5, _⟩ := C112_map_partial f s hs xs hx hr hsome
  refine ⟨fin, x, h1, h2, h3, fun k => ?_, h4⟩
  rw [h5]
  rfl

/-- C112: with a best proposal out of range the optimization ends with an exception, because the logged
values are outside the limits. -/
theorem C112_false_range : ∀ f : PMap → ℝ, f (exOne.setParametersScaled [3 / 2]).1 < 9876543210.123456789 →
    ∃ e, optimizeControls f exOne [[3 / 2]] = .error (.pmap e) := by
  intro f hf
  obtain ⟨s', h1, _, h3⟩ := C73_false_fold
  rw [h1] at hf
  unfold optimizeControls evaluations
  rw [h3 f]
  simp only
  rw [if_pos hf]
  simp only [evaluations]
  have href : s'.ref "a" = some 1 := by
    rw [(exOne_scalar.set rfl h1).2.1]
    simp [exOne, exS]
  have hopt : s'.optMap = [["a"]] := (exOne_scalar.set rfl h1).2.2.1
  obtain ⟨v, hv⟩ := exists_value exOne exOne_scalar [3 / 2] rfl s' h1 1
  have hcall : (Op.set [5 / 2]).call (s'.heap 1) = .error .oob := by
    have hl : ([5 / 2] : List ℝ).length = (s'.heap 1).length := by rw [hv]; simp [exOne, exS, exR]
    simp only [Op.call, setValue, Bool.false_eq_true, if_false]
    rw [if_neg (by simp [← hl]), hv]
    have hq : ({ exOne.heap 1 with value := v } : Quantity) = Quantity.mk v 0 2 1 "" 1 := by
      simp [exOne, exS, exR]
    rw [hq]
    unfold setValueRaw
    rw [if_neg (by norm_num)]
    simp only
    rw [if_pos]
    refine ⟨_, List.mem_map.2 ⟨5 / 2, List.mem_singleton.2 rfl, rfl⟩, ?_⟩
    unfold refused closeTol
    norm_num [abs_of_pos]
  have : (s'.loadValues (s'.optMap, [5 / 2].map fun v => [v]) false).2 = some (.quantity "a" .oob) := by
    simp only [loadValues, hopt, setParameters, List.map_cons, List.map_nil, List.length_singleton, ne_eq,
      not_true, if_false, setGroups, setGroup, setOne, href, Bool.false_eq_true, hcall]
  rcases hld : s'.loadValues (s'.optMap, [5 / 2].map fun v => [v]) false with ⟨s2, e⟩
  rw [hld] at this
  simp only at this
  subst this
  exact ⟨_, rfl⟩

/-- C112: without an evaluation below the initial best goal there is no file to load. -/
theorem C112_no_file (f : PMap → ℝ) (s : PMap) : optimizeControls f s [] = .error .noFile := rfl

example : ∃ fin x, optimizeControls (fun s => match s.read "a" with
      | some [v] => (v - 1) ^ 2
      | _ => 0) exOne [[1 / 2], [0]] = .ok fin ∧ x ∈ [[1 / 2], [0]] ∧
    fin.getParametersScaled fin.optMap = .ok x := by
  obtain ⟨fin, x, h1, h2, h3, _⟩ := C112_best_partial (fun s => match s.read "a" with
      | some [v] => (v - 1) ^ 2
      | _ => 0) exOne exOne_scalar [[1 / 2], [0]] (by simp [exOne]) (by
        intro x hx y hy
        simp only [List.mem_cons, List.not_mem_nil, or_false] at hx
        rcases hx with rfl | rfl <;> rw [List.mem_singleton] at hy <;> subst hy <;> norm_num) (by
        obtain ⟨s', q1, q2, q3⟩ := setScaled_spec exOne exOne_scalar [0] rfl
        refine ⟨[0], by simp, ?_⟩
        have hh := (q3 1).2 (["a"], 0) (by simp [exOne]) "a" (by simp) (by simp [exOne, exS])
        have href : s'.ref "a" = some 1 := by
          rw [(exOne_scalar.set rfl q1).2.1]
          simp [exOne, exS]
        have : s'.read "a" = some [1] := by
          unfold PMap.read
          rw [href, Option.map_some, hh, numpy_scalar, foldOpt_of_mem (by norm_num) (by norm_num)]
          simp [exOne, exS, exR, getOtherValue]
        rw [q1]
        simp only [this]
        norm_num)
  exact ⟨fin, x, h1, h2, h3⟩

end C3.Optim
