import Verif.ParamMap.Spec
import Verif.ParamMap.Lemmas

/-!
# Properties of parameter maps (C09 - C18)

`Good s` says that the quantities behind the identifiers are well formed (distinct limits, positive
unit factor).  `DisjointGroups s m`: no quantity object is named in two different groups.
-/

noncomputable section

namespace C3
namespace PMap
open Quantity

/-! Concrete data for the non-vacuity examples: parameters "m" (model), "a", "b" with one entry
and limits 0..2, "w" with two entries. -/

def exR (v : List ℝ) : Quantity := Quantity.mk v 0 2 1 "" v.length

def exS : PMap where
  ref := fun k => if k = "m" then some 0 else if k = "a" then some 1 else if k = "b" then some 2
    else if k = "w" then some 3 else none
  heap := fun r => if r = 3 then exR [0, 0] else exR [0]
  modelIds := ["m"]
  optMap := [["a", "b"], ["w"]]
  hasModel := true
  modelView := fun r => if r = 3 then exR [0, 0] else exR [0]
  updateModel := false

theorem exR_wf (v : List ℝ) : WF (exR v) := ⟨two_pos, one_pos, rfl⟩

theorem exS_good : Good exS := by
  intro k r h
  simp only [exS]
  split_ifs <;> exact exR_wf _

theorem exS_disjoint : DisjointGroups exS [["a", "b"], ["w"]] := by
  unfold DisjointGroups
  simp [exS]

theorem exR_set (x : ℝ) (h0 : 0 ≤ x) (h2 : x ≤ 2) :
    (Op.set [x]).call (exR [0]) = .ok (exR [x - 1]) := by
  have hl : (exR [0]).getLimits = (0, 2) := by simp [exR, getLimits]
  have := setValueRaw_of_mem (exR [0]) (exR_wf _) [x] (by
    intro y hy; rw [List.mem_singleton] at hy; subst hy; rw [hl]; exact ⟨h0, h2⟩)
  simp only [Op.call, setValue, Bool.false_eq_true, if_false]
  rw [if_neg (by simp [exR]), this]
  simp [exR]

/-- A successful update of the example map. -/
theorem exS_set_ok : (exS.setParameters [[(3 : ℝ) / 2]] [["a", "b"]]).2 = none := by
  have h := exR_set (3 / 2) (by norm_num) (by norm_num)
  simp [setParameters, setGroups, setGroup, setOne, exS, h]

/-! ## C09, C10 -/

/-- **C10**: after a successful `set_parameters` every member of the n-th group reads the n-th
value (in particular members of a group are equal). -/
theorem C10_group_members (s s' : PMap) (hg : Good s) (values : List (List ℝ))
    (m : List (List String)) (ext : Bool) (hd : DisjointGroups s m)
    (h : s.setParameters values m ext = (s', none)) :
    values.length = m.length ∧ ∀ n (hn : n < m.length) (hn' : n < values.length),
      ∀ k ∈ m[n], s'.read k = some values[n] := by
  rcases setParameters_cases s values m ext s' none h with ⟨_, _, h3⟩ | ⟨hl, t, h1, h2, h3, _⟩
  · cases h3
  · refine ⟨hl, ?_⟩
    intro n hn hn' k hk
    have hp : (m[n], values[n]) ∈ m.zip values := by
      rw [List.mem_iff_getElem]
      exact ⟨n, by simp [hn, hn'], by simp⟩
    have hmem : (k, if ext then Op.setExtend values[n] else Op.set values[n]) ∈
        setWrites ext m values := mem_setWrites.2 ⟨_, hp, hk, rfl⟩
    obtain ⟨r, hr⟩ := runWrites_defined s hg _ t h1 _ hmem
    have htr : t.ref = s.ref := by
      obtain ⟨_, _, _, _, _, h4, _⟩ := runWrites_spec s hg _ t none h1
      rw [h4]
    have : (t.heap r).numpy = values[n] := by
      refine runWrites_post (fun q => q.numpy = values[n]) s hg _ t h1 r ?_ ⟨_, hmem, hr⟩
      intro w hw hwr q q' hq hc
      obtain ⟨p', hp', hk', ho⟩ := mem_setWrites.1 hw
      have e := zip_value_unique hd hp' hp hk' hk (hwr.trans hr.symm)
      rw [ho] at hc
      simpa [e] using numpy_of_set hq hc
    simp only at hr
    simp [read, h2, h3, htr, hr, this]

/-- **C09**: if `set_parameters(values, opt_map)` succeeds, `get_parameters(opt_map)` yields the
given values in order. -/
theorem C09_set_get_parameters (s s' : PMap) (hg : Good s) (values : List (List ℝ))
    (m : List (List String)) (ext : Bool) (hne : ∀ g ∈ m, g ≠ []) (hd : DisjointGroups s m)
    (h : s.setParameters values m ext = (s', none)) :
    ∃ qs, s'.getParameters m = .ok qs ∧ qs.map Quantity.numpy = values := by
  obtain ⟨hl, hr⟩ := C10_group_members s s' hg values m ext hd h
  have hdef : ∀ g ∈ m, ∀ k ∈ g, ∃ r, s'.ref k = some r := by
    intro g hg' k hk
    obtain ⟨n, hn, rfl⟩ := List.mem_iff_getElem.1 hg'
    have := hr n hn (hl ▸ hn) k hk
    unfold read at this
    rcases hx : s'.ref k with _ | r
    · simp [hx] at this
    · exact ⟨r, rfl⟩
  refine ⟨_, getParameters_eq s' m hne hdef, ?_⟩
  apply List.ext_getElem
  · simp [hl]
  · intro n h1 h2
    simp only [List.length_map] at h1
    have hh : (m[n]).headD "" ∈ m[n] := by
      cases hm : m[n] with
      | nil => exact absurd hm (hne _ (List.getElem_mem h1))
      | cons a b => simp
    have := hr n h1 h2 _ hh
    simp only [List.getElem_map]
    unfold read at this
    rcases hx : s'.ref ((m[n]).headD "") with _ | r
    · rw [hx] at this; cases this
    · simp only [hx, Option.map_some, Option.some.injEq] at this
      simpa using this

example : ∃ s', exS.setParameters [[(3 : ℝ) / 2]] [["a", "b"]] = (s', none) ∧
    s'.read "b" = some [3 / 2] := by
  have hs := exS_set_ok
  refine ⟨_, Prod.ext rfl hs, ?_⟩
  have hd : DisjointGroups exS [["a", "b"]] := by simp [DisjointGroups]
  exact (C10_group_members exS _ exS_good _ [["a", "b"]] false hd (Prod.ext rfl hs)).2 0
    (by simp) (by simp) "b" (by simp)

/-! ## C11 -/

/-- **C11**: whether it succeeds or raises, `set_parameters` leaves every parameter whose object is
not named in the opt_map exactly as it was, and never changes which object an identifier names. -/
theorem C11_frame (s s' : PMap) (hg : Good s) (values : List (List ℝ)) (m : List (List String))
    (ext : Bool) (err : Option PErr) (h : s.setParameters values m ext = (s', err)) :
    s'.ref = s.ref ∧ ∀ k r, s.ref k = some r → (∀ g ∈ m, ∀ k' ∈ g, s.ref k' ≠ some r) →
      s'.heap r = s.heap r := by
  rcases setParameters_cases s values m ext s' err h with ⟨_, rfl, _⟩ | ⟨hl, t, h1, h2, h3, _⟩
  · exact ⟨rfl, fun _ _ _ _ => rfl⟩
  · have htr : t.ref = s.ref := by
      obtain ⟨_, _, _, _, _, h4, _⟩ := runWrites_spec s hg _ t err h1
      rw [h4]
    refine ⟨h3.trans htr, ?_⟩
    intro k r _ hn
    rw [h2]
    apply runWrites_frame s hg _ t err h1 r
    intro w hw
    obtain ⟨p, hp, hk, _⟩ := mem_setWrites.1 hw
    exact hn p.1 (List.of_mem_zip hp).1 w.1 hk

/-! ## C12 -/

/-- **C12** (length mismatch): raises before anything changes. -/
theorem C12_length_mismatch (s : PMap) (values : List (List ℝ)) (m : List (List String))
    (ext : Bool) (h : values.length ≠ m.length) :
    s.setParameters values m ext = (s, some .length) := by
  simp [setParameters, h]

/-- **C12** (failing update): if `set_parameters` raises while setting, there is a first failing
assignment `(k, v)`; the error names `k`, which either does not exist or refuses `v`; everything
assigned before reads its new value, and every object not assigned before
(in particular `k` itself and everything after it) is unchanged. -/
theorem C12_failing_update (s s' : PMap) (hg : Good s) (values : List (List ℝ))
    (m : List (List String)) (ext : Bool) (e : PErr) (hl : values.length = m.length)
    (h : s.setParameters values m ext = (s', some e)) :
    ∃ done k v rest, assignments m values = done ++ (k, v) :: rest ∧
      ((s.ref k = none ∧ e = .key k) ∨ ∃ r qe, s.ref k = some r ∧
        (s'.heap r).setValue v ext = .error qe ∧ e = .quantity k qe) ∧
      (∀ a ∈ done, (∀ a' ∈ done, s.ref a'.1 = s.ref a.1 → a'.2 = a.2) →
        s'.read a.1 = some a.2) ∧
      (∀ r, (∀ a ∈ done, s.ref a.1 ≠ some r) → s'.heap r = s.heap r) := by
  rcases setParameters_cases s values m ext s' _ h with ⟨hx, _⟩ | ⟨_, t, h1, h2, h3, _⟩
  · exact absurd hl hx
  obtain ⟨done, rest, e1, e2, e3, e4, e5, e6⟩ := runWrites_spec s hg _ t _ h1
  obtain ⟨k, o, rest', rfl, hfail⟩ := e6 e rfl
  set F : String × List ℝ → String × Op :=
    fun a => (a.1, if ext then Op.setExtend a.2 else Op.set a.2) with hF
  have hmap : setWrites ext m values = (assignments m values).map F := by
    simp only [setWrites, assignments, List.map_flatMap, List.map_map]
    rfl
  rw [hmap] at e1
  obtain ⟨done', rest'', f1, f2, f3⟩ := List.map_eq_append_iff.1 e1
  obtain ⟨⟨k', v⟩, rest3, f4, f5, f6⟩ := List.map_eq_cons_iff.1 f3
  subst f4
  simp only [hF, Prod.mk.injEq] at f5
  obtain ⟨rfl, rfl⟩ := f5
  have htr : t.ref = s.ref := by rw [e4]
  refine ⟨done', k', v, rest3, f1, ?_, ?_, ?_⟩
  · rcases hfail with hf | ⟨r, qe, g1, g2, g3⟩
    · exact Or.inl hf
    · refine Or.inr ⟨r, qe, g1, ?_, g3⟩
      rw [h2, ← g2]
      cases ext <;> rfl
  · intro a ha hu
    have hmem : F a ∈ done := by rw [← f2]; exact List.mem_map_of_mem ha
    obtain ⟨r, hr⟩ := runWrites_defined s hg done t e2 _ hmem
    have : (t.heap r).numpy = a.2 := by
      refine runWrites_post (fun q => q.numpy = a.2) s hg done t e2 r ?_ ⟨_, hmem, hr⟩
      intro w hw hwr q q' hq hc
      rw [← f2] at hw
      obtain ⟨a', ha', rfl⟩ := List.mem_map.1 hw
      have := hu a' ha' (hwr.trans hr.symm)
      rw [← this]
      exact numpy_of_set hq hc
    have hr' : s.ref a.1 = some r := hr
    simp [read, h2, h3, htr, hr', this]
  · intro r hr
    rw [h2]
    apply runWrites_frame s hg done t none e2 r
    intro w hw
    rw [← f2] at hw
    obtain ⟨a, ha, rfl⟩ := List.mem_map.1 hw
    exact hr a ha

/-- Non-vacuity: setting "a" then the unknown "zz" fails at "zz". -/
example : (exS.setParameters [[(3 : ℝ) / 2], [1]] [["a"], ["zz"]]).2 = some (.key "zz") := by
  have h := exR_set (3 / 2) (by norm_num) (by norm_num)
  simp [setParameters, setGroups, setGroup, setOne, exS, h]

/-! ## C18 -/

/-- **C18**: after a successful `set_parameters` the model has been rebuilt from the new values if
one of the named parameters belongs to the model (and there is a model), and is untouched
otherwise. -/
theorem C18_model_update (s s' : PMap) (hg : Good s) (values : List (List ℝ))
    (m : List (List String)) (ext : Bool) (h : s.setParameters values m ext = (s', none)) :
    (((∃ g ∈ m, ∃ k ∈ g, k ∈ s.modelIds) ∧ s.hasModel = true) → s'.modelView = s'.heap) ∧
    (¬ ((∃ g ∈ m, ∃ k ∈ g, k ∈ s.modelIds) ∧ s.hasModel = true) →
      s'.modelView = s.modelView) := by
  rcases setParameters_cases s values m ext s' none h with ⟨_, _, h3⟩ | ⟨_, t, h1, h2, _, h4⟩
  · cases h3
  · obtain ⟨_, _, _, _, _, h5, _⟩ := runWrites_spec s hg _ t none h1
    constructor
    · intro hc
      rw [h4, if_pos ⟨rfl, hc⟩, h2]
    · intro hc
      rw [h4, if_neg (fun hx => hc hx.2), h5]

/-- The update is only made on success: after a raising call a model parameter may have changed
while the model has not been rebuilt from it. -/
theorem C18_stale_after_raise : ∃ s' e,
    exS.setParameters [[(3 : ℝ) / 2], [1]] [["m"], ["zz"]] = (s', some e) ∧
      s'.read "m" = some [3 / 2] ∧ (s'.modelView 0).numpy = [1] := by
  have h := exR_set (3 / 2) (by norm_num) (by norm_num)
  have hst := step_of_ok h
  have hstate : exS.setParameters [[(3 : ℝ) / 2], [1]] [["m"], ["zz"]] =
      ({ exS with heap := Function.update exS.heap 0 (exR [3 / 2 - 1]) }, some (.key "zz")) := by
    simp [setParameters, setGroups, setGroup, setOne, exS, h, hst]
  refine ⟨_, _, hstate, ?_, ?_⟩
  · simp [exS, read, numpy, getValue, exR]
  · simp [exS, numpy, getValue, exR]

example : ∃ s', exS.setParameters [[(3 : ℝ) / 2]] [["m"]] = (s', none) ∧
    s'.modelView = s'.heap := by
  have h := exR_set (3 / 2) (by norm_num) (by norm_num)
  have hs : (exS.setParameters [[(3 : ℝ) / 2]] [["m"]]).2 = none := by
    simp [setParameters, setGroups, setGroup, setOne, exS, h]
  exact ⟨_, Prod.ext rfl hs, (C18_model_update exS _ exS_good _ [["m"]] false
    (Prod.ext rfl hs)).1 ⟨⟨["m"], by simp, "m", by simp, by simp [exS]⟩, rfl⟩⟩

/-! ## C13 -/

/-- the slices of the optimizer vector, one per group -/
def slices (s : PMap) : List ℝ → List (List String) → List (List ℝ)
  | _, [] => []
  | x, g :: gs => x.take (s.lenOf (g.headD "")) :: s.slices (x.drop (s.lenOf (g.headD ""))) gs

theorem slices_length (s : PMap) (x : List ℝ) (m : List (List String)) :
    (s.slices x m).length = m.length := by
  induction m generalizing x with
  | nil => rfl
  | cons g gs ih => simp [slices, ih]

theorem slices_flatten (s : PMap) (x : List ℝ) (m : List (List String))
    (h : x.length = (m.map fun g => s.lenOf (g.headD "")).sum) : (s.slices x m).flatten = x := by
  induction m generalizing x with
  | nil => simp at h; simp [slices, h]
  | cons g gs ih =>
    simp only [slices, List.flatten_cons]
    rw [ih]
    · exact List.take_append_drop _ _
    · simp only [List.map_cons, List.sum_cons] at h
      simp [h]

theorem scaledWrites_eq (s : PMap) (x : List ℝ) (m : List (List String)) :
    s.scaledWrites x m = (m.zip (s.slices x m)).flatMap fun p => p.1.map fun k => (k, Op.setOpt p.2) := by
  induction m generalizing x with
  | nil => rfl
  | cons g gs ih => simp [scaledWrites, slices, ih]

theorem mem_slices {s : PMap} {x : List ℝ} {m : List (List String)} {sl : List ℝ}
    (h : sl ∈ s.slices x m) : ∀ v ∈ sl, v ∈ x := by
  induction m generalizing x with
  | nil => simp [slices] at h
  | cons g gs ih =>
    simp only [slices, List.mem_cons] at h
    rcases h with rfl | h
    · exact fun v hv => List.mem_of_mem_take hv
    · exact fun v hv => List.mem_of_mem_drop (ih h v hv)

/-- **C13** (write then read): after `set_parameters_scaled(x)` with entries in `[-1,1]`,
`get_parameters_scaled()` returns `x`. -/
theorem C13_set_get_scaled (s s' : PMap) (hg : Good s) (x : List ℝ)
    (hne : ∀ g ∈ s.optMap, g ≠ []) (hd : DisjointGroups s s.optMap)
    (hx : ∀ v ∈ x, -1 ≤ v ∧ v ≤ 1)
    (hlen : x.length = (s.optMap.map fun g => s.lenOf (g.headD "")).sum)
    (h : s.setParametersScaled x = (s', none)) :
    s'.getParametersScaled s'.optMap = .ok x := by
  unfold setParametersScaled at h
  rw [setScaledLoop_eq s hg x _ hne] at h
  rcases hrw : s.runWrites (s.scaledWrites x s.optMap) with ⟨t, _ | e⟩
  swap
  · rw [hrw] at h; simp at h
  rw [hrw] at h
  have hs' : s'.heap = t.heap ∧ s'.ref = t.ref ∧ s'.optMap = t.optMap := by
    simp only at h
    split_ifs at h <;>
    first
    | (simp only [Prod.mk.injEq, and_true] at h
       rw [← h]; exact ⟨rfl, rfl, rfl⟩)
    | simp at h
  obtain ⟨h1, h2, h3⟩ := hs'
  obtain ⟨_, _, _, _, _, h4, _⟩ := runWrites_spec s hg _ t none hrw
  have htr : t.ref = s.ref := by rw [h4]
  have hto : t.optMap = s.optMap := by rw [h4]
  have hdefs := runWrites_defined s hg _ t hrw
  rw [scaledWrites_eq] at hdefs
  have hzip : ∀ n (hn : n < s.optMap.length) (hn' : n < (s.slices x s.optMap).length),
      (s.optMap[n], (s.slices x s.optMap)[n]) ∈ s.optMap.zip (s.slices x s.optMap) := by
    intro n hn hn'
    rw [List.mem_iff_getElem]
    exact ⟨n, by simp [hn, hn'], by simp⟩
  have hmemw : ∀ p ∈ s.optMap.zip (s.slices x s.optMap), ∀ k ∈ p.1, (k, Op.setOpt p.2) ∈
      (s.optMap.zip (s.slices x s.optMap)).flatMap fun p => p.1.map fun k => (k, Op.setOpt p.2) := by
    intro p hp k hk
    exact List.mem_flatMap.2 ⟨p, hp, List.mem_map.2 ⟨k, hk, rfl⟩⟩
  have hdef : ∀ g ∈ s.optMap, ∀ k ∈ g, ∃ r, s'.ref k = some r := by
    intro g hg' k hk
    obtain ⟨n, hn, rfl⟩ := List.mem_iff_getElem.1 hg'
    have hn' : n < (s.slices x s.optMap).length := by rw [slices_length]; exact hn
    obtain ⟨r, hr⟩ := hdefs _ (hmemw _ (hzip n hn hn') k hk)
    exact ⟨r, by rw [h2, htr]; exact hr⟩
  unfold getParametersScaled
  rw [h3, hto, getParameters_eq s' s.optMap hne hdef]
  simp only [Except.ok.injEq]
  rw [← slices_flatten s x s.optMap hlen, List.flatMap_def, List.map_map]
  congr 1
  apply List.ext_getElem
  · simp [slices_length]
  · intro n hn hn'
    simp only [List.length_map] at hn
    have hh : (s.optMap[n]).headD "" ∈ s.optMap[n] := by
      cases hm : s.optMap[n] with
      | nil => exact absurd hm (hne _ (List.getElem_mem hn))
      | cons a b => simp
    have hp := hzip n hn hn'
    obtain ⟨r, hr⟩ := hdefs _ (hmemw _ hp _ hh)
    have key : (t.heap r).value = (s.slices x s.optMap)[n] := by
      refine runWrites_post (fun q => q.value = (s.slices x s.optMap)[n]) s hg _ t hrw r ?_
        ⟨_, by rw [scaledWrites_eq]; exact hmemw _ hp _ hh, hr⟩
      intro w hw hwr q q' hq hc
      rw [scaledWrites_eq] at hw
      obtain ⟨p', hp', hw⟩ := List.mem_flatMap.1 hw
      obtain ⟨k', hk', rfl⟩ := List.mem_map.1 hw
      have e := zip_value_unique hd hp' hp hk' hh (hwr.trans hr.symm)
      simp only [Op.call, setOptValue] at hc
      split_ifs at hc with hl
      injection hc with hc
      subst hc
      simp only
      rw [e]
      conv_rhs => rw [← List.map_id (s.slices x s.optMap)[n]]
      apply List.map_congr_left
      intro v hv
      have := hx v (mem_slices (List.getElem_mem hn') v hv)
      exact foldOpt_of_mem this.1 this.2
    have hr' : s.ref ((s.optMap[n]).headD "") = some r := hr
    have hr'' : s'.ref ((s.optMap[n]).headD "") = some r := by rw [h2, htr]; exact hr'
    simp only [List.getElem_map, Function.comp, hr'', Option.getD_some, h1, getOptValue, key]

theorem runWrites_noop (s : PMap) (ws : List (String × Op))
    (h : ∀ w ∈ ws, ∃ r, s.ref w.1 = some r ∧ w.2.call (s.heap r) = .ok (s.heap r)) :
    s.runWrites ws = (s, none) := by
  induction ws with
  | nil => rfl
  | cons w ws ih =>
    obtain ⟨k, o⟩ := w
    obtain ⟨r, hr, hc⟩ := h (k, o) List.mem_cons_self
    have hw : s.write k o = (s, none) := by
      simp only at hr hc
      simp [write, hr, hc, step_of_ok hc, Function.update_eq_self]
    simp only [runWrites, hw]
    exact ih fun w hw => h w (List.mem_cons_of_mem _ hw)

theorem slices_of_flatMap (s : PMap) (m : List (List String))
    (f : List String → List ℝ) (hf : ∀ g ∈ m, (f g).length = s.lenOf (g.headD "")) :
    s.slices (m.flatMap f) m = m.map f := by
  induction m with
  | nil => rfl
  | cons g gs ih =>
    have h1 := hf g List.mem_cons_self
    simp only [slices, List.flatMap_cons, List.map_cons]
    rw [← h1, List.take_left, List.drop_left, ih fun g hg => hf g (List.mem_cons_of_mem _ hg)]

/-- **C13** (read then write): `set_parameters_scaled(get_parameters_scaled())` succeeds and changes
no parameter, provided members of a group currently agree and the stored values are in range. -/
theorem C13_get_set_scaled (s : PMap) (hg : Good s) (hne : ∀ g ∈ s.optMap, g ≠ [])
    (hdef : ∀ g ∈ s.optMap, ∀ k ∈ g, ∃ r, s.ref k = some r)
    (hrange : ∀ k r, s.ref k = some r → ∀ v ∈ (s.heap r).value, -1 ≤ v ∧ v ≤ 1)
    (hagree : ∀ g ∈ s.optMap, ∀ k ∈ g, ∀ k' ∈ g, ∀ r r', s.ref k = some r → s.ref k' = some r' →
      (s.heap r).value = (s.heap r').value) (hm : s.updateModel = true → s.hasModel = true) :
    ∃ x s', s.getParametersScaled s.optMap = .ok x ∧ s.setParametersScaled x = (s', none) ∧
      s'.heap = s.heap := by
  set f : List String → List ℝ := fun g => (s.heap ((s.ref (g.headD "")).getD 0)).value with hf
  have hget : s.getParametersScaled s.optMap = .ok (s.optMap.flatMap f) := by
    unfold getParametersScaled
    rw [getParameters_eq s _ hne hdef]
    simp only [List.flatMap_def, List.map_map]
    rfl
  have hhead : ∀ g ∈ s.optMap, g.headD "" ∈ g := by
    intro g hg'
    cases hm : g with
    | nil => exact absurd hm (hne _ hg')
    | cons a b => simp
  have hflen : ∀ g ∈ s.optMap, (f g).length = s.lenOf (g.headD "") := by
    intro g hg'
    obtain ⟨r, hr⟩ := hdef g hg' _ (hhead g hg')
    simp only [hf, lenOf, hr, Option.getD_some]
    exact (hg _ r hr).len
  have hloop : s.setScaledLoop (s.optMap.flatMap f) s.optMap = (s, none) := by
    rw [setScaledLoop_eq s hg _ _ hne, scaledWrites_eq, slices_of_flatMap s _ f hflen]
    apply runWrites_noop
    intro w hw
    obtain ⟨p, hp, hw⟩ := List.mem_flatMap.1 hw
    obtain ⟨k, hk, rfl⟩ := List.mem_map.1 hw
    have hp1 : p.1 ∈ s.optMap ∧ p.2 = f p.1 := by
      rw [List.zip_map_right] at hp
      obtain ⟨a, ha, rfl⟩ := List.mem_map.1 hp
      obtain ⟨n, hn, rfl⟩ := List.mem_iff_getElem.1 ha
      simp only [List.getElem_zip, Prod.map_apply, id]
      exact ⟨List.getElem_mem _, trivial⟩
    obtain ⟨r, hr⟩ := hdef p.1 hp1.1 k hk
    obtain ⟨r', hr'⟩ := hdef p.1 hp1.1 _ (hhead _ hp1.1)
    have hv : p.2 = (s.heap r).value := by
      rw [hp1.2, hagree p.1 hp1.1 k hk _ (hhead _ hp1.1) r r' hr hr']
      simp only [hf, hr', Option.getD_some]
    refine ⟨r, hr, ?_⟩
    simp only [Op.call, setOptValue, hv, (hg k r hr).len, ne_eq, not_true_eq_false, if_false]
    have : (s.heap r).value.map foldOpt = (s.heap r).value := by
      conv_rhs => rw [← List.map_id (s.heap r).value]
      apply List.map_congr_left
      intro v hv
      exact foldOpt_of_mem (hrange k r hr v hv).1 (hrange k r hr v hv).2
    rw [this]
  refine ⟨_, _, hget, Prod.ext rfl ?_, ?_⟩
  · simp only [setParametersScaled, hloop]
    split_ifs with h1 h2
    · rfl
    · exact absurd (hm h1) h2
    · rfl
  · simp only [setParametersScaled, hloop]; split_ifs <;> rfl

/-- Without the range hypothesis the claim is false: a value accepted by the closeness tolerance
just above the upper limit is mirrored back below the limit by a read-write cycle. -/
theorem C13_false_at_tolerance : ∃ s s' : PMap, Good s ∧ s.optMap = [["a"]] ∧
    (∀ k r, s.ref k = some r → InRange (s.heap r)) ∧
    ∃ x, s.getParametersScaled s.optMap = .ok x ∧ s.setParametersScaled x = (s', none) ∧
      s'.read "a" ≠ s.read "a" := by
  let v : ℝ := 1 + 1 / 10 ^ 6
  let s : PMap := { exS with heap := fun _ => exR [v], optMap := [["a"]] }
  have hv : foldOpt v = 1 - 1 / 10 ^ 6 := by
    have e : v = (-2 - (1 - 1 / 10 ^ 6)) + 4 * (1 : ℤ) := by simp only [v]; norm_num
    rw [e, foldOpt_add_four, foldOpt_reflect, foldOpt_of_mem] <;> norm_num
  refine ⟨s, (s.setParametersScaled [v]).1, ?_, rfl, ?_, [v], ?_, Prod.ext rfl ?_, ?_⟩
  · intro k r _; exact exR_wf _
  · intro k r _ t ht
    simp only [s, exR, List.mem_singleton] at ht
    subst ht
    simp only [v, closeTol]
    rw [abs_of_pos] <;> norm_num
  · simp [s, exS, getParametersScaled, getParameters, getOptValue, exR]
  · simp [s, exS, setParametersScaled, setScaledLoop, setScaledGroup, exR, setOptValue]
  · simp [s, exS, setParametersScaled, setScaledLoop, setScaledGroup, exR, setOptValue, read,
      numpy, getValue, hv]
    simp only [v]
    norm_num

/-! ## C14 -/

theorem keyFromIndex_eq (s : PMap) (idx curr : ℕ) (m : List (List String))
    (hne : ∀ g ∈ m, g ≠ []) (hdef : ∀ g ∈ m, ∀ k ∈ g, ∃ r, s.ref k = some r) (h : curr ≤ idx) :
    s.keyFromIndex idx curr m = .ok ((entryNames s.lenOf m)[idx - curr]?.getD "") := by
  induction m generalizing curr with
  | nil => simp [keyFromIndex, entryNames]
  | cons g gs ih =>
    cases g with
    | nil => exact absurd rfl (hne [] List.mem_cons_self)
    | cons k ks =>
      obtain ⟨r, hr⟩ := hdef _ List.mem_cons_self k List.mem_cons_self
      have hl : s.lenOf k = (s.heap r).length := by simp [lenOf, hr]
      simp only [keyFromIndex, hr, entryNames, List.flatMap_cons, List.headD_cons]
      split_ifs with hc
      · rw [List.getElem?_append_left (by simp [hl]; omega)]
        rw [List.getElem?_replicate]
        rw [if_pos (by rw [hl]; omega)]
        simp
      · rw [List.getElem?_append_right (by simp [hl]; omega)]
        rw [ih _ (fun g hg => hne g (List.mem_cons_of_mem _ hg))
          (fun g hg => hdef g (List.mem_cons_of_mem _ hg)) (by omega)]
        simp only [List.length_replicate, hl, entryNames]
        rw [Nat.sub_sub]

/-- **C14**: `get_key_from_scaled_index(i)` returns the name of the i-th entry of the optimizer
vector, where every group contributes as many consecutive entries as its parameter has elements,
and the empty string past the end. -/
theorem C14_key_from_index (s : PMap) (idx : ℕ) (m : List (List String))
    (hne : ∀ g ∈ m, g ≠ []) (hdef : ∀ g ∈ m, ∀ k ∈ g, ∃ r, s.ref k = some r) :
    s.keyFromIndex idx 0 m = .ok ((entryNames s.lenOf m)[idx]?.getD "") := by
  simpa using keyFromIndex_eq s idx 0 m hne hdef (Nat.zero_le _)

/-- The entry names are aligned with the optimizer vector: same length. -/
theorem C14_aligned (s : PMap) (hg : Good s) (m : List (List String)) (hne : ∀ g ∈ m, g ≠ [])
    (hdef : ∀ g ∈ m, ∀ k ∈ g, ∃ r, s.ref k = some r) :
    ∃ x, s.getParametersScaled m = .ok x ∧ x.length = (entryNames s.lenOf m).length := by
  refine ⟨_, by rw [getParametersScaled, getParameters_eq s m hne hdef], ?_⟩
  simp only [entryNames, List.length_flatMap, List.length_replicate, List.map_map]
  congr 1
  apply List.map_congr_left
  intro g hg'
  have hh : g.headD "" ∈ g := by
    cases hm : g with
    | nil => exact absurd hm (hne _ hg')
    | cons a b => simp
  obtain ⟨r, hr⟩ := hdef g hg' _ hh
  simp only [Function.comp, hr, Option.getD_some, getOptValue, lenOf]
  exact (hg _ r hr).len

example : exS.keyFromIndex 2 0 exS.optMap = .ok "w" := by
  rw [C14_key_from_index exS 2 exS.optMap (by simp [exS]) (by simp [exS])]
  simp [entryNames, exS, lenOf, exR, List.replicate]

/-! ## C15 -/

/-- **C15**: `set_opt_map` with an unknown identifier raises and leaves the map (everything)
unchanged. -/
theorem C15_unknown_refused (s : PMap) (m : List (List String)) (g : List String) (hg : g ∈ m)
    (k : String) (hk : k ∈ g) (hu : s.ref k = none) :
    ∃ k', s.ref k' = none ∧ s.setOptMap m = (s, some (.key k')) := by
  unfold setOptMap
  rcases hf : m.flatten.find? fun k => (s.ref k).isNone with _ | k'
  · rw [List.find?_eq_none] at hf
    have := hf k (List.mem_flatten.2 ⟨g, hg, hk⟩)
    simp [hu] at this
  · refine ⟨k', ?_, rfl⟩
    have := List.find?_some hf
    simpa using this

/-- **C15**: when `set_opt_map` succeeds the map is installed, every identifier resolves, nothing
else but the update flag changes, and that flag says whether a model parameter is named; when it
raises, the previous map stays installed. -/
theorem C15_set_opt_map (s s' : PMap) (m : List (List String)) (err : Option PErr)
    (h : s.setOptMap m = (s', err)) :
    (err = none → s'.optMap = m ∧ (∀ g ∈ m, ∀ k ∈ g, (s.ref k).isSome) ∧
      (s'.updateModel = true ↔ ∃ g ∈ m, ∃ k ∈ g, k ∈ s.modelIds)) ∧
    (err ≠ none → s'.optMap = s.optMap) ∧ s'.ref = s.ref ∧ s'.heap = s.heap := by
  unfold setOptMap at h
  rcases hf : m.flatten.find? fun k => (s.ref k).isNone with _ | k'
  · rw [hf] at h
    simp only at h
    rcases hc : checkLimits { s with updateModel := m.flatten.any fun k => s.modelIds.contains k } m
      with e | u
    · rw [hc] at h
      simp only [Prod.mk.injEq] at h
      obtain ⟨rfl, rfl⟩ := h
      exact ⟨by simp, fun _ => rfl, rfl, rfl⟩
    · rw [hc] at h
      simp only [Prod.mk.injEq] at h
      obtain ⟨rfl, rfl⟩ := h
      refine ⟨fun _ => ⟨rfl, ?_, ?_⟩, by simp, rfl, rfl⟩
      · intro g hg k hk
        rw [List.find?_eq_none] at hf
        have := hf k (List.mem_flatten.2 ⟨g, hg, hk⟩)
        cases hr : s.ref k <;> simp_all
      · simp only [List.any_eq_true, List.mem_flatten, List.contains_iff_mem]
        constructor
        · rintro ⟨k, ⟨g, hg, hk⟩, hm⟩; exact ⟨g, hg, k, hk, hm⟩
        · rintro ⟨g, hg, k, hk, hm⟩; exact ⟨k, ⟨g, hg, hk⟩, hm⟩
  · rw [hf] at h
    simp only [Prod.mk.injEq] at h
    obtain ⟨rfl, rfl⟩ := h
    exact ⟨by simp, fun _ => rfl, rfl, rfl⟩

/-! ## C126 -/

/-- Setting scaled parameters rebuilds the model exactly if the flag is set. -/
theorem setScaled_view (s s' : PMap) (hg : Good s) (hne : ∀ g ∈ s.optMap, g ≠ []) (x : List ℝ)
    (h : s.setParametersScaled x = (s', none)) :
    (s.updateModel = true → s'.modelView = s'.heap) ∧ (s.updateModel = false → s'.modelView = s.modelView) := by
  unfold setParametersScaled at h
  rw [setScaledLoop_eq s hg x _ hne] at h
  rcases hrw : s.runWrites (s.scaledWrites x s.optMap) with ⟨t, _ | e⟩
  swap
  · rw [hrw] at h; simp at h
  rw [hrw] at h
  obtain ⟨_, _, _, _, _, h4, _⟩ := runWrites_spec s hg _ t none hrw
  simp only at h
  split_ifs at h with h1 h2
  · simp only [Prod.mk.injEq, and_true] at h
    subst h
    exact ⟨fun _ => rfl, fun hc => by rw [h1] at hc; cases hc⟩
  · simp at h
  · simp only [Prod.mk.injEq, and_true] at h
    subst h
    exact ⟨fun hc => absurd hc h1, fun _ => by rw [h4]⟩

/-- **C126**, what holds: once a map is installed, `set_parameters_scaled` rebuilds the model from the new
values exactly if one of the installed parameters belongs to the model. Missing: installs that raise, maps
without model and calls with another map, see the negations. -/
theorem C126_scaled_partial (s s1 s2 : PMap) (hg : Good s) (m : List (List String)) (hne : ∀ g ∈ m, g ≠ [])
    (x : List ℝ) (h1 : s.setOptMap m = (s1, none)) (h2 : s1.setParametersScaled x = (s2, none)) :
    ((∃ g ∈ m, ∃ k ∈ g, k ∈ s.modelIds) → s2.modelView = s2.heap) ∧
    (¬ (∃ g ∈ m, ∃ k ∈ g, k ∈ s.modelIds) → s2.modelView = s.modelView) := by
  obtain ⟨ha, _, hr, hh⟩ := C15_set_opt_map s s1 m none h1
  obtain ⟨ho, _, hu⟩ := ha rfl
  have hg1 : Good s1 := by
    intro k r hk
    rw [hr] at hk
    rw [hh]
    exact hg k r hk
  have hv : s1.modelView = s.modelView := by
    unfold setOptMap at h1
    rcases hf : m.flatten.find? fun k => (s.ref k).isNone with _ | k'
    · rw [hf] at h1
      simp only at h1
      rcases hc : checkLimits { s with updateModel := m.flatten.any fun k => s.modelIds.contains k } m with e | u
      · rw [hc] at h1; simp at h1
      · rw [hc] at h1
        simp only [Prod.mk.injEq, and_true] at h1
        subst h1
        rfl
    · rw [hf] at h1; simp at h1
  obtain ⟨h3, h4⟩ := setScaled_view s1 s2 hg1 (by rw [ho]; exact hne) x h2
  constructor
  · intro hc; exact h3 (hu.2 hc)
  · intro hc
    rw [h4, hv]
    cases hb : s1.updateModel with
    | false => rfl
    | true => exact absurd (hu.1 hb) hc

/-- A map in which the model parameter `m` and the control parameter `b` share an entry although their
limits differ, installed as C16 allows. -/
def exShared : PMap where
  ref := fun k => if k = "m" then some 0 else if k = "b" then some 1 else none
  heap := fun r => if r = 0 then exR [0] else Quantity.mk [0] 0 4 1 "" 1
  modelIds := ["m"]
  optMap := []
  hasModel := true
  modelView := fun r => if r = 0 then exR [0] else Quantity.mk [0] 0 4 1 "" 1
  updateModel := false

/-- **C126 is false** after a refused `set_opt_map`: the old map stays, the update flag of the refused one
is kept, and the next proposal changes a model parameter without rebuilding the model. -/
theorem C126_false_refused : ∃ s1 s2 s3 e, exShared.setOptMap [["m", "b"]] = (s1, none) ∧
    s1.setOptMap [["b"]] = (s2, some e) ∧ s2.optMap = [["m", "b"]] ∧
    s2.setParametersScaled [1 / 2] = (s3, none) ∧
    (s3.heap 0).value = [1 / 2] ∧ (s3.modelView 0).value = [0] := by
  have hf : foldOpt (2⁻¹) = 2⁻¹ := foldOpt_of_mem (by norm_num) (by norm_num)
  have h1 : exShared.setOptMap [["m", "b"]] = ({ exShared with updateModel := true, optMap := [["m", "b"]] }, none) := by
    simp [setOptMap, exShared, checkLimits, checkGroups]
  have h2 : ({ exShared with updateModel := true, optMap := [["m", "b"]] } : PMap).setOptMap [["b"]] =
      ({ exShared with updateModel := false, optMap := [["m", "b"]] }, some .limits) := by
    simp [setOptMap, exShared, checkLimits, checkGroups, checkGroup, checkRest, getLimits, exR]
  refine ⟨_, _, _, _, h1, h2, rfl, Prod.ext rfl ?_, ?_, ?_⟩
  · simp [setParametersScaled, setScaledLoop, setScaledGroup, exShared, setOptValue, exR, hf]
  · simp [setParametersScaled, setScaledLoop, setScaledGroup, exShared, setOptValue, exR, hf]
  · simp [setParametersScaled, setScaledLoop, setScaledGroup, exShared, setOptValue, exR, hf]

/-- **C126 is false** without a model: parameters of generator devices count as model parameters
(c3/parametermap.py:40-56), so every proposal for them raises, after it has been written. -/
theorem C126_false_no_model (s s' : PMap) (x : List ℝ) (hm : s.hasModel = false) (hu : s.updateModel = true)
    (h : s.setScaledLoop x s.optMap = (s', none)) : s.setParametersScaled x = (s', some .attribute) := by
  simp [setParametersScaled, h, hu, hm]

/-- **C126 is false** for a call with another map: with the update flag set the argument is dropped and the
values go to the installed parameters. -/
theorem C126_false_argument (s : PMap) (x : List ℝ) (m : List (List String)) (hu : s.updateModel = true) :
    s.setParametersScaledWith x m = s.setParametersScaled x := by
  simp [setParametersScaledWith, hu]

/-- C126: without the update flag the given map is used. -/
theorem C126_argument (s : PMap) (x : List ℝ) (m : List (List String)) (hu : s.updateModel = false) :
    s.setParametersScaledWith x m = s.setScaledLoop x m := by
  simp [setParametersScaledWith, hu]

/-- C126 is not vacuous. -/
example : ∃ s1 s2, exShared.setOptMap [["m"]] = (s1, none) ∧ s1.setParametersScaled [1 / 2] = (s2, none) ∧
    s2.modelView = s2.heap ∧ (s2.heap 0).value = [1 / 2] := by
  have hf : foldOpt (2⁻¹) = 2⁻¹ := foldOpt_of_mem (by norm_num) (by norm_num)
  refine ⟨{ exShared with updateModel := true, optMap := [["m"]] }, _, ?_, Prod.ext rfl ?_, ?_, ?_⟩
  · simp [setOptMap, exShared, checkLimits, checkGroups]
  · simp [setParametersScaled, setScaledLoop, setScaledGroup, exShared, setOptValue, exR, hf]
  · simp [setParametersScaled, setScaledLoop, setScaledGroup, exShared, setOptValue, exR, hf]
  · simp [setParametersScaled, setScaledLoop, setScaledGroup, exShared, setOptValue, exR, hf]

/-- The case without model occurs: a proposal for a device parameter is written, then the call raises. -/
example : ∃ s', ({ exShared with updateModel := true, optMap := [["m"]], hasModel := false } : PMap).setParametersScaled
    [1 / 2] = (s', some .attribute) ∧ (s'.heap 0).value = [1 / 2] := by
  have hf : foldOpt (2⁻¹) = 2⁻¹ := foldOpt_of_mem (by norm_num) (by norm_num)
  refine ⟨_, Prod.ext rfl ?_, ?_⟩
  · simp [setParametersScaled, setScaledLoop, setScaledGroup, exShared, setOptValue, exR, hf]
  · simp [setParametersScaled, setScaledLoop, setScaledGroup, exShared, setOptValue, exR, hf]

example : (exS.setOptMap [["a"], ["nope", "b"]]).2 = some (.key "nope") := by
  simp [setOptMap, exS]

/-! ## C16 -/

/-- **C16 is false**: a map grouping parameters with different limits is installed without error,
because the check examines the previously installed map. -/
theorem C16_false : ∃ (s s' : PMap) (m : List (List String)), Good s ∧
    s.setOptMap m = (s', none) ∧ ∃ g ∈ m, ∃ k ∈ g, ∃ k' ∈ g, ∃ r r', s.ref k = some r ∧
      s.ref k' = some r' ∧ (s.heap r).getLimits ≠ (s.heap r').getLimits := by
  let s : PMap := { exS with
    heap := fun r => if r = 1 then exR [0] else Quantity.mk [0] 0 4 1 "" 1
    optMap := [] }
  refine ⟨s, _, [["a", "b"]], ?_, Prod.ext rfl ?_, ["a", "b"], by simp, "a", by simp, "b", by simp,
    1, 2, by simp [s, exS], by simp [s, exS], ?_⟩
  · intro k r _
    simp only [s]
    split_ifs
    · exact exR_wf _
    · exact ⟨by norm_num, by norm_num, rfl⟩
  · simp [setOptMap, checkLimits, checkGroups, s, exS]
  · simp [s, exR, getLimits]

/-- Whether all members of all groups have equal limits. -/
def EqualLimits (s : PMap) (m : List (List String)) : Prop :=
  ∀ g ∈ m, ∀ k ∈ g, ∀ k' ∈ g, ∀ r r', s.ref k = some r → s.ref k' = some r' →
    (s.heap r).getLimits = (s.heap r').getLimits

theorem checkRest_ok (s : PMap) (lim : ℝ × ℝ) (ks : List String)
    (h : s.checkRest lim ks = .ok ()) :
    ∀ k ∈ ks, ∀ r, s.ref k = some r → (s.heap r).getLimits = lim := by
  induction ks with
  | nil => simp
  | cons k ks ih =>
    simp only [checkRest] at h
    rcases hr : s.ref k with _ | r
    · simp [hr] at h
    · simp only [hr] at h
      split_ifs at h with hl
      intro k' hk' r' hr'
      rcases List.mem_cons.1 hk' with rfl | hk'
      · rw [hr] at hr'; injection hr' with hr'; subst hr'; exact not_not.1 hl
      · exact ih h k' hk' r' hr'

theorem checkGroups_ok (s : PMap) (m : List (List String)) (h : s.checkGroups m = .ok ()) :
    EqualLimits s m := by
  induction m with
  | nil => intro g hg; simp at hg
  | cons g gs ih =>
    simp only [checkGroups] at h
    rcases hc : s.checkGroup g with e | u
    · simp [hc] at h
    · simp only [hc] at h
      intro g' hg'
      rcases List.mem_cons.1 hg' with rfl | hg'
      · clear ih h
        match g', hc with
        | [], _ => simp
        | [k0], _ =>
          intro k hk k' hk' r r' h1 h2
          simp only [List.mem_singleton] at hk hk'
          subst hk; subst hk'
          rw [h1] at h2; injection h2 with h2; rw [h2]
        | k0 :: k1 :: ks, hc =>
          simp only [checkGroup] at hc
          rcases hr : s.ref k0 with _ | r0
          · simp [hr] at hc
          · simp only [hr] at hc
            have hrest := checkRest_ok s _ _ hc
            have hall : ∀ k ∈ k0 :: k1 :: ks, ∀ r, s.ref k = some r →
                (s.heap r).getLimits = (s.heap r0).getLimits := by
              intro k hk r h1
              rcases List.mem_cons.1 hk with rfl | hk
              · rw [hr] at h1; injection h1 with h1; rw [h1]
              · exact hrest k hk r h1
            intro k hk k' hk' r r' h1 h2
            rw [hall k hk r h1, hall k' hk' r' h2]
      · exact ih h g' hg'

/-- **C16, partial**: what `set_opt_map` does check on success is that the groups of the map
installed before have equal limits; so installing a map twice in a row does check it.
Missing: a check of the map being installed (false, see `C16_false`). -/
theorem C16_check_limits_partial (s s' s'' : PMap) (m m' : List (List String))
    (h1 : s.setOptMap m = (s', none)) (h2 : s'.setOptMap m' = (s'', none)) : EqualLimits s m := by
  obtain ⟨a, _, href, hheap⟩ := C15_set_opt_map s s' m none h1
  have ho : s'.optMap = m := (a rfl).1
  unfold setOptMap at h2
  rcases hf : m'.flatten.find? fun k => (s'.ref k).isNone with _ | k'
  · rw [hf] at h2
    simp only at h2
    set b := m'.flatten.any fun k => s'.modelIds.contains k with hb
    rcases hc : checkLimits { s' with updateModel := b } m' with e | u
    · rw [hc] at h2; simp at h2
    · have := checkGroups_ok _ _ hc
      simp only [ho] at this
      intro g hg k hk k' hk' r r' e1 e2
      have := this g hg k hk k' hk' r r' (by simpa [href] using e1) (by simpa [href] using e2)
      simpa [hheap] using this
  · rw [hf] at h2; simp at h2

/-! ## C17 -/

/-- **C17**: values stored from one map and loaded into any map `t` (any limits if the bounds may
be extended) restore, on success, the stored value in every member of each group. -/
theorem C17_store_load (s t t' : PMap) (hgt : Good t) (ext : Bool)
    (hd : DisjointGroups t s.optMap)
    (file : List (List String) × List (List ℝ)) (hst : s.storeValues = .ok file)
    (h : t.loadValues file ext = (t', none)) :
    ∀ g ∈ s.optMap, ∀ k ∈ g, t'.read k = s.read (g.headD "") := by
  unfold storeValues at hst
  rcases hq : s.getParameters s.optMap with e | qs
  · simp [hq] at hst
  simp only [hq, Except.ok.injEq] at hst
  subst hst
  obtain ⟨hl, hr⟩ := C10_group_members t t' hgt _ _ ext hd h
  intro g hg k hk
  obtain ⟨n, hn, rfl⟩ := List.mem_iff_getElem.1 hg
  rw [hr n hn (by omega) k hk]
  -- the n-th stored value
  have key : ∀ (m : List (List String)) (qs : List Quantity), s.getParameters m = .ok qs →
      ∀ n (hn : n < m.length) (hn' : n < qs.length),
        ∃ r, s.ref (m[n].headD "") = some r ∧ qs[n] = s.heap r := by
    intro m
    induction m with
    | nil => intro qs _ n hn; simp at hn
    | cons g gs ih =>
      intro qs hqs n hn hn'
      cases g with
      | nil => simp [getParameters] at hqs
      | cons k ks =>
        simp only [getParameters] at hqs
        rcases hrk : s.ref k with _ | r
        · simp [hrk] at hqs
        · simp only [hrk] at hqs
          rcases hgs : s.getParameters gs with e | qs'
          · simp [hgs] at hqs
          · simp only [hgs, Except.ok.injEq] at hqs
            subst hqs
            cases n with
            | zero => exact ⟨r, by simpa using hrk, by simp⟩
            | succ n =>
              obtain ⟨r', h1, h2⟩ := ih qs' hgs n (by simpa using hn) (by simpa using hn')
              exact ⟨r', by simpa using h1, by simpa using h2⟩
  obtain ⟨r, h1, h2⟩ := key _ _ hq n hn (by simp at hl; omega)
  rw [read, h1]
  simp [h2]

/-- **C17** (completeness): with `extend_bounds=True` loading succeeds whenever every identifier
exists in the target and has as many entries as the stored value. -/
theorem C17_load_succeeds (t : PMap) (hg : Good t) (m : List (List String))
    (values : List (List ℝ)) (hl : values.length = m.length)
    (hdef : ∀ p ∈ m.zip values, ∀ k ∈ p.1, ∃ r, t.ref k = some r ∧
      (t.heap r).length = p.2.length) :
    ∃ t', t.loadValues (m, values) true = (t', none) := by
  have key : ∀ (ws : List (String × Op)) (t : PMap), Good t →
      (∀ w ∈ ws, ∃ v r, w.2 = .setExtend v ∧ t.ref w.1 = some r ∧ (t.heap r).length = v.length) →
      ∃ t', t.runWrites ws = (t', none) := by
    intro ws
    induction ws with
    | nil => intro t _ _; exact ⟨t, rfl⟩
    | cons w ws ih =>
      intro t hgt hw
      obtain ⟨k, o⟩ := w
      obtain ⟨v, r, ho, hr, hlen⟩ := hw (k, o) List.mem_cons_self
      simp only at ho hr
      subst ho
      obtain ⟨q', hq'⟩ := setExtend_ok (t.heap r) (hgt k r hr) v hlen.symm
      have hc : (Op.setExtend v).call (t.heap r) = .ok q' := hq'
      have hwr : ∃ t1, t.write k (.setExtend v) = (t1, none) := by
        simp [write, hr, hc]
      obtain ⟨t1, ht1⟩ := hwr
      obtain ⟨hg1, href⟩ := good_of_write hgt ht1
      obtain ⟨t2, ht2⟩ := ih t1 hg1 (by
        intro w hw'
        obtain ⟨v', r', h1, h2, h3⟩ := hw w (List.mem_cons_of_mem _ hw')
        refine ⟨v', r', h1, by rw [href]; exact h2, ?_⟩
        have := runWrites_length t hgt [(k, .setExtend v)] t1 (by simp [runWrites, ht1]) w.1 r' h2
        rw [this, h3])
      exact ⟨t2, by simp [runWrites, ht1, ht2]⟩
  obtain ⟨t', ht'⟩ := key (setWrites true m values) t hg (by
    intro w hw
    obtain ⟨p, hp, hk, ho⟩ := mem_setWrites.1 hw
    obtain ⟨r, h1, h2⟩ := hdef p hp w.1 hk
    exact ⟨p.2, r, by simpa using ho, h1, h2⟩)
  rcases hsp : t.setParameters values m true with ⟨t2, e⟩
  rcases setParameters_cases t values m true t2 e hsp with ⟨hx, _⟩ | ⟨_, t3, h1, _⟩
  · exact absurd hl hx
  · rw [ht'] at h1
    simp only [Prod.mk.injEq] at h1
    obtain ⟨_, rfl⟩ := h1
    exact ⟨t2, hsp⟩

example : ∃ t', exS.loadValues ([["a", "b"], ["w"]], [[5], [-3, 7]]) true = (t', none) :=
  C17_load_succeeds exS exS_good _ _ rfl (by simp [exS, exR])

end PMap
end C3
