import Verif.ParamMap.Model
import Verif.Quantity.Props

/-! Helper lemmas about the `ParameterMap` model: all setters are sequences of single writes. -/

noncomputable section

namespace C3
namespace PMap
open Quantity

/-- One write call on the object behind an identifier. -/
def write (s : PMap) (k : String) (o : Op) : PMap × Option PErr :=
  match s.ref k with
  | none => (s, some (.key k))
  | some r =>
    let s' := { s with heap := Function.update s.heap r (o.step (s.heap r)) }
    match o.call (s.heap r) with
    | .ok _ => (s', none)
    | .error e => (s', some (.quantity k e))

/-- A sequence of writes, stopping at the first exception. -/
def runWrites (s : PMap) : List (String × Op) → PMap × Option PErr
  | [] => (s, none)
  | (k, o) :: ws =>
    match s.write k o with
    | (s', none) => s'.runWrites ws
    | (s', some e) => (s', some e)

/-- The quantities behind all identifiers are well formed. -/
def Good (s : PMap) : Prop := ∀ k r, s.ref k = some r → WF (s.heap r)

theorem runWrites_append (s : PMap) (a b : List (String × Op)) :
    s.runWrites (a ++ b) =
      match s.runWrites a with
      | (s', none) => s'.runWrites b
      | (s', some e) => (s', some e) := by
  induction a generalizing s with
  | nil => simp [runWrites]
  | cons w a ih =>
    obtain ⟨k, o⟩ := w
    simp only [List.cons_append, runWrites]
    rcases h : s.write k o with ⟨s', _ | e⟩
    · simp only [ih]
    · simp only

theorem setGroup_eq (s : PMap) (v : List ℝ) (ext : Bool) (g : List String) :
    s.setGroup v ext g =
      s.runWrites (g.map fun k => (k, if ext then Op.setExtend v else Op.set v)) := by
  induction g generalizing s with
  | nil => rfl
  | cons k ks ih =>
    simp only [setGroup, List.map_cons, runWrites]
    have : s.setOne k v ext = s.write k (if ext then Op.setExtend v else Op.set v) := rfl
    rw [this]
    rcases h : s.write k (if ext then Op.setExtend v else Op.set v) with ⟨s', _ | e⟩
    · simp only [ih]
    · simp only

/-- the write calls `set_parameters` issues -/
def setWrites (ext : Bool) (m : List (List String)) (values : List (List ℝ)) :
    List (String × Op) :=
  (m.zip values).flatMap fun p => p.1.map fun k => (k, if ext then Op.setExtend p.2 else Op.set p.2)

theorem setGroups_eq (s : PMap) (ext : Bool) (m : List (List String)) (values : List (List ℝ)) :
    s.setGroups ext m values = s.runWrites (setWrites ext m values) := by
  induction m generalizing s values with
  | nil => simp [setGroups, setWrites, runWrites]
  | cons g gs ih =>
    cases values with
    | nil => simp [setGroups, setWrites, runWrites]
    | cons v vs =>
      simp only [setGroups, setWrites, List.zip_cons_cons, List.flatMap_cons]
      rw [runWrites_append, setGroup_eq]
      rcases s.runWrites (g.map fun k => (k, if ext then Op.setExtend v else Op.set v)) with
        ⟨s', _ | e⟩
      · simp only [ih]; rfl
      · simp only

theorem step_of_ok {q q' : Quantity} {o : Op} (h : o.call q = .ok q') : o.step q = q' := by
  unfold Op.step; rw [h]

theorem wf_of_call {q q' : Quantity} {o : Op} (hw : WF q) (h : o.call q = .ok q') : WF q' := by
  cases o with
  | set v => exact (C01_set_get q q' hw v h).2.2.2.2.2
  | addIn x => exact (C01_set_get q q' hw _ h).2.2.2.2.2
  | subtractIn x => exact (C01_set_get q q' hw _ h).2.2.2.2.2
  | setExtend v =>
    by_cases hl : v.length = q.length
    · obtain ⟨q'', h1, _, _, _, h2⟩ := C05_extend q hw v hl
      have : Op.call q (.setExtend v) = .ok q'' := h1
      rw [h] at this; injection this with this; subst this; exact h2
    · simp [Op.call, setValue, hl] at h
  | setOpt v =>
    simp only [Op.call, setOptValue] at h
    split_ifs at h with h1
    injection h with h; subst h
    exact ⟨hw.scale_pos, hw.pref_pos, by simpa using h1⟩

theorem length_of_call {q q' : Quantity} {o : Op} (hw : WF q) (h : o.call q = .ok q') :
    q'.length = q.length := by
  cases o with
  | set v => exact (C01_set_get q q' hw v h).2.2.2.1
  | addIn x => exact (C01_set_get q q' hw _ h).2.2.2.1
  | subtractIn x => exact (C01_set_get q q' hw _ h).2.2.2.1
  | setExtend v =>
    simp only [Op.call, setValue, if_true] at h
    split_ifs at h with h1
    obtain ⟨q'', e, _, _, h3, _⟩ := setValueExtend_eq q hw v
    rw [e] at h; injection h with h; subst h; exact h3
  | setOpt v =>
    simp only [Op.call, setOptValue] at h
    split_ifs at h with h1
    injection h with h; subst h; rfl

/-- A single write: the frame, and what it does on success and failure. -/
theorem write_none {s s' : PMap} {k : String} {o : Op} (h : s.write k o = (s', none)) :
    ∃ r q', s.ref k = some r ∧ o.call (s.heap r) = .ok q' ∧
      s' = { s with heap := Function.update s.heap r q' } := by
  unfold write at h
  rcases hr : s.ref k with _ | r
  · simp [hr] at h
  · simp only [hr] at h
    rcases hc : o.call (s.heap r) with e | q'
    · simp [hc] at h
    · refine ⟨r, q', rfl, hc, ?_⟩
      simp only [hc, Prod.mk.injEq, and_true] at h
      rw [← h, step_of_ok hc]

theorem write_some {s s' : PMap} {k : String} {o : Op} {e : PErr} (hg : Good s)
    (h : s.write k o = (s', some e)) :
    s' = s ∧ ((s.ref k = none ∧ e = .key k) ∨
      ∃ r qe, s.ref k = some r ∧ o.call (s.heap r) = .error qe ∧ e = .quantity k qe) := by
  unfold write at h
  rcases hr : s.ref k with _ | r
  · simp only [hr, Prod.mk.injEq, Option.some.injEq] at h
    exact ⟨h.1.symm, Or.inl ⟨rfl, h.2.symm⟩⟩
  · simp only [hr] at h
    rcases hc : o.call (s.heap r) with qe | q'
    · simp only [hc, Prod.mk.injEq, Option.some.injEq] at h
      refine ⟨?_, Or.inr ⟨r, qe, rfl, hc, h.2.symm⟩⟩
      rw [← h.1, step_of_error _ (hg k r hr) o qe hc, Function.update_eq_self]
    · simp [hc] at h

theorem good_of_write {s s' : PMap} {k : String} {o : Op} (hg : Good s)
    (h : s.write k o = (s', none)) : Good s' ∧ s'.ref = s.ref := by
  obtain ⟨r, q', hr, hc, rfl⟩ := write_none h
  refine ⟨?_, rfl⟩
  intro k' r' h'
  by_cases hrr : r' = r
  · subst hrr; simpa using wf_of_call (hg k r' hr) hc
  · simpa [Function.update_of_ne hrr] using hg k' r' h'

/-- Everything except the heap is untouched. -/
def SameButHeap (s s' : PMap) : Prop :=
  s' = { s with heap := s'.heap }

/-- The structure of a run: the writes before the first exception have been done. -/
theorem runWrites_spec (s : PMap) (hg : Good s) (ws : List (String × Op)) (s' : PMap)
    (err : Option PErr) (h : s.runWrites ws = (s', err)) :
    ∃ done rest, ws = done ++ rest ∧ s.runWrites done = (s', none) ∧ Good s' ∧ SameButHeap s s' ∧
      (err = none → rest = []) ∧
      (∀ e, err = some e → ∃ k o rest', rest = (k, o) :: rest' ∧
        ((s.ref k = none ∧ e = .key k) ∨
          ∃ r qe, s.ref k = some r ∧ o.call (s'.heap r) = .error qe ∧ e = .quantity k qe)) := by
  induction ws generalizing s with
  | nil =>
    simp only [runWrites, Prod.mk.injEq] at h
    obtain ⟨rfl, rfl⟩ := h
    exact ⟨[], [], rfl, rfl, hg, rfl, fun _ => rfl, by simp⟩
  | cons w ws ih =>
    obtain ⟨k, o⟩ := w
    simp only [runWrites] at h
    rcases hw : s.write k o with ⟨t, _ | e⟩
    · rw [hw] at h
      obtain ⟨hg', href⟩ := good_of_write hg hw
      obtain ⟨done, rest, h1, h2, h3, h4, h5, h6⟩ := ih t hg' h
      refine ⟨(k, o) :: done, rest, by rw [h1]; rfl, ?_, h3, ?_, h5, ?_⟩
      · simp only [runWrites, hw, h2]
      · obtain ⟨r, q', _, _, rfl⟩ := write_none hw
        unfold SameButHeap at h4 ⊢
        rw [h4]
      · rw [href] at h6; exact h6
    · rw [hw] at h
      simp only [Prod.mk.injEq] at h
      obtain ⟨rfl, rfl⟩ := h
      obtain ⟨rfl, h2⟩ := write_some hg hw
      refine ⟨[], (k, o) :: ws, rfl, rfl, hg, rfl, by simp, ?_⟩
      intro e' he'
      injection he' with he'; subst he'
      exact ⟨k, o, ws, rfl, h2⟩

/-- Objects not named by any write keep their content. -/
theorem runWrites_frame (s : PMap) (hg : Good s) (ws : List (String × Op)) (s' : PMap)
    (err : Option PErr) (h : s.runWrites ws = (s', err)) (r : ℕ)
    (hr : ∀ w ∈ ws, s.ref w.1 ≠ some r) : s'.heap r = s.heap r := by
  induction ws generalizing s with
  | nil => simp only [runWrites, Prod.mk.injEq] at h; rw [h.1]
  | cons w ws ih =>
    obtain ⟨k, o⟩ := w
    simp only [runWrites] at h
    rcases hw : s.write k o with ⟨t, _ | e⟩
    · rw [hw] at h
      obtain ⟨hg', href⟩ := good_of_write hg hw
      rw [ih t hg' h (fun w hw' => by rw [href]; exact hr w (List.mem_cons_of_mem _ hw'))]
      obtain ⟨r', q', h1, _, rfl⟩ := write_none hw
      have : r ≠ r' := by
        rintro rfl; exact hr (k, o) List.mem_cons_self h1
      simp [Function.update_of_ne this]
    · rw [hw] at h
      simp only [Prod.mk.injEq] at h
      obtain ⟨rfl, _⟩ := write_some hg hw
      rw [h.1]

/-- A condition every write to an object establishes holds after a successful run. -/
theorem runWrites_post (P : Quantity → Prop) (s : PMap) (hg : Good s) (ws : List (String × Op))
    (s' : PMap) (h : s.runWrites ws = (s', none)) (r : ℕ)
    (hP : ∀ w ∈ ws, s.ref w.1 = some r → ∀ q q', WF q → w.2.call q = .ok q' → P q')
    (hex : ∃ w ∈ ws, s.ref w.1 = some r) : P (s'.heap r) := by
  induction ws generalizing s with
  | nil => simp at hex
  | cons w ws ih =>
    obtain ⟨k, o⟩ := w
    simp only [runWrites] at h
    rcases hw : s.write k o with ⟨t, _ | e⟩
    swap
    · rw [hw] at h; simp at h
    rw [hw] at h
    obtain ⟨hg', href⟩ := good_of_write hg hw
    by_cases hlater : ∃ w ∈ ws, s.ref w.1 = some r
    · exact ih t hg' h
        (fun w hw' => by rw [href]; exact hP w (List.mem_cons_of_mem _ hw'))
        (by rw [href]; exact hlater)
    · have hk : s.ref k = some r := by
        obtain ⟨w, hw', hr⟩ := hex
        rcases List.mem_cons.1 hw' with rfl | hw'
        · exact hr
        · exact absurd ⟨w, hw', hr⟩ hlater
      have hf := runWrites_frame t hg' ws s' none h r (fun w hw' hr => hlater ⟨w, hw', by
        rwa [href] at hr⟩)
      rw [hf]
      obtain ⟨r', q', h1, h2, rfl⟩ := write_none hw
      rw [hk] at h1; injection h1 with h1; subst h1
      simp only [Function.update_self]
      exact hP (k, o) List.mem_cons_self hk _ _ (hg k r hk) h2

/-- After a successful run all written identifiers exist. -/
theorem runWrites_defined (s : PMap) (hg : Good s) (ws : List (String × Op)) (s' : PMap)
    (h : s.runWrites ws = (s', none)) : ∀ w ∈ ws, ∃ r, s.ref w.1 = some r := by
  induction ws generalizing s with
  | nil => simp
  | cons w ws ih =>
    obtain ⟨k, o⟩ := w
    simp only [runWrites] at h
    rcases hw : s.write k o with ⟨t, _ | e⟩
    swap
    · rw [hw] at h; simp at h
    rw [hw] at h
    obtain ⟨hg', href⟩ := good_of_write hg hw
    intro w hw'
    rcases List.mem_cons.1 hw' with rfl | hw'
    · obtain ⟨r, _, h1, _⟩ := write_none hw; exact ⟨r, h1⟩
    · have := ih t hg' h w hw'; rwa [href] at this

/-- Lengths never change. -/
theorem runWrites_length (s : PMap) (hg : Good s) (ws : List (String × Op)) (s' : PMap)
    (h : s.runWrites ws = (s', none)) (k : String) (r : ℕ) (hr : s.ref k = some r) :
    (s'.heap r).length = (s.heap r).length := by
  induction ws generalizing s with
  | nil => simp only [runWrites, Prod.mk.injEq] at h; rw [h.1]
  | cons w ws ih =>
    obtain ⟨k', o⟩ := w
    simp only [runWrites] at h
    rcases hw : s.write k' o with ⟨t, _ | e⟩
    swap
    · rw [hw] at h; simp at h
    rw [hw] at h
    obtain ⟨hg', href⟩ := good_of_write hg hw
    rw [ih t hg' h (by rw [href]; exact hr)]
    obtain ⟨r', q', h1, h2, rfl⟩ := write_none hw
    by_cases hrr : r = r'
    · subst hrr
      simp only [Function.update_self]
      exact length_of_call (hg k r hr) h2
    · simp [Function.update_of_ne hrr]

theorem mem_setWrites {ext : Bool} {m : List (List String)} {values : List (List ℝ)}
    {w : String × Op} : w ∈ setWrites ext m values ↔
      ∃ p ∈ m.zip values, w.1 ∈ p.1 ∧ w.2 = if ext then Op.setExtend p.2 else Op.set p.2 := by
  simp only [setWrites, List.mem_flatMap, List.mem_map]
  constructor
  · rintro ⟨p, hp, k, hk, rfl⟩; exact ⟨p, hp, hk, rfl⟩
  · rintro ⟨p, hp, hk, ho⟩
    refine ⟨p, hp, w.1, hk, ?_⟩
    rw [← ho]

/-- No object is named in two different groups. -/
def DisjointGroups (s : PMap) (m : List (List String)) : Prop :=
  m.Pairwise fun g h => ∀ k ∈ g, ∀ k' ∈ h, s.ref k ≠ s.ref k'

theorem zip_value_unique {s : PMap} {m : List (List String)} {values : List (List ℝ)}
    (hd : DisjointGroups s m) {p p' : List String × List ℝ} (hp : p ∈ m.zip values)
    (hp' : p' ∈ m.zip values) {k k' : String} (hk : k ∈ p.1) (hk' : k' ∈ p'.1)
    (h : s.ref k = s.ref k') : p.2 = p'.2 := by
  induction m generalizing values with
  | nil => simp at hp
  | cons g gs ih =>
    cases values with
    | nil => simp at hp
    | cons v vs =>
      rw [List.zip_cons_cons, List.mem_cons] at hp hp'
      obtain ⟨hd1, hd2⟩ := List.pairwise_cons.1 hd
      rcases hp with rfl | hp <;> rcases hp' with rfl | hp'
      · rfl
      · exact absurd h (hd1 _ (List.of_mem_zip hp').1 k hk k' hk')
      · exact absurd h.symm (hd1 _ (List.of_mem_zip hp).1 k' hk' k hk)
      · exact ih hd2 hp hp'

/-- a plain or extending write stores its argument -/
theorem numpy_of_set {q q' : Quantity} {v : List ℝ} {ext : Bool} (hw : WF q)
    (h : (if ext then Op.setExtend v else Op.set v).call q = .ok q') : q'.numpy = v := by
  cases ext with
  | false => exact (C01_set_get q q' hw v h).1
  | true =>
    simp only [if_true] at h
    by_cases hl : v.length = q.length
    · obtain ⟨q'', h1, h2, _⟩ := C05_extend q hw v hl
      have : Op.call q (.setExtend v) = .ok q'' := h1
      rw [h] at this; injection this with this; subst this; exact h2
    · simp [Op.call, setValue, hl] at h

/-- `set_parameters` is the sequence of its writes plus a possible model update. -/
theorem setParameters_cases (s : PMap) (values : List (List ℝ)) (m : List (List String))
    (ext : Bool) (s' : PMap) (err : Option PErr) (h : s.setParameters values m ext = (s', err)) :
    (values.length ≠ m.length ∧ s' = s ∧ err = some .length) ∨
    (values.length = m.length ∧ ∃ t, s.runWrites (setWrites ext m values) = (t, err) ∧
      s'.heap = t.heap ∧ s'.ref = t.ref ∧
      s'.modelView = if err.isNone ∧ (∃ g ∈ m, ∃ k ∈ g, k ∈ s.modelIds) ∧ s.hasModel = true
        then t.heap else t.modelView) := by
  unfold setParameters at h
  split_ifs at h with h1
  · simp only [Prod.mk.injEq] at h
    exact Or.inl ⟨h1, h.1.symm, h.2.symm⟩
  · right
    refine ⟨not_not.1 h1, ?_⟩
    rw [setGroups_eq] at h
    rcases hrw : s.runWrites (setWrites ext m values) with ⟨t, _ | e⟩
    · rw [hrw] at h
      simp only at h
      have hiff : ((m.any fun g => g.any fun k => s.modelIds.contains k) && s.hasModel) = true ↔
          (∃ g ∈ m, ∃ k ∈ g, k ∈ s.modelIds) ∧ s.hasModel = true := by
        simp [Bool.and_eq_true, List.any_eq_true]
      split_ifs at h with h2
      · simp only [Prod.mk.injEq] at h
        obtain ⟨rfl, rfl⟩ := h
        refine ⟨t, rfl, rfl, rfl, ?_⟩
        rw [if_pos ⟨rfl, hiff.1 h2⟩]
      · simp only [Prod.mk.injEq] at h
        obtain ⟨rfl, rfl⟩ := h
        refine ⟨t, rfl, rfl, rfl, ?_⟩
        rw [if_neg]
        rintro ⟨_, h3⟩; exact h2 (hiff.2 h3)
    · rw [hrw] at h
      simp only [Prod.mk.injEq] at h
      obtain ⟨rfl, rfl⟩ := h
      exact ⟨t, rfl, rfl, rfl, by simp⟩

/-! ### The optimizer vector -/

/-- number of entries of the object behind an identifier -/
def lenOf (s : PMap) (k : String) : ℕ :=
  match s.ref k with
  | none => 0
  | some r => (s.heap r).length

/-- the write calls `set_parameters_scaled` issues -/
def scaledWrites (s : PMap) : List ℝ → List (List String) → List (String × Op)
  | _, [] => []
  | values, g :: gs =>
    (g.map fun k => (k, Op.setOpt (values.take (s.lenOf (g.headD ""))))) ++
      s.scaledWrites (values.drop (s.lenOf (g.headD ""))) gs

theorem setScaledGroup_eq (s : PMap) (slice : List ℝ) (g : List String) :
    s.setScaledGroup slice g = s.runWrites (g.map fun k => (k, Op.setOpt slice)) := by
  induction g generalizing s with
  | nil => rfl
  | cons k ks ih =>
    simp only [setScaledGroup, List.map_cons, runWrites, write]
    rcases hr : s.ref k with _ | r
    · simp
    · simp only [Op.call]
      rcases hc : (s.heap r).setOptValue slice with e | q'
      · simp [Op.step, Op.call, hc]
      · simp [Op.step, Op.call, hc, ih]

theorem scaledWrites_congr (s t : PMap) (h : ∀ k, s.lenOf k = t.lenOf k) (values : List ℝ)
    (m : List (List String)) : s.scaledWrites values m = t.scaledWrites values m := by
  induction m generalizing values with
  | nil => rfl
  | cons g gs ih => simp only [scaledWrites, h, ih]

theorem lenOf_runWrites (s : PMap) (hg : Good s) (ws : List (String × Op)) (s' : PMap)
    (h : s.runWrites ws = (s', none)) (k : String) : s'.lenOf k = s.lenOf k := by
  obtain ⟨_, _, _, _, _, h4, _⟩ := runWrites_spec s hg ws s' none h
  have href : s'.ref = s.ref := by rw [h4]
  unfold lenOf
  rw [href]
  rcases hr : s.ref k with _ | r
  · rfl
  · exact runWrites_length s hg ws s' h k r hr

theorem setScaledLoop_eq (s : PMap) (hg : Good s) (values : List ℝ) (m : List (List String))
    (hne : ∀ g ∈ m, g ≠ []) :
    s.setScaledLoop values m = s.runWrites (s.scaledWrites values m) := by
  induction m generalizing s values with
  | nil => rfl
  | cons g gs ih =>
    cases g with
    | nil => exact absurd rfl (hne [] List.mem_cons_self)
    | cons k ks =>
      simp only [setScaledLoop, scaledWrites, List.headD_cons]
      rw [runWrites_append]
      rcases hr : s.ref k with _ | r
      · simp [runWrites, write, hr]
      · have hl : s.lenOf k = (s.heap r).length := by simp [lenOf, hr]
        simp only [setScaledGroup_eq, hl]
        rcases hrw : s.runWrites ((k :: ks).map fun k => (k, Op.setOpt (values.take
          (s.heap r).length))) with ⟨t, _ | e⟩
        · simp only
          obtain ⟨_, _, _, _, hgt, _⟩ := runWrites_spec s hg _ t none hrw
          rw [ih t hgt _ (fun g hg' => hne g (List.mem_cons_of_mem _ hg'))]
          rw [scaledWrites_congr t s (lenOf_runWrites s hg _ t hrw)]
        · simp only

/-- `get_parameters` on groups that all resolve. -/
theorem getParameters_eq (s : PMap) (m : List (List String)) (hne : ∀ g ∈ m, g ≠ [])
    (hdef : ∀ g ∈ m, ∀ k ∈ g, ∃ r, s.ref k = some r) :
    s.getParameters m = .ok (m.map fun g => s.heap ((s.ref (g.headD "")).getD 0)) := by
  induction m with
  | nil => rfl
  | cons g gs ih =>
    cases g with
    | nil => exact absurd rfl (hne [] List.mem_cons_self)
    | cons k ks =>
      obtain ⟨r, hr⟩ := hdef _ List.mem_cons_self k List.mem_cons_self
      have := ih (fun g hg => hne g (List.mem_cons_of_mem _ hg))
        (fun g hg => hdef g (List.mem_cons_of_mem _ hg))
      simp [getParameters, hr, this]

end PMap
end C3
