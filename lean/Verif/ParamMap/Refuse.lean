import Verif.ParamMap.Props

/-!
# What the caller is told when an update is refused

`Verif.ParamMap.Model` has the states left behind by `set_parameters`. Here the exceptions are those that reach the
caller, with the values in their messages. Tensors have shapes: the message of a refused write is formatted before the
exception is raised, which depends on the shape.
-/

noncomputable section

namespace C3.ParamMap.Refuse

open C3.PMap C3.Quantity

/-- Exceptions as they reach the caller of `set_parameters`, with the values in their messages. -/
inductive Exc
  /-- `ParameterMapOOBUpdateException`, c3/parametermap.py:319-324: parameter, refused value, stated limits -/
  | oobUpdate (key : String) (value : List ℝ) (lo hi : ℝ)
  /-- `TypeError` -/
  | typeError
  /-- `ValueError` of `np.reshape`, c3/c3objs.py:271, 273 -/
  | valueError
  /-- `KeyError` -/
  | keyError (key : String)
  /-- "Parameter ... not defined", c3/parametermap.py:243, 314 -/
  | notDefined (key : String)
  /-- "Different number of elements", c3/parametermap.py:303-306 -/
  | length
  /-- computation with a NaN, outside of the model -/
  | degenerate
  /-- `OptResultOOBError`, c3/optimizers/optimalcontrol.py:194 -/
  | optResult

/-- c3/utils/utils.py:96-105 `num3str` of an array, called at c3/c3objs.py:295: arrays with several entries are printed by
`np.array2string`, numbers and arrays of shape `()` by a format string. An array of one entry and another shape is
refused by the format string, unless the entry is zero: then line 78 replaces it by the number 0. -/
def Prints (shape : List ℕ) (v : List ℝ) : Prop := shape = [] ∨ shape.prod ≠ 1 ∨ v = [0]

open scoped Classical in
/-- c3/parametermap.py:315-326 and c3/c3objs.py:286-298: the exception for a refused write to the parameter `key` with
content `q`. The limits are `par.offset` and `par.offset + par.scale`. -/
def report (key : String) (shape : List ℕ) (q : Quantity) (v : List ℝ) : QErr → Exc
  | .oob => if Prints shape v then .oobUpdate key v q.offset (q.offset + q.scale) else .typeError
  | .shape => .valueError
  | .type => .typeError
  | .degenerate => .degenerate

/-- c3/parametermap.py:308-326. `except ValueError` (line 313) does not catch the `KeyError` of line 312. -/
def setOne (s : PMap) (shape : ℕ → List ℕ) (key : String) (v : List ℝ) (ext : Bool) : PMap × Option Exc :=
  match s.ref key with
  | none => (s, some (.keyError key))
  | some r =>
    let o : Quantity.Op := if ext then .setExtend v else .set v
    let s' := { s with heap := Function.update s.heap r (o.step (s.heap r)) }
    match o.call (s.heap r) with
    | .ok _ => (s', none)
    | .error e => (s', some (report key (shape r) (s'.heap r) v e))

/-- c3/parametermap.py:307-327: all assignments in turn. -/
def setAll (s : PMap) (shape : ℕ → List ℕ) (ext : Bool) : List (String × List ℝ) → PMap × Option Exc
  | [] => (s, none)
  | a :: l =>
    match setOne s shape a.1 a.2 ext with
    | (s', none) => setAll s' shape ext l
    | (s', some e) => (s', some e)

/-- c3/parametermap.py:285-331 `set_parameters`. -/
def setParameters (s : PMap) (shape : ℕ → List ℕ) (values : List (List ℝ)) (m : List (List String)) (ext : Bool) :
    PMap × Option Exc :=
  if values.length ≠ m.length then (s, some .length)
  else
    match setAll s shape ext (assignments m values) with
    | (s', some e) => (s', some e)
    | (s', none) =>
      if (m.any fun g => g.any fun k => s.modelIds.contains k) && s.hasModel then ({ s' with modelView := s'.heap }, none)
      else (s', none)

/-- c3/parametermap.py:239-244 `get_parameter`. -/
def getParameter (s : PMap) (names : List String) : Except Exc Quantity :=
  match s.ref ("-".intercalate names) with
  | none => .error (.notDefined ("-".intercalate names))
  | some r => .ok (s.heap r)

/-- c3/optimizers/optimalcontrol.py:189-196: what the end of an optimization makes of the exception of `load_best`. -/
def atEnd : Option Exc → Option Exc
  | some (.oobUpdate _ _ _ _) => some .optResult
  | e => e

/-- c3/parametermap.py:221-223: the message about different limits of the members of a group. The string is not an
f-string. -/
def limitsMessage (_key : String) (_group : List String) : String :=
  "C3:Error:Limits for {key} are not equivalent to {equiv_ids}."

/-! ## Specification -/

/-- `x` is outside of the limits of `q`. -/
def Outside (q : Quantity) (x : ℝ) : Prop := x < q.getLimits.1 ∨ q.getLimits.2 < x

/-! ## The states are those of `Verif.ParamMap.Model` -/

/-- The same exception, without its message. -/
def Same (e : Option Exc) (p : Option PErr) : Prop := e.isSome = p.isSome

theorem setOne_model (s : PMap) (shape : ℕ → List ℕ) (k : String) (v : List ℝ) (ext : Bool) :
    (setOne s shape k v ext).1 = (s.setOne k v ext).1 ∧ Same (setOne s shape k v ext).2 (s.setOne k v ext).2 := by
  unfold setOne PMap.setOne Same
  rcases s.ref k with _ | r
  · exact ⟨rfl, rfl⟩
  · dsimp only
    rcases Op.call (s.heap r) (if ext = true then Op.setExtend v else Op.set v) with e | q
    · exact ⟨rfl, rfl⟩
    · exact ⟨rfl, rfl⟩

theorem setAll_append (s : PMap) (shape : ℕ → List ℕ) (ext : Bool) (a b : List (String × List ℝ)) :
    setAll s shape ext (a ++ b) =
      match setAll s shape ext a with
      | (s', none) => setAll s' shape ext b
      | (s', some e) => (s', some e) := by
  induction a generalizing s with
  | nil => rfl
  | cons x a ih =>
    simp only [List.cons_append, setAll]
    rcases setOne s shape x.1 x.2 ext with ⟨s', _ | e⟩
    · exact ih s'
    · rfl

theorem setGroup_model (s : PMap) (shape : ℕ → List ℕ) (v : List ℝ) (ext : Bool) (ks : List String) :
    (setAll s shape ext (ks.map fun k => (k, v))).1 = (s.setGroup v ext ks).1 ∧
      Same (setAll s shape ext (ks.map fun k => (k, v))).2 (s.setGroup v ext ks).2 := by
  induction ks generalizing s with
  | nil => exact ⟨rfl, rfl⟩
  | cons k ks ih =>
    have h := setOne_model s shape k v ext
    simp only [List.map_cons, setAll, setGroup]
    rcases h1 : setOne s shape k v ext with ⟨s', _ | e⟩ <;> rcases h2 : s.setOne k v ext with ⟨s'', _ | e'⟩ <;>
      rw [h1, h2] at h <;> simp only [Same] at h
    · obtain ⟨rfl, -⟩ := h
      exact ih s'
    · simp at h
    · simp at h
    · exact ⟨h.1, rfl⟩

theorem setGroups_model (s : PMap) (shape : ℕ → List ℕ) (ext : Bool) (m : List (List String)) (values : List (List ℝ)) :
    (setAll s shape ext (assignments m values)).1 = (s.setGroups ext m values).1 ∧
      Same (setAll s shape ext (assignments m values)).2 (s.setGroups ext m values).2 := by
  induction m generalizing s values with
  | nil => exact ⟨rfl, rfl⟩
  | cons g m ih =>
    cases values with
    | nil => exact ⟨rfl, rfl⟩
    | cons v vs =>
      have h := setGroup_model s shape v ext g
      have e : assignments (g :: m) (v :: vs) = (g.map fun k => (k, v)) ++ assignments m vs := rfl
      rw [e, setAll_append]
      simp only [setGroups]
      rcases h1 : setAll s shape ext (g.map fun k => (k, v)) with ⟨s', _ | e⟩ <;>
        rcases h2 : s.setGroup v ext g with ⟨s'', _ | e'⟩ <;> rw [h1, h2] at h <;> simp only [Same] at h
      · obtain ⟨rfl, -⟩ := h
        exact ih s' vs
      · simp at h
      · simp at h
      · exact ⟨h.1, rfl⟩

/-- The states left behind, and whether an exception is raised, are those of the model of C09 to C12. -/
theorem C214_states (s : PMap) (shape : ℕ → List ℕ) (values : List (List ℝ)) (m : List (List String)) (ext : Bool) :
    (setParameters s shape values m ext).1 = (s.setParameters values m ext).1 ∧
      ((setParameters s shape values m ext).2 = none ↔ (s.setParameters values m ext).2 = none) := by
  unfold setParameters PMap.setParameters
  split
  · exact ⟨rfl, by simp⟩
  have h := setGroups_model s shape ext m values
  rcases h1 : setAll s shape ext (assignments m values) with ⟨s', _ | e⟩ <;>
    rcases h2 : s.setGroups ext m values with ⟨s'', _ | e'⟩ <;> rw [h1, h2] at h <;> simp only [Same] at h
  · obtain ⟨rfl, -⟩ := h
    dsimp only
    split <;> exact ⟨rfl, by simp⟩
  · simp at h
  · simp at h
  · exact ⟨h.1, by simp⟩

/-! ## Refused writes -/

/-- Writes without extension leave the limits alone. -/
def SameLimits (s s' : PMap) : Prop :=
  s'.ref = s.ref ∧ ∀ r, (s'.heap r).offset = (s.heap r).offset ∧ (s'.heap r).scale = (s.heap r).scale ∧
    (s'.heap r).pref = (s.heap r).pref ∧ (s'.heap r).length = (s.heap r).length

theorem set_keeps (q : Quantity) (v : List ℝ) : ((Quantity.Op.set v).step q).offset = q.offset ∧
    ((Quantity.Op.set v).step q).scale = q.scale ∧ ((Quantity.Op.set v).step q).pref = q.pref ∧
    ((Quantity.Op.set v).step q).length = q.length := by
  unfold Quantity.Op.step
  rcases h : (Quantity.Op.set v).call q with e | q'
  · exact ⟨rfl, rfl, rfl, rfl⟩
  · have h' : q.setValue v = .ok q' := h
    unfold setValue at h'
    by_cases hl : v.length ≠ q.length
    · rw [if_pos hl] at h'
      cases h'
    · rw [if_neg hl, if_neg (by simp)] at h'
      obtain ⟨-, -, rfl⟩ := setValueRaw_ok h'
      exact ⟨rfl, rfl, rfl, rfl⟩

theorem setOne_limits (s : PMap) (shape : ℕ → List ℕ) (k : String) (v : List ℝ) :
    SameLimits s (setOne s shape k v false).1 := by
  unfold setOne
  rcases s.ref k with _ | r
  · exact ⟨rfl, fun _ => ⟨rfl, rfl, rfl, rfl⟩⟩
  · have key : SameLimits s { s with heap := Function.update s.heap r ((Quantity.Op.set v).step (s.heap r)) } := by
      refine ⟨rfl, fun r' => ?_⟩
      by_cases h : r' = r
      · subst h
        simpa using set_keeps (s.heap r') v
      · simp [h]
    dsimp only
    split <;> exact key

theorem SameLimits.trans {a b c : PMap} (h : SameLimits a b) (h' : SameLimits b c) : SameLimits a c :=
  ⟨h'.1.trans h.1, fun r => ⟨(h'.2 r).1.trans (h.2 r).1, (h'.2 r).2.1.trans (h.2 r).2.1,
    (h'.2 r).2.2.1.trans (h.2 r).2.2.1, (h'.2 r).2.2.2.trans (h.2 r).2.2.2⟩⟩

/-- The first assignment that raises. -/
theorem setAll_fails (s s' : PMap) (shape : ℕ → List ℕ) (l : List (String × List ℝ)) (e : Exc)
    (h : setAll s shape false l = (s', some e)) :
    ∃ a ∈ l, ∃ t, SameLimits s t ∧ setOne t shape a.1 a.2 false = (s', some e) := by
  induction l generalizing s with
  | nil => simp [setAll] at h
  | cons a l ih =>
    simp only [setAll] at h
    rcases h1 : setOne s shape a.1 a.2 false with ⟨t, _ | e'⟩
    · rw [h1] at h
      obtain ⟨b, hb, t', ht', h2⟩ := ih t h
      have h3 := setOne_limits s shape a.1 a.2
      rw [h1] at h3
      exact ⟨b, by simp [hb], t', h3.trans ht', h2⟩
    · rw [h1] at h
      exact ⟨a, by simp, s, ⟨rfl, fun _ => ⟨rfl, rfl, rfl, rfl⟩⟩, by rw [h1]; exact h⟩

theorem getLimits_same {s t : PMap} (h : SameLimits s t) (r : ℕ) : (t.heap r).getLimits = (s.heap r).getLimits := by
  obtain ⟨h1, h2, h3, -⟩ := h.2 r
  simp [getLimits, h1, h2, h3]

theorem oob_outside (q : Quantity) (hs : 0 < q.scale) (hp : 0 < q.pref) (v : List ℝ) (h : q.setValue v = .error .oob) :
    ∃ x ∈ v, Outside q x := by
  unfold setValue at h
  split at h
  · cases h
  simp only [Bool.false_eq_true, if_false] at h
  unfold setValueRaw at h
  rw [if_neg hs.ne'] at h
  dsimp only at h
  split at h
  · rename_i hx
    obtain ⟨t, ht, hr, -⟩ := hx
    obtain ⟨x, hxv, rfl⟩ := List.mem_map.1 ht
    refine ⟨x, hxv, ?_⟩
    by_contra hc
    simp only [Outside, getLimits, not_or, not_lt] at hc
    obtain ⟨c1, c2⟩ := hc
    rw [div_le_iff₀ hp] at c1
    rw [le_div_iff₀ hp] at c2
    have : |2 * (x * q.pref - q.offset) / q.scale - 1| ≤ 1 := by
      rw [abs_le]
      constructor
      · have : 0 ≤ 2 * (x * q.pref - q.offset) / q.scale := div_nonneg (by linarith) hs.le
        linarith
      · have : 2 * (x * q.pref - q.offset) / q.scale ≤ 2 := by
          rw [div_le_iff₀ hs]
          linarith
        linarith
    linarith
  · cases h

/-- **C214**, the report: if the update is refused with `ParameterMapOOBUpdateException`, the exception names a parameter
and a value that was to be assigned to it, and an entry of the value is outside of the limits of the parameter. The
stated limits are the limits times the factor of the unit, hence the limits if the unit has none. Missing: units with
`pi`, arrays of one entry and unknown parameters, see the negations. -/
theorem C214_reported_partial (s s' : PMap) (hg : Good s) (shape : ℕ → List ℕ) (values : List (List ℝ))
    (m : List (List String)) (k : String) (v : List ℝ) (lo hi : ℝ)
    (h : setParameters s shape values m false = (s', some (.oobUpdate k v lo hi))) :
    (k, v) ∈ assignments m values ∧ ∃ r, s.ref k = some r ∧ (∃ x ∈ v, Outside (s.heap r) x) ∧
      lo = (s.heap r).pref * (s.heap r).getLimits.1 ∧ hi = (s.heap r).pref * (s.heap r).getLimits.2 ∧
      ((s.heap r).pref = 1 → (lo, hi) = (s.heap r).getLimits) := by
  unfold setParameters at h
  split at h
  · simp at h
  rcases h1 : setAll s shape false (assignments m values) with ⟨t, _ | e⟩
  · rw [h1] at h
    dsimp only at h
    split at h <;> simp at h
  · rw [h1] at h
    simp only [Prod.mk.injEq, Option.some.injEq] at h
    obtain ⟨rfl, rfl⟩ := h
    obtain ⟨⟨k', v'⟩, ha, u, hu, hf⟩ := setAll_fails s t shape _ _ h1
    unfold setOne at hf
    rcases hr : u.ref k' with _ | r
    · rw [hr] at hf
      simp at hf
    · rw [hr] at hf
      dsimp only at hf
      simp only [Bool.false_eq_true, if_false] at hf
      rcases hc : (Quantity.Op.set v').call (u.heap r) with e | q'
      · rw [hc] at hf
        simp only [Prod.mk.injEq, Option.some.injEq] at hf
        obtain ⟨-, hf⟩ := hf
        have hg' := hg k' r (hu.1 ▸ hr)
        cases e with
        | oob =>
          unfold report at hf
          dsimp only at hf
          split at hf
          · simp only [Exc.oobUpdate.injEq] at hf
            obtain ⟨rfl, rfl, h2, h3⟩ := hf
            rw [Function.update_self] at h2 h3
            have hk := set_keeps (u.heap r) v'
            obtain ⟨l1, l2, l3, l4⟩ := hu.2 r
            rw [hk.1, l1] at h2
            rw [hk.1, hk.2.1, l1, l2] at h3
            have hp := hg'.pref_pos
            obtain ⟨x, hx, ho⟩ := oob_outside (u.heap r) (l2 ▸ hg'.scale_pos) (l3 ▸ hp) v' hc
            have e1 : lo = (s.heap r).pref * (s.heap r).getLimits.1 := by
              simp only [getLimits]
              rw [mul_div_cancel₀ _ hp.ne']
              exact h2.symm
            have e2 : hi = (s.heap r).pref * (s.heap r).getLimits.2 := by
              simp only [getLimits]
              rw [mul_div_cancel₀ _ hp.ne', add_comm]
              exact h3.symm
            refine ⟨ha, r, hu.1 ▸ hr, ⟨x, hx, ?_⟩, e1, e2, fun h1 => ?_⟩
            · unfold Outside at ho ⊢
              rwa [getLimits_same hu r] at ho
            · rw [e1, e2, h1, one_mul, one_mul]
          · cases hf
        | shape => cases hf
        | type => cases hf
        | degenerate => cases hf
      · rw [hc] at hf
        simp at hf

/-- **C214**: a refused update of known parameters with values of the right sizes, whose shapes can be printed, is always
reported in that way, and at the end of an optimization as `OptResultOOBError`. -/
theorem C214_always_partial (s s' : PMap) (hg : Good s) (shape : ℕ → List ℕ) (values : List (List ℝ))
    (m : List (List String)) (e : Exc) (hl : values.length = m.length)
    (hk : ∀ a ∈ assignments m values, ∃ r, s.ref a.1 = some r ∧ a.2.length = (s.heap r).length ∧ Prints (shape r) a.2)
    (h : setParameters s shape values m false = (s', some e)) :
    (∃ k v lo hi, e = .oobUpdate k v lo hi) ∧ atEnd (some e) = some .optResult := by
  have key : ∃ k v lo hi, e = .oobUpdate k v lo hi := by
    unfold setParameters at h
    rw [if_neg (by simpa using hl)] at h
    rcases h1 : setAll s shape false (assignments m values) with ⟨t, _ | e'⟩
    · rw [h1] at h
      dsimp only at h
      split at h <;> simp at h
    · rw [h1] at h
      simp only [Prod.mk.injEq, Option.some.injEq] at h
      obtain ⟨rfl, rfl⟩ := h
      obtain ⟨⟨k', v'⟩, ha, u, hu, hf⟩ := setAll_fails s t shape _ _ h1
      obtain ⟨r, hr, hlen, hpr⟩ := hk _ ha
      unfold setOne at hf
      rw [hu.1, hr] at hf
      dsimp only at hf
      simp only [Bool.false_eq_true, if_false] at hf
      have hg' := hg k' r hr
      obtain ⟨l1, l2, l3, l4⟩ := hu.2 r
      rcases hc : (Quantity.Op.set v').call (u.heap r) with e2 | q'
      · rw [hc] at hf
        simp only [Prod.mk.injEq, Option.some.injEq] at hf
        obtain ⟨-, hf⟩ := hf
        have ho : e2 = .oob := by
          replace hc : (u.heap r).setValue v' = .error e2 := hc
          unfold setValue at hc
          rw [if_neg (by rw [l4]; simpa using hlen), if_neg (by simp)] at hc
          unfold setValueRaw at hc
          rw [if_neg (by rw [l2]; exact hg'.scale_pos.ne')] at hc
          dsimp only at hc
          split at hc
          · cases hc; rfl
          · cases hc
        subst ho
        unfold report at hf
        dsimp only at hf
        rw [if_pos hpr] at hf
        exact ⟨_, _, _, _, hf.symm⟩
      · rw [hc] at hf
        simp at hf
  obtain ⟨k, v, lo, hi, rfl⟩ := key
  exact ⟨⟨k, v, lo, hi, rfl⟩, rfl⟩

/-- **C214**: `get_parameter` names an unknown parameter. -/
theorem C214_unknown (s : PMap) (names : List String) (h : s.ref ("-".intercalate names) = none) :
    getParameter s names = .error (.notDefined ("-".intercalate names)) := by
  simp [getParameter, h]

/-- One parameter with the given content. -/
def one (q : Quantity) : PMap where
  ref := fun k => if k = "Q1-freq" then some 0 else none
  heap := fun _ => q
  modelIds := []
  optMap := []
  hasModel := false
  modelView := fun _ => q
  updateModel := false

/-- A frequency between 1 and 5 with unit `Hz 2pi`. -/
def freq : Quantity := ⟨[0], 1 * unitPref "Hz 2pi", |5 - 1| * unitPref "Hz 2pi", unitPref "Hz 2pi", "Hz 2pi", 1⟩

/-- A number between 1 and 5. -/
def plain : Quantity := ⟨[0], 1, 4, 1, "", 1⟩

theorem refuse_seven : refused 2 := by
  unfold refused closeTol
  norm_num

theorem freq_refuses : (Quantity.Op.set [7]).call freq = .error .oob := by
  have hp : unitPref "Hz 2pi" = 2 * Real.pi := by
    unfold unitPref
    rw [if_pos (by decide)]
  have h0 := Real.pi_pos
  unfold Quantity.Op.call setValue setValueRaw freq
  rw [hp]
  simp only [List.length_singleton, ne_eq, not_true_eq_false, if_false, Bool.false_eq_true]
  rw [if_neg (by norm_num)]
  rw [if_pos]
  refine ⟨_, List.mem_map.2 ⟨7, by simp, rfl⟩, ?_⟩
  have : 2 * (7 * (2 * Real.pi) - 1 * (2 * Real.pi)) / (|(5 : ℝ) - 1| * (2 * Real.pi)) - 1 = 2 := by
    rw [abs_of_pos (by norm_num : (0 : ℝ) < 5 - 1)]
    field_simp
    norm_num
  rw [this]
  exact refuse_seven

theorem plain_refuses : (Quantity.Op.set [7]).call plain = .error .oob := by
  unfold Quantity.Op.call setValue setValueRaw plain
  simp only [List.length_singleton, ne_eq, not_true_eq_false, if_false, Bool.false_eq_true]
  rw [if_neg (by norm_num), if_pos]
  refine ⟨_, List.mem_map.2 ⟨7, by simp, rfl⟩, ?_⟩
  norm_num
  exact refuse_seven

theorem one_refuses (q : Quantity) (shape : ℕ → List ℕ) (h : (Quantity.Op.set [7]).call q = .error .oob) :
    (setParameters (one q) shape [[7]] [["Q1-freq"]] false).2 = some (report "Q1-freq" (shape 0) q [7] .oob) := by
  have hst : (Quantity.Op.set [7]).step q = q := by
    unfold Quantity.Op.step
    rw [h]
  simp [setParameters, assignments, setAll, setOne, one, h, hst]

/-- **C214 is false** for units with `pi`: the message states the limits in other units than the value. Here 7 is refused
because it `has to be within` a range that contains 7. -/
theorem C214_false_units : ∃ lo hi, (setParameters (one freq) (fun _ => []) [[7]] [["Q1-freq"]] false).2 =
    some (.oobUpdate "Q1-freq" [7] lo hi) ∧ lo < 7 ∧ 7 < hi ∧ freq.getLimits = (1, 5) := by
  have hp : unitPref "Hz 2pi" = 2 * Real.pi := by
    unfold unitPref
    rw [if_pos (by decide)]
  have h3 := Real.pi_gt_three
  have h4 := Real.pi_lt_d2
  refine ⟨freq.offset, freq.offset + freq.scale, ?_, ?_, ?_, ?_⟩
  · rw [one_refuses _ _ freq_refuses]
    simp [report, Prints]
  · simp only [freq, hp]
    linarith
  · simp only [freq, hp]
    norm_num
    linarith
  · simp only [freq, getLimits, hp]
    norm_num
    field_simp
    norm_num

/-- **C214 is false** for arrays with one entry: the message cannot be formatted, so that a `TypeError` without any of the
information reaches the caller, also at the end of an optimization. -/
theorem C214_false_single :
    (setParameters (one plain) (fun _ => [1]) [[7]] [["Q1-freq"]] false).2 = some .typeError ∧
    (setParameters (one plain) (fun _ => []) [[7]] [["Q1-freq"]] false).2 = some (.oobUpdate "Q1-freq" [7] 1 5) ∧
    atEnd (some .typeError) = some .typeError := by
  refine ⟨?_, ?_, rfl⟩
  · rw [one_refuses _ _ plain_refuses]
    simp [report, Prints]
  · rw [one_refuses _ _ plain_refuses]
    simp only [report, Prints, true_or, if_true, plain]
    norm_num

/-- **C214 is false** for unknown parameters: `set_parameters` lets the `KeyError` pass. -/
theorem C214_false_unknown (q : Quantity) :
    (setParameters (one q) (fun _ => []) [[7]] [["Q2-freq"]] false).2 = some (.keyError "Q2-freq") := by
  simp [setParameters, assignments, setAll, setOne, one]

/-- **C214 is false** for groups with different limits: the message is always the same. -/
theorem C214_false_limits (k k' : String) (g g' : List String) : limitsMessage k g = limitsMessage k' g' ∧
    (limitsMessage k g).toList = "C3:Error:Limits for {key} are not equivalent to {equiv_ids}.".toList := ⟨rfl, rfl⟩

/-- The hypotheses are satisfiable. -/
example : ∃ s', setParameters (one plain) (fun _ => []) [[7]] [["Q1-freq"]] false =
    (s', some (.oobUpdate "Q1-freq" [7] 1 5)) := ⟨_, Prod.ext rfl C214_false_single.2.1⟩

example : Good (one plain) := by
  intro k r _
  exact ⟨by simp [one, plain], by simp [one, plain], by simp [one, plain]⟩

end C3.ParamMap.Refuse
