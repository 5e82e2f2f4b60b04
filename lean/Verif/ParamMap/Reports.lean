import Verif.ParamMap.Model
import Verif.Config.Dict
import Mathlib.Tactic.NormNum

/-!
# What the parameter map reports about the optimised parameters (C173)

Model of `get_opt_map` with its effect on the list it is given (c3/parametermap.py:445-456), of the way
`set_opt_map` keeps that list (c3/parametermap.py:419-436), `get_opt_units`, `get_opt_limits`
(c3/parametermap.py:187-203), `get_parameter_dict` (c3/parametermap.py:267-283) and `str_parameters`
(c3/parametermap.py:458-492). The text of a quantity is left open.
-/

noncomputable section

namespace C3
namespace Reports

open C3.Config

/-! ## Model -/

/-- A group as written by the user: a list, which can be changed, or a tuple, which cannot. -/
structure Group where
  mutable : Bool
  ids : List Ident

/-- The opt_map lists that exist, each an object on its own, and the one held by the parameter map. -/
structure Maps where
  objs : ℕ → List Group
  cur : ℕ

/-- c3/parametermap.py:450-454: the entries of one group afterwards, and whether the assignment to an entry
of a tuple raised `TypeError`. -/
def normIds (chg : Bool) : List Ident → List Ident × Bool
  | [] => ([], false)
  | .str s :: l => (.str s :: (normIds chg l).1, (normIds chg l).2)
  | .tup ns :: l =>
    if chg then (.str ("-".intercalate ns) :: (normIds chg l).1, (normIds chg l).2) else (.tup ns :: l, true)

/-- c3/parametermap.py:449-454. -/
def normGroups : List Group → List Group × Bool
  | [] => ([], false)
  | g :: gs =>
    if (normIds g.mutable g.ids).2 then (⟨g.mutable, (normIds g.mutable g.ids).1⟩ :: gs, true)
    else (⟨g.mutable, (normIds g.mutable g.ids).1⟩ :: (normGroups gs).1, (normGroups gs).2)

/-- c3/parametermap.py:445-456 `get_opt_map`: the objects afterwards, the object handed back, and whether it
raised. -/
def getOptMap (M : Maps) (arg : Option ℕ) : Maps × ℕ × Bool :=
  let o := arg.getD M.cur
  ({ M with objs := Function.update M.objs o (normGroups (M.objs o)).1 }, o, (normGroups (M.objs o)).2)

/-- The keys of an opt_map object. -/
def keys (l : List Group) : List (List String) := l.map fun g => g.ids.map Ident.key

/-- c3/parametermap.py:419-436 `set_opt_map`: on success the parameter map keeps the caller's object. The
flag is set if it raised. -/
def setOptMapObj (s : PMap) (M : Maps) (o : ℕ) : PMap × Maps × Bool :=
  match getOptMap M (some o) with
  | (M', _, true) => (s, M', true)
  | (M', _, false) =>
    match ({ s with optMap := keys (M'.objs M'.cur) } : PMap).setOptMap (keys (M'.objs o)) with
    | (s', some _) => (s', M', true)
    | (s', none) => (s', { M' with cur := o }, false)

/-- c3/parametermap.py:187-196 `get_opt_units`. -/
def optUnits (s : PMap) : List (List String) → Except PErr (List String)
  | [] => .ok []
  | [] :: _ => .error .index
  | (k :: _) :: gs =>
    match s.ref k with
    | none => .error (.key k)
    | some r =>
      match optUnits s gs with
      | .error e => .error e
      | .ok us => .ok ((s.heap r).unit :: us)

/-- c3/parametermap.py:197-202 `get_opt_limits`. -/
def optLimits (s : PMap) : List (List String) → Except PErr (List (ℝ × ℝ))
  | [] => .ok []
  | [] :: _ => .error .index
  | (k :: _) :: gs =>
    match s.ref k with
    | none => .error (.key k)
    | some r =>
      match optLimits s gs with
      | .error e => .error e
      | .ok us => .ok ((s.heap r).getLimits :: us)

/-- c3/parametermap.py:267-283 `get_parameter_dict`; the quantities are given by their objects. -/
def parameterDict (s : PMap) (d : List (String × ℕ)) : List (List String) → Except PErr (List (String × ℕ))
  | [] => .ok d
  | [] :: _ => .error .index
  | (k :: _) :: gs =>
    match s.ref k with
    | none => .error (.key k)
    | some r => parameterDict s (dset d k r) gs

/-- `f"{key:38}"`. -/
def pad (k : List Char) : List Char := k ++ List.replicate (38 - k.length) ' '

/-- c3/parametermap.py:458-492 `str_parameters`, as characters. `txt` is the text of a quantity, `num` that of
a number. -/
def strParameters (s : PMap) (human : Bool) (txt : Quantity → List Char) (num : ℕ → List Char) :
    List (List String) → Except PErr (List Char)
  | [] => .ok []
  | [] :: _ => .error .index
  | (k :: ks) :: gs =>
    match s.ref k with
    | none => .error (.key k)
    | some r =>
      match strParameters s human txt num gs with
      | .error e => .error e
      | .ok rest =>
        .ok (pad k.toList ++ ": ".toList ++
          (if human && decide ((s.heap r).length > 4) then
            '<' :: num (s.heap r).length ++ " values>".toList ++ ['\n']
          else txt (s.heap r) ++ ['\n']) ++
          (if ks.length > 0 then ks.flatMap (fun e => e.toList ++ ['\n']) ++ ['\n'] else []) ++ rest)

/-! ## Specification -/

/-- The name under which a group is reported: that of its first member. -/
def heads (m : List (List String)) : List String := m.map fun g => g.headD ""

/-- All groups are proper and all names known. -/
def Proper (s : PMap) (m : List (List String)) : Prop := ∀ g ∈ m, ∃ k ks r, g = k :: ks ∧ s.ref k = some r

/-- The quantities the names stand for. -/
def Objects (s : PMap) (m : List (List String)) (rs : List ℕ) : Prop :=
  List.Forall₂ (fun g r => ∃ k ks, g = k :: ks ∧ s.ref k = some r) m rs

/-! ## C173: the opt_map -/

theorem normIds_keys (chg : Bool) (l : List Ident) : (normIds chg l).1.map Ident.key = l.map Ident.key := by
  induction l with
  | nil => rfl
  | cons a l ih =>
    cases a with
    | str s => simp [normIds, ih]
    | tup ns =>
      cases chg with
      | false => simp [normIds]
      | true => simp [normIds, ih, Ident.key]

/-- Writing out the identifiers never changes which parameters are meant. -/
theorem C173_keys (M : Maps) (arg : Option ℕ) (o : ℕ) :
    keys ((getOptMap M arg).1.objs o) = keys (M.objs o) := by
  have h : ∀ l : List Group, keys (normGroups l).1 = keys l := by
    intro l
    induction l with
    | nil => rfl
    | cons g gs ih =>
      unfold normGroups
      split
      · simp [keys, normIds_keys]
      · simp only [keys, List.map_cons, normIds_keys]
        exact congrArg _ ih
  simp only [getOptMap]
  by_cases e : o = arg.getD M.cur
  · subst e; simp [h]
  · rw [Function.update_of_ne e]

theorem normIds_error (chg : Bool) (l : List Ident) :
    (normIds chg l).2 = true ↔ chg = false ∧ ∃ ns, Ident.tup ns ∈ l := by
  induction l with
  | nil => simp [normIds]
  | cons a l ih =>
    cases a with
    | str s => simp [normIds, ih]
    | tup ns =>
      cases chg with
      | false => simp only [normIds, Bool.false_eq_true, if_false, true_and, true_iff]; exact ⟨ns, by simp⟩
      | true => simp only [normIds, if_true, ih]; simp

theorem normGroups_error (l : List Group) :
    (normGroups l).2 = true ↔ ∃ g ∈ l, g.mutable = false ∧ ∃ ns, Ident.tup ns ∈ g.ids := by
  induction l with
  | nil => simp [normGroups]
  | cons g gs ih =>
    unfold normGroups
    split
    · rename_i h
      simp only [true_iff]
      exact ⟨g, by simp, (normIds_error _ _).1 h⟩
    · rename_i h
      rw [ih]
      constructor
      · rintro ⟨g', h1, h2⟩; exact ⟨g', by simp [h1], h2⟩
      · rintro ⟨g', h1, h2⟩
        rcases List.mem_cons.1 h1 with rfl | h1
        · exact absurd ((normIds_error _ _).2 h2) h
        · exact ⟨g', h1, h2⟩

/-- `get_opt_map` raises exactly if a group given as a tuple contains an identifier given as a tuple. -/
theorem C173_refused (M : Maps) (arg : Option ℕ) :
    (getOptMap M arg).2.2 = true ↔
      ∃ g ∈ M.objs (arg.getD M.cur), g.mutable = false ∧ ∃ ns, Ident.tup ns ∈ g.ids :=
  normGroups_error _

theorem normIds_str (chg : Bool) (l : List Ident) (h : (normIds chg l).2 = false) :
    (normIds chg l).1 = l.map fun i => .str i.key := by
  induction l with
  | nil => rfl
  | cons a l ih =>
    cases a with
    | str s =>
      simp only [normIds] at h ⊢
      simp [ih h, Ident.key]
    | tup ns =>
      cases chg with
      | false => simp [normIds] at h
      | true =>
        simp only [normIds, if_true] at h ⊢
        simp [ih h, Ident.key]

theorem normGroups_str (l : List Group) (h : (normGroups l).2 = false) :
    (normGroups l).1 = l.map fun g => ⟨g.mutable, g.ids.map fun i => .str i.key⟩ := by
  induction l with
  | nil => rfl
  | cons g gs ih =>
    unfold normGroups at h ⊢
    by_cases hg : (normIds g.mutable g.ids).2 = true
    · simp [hg] at h
    · rw [if_neg hg] at h ⊢
      simp only [List.map_cons]
      rw [ih h, normIds_str _ _ (by simpa using hg)]

/-- If it returns, it hands back the very list it was given, with every identifier written as one string;
no other list is touched, and a second call changes nothing. -/
theorem C173_in_place (M M' : Maps) (arg : Option ℕ) (o : ℕ) (h : getOptMap M arg = (M', o, false)) :
    o = arg.getD M.cur ∧
      M'.objs o = (M.objs o).map (fun g => ⟨g.mutable, g.ids.map fun i => .str i.key⟩) ∧
      (∀ p, p ≠ o → M'.objs p = M.objs p) ∧ M'.cur = M.cur ∧ getOptMap M' (some o) = (M', o, false) := by
  simp only [getOptMap, Prod.mk.injEq] at h
  obtain ⟨rfl, rfl, h3⟩ := h
  have e := normGroups_str _ h3
  have hid : ∀ l : List Ident, (∀ i ∈ l, ∃ s, i = .str s) → ∀ m, normIds m l = (l, false) := by
    intro l
    induction l with
    | nil => intro _ m; rfl
    | cons a l ih =>
      intro hl m
      obtain ⟨s, rfl⟩ := hl a (by simp)
      simp [normIds, ih (fun i hi => hl i (by simp [hi])) m]
  have hgs : ∀ l : List Group, (∀ g ∈ l, ∀ i ∈ g.ids, ∃ s, i = .str s) → normGroups l = (l, false) := by
    intro l
    induction l with
    | nil => intro _; rfl
    | cons g gs ih =>
      intro hl
      rw [normGroups, hid g.ids (hl g (by simp)) g.mutable, ih fun g' hg' => hl g' (by simp [hg'])]
      simp
  refine ⟨rfl, by simp [e], fun p hp => by simp [Function.update_of_ne hp], rfl, ?_⟩
  have h4 : normGroups (normGroups (M.objs (arg.getD M.cur))).1 =
      ((normGroups (M.objs (arg.getD M.cur))).1, false) := by
    apply hgs
    rw [e]
    intro g hg i hi
    obtain ⟨g', _, rfl⟩ := List.mem_map.1 hg
    obtain ⟨i', _, rfl⟩ := List.mem_map.1 hi
    exact ⟨_, rfl⟩
  simp [getOptMap, h4]

/-- A parameter map with one parameter "a" that is not optimised yet, and an opt_map naming it. -/
def exQ : Quantity := ⟨[0], 0, 2, 1, "V", 1⟩

def exS : PMap where
  ref := fun k => if k = "a" then some 0 else none
  heap := fun _ => exQ
  modelIds := []
  optMap := []
  hasModel := false
  modelView := fun _ => exQ
  updateModel := false

def exM : Maps := ⟨fun o => if o = 0 then [⟨true, [.tup ["a"]]⟩] else [], 1⟩

theorem exS_set : ∃ s', setOptMapObj exS exM 0 = (s', ⟨fun o => if o = 0 then [⟨true, [.str "a"]⟩] else [], 0⟩, false) ∧
    s'.ref = exS.ref ∧ s'.heap = exS.heap := by
  have hM : getOptMap exM (some 0) = (⟨fun o => if o = 0 then [⟨true, [.str "a"]⟩] else [], 1⟩, 0, false) := by
    have e1 : ("-".intercalate ["a"]) = "a" := by decide +kernel
    simp only [getOptMap, exM, Option.getD_some, if_true, normGroups, normIds, e1]
    refine Prod.ext ?_ rfl
    simp only [Maps.mk.injEq, and_true]
    funext o
    by_cases h : o = 0
    · subst h; simp
    · simp [h]
  unfold setOptMapObj
  rw [hM]
  refine ⟨_, rfl, rfl, rfl⟩

/-- The list is kept, not copied: a caller who goes on using it changes what is optimised, without any of
the checks of `set_opt_map`. Here an unknown parameter ends up in the map and every later reading fails. -/
theorem C173_false_alias : ∃ (s s' : PMap) (M M' : Maps) (o : ℕ) (edit : List Group),
    setOptMapObj s M o = (s', M', false) ∧ (s'.getParameters (keys (M'.objs M'.cur))).isOk = true ∧
      let M'' : Maps := { M' with objs := Function.update M'.objs o edit }
      s'.getParameters (keys (M''.objs M''.cur)) = .error (.key "b") := by
  obtain ⟨s', h, hr, hh⟩ := exS_set
  refine ⟨exS, s', exM, _, 0, [⟨true, [.str "b"]⟩], h, ?_, ?_⟩
  · have h0 : s'.ref "a" = some 0 := by rw [hr]; rfl
    simp [keys, Ident.key, PMap.getParameters, h0]
    rfl
  · have h0 : s'.ref "b" = none := by rw [hr]; rfl
    simp [keys, Ident.key, PMap.getParameters, h0]

/-! ## C173: units, limits and dictionary -/

theorem getParameters_objects (s : PMap) (m : List (List String)) (qs : List Quantity) :
    s.getParameters m = .ok qs ↔ ∃ rs, Objects s m rs ∧ qs = rs.map s.heap := by
  induction m generalizing qs with
  | nil =>
    simp only [PMap.getParameters, Except.ok.injEq, Objects, List.forall₂_nil_left_iff]
    constructor
    · rintro rfl; exact ⟨[], rfl, rfl⟩
    · rintro ⟨rs, rfl, rfl⟩; rfl
  | cons g gs ih =>
    cases g with
    | nil =>
      simp only [PMap.getParameters, Objects]
      constructor
      · simp
      · rintro ⟨rs, h, _⟩
        cases h with
        | cons h1 _ => obtain ⟨k, ks, h, _⟩ := h1; simp at h
    | cons k ks =>
      simp only [PMap.getParameters]
      cases hk : s.ref k with
      | none =>
        simp only [Objects]
        constructor
        · simp
        · rintro ⟨rs, h, _⟩
          cases h with
          | cons h1 _ =>
            obtain ⟨k', ks', h, hr⟩ := h1
            simp only [List.cons.injEq] at h
            rw [← h.1, hk] at hr; simp at hr
      | some r =>
        simp only
        constructor
        · intro h
          split at h
          · simp at h
          · rename_i qs' hq
            obtain ⟨rs, h1, rfl⟩ := (ih qs').1 hq
            simp only [Except.ok.injEq] at h
            exact ⟨r :: rs, .cons ⟨k, ks, rfl, hk⟩ h1, by simp [← h]⟩
        · rintro ⟨rs, h, rfl⟩
          cases h with
          | cons h1 h2 =>
            obtain ⟨k', ks', h, hr⟩ := h1
            simp only [List.cons.injEq] at h
            rw [← h.1, hk] at hr
            simp only [Option.some.injEq] at hr
            subst hr
            rw [(ih _).2 ⟨_, h2, rfl⟩]
            simp

/-- The reported units are those of the reported parameters, one for each and in the same order, and the
report fails exactly when `get_parameters` does. -/
theorem C173_units (s : PMap) (m : List (List String)) :
    optUnits s m = (s.getParameters m).map (·.map Quantity.unit) := by
  induction m with
  | nil => rfl
  | cons g gs ih =>
    cases g with
    | nil => rfl
    | cons k ks =>
      simp only [optUnits, PMap.getParameters]
      cases s.ref k with
      | none => rfl
      | some r =>
        simp only [ih]
        cases s.getParameters gs <;> rfl

/-- The same for the limits. -/
theorem C173_limits (s : PMap) (m : List (List String)) :
    optLimits s m = (s.getParameters m).map (·.map Quantity.getLimits) := by
  induction m with
  | nil => rfl
  | cons g gs ih =>
    cases g with
    | nil => rfl
    | cons k ks =>
      simp only [optLimits, PMap.getParameters]
      cases s.ref k with
      | none => rfl
      | some r =>
        simp only [ih]
        cases s.getParameters gs <;> rfl

/-- All three succeed exactly for proper groups of known names. -/
theorem C173_succeeds (s : PMap) (m : List (List String)) :
    (∃ us, optUnits s m = .ok us) ↔ Proper s m := by
  rw [C173_units]
  have h1 : (∃ us, Except.map (fun x => List.map Quantity.unit x) (s.getParameters m) = .ok us) ↔
      ∃ qs, s.getParameters m = .ok qs := by
    cases s.getParameters m with
    | error e => simp [Except.map]
    | ok q => simp [Except.map]
  rw [h1]
  constructor
  · rintro ⟨qs, h⟩
    obtain ⟨rs, ho, hq⟩ := (getParameters_objects s m qs).1 h
    clear h1 h hq
    intro g hg
    induction ho with
    | nil => simp at hg
    | cons h1 _ ih =>
      rcases List.mem_cons.1 hg with rfl | hg
      · obtain ⟨k, ks, h, hr⟩ := h1; exact ⟨k, ks, _, h, hr⟩
      · exact ih hg
  · intro h
    have : ∃ rs, Objects s m rs := by
      induction m with
      | nil => exact ⟨[], .nil⟩
      | cons g gs ih =>
        have h2 : (∃ us, Except.map (fun x => List.map Quantity.unit x) (s.getParameters gs) = .ok us) ↔
            ∃ qs, s.getParameters gs = .ok qs := by
          cases s.getParameters gs with
          | error e => simp [Except.map]
          | ok q => simp [Except.map]
        obtain ⟨rs, hrs⟩ := ih h2 fun g hg => h g (by simp [hg])
        obtain ⟨k, ks, r, h1, h3⟩ := h g (by simp)
        exact ⟨r :: rs, .cons ⟨k, ks, h1, h3⟩ hrs⟩
    obtain ⟨rs, hrs⟩ := this
    exact ⟨_, (getParameters_objects s m _).2 ⟨rs, hrs, rfl⟩⟩

theorem parameterDict_eq (s : PMap) (m : List (List String)) (rs : List ℕ) (h : Objects s m rs)
    (d : List (String × ℕ)) : parameterDict s d m = .ok (dupdate d ((heads m).zip rs)) := by
  induction h generalizing d with
  | nil => rfl
  | cons h1 _ ih =>
    obtain ⟨k, ks, rfl, hr⟩ := h1
    simp only [parameterDict, hr]
    rw [ih]
    simp [heads, dupdate]

/-- The dictionary of the optimised parameters: under the name of every group it holds the quantity that
`get_parameters` lists for it. -/
theorem C173_dict (s : PMap) (m : List (List String)) (qs : List Quantity) (h : s.getParameters m = .ok qs) :
    ∃ d, parameterDict s [] m = .ok d ∧ (∀ k, k ∈ d.map Prod.fst ↔ k ∈ heads m) ∧ (d.map Prod.fst).Nodup ∧
      ∀ (i : ℕ) k, (heads m)[i]? = some k → ∃ r, dget d k = some r ∧ s.ref k = some r ∧ qs[i]? = some (s.heap r) := by
  obtain ⟨rs, ho, rfl⟩ := (getParameters_objects s m qs).1 h
  refine ⟨_, parameterDict_eq s m rs ho [], ?_⟩
  -- every pair inserted agrees with the table of names
  have hall : ∀ d : List (String × ℕ), Distinct d → (∀ p ∈ d, s.ref p.1 = some p.2) →
      Distinct (dupdate d ((heads m).zip rs)) ∧
      (∀ k, k ∈ (dupdate d ((heads m).zip rs)).map Prod.fst ↔ k ∈ d.map Prod.fst ∨ k ∈ heads m) ∧
      ∀ k, dget (dupdate d ((heads m).zip rs)) k =
        if k ∈ d.map Prod.fst ∨ k ∈ heads m then s.ref k else none := by
    clear h
    induction ho with
    | nil =>
      intro d hd hp
      refine ⟨by simpa [heads, dupdate] using hd, by simp [heads, dupdate], fun k => ?_⟩
      simp only [heads, List.map_nil, List.zip_nil_left, dupdate, List.foldl_nil, List.not_mem_nil, or_false]
      split
      · rename_i hk
        obtain ⟨p, hp1, rfl⟩ := List.mem_map.1 hk
        rw [(dget_mem hd).2 (show (p.1, p.2) ∈ d from hp1), hp p hp1]
      · rename_i hk; exact dget_eq_none.2 hk
    | @cons g r gs rs h1 _ ih =>
      intro d hd hp
      obtain ⟨k, ks, rfl, hr⟩ := h1
      have hd' := dset_distinct hd k r
      have hk' : (dset d k r).map Prod.fst = if k ∈ d.map Prod.fst then d.map Prod.fst else d.map Prod.fst ++ [k] :=
        dset_keys d k r
      have hmem : ∀ x, x ∈ (dset d k r).map Prod.fst ↔ x ∈ d.map Prod.fst ∨ x = k := by
        intro x
        rw [hk']
        split
        · rename_i hin
          constructor
          · exact Or.inl
          · rintro (h | rfl)
            · exact h
            · exact hin
        · simp
      have hp' : ∀ p ∈ dset d k r, s.ref p.1 = some p.2 := by
        intro p hpm
        have := (dget_mem hd' (k := p.1) (v := p.2)).2 hpm
        rw [dget_dset] at this
        split at this
        · rename_i e; rw [← e, hr]; exact this
        · exact hp p ((dget_mem hd).1 this)
      obtain ⟨a, b, c⟩ := ih (dset d k r) hd' hp'
      have hz : dupdate d ((heads ((k :: ks) :: gs)).zip (r :: rs)) = dupdate (dset d k r) ((heads gs).zip rs) := by
        simp [heads, dupdate]
      have hh : heads ((k :: ks) :: gs) = k :: heads gs := rfl
      rw [hz, hh]
      refine ⟨a, fun x => ?_, fun x => ?_⟩
      · rw [b, hmem, List.mem_cons, or_assoc]
      · rw [c]
        have : (x ∈ (dset d k r).map Prod.fst ∨ x ∈ heads gs) ↔ (x ∈ d.map Prod.fst ∨ x ∈ k :: heads gs) := by
          rw [hmem, List.mem_cons, or_assoc]
        by_cases hx : x ∈ d.map Prod.fst ∨ x ∈ k :: heads gs
        · rw [if_pos hx, if_pos (this.2 hx)]
        · rw [if_neg hx, if_neg fun h => hx (this.1 h)]
  obtain ⟨a, b, c⟩ := hall [] (by simp [Distinct]) (by simp)
  refine ⟨fun k => by rw [b]; simp, a, fun i k hik => ?_⟩
  have hm : k ∈ heads m := List.mem_of_getElem? hik
  have hi : ∃ r, rs[i]? = some r ∧ s.ref k = some r := by
    clear h a b c hall hm
    induction ho generalizing i with
    | nil => simp [heads] at hik
    | cons h1 _ ih =>
      obtain ⟨k', ks, rfl, hr⟩ := h1
      cases i with
      | zero => simp only [heads, List.map_cons, List.headD_cons, List.getElem?_cons_zero, Option.some.injEq] at hik; subst hik; exact ⟨_, rfl, hr⟩
      | succ i => exact ih i (by simpa [heads] using hik)
  obtain ⟨r, h1, h2⟩ := hi
  refine ⟨r, ?_, h2, by simp [h1]⟩
  rw [c, if_pos (Or.inr hm), h2]

/-- With two groups led by the same parameter the dictionary is shorter than the list of parameters. -/
theorem C173_false_dict : ∃ (s : PMap) (m : List (List String)) (qs : List Quantity) (d : List (String × ℕ)),
    s.getParameters m = .ok qs ∧ parameterDict s [] m = .ok d ∧ d.length < qs.length := by
  refine ⟨exS, [["a"], ["a"]], [exQ, exQ], [("a", 0)], ?_, ?_, by simp⟩
  · simp [PMap.getParameters, exS]
  · simp [parameterDict, exS, dset]

/-- The printed list names every optimised parameter, whether or not it leads its group. -/
theorem C173_printed (s : PMap) (human : Bool) (txt : Quantity → List Char) (num : ℕ → List Char)
    (m : List (List String)) (t : List Char) (h : strParameters s human txt num m = .ok t) (k : String)
    (hk : k ∈ m.flatten) : k.toList <:+: t := by
  induction m generalizing t with
  | nil => simp at hk
  | cons g gs ih =>
    cases g with
    | nil => simp [strParameters] at h
    | cons a ks =>
      simp only [strParameters] at h
      cases ha : s.ref a with
      | none => simp [ha] at h
      | some r =>
        rw [ha] at h
        simp only at h
        cases hr : strParameters s human txt num gs with
        | error e => simp [hr] at h
        | ok rest =>
          rw [hr] at h
          simp only [Except.ok.injEq] at h
          rw [← h]
          simp only [List.flatten_cons, List.mem_append, List.mem_cons] at hk
          rcases hk with (rfl | hk) | hk
          · simp only [pad, List.append_assoc]
            exact List.infix_append' [] k.toList _
          · have hl : ks.length > 0 := List.length_pos_of_mem hk
            rw [if_pos hl]
            refine List.IsInfix.trans ?_ (List.IsPrefix.isInfix (List.prefix_append _ _))
            refine List.IsInfix.trans ?_ (List.IsSuffix.isInfix (List.suffix_append _ _))
            refine List.IsInfix.trans ?_ (List.IsPrefix.isInfix (List.prefix_append _ _))
            clear h hl
            induction ks with
            | nil => simp at hk
            | cons b ks ihk =>
              simp only [List.flatMap_cons]
              rcases List.mem_cons.1 hk with rfl | hk
              · rw [List.append_assoc]; exact List.infix_append' [] _ _
              · exact (ihk hk).trans (List.IsSuffix.isInfix (List.suffix_append _ _))
          · exact (ih rest hr hk).trans (List.IsSuffix.isInfix (List.suffix_append _ _))

/-- The printed list shows the value of every group, or for people how many values there are if there are more than
four. Names are filled up to 38 characters. -/
theorem C173_values (s : PMap) (human : Bool) (txt : Quantity → List Char) (num : ℕ → List Char)
    (m : List (List String)) (t : List Char) (h : strParameters s human txt num m = .ok t) (k : String) (ks : List String)
    (hk : k :: ks ∈ m) (r : ℕ) (hr : s.ref k = some r) :
    (human = false ∨ (s.heap r).length ≤ 4 →
      k.toList ++ List.replicate (38 - k.toList.length) ' ' ++ ": ".toList ++ txt (s.heap r) <:+: t) ∧
    (human = true → 4 < (s.heap r).length →
      k.toList ++ List.replicate (38 - k.toList.length) ' ' ++ ": <".toList ++ num (s.heap r).length ++ " values>".toList <:+: t) := by
  induction m generalizing t with
  | nil => simp at hk
  | cons g gs ih =>
    cases g with
    | nil => simp [strParameters] at h
    | cons a bs =>
      simp only [strParameters] at h
      cases ha : s.ref a with
      | none => simp [ha] at h
      | some r' =>
        rw [ha] at h
        simp only at h
        cases hrest : strParameters s human txt num gs with
        | error e => simp [hrest] at h
        | ok rest =>
          rw [hrest] at h
          simp only [Except.ok.injEq] at h
          rcases List.mem_cons.1 hk with he | hk
          · obtain ⟨rfl, rfl⟩ := List.cons.inj he
            rw [hr] at ha
            obtain rfl := Option.some.inj ha
            constructor
            · intro hc
              have hf : (human && decide ((s.heap r).length > 4)) = false := by
                rcases hc with hc | hc
                · simp [hc]
                · simp only [Bool.and_eq_false_iff, decide_eq_false_iff_not]
                  right
                  omega
              rw [hf] at h
              rw [← h]
              refine List.IsPrefix.isInfix ⟨['\n'] ++ (if ks.length > 0 then
                ks.flatMap (fun e => e.toList ++ ['\n']) ++ ['\n'] else []) ++ rest, ?_⟩
              simp [pad]
            · intro h1 h2
              have hf : (human && decide ((s.heap r).length > 4)) = true := by simp [h1, h2]
              rw [hf] at h
              rw [← h]
              refine List.IsPrefix.isInfix ⟨['\n'] ++ (if ks.length > 0 then
                ks.flatMap (fun e => e.toList ++ ['\n']) ++ ['\n'] else []) ++ rest, ?_⟩
              simp [pad]
          · obtain ⟨h1, h2⟩ := ih rest hrest hk
            have hs : rest <:+: t := by
              rw [← h]
              exact List.IsSuffix.isInfix (List.suffix_append _ _)
            exact ⟨fun hc => (h1 hc).trans hs, fun a b => (h2 a b).trans hs⟩

theorem ok_ne_error {A : Type} {a : A} {e : PErr} : ¬ ((Except.ok a : Except PErr A) = .error e) := by
  simp

/-- It fails exactly when `get_parameters` does, with the same exception. -/
theorem C173_printed_fails (s : PMap) (human : Bool) (txt : Quantity → List Char) (num : ℕ → List Char)
    (m : List (List String)) (e : PErr) :
    strParameters s human txt num m = .error e ↔ s.getParameters m = .error e := by
  induction m with
  | nil => simp [strParameters, PMap.getParameters]
  | cons g gs ih =>
    cases g with
    | nil => simp [strParameters, PMap.getParameters]
    | cons a ks =>
      simp only [strParameters, PMap.getParameters]
      cases s.ref a with
      | none => simp
      | some r =>
        simp only
        cases h1 : strParameters s human txt num gs with
        | error e' =>
          cases h2 : s.getParameters gs with
          | error e'' => simpa [h1, h2] using ih
          | ok q =>
            rw [h1, h2] at ih
            simp only [Except.error.injEq, reduceCtorEq, iff_false] at ih ⊢
            exact ih
        | ok t =>
          cases h2 : s.getParameters gs with
          | error e'' =>
            rw [h1, h2] at ih
            simp only [Except.error.injEq, reduceCtorEq, false_iff] at ih ⊢
            exact ih
          | ok q =>
            constructor
            · intro h; exact (ok_ne_error h).elim
            · intro h; exact (ok_ne_error h).elim

/-- The units of the fixture: one parameter in volts, named twice. -/
example : optUnits exS [["a"], ["a"]] = .ok ["V", "V"] ∧ Proper exS [["a"], ["a"]] := by
  constructor
  · simp [optUnits, exS, exQ]
  · rw [← C173_succeeds]
    exact ⟨["V", "V"], by simp [optUnits, exS, exQ]⟩

/-- A list as users write it is accepted and rewritten. -/
example : (getOptMap exM (some 0)).2.2 = false := by
  simp [getOptMap, exM, normGroups, normIds]

end Reports
end C3
