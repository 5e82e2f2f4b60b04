import Verif.Config.Dict

/-!
# Values through a configuration file (C127)

Model of `hjson_encode` and `hjson_decode` (c3/c3objs.py:380-404) as they are used by all `write_config` and
`read_config` methods: `hjson.dump(..., default=hjson_encode)` replaces values HJSON does not know, and
`hjson.loads(..., object_pairs_hook=hjson_decode)` rebuilds them from the innermost object outwards.
The text format itself is taken as an exact representation of `J`.
-/

namespace C3.Config

/-- Values in configuration dictionaries. `C` are complex numbers, `Q` quantities. -/
inductive Val (R C Q : Type) where
  | null
  | bool (b : Bool)
  | num (x : R)
  | str (s : String)
  | list (l : List (Val R C Q))
  | tuple (l : List (Val R C Q))
  | dict (l : List (String × Val R C Q))
  | cplx (z : C)
  /-- numpy array or tensor with the given `tolist()` -/
  | arr (v : Val R C Q)
  | qty (q : Q)

/-- What the file holds. -/
inductive J (R : Type) where
  | null
  | bool (b : Bool)
  | num (x : R)
  | str (s : String)
  | list (l : List (J R))
  | obj (l : List (String × J R))

variable {R C Q : Type}

mutual
/-- c3/c3objs.py:380-393 inside `hjson.dump`. Tuples become lists. A quantity is written through its
dictionary; `enc q` is that dictionary, already written (its entries are plain). -/
def encode (shw : C → String) (enc : Q → List (String × J R)) : Val R C Q → J R
  | .null => .null
  | .bool b => .bool b
  | .num x => .num x
  | .str s => .str s
  | .list l => .list (encodeL shw enc l)
  | .tuple l => .list (encodeL shw enc l)
  | .dict l => .obj (encodeD shw enc l)
  | .cplx z => .obj [("__complex__", .str (shw z))]
  | .arr v => .obj [("__array__", encode shw enc v)]
  | .qty q => .obj [("__quantity__", .obj (enc q))]
/-- the elements of a list -/
def encodeL (shw : C → String) (enc : Q → List (String × J R)) : List (Val R C Q) → List (J R)
  | [] => []
  | v :: l => encode shw enc v :: encodeL shw enc l
/-- the entries of a dictionary -/
def encodeD (shw : C → String) (enc : Q → List (String × J R)) : List (String × Val R C Q) → List (String × J R)
  | [] => []
  | (k, v) :: l => (k, encode shw enc v) :: encodeD shw enc l
end

/-- c3/c3objs.py:396-404 on the pairs of one object whose values are decoded. `none` is an exception:
a text that is no complex number, a text where a dictionary is needed. -/
def hook (parse : String → Option C) (make : List (String × Val R C Q) → Option Q)
    (z : List (String × Val R C Q)) : Option (Val R C Q) :=
  match z with
  | [(k, v)] =>
    if k = "__complex__" then
      match v with
      | .str s => (parse s).map .cplx
      | .cplx c => some (.cplx c)
      | _ => none
    else if k = "__array__" then some (.arr v)
    else if k = "__quantity__" then
      match v with
      | .dict d => (make d).map .qty
      | _ => none
    else some (.dict [(k, v)])
  | z => some (.dict (dupdate [] z))

mutual
/-- `hjson.loads` with the hook. -/
def decode (parse : String → Option C) (make : List (String × Val R C Q) → Option Q) : J R → Option (Val R C Q)
  | .null => some .null
  | .bool b => some (.bool b)
  | .num x => some (.num x)
  | .str s => some (.str s)
  | .list l => (decodeL parse make l).map .list
  | .obj l => (decodeD parse make l).bind (hook parse make)
/-- the elements of a list -/
def decodeL (parse : String → Option C) (make : List (String × Val R C Q) → Option Q) :
    List (J R) → Option (List (Val R C Q))
  | [] => some []
  | v :: l => (decode parse make v).bind fun a => (decodeL parse make l).map fun b => a :: b
/-- the entries of an object -/
def decodeD (parse : String → Option C) (make : List (String × Val R C Q) → Option Q) :
    List (String × J R) → Option (List (String × Val R C Q))
  | [] => some []
  | (k, v) :: l => (decode parse make v).bind fun a => (decodeD parse make l).map fun b => (k, a) :: b
end

/-! ## Specification -/

mutual
/-- The value with every tuple turned into a list; nothing else changes. -/
def untuple : Val R C Q → Val R C Q
  | .list l => .list (untupleL l)
  | .tuple l => .list (untupleL l)
  | .dict l => .dict (untupleD l)
  | .arr v => .arr (untuple v)
  | .null => .null
  | .bool b => .bool b
  | .num x => .num x
  | .str s => .str s
  | .cplx z => .cplx z
  | .qty q => .qty q
/-- the elements of a list -/
def untupleL : List (Val R C Q) → List (Val R C Q)
  | [] => []
  | v :: l => untuple v :: untupleL l
/-- the entries of a dictionary -/
def untupleD : List (String × Val R C Q) → List (String × Val R C Q)
  | [] => []
  | (k, v) :: l => (k, untuple v) :: untupleD l
end

/-- The three keys the reader gives a meaning. -/
def reserved : List String := ["__complex__", "__array__", "__quantity__"]

mutual
/-- Dictionaries have distinct keys, and none of them consists of a single reserved key. -/
def Plain : Val R C Q → Prop
  | .list l => PlainL l
  | .tuple l => PlainL l
  | .dict l => Distinct l ∧ (∀ k v, l = [(k, v)] → k ∉ reserved) ∧ PlainD l
  | .arr v => Plain v
  | _ => True
/-- the elements of a list -/
def PlainL : List (Val R C Q) → Prop
  | [] => True
  | v :: l => Plain v ∧ PlainL l
/-- the entries of a dictionary -/
def PlainD : List (String × Val R C Q) → Prop
  | [] => True
  | (_, v) :: l => Plain v ∧ PlainD l
end

mutual
/-- A value without tuples. -/
def NoTuple : Val R C Q → Prop
  | .list l => NoTupleL l
  | .tuple _ => False
  | .dict l => NoTupleD l
  | .arr v => NoTuple v
  | _ => True
/-- the elements of a list -/
def NoTupleL : List (Val R C Q) → Prop
  | [] => True
  | v :: l => NoTuple v ∧ NoTupleL l
/-- the entries of a dictionary -/
def NoTupleD : List (String × Val R C Q) → Prop
  | [] => True
  | (_, v) :: l => NoTuple v ∧ NoTupleD l
end

mutual
theorem untuple_id : ∀ v : Val R C Q, NoTuple v → untuple v = v
  | .null, _ => rfl
  | .bool _, _ => rfl
  | .num _, _ => rfl
  | .str _, _ => rfl
  | .list l, h => by simp only [untuple, untupleL_id l h]
  | .tuple _, h => h.elim
  | .dict l, h => by simp only [untuple, untupleD_id l h]
  | .cplx _, _ => rfl
  | .arr v, h => by simp only [untuple, untuple_id v h]
  | .qty _, _ => rfl
theorem untupleL_id : ∀ l : List (Val R C Q), NoTupleL l → untupleL l = l
  | [], _ => rfl
  | v :: l, h => by simp only [untupleL, untuple_id v h.1, untupleL_id l h.2]
theorem untupleD_id : ∀ l : List (String × Val R C Q), NoTupleD l → untupleD l = l
  | [], _ => rfl
  | (_, v) :: l, h => by simp only [untupleD, untuple_id v h.1, untupleD_id l h.2]
end

mutual
theorem noTuple_untuple : ∀ v : Val R C Q, NoTuple (untuple v)
  | .null => trivial
  | .bool _ => trivial
  | .num _ => trivial
  | .str _ => trivial
  | .list l => noTuple_untupleL l
  | .tuple l => noTuple_untupleL l
  | .dict l => noTuple_untupleD l
  | .cplx _ => trivial
  | .arr v => noTuple_untuple v
  | .qty _ => trivial
theorem noTuple_untupleL : ∀ l : List (Val R C Q), NoTupleL (untupleL l)
  | [] => trivial
  | v :: l => ⟨noTuple_untuple v, noTuple_untupleL l⟩
theorem noTuple_untupleD : ∀ l : List (String × Val R C Q), NoTupleD (untupleD l)
  | [] => trivial
  | (_, v) :: l => ⟨noTuple_untuple v, noTuple_untupleD l⟩
end

theorem untupleD_keys (l : List (String × Val R C Q)) : (untupleD l).map Prod.fst = l.map Prod.fst := by
  induction l with
  | nil => rfl
  | cons a l ih =>
    obtain ⟨k, v⟩ := a
    simp only [untupleD, List.map_cons, ih]

theorem hook_plain (parse : String → Option C) (make : List (String × Val R C Q) → Option Q)
    (l : List (String × Val R C Q)) (hd : Distinct l) (h : ∀ k v, l = [(k, v)] → k ∉ reserved) :
    hook parse make l = some (.dict l) := by
  unfold hook
  split
  · rename_i k v
    have := h k v rfl
    simp only [reserved, List.mem_cons, List.not_mem_nil, or_false, not_or] at this
    rw [if_neg this.1, if_neg this.2.1, if_neg this.2.2]
  · rw [dupdate_nil _ hd]

/-! ## C127 -/

variable (shw : C → String) (parse : String → Option C) (enc : Q → List (String × J R))
  (make : List (String × Val R C Q) → Option Q)

/-- The reader undoes the writer for complex numbers and quantities (for quantities see C06): the written
dictionary of a quantity decodes to a dictionary from which the constructor makes the same quantity. -/
structure Codes : Prop where
  cplx : ∀ z, parse (shw z) = some z
  qty : ∀ q, ∃ d, decode parse make (.obj (enc q)) = some (.dict d) ∧ make d = some q

mutual
theorem roundtrip (hc : Codes shw parse enc make) : ∀ v : Val R C Q, Plain v →
    decode parse make (encode shw enc v) = some (untuple v)
  | .null, _ => rfl
  | .bool _, _ => rfl
  | .num _, _ => rfl
  | .str _, _ => rfl
  | .list l, h => by simp only [encode, decode, untuple, roundtripL hc l h, Option.map_some]
  | .tuple l, h => by simp only [encode, decode, untuple, roundtripL hc l h, Option.map_some]
  | .dict l, h => by
    simp only [encode, decode, untuple, roundtripD hc l h.2.2, Option.bind_some]
    apply hook_plain
    · unfold Distinct
      rw [untupleD_keys]
      exact h.1
    · intro k v he
      have hk : (untupleD l).map Prod.fst = [k] := by rw [he]; rfl
      rw [untupleD_keys] at hk
      match l, hk with
      | [(k', v')], hk =>
        simp only [List.map_cons, List.map_nil, List.cons.injEq, and_true] at hk
        subst hk
        exact h.2.1 _ _ rfl
  | .cplx z, _ => by simp [encode, decode, decodeD, untuple, hook, hc.cplx]
  | .arr v, h => by simp [encode, decode, decodeD, untuple, hook, roundtrip hc v h]
  | .qty q, _ => by
    obtain ⟨d, h1, h2⟩ := hc.qty q
    simp only [encode, untuple]
    rw [decode, decodeD, h1]
    simp [decodeD, hook, h2]
theorem roundtripL (hc : Codes shw parse enc make) : ∀ l : List (Val R C Q), PlainL l →
    decodeL parse make (encodeL shw enc l) = some (untupleL l)
  | [], _ => rfl
  | v :: l, h => by
    simp only [encodeL, decodeL, untupleL, roundtrip hc v h.1, roundtripL hc l h.2, Option.bind_some, Option.map_some]
theorem roundtripD (hc : Codes shw parse enc make) : ∀ l : List (String × Val R C Q), PlainD l →
    decodeD parse make (encodeD shw enc l) = some (untupleD l)
  | [], _ => rfl
  | (k, v) :: l, h => by
    simp only [encodeD, decodeD, untupleD, roundtrip hc v h.1, roundtripD hc l h.2, Option.bind_some, Option.map_some]
end

/-- **C127**, what holds: a value whose dictionaries do not consist of one reserved key comes back from the
file with tuples turned into lists and nothing else changed. Missing: the reserved keys, see the negations. -/
theorem C127_roundtrip_partial (hc : Codes shw parse enc make) (v : Val R C Q) (h : Plain v) :
    decode parse make (encode shw enc v) = some (untuple v) := roundtrip shw parse enc make hc v h

/-- Without tuples the value comes back as it was. -/
theorem C127_exact_partial (hc : Codes shw parse enc make) (v : Val R C Q) (h : Plain v) (ht : NoTuple v) :
    decode parse make (encode shw enc v) = some v := by
  rw [roundtrip shw parse enc make hc v h, untuple_id v ht]

/-- **C127 is false** for a tuple: a list comes back, for every codec. -/
theorem C127_false_tuple (l : List (Val R C Q)) : decode parse make (encode shw enc (.tuple l)) ≠ some (.tuple l) := by
  simp only [encode, decode]
  cases decodeL parse make (encodeL shw enc l) <;> simp

/-- **C127 is false** for a dictionary with the one key `__array__`: an array comes back. -/
theorem C127_false_reserved (v : Val R C Q) (h : Plain v) (hc : Codes shw parse enc make) :
    decode parse make (encode shw enc (.dict [("__array__", v)])) = some (.arr (untuple v)) := by
  simp [encode, encodeD, decode, decodeD, hook, roundtrip shw parse enc make hc v h]

/-- **C127 is false**: a dictionary with the one key `__quantity__` and a number cannot be read at all. -/
theorem C127_false_unreadable (x : R) :
    decode parse make (encode shw enc (.dict [("__quantity__", .num x)])) = none := by
  simp [encode, encodeD, decode, decodeD, hook]

/-- A codec for the examples: numbers are natural numbers, "complex numbers" are texts, a quantity is a number
stored under `value`. -/
theorem exCodes : Codes (R := ℕ) (C := String) (Q := ℕ) id some (fun q => [("value", .num q), ("unit", .str "Hz")])
    (fun d => match dget d "value" with | some (.num x) => some x | _ => none) :=
  ⟨fun _ => rfl, fun q => ⟨[("value", .num q), ("unit", .str "Hz")], rfl, rfl⟩⟩

/-- C127 is not vacuous: a nested value with a tuple, an array, a complex number and a quantity. -/
example : decode (R := ℕ) (C := String) (Q := ℕ) some
    (fun d => match dget d "value" with | some (.num x) => some x | _ => none)
    (encode id (fun q => [("value", .num q), ("unit", .str "Hz")])
      (.dict [("a", .tuple [.num 1, .cplx "2j"]), ("b", .arr (.list [.num 3, .num 4])), ("c", .qty 7)])) =
    some (.dict [("a", .list [.num 1, .cplx "2j"]), ("b", .arr (.list [.num 3, .num 4])), ("c", .qty 7)]) :=
  C127_roundtrip_partial _ _ _ _ exCodes _
    ⟨by simp [Distinct], by intro k v h; simp at h, ⟨trivial, trivial, trivial⟩, ⟨trivial, trivial, trivial⟩, trivial, trivial⟩

end C3.Config
