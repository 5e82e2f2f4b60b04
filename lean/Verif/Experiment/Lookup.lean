import Verif.Gates.Insert
import Verif.Config.Dict
import Verif.Experiment.Qasm

/-!
# C194: addressing instructions in QASM format; C195: the perfect gate set

Models c3/signal/gates.py:111-119 (`as_openqasm`), 164-167 (`get_key`), c3/parametermap.py:31-32 (the dictionary of
instructions), c3/experiment.py:337-346 (`lookup_gate`), 409-438 (`get_perfect_gates`), 449-467 and 541-546
(the dictionary of propagators of `compute_propagators`).

Simplified: the propagator of an instruction is an arbitrary function of the instruction (the propagation itself is
the subject of C23, C27, C150), and so is the virtual Z gate (C168).
-/

namespace C3.Experiment.Lookup

open C3.Config C3.Hilbert

/-! ## Model -/

/-- Targets as a Python list or tuple of integers. -/
inductive Seq where
  | list (l : List ℕ)
  | tuple (l : List ℕ)
deriving DecidableEq

/-- `", ".join(str(n) for n in l)`. -/
def joined : List ℕ → List Char
  | [] => []
  | [n] => Nat.toDigits 10 n
  | n :: m :: l => Nat.toDigits 10 n ++ ',' :: ' ' :: joined (m :: l)

/-- `str` of a list or a tuple of integers. -/
def Seq.str : Seq → List Char
  | .list l => '[' :: (joined l ++ [']'])
  | .tuple [n] => '(' :: (joined [n] ++ [',', ')'])
  | .tuple l => '(' :: (joined l ++ [')'])

/-- `name + str(qubits)` (c3/signal/gates.py:167, c3/experiment.py:345). -/
def opKey (name : String) (q : Seq) : String := String.ofList (name.toList ++ q.str)

/-- An instruction: name, targets, ideal gate. -/
structure Instr where
  name : String
  targets : Option Seq
  ideal : Arr ℂ

/-- c3/signal/gates.py:164-167 `get_key`. -/
def Instr.key (i : Instr) : String :=
  match i.targets with
  | none => i.name
  | some t => opKey i.name t

/-- c3/parametermap.py:31-32: the dictionary of instructions. -/
def instructions (is : List Instr) : List (String × Instr) := is.foldl (fun d i => dset d i.key i) []

inductive Err where
  | undefinedGate   -- the exception of compute_propagators
  | keyError
  | typeError
  | valueError
  | noIdeal         -- get_ideal_gate raises
deriving DecidableEq

/-- c3/experiment.py:440-534 `compute_propagators`: one propagator for every gate of `opt_gates`, or for all
instructions. -/
def propagators {α : Type} (U : Instr → α) (d : List (String × Instr)) (opt : Option (List String)) :
    Except Err (List (String × α)) :=
  (opt.getD (d.map Prod.fst)).foldlM (fun p k => match dget d k with
    | none => .error .undefinedGate
    | some i => .ok (dset p k (U i))) []

/-- c3/experiment.py:337-346 `lookup_gate`. -/
def lookupGate {α P : Type} (vz : Seq → P → Except Err α) (p : List (String × α)) (name : String) (qubits : Seq)
    (params : P) : Except Err α :=
  if name = "VZ" then vz qubits params
  else match dget p (opKey name qubits) with
    | none => .error .keyError
    | some u => .ok u

/-- A dictionary of an operation in QASM format, as passed to `lookup_gate(**gate)`. -/
structure Op (P : Type) where
  name : String
  qubits : Option Seq
  params : P
  ideal : Option (Arr ℂ)

/-- The truth value of an array: only defined for at most one entry. -/
noncomputable def truth (a : Arr ℂ) : Except Err Bool :=
  open scoped Classical in
  if a.rows * a.cols = 0 then .ok false
  else if a.rows * a.cols = 1 then .ok (decide (a.e 0 0 ≠ 0))
  else .error .valueError

/-- c3/signal/gates.py:111-119 `as_openqasm`. -/
noncomputable def asOpenqasm {P : Type} (params : P) (i : Instr) : Except Err (Op P) :=
  match truth i.ideal with
  | .error e => .error e
  | .ok true => .ok ⟨i.name, i.targets, params, some i.ideal⟩
  | .ok false => .ok ⟨i.name, i.targets, params, none⟩

/-- `self.lookup_gate(**gate)` (c3/experiment.py:331): a keyword `ideal` is unexpected; `qubits=None` becomes the text
`None`. -/
def lookupOp {α P : Type} (vz : Seq → P → Except Err α) (p : List (String × α)) (g : Op P) : Except Err α :=
  match g.ideal with
  | some _ => .error .typeError
  | none => match g.qubits with
    | some q => lookupGate vz p g.name q g.params
    | none => if g.name = "VZ" then .error .typeError else
      match dget p (g.name ++ "None") with
      | none => .error .keyError
      | some u => .ok u

/-! ## Specification -/

/-- A name without opening brackets. -/
def Plain (s : String) : Prop := '[' ∉ s.toList ∧ '(' ∉ s.toList

/-- The instruction with a name and targets; the last one if there are several. -/
def named (is : List Instr) (name : String) (t : Option Seq) : Option Instr :=
  (is.filter fun i => decide (i.name = name ∧ i.targets = t)).getLast?

/-! ## Keys -/

theorem digits_inj {n m : ℕ} (h : Nat.toDigits 10 n = Nat.toDigits 10 m) : n = m := by
  have := congrArg (fun l => Nat.ofDigitChars 10 l 0) h
  simpa [Nat.ofDigitChars_ten_toDigits] using this

theorem comma_notin (n : ℕ) : ',' ∉ Nat.toDigits 10 n := by
  intro h
  have := Nat.isDigit_of_mem_toDigits (by norm_num) (by norm_num) h
  exact absurd this (by decide)

theorem split_at {c : Char} {l l' r r' : List Char} (h : c ∉ l) (h' : c ∉ l') (e : l ++ c :: r = l' ++ c :: r') :
    l = l' ∧ r = r' := by
  induction l generalizing l' with
  | nil =>
    cases l' with
    | nil => simpa using e
    | cons a l' =>
      simp only [List.nil_append, List.cons_append, List.cons.injEq] at e
      exact absurd (by simp [e.1]) h'
  | cons a l ih =>
    cases l' with
    | nil =>
      simp only [List.nil_append, List.cons_append, List.cons.injEq] at e
      exact absurd (by simp [e.1]) h
    | cons b l' =>
      simp only [List.cons_append, List.cons.injEq] at e
      simp only [List.mem_cons, not_or] at h h'
      obtain ⟨r1, r2⟩ := ih h.2 h'.2 e.2
      exact ⟨by rw [e.1, r1], r2⟩

theorem joined_inj : ∀ {a b : List ℕ}, joined a = joined b → a = b
  | [], [], _ => rfl
  | [], [n], h => absurd h.symm Nat.toDigits_ne_nil
  | [], n :: m :: l, h => by simp [joined] at h
  | [n], [], h => absurd h Nat.toDigits_ne_nil
  | n :: m :: l, [], h => by simp [joined] at h
  | [n], [m], h => by rw [digits_inj h]
  | [n], m :: k :: l, h => by
    refine absurd ?_ (comma_notin n)
    rw [show Nat.toDigits 10 n = joined [n] from rfl, h]
    simp [joined]
  | m :: k :: l, [n], h => by
    refine absurd ?_ (comma_notin n)
    rw [show Nat.toDigits 10 n = joined [n] from rfl, ← h]
    simp [joined]
  | n :: m :: l, n' :: m' :: l', h => by
    obtain ⟨h1, h2⟩ := split_at (comma_notin n) (comma_notin n') h
    rw [digits_inj h1, joined_inj (a := m :: l) (b := m' :: l') (by simpa using h2)]

theorem str_getLast (t : Seq) (l : List Char) : (l ++ t.str).getLast? = some (match t with
    | .list _ => ']'
    | .tuple _ => ')') := by
  cases t with
  | list t =>
    rw [Seq.str, show l ++ '[' :: (joined t ++ [']']) = (l ++ '[' :: joined t) ++ [']'] by simp, List.getLast?_concat]
  | tuple t =>
    rcases t with _ | ⟨n, _ | ⟨m, t⟩⟩
    · rw [Seq.str, show l ++ '(' :: (joined [] ++ [')']) = (l ++ '(' :: joined []) ++ [')'] by simp,
        List.getLast?_concat]
      simp
    · rw [Seq.str, show l ++ '(' :: (joined [n] ++ [',', ')']) = (l ++ '(' :: (joined [n] ++ [','])) ++ [')'] by simp,
        List.getLast?_concat]
    · rw [Seq.str, show l ++ '(' :: (joined (n :: m :: t) ++ [')']) = (l ++ '(' :: joined (n :: m :: t)) ++ [')'] by
        simp, List.getLast?_concat]
      simp

/-- Text of a call with a list of qubits and key of an instruction agree exactly if name and targets agree. -/
theorem key_eq_iff (i : Instr) (hi : Plain i.name) (name : String) (hn : Plain name) (q : List ℕ) :
    i.key = opKey name (.list q) ↔ i.name = name ∧ i.targets = some (.list q) := by
  constructor
  · intro h
    rcases ht : i.targets with _ | t
    · simp only [Instr.key, ht] at h
      refine absurd ?_ hi.1
      rw [h, opKey, String.toList_ofList]
      simp [Seq.str]
    · simp only [Instr.key, ht] at h
      have h2 := congrArg String.toList h
      rw [opKey, opKey, String.toList_ofList, String.toList_ofList] at h2
      cases t with
      | list t =>
        obtain ⟨a, b⟩ := split_at hi.1 hn.1 h2
        refine ⟨String.toList_inj.1 a, ?_⟩
        have hj : joined t = joined q := by simpa using b
        rw [joined_inj hj]
      | tuple t =>
        have := congrArg List.getLast? h2
        rw [str_getLast, str_getLast] at this
        simp at this
  · rintro ⟨rfl, h⟩
    simp [Instr.key, h]

/-! ## Dictionaries -/

theorem dget_instructions (is : List Instr) (k : String) :
    dget (instructions is) k = (is.filter fun i => decide (i.key = k)).getLast? := by
  unfold instructions
  induction is using List.reverseRecOn with
  | nil => simp [dget]
  | append_singleton is i ih =>
    rw [List.foldl_append, List.foldl_cons, List.foldl_nil, dget_dset, ih, List.filter_append]
    by_cases h : i.key = k <;> simp [h]

theorem foldlM_props {α : Type} (U : Instr → α) (d : List (String × Instr)) (ks : List String)
    (p0 p : List (String × α)) (h : ks.foldlM (fun p k => match dget d k with
      | none => Except.error Err.undefinedGate
      | some i => .ok (dset p k (U i))) p0 = .ok p) (k : String) :
    dget p k = if k ∈ ks then (dget d k).map U else dget p0 k := by
  induction ks generalizing p0 with
  | nil =>
    simp only [List.foldlM_nil, pure, Except.pure, Except.ok.injEq] at h
    simp [h]
  | cons a ks ih =>
    rw [List.foldlM_cons] at h
    cases ha : dget d a with
    | none => simp [ha, bind, Except.bind] at h
    | some i =>
      simp only [ha, bind, Except.bind] at h
      rw [ih _ h, dget_dset]
      by_cases h1 : k ∈ ks
      · simp [h1]
      · by_cases h2 : a = k
        · subst h2; simp [ha, h1]
        · simp [h1, h2, Ne.symm h2]

theorem foldlM_props_ok {α : Type} (U : Instr → α) (d : List (String × Instr)) (ks : List String)
    (p0 : List (String × α)) (h : ∀ k ∈ ks, dget d k ≠ none) : ∃ p, ks.foldlM (fun p k => match dget d k with
      | none => Except.error Err.undefinedGate
      | some i => .ok (dset p k (U i))) p0 = .ok p := by
  induction ks generalizing p0 with
  | nil => exact ⟨p0, rfl⟩
  | cons a ks ih =>
    rw [List.foldlM_cons]
    cases ha : dget d a with
    | none => exact absurd ha (h a List.mem_cons_self)
    | some i =>
      simp only [bind, Except.bind]
      exact ih _ fun k hk => h k (List.mem_cons_of_mem _ hk)

theorem mem_keys {V : Type} (d : List (String × V)) (k : String) : k ∈ d.map Prod.fst ↔ dget d k ≠ none := by
  rw [Ne, dget_eq_none, not_not]

/-! ## C194 -/

/-- C194: without a selection there is a propagator for every instruction, whatever the instructions are. -/
theorem C194_all {α : Type} (U : Instr → α) (is : List Instr) :
    ∃ p, propagators U (instructions is) none = .ok p :=
  foldlM_props_ok U _ _ _ fun k hk => (mem_keys _ k).1 hk

/-- C194: a selection of gates is accepted exactly if all of them are keys of instructions. -/
theorem C194_selection {α : Type} (U : Instr → α) (is : List Instr) (ks : List String) :
    (∃ p, propagators U (instructions is) (some ks) = .ok p) ↔ ∀ k ∈ ks, ∃ i ∈ is, i.key = k := by
  have hk : ∀ k, dget (instructions is) k ≠ none ↔ ∃ i ∈ is, i.key = k := by
    intro k
    rw [dget_instructions, Ne, List.getLast?_eq_none_iff, List.filter_eq_nil_iff]
    simp
  constructor
  · rintro ⟨p, hp⟩ k hks
    rw [← hk]
    unfold propagators at hp
    simp only [Option.getD_some] at hp
    revert hp
    generalize ([] : List (String × α)) = p0
    intro hp
    induction ks generalizing p0 with
    | nil => simp at hks
    | cons a ks ih =>
      rw [List.foldlM_cons] at hp
      cases ha : dget (instructions is) a with
      | none => simp [ha, bind, Except.bind] at hp
      | some i =>
        simp only [ha, bind, Except.bind] at hp
        rcases List.mem_cons.1 hks with rfl | h
        · simp [ha]
        · exact ih h _ hp
  · intro h
    exact foldlM_props_ok U _ _ _ fun k hks => (hk k).2 (h k hks)

/-- **C194**, what holds: with names without brackets, an operation other than `VZ` with a list of qubits gives the
propagator of the instruction with exactly this name and these targets in this order, the last one if there are
several, and raises a KeyError if there is none (or if it is not selected). Missing: names with brackets, tuples,
instructions without targets, instructions called `VZ`, and parameters, see below. -/
theorem C194_lookup_partial {α P : Type} (vz : Seq → P → Except Err α) (U : Instr → α) (is : List Instr)
    (his : ∀ i ∈ is, Plain i.name) (opt : Option (List String)) (p : List (String × α))
    (hp : propagators U (instructions is) opt = .ok p) (name : String) (hn : Plain name) (hv : name ≠ "VZ")
    (q : List ℕ) (params : P) :
    lookupGate vz p name (.list q) params = match named is name (some (.list q)) with
      | some i => if ∀ ks, opt = some ks → i.key ∈ ks then .ok (U i) else .error .keyError
      | none => .error .keyError := by
  have hf : (is.filter fun i => decide (i.key = opKey name (.list q))) =
      is.filter fun i => decide (i.name = name ∧ i.targets = some (.list q)) := by
    apply List.filter_congr
    intro i hi
    rw [decide_eq_decide]
    exact key_eq_iff i (his i hi) name hn q
  have hd := dget_instructions is (opKey name (.list q))
  rw [hf] at hd
  unfold lookupGate
  rw [if_neg hv, foldlM_props U _ _ _ _ hp]
  unfold named
  cases hl : (is.filter fun i => decide (i.name = name ∧ i.targets = some (.list q))).getLast? with
  | none =>
    rw [hl] at hd
    rw [hd]
    simp [dget]
  | some i =>
    rw [hl] at hd
    have hm := List.mem_of_getLast? hl
    rw [List.mem_filter] at hm
    have hkey := (key_eq_iff i (his i hm.1) name hn q).2 (by simpa using hm.2)
    simp only [hd, hkey]
    clear hf hkey
    revert hd
    generalize opKey name (.list q) = K
    intro hd
    cases opt with
    | none =>
      have : K ∈ (instructions is).map Prod.fst := by
        rw [mem_keys, hd]; simp
      rw [Option.getD_none, if_pos this]
      simp
    | some ks =>
      by_cases hks : K ∈ ks <;> simp [hks, dget]

/-- **C194 is false** for the parameters of an operation: they are ignored for every gate but the virtual Z gate, so
`rx` by different angles is the same operation. -/
theorem C194_false_params {α P : Type} (vz : Seq → P → Except Err α) (p : List (String × α)) (name : String)
    (hv : name ≠ "VZ") (q : Seq) (a b : P) : lookupGate vz p name q a = lookupGate vz p name q b := by
  simp [lookupGate, hv]

/-- **C194 is false** for an instruction called `VZ`: it is never used. -/
theorem C194_false_vz {α P : Type} (vz : Seq → P → Except Err α) (p : List (String × α)) (q : Seq) (a : P) :
    lookupGate vz p "VZ" q a = vz q a := by
  simp [lookupGate]

/-- C194: operations without qubits: the virtual Z gate raises, the others are looked up with `None` in place of the
qubits. -/
theorem C194_no_qubits {α P : Type} (vz : Seq → P → Except Err α) (p : List (String × α)) (name : String) (a : P) :
    (name = "VZ" → lookupOp vz p ⟨name, none, a, none⟩ = .error .typeError) ∧
    (name ≠ "VZ" → ∀ u, lookupOp vz p ⟨name, none, a, none⟩ = .ok u ↔ dget p (name ++ "None") = some u) := by
  constructor
  · intro h
    simp [lookupOp, h]
  · intro h u
    simp only [lookupOp, if_neg h]
    cases dget p (name ++ "None") <;> simp

/-- **C194 is false** for instructions without targets (which act on the whole register): no list of qubits
addresses them. -/
theorem C194_false_untargeted {α P : Type} (vz : Seq → P → Except Err α) (U : Instr → α) (i : Instr)
    (hi : Plain i.name) (hv : i.name ≠ "VZ") (ht : i.targets = none) (q : List ℕ) (a : P) :
    ∃ p, propagators U (instructions [i]) none = .ok p ∧ dget p i.key = some (U i) ∧
      lookupGate vz p i.name (.list q) a = .error .keyError := by
  obtain ⟨p, hp⟩ := C194_all U [i]
  refine ⟨p, hp, ?_, ?_⟩
  · rw [foldlM_props U _ _ _ _ hp]
    simp [instructions, dset, dget]
  · rw [C194_lookup_partial vz U [i] (by simpa using hi) none p hp i.name hi hv]
    simp [named, ht]

/-- **C194 is false** for tuples: an instruction whose targets are a list is not found by a tuple of the same
qubits. -/
theorem C194_false_tuple {α P : Type} (vz : Seq → P → Except Err α) (U : Instr → α) (i : Instr) (hv : i.name ≠ "VZ")
    (q : List ℕ) (ht : i.targets = some (.list q)) (a : P) :
    ∃ p, propagators U (instructions [i]) none = .ok p ∧
      lookupGate vz p i.name (.list q) a = .ok (U i) ∧
      lookupGate vz p i.name (.tuple q) a = .error .keyError := by
  obtain ⟨p, hp⟩ := C194_all U [i]
  have hg := foldlM_props U _ _ _ _ hp
  have hk : i.key = opKey i.name (.list q) := by simp [Instr.key, ht]
  refine ⟨p, hp, ?_, ?_⟩
  · unfold lookupGate
    rw [if_neg hv, ← hk, hg]
    simp [instructions, dset, dget]
  · unfold lookupGate
    rw [if_neg hv, hg]
    have hne : i.key ≠ opKey i.name (.tuple q) := by
      rw [hk]
      intro h
      have h2 := congrArg (fun s => (String.toList s).getLast?) h
      simp only [opKey, String.toList_ofList, str_getLast] at h2
      simp at h2
    have hd : dget (instructions [i]) (opKey i.name (.tuple q)) = none := by
      rw [dget_instructions]
      simp [hne]
    rw [hd]
    simp [dget]

/-- **C194 is false** for names with brackets: an instruction `rx[0]` without targets replaces the instruction `rx` on
qubit 0. -/
theorem C194_false_collision {α P : Type} (vz : Seq → P → Except Err α) (U : Instr → α) (u v : Arr ℂ) (a : P) :
    ∃ p, propagators U (instructions [⟨"rx", some (.list [0]), u⟩, ⟨"rx[0]", none, v⟩]) none = .ok p ∧
      lookupGate vz p "rx" (.list [0]) a = .ok (U ⟨"rx[0]", none, v⟩) := by
  obtain ⟨p, hp⟩ := C194_all U [⟨"rx", some (.list [0]), u⟩, ⟨"rx[0]", none, v⟩]
  refine ⟨p, hp, ?_⟩
  have hg := foldlM_props U _ _ _ _ hp
  have k0 : opKey "rx" (.list [0]) = "rx[0]" := by decide
  unfold lookupGate
  rw [if_neg (by decide), hg, k0]
  simp [instructions, Instr.key, k0, dset, dget]

/-- **C194 is false** for `as_openqasm`: the operation it returns is never one that `evaluate_qasm` accepts. For an
ideal matrix with more than one entry it raises, for the placeholder of unknown names it adds a keyword that
`lookup_gate` does not have. -/
theorem C194_false_as_openqasm {α P : Type} (vz : Seq → P → Except Err α) (p : List (String × α)) (params : P)
    (i : Instr) (hs : 0 < i.ideal.rows * i.ideal.cols)
    (h1 : i.ideal.rows * i.ideal.cols = 1 → i.ideal.e 0 0 ≠ 0) :
    asOpenqasm params i = .error .valueError ∨
      ∃ g, asOpenqasm params i = .ok g ∧ lookupOp vz p g = .error .typeError := by
  unfold asOpenqasm truth
  rw [if_neg (by omega)]
  by_cases h : i.ideal.rows * i.ideal.cols = 1
  · right
    have := h1 h
    simp [h, this, lookupOp]
  · left
    simp [h]

/-- C194: the assumption of `C194_false_as_openqasm` holds for every instruction with the ideal gate of its name:
known names raise, unknown ones give the operation that is rejected. -/
theorem C194_false_as_openqasm_named {P : Type} (params : P) (keys : List String) (name : String) (t : Option Seq) :
    asOpenqasm params ⟨name, t, C3.Gates.idealFromName keys⟩ =
      if keys.filterMap C3.Gates.lookup = [] then .ok ⟨name, t, params, some (C3.Gates.idealFromName keys)⟩
      else .error .valueError := by
  have hdim : ∀ g : C3.Gates.Gate, 2 ≤ g.dim := by intro g; cases g <;> decide
  have hprod : ∀ l : List C3.Gates.Gate, l ≠ [] → 2 ≤ ((l.map C3.Gates.Gate.arr).map Arr.rows).prod ∧
      2 ≤ ((l.map C3.Gates.Gate.arr).map Arr.cols).prod := by
    intro l hl
    have hpos : ∀ l : List C3.Gates.Gate, 1 ≤ (l.map C3.Gates.Gate.dim).prod := by
      intro l
      exact List.prod_pos fun a ha => by
        obtain ⟨g, _, rfl⟩ := List.mem_map.1 ha
        exact lt_of_lt_of_le (by norm_num) (hdim g)
    obtain ⟨g, gs, rfl⟩ := List.exists_cons_of_ne_nil hl
    have h1 := hpos gs
    have h2 := hdim g
    have : 2 ≤ g.dim * (gs.map C3.Gates.Gate.dim).prod := le_trans h2 (Nat.le_mul_of_pos_right _ h1)
    simp only [List.map_cons, List.map_map, List.prod_cons, Function.comp_def, C3.Gates.Gate.arr]
    exact ⟨this, this⟩
  unfold asOpenqasm truth
  by_cases h : keys.filterMap C3.Gates.lookup = []
  · have : C3.Gates.idealFromName keys = eye 1 1 := by simp [C3.Gates.idealFromName, h, npKronN]
    rw [this]
    simp [h, eye]
  · have hs := npKronN_shape ((keys.filterMap C3.Gates.lookup).map C3.Gates.Gate.arr)
    obtain ⟨a, b⟩ := hprod _ h
    have hr : 2 ≤ (C3.Gates.idealFromName keys).rows := by
      rw [C3.Gates.idealFromName, hs.1]; exact a
    have hc : 2 ≤ (C3.Gates.idealFromName keys).cols := by
      rw [C3.Gates.idealFromName, hs.2]; exact b
    have : 4 ≤ (C3.Gates.idealFromName keys).rows * (C3.Gates.idealFromName keys).cols := Nat.mul_le_mul hr hc
    rw [if_neg (by simp only; omega), if_neg (by simp only; omega), if_neg h]

/-- Instructions on two qubits for which `C194_lookup_partial` tells all operations apart. -/
example (u : Arr ℂ) : ∀ i ∈ [(⟨"rx90p", some (.list [0]), u⟩ : Instr), ⟨"rx90p", some (.list [1]), u⟩,
    ⟨"cx", some (.list [0, 1]), u⟩, ⟨"cx", some (.list [1, 0]), u⟩], Plain i.name := by
  simp [Plain]
example : opKey "cx" (.list [0, 10]) = "cx[0, 10]" := by decide
example : opKey "rx90p" (.tuple [0]) = "rx90p(0,)" := by decide

/-! ## C195: the perfect gate set -/

/-- The targets as `insert_mat_kron` uses them, which does not tell lists and tuples apart. -/
def Seq.qubits : Seq → List ℕ
  | .list l => l
  | .tuple l => l

/-- c3/experiment.py:409-438 `get_perfect_gates`. -/
noncomputable def perfectGates (d : List (String × Instr)) (dims : List ℕ) (keys : Option (List String)) :
    Except Err (List (String × Arr ℂ)) :=
  (keys.getD (d.map Prod.fst)).foldlM (fun p k => match dget d k with
    | none => .error .keyError
    | some i => match C3.Gates.getIdealGate (some i.ideal) (i.targets.map Seq.qubits) dims with
      | none => .error .noIdeal
      | some a => .ok (dset p k a)) []

/-- The gates as operations of a sequence (C168). -/
def asProps (p : List (String × Arr ℂ)) (k : String) : Option Qasm.Op :=
  (dget p k).map fun a => ⟨a.rows, fun i j => a.e i j⟩

theorem perfect_get (d : List (String × Instr)) (dims : List ℕ) (ks : List String) (p0 p : List (String × Arr ℂ))
    (h : ks.foldlM (fun p k => match dget d k with
      | none => Except.error Err.keyError
      | some i => match C3.Gates.getIdealGate (some i.ideal) (i.targets.map Seq.qubits) dims with
        | none => .error .noIdeal
        | some a => .ok (dset p k a)) p0 = .ok p) (k : String) :
    (k ∉ ks → dget p k = dget p0 k) ∧ (k ∈ ks → ∃ i a, dget d k = some i ∧
      C3.Gates.getIdealGate (some i.ideal) (i.targets.map Seq.qubits) dims = some a ∧ dget p k = some a) := by
  induction ks generalizing p0 with
  | nil =>
    simp only [List.foldlM_nil, pure, Except.pure, Except.ok.injEq] at h
    simp [h]
  | cons x ks ih =>
    rw [List.foldlM_cons] at h
    cases hx : dget d x with
    | none => simp [hx, bind, Except.bind] at h
    | some i =>
      cases ha : C3.Gates.getIdealGate (some i.ideal) (i.targets.map Seq.qubits) dims with
      | none => simp [hx, ha, bind, Except.bind] at h
      | some a =>
        simp only [hx, ha, bind, Except.bind] at h
        obtain ⟨h1, h2⟩ := ih _ h
        constructor
        · intro hk
          simp only [List.mem_cons, not_or] at hk
          rw [h1 hk.2, dget_dset, if_neg (Ne.symm hk.1)]
        · intro hk
          by_cases hks : k ∈ ks
          · exact h2 hks
          · obtain rfl : k = x := by simpa [hks] using hk
            exact ⟨i, a, hx, ha, by rw [h1 hks, dget_dset, if_pos rfl]⟩

theorem perfect_ok (d : List (String × Instr)) (dims : List ℕ) (ks : List String) (p0 : List (String × Arr ℂ))
    (h : ∀ k ∈ ks, ∃ i a, dget d k = some i ∧
      C3.Gates.getIdealGate (some i.ideal) (i.targets.map Seq.qubits) dims = some a) :
    ∃ p, ks.foldlM (fun p k => match dget d k with
      | none => Except.error Err.keyError
      | some i => match C3.Gates.getIdealGate (some i.ideal) (i.targets.map Seq.qubits) dims with
        | none => .error .noIdeal
        | some a => .ok (dset p k a)) p0 = .ok p := by
  induction ks generalizing p0 with
  | nil => exact ⟨p0, rfl⟩
  | cons x ks ih =>
    rw [List.foldlM_cons]
    obtain ⟨i, a, hi, ha⟩ := h x List.mem_cons_self
    simp only [hi, ha, bind, Except.bind]
    exact ih _ fun k hk => h k (List.mem_cons_of_mem _ hk)

/-- Specification: the instruction a key stands for, the last one if there are several. -/
def ofKey (is : List Instr) (k : String) : Option Instr := (is.filter fun i => decide (i.key = k)).getLast?

/-- C195: the perfect gate set has, for every requested key, the ideal gate of the instruction with that key on the
register of two-level systems, and nothing else. -/
theorem C195_gates (is : List Instr) (dims : List ℕ) (keys : Option (List String)) (p : List (String × Arr ℂ))
    (h : perfectGates (instructions is) dims keys = .ok p) (k : String) :
    dget p k = if ∀ ks, keys = some ks → k ∈ ks then
      (ofKey is k).bind fun i => C3.Gates.getIdealGate (some i.ideal) (i.targets.map Seq.qubits) dims else none := by
  obtain ⟨h1, h2⟩ := perfect_get _ _ _ _ _ h k
  by_cases hk : k ∈ keys.getD ((instructions is).map Prod.fst)
  · obtain ⟨i, a, hi, ha, hp⟩ := h2 hk
    rw [hp, if_pos, ofKey, ← dget_instructions, hi, Option.bind_some, ha]
    rintro ks rfl
    exact hk
  · rw [h1 hk, dget]
    cases keys with
    | some ks =>
      rw [if_neg]
      intro hc
      exact hk (hc ks rfl)
    | none =>
      rw [Option.getD_none, mem_keys, not_not] at hk
      rw [ofKey, ← dget_instructions, hk]
      simp

/-- C195: it is computed exactly if all requested gates are instructions whose ideal gate fits their targets. -/
theorem C195_defined (is : List Instr) (dims : List ℕ) (keys : Option (List String)) :
    (∃ p, perfectGates (instructions is) dims keys = .ok p) ↔
      ∀ k, (match keys with | some ks => k ∈ ks | none => ofKey is k ≠ none) → ∃ i a, ofKey is k = some i ∧
        C3.Gates.getIdealGate (some i.ideal) (i.targets.map Seq.qubits) dims = some a := by
  have hmem : ∀ k, (match keys with | some ks => k ∈ ks | none => ofKey is k ≠ none) ↔
      k ∈ keys.getD ((instructions is).map Prod.fst) := by
    intro k
    cases keys with
    | some ks => simp
    | none => rw [Option.getD_none, mem_keys, dget_instructions]; rfl
  constructor
  · rintro ⟨p, hp⟩ k hk
    obtain ⟨i, a, hi, ha, -⟩ := (perfect_get _ _ _ _ _ hp k).2 ((hmem k).1 hk)
    rw [dget_instructions] at hi
    exact ⟨i, a, hi, ha⟩
  · intro h
    refine perfect_ok _ _ _ _ fun k hk => ?_
    obtain ⟨i, a, hi, ha⟩ := h k ((hmem k).2 hk)
    exact ⟨i, a, by rw [dget_instructions]; exact hi, ha⟩

/-- An instruction with the name of a gate of the table, on as many distinct qubits of the register. -/
def Standard (n : ℕ) (i : Instr) : Prop :=
  ∃ (g : C3.Gates.Gate) (t : List ℕ), i.ideal = C3.Gates.idealFromName [g.name] ∧ i.targets = some (.list t) ∧
    t.Nodup ∧ (∀ q ∈ t, q < n) ∧ t.length = g.qubits

/-- **C195**, what holds: on registers of two-level systems the perfect gates of standard instructions can replace the
simulated propagators. Every sequence of instructions runs, and the norm of the state stays what it is. Missing: other
registers. -/
theorem C195_replace_partial (is : List Instr) (dims : List ℕ) (hd : ∀ d ∈ dims, d = 2)
    (his : ∀ i ∈ is, Standard dims.length i) :
    ∃ p, perfectGates (instructions is) dims none = .ok p ∧
      ∀ (seq : List String), (∀ k ∈ seq, ∃ i ∈ is, i.key = k) → ∀ psi : Qasm.Vec, psi.dim = dims.prod →
        ∃ out : Qasm.Vec, Qasm.runSeq dims (asProps p) (seq.map .named) psi = .ok out ∧ out.dim = dims.prod ∧
          ∑ i, ‖out.v i‖ ^ 2 = ∑ i, ‖psi.v i‖ ^ 2 := by
  have hprod : dims.prod = 2 ^ dims.length := List.prod_eq_pow_card dims 2 hd
  have hstd : ∀ i ∈ is, ∃ A, C3.Gates.getIdealGate (some i.ideal) (i.targets.map Seq.qubits) dims = some A ∧
      A.rows = 2 ^ dims.length ∧
      (A.mat (List.replicate dims.length 2).prod (List.replicate dims.length 2).prod).conjTranspose *
        A.mat (List.replicate dims.length 2).prod (List.replicate dims.length 2).prod = 1 := by
    intro i hi
    obtain ⟨g, t, h1, h2, h3, h4, h5⟩ := his i hi
    obtain ⟨A, a1, a2, -, -, a5⟩ := C3.Gates.C57_named g t dims h3 h4 h5
    exact ⟨A, by rw [h1, h2]; exact a1, a2, a5⟩
  have hmem : ∀ k i, ofKey is k = some i → i ∈ is := by
    intro k i h
    exact (List.mem_filter.1 (List.mem_of_getLast? h)).1
  obtain ⟨p, hp⟩ := (C195_defined is dims none).2 fun k hk => by
    cases ho : ofKey is k with
    | none => exact absurd ho hk
    | some i =>
      obtain ⟨A, hA, -⟩ := hstd i (hmem k i ho)
      exact ⟨i, A, rfl, hA⟩
  refine ⟨p, hp, ?_⟩
  intro seq
  induction seq with
  | nil => exact fun _ psi h => ⟨psi, rfl, h, rfl⟩
  | cons k seq ih =>
    intro hs psi hdim
    have hk : ∃ A, dget p k = some A ∧ A.rows = 2 ^ dims.length ∧
        (A.mat (List.replicate dims.length 2).prod (List.replicate dims.length 2).prod).conjTranspose *
          A.mat (List.replicate dims.length 2).prod (List.replicate dims.length 2).prod = 1 := by
      cases ho : ofKey is k with
      | none =>
        obtain ⟨i, hi, hik⟩ := hs k List.mem_cons_self
        simp only [ofKey, List.getLast?_eq_none_iff, List.filter_eq_nil_iff] at ho
        exact absurd hik (by simpa using ho i hi)
      | some i =>
        obtain ⟨A, hA, hr⟩ := hstd i (hmem k i ho)
        refine ⟨A, ?_, hr⟩
        rw [C195_gates is dims none p hp k, if_pos (by simp), ho, Option.bind_some, hA]
    obtain ⟨A, hA, hr, hu⟩ := hk
    have hpd : psi.dim = A.rows := by rw [hdim, hprod, hr]
    have happ : Qasm.apply ⟨A.rows, fun i j => A.e i j⟩ psi =
        .ok ⟨A.rows, (Matrix.of fun (i j : Fin A.rows) => A.e i j).mulVec fun i => psi.v (Fin.cast hpd.symm i)⟩ := by
      unfold Qasm.apply
      rw [dif_pos hpd]
      rfl
    obtain ⟨out, o1, o2, o3⟩ := ih (fun k hk => hs k (List.mem_cons_of_mem _ hk))
      ⟨A.rows, (Matrix.of fun (i j : Fin A.rows) => A.e i j).mulVec fun i => psi.v (Fin.cast hpd.symm i)⟩
      (by rw [hprod]; exact hr)
    refine ⟨out, ?_, o2, ?_⟩
    · simp only [List.map_cons, Qasm.runSeq, Qasm.lookup, asProps, hA, Option.map_some, happ]
      exact o1
    · rw [o3]
      have hu' : (Matrix.of fun (i j : Fin A.rows) => A.e i j).conjTranspose *
          (Matrix.of fun (i j : Fin A.rows) => A.e i j) = 1 := by
        have hR : (List.replicate dims.length 2).prod = A.rows := by rw [hr]; simp
        rw [hR] at hu
        exact hu
      rw [C3.Fidelity.sum_norm_mulVec _ hu']
      exact Fintype.sum_equiv (finCongr hpd.symm) _ _ fun _ => rfl

/-- **C195 is false** for registers with a subsystem of three or more levels: no perfect gate can be applied to a state
of the model. -/
theorem C195_false_levels (is : List Instr) (dims : List ℕ) (keys : Option (List String)) (p : List (String × Arr ℂ))
    (h : perfectGates (instructions is) dims keys = .ok p) (h2 : ∀ d ∈ dims, 2 ≤ d) (h3 : ∃ d ∈ dims, 3 ≤ d)
    (k : String) (hk : asProps p k ≠ none) (seq : List Qasm.Call) (psi : Qasm.Vec) (hpsi : psi.dim = dims.prod) :
    Qasm.runSeq dims (asProps p) (.named k :: seq) psi = .error .shape := by
  have hlt : 2 ^ dims.length < dims.prod := by
    clear hpsi h
    induction dims with
    | nil => simp at h3
    | cons d ds ih =>
      have hge : ∀ l : List ℕ, (∀ d ∈ l, 2 ≤ d) → 2 ^ l.length ≤ l.prod := by
        intro l hl
        induction l with
        | nil => simp
        | cons x l ihl =>
          rw [List.length_cons, pow_succ, List.prod_cons, mul_comm]
          exact Nat.mul_le_mul (hl x List.mem_cons_self) (ihl fun y hy => hl y (List.mem_cons_of_mem _ hy))
      have hds := hge ds fun y hy => h2 y (List.mem_cons_of_mem _ hy)
      rw [List.length_cons, pow_succ, List.prod_cons, mul_comm]
      by_cases hd : 3 ≤ d
      · calc 2 * 2 ^ ds.length < 3 * 2 ^ ds.length := by
              have : 0 < 2 ^ ds.length := by positivity
              omega
          _ ≤ d * ds.prod := Nat.mul_le_mul hd hds
      · have : ∃ d ∈ ds, 3 ≤ d := by
          obtain ⟨x, hx, hx3⟩ := h3
          rcases List.mem_cons.1 hx with rfl | hx
          · exact absurd hx3 hd
          · exact ⟨x, hx, hx3⟩
        have hi := ih (fun y hy => h2 y (List.mem_cons_of_mem _ hy)) this
        have hd2 := h2 d List.mem_cons_self
        calc 2 * 2 ^ ds.length < 2 * ds.prod := by omega
          _ ≤ d * ds.prod := Nat.mul_le_mul_right _ hd2
  unfold asProps at hk
  cases ha : dget p k with
  | none => simp [ha] at hk
  | some a =>
    have hr : a.rows = 2 ^ dims.length := by
      have := C195_gates is dims keys p h k
      rw [ha] at this
      split_ifs at this with hc
      · cases ho : ofKey is k with
        | none => simp [ho] at this
        | some i =>
          rw [ho, Option.bind_some] at this
          exact (C3.Gates.ideal_rows _ _ _ _ this.symm).1
    simp only [Qasm.runSeq, Qasm.lookup, asProps, ha, Option.map_some]
    unfold Qasm.apply
    rw [dif_neg]
    rw [hpsi]
    simp only [hr]
    omega

/-- Instructions and registers for which the theorems apply. -/
example : Standard 2 ⟨C3.Gates.Gate.cx.name, some (.list [1, 0]), C3.Gates.idealFromName [C3.Gates.Gate.cx.name]⟩ :=
  ⟨.cx, [1, 0], rfl, rfl, by decide, by decide, by decide⟩
example : (∀ d ∈ [2, 3], 2 ≤ d) ∧ ∃ d ∈ [2, 3], 3 ≤ d := by decide

end C3.Experiment.Lookup
