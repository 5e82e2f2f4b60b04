import Mathlib.Data.List.Basic
import Mathlib.Data.Real.Basic
import Mathlib.Tactic.Common

/-!
# C201: The parameters a chip element is constructed with

Models the constructors of c3/libraries/chip.py (`PhysicalComponent` 38-45, `Qubit` 120-150, `Resonator` 246, `Transmon`
306-356, `TransmonExpanded` 471, `CShuntFluxQubitCos` 558-602, `CShuntFluxQubit` 673-723, `Fluxonium` 932-981, `SNAIL`
1045-1078, `LineComponent` 1132-1140, `Coupling` 1168-1188, `Drive` 1206) on top of `C3obj.__init__`
(c3/c3objs.py:32-43), and `asdict` of the elements (c3/libraries/chip.py:89-97, 1142-1152).

Simplified: name, description, dimension, connected elements and Hamiltonian function are given and not followed.
-/

namespace C3.Chip.Construct

/-! ## Model -/

/-- A value among the parameters. -/
inductive Val where
  /-- a `Quantity` object of some length that the caller holds, too; `r` is its identity -/
  | shared (r len : ℕ)
  /-- a `Quantity` made from the entry of a configuration file -/
  | own (len : ℕ)
  /-- the entry of a configuration file -/
  | entry (len : ℕ)
  | num (n : ℕ)
  | none
  deriving DecidableEq

/-- Python truth value: `Quantity` has a length (c3/c3objs.py:206-207). -/
def Val.truthy : Val → Bool
  | .shared _ len => len ≠ 0
  | .own len => len ≠ 0
  | .entry _ => true
  | .num n => n ≠ 0
  | .none => false

/-- A dictionary of parameters; the order does not matter here. -/
abbrev Dict := String → Option Val

def Dict.empty : Dict := fun _ => .none

inductive Cls where
  | qubit | resonator | transmon | expanded | fluxCos | flux | fluxonium | snail | coupling | drive
  deriving DecidableEq

inductive Err where
  | type       -- unexpected keyword
  | attribute  -- `None.pop`
  deriving DecidableEq

/-- The keyword parameters besides those not followed here. -/
def accepted : Cls → List String
  | .qubit => ["freq", "anhar", "t1", "t2star", "temp"]
  | .resonator => []
  | .transmon => ["freq", "anhar", "phi", "phi_0", "gamma", "d", "t1", "t2star", "temp"]
  | .expanded => ["freq", "anhar", "phi", "phi_0", "gamma", "d", "t1", "t2star", "temp"]
  | .fluxCos => ["calc_dim", "EC", "EJ", "EL", "phi", "phi_0", "gamma", "d", "t1", "t2star", "temp", "anhar"]
  | .flux => ["calc_dim", "EC", "EJ", "EL", "phi", "phi_0", "gamma", "d", "t1", "t2star", "temp", "anhar", "resolution"]
  | .fluxonium => ["calc_dim", "EC", "EJ", "EL", "phi", "phi_0", "gamma", "t1", "t2star", "temp"]
  | .snail => ["freq", "anhar", "beta", "t1", "t2star", "temp"]
  | .coupling => ["strength"]
  | .drive => []

/-- The keyword parameters stored `if` they are true. -/
def stored : Cls → List String
  | .qubit => ["freq", "anhar", "t1", "t2star", "temp"]
  | .resonator => []
  | .transmon => ["freq", "phi", "phi_0", "d", "gamma", "anhar", "t1", "t2star", "temp"]
  | .expanded => ["freq", "phi", "phi_0", "d", "gamma", "anhar", "t1", "t2star", "temp"]
  | .fluxCos => ["t1", "t2star", "temp", "EC", "EJ", "EL", "phi", "phi_0", "gamma", "calc_dim"]
  | .flux => ["t1", "t2star", "temp", "EC", "EJ", "EL", "phi", "phi_0", "gamma", "calc_dim"]
  | .fluxonium => ["t1", "t2star", "temp", "EC", "EJ", "phi", "phi_0", "gamma", "EL"]
  | .snail => ["t1", "t2star", "temp", "anhar"]
  | .coupling => ["strength"]
  | .drive => []

/-- The keyword parameters stored whatever they are. -/
def always : Cls → List String
  | .snail => ["freq", "beta"]
  | _ => []

/-- `isinstance(par, dict)`: entries of a configuration file become quantities. -/
def Val.load : Val → Val
  | .entry len => .own len
  | v => v

/-- `if x:` for a keyword parameter that may be missing. -/
def isTrue : Option Val → Bool
  | some v => v.truthy
  | .none => false

/-- `if d: ... elif gamma: ...` of the transmon (c3/libraries/chip.py:336-339). -/
def skipped (c : Cls) (kw : Dict) (k : String) : Bool :=
  (c = .transmon ∨ c = .expanded) ∧ k = "gamma" ∧ isTrue (kw "d") = true

/-- The parameters of the new element. -/
def stores (c : Cls) (kw : Dict) (params : Dict) : Dict := fun k =>
  if k ∈ always c then some ((kw k).getD .none)
  else if k ∈ stored c ∧ skipped c kw k = false ∧ isTrue (kw k) = true then kw k
  else (params k).map Val.load

/-- `params.pop` of the flux qubits (c3/libraries/chip.py:707-708): the dictionary the caller is left with. -/
def popPorts (params : Dict) : Dict := fun k => if k = "inputs" ∨ k = "outputs" then .none else params k

/-- The constructors: the parameters of the new element and the dictionary of the caller afterwards. -/
noncomputable def build (c : Cls) (kw : Dict) (params : Option Dict) : Except Err (Dict × Option Dict) :=
  open scoped Classical in
  if ∃ k, kw k ≠ .none ∧ k ∉ accepted c then .error .type
  else match c, params with
    | .fluxonium, .none => .error .attribute
    | .fluxonium, some p => .ok (stores c kw p, some (popPorts p))
    | .flux, some p => .ok (stores c kw p, some (popPorts p))
    | _, p => .ok (stores c kw (p.getD Dict.empty), p)

/-- Whether `asdict` works: every parameter has a method `asdict`. -/
def Writable (d : Dict) : Prop := ∀ k v, d k = some v → (∃ r len, v = .shared r len) ∨ ∃ len, v = .own len

/-! ## Specification -/

/-- The parameters an element has a meaning for, which may be given by name. -/
def named : Cls → List String
  | .qubit => ["freq", "anhar", "t1", "t2star", "temp"]
  | .resonator => []
  | .transmon => ["freq", "phi", "phi_0", "d", "anhar", "t1", "t2star", "temp"]
  | .expanded => ["freq", "phi", "phi_0", "d", "anhar", "t1", "t2star", "temp"]
  | .fluxCos => ["EC", "EJ", "EL", "phi", "phi_0", "gamma", "calc_dim", "t1", "t2star", "temp"]
  | .flux => ["EC", "EJ", "EL", "phi", "phi_0", "gamma", "calc_dim", "t1", "t2star", "temp"]
  | .fluxonium => ["EC", "EJ", "EL", "phi", "phi_0", "gamma", "t1", "t2star", "temp"]
  | .snail => ["freq", "anhar", "beta", "t1", "t2star", "temp"]
  | .coupling => ["strength"]
  | .drive => []

/-- A quantity with at least one value; also zero. -/
def Val.isQuantity (v : Val) : Prop := (∃ r len, 0 < len ∧ v = .shared r len) ∨ ∃ len, 0 < len ∧ v = .own len

theorem isQuantity_truthy (v : Val) (h : v.isQuantity) : v.truthy = true := by
  rcases h with ⟨r, len, h, rfl⟩ | ⟨len, h, rfl⟩ <;> simp [Val.truthy] <;> omega

theorem build_eq (c : Cls) (kw : Dict) (params : Option Dict) (r : Dict × Option Dict) (h : build c kw params = .ok r) :
    (∀ k, kw k ≠ .none → k ∈ accepted c) ∧ r.1 = stores c kw (params.getD Dict.empty) := by
  unfold build at h
  split at h
  · cases h
  · rename_i hk
    push Not at hk
    refine ⟨hk, ?_⟩
    split at h
    · cases h
    · cases h; rfl
    · cases h; rfl
    · cases h; rfl

theorem named_value (c : Cls) (kw : Dict) (params : Option Dict) (r : Dict × Option Dict)
    (h : build c kw params = .ok r) (k : String) (hk : k ∈ named c) (v : Val) (hv : kw k = some v) (ht : v.truthy = true) :
    r.1 k = some v := by
  rw [(build_eq c kw params r h).2]
  unfold stores
  by_cases ha : k ∈ always c
  · rw [if_pos ha, hv]; rfl
  · rw [if_neg ha, if_pos, hv]
    refine ⟨?_, ?_, by rw [hv]; exact ht⟩
    · have : ∀ c, ∀ k ∈ named c, k ∉ always c → k ∈ stored c := by
        intro c
        cases c <;> decide
      exact this c k hk ha
    · have : ∀ c, ∀ k ∈ named c, (c = .transmon ∨ c = .expanded) → k ≠ "gamma" := by
        intro c
        cases c <;> decide
      unfold skipped
      rw [decide_eq_false_iff_not]
      rintro ⟨h1, h2, -⟩
      exact this c k hk h1 h2

/-! ## Theorems -/

/-- **C201**, what holds for all elements: a quantity given by name is the parameter of that name, whatever the dictionary
contains, also if its value is zero. Missing: `gamma` next to `d`, see `C201_gamma`, and arguments without effect, see
`C201_false_ignored`. -/
theorem C201_named_partial (c : Cls) (kw : Dict) (params : Option Dict) (r : Dict × Option Dict)
    (h : build c kw params = .ok r) (k : String) (hk : k ∈ named c) (v : Val) (hv : kw k = some v) (hq : v.isQuantity) :
    r.1 k = some v :=
  named_value c kw params r h k hk v hv (isQuantity_truthy v hq)

/-- C201: the arguments an element accepts are those with a meaning, `gamma` of a transmon, and some without effect; any
other one is refused. Without a dictionary no fluxonium can be constructed; every other element can. -/
theorem C201_accepts (c : Cls) (kw : Dict) (params : Option Dict) :
    (∃ r, build c kw params = .ok r) ↔ (c = .fluxonium → params ≠ .none) ∧ ∀ k, kw k ≠ .none → k ∈ named c ∨
      (k = "gamma" ∧ (c = .transmon ∨ c = .expanded)) ∨ ((k = "d" ∨ k = "anhar") ∧ (c = .flux ∨ c = .fluxCos)) ∨
      (k = "resolution" ∧ c = .flux) ∨ (k = "calc_dim" ∧ c = .fluxonium) := by
  have hacc : ∀ k, k ∈ accepted c ↔ k ∈ named c ∨
      (k = "gamma" ∧ (c = .transmon ∨ c = .expanded)) ∨ ((k = "d" ∨ k = "anhar") ∧ (c = .flux ∨ c = .fluxCos)) ∨
      (k = "resolution" ∧ c = .flux) ∨ (k = "calc_dim" ∧ c = .fluxonium) := by
    intro k
    cases c <;> simp [accepted, named] <;> tauto
  simp only [← hacc]
  unfold build
  split
  · rename_i hk
    obtain ⟨k, h1, h2⟩ := hk
    simp only [reduceCtorEq, exists_false, false_iff, not_and, not_forall]
    exact fun _ => ⟨k, h1, h2⟩
  · rename_i hk
    push Not at hk
    have : ∀ k, kw k ≠ .none → k ∈ accepted c := hk
    cases c <;> cases params <;> simp_all

/-- C201: the number `calc_dim` of a flux qubit is stored if it is not zero; zero, and `None` for any parameter, stand for
an argument that is not given. -/
theorem C201_number (c : Cls) (hc : c = .flux ∨ c = .fluxCos) (kw : Dict) (params : Option Dict) (r : Dict × Option Dict)
    (h : build c kw params = .ok r) :
    (∀ n : ℕ, n ≠ 0 → kw "calc_dim" = some (.num n) → r.1 "calc_dim" = some (.num n)) ∧
    (kw "calc_dim" = some (.num 0) → r.1 "calc_dim" = ((params.getD Dict.empty) "calc_dim").map Val.load) ∧
    (∀ k, kw k = some .none → r.1 k = ((params.getD Dict.empty) k).map Val.load) := by
  rw [(build_eq c kw params r h).2]
  refine ⟨fun n hn hk => ?_, fun hk => ?_, fun k hk => ?_⟩
  · rcases hc with rfl | rfl <;> simp [stores, always, stored, skipped, hk, isTrue, Val.truthy, hn]
  · rcases hc with rfl | rfl <;> simp [stores, always, hk, isTrue, Val.truthy]
  · rcases hc with rfl | rfl <;> simp [stores, always, hk, isTrue, Val.truthy]

/-- C201: the entry of a configuration file given by name is stored as it is, and such an element cannot be written. -/
theorem C201_false_entry (c : Cls) (kw : Dict) (params : Option Dict) (r : Dict × Option Dict)
    (h : build c kw params = .ok r) (k : String) (hk : k ∈ named c) (len : ℕ) (hv : kw k = some (.entry len)) :
    r.1 k = some (.entry len) ∧ ¬ Writable r.1 := by
  have h1 : r.1 k = some (.entry len) := named_value c kw params r h k hk _ hv rfl
  refine ⟨h1, fun hw => ?_⟩
  rcases hw _ _ h1 with ⟨_, _, h2⟩ | ⟨_, h2⟩ <;> cases h2

/-- C201: the asymmetry of a transmon can be given as `d` or as `gamma`; with both, `gamma` is not used. -/
theorem C201_gamma (c : Cls) (hc : c = .transmon ∨ c = .expanded) (kw : Dict) (params : Option Dict)
    (r : Dict × Option Dict) (h : build c kw params = .ok r) (v : Val) (hv : kw "gamma" = some v) (hq : v.isQuantity) :
    (isTrue (kw "d") = false → r.1 "gamma" = some v) ∧
    (isTrue (kw "d") = true → r.1 "gamma" = ((params.getD Dict.empty) "gamma").map Val.load) := by
  rw [(build_eq c kw params r h).2]
  have ht := isQuantity_truthy v hq
  have hg : isTrue (kw "gamma") = true := by rw [hv]; exact ht
  constructor
  · intro hd
    rcases hc with rfl | rfl <;> (simp only [stores, always, stored, skipped, hd, hg]; simp [hv])
  · intro hd
    rcases hc with rfl | rfl <;> simp [stores, always, skipped, hd]

/-- C201: everything not given by name is taken from the dictionary, entries of configuration files as new quantities. -/
theorem C201_rest_partial (c : Cls) (kw : Dict) (params : Option Dict) (r : Dict × Option Dict)
    (h : build c kw params = .ok r) (k : String) (hk : kw k = .none) (hc : c ≠ .snail) :
    r.1 k = ((params.getD Dict.empty) k).map Val.load := by
  rw [(build_eq c kw params r h).2]
  unfold stores
  have : always c = [] := by cases c <;> first | rfl | exact absurd rfl hc
  rw [this, if_neg (by simp), if_neg (by simp [hk, isTrue])]

/-- C201: an element can be written if all its parameters are quantities or entries of a configuration file, with the
exception of `calc_dim`, which is a number, and of SNAILs without frequency or `beta`. -/
theorem C201_writable_partial (c : Cls) (kw : Dict) (params : Option Dict) (r : Dict × Option Dict)
    (h : build c kw params = .ok r) (hs : c = .snail → ∀ k ∈ always c, ∃ v, kw k = some v ∧ v.isQuantity)
    (hkw : ∀ k v, kw k = some v → v.isQuantity)
    (hp : ∀ k v, (params.getD Dict.empty) k = some v → v.isQuantity ∨ ∃ len, v = .entry len) : Writable r.1 := by
  rw [(build_eq c kw params r h).2]
  have hw : ∀ v : Val, v.isQuantity → (∃ r len, v = .shared r len) ∨ ∃ len, v = .own len := by
    rintro v (⟨r, len, -, rfl⟩ | ⟨len, -, rfl⟩)
    · exact Or.inl ⟨r, len, rfl⟩
    · exact Or.inr ⟨len, rfl⟩
  intro k v hv
  unfold stores at hv
  split at hv
  · rename_i ha
    have hc : c = .snail := by
      cases c <;> first | rfl | (simp [always] at ha)
    obtain ⟨w, h1, h2⟩ := hs hc k ha
    rw [h1] at hv
    cases hv
    exact hw _ h2
  · split at hv
    · exact hw _ (hkw k v hv)
    · obtain ⟨w, h1, rfl⟩ := Option.map_eq_some_iff.1 hv
      rcases hp k w h1 with h2 | ⟨len, rfl⟩
      · rcases h2 with ⟨r, len, -, rfl⟩ | ⟨len, -, rfl⟩
        · exact Or.inl ⟨r, len, rfl⟩
        · exact Or.inr ⟨len, rfl⟩
      · exact Or.inr ⟨len, rfl⟩

/-- **C201 is false** for arguments of the flux qubits: `d` and `anhar` are accepted without effect, and `calc_dim` of a
fluxonium. -/
theorem C201_false_ignored (c : Cls) (k : String)
    (hk : (c = .flux ∧ (k = "d" ∨ k = "anhar")) ∨ (c = .fluxCos ∧ (k = "d" ∨ k = "anhar")) ∨ (c = .fluxonium ∧ k = "calc_dim"))
    (kw : Dict) (params : Option Dict) (r : Dict × Option Dict) (h : build c kw params = .ok r) :
    k ∈ accepted c ∧ r.1 k = ((params.getD Dict.empty) k).map Val.load := by
  rw [(build_eq c kw params r h).2]
  rcases hk with ⟨rfl, rfl | rfl⟩ | ⟨rfl, rfl | rfl⟩ | ⟨rfl, rfl⟩ <;> simp [stores, always, stored, accepted]

/-- **C201 is false** for fluxoniums: without a dictionary none can be constructed. -/
theorem C201_false_fluxonium (kw : Dict) : ∃ e, build .fluxonium kw .none = .error e := by
  unfold build
  split
  · exact ⟨_, rfl⟩
  · exact ⟨_, rfl⟩

/-- **C201 is false** for resonators: their frequency cannot be given by name. -/
theorem C201_false_resonator (v : Val) (params : Option Dict) :
    build .resonator (fun k => if k = "freq" then some v else .none) params = .error .type := by
  unfold build
  rw [if_pos]
  exact ⟨"freq", by simp, by simp [accepted]⟩

/-- **C201 is false** for SNAILs whose frequency is in the dictionary: it is replaced by `None`, and the element cannot be
written. -/
theorem C201_false_snail (params : Dict) (kw : Dict) (hkw : kw "freq" = .none) (r : Dict × Option Dict)
    (h : build .snail kw (some params) = .ok r) : r.1 "freq" = some .none ∧ ¬ Writable r.1 := by
  have h1 : r.1 "freq" = some .none := by
    rw [(build_eq _ kw _ r h).2]
    simp [stores, always, hkw]
  refine ⟨h1, fun hw => ?_⟩
  rcases hw _ _ h1 with ⟨_, _, h2⟩ | ⟨_, h2⟩ <;> cases h2

/-- **C201 is false** for the number of inputs of a flux qubit in the dictionary: it becomes a parameter, so that the
element cannot be written, and it is removed from the dictionary, so that a second element gets another number. -/
theorem C201_false_ports (n : ℕ) (params : Dict) (hn : params "inputs" = some (.num n)) (kw : Dict)
    (r : Dict × Option Dict) (h : build .flux kw (some params) = .ok r) :
    ¬ Writable r.1 ∧ ∃ p, r.2 = some p ∧ p "inputs" = .none := by
  have h1 : r.1 "inputs" = some (.num n) := by
    rw [(build_eq _ kw _ r h).2]
    simp [stores, always, stored, hn, Val.load]
  constructor
  · intro hw
    rcases hw _ _ h1 with ⟨_, _, h2⟩ | ⟨_, h2⟩ <;> cases h2
  · unfold build at h
    split at h
    · cases h
    · simp only [Except.ok.injEq] at h
      subst h
      exact ⟨_, rfl, by simp [popPorts]⟩

/-- The caller's dictionary is left alone by the other elements. -/
theorem C201_dictionary (c : Cls) (hc : c ≠ .flux) (hc' : c ≠ .fluxonium) (kw : Dict) (params : Option Dict)
    (r : Dict × Option Dict) (h : build c kw params = .ok r) : r.2 = params := by
  unfold build at h
  split at h
  · cases h
  · cases c <;> first | exact absurd rfl hc | exact absurd rfl hc' | (cases h; rfl)

/-- Reading a parameter of an element; `heap` are the values of the quantities the caller holds, `mine` those of the
element. -/
def readPar (heap : ℕ → ℝ) (mine : String → ℝ) (d : Dict) (k : String) : Option ℝ :=
  match d k with
  | some (.shared r _) => some (heap r)
  | some (.own _) => some (mine k)
  | _ => .none

/-- Setting a parameter of an element. -/
noncomputable def writePar (heap : ℕ → ℝ) (mine : String → ℝ) (d : Dict) (k : String) (x : ℝ) : (ℕ → ℝ) × (String → ℝ) :=
  match d k with
  | some (.shared r _) => (Function.update heap r x, mine)
  | some (.own _) => (heap, Function.update mine k x)
  | _ => (heap, mine)

/-- **C201 is false** for independence: two elements built from one dictionary of quantities have one parameter, and
setting it in the first changes the second. -/
theorem C201_false_shared (c c' : Cls) (hc : c ≠ .snail) (hc' : c' ≠ .snail) (params : Dict) (k : String) (ref len : ℕ)
    (hk : params k = some (.shared ref len)) (r r' : Dict × Option Dict)
    (h : build c Dict.empty (some params) = .ok r) (h' : build c' Dict.empty (some params) = .ok r')
    (heap : ℕ → ℝ) (mine mine' : String → ℝ) (x : ℝ) :
    readPar (writePar heap mine r.1 k x).1 mine' r'.1 k = some x := by
  have h1 := C201_rest_partial c _ _ r h k rfl hc
  have h2 := C201_rest_partial c' _ _ r' h' k rfl hc'
  simp only [Option.getD_some, hk, Option.map_some, Val.load] at h1 h2
  simp [readPar, writePar, h1, h2]

/-- C201: elements built from the entries of a configuration file are independent, also if built from the same ones. -/
theorem C201_own (c c' : Cls) (hc : c ≠ .snail) (hc' : c' ≠ .snail) (params : Dict) (k : String) (len : ℕ)
    (hk : params k = some (.entry len)) (r r' : Dict × Option Dict)
    (h : build c Dict.empty (some params) = .ok r) (h' : build c' Dict.empty (some params) = .ok r')
    (heap : ℕ → ℝ) (mine mine' : String → ℝ) (x : ℝ) :
    readPar (writePar heap mine r.1 k x).1 mine' r'.1 k = readPar heap mine' r'.1 k ∧
    readPar (writePar heap mine r.1 k x).1 (writePar heap mine r.1 k x).2 r.1 k = some x := by
  have h1 := C201_rest_partial c _ _ r h k rfl hc
  have h2 := C201_rest_partial c' _ _ r' h' k rfl hc'
  simp only [Option.getD_some, hk, Option.map_some, Val.load] at h1 h2
  simp [readPar, writePar, h1, h2]

/-- A transmon with all kinds of arguments. -/
example : ∃ r, build .transmon (fun k => if k = "freq" then some (.shared 1 1) else if k = "gamma" then some (.shared 2 1) else .none)
    (some fun k => if k = "phi" then some (.entry 1) else .none) = .ok r ∧ r.1 "freq" = some (.shared 1 1) ∧
      r.1 "gamma" = some (.shared 2 1) ∧ r.1 "phi" = some (.own 1) := by
  unfold build
  rw [if_neg]
  · exact ⟨_, rfl, by decide +kernel, by decide +kernel, by decide +kernel⟩
  push Not
  intro k hk
  by_contra hc
  simp only [accepted, List.mem_cons, List.not_mem_nil, or_false, not_or] at hc
  simp [hc] at hk

example : ∃ r, build .flux Dict.empty (some fun k => if k = "inputs" then some (.num 1) else .none) = .ok r := by
  unfold build
  rw [if_neg (by simp [Dict.empty])]
  exact ⟨_, rfl⟩

end C3.Chip.Construct
