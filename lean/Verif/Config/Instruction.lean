import Verif.Config.Dict
import Mathlib.Data.Real.Basic
import Mathlib.Tactic.Linarith
import Mathlib.Tactic.NormNum

/-!
# Instructions through a configuration file (C128, C129)

Model of `Envelope`/`Carrier` construction and `asdict` (c3/signal/pulse.py:34-80, 242-262), of
`Instruction.__init__`, `set_name`, `set_ideal`, `asdict`, `from_dict` and `add_component`
(c3/signal/gates.py:71-257) and of `ParameterMap.fromdict`/`asdict` (c3/parametermap.py:132-168).

`Q` are quantities; that a quantity survives its dictionary form is C06, that the file keeps dictionaries,
arrays and numbers is C127, so quantities, ideal gates and options are passed through unchanged here. `I`
are ideal gates (arrays), `O` the options of one component.
-/

namespace C3.Config.Instr

/-- The registered component classes, c3/signal/pulse.py:22, 144, 183, 241. -/
inductive Cls where
  | envelope | drag | netzero | carrier
  deriving DecidableEq

/-- A component of an instruction: the attributes the constructors set. `shape` is the name of the shape
function (`none` for carriers). -/
structure Comp (Q : Type) where
  cls : Cls
  name : String
  desc : String
  comment : String
  params : List (String × Q)
  shape : Option String
  useTBefore : Bool

/-- Keyword arguments of a component constructor, as found in a file. -/
structure CompCfg (Q : Type) where
  c3type : Cls
  name : Option String
  shape : Option String
  params : List (String × Q)

inductive Err where
  | key (k : String)
  /-- an object where a dictionary is expected -/
  | attribute
  deriving DecidableEq

/-- What construction depends on: the default parameters of the two families (pulse.py:47-54, 252-255), the
shapes registered in c3/libraries/envelopes.py, the gate table and the product of gates. -/
structure Env (Q I : Type) where
  envDefaults : List (String × Q)
  carDefaults : List (String × Q)
  shapes : List String
  gate : String → Option I
  kron : List I → I

/-- Default parameters of a class. -/
def Env.dflt {Q I : Type} (w : Env Q I) : Cls → List (String × Q)
  | .carrier => w.carDefaults
  | _ => w.envDefaults

variable {Q I O : Type}

/-- The constructors called with keywords `name`, `shape`, `params` (pulse.py:34-62, 245-262): a shape given
by name is looked up, the parameters are written over the defaults, `desc` and `comment` are " " and
`use_t_before` is `False`. -/
def makeComp (w : Env Q I) (key : String) (c : CompCfg Q) : Except Err (Comp Q) :=
  match c.shape with
  | some s =>
    if s ∈ w.shapes then .ok ⟨c.c3type, c.name.getD key, " ", " ", dupdate (w.dflt c.c3type) c.params, some s, false⟩
    else .error (.key s)
  | none => .ok ⟨c.c3type, c.name.getD key, " ", " ", dupdate (w.dflt c.c3type) c.params, none, false⟩

/-- `asdict` of a component (pulse.py:71-80, c3/c3objs.py:48-52). -/
def Comp.asdict (c : Comp Q) : CompCfg Q := ⟨c.cls, some c.name, c.shape, c.params⟩

/-- An instruction. -/
structure Instruction (Q I O P : Type) where
  name : String
  targets : Option (List ℕ)
  params : P
  ideal : I
  tStart : ℝ
  tEnd : ℝ
  comps : List (String × List (String × Comp Q))
  options : List (String × List (String × O))
  fixedTEnd : Bool

/-- The dictionary of an instruction. `drive` is what the reader finds under `drive_channels`. -/
structure Cfg (Q I O P D : Type) where
  name : Option String
  targets : Option (List ℕ)
  params : P
  ideal : Option I
  gateLength : ℝ
  drive : List (String × List (String × D))
  options : Option (List (String × List (String × O)))
  fixedTEnd : Option Bool

variable {P : Type}

/-- gates.py:125-138 `set_ideal(None)`: the gates named in the parts of the name between colons; unknown
parts are left out with a warning. -/
def idealOf (w : Env Q I) (name : String) : I := w.kron ((name.splitOn ":").filterMap w.gate)

/-- gates.py:121-123 `set_name`. The second argument is not used. -/
def setName (w : Env Q I) (i : Instruction Q I O P) (name : String) (_ideal : Option I) : Instruction Q I O P :=
  { i with name := name, ideal := idealOf w name }

/-- gates.py:169-186 `asdict`. The converted components of lines 170-174 are not used; line 185 takes the
copied objects. -/
def Instruction.asdict (i : Instruction Q I O P) : Cfg Q I O P (Comp Q) where
  name := some i.name
  targets := i.targets
  params := i.params
  ideal := some i.ideal
  gateLength := i.tEnd - i.tStart
  drive := i.comps
  options := some i.options
  fixedTEnd := some i.fixedTEnd

/-- `hjson.dump` and `hjson.loads` of such a dictionary: `hjson_encode` (c3/c3objs.py:389-390) turns every
component into its dictionary. -/
def throughFile (c : Cfg Q I O P (Comp Q)) : Cfg Q I O P (CompCfg Q) :=
  { name := c.name, targets := c.targets, params := c.params, ideal := c.ideal, gateLength := c.gateLength,
    drive := c.drive.map fun p => (p.1, p.2.map fun q => (q.1, q.2.asdict)),
    options := c.options, fixedTEnd := c.fixedTEnd }

/-- gates.py:202-212 for one channel: construct and add the components. Options come from
`options[drive_chan][comp]` if the options dictionary is not empty; `empty` is `dict()`. -/
def readComps (w : Env Q I) (empty : O) (opts : Option (List (String × List (String × O)))) (chan : String) :
    List (String × CompCfg Q) → Except Err (List (String × Comp Q) × List (String × O))
  | [] => .ok ([], [])
  | (k, c) :: l =>
    match makeComp w k c with
    | .error e => .error e
    | .ok comp =>
      let opt : Except Err O :=
        match opts with
        | none => .ok empty
        | some os =>
          if os.isEmpty then .ok empty
          else
            match dget os chan with
            | none => .error (.key chan)
            | some d =>
              match dget d k with
              | none => .error (.key k)
              | some o => .ok o
      match opt with
      | .error e => .error e
      | .ok o =>
        match readComps w empty opts chan l with
        | .error e => .error e
        | .ok (cs, os) => .ok ((k, comp) :: cs, (k, o) :: os)

/-- gates.py:202-212, all channels. -/
def readChans (w : Env Q I) (empty : O) (opts : Option (List (String × List (String × O)))) :
    List (String × List (String × CompCfg Q)) →
    Except Err (List (String × List (String × Comp Q)) × List (String × List (String × O)))
  | [] => .ok ([], [])
  | (ch, l) :: r =>
    match readComps w empty opts ch l with
    | .error e => .error e
    | .ok (cs, os) =>
      match readChans w empty opts r with
      | .error e => .error e
      | .ok (a, b) => .ok ((ch, cs) :: a, (ch, os) :: b)

/-- gates.py:188-212 `from_dict`: `t_start` is 0, `t_end` the gate length, a missing ideal is set from the
name, a missing `fixed_t_end` is `True`. Keys of dictionaries are distinct, so `add_component` adds each
component at the end. -/
def fromDict (w : Env Q I) (empty : O) (c : Cfg Q I O P (CompCfg Q)) (key : String) :
    Except Err (Instruction Q I O P) :=
  match readChans w empty c.options c.drive with
  | .error e => .error e
  | .ok (cs, os) =>
    .ok { name := c.name.getD key, targets := c.targets, params := c.params,
          ideal := c.ideal.getD (idealOf w (c.name.getD key)), tStart := 0, tEnd := c.gateLength,
          comps := cs, options := os, fixedTEnd := c.fixedTEnd.getD true }

/-- gates.py:188-212 called with the result of `asdict` without a file in between: the components are
objects, and `props.pop` is an attribute error. -/
def fromDictObjects (w : Env Q I) (empty : O) (c : Cfg Q I O P (Comp Q)) (key : String) :
    Except Err (Instruction Q I O P) :=
  if c.drive.any (fun p => !p.2.isEmpty) then .error .attribute
  else fromDict w empty (throughFile c) key

/-! ## Specification -/

/-- What a file keeps of a component: class, name, shape, parameters. -/
def Comp.kept (c : Comp Q) : Comp Q := { c with desc := " ", comment := " ", useTBefore := false }

/-- What a file keeps of an instruction: everything, with the start moved to zero. -/
def Instruction.kept (i : Instruction Q I O P) : Instruction Q I O P :=
  { i with
    tStart := 0
    tEnd := i.tEnd - i.tStart
    comps := i.comps.map fun p => (p.1, p.2.map fun q => (q.1, q.2.kept)) }

/-- Instructions as the constructors build them: distinct keys, options for exactly the components, the
parameters contain the defaults first, and shapes are registered. -/
structure Built (w : Env Q I) (i : Instruction Q I O P) : Prop where
  env : Distinct w.envDefaults
  car : Distinct w.carDefaults
  chans : Distinct i.comps
  names : ∀ p ∈ i.comps, Distinct p.2
  opts : i.options.map (fun p => (p.1, p.2.map Prod.fst)) = i.comps.map fun p => (p.1, p.2.map Prod.fst)
  dflt : ∀ p ∈ i.comps, ∀ q ∈ p.2, ∃ g, Distinct g ∧ q.2.params = dupdate (w.dflt q.2.cls) g
  shape : ∀ p ∈ i.comps, ∀ q ∈ p.2, ∀ s, q.2.shape = some s → s ∈ w.shapes

theorem makeComp_asdict (w : Env Q I) (key : String) (c : Comp Q) (hd : Distinct (w.dflt c.cls))
    (hg : ∃ g, Distinct g ∧ c.params = dupdate (w.dflt c.cls) g) (hs : ∀ s, c.shape = some s → s ∈ w.shapes) :
    makeComp w key c.asdict = .ok c.kept := by
  obtain ⟨g, hg, hp⟩ := hg
  have hpar : dupdate (w.dflt c.cls) c.params = c.params := by
    rw [hp, dupdate_idem _ _ hd hg]
  unfold makeComp Comp.asdict Comp.kept
  cases h : c.shape with
  | none => simp [hpar]
  | some s => simp [hs s h, hpar]

theorem readComps_spec (w : Env Q I) (empty : O) (os : List (String × List (String × O))) (hos : os ≠ [])
    (chan : String) (d : List (String × O)) (hdg : dget os chan = some d) (l : List (String × Comp Q))
    (e : List (String × O)) (hk : e.map Prod.fst = l.map Prod.fst)
    (he : ∀ p ∈ e, dget d p.1 = some p.2)
    (hm : ∀ q ∈ l, makeComp w q.1 q.2.asdict = .ok q.2.kept) :
    readComps w empty (some os) chan (l.map fun q => (q.1, q.2.asdict)) =
      .ok (l.map fun q => (q.1, q.2.kept), e) := by
  induction l generalizing e with
  | nil =>
    simp only [List.map_nil, List.map_eq_nil_iff] at hk
    subst hk
    rfl
  | cons a l ih =>
    cases e with
    | nil => simp at hk
    | cons b e =>
      obtain ⟨k, c⟩ := a
      obtain ⟨k', o⟩ := b
      simp only [List.map_cons, List.cons.injEq] at hk
      obtain ⟨rfl, hk⟩ := hk
      have h1 : makeComp w k' c.asdict = .ok c.kept := hm _ List.mem_cons_self
      have h2 : dget d k' = some o := he (k', o) List.mem_cons_self
      have h3 : os.isEmpty = false := by cases os <;> simp_all
      have h4 := ih e hk (fun p hp => he p (List.mem_cons_of_mem _ hp))
        (fun q hq => hm q (List.mem_cons_of_mem _ hq))
      simp only [List.map_cons, readComps, h1, h3, hdg, h2, h4]
      rfl

theorem readChans_spec (w : Env Q I) (empty : O) (os : List (String × List (String × O)))
    (cs : List (String × List (String × Comp Q))) (es : List (String × List (String × O)))
    (hk : es.map (fun p => (p.1, p.2.map Prod.fst)) = cs.map fun p => (p.1, p.2.map Prod.fst))
    (hos : es ≠ [] → os ≠ [])
    (hg : ∀ p ∈ es, dget os p.1 = some p.2 ∧ Distinct p.2)
    (hm : ∀ p ∈ cs, ∀ q ∈ p.2, makeComp w q.1 q.2.asdict = .ok q.2.kept) :
    readChans w empty (some os) (cs.map fun p => (p.1, p.2.map fun q => (q.1, q.2.asdict))) =
      .ok (cs.map fun p => (p.1, p.2.map fun q => (q.1, q.2.kept)), es) := by
  induction cs generalizing es with
  | nil =>
    simp only [List.map_nil, List.map_eq_nil_iff] at hk
    subst hk
    rfl
  | cons a cs ih =>
    cases es with
    | nil => simp at hk
    | cons b es =>
      obtain ⟨ch, l⟩ := a
      obtain ⟨ch', e⟩ := b
      simp only [List.map_cons, List.cons.injEq, Prod.mk.injEq] at hk
      obtain ⟨⟨rfl, hk1⟩, hk2⟩ := hk
      obtain ⟨h1, h2⟩ := hg (ch', e) List.mem_cons_self
      have hne : os ≠ [] := hos (by simp)
      have h3 := readComps_spec w empty os hne ch' e h1 l e hk1
        (fun p hp => (dget_mem h2).2 hp) (hm _ List.mem_cons_self)
      have h4 := ih es hk2 (fun _ => hne) (fun p hp => hg p (List.mem_cons_of_mem _ hp))
        (fun p hp => hm p (List.mem_cons_of_mem _ hp))
      simp only [List.map_cons, readChans, h3, h4]

/-! ## C128 -/

/-- **C128**, what holds: an instruction written to a file and read again is the same up to a shift of its
time window to zero; of the components, the class, name, shape and all parameters are kept. Missing: the
start time, `use_t_before`, descriptions and comments, see the negations. -/
theorem C128_roundtrip_partial (w : Env Q I) (empty : O) (i : Instruction Q I O P) (hb : Built w i) (key : String) :
    fromDict w empty (throughFile i.asdict) key = .ok i.kept := by
  have hdf : ∀ c : Cls, Distinct (w.dflt c) := by
    intro c
    cases c
    · exact hb.env
    · exact hb.env
    · exact hb.env
    · exact hb.car
  have hoc : i.options.map Prod.fst = i.comps.map Prod.fst := by
    have := congrArg (List.map Prod.fst) hb.opts
    simpa [List.map_map, Function.comp_def] using this
  have hod : Distinct i.options := by
    unfold Distinct
    rw [hoc]
    exact hb.chans
  have hon : ∀ p ∈ i.options, Distinct p.2 := by
    intro p hp
    have : (p.1, p.2.map Prod.fst) ∈ i.comps.map fun p => (p.1, p.2.map Prod.fst) := by
      rw [← hb.opts]
      exact List.mem_map.2 ⟨p, hp, rfl⟩
    obtain ⟨q, hq, he⟩ := List.mem_map.1 this
    simp only [Prod.mk.injEq] at he
    unfold Distinct
    rw [← he.2]
    exact hb.names q hq
  have := readChans_spec w empty i.options i.comps i.options hb.opts (fun h => h)
    (fun p hp => ⟨(dget_mem hod).2 hp, hon p hp⟩)
    (fun p hp q hq => makeComp_asdict w q.1 q.2 (hdf _) (hb.dflt p hp q hq) (hb.shape p hp q hq))
  unfold fromDict throughFile Instruction.asdict Instruction.kept
  simp only [this, Option.getD_some]

/-- A second round trip changes nothing more. -/
theorem C128_stable (w : Env Q I) (empty : O) (i : Instruction Q I O P) (hb : Built w i) (key key' : String)
    (j : Instruction Q I O P) (h : fromDict w empty (throughFile i.asdict) key = .ok j) :
    fromDict w empty (throughFile j.asdict) key' = .ok j := by
  rw [C128_roundtrip_partial w empty i hb key] at h
  simp only [Except.ok.injEq] at h
  subst h
  have hb' : Built w i.kept := by
    refine ⟨hb.env, hb.car, ?_, ?_, ?_, ?_, ?_⟩
    · unfold Distinct Instruction.kept
      simp only [List.map_map, Function.comp_def]
      exact hb.chans
    · intro p hp
      obtain ⟨q, hq, rfl⟩ := List.mem_map.1 hp
      unfold Distinct
      simp only [List.map_map, Function.comp_def]
      exact hb.names q hq
    · have : i.kept.options = i.options := rfl
      rw [this, hb.opts]
      unfold Instruction.kept
      simp only [List.map_map, Function.comp_def]
    · intro p hp q hq
      obtain ⟨p', hp', rfl⟩ := List.mem_map.1 hp
      obtain ⟨q', hq', rfl⟩ := List.mem_map.1 hq
      exact hb.dflt p' hp' q' hq'
    · intro p hp q hq
      obtain ⟨p', hp', rfl⟩ := List.mem_map.1 hp
      obtain ⟨q', hq', rfl⟩ := List.mem_map.1 hq
      exact hb.shape p' hp' q' hq'
  rw [C128_roundtrip_partial w empty _ hb' key']
  unfold Instruction.kept
  simp [Comp.kept, List.map_map, Function.comp_def]

/-- C128: what a file may leave out: the name is then the key, the ideal gate is the product of the gates named between
the colons of the name, the end time is fixed, and there are no options. -/
theorem C128_defaults (w : Env Q I) (empty : O) (c : Cfg Q I O P (CompCfg Q)) (key : String) (i : Instruction Q I O P)
    (h : fromDict w empty c key = .ok i) :
    (c.name = none → i.name = key) ∧ (c.fixedTEnd = none → i.fixedTEnd = true) ∧
      (c.ideal = none → i.ideal = w.kron ((i.name.splitOn ":").filterMap w.gate)) ∧ i.tStart = 0 ∧
      i.tEnd = c.gateLength ∧ i.targets = c.targets ∧ i.params = c.params := by
  unfold fromDict at h
  split at h
  · cases h
  · simp only [Except.ok.injEq] at h
    subst h
    refine ⟨fun h => by simp [h], fun h => by simp [h], fun h => by simp [h, idealOf], rfl, rfl, rfl, rfl⟩

/-- **C128 is false** for every instruction that does not start at zero: the start is lost. -/
theorem C128_false_start (w : Env Q I) (empty : O) (i : Instruction Q I O P) (hb : Built w i) (key : String)
    (h : i.tStart ≠ 0) : fromDict w empty (throughFile i.asdict) key ≠ .ok i := by
  rw [C128_roundtrip_partial w empty i hb key]
  intro hc
  simp only [Except.ok.injEq] at hc
  exact h (by rw [← hc]; rfl)

/-- **C128 is false** for every instruction with an envelope that subtracts its value before the start: the
envelope that is read does not. -/
theorem C128_false_before (w : Env Q I) (empty : O) (i : Instruction Q I O P) (hb : Built w i) (key : String)
    (p : String × List (String × Comp Q)) (hp : p ∈ i.comps) (q : String × Comp Q) (hq : q ∈ p.2)
    (h : q.2.useTBefore = true) : fromDict w empty (throughFile i.asdict) key ≠ .ok i := by
  rw [C128_roundtrip_partial w empty i hb key]
  intro hc
  simp only [Except.ok.injEq] at hc
  have hp' : p ∈ i.kept.comps := by rw [hc]; exact hp
  obtain ⟨p', _, rfl⟩ := List.mem_map.1 hp'
  obtain ⟨q', _, rfl⟩ := List.mem_map.1 hq
  simp [Comp.kept] at h

/-- The samples of an envelope (pulse.py:118-141) for mask 1: with `use_t_before` the value one step before
the start is subtracted. -/
def samples (shape : ℝ → ℝ) (useTBefore : Bool) (t0 dt t : ℝ) : ℝ :=
  if useTBefore then shape t - shape (t0 - dt) else shape t

/-- With `use_t_before` the pulse is zero one step before the start, and its changes are those of the shape. -/
theorem C128_before (shape : ℝ → ℝ) (t0 dt : ℝ) : samples shape true t0 dt (t0 - dt) = 0 ∧
    ∀ b t t', samples shape b t0 dt t - samples shape b t0 dt t' = shape t - shape t' := by
  refine ⟨by simp [samples], fun b t t' => ?_⟩
  cases b <;> simp [samples]

/-- The lost flag is observable: the samples change wherever the shape does not vanish before the start. -/
theorem C128_false_samples (shape : ℝ → ℝ) (t0 dt : ℝ) (h : shape (t0 - dt) ≠ 0) (t : ℝ) :
    samples shape true t0 dt t ≠ samples shape false t0 dt t := by
  simp only [samples, if_true, Bool.false_eq_true, if_false]
  intro hc
  exact h (by linarith)

/-- **C128 is false** without a file: the dictionary returned by `asdict` holds component objects, and
`from_dict` raises on it. -/
theorem C128_false_objects (w : Env Q I) (empty : O) (i : Instruction Q I O P) (key : String)
    (h : ∃ p ∈ i.comps, p.2 ≠ []) : fromDictObjects w empty i.asdict key = .error .attribute := by
  obtain ⟨p, hp, hne⟩ := h
  unfold fromDictObjects
  rw [if_pos]
  rw [List.any_eq_true]
  exact ⟨p, hp, by cases h : p.2 <;> simp_all⟩

/-- **C128 is false** for unregistered shapes: the file cannot be read. -/
theorem C128_false_shape (w : Env Q I) (c : Comp Q) (key s : String) (hs : c.shape = some s) (h : s ∉ w.shapes) :
    makeComp w key c.asdict = .error (.key s) := by
  simp [makeComp, Comp.asdict, hs, h]

/-! ## C129 -/

/-- `str(targets)` of a list of numbers. -/
def strTargets (l : List ℕ) : String := "[" ++ ", ".intercalate (l.map toString) ++ "]"

/-- gates.py:164-167 `get_key`. -/
def Instruction.key (i : Instruction Q I O P) : String :=
  match i.targets with
  | none => i.name
  | some l => i.name ++ strTargets l

/-- A file entry that copies another instruction (parametermap.py:134-140): source and new parameter values. -/
structure MapTo (V : Type) where
  src : String
  values : List (String × String × String × V)

example : strTargets [0, 12] = "[0, 12]" := by decide +kernel

example : strTargets [] = "[]" := by decide +kernel

/-- One parameter of a copied instruction (parametermap.py:137-140). `set` is `Quantity.set_value`. -/
def setPar {V : Type} (set : Q → V → Except Err Q) (i : Instruction Q I O P) (x : String × String × String × V) :
    Except Err (Instruction Q I O P) :=
  match dget i.comps x.1 with
  | none => .error (.key x.1)
  | some cs =>
    match dget cs x.2.1 with
    | none => .error (.key x.2.1)
    | some c =>
      match dget c.params x.2.2.1 with
      | none => .error (.key x.2.2.1)
      | some q =>
        match set q x.2.2.2 with
        | .error e => .error e
        | .ok q' =>
          .ok { i with comps := dset i.comps x.1 (dset cs x.2.1 { c with params := dset c.params x.2.2.1 q' }) }

/-- The values in the order of the file. -/
def setPars {V : Type} (set : Q → V → Except Err Q) (i : Instruction Q I O P) :
    List (String × String × String × V) → Except Err (Instruction Q I O P)
  | [] => .ok i
  | x :: l =>
    match setPar set i x with
    | .error e => .error e
    | .ok i' => setPars set i' l

/-- parametermap.py:134-145: copy, rename to the key of the entry, set the values, store. -/
def mapTo {V : Type} (w : Env Q I) (set : Q → V → Except Err Q) (instrs : List (String × Instruction Q I O P))
    (key : String) (m : MapTo V) : Except Err (List (String × Instruction Q I O P)) :=
  match dget instrs m.src with
  | none => .error (.key m.src)
  | some i =>
    match setPars set (setName w i key none) m.values with
    | .error e => .error e
    | .ok i' => .ok (dset instrs key i')

/-- A value for a component or parameter that does not exist is refused, naming the first unknown part. -/
theorem C129_unknown {V : Type} (set : Q → V → Except Err Q) (i : Instruction Q I O P)
    (x : String × String × String × V) :
    (dget i.comps x.1 = none → setPar set i x = .error (.key x.1)) ∧
    (∀ cs, dget i.comps x.1 = some cs → dget cs x.2.1 = none → setPar set i x = .error (.key x.2.1)) ∧
    (∀ cs c, dget i.comps x.1 = some cs → dget cs x.2.1 = some c → dget c.params x.2.2.1 = none →
      setPar set i x = .error (.key x.2.2.1)) := by
  refine ⟨fun h => ?_, fun cs h1 h2 => ?_, fun cs c h1 h2 h3 => ?_⟩
  · simp [setPar, h]
  · simp [setPar, h1, h2]
  · simp [setPar, h1, h2, h3]

theorem setPars_frame {V : Type} (set : Q → V → Except Err Q) (l : List (String × String × String × V))
    (i j : Instruction Q I O P) (h : setPars set i l = .ok j) :
    j.name = i.name ∧ j.targets = i.targets ∧ j.ideal = i.ideal ∧ j.tStart = i.tStart ∧ j.tEnd = i.tEnd := by
  induction l generalizing i with
  | nil =>
    simp only [setPars, Except.ok.injEq] at h
    subst h
    exact ⟨rfl, rfl, rfl, rfl, rfl⟩
  | cons x l ih =>
    simp only [setPars] at h
    cases h1 : setPar set i x with
    | error e => rw [h1] at h; cases h
    | ok i' =>
      rw [h1] at h
      simp only at h
      obtain ⟨a, b, c, d, e⟩ := ih i' h
      rw [a, b, c, d, e]
      unfold setPar at h1
      cases h2 : dget i.comps x.1 with
      | none => rw [h2] at h1; cases h1
      | some cs =>
        rw [h2] at h1
        simp only at h1
        cases h3 : dget cs x.2.1 with
        | none => rw [h3] at h1; cases h1
        | some cc =>
          rw [h3] at h1
          simp only at h1
          cases h4 : dget cc.params x.2.2.1 with
          | none => rw [h4] at h1; cases h1
          | some q =>
            rw [h4] at h1
            simp only at h1
            cases h5 : set q x.2.2.2 with
            | error e => rw [h5] at h1; cases h1
            | ok q' =>
              rw [h5] at h1
              simp only [Except.ok.injEq] at h1
              subst h1
              exact ⟨rfl, rfl, rfl, rfl, rfl⟩

/-- **C129**, what holds: a copied instruction is stored under the key of the entry with the targets and
times of its source, the other instructions stay, and the copy gets the ideal gate named by the key. Missing:
the name and key of copies with targets, see the negations. -/
theorem C129_copy_partial {V : Type} (w : Env Q I) (set : Q → V → Except Err Q)
    (instrs r : List (String × Instruction Q I O P)) (key : String) (m : MapTo V) (h : mapTo w set instrs key m = .ok r) :
    ∃ i j, dget instrs m.src = some i ∧ dget r key = some j ∧ j.targets = i.targets ∧ j.tStart = i.tStart ∧
      j.tEnd = i.tEnd ∧ j.ideal = idealOf w key ∧ (i.targets = none → j.key = key) ∧
      ∀ k, k ≠ key → dget r k = dget instrs k := by
  unfold mapTo at h
  cases h1 : dget instrs m.src with
  | none => rw [h1] at h; cases h
  | some i =>
    rw [h1] at h
    simp only at h
    cases h2 : setPars set (setName w i key none) m.values with
    | error e => rw [h2] at h; cases h
    | ok j =>
      rw [h2] at h
      simp only [Except.ok.injEq] at h
      subst h
      obtain ⟨a, b, c, d, e⟩ := setPars_frame set _ _ _ h2
      refine ⟨i, j, rfl, ?_, b, d, e, c, ?_, ?_⟩
      · rw [dget_dset, if_pos rfl]
      · intro ht
        unfold Instruction.key
        rw [b]
        simp only [setName, ht]
        exact a
      · intro k hk
        rw [dget_dset, if_neg (Ne.symm hk)]

/-- A parameter of an instruction, found by channel, component and name. -/
def Instruction.par (i : Instruction Q I O P) (x : String × String × String) : Option Q :=
  (dget i.comps x.1).bind fun cs => (dget cs x.2.1).bind fun c => dget c.params x.2.2

/-- A component of an instruction without its parameters. -/
def Instruction.bare (i : Instruction Q I O P) (ch comp : String) : Option (Comp Q) :=
  (dget i.comps ch).bind fun cs => (dget cs comp).map fun c => { c with params := [] }

theorem setPar_par {V : Type} (set : Q → V → Except Err Q) (x : String × String × String × V)
    (i j : Instruction Q I O P) (h : setPar set i x = .ok j) :
    (∃ q q', i.par (x.1, x.2.1, x.2.2.1) = some q ∧ set q x.2.2.2 = .ok q' ∧ j.par (x.1, x.2.1, x.2.2.1) = some q') ∧
      (∀ y, y ≠ (x.1, x.2.1, x.2.2.1) → j.par y = i.par y) ∧ ∀ a b, j.bare a b = i.bare a b := by
  unfold setPar at h
  cases h2 : dget i.comps x.1 with
  | none => rw [h2] at h; cases h
  | some cs =>
    rw [h2] at h
    simp only at h
    cases h3 : dget cs x.2.1 with
    | none => rw [h3] at h; cases h
    | some cc =>
      rw [h3] at h
      simp only at h
      cases h4 : dget cc.params x.2.2.1 with
      | none => rw [h4] at h; cases h
      | some q =>
        rw [h4] at h
        simp only at h
        cases h5 : set q x.2.2.2 with
        | error e => rw [h5] at h; cases h
        | ok q' =>
          rw [h5] at h
          simp only [Except.ok.injEq] at h
          subst h
          refine ⟨⟨q, q', by simp [Instruction.par, h2, h3, h4], h5, by simp [Instruction.par, dget_dset]⟩, ?_, ?_⟩
          · rintro ⟨a, b, c⟩ hy
            simp only [Instruction.par, dget_dset]
            by_cases e1 : x.1 = a
            · subst e1
              simp only [if_true, Option.bind_some, h2, dget_dset]
              by_cases e2 : x.2.1 = b
              · subst e2
                simp only [if_true, Option.bind_some, h3, dget_dset]
                rw [if_neg fun e3 => hy (by rw [e3])]
              · rw [if_neg e2]
            · rw [if_neg e1]
          · intro a b
            simp only [Instruction.bare, dget_dset]
            by_cases e1 : x.1 = a
            · subst e1
              simp only [if_true, Option.bind_some, h2, dget_dset]
              by_cases e2 : x.2.1 = b
              · subst e2
                simp [h3]
              · rw [if_neg e2]
            · rw [if_neg e1]

theorem setPars_par {V : Type} (set : Q → V → Except Err Q) (l : List (String × String × String × V))
    (i j : Instruction Q I O P) (h : setPars set i l = .ok j) :
    ((l.map fun x => (x.1, x.2.1, x.2.2.1)).Nodup → ∀ x ∈ l, ∃ q q', i.par (x.1, x.2.1, x.2.2.1) = some q ∧
        set q x.2.2.2 = .ok q' ∧ j.par (x.1, x.2.1, x.2.2.1) = some q') ∧
      (∀ y, y ∉ l.map (fun x => (x.1, x.2.1, x.2.2.1)) → j.par y = i.par y) ∧ ∀ a b, j.bare a b = i.bare a b := by
  induction l generalizing i with
  | nil =>
    simp only [setPars, Except.ok.injEq] at h
    subst h
    simp
  | cons x l ih =>
    simp only [setPars] at h
    cases h1 : setPar set i x with
    | error e => rw [h1] at h; cases h
    | ok i' =>
      rw [h1] at h
      simp only at h
      obtain ⟨a1, a2, a3⟩ := setPar_par set x i i' h1
      obtain ⟨b1, b2, b3⟩ := ih i' h
      refine ⟨fun hn y hy => ?_, fun y hy => ?_, fun a b => by rw [b3, a3]⟩
      · simp only [List.map_cons, List.nodup_cons] at hn
        rcases List.mem_cons.1 hy with rfl | hy
        · obtain ⟨q, q', c1, c2, c3⟩ := a1
          exact ⟨q, q', c1, c2, by rw [b2 _ hn.1, c3]⟩
        · obtain ⟨q, q', c1, c2, c3⟩ := b1 hn.2 y hy
          refine ⟨q, q', ?_, c2, c3⟩
          rw [← c1, a2]
          intro he
          exact hn.1 (he ▸ List.mem_map.2 ⟨y, hy, rfl⟩)
      · simp only [List.map_cons, List.mem_cons, not_or] at hy
        rw [b2 _ hy.2, a2 _ hy.1]

/-- C129: the copy has the new value for each parameter listed, the value of the source for all others, and the same
components otherwise. -/
theorem C129_values {V : Type} (w : Env Q I) (set : Q → V → Except Err Q)
    (instrs r : List (String × Instruction Q I O P)) (key : String) (m : MapTo V) (h : mapTo w set instrs key m = .ok r) :
    ∃ i j, dget instrs m.src = some i ∧ dget r key = some j ∧
      ((m.values.map fun x => (x.1, x.2.1, x.2.2.1)).Nodup → ∀ x ∈ m.values, ∃ q q',
        i.par (x.1, x.2.1, x.2.2.1) = some q ∧ set q x.2.2.2 = .ok q' ∧ j.par (x.1, x.2.1, x.2.2.1) = some q') ∧
      (∀ y, y ∉ m.values.map (fun x => (x.1, x.2.1, x.2.2.1)) → j.par y = i.par y) ∧
      ∀ a b, j.bare a b = i.bare a b := by
  unfold mapTo at h
  cases h1 : dget instrs m.src with
  | none => rw [h1] at h; cases h
  | some i =>
    rw [h1] at h
    simp only at h
    cases h2 : setPars set (setName w i key none) m.values with
    | error e => rw [h2] at h; cases h
    | ok j =>
      rw [h2] at h
      simp only [Except.ok.injEq] at h
      subst h
      have h3 := setPars_par set _ (setName w i key none) _ h2
      exact ⟨i, j, rfl, by rw [dget_dset, if_pos rfl], h3⟩

theorem strTargets_ne (l : List ℕ) (s : String) : s ++ strTargets l ≠ s := by
  intro h
  have h1 := congrArg String.length h
  simp [strTargets] at h1

/-- **C129 is false** for every instruction with targets: the copy's own key is not the key it is stored
under, so the identifiers of its parameters start with another name. -/
theorem C129_false_key {V : Type} (w : Env Q I) (set : Q → V → Except Err Q)
    (instrs r : List (String × Instruction Q I O P)) (key : String) (m : MapTo V) (h : mapTo w set instrs key m = .ok r)
    (i : Instruction Q I O P) (hi : dget instrs m.src = some i) (ht : i.targets ≠ none) :
    ∃ j, dget r key = some j ∧ j.key ≠ key := by
  unfold mapTo at h
  rw [hi] at h
  simp only at h
  cases h2 : setPars set (setName w i key none) m.values with
  | error e => rw [h2] at h; cases h
  | ok j =>
    rw [h2] at h
    simp only [Except.ok.injEq] at h
    subst h
    obtain ⟨a, b, _, _, _⟩ := setPars_frame set _ _ _ h2
    refine ⟨j, by rw [dget_dset, if_pos rfl], ?_⟩
    unfold Instruction.key
    rw [b]
    cases hl : i.targets with
    | none => exact absurd hl ht
    | some l =>
      simp only [setName, hl]
      rw [a]
      simp only [setName]
      exact strTargets_ne l key

/-- **C129 is false** for the ideal gate: an ideal set by the user is replaced by the one computed from the
new name, whatever `set_name` is given. -/
theorem C129_false_ideal (w : Env Q I) (i : Instruction Q I O P) (name : String) (u : I) :
    (setName w i name (some u)).ideal = idealOf w name := rfl

/-! ## Examples -/

/-- Quantities are numbers, one known gate "x" with the ideal 1, products of gates add up. -/
def exEnv : Env ℕ ℕ where
  envDefaults := [("amp", 1), ("t_final", 2)]
  carDefaults := [("freq", 0)]
  shapes := ["gauss"]
  gate := fun s => if s = "x" then some 1 else none
  kron := List.sum

def exInstr : Instruction ℕ ℕ ℕ Unit where
  name := "x"
  targets := some [0]
  params := ()
  ideal := 1
  tStart := 1
  tEnd := 5
  comps := [("d1", [("g", ⟨.envelope, "g", "text", " ", [("amp", 7), ("t_final", 2), ("sigma", 3)], some "gauss", true⟩)])]
  options := [("d1", [("g", 4)])]
  fixedTEnd := true

theorem exInstr_built : Built exEnv exInstr where
  env := by simp [Distinct, exEnv]
  car := by simp [Distinct, exEnv]
  chans := by simp [Distinct, exInstr]
  names := by simp [Distinct, exInstr]
  opts := rfl
  dflt := by
    intro p hp q hq
    simp only [exInstr, List.mem_singleton] at hp
    subst hp
    simp only [List.mem_singleton] at hq
    subst hq
    exact ⟨[("amp", 7), ("sigma", 3)], by simp [Distinct], rfl⟩
  shape := by
    intro p hp q hq s hs
    simp only [exInstr, List.mem_singleton] at hp
    subst hp
    simp only [List.mem_singleton] at hq
    subst hq
    simp only [Option.some.injEq] at hs
    subst hs
    simp [exEnv]

/-- C128 is not vacuous. -/
example : fromDict exEnv 0 (throughFile exInstr.asdict) "k" = .ok exInstr.kept :=
  C128_roundtrip_partial exEnv 0 exInstr exInstr_built "k"

example : fromDict exEnv 0 (throughFile exInstr.asdict) "k" ≠ .ok exInstr :=
  C128_false_start exEnv 0 exInstr exInstr_built "k" (by simp [exInstr])

/-- C129 is not vacuous: copy "x[0]" as "x[1]" with another amplitude. The copy still has target 0, its key is
"x[1][0]" and its ideal is no longer that of "x". -/
example : ∃ r j, mapTo exEnv (fun _ (v : ℕ) => .ok v) [("x[0]", exInstr)] "x[1]"
    ⟨"x[0]", [("d1", "g", "amp", 9)]⟩ = .ok r ∧ dget r "x[1]" = some j ∧ j.key ≠ "x[1]" := by
  have h : ∃ r, mapTo exEnv (fun _ (v : ℕ) => .ok v) [("x[0]", exInstr)] "x[1]"
      ⟨"x[0]", [("d1", "g", "amp", 9)]⟩ = .ok r := ⟨_, rfl⟩
  obtain ⟨r, h⟩ := h
  obtain ⟨j, h1, h2⟩ := C129_false_key exEnv _ _ r _ _ h exInstr rfl (by simp [exInstr])
  exact ⟨r, j, h, h1, h2⟩

end C3.Config.Instr
