import Mathlib.Data.List.Basic
import Mathlib.Data.List.DropRight
import Mathlib.Analysis.SpecialFunctions.Trigonometric.Basic
import Mathlib.Tactic.Linarith
import Mathlib.Tactic.FieldSimp
import Mathlib.Tactic.NormNum

/-!
# C169, C170: writing and reading experiments, and the quick setup

Models c3/experiment.py:59-91 (`__init__`, `set_prop_method`), 122-209 (`load_quick_setup`, `quick_setup`), 213-268
(`read_config`, `from_dict`, `write_config`, `asdict`), and c3/signal/gates.py:372-399 (`Instruction.quick_setup`).
-/

namespace C3.Experiment.Setup

/-! ## C169: model -/

/-- The entries of "options" (c3/experiment.py:261-266). -/
structure Options where
  batch : Option ℕ
  useFields : Bool
  overwrite : Bool
  stopGrad : Bool
deriving DecidableEq

/-- An experiment. `M`, `G`, `I` are the types of models, generators and instructions. -/
structure Exp (M G I : Type) where
  /-- `pmap`; `none` before it is set -/
  pmap : Option (M × G × List (String × I))
  options : Options
  simRes : ℝ
  /-- constructor argument, used again by every `compute_propagators` -/
  propMethod : Option String
  /-- linked method -/
  propagation : String
  optGates : Option (List String)
  qasm : Bool
  propagators : List String

/-- A configuration dictionary. -/
structure Cfg (MC GC IC : Type) where
  model : MC
  generator : GC
  instructions : List (String × IC)
  options : Option Options
  simRes : Option ℝ

inductive Err where
  | component   -- raised while reading the model, generator or instructions
  | key         -- KeyError
  | attribute   -- AttributeError
  | type        -- TypeError
deriving DecidableEq

/-- Reading and writing of the parts (C128, C130, C131). -/
structure Codec (M G I MC GC IC : Type) where
  mw : M → MC
  mr : MC → Option M
  gw : G → GC
  gr : GC → Option G
  iw : I → IC
  ir : List (String × IC) → Option (List (String × I))

variable {M G I MC GC IC : Type}

/-- c3/experiment.py:59-74 with `pmap` and `prop_method`; default settings. -/
def fresh (pmap : Option (M × G × List (String × I))) (m : Option String) (simRes : ℝ) : Exp M G I where
  pmap := pmap
  options := ⟨none, true, true, true⟩
  simRes := simRes
  propMethod := m
  propagation := m.getD "pwc"
  optGates := none
  qasm := false
  propagators := []

/-- c3/experiment.py:251-268. -/
def asdict (c : Codec M G I MC GC IC) (e : Exp M G I) : Except Err (Cfg MC GC IC) :=
  match e.pmap with
  | none => .error .attribute
  | some (m, g, is) => .ok ⟨c.mw m, c.gw g, is.map fun p => (p.1, c.iw p.2), some e.options, some e.simRes⟩

/-- The default resolution, 100e9 samples per second (c3/experiment.py:241). -/
noncomputable def defaultRes : ℝ := 100000000000

/-- c3/experiment.py:227-242: the experiment afterwards and the dictionary afterwards. -/
noncomputable def fromDict (c : Codec M G I MC GC IC) (cfg : Cfg MC GC IC) (e : Exp M G I) :
    Except Err (Exp M G I) × Cfg MC GC IC :=
  match c.mr cfg.model with
  | none => (.error .component, cfg)
  | some m => match c.gr cfg.generator with
    | none => (.error .component, cfg)
    | some g => match c.ir cfg.instructions with
      | none => (.error .component, cfg)
      | some is =>
        (.ok ⟨some (m, g, is), cfg.options.getD e.options, cfg.simRes.getD defaultRes, e.propMethod, "pwc", e.optGates,
            e.qasm, e.propagators⟩, ⟨cfg.model, cfg.generator, cfg.instructions, cfg.options, none⟩)

/-- The method `compute_propagators` uses (c3/experiment.py:459: `self.set_prop_method(self.prop_method)`). -/
def methodUsed (e : Exp M G I) : String := e.propMethod.getD "pwc"

/-- The gates it computes (c3/experiment.py:455-457). -/
def gatesComputed (e : Exp M G I) : List String :=
  e.optGates.getD (match e.pmap with | none => [] | some (_, _, is) => is.map Prod.fst)

/-! ## C169: specification -/

/-- The parts survive being written and read, which is the subject of C128, C130 and C131. -/
structure Faithful (c : Codec M G I MC GC IC) (m : M) (g : G) (is : List (String × I)) : Prop where
  model : c.mr (c.mw m) = some m
  gen : c.gr (c.gw g) = some g
  instrs : c.ir (is.map fun p => (p.1, c.iw p.2)) = some is

/-- Same behaviour under simulation: components, settings, resolution, method and gates. -/
def Same (e e' : Exp M G I) : Prop :=
  e.pmap = e'.pmap ∧ e.options = e'.options ∧ e.simRes = e'.simRes ∧ methodUsed e = methodUsed e' ∧
    gatesComputed e = gatesComputed e' ∧ e.qasm = e'.qasm

theorem read_back (c : Codec M G I MC GC IC) (e old : Exp M G I) (m : M) (g : G) (is : List (String × I))
    (hp : e.pmap = some (m, g, is)) (hf : Faithful c m g is) :
    ∃ cfg, asdict c e = .ok cfg ∧ (fromDict c cfg old).1 =
      .ok ⟨some (m, g, is), e.options, e.simRes, old.propMethod, "pwc", old.optGates, old.qasm, old.propagators⟩ := by
  refine ⟨⟨c.mw m, c.gw g, is.map fun p => (p.1, c.iw p.2), some e.options, some e.simRes⟩, ?_, ?_⟩
  · unfold asdict
    rw [hp]
  · unfold fromDict
    simp only [hf.model, hf.gen, hf.instrs, Option.getD_some]

/-! ## C169: theorems -/

/-- C169 for experiments with the default method, all gates and the default format: an experiment that is written and
read into a new one behaves the same. Missing: other methods (`C169_false_method`), selected gates
(`C169_false_gates`), QASM (`C169_false_qasm`). -/
theorem C169_roundtrip_partial (c : Codec M G I MC GC IC) (e : Exp M G I) (m : M) (g : G) (is : List (String × I))
    (hp : e.pmap = some (m, g, is)) (hf : Faithful c m g is) (hm : methodUsed e = "pwc") (ho : e.optGates = none)
    (hq : e.qasm = false) (r : ℝ) :
    ∃ cfg e', asdict c e = .ok cfg ∧ (fromDict c cfg (fresh none none r)).1 = .ok e' ∧ Same e e' := by
  obtain ⟨cfg, h1, h2⟩ := read_back c e (fresh none none r) m g is hp hf
  refine ⟨cfg, _, h1, h2, ?_⟩
  refine ⟨hp, rfl, rfl, ?_, ?_, hq⟩
  · rw [hm]; rfl
  · simp [gatesComputed, ho, hp, fresh]

/-- C169: a new experiment has no parts, uses the control fields, keeps only the last propagators, stops the gradient of
partial propagators and has no batch size; these settings stay when a dictionary without "options" is read. Without "sim_res" the resolution becomes 100 GHz. -/
theorem C169_defaults (c : Codec M G I MC GC IC) (cfg : Cfg MC GC IC) (m : Option String) (r : ℝ) (e : Exp M G I)
    (ho : cfg.options = none) (h : (fromDict c cfg (fresh none m r)).1 = .ok e) :
    e.options.useFields = true ∧ e.options.overwrite = true ∧ e.options.stopGrad = true ∧ e.options.batch = none ∧
      e.optGates = none ∧ e.qasm = false ∧ e.propagators = [] ∧ (cfg.simRes = none → e.simRes = 100 * 10 ^ 9) := by
  unfold fromDict at h
  split at h
  · cases h
  split at h
  · cases h
  split at h
  · cases h
  simp only [Except.ok.injEq] at h
  subst h
  refine ⟨?_, ?_, ?_, ?_, ?_, ?_, ?_, fun hs => ?_⟩
  all_goals simp [ho, fresh]
  simp only [hs, Option.getD_none, defaultRes]
  norm_num

/-- The parts, settings and resolution are read whatever the receiving experiment was. -/
theorem C169_parts (c : Codec M G I MC GC IC) (e old : Exp M G I) (m : M) (g : G) (is : List (String × I))
    (hp : e.pmap = some (m, g, is)) (hf : Faithful c m g is) :
    ∃ cfg e', asdict c e = .ok cfg ∧ (fromDict c cfg old).1 = .ok e' ∧ e'.pmap = e.pmap ∧ e'.options = e.options ∧
      e'.simRes = e.simRes := by
  obtain ⟨cfg, h1, h2⟩ := read_back c e old m g is hp hf
  refine ⟨cfg, _, h1, h2, ?_⟩
  exact ⟨hp.symm, rfl, rfl⟩

/-- The method is not written: an experiment with another method is simulated with "pwc" after reading. -/
theorem C169_false_method (c : Codec M G I MC GC IC) (e : Exp M G I) (m : M) (g : G) (is : List (String × I))
    (hp : e.pmap = some (m, g, is)) (hf : Faithful c m g is) (k : String) (hm : e.propMethod = some k) (hk : k ≠ "pwc")
    (r : ℝ) :
    ∃ cfg e', asdict c e = .ok cfg ∧ (fromDict c cfg (fresh none none r)).1 = .ok e' ∧ methodUsed e = k ∧
      methodUsed e' = "pwc" ∧ ¬ Same e e' := by
  obtain ⟨cfg, h1, h2⟩ := read_back c e (fresh none none r) m g is hp hf
  refine ⟨cfg, _, h1, h2, ?_, ?_, ?_⟩
  · simp [methodUsed, hm]
  · simp [methodUsed, fresh]
  · rintro ⟨-, -, -, h, -⟩
    apply hk
    simpa [methodUsed, hm, fresh] using h

/-- The selection of gates is not written. -/
theorem C169_false_gates (c : Codec M G I MC GC IC) (e : Exp M G I) (m : M) (g : G) (is : List (String × I))
    (hp : e.pmap = some (m, g, is)) (hf : Faithful c m g is) (l : List String) (ho : e.optGates = some l)
    (hl : l ≠ is.map Prod.fst) (r : ℝ) :
    ∃ cfg e', asdict c e = .ok cfg ∧ (fromDict c cfg (fresh none none r)).1 = .ok e' ∧ ¬ Same e e' := by
  obtain ⟨cfg, h1, h2⟩ := read_back c e (fresh none none r) m g is hp hf
  refine ⟨cfg, _, h1, h2, ?_⟩
  rintro ⟨-, -, -, -, h, -⟩
  apply hl
  simpa [gatesComputed, ho, fresh] using h

/-- The sequence format is not written. -/
theorem C169_false_qasm (c : Codec M G I MC GC IC) (e : Exp M G I) (m : M) (g : G) (is : List (String × I))
    (hp : e.pmap = some (m, g, is)) (hf : Faithful c m g is) (hq : e.qasm = true) (r : ℝ) :
    ∃ cfg e', asdict c e = .ok cfg ∧ (fromDict c cfg (fresh none none r)).1 = .ok e' ∧ ¬ Same e e' := by
  obtain ⟨cfg, h1, h2⟩ := read_back c e (fresh none none r) m g is hp hf
  refine ⟨cfg, _, h1, h2, ?_⟩
  rintro ⟨-, -, -, -, -, h⟩
  simp [hq, fresh] at h

/-- Reading takes the resolution out of the dictionary: a second experiment made from the same dictionary has the
default resolution. -/
theorem C169_false_twice (c : Codec M G I MC GC IC) (cfg : Cfg MC GC IC) (e e' old : Exp M G I)
    (h : (fromDict c cfg old).1 = .ok e) (h' : (fromDict c (fromDict c cfg old).2 old).1 = .ok e') :
    e'.simRes = defaultRes ∧ e.simRes = cfg.simRes.getD defaultRes := by
  have key : ∀ (cfg : Cfg MC GC IC) (e : Exp M G I), (fromDict c cfg old).1 = .ok e →
      e.simRes = cfg.simRes.getD defaultRes ∧ (fromDict c cfg old).2.simRes = none := by
    intro cfg e h
    unfold fromDict at h ⊢
    cases hm : c.mr cfg.model with
    | none => rw [hm] at h; simp at h
    | some m =>
      rw [hm] at h
      simp only at h ⊢
      cases hg : c.gr cfg.generator with
      | none => rw [hg] at h; simp at h
      | some g =>
        rw [hg] at h
        simp only at h ⊢
        cases hi : c.ir cfg.instructions with
        | none => rw [hi] at h; simp at h
        | some is =>
          rw [hi] at h
          simp only [Except.ok.injEq] at h
          rw [← h]
          exact ⟨rfl, rfl⟩
  refine ⟨?_, (key cfg e h).1⟩
  rw [(key _ e' h').1, (key cfg e h).2]
  simp only [Option.getD_none]

/-- A selection of gates in the receiving experiment stays, also if the new instructions have other names. -/
theorem C169_false_stale (c : Codec M G I MC GC IC) (cfg : Cfg MC GC IC) (e old : Exp M G I)
    (h : (fromDict c cfg old).1 = .ok e) (l : List String) (ho : old.optGates = some l) : gatesComputed e = l := by
  unfold fromDict at h
  split at h
  · simp at h
  · split at h
    · simp at h
    · split at h
      · simp at h
      · simp only [Except.ok.injEq] at h
        rw [← h]
        simp [gatesComputed, ho]

/-- A codec that writes everything as it is. -/
def exCodec : Codec ℕ ℕ ℕ ℕ ℕ ℕ := ⟨id, some, id, some, id, some⟩

example : Faithful exCodec 1 2 [("rx90p[0]", 3)] := ⟨rfl, rfl, rfl⟩

example : ∃ e : Exp ℕ ℕ ℕ, e.pmap = some (1, 2, [("rx90p[0]", 3)]) ∧ e.propMethod = some "rk4_unitary" ∧
    "rk4_unitary" ≠ "pwc" ∧ e.simRes = 5 :=
  ⟨fresh (some (1, 2, [("rx90p[0]", 3)])) (some "rk4_unitary") 5, rfl, rfl, by decide, rfl⟩

/-! ## C170: model of the quick setup -/

/-- Paths as characters. -/
abbrev Path := List Char

/-- `os.path.isabs` (POSIX). -/
def isAbs (p : Path) : Bool := p.head? = some '/'

/-- `os.path.join` (POSIX). -/
def join (a b : Path) : Path :=
  if isAbs b then b else if a = [] ∨ a.getLast? = some '/' then a ++ b else a ++ '/' :: b

/-- `os.path.dirname` (POSIX): up to the last slash, without slashes at the end unless it consists of them. -/
def dirname (p : Path) : Path :=
  let head := p.rdropWhile (· ≠ '/')
  if head.all (· = '/') then head else head.rdropWhile (· = '/')

/-- c3/experiment.py:147-151 `make_absolute`. -/
def makeAbsolute (base : Option Path) (f : Path) : Except Err Path :=
  if (base ≠ none ∧ base ≠ some []) ∨ isAbs f then
    match base with
    | none => .error .type
    | some b => .ok (join b f)
  else .ok f

/-- c3/experiment.py:122-134 `load_quick_setup`: the files it reads. -/
def loadFile (filepath f : Path) : Except Err Path := makeAbsolute (some (dirname filepath)) f

/-- A subsystem: its frequency (with the factor 2π) and the drive connected to it. -/
structure Sub where
  name : String
  freq : ℝ
  line : Option String

/-- Envelope and carrier on one channel (c3/signal/gates.py:376-399); frequencies without the factor 2π. -/
structure Pulse where
  amp : ℝ
  tFinal : ℝ
  offset : ℝ
  carrier : ℝ

structure Instr where
  name : String
  targets : List ℕ
  tEnd : ℝ
  comps : List (Option String × Pulse)

/-- `self.comps[chan][name] = comp`: a second envelope or carrier of the same name on a channel replaces the first. -/
def addComp : List (Option String × Pulse) → Option String → Pulse → List (Option String × Pulse)
  | [], k, v => [(k, v)]
  | (a, b) :: d, k, v => if a = k then (a, v) :: d else (a, b) :: addComp d k v

/-- c3/signal/gates.py:372-399. -/
noncomputable def instrQuick (i : Instr) (chan : Option String) (f T v2hz : ℝ) (sideband : Option ℝ) : Instr :=
  let s := sideband.getD 0
  ⟨i.name, i.targets, i.tEnd, addComp i.comps chan ⟨Real.pi / 2 / T / v2hz * 2 * Real.pi, T, s, f - s⟩⟩

structure Single where
  name : String
  qubit : String

structure Two where
  name : String
  qubit1 : String
  qubit2 : String
  time : ℝ

structure QCfg where
  time : ℝ
  v2hz : ℝ
  sideband : Option ℝ
  singles : List Single
  twos : List Two

/-- `model.subsystems[q]` and `model.names.index(q)`. -/
def findSub (subs : List Sub) (q : String) : Option (ℕ × Sub) :=
  match subs.findIdx? fun s => s.name = q with
  | none => none
  | some i => (subs[i]?).map fun s => (i, s)

/-- c3/experiment.py:163-178. -/
noncomputable def single (subs : List Sub) (c : QCfg) (p : Single) : Except Err Instr :=
  match findSub subs p.qubit with
  | none => .error .key
  | some (i, s) => .ok (instrQuick ⟨p.name, [i], c.time, []⟩ s.line (s.freq / 2 / Real.pi) c.time c.v2hz c.sideband)

/-- c3/experiment.py:180-207. -/
noncomputable def two (subs : List Sub) (c : QCfg) (p : Two) : Except Err Instr :=
  match findSub subs p.qubit1, findSub subs p.qubit2 with
  | some (i, s), some (j, r) =>
    .ok (instrQuick (instrQuick ⟨p.name, [i, j], p.time, []⟩ s.line (s.freq / 2 / Real.pi) p.time c.v2hz c.sideband)
      r.line (r.freq / 2 / Real.pi) p.time c.v2hz c.sideband)
  | _, _ => .error .key

noncomputable def each {α : Type} (f : α → Except Err Instr) : List α → Except Err (List Instr)
  | [] => .ok []
  | a :: l => match f a with
    | .error e => .error e
    | .ok i => match each f l with
      | .error e => .error e
      | .ok is => .ok (i :: is)

/-- c3/experiment.py:158-207: the instructions, and the configuration afterwards (`cfg.pop("sideband", None)`). -/
noncomputable def quick (subs : List Sub) (c : QCfg) : Except Err (List Instr) × QCfg :=
  (match each (single subs c) c.singles with
    | .error e => .error e
    | .ok is => match each (two subs c) c.twos with
      | .error e => .error e
      | .ok js => .ok (is ++ js), ⟨c.time, c.v2hz, none, c.singles, c.twos⟩)

/-! ## C170: specification -/

/-- The pulse plays at frequency `f` (with the factor 2π). -/
def PlaysAt (p : Pulse) (f : ℝ) : Prop := 2 * Real.pi * (p.carrier + p.offset) = f

/-- What is played on a channel. -/
def Plays (i : Instr) (line : Option String) (f : ℝ) : Prop := ∃ p, (line, p) ∈ i.comps ∧ PlaysAt p f ∧ p.tFinal = i.tEnd

theorem each_spec {α : Type} (f : α → Except Err Instr) (l : List α) (is : List Instr) (h : each f l = .ok is) :
    List.Forall₂ (fun a i => f a = .ok i) l is := by
  induction l generalizing is with
  | nil => simp only [each, Except.ok.injEq] at h; subst h; exact .nil
  | cons a l ih =>
    rw [each] at h
    split at h
    · simp at h
    · next i hi =>
      split at h
      · simp at h
      · next js hjs =>
        simp only [Except.ok.injEq] at h
        subst h
        exact .cons hi (ih js hjs)

theorem findSub_spec (subs : List Sub) (q : String) (i : ℕ) (s : Sub) (h : findSub subs q = some (i, s)) :
    subs[i]? = some s ∧ s.name = q := by
  unfold findSub at h
  split at h
  · simp at h
  · next k hk =>
    rw [Option.map_eq_some_iff] at h
    obtain ⟨a, ha, he⟩ := h
    simp only [Prod.mk.injEq] at he
    obtain ⟨rfl, rfl⟩ := he
    refine ⟨ha, ?_⟩
    rw [List.findIdx?_eq_some_iff_getElem] at hk
    obtain ⟨hlt, h1, _⟩ := hk
    rw [List.getElem?_eq_getElem hlt] at ha
    simp only [Option.some.injEq] at ha
    rw [← ha]
    simpa using h1

/-! ## C170: theorems -/

/-- Each configured single-qubit gate becomes an instruction, in order, with its name and length, on the index of its
qubit, with exactly one pulse, on the drive line of the qubit and at its frequency. -/
theorem C170_single (subs : List Sub) (c : QCfg) (is : List Instr) (h : (quick subs c).1 = .ok is) :
    ∃ as bs, is = as ++ bs ∧ List.Forall₂ (fun (p : Single) i => i.name = p.name ∧ i.tEnd = c.time ∧
      ∃ k s, subs[k]? = some s ∧ s.name = p.qubit ∧ i.targets = [k] ∧ i.comps.length = 1 ∧ Plays i s.line s.freq)
      c.singles as ∧ bs.length = c.twos.length := by
  simp only [quick] at h
  split at h
  · simp at h
  · next as has =>
    split at h
    · simp at h
    · next bs hbs =>
      simp only [Except.ok.injEq] at h
      refine ⟨as, bs, h.symm, ?_, (each_spec _ _ _ hbs).length_eq.symm⟩
      refine (each_spec _ _ _ has).imp ?_
      intro p i hi
      unfold single at hi
      split at hi
      · simp at hi
      · next k s hks =>
        simp only [Except.ok.injEq] at hi
        obtain ⟨h1, h2⟩ := findSub_spec _ _ _ _ hks
        subst hi
        refine ⟨rfl, rfl, k, s, h1, h2, rfl, rfl, _, List.mem_singleton.2 rfl, ?_, rfl⟩
        simp only [PlaysAt]
        have := Real.pi_ne_zero
        field_simp
        ring

/-- The two-qubit gates, if their qubits are driven on different lines: each line plays the frequency of its qubit. -/
theorem C170_two_partial (subs : List Sub) (c : QCfg) (p : Two) (i : Instr) (h : two subs c p = .ok i) :
    i.name = p.name ∧ i.tEnd = p.time ∧ ∃ k s m r, subs[k]? = some s ∧ s.name = p.qubit1 ∧ subs[m]? = some r ∧
      r.name = p.qubit2 ∧ i.targets = [k, m] ∧ Plays i r.line r.freq ∧
      (s.line ≠ r.line → Plays i s.line s.freq ∧ i.comps.length = 2) := by
  unfold two at h
  split at h
  · next k s m r hk hm =>
    simp only [Except.ok.injEq] at h
    obtain ⟨h1, h2⟩ := findSub_spec _ _ _ _ hk
    obtain ⟨h3, h4⟩ := findSub_spec _ _ _ _ hm
    subst h
    refine ⟨rfl, rfl, k, s, m, r, h1, h2, h3, h4, rfl, ?_, ?_⟩
    · refine ⟨⟨Real.pi / 2 / p.time / c.v2hz * 2 * Real.pi, p.time, c.sideband.getD 0,
          r.freq / 2 / Real.pi - c.sideband.getD 0⟩, ?_, ?_, rfl⟩
      · simp only [instrQuick, addComp]
        split
        · next h => rw [h]; simp
        · simp
      · simp only [PlaysAt]
        have := Real.pi_ne_zero
        field_simp
        ring
    · intro hne
      refine ⟨⟨⟨Real.pi / 2 / p.time / c.v2hz * 2 * Real.pi, p.time, c.sideband.getD 0,
          s.freq / 2 / Real.pi - c.sideband.getD 0⟩, ?_, ?_, rfl⟩, ?_⟩
      · simp only [instrQuick, addComp]
        rw [if_neg hne]
        simp
      · simp only [PlaysAt]
        have := Real.pi_ne_zero
        field_simp
        ring
      · simp only [instrQuick, addComp]
        rw [if_neg hne]
        rfl
  · simp at h

/-- If both qubits hang on one line, the pulse for the first one is overwritten: nothing plays its frequency. -/
theorem C170_false_shared (subs : List Sub) (c : QCfg) (p : Two) (k m : ℕ) (s r : Sub)
    (hs : findSub subs p.qubit1 = some (k, s)) (hr : findSub subs p.qubit2 = some (m, r)) (hl : s.line = r.line)
    (hf : s.freq ≠ r.freq) : ∃ i, two subs c p = .ok i ∧ ¬ ∃ l, Plays i l s.freq := by
  refine ⟨_, by simp only [two, hs, hr]; rfl, ?_⟩
  rintro ⟨l, q, hq, hp, -⟩
  simp only [instrQuick, addComp] at hq
  rw [if_pos hl, List.mem_singleton] at hq
  apply hf
  have hqe := (Prod.mk.inj hq).2
  rw [← hp, hqe]
  simp only
  have := Real.pi_ne_zero
  field_simp
  ring

example : ∃ subs : List Sub, ∃ s r : Sub, findSub subs "Q1" = some (0, s) ∧ findSub subs "Q2" = some (1, r) ∧
    s.line = r.line ∧ s.freq ≠ r.freq :=
  ⟨[⟨"Q1", 5, some "d1"⟩, ⟨"Q2", 6, some "d1"⟩], ⟨"Q1", 5, some "d1"⟩, ⟨"Q2", 6, some "d1"⟩,
    by simp [findSub, List.findIdx?_cons], by simp [findSub, List.findIdx?_cons], rfl, by norm_num⟩

/-- The sideband is taken out of the configuration: a second setup from the same dictionary has carriers at the qubit
frequency and no offset. -/
theorem C170_false_twice (subs : List Sub) (c : QCfg) (is : List Instr) (p : Single) (hp : p ∈ c.singles)
    (h : (quick subs (quick subs c).2).1 = .ok is) : ∃ i ∈ is, i.name = p.name ∧ ∀ x ∈ i.comps, x.2.offset = 0 := by
  simp only [quick] at h
  split at h
  · simp at h
  · next as has =>
    split at h
    · simp at h
    · next bs hbs =>
      simp only [Except.ok.injEq] at h
      have hf := each_spec _ _ _ has
      obtain ⟨n, hn, rfl⟩ := List.getElem_of_mem hp
      have hn' : n < as.length := by rw [← hf.length_eq]; exact hn
      have h1 := List.Forall₂.get hf hn hn'
      refine ⟨as[n], by rw [← h]; exact List.mem_append_left _ (List.getElem_mem hn'), ?_⟩
      simp only [List.get_eq_getElem] at h1
      unfold single at h1
      split at h1
      · simp at h1
      · simp only [Except.ok.injEq] at h1
        rw [← h1]
        refine ⟨rfl, ?_⟩
        intro x hx
        simp only [instrQuick, addComp, List.mem_singleton] at hx
        rw [hx]
        rfl

/-- The files named in a setup file: absolute names are used as they are; relative names are relative to the folder of
the setup file, also if the file is given without a folder. -/
theorem C170_files (dir base f : Path) (hb : '/' ∉ base) (hd : dir ≠ []) (hdl : dir.getLast? ≠ some '/') :
    (isAbs f = true → loadFile (dir ++ '/' :: base) f = .ok f ∧ loadFile base f = .ok f) ∧
      (isAbs f = false → loadFile (dir ++ '/' :: base) f = .ok (dir ++ '/' :: f) ∧ loadFile base f = .ok f) := by
  have h1 : (dir ++ '/' :: base).rdropWhile (· ≠ '/') = dir ++ ['/'] := by
    have : dir ++ '/' :: base = (dir ++ ['/']) ++ base := by simp
    rw [this]
    clear this
    induction base using List.reverseRecOn with
    | nil => rw [List.append_nil, List.rdropWhile_concat_neg _ _ _ (by simp)]
    | append_singleton l a ih =>
      rw [← List.append_assoc, List.rdropWhile_concat_pos]
      · exact ih (fun h => hb (by simp [h]))
      · have : a ≠ '/' := fun h => hb (by simp [h])
        simpa using this
  have h2 : base.rdropWhile (· ≠ '/') = [] := by
    rw [List.rdropWhile_eq_nil_iff]
    intro x hx
    have : x ≠ '/' := fun h => hb (h ▸ hx)
    simpa using this
  have e2 : dirname base = [] := by
    simp only [dirname, h2]
    simp
  have e1 : dirname (dir ++ '/' :: base) = dir := by
    simp only [dirname, h1]
    rw [if_neg]
    · rw [List.rdropWhile_concat_pos _ _ _ (by simp), List.rdropWhile_eq_self_iff]
      intro hne h
      apply hdl
      rw [List.getLast?_eq_getLast_of_ne_nil hne]
      simpa using h
    · intro hall
      apply hdl
      rw [List.getLast?_eq_getLast_of_ne_nil hd]
      rw [List.all_eq_true] at hall
      have := hall (dir.getLast hd) (by simp)
      simpa using this
  constructor
  · intro hf
    simp only [loadFile, e1, e2, makeAbsolute, hf, or_true, if_true, join, and_self]
  · intro hf
    simp [loadFile, e1, e2, makeAbsolute, hf, join, hd, hdl]

/-- Absolute names are those that begin with a slash. -/
theorem C170_absolute (f : Path) : isAbs f = true ↔ ∃ r, f = '/' :: r := by
  cases f with
  | nil => simp [isAbs]
  | cons a r => simp [isAbs]

/-- A setup file in the root folder: names are relative to the root folder. -/
theorem C170_root (base f : Path) (hb : '/' ∉ base) (hf : isAbs f = false) : loadFile ('/' :: base) f = .ok ('/' :: f) := by
  have h1 : ('/' :: base).rdropWhile (· ≠ '/') = ['/'] := by
    induction base using List.reverseRecOn with
    | nil => rfl
    | append_singleton l a ih =>
      rw [← List.cons_append, List.rdropWhile_concat_pos]
      · exact ih (fun h => hb (by simp [h]))
      · have : a ≠ '/' := fun h => hb (by simp [h])
        simpa using this
  have e1 : dirname ('/' :: base) = ['/'] := by
    simp only [dirname, h1]
    simp
  simp [loadFile, e1, makeAbsolute, join, hf]

/-- With no base folder given, which is the default of `quick_setup`, a relative file name is used as it is and an
absolute one raises. -/
theorem C170_false_absolute (f : Path) : (isAbs f = true → makeAbsolute none f = .error .type) ∧
    (isAbs f = false → makeAbsolute none f = .ok f) := by
  constructor <;> intro hf <;> simp [makeAbsolute, hf]

example : isAbs "/home/model.cfg".toList = true ∧ loadFile "cfg/setup.cfg".toList "model.cfg".toList =
    .ok "cfg/model.cfg".toList := by
  decide

end C3.Experiment.Setup
