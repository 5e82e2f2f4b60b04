import Verif.Chain.Eval

/-!
# C48: signal generation and the memory of devices

Devices are Python objects with attributes that survive between calls. `runS` threads this state
through a run of a chain; `loProcess` models the local oscillator, which returns its attribute
`self.signal`.
-/

set_option linter.unusedSectionVars false

namespace C3.Chain

variable {α V S E I : Type*} [DecidableEq α]

/-- c3/generator/generator.py:199-207 with stateful devices: `process x st instr ins` returns the
output (or raises) and the new state of the device. The states left behind on an exception are
returned as well. -/
def runS (preds : α → List α) (process : α → S → I → List V → Except E V × S) (instr : I) :
    (α → S) → (α → Option V) → Option V → List α → Except E (Option V) × (α → S)
  | st, _, out, [] => (.ok out, st)
  | st, stack, _, x :: xs =>
    match collect stack (preds x) with
    | none => (.ok none, st)
    | some ins =>
      let (r, sx) := process x (st x) instr ins
      let st' := Function.update st x sx
      match r with
      | .error e => (.error e, st')
      | .ok v => runS preds process instr st' (Function.update stack x (some v)) (some v) xs

/-- `generate_signals` for one channel with device states. -/
def generateS (preds : α → List α) (process : α → S → I → List V → Except E V × S)
    (order : List α) (st : α → S) (instr : I) : Except E (Option V) × (α → S) :=
  runS preds process instr st (fun _ => none) none order

/-- A history of calls. -/
def historyS (preds : α → List α) (process : α → S → I → List V → Except E V × S)
    (order : List α) (st : α → S) (hist : List I) : α → S :=
  hist.foldl (fun st i => (generateS preds process order st i).2) st

/-- The output of every device, for the given instruction, does not depend on its state. -/
def Memoryless (process : α → S → I → List V → Except E V × S) (instr : I) : Prop :=
  ∀ x s s' ins, (process x s instr ins).1 = (process x s' instr ins).1

theorem runS_memoryless (preds : α → List α) (process : α → S → I → List V → Except E V × S)
    (instr : I) (hm : Memoryless process instr) (l : List α) (st st' : α → S)
    (stack : α → Option V) (out : Option V) :
    (runS preds process instr st stack out l).1 = (runS preds process instr st' stack out l).1 := by
  induction l generalizing st st' stack out with
  | nil => rfl
  | cons a l ih =>
    rw [runS, runS]
    cases collect stack (preds a) with
    | none => rfl
    | some ins =>
      have h := hm a (st a) (st' a) ins
      simp only
      rw [h]
      cases (process a (st' a) instr ins).1 with
      | error e => rfl
      | ok v => exact ih _ _ _ _

/-- C48 (partial): if no device of the chain lets its output depend on its stored attributes, the
generated signal is the same after any history of calls as on a fresh generator. Missing: the local
oscillator does depend on its attribute for instructions without a carrier
(`C48_false_stale_oscillator`). -/
theorem C48_no_memory_partial (preds : α → List α)
    (process : α → S → I → List V → Except E V × S) (order : List α) (st : α → S)
    (hist : List I) (instr : I) (hm : Memoryless process instr) :
    (generateS preds process order (historyS preds process order st hist) instr).1 =
      (generateS preds process order st instr).1 :=
  runS_memoryless preds process instr hm order _ _ _ _

/-! ## The devices -/

/-- The component of an instruction seen by the oscillator: a carrier with its frequency, or
something else. -/
inductive Comp
  | carrier (freq : ℚ)
  | other
  deriving DecidableEq

/-- An instruction on one channel: components (in dictionary order) and the sample times. -/
structure LOInstr where
  comps : List Comp
  ts : List ℚ
  deriving DecidableEq

/-- Signal of the oscillator: the samples are symbolic `(freq, t)`, standing for `cos(freq·t)` and
`sin(freq·t)`. -/
structure LOSig where
  samples : List (ℚ × ℚ)
  ts : List ℚ
  deriving DecidableEq

/-- c3/generator/devices.py:1073-1130 `LO.process` without noise. The state is `self.signal`
(`none` while it has no key "inphase"). -/
def loProcess (st : Option LOSig) (i : LOInstr) : Except String LOSig × Option LOSig :=
  let st' := i.comps.foldl (fun st c => match c with
    | .carrier f => some ⟨i.ts.map fun t => (f, t), i.ts⟩
    | .other => st) st
  match st' with
  | none => (.error "Probably no carrier proviced", none)
  | some s => (.ok s, some s)

theorem lo_fold_carrier (i : LOInstr) (l : List Comp) (st st' : Option LOSig)
    (h : (∃ f, Comp.carrier f ∈ l) ∨ st = st') :
    l.foldl (fun st c => match c with
      | .carrier f => some (⟨i.ts.map fun t => (f, t), i.ts⟩ : LOSig)
      | .other => st) st =
    l.foldl (fun st c => match c with
      | .carrier f => some (⟨i.ts.map fun t => (f, t), i.ts⟩ : LOSig)
      | .other => st) st' := by
  induction l generalizing st st' with
  | nil => simpa using h
  | cons c l ih =>
    simp only [List.foldl_cons]
    apply ih
    cases c with
    | carrier f => exact Or.inr rfl
    | other =>
      rcases h with ⟨f, hf⟩ | h
      · left
        exact ⟨f, by simpa using hf⟩
      · exact Or.inr h

/-- The oscillator has no memory for instructions with a carrier. -/
theorem C48_oscillator_with_carrier_partial (i : LOInstr) (h : ∃ f, Comp.carrier f ∈ i.comps)
    (st st' : Option LOSig) : (loProcess st i).1 = (loProcess st' i).1 := by
  unfold loProcess
  rw [lo_fold_carrier i i.comps st st' (Or.inl h)]

/-- C48 is false: an instruction without a carrier raises on a fresh oscillator, but after any other
instruction with a carrier it silently returns the old signal with the old (possibly different
number of) time samples. -/
theorem C48_false_stale_oscillator :
    (loProcess none ⟨[.other], [0]⟩).1 = .error "Probably no carrier proviced" ∧
    (loProcess (loProcess none ⟨[.carrier 5], [0, 1]⟩).2 ⟨[.other], [0]⟩).1 =
      .ok ⟨[(5, 0), (5, 1)], [0, 1]⟩ := by
  constructor <;> decide +kernel

/-- The chain of a single oscillator. -/
def loChain (_ : String) (st : Option LOSig) (i : LOInstr) (_ : List LOSig) : Except String LOSig × Option LOSig :=
  loProcess st i

/-- C48 is false for a generator: the same instruction without a carrier raises on a fresh generator and gives an old
signal after another instruction. -/
theorem C48_false_stale_chain :
    (generateS (fun _ => []) loChain ["lo"] (fun _ => none) ⟨[.other], [0]⟩).1 =
      .error "Probably no carrier proviced" ∧
    (generateS (fun _ => []) loChain ["lo"]
      (historyS (fun _ => []) loChain ["lo"] (fun _ => none) [⟨[.carrier 5], [0, 1]⟩]) ⟨[.other], [0]⟩).1 =
      .ok (some ⟨[(5, 0), (5, 1)], [0, 1]⟩) := by
  constructor <;> decide +kernel

/-- c3/generator/devices.py:203-221 `VoltsToHertz.process`, :296-351 `DigitalToAnalog.process`: these
devices write all keys of `self.signal` from their input and return the dictionary; the state is that
dictionary. `f` is the map from input to the written keys. -/
def overwrite (f : V → List (String × V)) (st : String → Option V) (v : V) :
    (String → Option V) :=
  (f v).foldl (fun st kv => Function.update st kv.1 (some kv.2)) st

theorem overwrite_fold (l : List (String × V)) (st st' : String → Option V) (k : String)
    (h : k ∈ l.map Prod.fst ∨ st k = st' k) :
    (l.foldl (fun (st : String → Option V) kv => Function.update st kv.1 (some kv.2)) st) k =
      (l.foldl (fun (st : String → Option V) kv => Function.update st kv.1 (some kv.2)) st') k := by
  induction l generalizing st st' with
  | nil => simpa using h
  | cons a l ih =>
    simp only [List.foldl_cons]
    apply ih
    by_cases hk : k = a.1
    · right
      simp [hk]
    · rcases h with h | h
      · left
        simpa [hk] using h
      · right
        rw [Function.update_of_ne hk, Function.update_of_ne hk, h]

/-- Devices which write all the keys that they return have no memory. -/
theorem C48_overwriting_devices (f : V → List (String × V)) (st st' : String → Option V) (v : V)
    (k : String) (hk : k ∈ (f v).map Prod.fst) : overwrite f st v k = overwrite f st' v k :=
  overwrite_fold _ _ _ _ (Or.inl hk)

example : overwrite (fun v : ℚ => [("values", 2 * v), ("ts", v)]) (fun _ => some 7) 3 "values" =
    some 6 := by decide +kernel

/-- A chain with a memoryless device, to show that the hypothesis can be met with states that do
change. -/
example : Memoryless (fun (_ : String) (s : ℕ) (i : ℕ) (_ : List ℕ) =>
    ((.ok i : Except String ℕ), s + 1)) 3 := by
  intro x s s' ins
  rfl

end C3.Chain
