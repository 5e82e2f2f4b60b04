import Verif.Fold.Model
import Mathlib.Data.List.Induction
import Mathlib.Data.List.Dedup
import Mathlib.Tactic.Linarith

/-!
# C68, C111: which propagators are computed and kept, and with which method

Models c3/experiment.py:59-107 (`__init__`, `set_prop_method`, `_compute_folding_stack`), 440-534
(`compute_propagators`), 536-558 (`set_opt_gates`, `set_opt_gates_seq`) and the method selection of
`compute_states` (634-682).

Simplifications: dictionaries are functions to `Option` (the order of keys is not modelled), the
numerical content of a propagation method is a parameter `World.prop`, and propagators, frame rotations
and dephasing channels are elements of a monoid `V` (square matrices of the size of the problem).
-/

namespace C3.Experiment.Compute

abbrev Gate := String

/-- A value for the constructor argument `prop_method` other than `None`. -/
inductive Method where
  /-- a name to look up -/
  | name (s : String)
  /-- a callable -/
  | fn (k : ℕ)
  deriving DecidableEq

inductive Err where
  /-- "Gate ... is not defined" -/
  | unknownGate
  /-- "Dephasing can only be added when lindblad is on." -/
  | dephasing
  /-- no attribute `folding_stack` -/
  | attribute
  /-- key not found -/
  | key
  /-- raised inside the propagation method -/
  | inner
  /-- `get_average_amp()` called without its argument `line` -/
  | signature
  deriving DecidableEq

/-- Instruction as seen here: the number of steps `int((t_end - t_start) * sim_res)`, and whether it has any
drive line (`instr.comps` is not empty). -/
structure Instr where
  steps : ℕ
  lines : Bool

/-- Everything `compute_propagators` reads but does not change: `pmap` with its instructions, model flags
and parameter values, and the propagation methods. -/
structure World (V : Type) where
  keys : List Gate
  instr : Gate → Option Instr
  useFR : Bool
  lind : Bool
  dephasing : Bool
  /-- `unitary_provider` (first) and `state_provider` -/
  prop : Method → Gate → List Bool → Except Err V
  /-- c3/experiment.py:482-509: `get_Frame_Rotation` of the carriers, passed through `tf_super` if the flag is
  set; raises for a line without a component called "carrier" -/
  frame : Bool → Gate → Except Err V

/-- The state of an `Experiment`. -/
structure Exp (V : Type) where
  /-- constructor argument, attribute `prop_method` -/
  propMethod : Option Method
  /-- attribute `propagation` -/
  propagation : Method
  /-- attribute `folding_stack`, `none` if it does not exist -/
  stack : Option (ℕ → Option (List Bool))
  optGates : Option (List Gate)
  overwrite : Bool
  propagators : Gate → Option V

/-- The names registered by the decorators in c3/libraries/propagation.py (71, 221, 258, 518, 687, 724). -/
def provider : List String :=
  ["gen_dus_rk4", "rk4_unitary", "pwc", "tf_propagation", "ode_solver", "ode_solver_final_state"]

variable {V : Type}

/-- c3/experiment.py:93-107 `_compute_folding_stack`. -/
def foldingStack (w : World V) : ℕ → Option (List Bool) := fun n =>
  if w.keys.any fun g => (w.instr g).any fun i => i.steps == n then some (Fold.stackFor n) else none

/-- c3/experiment.py:76-91 `set_prop_method`, for an experiment with a parameter map. -/
def setPropMethod (w : World V) (m : Option Method) (s : Exp V) : Except Err (Exp V) :=
  match m with
  | none => .ok { s with propagation := .name "pwc", stack := some (foldingStack w) }
  | some (.name n) => if n ∈ provider then .ok { s with propagation := .name n } else .error .key
  | some (.fn k) => .ok { s with propagation := .fn k }

/-- c3/experiment.py:59-74 `__init__`. -/
def init (w : World V) (m : Option Method) : Except Err (Exp V) :=
  setPropMethod w m ⟨m, .name "pwc", none, none, true, fun _ => none⟩

/-- c3/experiment.py:470-522: the propagator of one gate. The dephasing branch asks each line for its average
amplitude with `generator.devices["awg"].get_average_amp()`, which lacks the required argument
(c3/generator/devices.py:1199) and raises; without lines the channel is the identity. -/
def gateProp [Monoid V] (w : World V) (s : Exp V) (g : Gate) : Except Err V := do
  let i ← match w.instr g with
    | none => .error .unknownGate
    | some i => .ok i
  let stack ← match s.stack with
    | none => .error .attribute
    | some st => match st i.steps with
      | none => .error .key
      | some l => .ok l
  let U ← w.prop s.propagation g stack
  let U ← if w.useFR then do
      let F ← w.frame w.lind g
      .ok (F * U)
    else .ok U
  if w.dephasing then
    if w.lind then
      if i.lines then .error .signature else .ok U
    else .error .dephasing
  else .ok U

/-- c3/experiment.py:461-524: the loop over the gates, filling the dictionary `propagators`. -/
def gateLoop [Monoid V] (w : World V) (s : Exp V) : List Gate → (Gate → Option V) → Except Err (Gate → Option V)
  | [], d => .ok d
  | g :: gs, d => do
    let U ← gateProp w s g
    gateLoop w s gs fun h => if h = g then some U else d h

/-- c3/experiment.py:455-457. -/
def gateIds (w : World V) (s : Exp V) : List Gate := s.optGates.getD w.keys

/-- c3/experiment.py:440-534 `compute_propagators`: the returned dictionary or exception, and the state
left behind. -/
def compute [Monoid V] (w : World V) (s : Exp V) : Except Err (Gate → Option V) × Exp V :=
  match setPropMethod w s.propMethod s with
  | .error e => (.error e, s)
  | .ok s' =>
    match gateLoop w s' (gateIds w s') fun _ => none with
    | .error e => (.error e, s')
    | .ok d =>
      (.ok d, { s' with propagators := if s'.overwrite then d else fun g => (d g).or (s'.propagators g) })

/-- c3/experiment.py:536-547 `set_opt_gates`. -/
def setOptGates (gates : Gate ⊕ Option (List Gate)) (s : Exp V) : Exp V :=
  match gates with
  | .inl g => { s with optGates := some [g] }
  | .inr l => { s with optGates := l }

/-- c3/experiment.py:549-558 `set_opt_gates_seq`; the order of `list(set(...))` is not fixed by Python,
this is one choice. -/
def setOptGatesSeq (seqs : List (List Gate)) (s : Exp V) : Exp V :=
  { s with optGates := some seqs.flatten.dedup }

/-- c3/experiment.py:659 in `compute_states` (and 704 in `compute_final_state`): the only effect on the
experiment is the change of the propagation method. -/
def computeStates (w : World V) (s : Exp V) : Except Err (Exp V) :=
  setPropMethod w (some (.name "ode_solver")) s

/-! ## Specification -/

/-- The value of a gate: method `m` with the folding stack that fits, then the frame rotation; dephasing is
refused for closed systems and for instructions with a drive line (see C125). -/
def physical [Monoid V] (w : World V) (m : Method) (g : Gate) : Except Err V :=
  match w.instr g with
  | none => .error .unknownGate
  | some i =>
    match w.prop m g (Fold.stackFor i.steps) with
    | .error e => .error e
    | .ok U =>
      match (if w.useFR then w.frame w.lind g else .ok 1) with
      | .error e => .error e
      | .ok F =>
        if w.dephasing && !w.lind then .error .dephasing
        else if w.dephasing && i.lines then .error .signature
        else .ok (F * U)

/-! ## Lemmas -/

theorem gateLoop_ok [Monoid V] (w : World V) (s : Exp V) (gs : List Gate) (d d' : Gate → Option V)
    (h : gateLoop w s gs d = .ok d') :
    (∀ g ∈ gs, ∃ v, gateProp w s g = .ok v ∧ d' g = some v) ∧ ∀ g, g ∉ gs → d' g = d g := by
  induction gs generalizing d with
  | nil => simp only [gateLoop, Except.ok.injEq] at h; subst h; simp
  | cons a gs ih =>
    unfold gateLoop at h
    cases hU : gateProp w s a with
    | error e => rw [hU] at h; simp [bind, Except.bind] at h
    | ok U =>
      rw [hU] at h
      simp only [bind, Except.bind] at h
      obtain ⟨h1, h2⟩ := ih _ h
      constructor
      · intro g hg
        by_cases hgs : g ∈ gs
        · exact h1 g hgs
        · obtain rfl : g = a := by
            rcases List.mem_cons.1 hg with h | h
            · exact h
            · exact absurd h hgs
          exact ⟨U, hU, by rw [h2 g hgs]; simp⟩
      · intro g hg
        rw [List.mem_cons, not_or] at hg
        rw [h2 g hg.2]
        simp [hg.1]

theorem gateLoop_total [Monoid V] (w : World V) (s : Exp V) (gs : List Gate) (d : Gate → Option V)
    (h : ∀ g ∈ gs, ∃ v, gateProp w s g = .ok v) : ∃ d', gateLoop w s gs d = .ok d' := by
  induction gs generalizing d with
  | nil => exact ⟨d, rfl⟩
  | cons a gs ih =>
    obtain ⟨U, hU⟩ := h a List.mem_cons_self
    unfold gateLoop
    rw [hU]
    exact ih _ fun g hg => h g (List.mem_cons_of_mem _ hg)

theorem gateLoop_error [Monoid V] (w : World V) (s : Exp V) (gs : List Gate) (d : Gate → Option V) (g : Gate)
    (hg : g ∈ gs) (e : Err) (h : gateProp w s g = .error e) : ∃ e', gateLoop w s gs d = .error e' := by
  cases hl : gateLoop w s gs d with
  | error e' => exact ⟨e', rfl⟩
  | ok d' =>
    obtain ⟨v, hv, _⟩ := (gateLoop_ok w s gs d d' hl).1 g hg
    rw [h] at hv
    simp at hv

/-- `w.keys` are the gates of the instruction set. -/
def World.WF (w : World V) : Prop := ∀ g, g ∈ w.keys ↔ ∃ i, w.instr g = some i

theorem gateProp_default [Monoid V] (w : World V) (hw : w.WF) (s : Exp V) (hs : s.stack = some (foldingStack w))
    (g : Gate) : gateProp w s g = physical w s.propagation g := by
  unfold gateProp physical
  cases hi : w.instr g with
  | none => simp [bind, Except.bind]
  | some i =>
    have hst : foldingStack w i.steps = some (Fold.stackFor i.steps) := by
      unfold foldingStack
      rw [if_pos]
      rw [List.any_eq_true]
      exact ⟨g, (hw g).2 ⟨i, hi⟩, by simp [hi]⟩
    rw [hs]
    simp only [bind, Except.bind, hst]
    cases w.prop s.propagation g (Fold.stackFor i.steps) with
    | error e => simp
    | ok U =>
      cases w.dephasing <;> cases w.lind <;> cases w.useFR <;> cases i.lines <;> simp <;>
        cases w.frame _ g <;> rfl

/-! ## C68 -/

/-- C68: the methods that can be chosen by name. -/
theorem C68_methods (w : World V) (s : Exp V) (n : String) :
    (∃ s', setPropMethod w (some (.name n)) s = .ok s' ∧ s'.propagation = .name n) ↔
      n = "pwc" ∨ n = "rk4_unitary" ∨ n = "gen_dus_rk4" ∨ n = "tf_propagation" ∨ n = "ode_solver" ∨
        n = "ode_solver_final_state" := by
  unfold setPropMethod
  simp only
  constructor
  · rintro ⟨s', h, -⟩
    split at h
    · rename_i hn
      simp only [provider, List.mem_cons, List.not_mem_nil, or_false] at hn
      tauto
    · cases h
  · intro h
    have hn : n ∈ provider := by
      simp only [provider, List.mem_cons, List.not_mem_nil, or_false]
      tauto
    rw [if_pos hn]
    exact ⟨_, rfl, rfl⟩

/-- C68: an experiment constructed with the default method computes exactly the selected gates, all gates
if there is no selection; each gets the value of the piecewise constant propagation followed by frame
rotation. -/
theorem C68_selected [Monoid V] (w : World V) (hw : w.WF) (s : Exp V) (hm : s.propMethod = none)
    (d : Gate → Option V) (s' : Exp V) (h : compute w s = (.ok d, s')) (g : Gate) :
    (g ∈ s.optGates.getD w.keys → ∃ v, physical w (.name "pwc") g = .ok v ∧ d g = some v) ∧
    (g ∉ s.optGates.getD w.keys → d g = none) := by
  unfold compute at h
  rw [hm] at h
  simp only [setPropMethod] at h
  split at h
  · simp at h
  · rename_i d0 hd
    simp only [Prod.mk.injEq, Except.ok.injEq] at h
    obtain ⟨rfl, _⟩ := h
    obtain ⟨h1, h2⟩ := gateLoop_ok _ _ _ _ _ hd
    constructor
    · intro hg
      obtain ⟨v, hv, hdv⟩ := h1 g hg
      rw [gateProp_default w hw _ rfl] at hv
      exact ⟨v, hv, hdv⟩
    · intro hg
      exact h2 g hg

/-- C68: it succeeds if and only if every selected gate has a value. -/
theorem C68_succeeds_iff [Monoid V] (w : World V) (hw : w.WF) (s : Exp V) (hm : s.propMethod = none) :
    (∃ d s', compute w s = (.ok d, s')) ↔
      ∀ g ∈ s.optGates.getD w.keys, ∃ v, physical w (.name "pwc") g = .ok v := by
  constructor
  · rintro ⟨d, s', h⟩ g hg
    obtain ⟨v, hv, _⟩ := (C68_selected w hw s hm d s' h g).1 hg
    exact ⟨v, hv⟩
  · intro h
    unfold compute
    rw [hm]
    simp only [setPropMethod]
    obtain ⟨d, hd⟩ := gateLoop_total w
      { s with propagation := .name "pwc", stack := some (foldingStack w) } (s.optGates.getD w.keys)
      (fun _ => none) (fun g hg => by rw [gateProp_default w hw _ rfl]; exact h g hg)
    unfold gateIds
    rw [hd]
    exact ⟨_, _, rfl⟩

/-- C68: a selection with a gate that is not defined raises, wherever in the selection it is. -/
theorem C68_unknown [Monoid V] (w : World V) (hw : w.WF) (s : Exp V) (hm : s.propMethod = none) (g : Gate)
    (hg : g ∈ s.optGates.getD w.keys) (hu : w.instr g = none) :
    ∃ e s', compute w s = (.error e, s') := by
  cases h : compute w s with
  | mk r s' =>
    cases r with
    | error e => exact ⟨e, s', rfl⟩
    | ok d =>
      obtain ⟨v, hv⟩ := (C68_succeeds_iff w hw s hm).1 ⟨d, s', h⟩ g hg
      simp [physical, hu] at hv

/-- C68: dephasing on a closed system raises. -/
theorem C68_dephasing [Monoid V] (w : World V) (hw : w.WF) (s : Exp V) (hm : s.propMethod = none) (g : Gate)
    (hg : g ∈ s.optGates.getD w.keys) (hd : w.dephasing = true) (hl : w.lind = false) :
    ∃ e s', compute w s = (.error e, s') := by
  cases h : compute w s with
  | mk r s' =>
    cases r with
    | error e => exact ⟨e, s', rfl⟩
    | ok d =>
      obtain ⟨v, hv⟩ := (C68_succeeds_iff w hw s hm).1 ⟨d, s', h⟩ g hg
      unfold physical at hv
      rw [hd, hl] at hv
      split at hv
      · simp at hv
      · split at hv
        · simp at hv
        · split at hv <;> simp at hv

/-- C125: the dephasing channel of a driven gate is never applied: with a dephasing strength on an open system
the computation raises for every selection with an instruction that has a drive line. -/
theorem C125_false_dephasing [Monoid V] (w : World V) (hw : w.WF) (s : Exp V) (hm : s.propMethod = none) (g : Gate)
    (i : Instr) (hi : w.instr g = some i) (hl : i.lines = true) (hg : g ∈ s.optGates.getD w.keys)
    (hd : w.dephasing = true) : ∃ e s', compute w s = (.error e, s') := by
  cases h : compute w s with
  | mk r s' =>
    cases r with
    | error e => exact ⟨e, s', rfl⟩
    | ok d =>
      obtain ⟨v, hv⟩ := (C68_succeeds_iff w hw s hm).1 ⟨d, s', h⟩ g hg
      unfold physical at hv
      rw [hd, hi] at hv
      simp only [Bool.true_and, hl, if_true] at hv
      split at hv
      · simp at hv
      · split at hv
        · simp at hv
        · split at hv <;> simp at hv

/-- C125: when the computation does return with a dephasing strength on an open system, no channel has been
applied: the values are those without any dephasing. -/
theorem C125_partial [Monoid V] (w : World V) (hw : w.WF) (s : Exp V) (hm : s.propMethod = none)
    (d : Gate → Option V) (s' : Exp V) (h : compute w s = (.ok d, s')) :
    ∃ s'', compute { w with dephasing := false } s = (.ok d, s'') := by
  have hw' : World.WF { w with dephasing := false } := hw
  have key : ∀ g v, physical w (.name "pwc") g = .ok v →
      physical { w with dephasing := false } (.name "pwc") g = .ok v := by
    intro g v hv
    unfold physical at hv ⊢
    simp only
    cases hi : w.instr g with
    | none => rw [hi] at hv; simp at hv
    | some i =>
      rw [hi] at hv
      simp only at hv ⊢
      cases hU : w.prop (.name "pwc") g (Fold.stackFor i.steps) with
      | error e => rw [hU] at hv; simp at hv
      | ok U =>
        rw [hU] at hv
        simp only at hv ⊢
        cases hF : (if w.useFR then w.frame w.lind g else .ok 1) with
        | error e => rw [hF] at hv; simp at hv
        | ok F =>
          rw [hF] at hv
          simp only [Bool.false_and, Bool.false_eq_true, if_false] at hv ⊢
          split at hv
          · simp at hv
          · split at hv
            · simp at hv
            · exact hv
  obtain ⟨d2, s2, h2⟩ := (C68_succeeds_iff { w with dephasing := false } hw' s hm).2 fun g hg => by
    obtain ⟨v, hv⟩ := (C68_succeeds_iff w hw s hm).1 ⟨d, s', h⟩ g hg
    exact ⟨v, key g v hv⟩
  have : d2 = d := by
    funext g
    by_cases hg : g ∈ s.optGates.getD w.keys
    · obtain ⟨v, hv, e⟩ := (C68_selected w hw s hm d s' h g).1 hg
      obtain ⟨v2, hv2, e2⟩ := (C68_selected _ hw' s hm d2 s2 h2 g).1 hg
      rw [key g v hv] at hv2
      simp only [Except.ok.injEq] at hv2
      rw [e, e2, hv2]
    · rw [(C68_selected w hw s hm d s' h g).2 hg, (C68_selected _ hw' s hm d2 s2 h2 g).2 hg]
  subst this
  exact ⟨s2, h2⟩

/-- C68: a raising computation, for any reason and any method, keeps the stored propagators. -/
theorem C68_raise_keeps [Monoid V] (w : World V) (s : Exp V) (e : Err) (s' : Exp V)
    (h : compute w s = (.error e, s')) : s'.propagators = s.propagators ∧ s'.optGates = s.optGates ∧
      s'.overwrite = s.overwrite := by
  unfold compute at h
  split at h
  · simp only [Prod.mk.injEq] at h
    obtain ⟨_, rfl⟩ := h
    exact ⟨rfl, rfl, rfl⟩
  · rename_i s1 hs1
    have : s1.propagators = s.propagators ∧ s1.optGates = s.optGates ∧ s1.overwrite = s.overwrite := by
      unfold setPropMethod at hs1
      split at hs1
      · simp only [Except.ok.injEq] at hs1; subst hs1; exact ⟨rfl, rfl, rfl⟩
      · split at hs1
        · simp only [Except.ok.injEq] at hs1; subst hs1; exact ⟨rfl, rfl, rfl⟩
        · simp at hs1
      · simp only [Except.ok.injEq] at hs1; subst hs1; exact ⟨rfl, rfl, rfl⟩
    split at h
    · simp only [Prod.mk.injEq] at h
      obtain ⟨_, rfl⟩ := h
      exact this
    · simp at h

/-- C68: what is stored after a successful computation. -/
theorem C68_stored [Monoid V] (w : World V) (s : Exp V) (hm : s.propMethod = none) (d : Gate → Option V)
    (s' : Exp V) (h : compute w s = (.ok d, s')) (g : Gate) :
    s'.propagators g = (if g ∈ s.optGates.getD w.keys then d g
      else if s.overwrite then none else s.propagators g) ∧ s'.optGates = s.optGates ∧
      s'.overwrite = s.overwrite ∧ s'.propMethod = none := by
  unfold compute at h
  rw [hm] at h
  simp only [setPropMethod] at h
  split at h
  · simp at h
  · rename_i d0 hd
    simp only [Prod.mk.injEq, Except.ok.injEq] at h
    obtain ⟨rfl, rfl⟩ := h
    obtain ⟨h1, h2⟩ := gateLoop_ok _ _ _ _ _ hd
    refine ⟨?_, rfl, rfl, hm⟩
    simp only
    by_cases hg : g ∈ s.optGates.getD w.keys
    · obtain ⟨v, _, hv⟩ := h1 g hg
      rw [if_pos hg]
      cases s.overwrite <;> simp [hv]
    · have := h2 g hg
      rw [if_neg hg]
      cases s.overwrite <;> simp [this]

/-! ### Histories -/

/-- One call of `compute_propagators` at some point of a history: parameters, instructions, selection
and flags may all have changed since the call before. -/
structure Event (V : Type) where
  w : World V
  sel : Option (List Gate)
  overwrite : Bool

/-- The state before the computation of the event. -/
def Event.enter (e : Event V) (s : Exp V) : Exp V := { s with optGates := e.sel, overwrite := e.overwrite }

/-- Executing the calls in order, continuing after exceptions. -/
def runEvents [Monoid V] (s : Exp V) : List (Event V) → Exp V
  | [] => s
  | e :: es => runEvents (compute e.w (e.enter s)).2 es

/-- The call returns normally. -/
def Event.Succeeds [Monoid V] (e : Event V) : Prop :=
  ∀ g ∈ e.sel.getD e.w.keys, ∃ v, physical e.w (.name "pwc") g = .ok v

theorem runEvents_append [Monoid V] (s : Exp V) (a b : List (Event V)) :
    runEvents s (a ++ b) = runEvents (runEvents s a) b := by
  induction a generalizing s with
  | nil => rfl
  | cons e es ih => exact ih _

theorem compute_propMethod [Monoid V] (w : World V) (s : Exp V) : (compute w s).2.propMethod = s.propMethod := by
  unfold compute
  split
  · rfl
  · rename_i s1 hs1
    have : s1.propMethod = s.propMethod := by
      unfold setPropMethod at hs1
      split at hs1
      · simp only [Except.ok.injEq] at hs1; subst hs1; rfl
      · split at hs1
        · simp only [Except.ok.injEq] at hs1; subst hs1; rfl
        · simp at hs1
      · simp only [Except.ok.injEq] at hs1; subst hs1; rfl
    split
    · exact this
    · exact this

theorem runEvents_propMethod [Monoid V] (s : Exp V) (es : List (Event V)) :
    (runEvents s es).propMethod = s.propMethod := by
  induction es generalizing s with
  | nil => rfl
  | cons e es ih =>
    rw [runEvents, ih, compute_propMethod]
    rfl

/-- C68, for every history of calls with changing parameters, instructions, selections and flags,
including calls that raise: the stored propagator of a gate is the value it had in the last successful
call that selected it, and it is gone if a later successful call with overwriting did not select it. -/
theorem C68_history [Monoid V] (s : Exp V) (hm : s.propMethod = none) (hp : ∀ g, s.propagators g = none)
    (es : List (Event V)) (hw : ∀ e ∈ es, e.w.WF) (g : Gate) (v : V) :
    (runEvents s es).propagators g = some v ↔
      ∃ pre e post, es = pre ++ e :: post ∧ e.Succeeds ∧ g ∈ e.sel.getD e.w.keys ∧
        physical e.w (.name "pwc") g = .ok v ∧
        ∀ f ∈ post, f.Succeeds → g ∉ f.sel.getD f.w.keys ∧ f.overwrite = false := by
  induction es using List.reverseRecOn with
  | nil =>
    simp [runEvents, hp]
  | append_singleton es e ih =>
    have ih := ih fun f hf => hw f (List.mem_append_left _ hf)
    have hwe := hw e (by simp)
    rw [runEvents_append]
    simp only [runEvents]
    generalize hS : runEvents s es = S at ih
    have hSm : S.propMethod = none := by rw [← hS, runEvents_propMethod, hm]
    have hEm : (e.enter S).propMethod = none := hSm
    have hback : (∃ pre e' post, es ++ [e] = pre ++ e' :: post ∧ e'.Succeeds ∧
        g ∈ e'.sel.getD e'.w.keys ∧ physical e'.w (.name "pwc") g = .ok v ∧
        ∀ f ∈ post, f.Succeeds → g ∉ f.sel.getD f.w.keys ∧ f.overwrite = false) ↔
      (e.Succeeds ∧ g ∈ e.sel.getD e.w.keys ∧ physical e.w (.name "pwc") g = .ok v) ∨
      ((e.Succeeds → g ∉ e.sel.getD e.w.keys ∧ e.overwrite = false) ∧ S.propagators g = some v) := by
      rw [ih]
      constructor
      · rintro ⟨pre, e', post, heq, h1, h2, h3, h4⟩
        rcases List.eq_nil_or_concat post with rfl | ⟨post', f, rfl⟩
        · obtain ⟨_, h⟩ := List.append_inj_right' heq rfl |> fun h => (⟨trivial, h⟩ : True ∧ _)
          simp only [List.cons.injEq, and_true] at h
          subst h
          exact Or.inl ⟨h1, h2, h3⟩
        · rw [List.concat_eq_append, ← List.cons_append, ← List.append_assoc] at heq
          have hf := List.append_inj_right' heq rfl
          have hl := List.append_inj_left' heq rfl
          simp only [List.cons.injEq, and_true] at hf
          subst hf
          refine Or.inr ⟨h4 e (by simp), pre, e', post', hl, h1, h2, h3, fun f hf => h4 f ?_⟩
          rw [List.concat_eq_append]
          exact List.mem_append_left _ hf
      · rintro (⟨h1, h2, h3⟩ | ⟨h0, pre, e', post, rfl, h1, h2, h3, h4⟩)
        · exact ⟨es, e, [], rfl, h1, h2, h3, by simp⟩
        · refine ⟨pre, e', post ++ [e], by simp, h1, h2, h3, ?_⟩
          intro f hf
          rcases List.mem_append.1 hf with hf | hf
          · exact h4 f hf
          · rw [List.mem_singleton] at hf
            subst hf
            exact h0
    rw [hback]
    have hiff := C68_succeeds_iff e.w hwe (e.enter S) hEm
    cases hc : compute e.w (e.enter S) with
    | mk r s' =>
      cases r with
      | error er =>
        have hns : ¬ e.Succeeds := by
          intro h
          obtain ⟨d, s'', hd⟩ := hiff.2 h
          rw [hc] at hd
          simp at hd
        rw [(C68_raise_keeps _ _ _ _ hc).1]
        simp only [hns, false_and, false_or, false_imp_iff, true_and]
        rfl
      | ok d =>
        have hsu : e.Succeeds := hiff.1 ⟨d, s', hc⟩
        have hst := (C68_stored e.w (e.enter S) hEm d s' hc g).1
        have hsel := C68_selected e.w hwe (e.enter S) hEm d s' hc g
        have hst : s'.propagators g = (if g ∈ e.sel.getD e.w.keys then d g
          else if e.overwrite then none else S.propagators g) := hst
        simp only [Event.enter] at hsel
        simp only [hsu, true_and, true_imp_iff]
        rw [hst]
        by_cases hg : g ∈ e.sel.getD e.w.keys
        · obtain ⟨v', hv', hd⟩ := hsel.1 hg
          rw [if_pos hg, hd, hv']
          simp [hg]
        · rw [if_neg hg]
          cases e.overwrite <;> simp [hg]

/-- C68: a single name stands for the list with that name; a list is taken as it is. -/
theorem C68_set_opt (s : Exp V) (g : Gate) (l : Option (List Gate)) :
    (setOptGates (.inl g) s).optGates = some [g] ∧ (setOptGates (.inr l) s).optGates = l := ⟨rfl, rfl⟩

/-- C68: after selecting by sequences exactly the gates that occur in them are selected, each once. -/
theorem C68_set_seq (s : Exp V) (w : World V) (seqs : List (List Gate)) (g : Gate) :
    (g ∈ gateIds w (setOptGatesSeq seqs s) ↔ ∃ q ∈ seqs, g ∈ q) ∧ (gateIds w (setOptGatesSeq seqs s)).Nodup := by
  constructor
  · simp [gateIds, setOptGatesSeq]
  · simp only [gateIds, setOptGatesSeq, Option.getD_some]
    exact List.nodup_dedup _

/-- C68: a selection in another order or with repetitions gives the same dictionary. -/
theorem C68_order [Monoid V] (w : World V) (hw : w.WF) (s s2 : Exp V) (hm : s.propMethod = none)
    (hm2 : s2.propMethod = none)
    (hs : ∀ g, g ∈ s.optGates.getD w.keys ↔ g ∈ s2.optGates.getD w.keys) (d : Gate → Option V) (s' : Exp V)
    (h : compute w s = (.ok d, s')) : ∃ s2', compute w s2 = (.ok d, s2') := by
  have h2 := (C68_succeeds_iff w hw s2 hm2).2 fun g hg =>
    (C68_succeeds_iff w hw s hm).1 ⟨d, s', h⟩ g ((hs g).2 hg)
  obtain ⟨d2, s2', h2⟩ := h2
  have : d2 = d := by
    funext g
    by_cases hg : g ∈ s.optGates.getD w.keys
    · obtain ⟨v, hv, e⟩ := (C68_selected w hw s hm d s' h g).1 hg
      obtain ⟨v2, hv2, e2⟩ := (C68_selected w hw s2 hm2 d2 s2' h2 g).1 ((hs g).1 hg)
      rw [hv] at hv2
      simp only [Except.ok.injEq] at hv2
      rw [e, e2, hv2]
    · rw [(C68_selected w hw s hm d s' h g).2 hg,
        (C68_selected w hw s2 hm2 d2 s2' h2 g).2 fun hg2 => hg ((hs g).2 hg2)]
  subst this
  exact ⟨s2', h2⟩

/-- A world for the examples: two gates, the method decides the value. -/
def exWorld (k : ℕ) : World (Multiplicative ℕ) where
  keys := ["a", "b"]
  instr g := if g ∈ ["a", "b"] then some ⟨3, true⟩ else none
  useFR := false
  lind := false
  dephasing := false
  prop m _ _ := match m with
    | .name s => .ok (Multiplicative.ofAdd (s.length + k))
    | .fn n => .ok (Multiplicative.ofAdd (100 + n))
  frame _ _ := .ok 1

theorem exWorld_wf (k : ℕ) : (exWorld k).WF := by
  intro g
  simp only [exWorld]
  by_cases h : g ∈ ["a", "b"]
  · simp [h]
  · simp [h]

/-- An open system with a dephasing strength; `lines` says whether the gates drive anything. -/
def exDephasing (lines : Bool) : World (Multiplicative ℕ) where
  keys := ["a", "b"]
  instr g := if g ∈ ["a", "b"] then some ⟨3, lines⟩ else none
  useFR := false
  lind := true
  dephasing := true
  prop _ _ _ := .ok (Multiplicative.ofAdd 1)
  frame _ _ := .ok 1

theorem exDephasing_wf (l : Bool) : (exDephasing l).WF := by
  intro g
  simp only [exDephasing]
  by_cases h : g ∈ ["a", "b"]
  · simp [h]
  · simp [h]

/-- C125 is not vacuous: a driven gate. -/
example : ∃ e s', compute (exDephasing true)
    ⟨none, .name "pwc", none, none, true, fun _ => none⟩ = (.error e, s') :=
  C125_false_dephasing (exDephasing true) (exDephasing_wf true) ⟨none, .name "pwc", none, none, true, fun _ => none⟩
    rfl "a" ⟨3, true⟩ rfl rfl (by simp [exDephasing]) rfl

/-- C125, the case that returns: instructions without lines. -/
example : ∃ d s', compute (exDephasing false)
    ⟨none, .name "pwc", none, some ["a"], true, fun _ => none⟩ = (.ok d, s') := ⟨_, _, rfl⟩

example : ∃ s, init (exWorld 0) none = .ok s ∧
    (runEvents s [⟨exWorld 0, none, true⟩, ⟨exWorld 5, some ["b"], false⟩,
      ⟨exWorld 9, some ["a", "x"], true⟩]).propagators "a" = some (Multiplicative.ofAdd 3) ∧
    (runEvents s [⟨exWorld 0, none, true⟩, ⟨exWorld 5, some ["b"], false⟩,
      ⟨exWorld 9, some ["a", "x"], true⟩]).propagators "b" = some (Multiplicative.ofAdd 8) := by
  refine ⟨_, rfl, ?_, ?_⟩
  · rw [C68_history _ rfl (fun _ => rfl) _ (by
      intro e he
      simp only [List.mem_cons, List.not_mem_nil, or_false] at he
      rcases he with rfl | rfl | rfl <;> exact exWorld_wf _)]
    refine ⟨[], _, _, rfl, ?_, by simp [exWorld], rfl, ?_⟩
    · intro g hg
      simp only [exWorld, Option.getD_none] at hg
      refine ⟨Multiplicative.ofAdd 3, ?_⟩
      simp only [physical, exWorld, hg, if_true]
      rfl
    · intro f hf hs
      simp only [List.mem_cons, List.not_mem_nil, or_false] at hf
      rcases hf with rfl | rfl
      · simp
      · obtain ⟨v, hv⟩ := hs "x" (by simp)
        simp [physical, exWorld] at hv
  · rw [C68_history _ rfl (fun _ => rfl) _ (by
      intro e he
      simp only [List.mem_cons, List.not_mem_nil, or_false] at he
      rcases he with rfl | rfl | rfl <;> exact exWorld_wf _)]
    refine ⟨[⟨exWorld 0, none, true⟩], _, _, rfl, ?_, by simp, rfl, ?_⟩
    · intro g hg
      simp only [Option.getD_some, List.mem_singleton] at hg
      subst hg
      simp [physical, exWorld]
    · intro f hf hs
      simp only [List.mem_cons, List.not_mem_nil, or_false] at hf
      subst hf
      obtain ⟨v, hv⟩ := hs "x" (by simp)
      simp [physical, exWorld] at hv

/-! ## C111 -/

/-- C111, what holds: with the default of the constructor `compute_propagators` uses the piecewise
constant method, whatever methods were selected in between (for instance by `compute_states`). Missing:
a selected method is used, see the negations below. -/
theorem C111_default_partial [Monoid V] (w : World V) (s : Exp V) (hm : s.propMethod = none) :
    (compute w s).2.propagation = .name "pwc" ∧
    ∀ s1, computeStates w s = .ok s1 → (compute w s1).1 = (compute w s).1 ∧
      (compute w s1).2.propagators = (compute w s).2.propagators := by
  constructor
  · unfold compute
    rw [hm]
    simp only [setPropMethod]
    split <;> rfl
  · intro s1 h1
    have : s1 = { s with propagation := .name "ode_solver" } := by
      simp [computeStates, setPropMethod, provider] at h1
      exact h1.symm
    subst this
    unfold compute
    simp only [hm, setPropMethod, gateIds]
    exact ⟨trivial, trivial⟩

/-- C111: a constructor argument that is a known name makes every computation of at least one gate fail,
because the folding stack is only built for the default. -/
theorem C111_false_name [Monoid V] (w : World V) (n : String) (s : Exp V) (h : init w (some (.name n)) = .ok s)
    (hsel : w.keys ≠ []) : ∃ e, (compute w s).1 = .error e := by
  unfold init setPropMethod at h
  simp only at h
  split at h
  · rename_i hn
    simp only [Except.ok.injEq] at h
    subst h
    unfold compute
    simp only [setPropMethod, hn, if_true, gateIds, Option.getD_none]
    obtain ⟨g, l, hl⟩ := List.exists_cons_of_ne_nil hsel
    have hg : ∃ e, gateProp w ⟨some (.name n), .name n, none, none, true, fun _ => none⟩ g = .error e := by
      unfold gateProp
      cases w.instr g with
      | none => exact ⟨_, rfl⟩
      | some i => exact ⟨_, rfl⟩
    obtain ⟨e, he⟩ := hg
    obtain ⟨e', he'⟩ := gateLoop_error w _ w.keys (fun _ => none) g (by rw [hl]; simp) e he
    rw [he']
    exact ⟨e', rfl⟩
  · simp at h

example : ∃ s, init (exWorld 0) (some (.name "pwc")) = .ok s := ⟨_, rfl⟩

/-- C111: a method chosen with `set_prop_method` on a finished experiment is not used by
`compute_propagators`: the result is the one of the method given to the constructor. -/
theorem C111_false_set : ∃ s s', init (exWorld 0) none = .ok s ∧
    setPropMethod (exWorld 0) (some (.fn 7)) s = .ok s' ∧ s'.propagation = .fn 7 ∧
    (∃ d, (compute (exWorld 0) s').1 = .ok d ∧ d "a" = some (Multiplicative.ofAdd 3)) ∧
    physical (exWorld 0) (.fn 7) "a" = .ok (Multiplicative.ofAdd 107) := by
  refine ⟨_, _, rfl, rfl, rfl, ⟨_, rfl, ?_⟩, rfl⟩
  rfl

/-- C111: an unknown name is refused by the constructor. -/
theorem C111_unknown (w : World V) (n : String) (h : n ∉ provider) :
    init w (some (.name n)) = .error .key := by
  simp [init, setPropMethod, h]

end C3.Experiment.Compute
