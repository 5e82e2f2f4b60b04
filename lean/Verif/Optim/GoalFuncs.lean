import Mathlib.Data.List.Basic
import Mathlib.Data.List.Nodup
import Mathlib.Data.List.Dedup
import Mathlib.Tactic.NormNum

/-!
# Goal functions chosen by name, callback figures of merit and the evaluation counter (C177-C179)

Models c3/optimizers/optimalcontrol.py:118-143 (`set_fid_func`, `set_callback_fids`), the calls of the goal
function in `goal_run`, `goal_run_ode` and `goal_run_ode_only_final` (200-292), the registry of
c3/libraries/fidelities.py, and the counter `evaluation` of all optimizers
(optimizer.py:186-200, optimalcontrol.py:227, optimalcontrol_robust.py:40-113, calibration.py:131-158,
modellearning.py:212, 359, 443).

Simplifications: a registered function is its name and its list of parameters; the values of the arguments
are left out.
-/

namespace C3.Optim.GoalFuncs

/-! ## Calling a function with keywords -/

/-- A parameter of a Python function: its name and whether it has a default. -/
structure Param where
  name : String
  optional : Bool

/-- A registered function: the name under which it is registered and its parameters. -/
structure Func where
  name : String
  params : List Param

def Func.names (f : Func) : List String := f.params.map Param.name

/-- Ways in which binding keyword arguments fails; all are `TypeError`s in Python. -/
inductive CallErr where
  | repeated (k : String)
  | unexpected (k : String)
  | missing (k : String)
  deriving DecidableEq

/-- Python's binding of keyword arguments for a call with keywords only. -/
def bind (f : Func) (kw : List String) : Except CallErr Unit :=
  if !(decide kw.Nodup) then .error (.repeated "")
  else match kw.find? (fun k => !(f.names.contains k)) with
    | some k => .error (.unexpected k)
    | none => match f.params.find? (fun p => !p.optional && !(kw.contains p.name)) with
      | some p => .error (.missing p.name)
      | none => .ok ()

private def r (n : String) : Param := ⟨n, false⟩
private def o (n : String) : Param := ⟨n, true⟩

/-- The dictionary `fidelities` of c3/libraries/fidelities.py, filled by `fid_reg_deco` (44-49): name and
parameter list of every decorated function, in the order of the file (84-805). `lindbladian_population` (505)
carries no decorator. -/
def registry : List Func :=
  [ ⟨"state_transfer_infid_set", [r "propagators", r "instructions", r "index", r "dims", r "psi_0", o "n_eval", o "proj"]⟩,
    ⟨"state_transfer_infid", [r "ideal", r "actual", r "index", r "dims", r "psi_0"]⟩,
    ⟨"unitary_infid", [r "ideal", r "actual", o "index", o "dims"]⟩,
    ⟨"unitary_infid_set", [r "propagators", r "instructions", r "index", r "dims", o "n_eval"]⟩,
    ⟨"lindbladian_unitary_infid", [r "ideal", r "actual", o "index", o "dims"]⟩,
    ⟨"lindbladian_unitary_infid_set", [r "propagators", r "instructions", r "index", r "dims", r "n_eval"]⟩,
    ⟨"average_infid", [r "ideal", r "actual", o "index", o "dims"]⟩,
    ⟨"average_infid_set", [r "propagators", r "instructions", r "index", r "dims", o "n_eval"]⟩,
    ⟨"average_infid_seq", [r "propagators", r "instructions", r "index", r "dims", o "n_eval"]⟩,
    ⟨"lindbladian_average_infid", [r "ideal", r "actual", o "index", o "dims"]⟩,
    ⟨"lindbladian_average_infid_set", [r "propagators", r "instructions", r "index", r "dims", r "n_eval"]⟩,
    ⟨"epc_analytical", [r "propagators", r "index", r "dims", r "proj", o "cliffords"]⟩,
    ⟨"lindbladian_epc_analytical", [r "propagators", r "index", r "dims", r "proj", o "cliffords"]⟩,
    ⟨"populations", [r "state", r "lindbladian"]⟩,
    ⟨"population", [r "propagators", r "lvl", r "gate"]⟩,
    ⟨"RB", [r "propagators", o "min_length", o "max_length", o "num_lengths", o "num_seqs", o "logspace", o "lindbladian", o "padding"]⟩,
    ⟨"lindbladian_RB_left", [r "propagators", r "gate", r "index", r "dims", o "proj"]⟩,
    ⟨"lindbladian_RB_right", [r "propagators", r "gate", r "index", r "dims", r "proj"]⟩,
    ⟨"leakage_RB", [r "propagators", o "min_length", o "max_length", o "num_lengths", o "num_seqs", o "logspace", o "lindbladian"]⟩,
    ⟨"orbit_infid", [r "propagators", o "RB_number", o "RB_length", o "lindbladian", o "shots", o "seqs", o "noise"]⟩,
    ⟨"state_transfer_from_states", [r "states", r "index", r "dims", r "params", o "n_eval"]⟩ ]

/-! ## set_fid_func and set_callback_fids -/

/-- What the user passes as goal function: a name or the function itself. -/
inductive FidArg where
  | str (s : String)
  | func (f : Func)

inductive Err where
  /-- `Exception("C3:ERROR:Unkown goal function: ...")` -/
  | unknown (s : String)
  /-- `TypeError` of adding a string and a function -/
  | typeError
  deriving DecidableEq

/-- `fidelities[name]` -/
def lookup (s : String) : Option Func := registry.find? (fun f => f.name == s)

/-- c3/optimizers/optimalcontrol.py:118-130 `set_fid_func`: names are prefixed for an open system. -/
def setFidFunc (lindbladian : Bool) : FidArg → Except Err Func
  | .func f => .ok f
  | .str s =>
    let fid := if lindbladian then "lindbladian_" ++ s else s
    match lookup fid with
    | some f => .ok f
    | none => .error (.unknown fid)

/-- c3/optimizers/optimalcontrol.py:132-143 `set_callback_fids`, the loop over `cb_fids`: the list
`callback_fids` of the object afterwards and the exception if one left the loop. A function among the names
is not found in the dictionary. -/
def addCallbacks (acc : List Func) : List FidArg → List Func × Option Err
  | [] => (acc, none)
  | .func f :: _ => (acc, some (.unknown f.name))
  | .str s :: rest => match lookup s with
    | some f => addCallbacks (acc ++ [f]) rest
    | none => (acc, some (.unknown s))

/-- c3/optimizers/optimalcontrol.py:133-136: for an open system every entry is prefixed, which is only
possible for strings. -/
def prefixAll : List FidArg → Except Err (List FidArg)
  | [] => .ok []
  | .func _ :: _ => .error .typeError
  | .str s :: rest => match prefixAll rest with
    | .ok l => .ok (.str ("lindbladian_" ++ s) :: l)
    | .error e => .error e

/-- c3/optimizers/optimalcontrol.py:132-143 `set_callback_fids`. -/
def setCallbackFids (lindbladian : Bool) (acc : List Func) (l : List FidArg) : List Func × Option Err :=
  if lindbladian then
    match prefixAll l with
    | .ok l' => addCallbacks acc l'
    | .error e => (acc, some e)
  else addCallbacks acc l

/-- c3/optimizers/optimalcontrol.py:219-226: the keywords of the call in `goal_run`, followed by the user's
`fid_func_kwargs`. -/
def goalKw : List String := ["propagators", "instructions", "index", "dims", "n_eval"]
/-- c3/optimizers/optimalcontrol.py:252-258, 284-290: the same for the two goal functions with ODE solvers. -/
def odeKw : List String := ["states", "index", "dims", "n_eval"]

/-- c3/optimizers/optimalcontrol.py:101-116 `set_goal_function`: which call is made. -/
def callKw (ode : Bool) : List String := if ode then odeKw else goalKw

/-- The call of the goal function in an evaluation. -/
def callGoal (ode : Bool) (f : Func) (extra : List String) : Except CallErr Unit := bind f (callKw ode ++ extra)

/-! ## C177: specification -/

/-- The arguments of a call fit a function: each name is used once, is a parameter, and no parameter without a
default is left out. -/
def Fits (f : Func) (kw : List String) : Prop :=
  kw.Nodup ∧ (∀ k ∈ kw, ∃ p ∈ f.params, p.name = k) ∧ ∀ p ∈ f.params, p.optional = false → p.name ∈ kw

/-- A goal function can be optimised: some choice of additional keyword arguments fits. -/
def Usable (ode : Bool) (f : Func) : Prop := ∃ extra, Fits f (callKw ode ++ extra)

theorem bind_ok_iff (f : Func) (kw : List String) : bind f kw = .ok () ↔ Fits f kw := by
  unfold bind Fits
  by_cases hn : kw.Nodup
  · have hnames : ∀ k, f.names.contains k = true ↔ ∃ p ∈ f.params, p.name = k := by
      intro k; simp [Func.names]
    simp only [hn, decide_true, Bool.not_true, Bool.false_eq_true, if_false, true_and]
    cases h1 : kw.find? (fun k => !(f.names.contains k)) with
    | some k =>
      have hk := List.find?_some h1
      have hm := List.mem_of_find?_eq_some h1
      simp only [Bool.not_eq_true'] at hk
      constructor
      · intro h; simp at h
      · rintro ⟨h, -⟩
        have := (hnames k).2 (h k hm)
        rw [hk] at this; simp at this
    | none =>
      have h1' : ∀ k ∈ kw, ∃ p ∈ f.params, p.name = k := by
        intro k hk
        have := List.find?_eq_none.1 h1 k hk
        simp only [Bool.not_eq_true', Bool.not_eq_false] at this
        exact (hnames k).1 this
      cases h2 : f.params.find? (fun p => !p.optional && !(kw.contains p.name)) with
      | some p =>
        have hp := List.find?_some h2
        have hm := List.mem_of_find?_eq_some h2
        simp only [Bool.and_eq_true, Bool.not_eq_true', List.contains_eq_mem, decide_eq_false_iff_not] at hp
        constructor
        · intro h; simp at h
        · rintro ⟨-, h⟩
          exact absurd (h p hm hp.1) hp.2
      | none =>
        refine ⟨fun _ => ⟨h1', fun p hp ho => ?_⟩, fun _ => rfl⟩
        have := List.find?_eq_none.1 h2 p hp
        simpa [ho] using this
  · simp [hn]

/-- C177: an evaluation with a goal function is possible exactly when the names of the arguments fit its
parameters. -/
theorem C177_call (ode : Bool) (f : Func) (extra : List String) :
    callGoal ode f extra = .ok () ↔ Fits f (callKw ode ++ extra) := bind_ok_iff _ _

/-- A function can be used exactly when it has all the parameters of the call. -/
theorem usable_iff (ode : Bool) (f : Func) (hf : f.names.Nodup) :
    Usable ode f ↔ ∀ k ∈ callKw ode, k ∈ f.names := by
  constructor
  · rintro ⟨extra, -, h, -⟩ k hk
    obtain ⟨p, hp, rfl⟩ := h k (List.mem_append_left _ hk)
    exact List.mem_map_of_mem hp
  · intro h
    refine ⟨f.names.filter fun n => decide (n ∉ callKw ode), ?_, ?_, ?_⟩
    · refine List.Nodup.append ?_ (hf.filter _) ?_
      · cases ode <;> decide
      · intro a ha hb
        have := (List.mem_filter.1 hb).2
        simp at this
        exact this ha
    · intro k hk
      have : k ∈ f.names := by
        rcases List.mem_append.1 hk with hk | hk
        · exact h k hk
        · exact (List.mem_filter.1 hk).1
      simpa [Func.names] using this
    · intro p hp _
      by_cases hk : p.name ∈ callKw ode
      · exact List.mem_append_left _ hk
      · exact List.mem_append_right _ (List.mem_filter.2 ⟨List.mem_map_of_mem hp, by simpa using hk⟩)

theorem registry_nodup : ∀ f ∈ registry, f.names.Nodup := by decide

/-- C177, what holds: of the 21 registered functions these six can be optimised with propagators, whatever
additional arguments are given ... -/
theorem C177_usable_partial (f : Func) (hf : f ∈ registry) :
    Usable false f ↔ f.name ∈ ["state_transfer_infid_set", "unitary_infid_set", "lindbladian_unitary_infid_set",
      "average_infid_set", "average_infid_seq", "lindbladian_average_infid_set"] := by
  rw [usable_iff false f (registry_nodup f hf)]
  revert f
  decide

/-- ... and this one with an ODE solver. -/
theorem C177_usable_ode_partial (f : Func) (hf : f ∈ registry) :
    Usable true f ↔ f.name = "state_transfer_from_states" := by
  rw [usable_iff true f (registry_nodup f hf)]
  revert f
  decide

/-- C177: the set figures of merit take no further arguments, a state transfer needs its initial state. -/
theorem C177_arguments (extra : List String) :
    (∀ n ∈ ["unitary_infid_set", "lindbladian_unitary_infid_set", "average_infid_set", "average_infid_seq",
      "lindbladian_average_infid_set"], ∀ f ∈ registry, f.name = n →
        (callGoal false f extra = .ok () ↔ extra = [])) ∧
    (∀ f ∈ registry, f.name = "state_transfer_infid_set" → callGoal false f extra = .ok () → "psi_0" ∈ extra) ∧
    (∀ f ∈ registry, f.name = "state_transfer_from_states" → (callGoal true f extra = .ok () ↔ extra = ["params"])) := by
  have key : ∀ f : Func, (∀ k ∈ f.names, k ∈ goalKw) → (∀ k ∈ goalKw, k ∈ f.names) → ∀ extra,
      callGoal false f extra = .ok () ↔ extra = [] := by
    intro f h1 h2 extra
    rw [C177_call]
    constructor
    · rintro ⟨hn, hk, -⟩
      rcases extra with - | ⟨e, es⟩
      · rfl
      · obtain ⟨p, hp, he⟩ := hk e (by simp)
        have : e ∈ goalKw := he ▸ h1 _ (List.mem_map_of_mem hp)
        exact absurd hn (by
          intro hn
          have := (List.nodup_append.1 hn).2.2 e this e (by simp)
          exact this rfl)
    · rintro rfl
      refine ⟨by decide, ?_, fun p hp _ => by simpa [callKw] using h1 _ (List.mem_map_of_mem hp)⟩
      intro k hk
      have := h2 k (by simpa [callKw] using hk)
      simpa [Func.names] using this
  refine ⟨?_, ?_, ?_⟩
  · intro n hn f hf hfn
    apply key
    · have : ∀ n ∈ ["unitary_infid_set", "lindbladian_unitary_infid_set", "average_infid_set", "average_infid_seq",
        "lindbladian_average_infid_set"], ∀ f ∈ registry, f.name = n → ∀ k ∈ f.names, k ∈ goalKw := by decide
      exact this n hn f hf hfn
    · have : ∀ n ∈ ["unitary_infid_set", "lindbladian_unitary_infid_set", "average_infid_set", "average_infid_seq",
        "lindbladian_average_infid_set"], ∀ f ∈ registry, f.name = n → ∀ k ∈ goalKw, k ∈ f.names := by decide
      exact this n hn f hf hfn
  · intro f hf hfn h
    have hp : (r "psi_0") ∈ f.params := by
      have : ∀ f ∈ registry, f.name = "state_transfer_infid_set" → (⟨"psi_0", false⟩ : Param) ∈ f.params := by
        intro f hf hfn
        simp only [registry, List.mem_cons, List.not_mem_nil, or_false] at hf
        rcases hf with h | h | h | h | h | h | h | h | h | h | h | h | h | h | h | h | h | h | h | h | h <;>
          subst h <;> simp [r, o] at hfn ⊢
      exact this f hf hfn
    have := ((C177_call _ _ _).1 h).2.2 _ hp rfl
    rcases List.mem_append.1 this with h' | h'
    · exact absurd h' (by decide)
    · exact h'
  · intro f hf hfn
    have hf' : f = ⟨"state_transfer_from_states", [r "states", r "index", r "dims", r "params", o "n_eval"]⟩ := by
      simp only [registry, List.mem_cons, List.not_mem_nil, or_false] at hf
      rcases hf with h | h | h | h | h | h | h | h | h | h | h | h | h | h | h | h | h | h | h | h | h <;>
        subst h <;> first | rfl | (simp at hfn)
    subst hf'
    rw [C177_call]
    constructor
    · rintro ⟨hn, hk, hm⟩
      have hp := hm (r "params") (by simp) rfl
      have hp' : "params" ∈ extra := by
        rcases List.mem_append.1 hp with h | h
        · exact absurd h (by decide)
        · exact h
      have hall : ∀ e ∈ extra, e = "params" := by
        intro e he
        obtain ⟨p, hp, rfl⟩ := hk e (List.mem_append_right _ he)
        have hd := (List.nodup_append.1 hn).2.2
        simp only [List.mem_cons, List.not_mem_nil, or_false] at hp
        rcases hp with h | h | h | h | h <;> subst h
        · exact absurd rfl (hd "states" (by decide) _ he)
        · exact absurd rfl (hd "index" (by decide) _ he)
        · exact absurd rfl (hd "dims" (by decide) _ he)
        · rfl
        · exact absurd rfl (hd "n_eval" (by decide) _ he)
      have hnd := (List.nodup_append.1 hn).2.1
      rcases extra with - | ⟨a, - | ⟨b, t⟩⟩
      · simp at hp'
      · rw [hall a (by simp)]
      · have ha := hall a (by simp)
        have hb := hall b (by simp)
        subst ha; subst hb
        simp at hnd
    · rintro rfl
      refine ⟨by decide, by decide, ?_⟩
      intro p hp _
      simp only [List.mem_cons, List.not_mem_nil, or_false] at hp
      rcases hp with h | h | h | h | h <;> subst h <;> decide

/-- The goal function found for a name, with the name it is registered under. -/
theorem lookup_spec (s : String) (f : Func) : lookup s = some f → f ∈ registry ∧ f.name = s := by
  intro h
  exact ⟨List.mem_of_find?_eq_some h, by simpa using List.find?_some h⟩

/-- C177: for a closed system every registered name finds the function of that name. -/
theorem C177_found (f : Func) (hf : f ∈ registry) : setFidFunc false (.str f.name) = .ok f := by
  simp only [registry, List.mem_cons, List.not_mem_nil, or_false] at hf
  rcases hf with h | h | h | h | h | h | h | h | h | h | h | h | h | h | h | h | h | h | h | h | h <;>
    subst h <;> simp [setFidFunc, lookup, registry, List.find?]

/-- C177: whatever is passed, the goal function is the function itself or a registered function whose name is
the given one, with the prefix for an open system; other names are refused. -/
theorem C177_resolved (l : Bool) (s : String) :
    (∀ f, setFidFunc l (.str s) = .ok f → f ∈ registry ∧ f.name = (if l then "lindbladian_" ++ s else s)) ∧
    (∀ e, setFidFunc l (.str s) = .error e → ∀ f ∈ registry, f.name ≠ (if l then "lindbladian_" ++ s else s)) := by
  unfold setFidFunc
  constructor
  · intro f h
    cases hl : lookup (if l then "lindbladian_" ++ s else s) with
    | some g =>
      simp only [hl, Except.ok.injEq] at h
      subst h; exact lookup_spec _ _ hl
    | none => simp [hl] at h
  · intro e h f hf
    cases hl : lookup (if l then "lindbladian_" ++ s else s) with
    | some g => simp [hl] at h
    | none =>
      have := List.find?_eq_none.1 hl f hf
      simpa using this

/-- C177: an open system can be optimised by name with propagators for exactly two names, and never with an
ODE solver. -/
theorem C177_open_partial (s : String) :
    ((∃ f, setFidFunc true (.str s) = .ok f ∧ Usable false f) ↔ s = "unitary_infid_set" ∨ s = "average_infid_set") ∧
    ¬ ∃ f, setFidFunc true (.str s) = .ok f ∧ Usable true f := by
  have inj : ∀ t : String, "lindbladian_" ++ s = "lindbladian_" ++ t → s = t := by
    intro t h
    have := congrArg String.toList h
    simp only [String.toList_append] at this
    exact String.toList_inj.1 (List.append_cancel_left this)
  constructor
  · constructor
    · rintro ⟨f, hf, hu⟩
      obtain ⟨hm, hn⟩ := (C177_resolved true s).1 f hf
      rw [C177_usable_partial f hm] at hu
      simp only [if_true] at hn
      have hpre : ∀ t : String, t = "lindbladian_" ++ s → t.toList.take 12 = "lindbladian_".toList := by
        rintro t rfl
        rw [String.toList_append]
        exact List.take_left' (by decide)
      simp only [List.mem_cons, List.not_mem_nil, or_false] at hu
      rcases hu with h | h | h | h | h | h
      · exact absurd (hpre _ (h ▸ hn)) (by decide)
      · exact absurd (hpre _ (h ▸ hn)) (by decide)
      · left; exact inj "unitary_infid_set" (by rw [← hn, h]; decide)
      · exact absurd (hpre _ (h ▸ hn)) (by decide)
      · exact absurd (hpre _ (h ▸ hn)) (by decide)
      · right; exact inj "average_infid_set" (by rw [← hn, h]; decide)
    · rintro (rfl | rfl)
      · refine ⟨_, C177_found ⟨"lindbladian_unitary_infid_set", [r "propagators", r "instructions", r "index", r "dims", r "n_eval"]⟩ (by simp [registry]), ?_⟩
        rw [C177_usable_partial _ (by simp [registry])]; decide
      · refine ⟨_, C177_found ⟨"lindbladian_average_infid_set", [r "propagators", r "instructions", r "index", r "dims", r "n_eval"]⟩ (by simp [registry]), ?_⟩
        rw [C177_usable_partial _ (by simp [registry])]; decide
  · rintro ⟨f, hf, hu⟩
    obtain ⟨hm, hn⟩ := (C177_resolved true s).1 f hf
    rw [C177_usable_ode_partial f hm] at hu
    simp only [if_true] at hn
    have : f.name.toList.take 12 = "lindbladian_".toList := by
      rw [hn, String.toList_append]; exact List.take_left' (by decide)
    rw [hu] at this
    revert this; decide

/-- C177 fails: randomized benchmarking and ORBIT are registered and found by name, but no evaluation with them
is possible, whatever additional arguments are given. -/
theorem C177_false_registered :
    ∀ n ∈ ["RB", "leakage_RB", "orbit_infid", "epc_analytical", "unitary_infid", "state_transfer_infid"],
      ∃ f, setFidFunc false (.str n) = .ok f ∧ ∀ ode extra, callGoal ode f extra ≠ .ok () := by
  intro n hn
  have : ∃ f ∈ registry, f.name = n := by revert n; decide
  obtain ⟨f, hf, rfl⟩ := this
  refine ⟨f, C177_found f hf, fun ode extra h => ?_⟩
  have hu : Usable ode f := ⟨extra, (C177_call _ _ _).1 h⟩
  cases ode
  · rw [C177_usable_partial f hf] at hu
    simp only [List.mem_cons, List.not_mem_nil, or_false] at hn hu
    rcases hn with h | h | h | h | h | h <;> rw [h] at hu <;> revert hu <;> decide
  · rw [C177_usable_ode_partial f hf] at hu
    rw [hu] at hn
    revert hn; decide

/-- C177 fails: with an open system a state transfer, usable for the closed system, is unknown, and so is the
full name of an open-system figure of merit. -/
theorem C177_false_open :
    setFidFunc true (.str "state_transfer_infid_set") = .error (.unknown "lindbladian_state_transfer_infid_set") ∧
    setFidFunc true (.str "state_transfer_from_states") = .error (.unknown "lindbladian_state_transfer_from_states") ∧
    setFidFunc true (.str "lindbladian_unitary_infid_set") =
      .error (.unknown "lindbladian_lindbladian_unitary_infid_set") := by
  have h : ∀ s : String, lookup ("lindbladian_" ++ s) = none →
      setFidFunc true (.str s) = .error (.unknown ("lindbladian_" ++ s)) := by
    intro s h; simp [setFidFunc, h]
  have none_iff : ∀ s : String, (∀ f ∈ registry, f.name ≠ s) → lookup s = none := by
    intro s hs
    exact List.find?_eq_none.2 fun f hf => by simpa using hs f hf
  exact ⟨h _ (none_iff _ (by decide)), h _ (none_iff _ (by decide)), h _ (none_iff _ (by decide))⟩

example : ∃ f, setFidFunc false (.str "unitary_infid_set") = .ok f ∧ callGoal false f [] = .ok () :=
  ⟨_, C177_found ⟨"unitary_infid_set", [r "propagators", r "instructions", r "index", r "dims", o "n_eval"]⟩ (by simp [registry]),
    by decide⟩

/-- C177: the infidelities of a single gate can be called with the ideal and the actual gate alone, and the sets
with the four arguments that the optimizer passes; what has a default may be left out. -/
theorem C177_defaults :
    (∀ n ∈ ["unitary_infid", "average_infid", "lindbladian_unitary_infid", "lindbladian_average_infid"],
      ∃ f, lookup n = some f ∧ bind f ["ideal", "actual"] = .ok () ∧ bind f ["ideal", "actual", "index", "dims"] = .ok ()) ∧
    (∀ n ∈ ["unitary_infid_set", "average_infid_set", "average_infid_seq"],
      ∃ f, lookup n = some f ∧ bind f ["propagators", "instructions", "index", "dims"] = .ok ()) ∧
    (∀ n ∈ ["RB", "leakage_RB", "orbit_infid"], ∃ f, lookup n = some f ∧ bind f ["propagators"] = .ok ()) ∧
    (∀ n ∈ ["epc_analytical", "lindbladian_epc_analytical"],
      ∃ f, lookup n = some f ∧ bind f ["propagators", "index", "dims", "proj"] = .ok ()) := by
  simp only [List.mem_cons, List.not_mem_nil, or_false, forall_eq_or_imp, forall_eq]
  refine ⟨⟨⟨_, rfl, ?_⟩, ⟨_, rfl, ?_⟩, ⟨_, rfl, ?_⟩, ⟨_, rfl, ?_⟩⟩, ⟨⟨_, rfl, ?_⟩, ⟨_, rfl, ?_⟩, ⟨_, rfl, ?_⟩⟩,
    ⟨⟨_, rfl, ?_⟩, ⟨_, rfl, ?_⟩, ⟨_, rfl, ?_⟩⟩, ⟨_, rfl, ?_⟩, ⟨_, rfl, ?_⟩⟩ <;> decide +kernel

/-! ## C178: callback figures of merit -/

/-- Values written to the status. -/
inductive Entry where
  | params | goal | gradient
  deriving DecidableEq

/-- The part of `OptimalControl` that matters here: goal function, callbacks, keys of `optim_status`, and the
record of figures of merit evaluated so far. -/
structure Opt where
  fid : Func
  callbacks : List Func
  status : List Entry
  evaluated : List Func

/-- c3/optimizers/optimalcontrol.py:200-228 `goal_run` (and 230-292): the goal function is evaluated. -/
def Opt.goalRun (s : Opt) : Opt := { s with evaluated := s.evaluated ++ [s.fid] }

/-- Adds a key to the status. -/
def put (e : Entry) (l : List Entry) : List Entry := if e ∈ l then l else l ++ [e]

/-- c3/optimizers/optimizer.py:243-275 `fct_to_min` and 277-313 `fct_to_min_autograd`: the keys written to the
status, which is logged as a whole. -/
def Opt.step (s : Opt) (grad : Bool) : Opt :=
  let s := s.goalRun
  let st := put .params s.status
  let st := if grad then put .gradient st else st
  { s with status := put .goal st }

def Opt.run (s : Opt) (gs : List Bool) : Opt := gs.foldl Opt.step s

/-- The callbacks asked for have been evaluated at each of the evaluations. -/
def CallbacksRecorded (s : Opt) (n : ℕ) : Prop := ∀ f ∈ s.callbacks, n ≤ (s.evaluated.filter fun g => g.name == f.name).length

theorem run_evaluated (s : Opt) (gs : List Bool) :
    (s.run gs).evaluated = s.evaluated ++ List.replicate gs.length s.fid ∧ (s.run gs).fid = s.fid ∧
      (s.run gs).callbacks = s.callbacks := by
  induction gs generalizing s with
  | nil => simp [Opt.run]
  | cons g gs ih =>
    have := ih (s.step g)
    simp only [Opt.run, List.foldl_cons] at this ⊢
    refine ⟨?_, ?_, ?_⟩
    · rw [this.1]; simp [Opt.step, Opt.goalRun, List.replicate_succ]
    · rw [this.2.1]; rfl
    · rw [this.2.2]; rfl

/-- C178, what holds: names are resolved in order with the rule of the goal function, and the first unknown
name raises, leaving those before it. -/
theorem C178_resolved_partial (lind : Bool) (acc : List Func) (l : List String) :
    let res := fun s => setFidFunc lind (.str s)
    (∀ fs, l.map res = fs.map .ok → setCallbackFids lind acc (l.map .str) = (acc ++ fs, none)) ∧
    (∀ a s b fs e, l = a ++ s :: b → a.map res = fs.map .ok → res s = .error e →
      setCallbackFids lind acc (l.map .str) = (acc ++ fs, some e)) := by
  have pre : ∀ l : List String, prefixAll (l.map .str) = .ok (l.map fun s => .str ("lindbladian_" ++ s)) := by
    intro l
    induction l with
    | nil => rfl
    | cons a l ih => simp [prefixAll, ih]
  have form : ∀ l : List String, setCallbackFids lind acc (l.map .str) =
      addCallbacks acc (l.map fun s => .str (if lind then "lindbladian_" ++ s else s)) := by
    intro l; cases lind <;> simp [setCallbackFids, pre]
  have one : ∀ s f, setFidFunc lind (.str s) = .ok f → lookup (if lind then "lindbladian_" ++ s else s) = some f := by
    intro s f h
    unfold setFidFunc at h
    cases hl : lookup (if lind then "lindbladian_" ++ s else s) with
    | some g => simp [hl] at h; rw [h]
    | none => simp [hl] at h
  have bad : ∀ s e, setFidFunc lind (.str s) = .error e → lookup (if lind then "lindbladian_" ++ s else s) = none ∧
      e = .unknown (if lind then "lindbladian_" ++ s else s) := by
    intro s e h
    unfold setFidFunc at h
    cases hl : lookup (if lind then "lindbladian_" ++ s else s) with
    | some g => simp [hl] at h
    | none => simp [hl] at h; exact ⟨rfl, h.symm⟩
  have app : ∀ (a : List String) (fs acc : List Func) (rest : List FidArg),
      (a.map fun s => setFidFunc lind (.str s)) = fs.map .ok →
      addCallbacks acc ((a.map fun s => .str (if lind then "lindbladian_" ++ s else s)) ++ rest) =
        addCallbacks (acc ++ fs) rest := by
    intro a
    induction a with
    | nil =>
      intro fs acc rest h
      cases fs with
      | nil => simp
      | cons f fs => simp at h
    | cons s a ih =>
      intro fs acc rest h
      cases fs with
      | nil => simp at h
      | cons f fs =>
        simp only [List.map_cons, List.cons.injEq] at h
        simp only [List.map_cons, List.cons_append, addCallbacks, one s f h.1]
        rw [ih fs (acc ++ [f]) rest h.2]
        simp
  refine ⟨?_, ?_⟩
  · intro fs h
    have := app l fs acc [] h
    rw [form]
    simpa [addCallbacks] using this
  · intro a s b fs e hl ha hs
    rw [form, hl, List.map_append, List.map_cons, app a fs acc _ ha]
    obtain ⟨h1, h2⟩ := bad s e hs
    simp only [addCallbacks, h1, h2]

/-- C178: the goal function itself is evaluated once per evaluation. -/
theorem C178_goal (s : Opt) (gs : List Bool) (hs : s.evaluated = []) :
    (s.run gs).evaluated = List.replicate gs.length s.fid := by
  rw [(run_evaluated s gs).1, hs]; simp

/-- C178 fails: callback figures of merit are never evaluated, and what is logged does not depend on them: for
any callbacks other than the goal function, after any non-empty run, the promise is broken. -/
theorem C178_false_callbacks (s : Opt) (hs : s.evaluated = []) (gs : List Bool) (hg : gs ≠ [])
    (f : Func) (hf : f ∈ s.callbacks) (hne : f.name ≠ s.fid.name) :
    ¬ CallbacksRecorded (s.run gs) gs.length ∧
    ∀ cb, ((({ s with callbacks := cb } : Opt).run gs).status = (s.run gs).status ∧
      (({ s with callbacks := cb } : Opt).run gs).evaluated = (s.run gs).evaluated) := by
  constructor
  · intro h
    have := h f (by rw [(run_evaluated s gs).2.2]; exact hf)
    rw [C178_goal s gs hs] at this
    have h0 : (List.replicate gs.length s.fid).filter (fun g => g.name == f.name) = [] := by
      rw [List.filter_eq_nil_iff]
      intro g hg
      rw [List.eq_of_mem_replicate hg]
      simpa using fun h => hne h.symm
    rw [h0] at this
    simp at this
    exact hg this
  · intro cb
    refine ⟨?_, by rw [(run_evaluated _ gs).1, (run_evaluated s gs).1]⟩
    have : ∀ (gs : List Bool) (s t : Opt), s.status = t.status → (s.run gs).status = (t.run gs).status := by
      intro gs
      induction gs with
      | nil => intro s t h; simpa [Opt.run] using h
      | cons g gs ih =>
        intro s t h
        simp only [Opt.run, List.foldl_cons]
        exact ih _ _ (by simp [Opt.step, Opt.goalRun, h])
    exact this gs _ _ rfl

/-- C178: what the status holds after any run: the parameters and the goal, and the gradient if some evaluation was
made with gradient, each once. -/
theorem C178_status (s : Opt) (hs : s.status = []) (gs : List Bool) (hg : gs ≠ []) :
    (s.run gs).status.Nodup ∧ ∀ e, e ∈ (s.run gs).status ↔ (e = .gradient → true ∈ gs) := by
  have put_mem : ∀ e e' (l : List Entry), e' ∈ put e l ↔ e' = e ∨ e' ∈ l := by
    intro e e' l
    unfold put
    split
    · rename_i h
      exact ⟨Or.inr, fun h' => h'.elim (fun h'' => h'' ▸ h) id⟩
    · simp [or_comm]
  have put_nodup : ∀ e (l : List Entry), l.Nodup → (put e l).Nodup := by
    intro e l hl
    unfold put
    split
    · exact hl
    · rename_i h
      exact List.nodup_append.2 ⟨hl, by simp, by simpa using fun a ha => fun (hae : a = e) => h (hae ▸ ha)⟩
  have main : ∀ (gs : List Bool) (s : Opt), s.status.Nodup →
      (s.run gs).status.Nodup ∧ ∀ e, e ∈ (s.run gs).status ↔
        e ∈ s.status ∨ gs ≠ [] ∧ (e = .gradient → true ∈ gs) := by
    intro gs
    induction gs with
    | nil => intro s h; simp [Opt.run, h]
    | cons g gs ih =>
      intro s h
      have hst : (s.step g).status.Nodup := by
        unfold Opt.step Opt.goalRun
        simp only
        refine put_nodup _ _ ?_
        split
        · exact put_nodup _ _ (put_nodup _ _ h)
        · exact put_nodup _ _ h
      have hmem : ∀ e, e ∈ (s.step g).status ↔ e ∈ s.status ∨ (e = .gradient → g = true) := by
        intro e
        unfold Opt.step Opt.goalRun
        simp only
        rw [put_mem]
        cases g <;> cases e <;> simp [put_mem]
      obtain ⟨h1, h2⟩ := ih (s.step g) hst
      refine ⟨h1, fun e => ?_⟩
      change e ∈ ((s.step g).run gs).status ↔ _
      rw [h2, hmem]
      simp only [ne_eq, reduceCtorEq, not_false_eq_true, true_and, List.mem_cons]
      by_cases he : e = .gradient
      · simp only [he, true_imp_iff]
        cases gs with
        | nil => simp [eq_comm]
        | cons a gs => simp [or_assoc, eq_comm]
      · simp [he]
  obtain ⟨h1, h2⟩ := main gs s (by simp [hs])
  exact ⟨h1, fun e => by rw [h2, hs]; simp [hg]⟩

/-- C178: functions are not accepted as callbacks. -/
theorem C178_false_functions (f : Func) (acc : List Func) (l : List FidArg) :
    setCallbackFids false acc (.func f :: l) = (acc, some (.unknown f.name)) ∧
    setCallbackFids true acc (.func f :: l) = (acc, some .typeError) := by
  simp [setCallbackFids, addCallbacks, prefixAll]

example : ∃ s : Opt, s.evaluated = [] ∧ ∃ f ∈ s.callbacks, f.name ≠ s.fid.name :=
  ⟨⟨⟨"a", []⟩, [⟨"b", []⟩], [], []⟩, rfl, ⟨"b", []⟩, by simp, by decide⟩

/-! ## C179: the number of the evaluation -/

/-- Which optimizer runs. -/
inductive Kind where
  /-- `OptimalControl`: the goal function is wrapped by `tf.function` -/
  | optimalControl
  /-- `OptimalControlRobust`: a goal function without the counter -/
  | robust
  | calibration
  | modelLearning
  deriving DecidableEq

/-- The counter, and for functions wrapped by `tf.function` the input signatures traced so far with the number
`n_eval` built into each trace. -/
structure Counter (S : Type) where
  evaluation : ℤ
  traces : List (S × ℤ)

/-- c3/optimizers/optimizer.py:45, modellearning.py:212: the counter at the start of a run. -/
def start {S : Type} : Kind → Counter S
  | .modelLearning => ⟨-1, []⟩
  | _ => ⟨0, []⟩

/-- One completed evaluation. With `@tf.function` (optimalcontrol.py:200, 230, 262) the Python code of the goal
function, including `self.evaluation += 1`, runs only when a new input signature is traced; later calls replay
the trace. In optimalcontrol_robust.py:40-47, 85-113 the counter is set to its value before the evaluation and
not advanced. Returns the state and the number handed to the goal function as `n_eval`, if any. -/
def evaluate {S : Type} [DecidableEq S] (k : Kind) (sig : S) (c : Counter S) : Counter S × Option ℤ :=
  match k with
  | .optimalControl => match c.traces.find? (fun t => decide (t.1 = sig)) with
    | some t => (c, some t.2)
    | none => (⟨c.evaluation + 1, c.traces ++ [(sig, c.evaluation + 1)]⟩, some (c.evaluation + 1))
  | .robust => (c, some (c.evaluation + 1))
  | .calibration => (⟨c.evaluation + 1, c.traces⟩, none)
  | .modelLearning => (⟨c.evaluation + 1, c.traces⟩, none)

/-- c3/optimizers/optimizer.py:190-193 in `log_parameters`: the numbers written as `Finished evaluation ...`
after each evaluation of a run. -/
def logged {S : Type} [DecidableEq S] (k : Kind) : List S → Counter S → List ℤ
  | [], _ => []
  | s :: ss, c => let c' := (evaluate k s c).1; c'.evaluation :: logged k ss c'

/-- The numbers of a log of `n` evaluations that starts at `a`. -/
def Consecutive (a : ℤ) (l : List ℤ) : Prop := ∀ i (h : i < l.length), l[i] = a + i

theorem logged_length {S : Type} [DecidableEq S] (k : Kind) (ss : List S) (c : Counter S) :
    (logged k ss c).length = ss.length := by
  induction ss generalizing c with
  | nil => rfl
  | cons s ss ih => simp [logged, ih]

theorem consecutive_cons (a : ℤ) (l : List ℤ) (h : Consecutive (a + 1) l) : Consecutive a (a :: l) := by
  intro i hi
  cases i with
  | zero => simp
  | succ i =>
    have := h i (by simpa using hi)
    simp only [List.getElem_cons_succ, this]
    push_cast; rw [Int.add_assoc, Int.add_comm 1]

/-- C179, what holds: a calibration numbers its evaluations 1, 2, ..., and model learning 0, 1, .... -/
theorem C179_numbers_partial {S : Type} [DecidableEq S] (ss : List S) :
    Consecutive 1 (logged .calibration ss (start .calibration)) ∧
    Consecutive 0 (logged .modelLearning ss (start .modelLearning)) := by
  have key : ∀ k, (k = .calibration ∨ k = .modelLearning) → ∀ (ss : List S) (c : Counter S),
      Consecutive (c.evaluation + 1) (logged k ss c) := by
    intro k hk ss
    induction ss with
    | nil => intro c i hi; simp [logged] at hi
    | cons s ss ih =>
      intro c
      have h1 : (evaluate k s c).1.evaluation = c.evaluation + 1 := by rcases hk with rfl | rfl <;> rfl
      simp only [logged]
      rw [h1]
      apply consecutive_cons
      have := ih (evaluate k s c).1
      rwa [h1] at this
  exact ⟨by simpa [start] using key _ (.inl rfl) ss (start .calibration),
    by simpa [start] using key _ (.inr rfl) ss (start .modelLearning)⟩

/-- The traces of a run are those of the distinct signatures, numbered in order. -/
theorem traces_spec {S : Type} [DecidableEq S] (ss : List S) (c : Counter S)
    (hc : c.evaluation = c.traces.length) (hn : (c.traces.map Prod.fst).Nodup) :
    let e := ss.foldl (fun c s => (evaluate .optimalControl s c).1) c
    e.evaluation = e.traces.length ∧ (e.traces.map Prod.fst).Nodup ∧
      ∀ x, x ∈ e.traces.map Prod.fst ↔ x ∈ c.traces.map Prod.fst ∨ x ∈ ss := by
  induction ss generalizing c with
  | nil => exact ⟨hc, hn, by simp⟩
  | cons s ss ih =>
    simp only [List.foldl_cons]
    cases hf : c.traces.find? (fun t => decide (t.1 = s)) with
    | some t =>
      have hs : (evaluate .optimalControl s c).1 = c := by simp [evaluate, hf]
      rw [hs]
      obtain ⟨h1, h2, h3⟩ := ih c hc hn
      refine ⟨h1, h2, fun x => ?_⟩
      rw [h3 x]
      have hm := List.mem_of_find?_eq_some hf
      have ht := List.find?_some hf
      simp only [decide_eq_true_eq] at ht
      have : s ∈ c.traces.map Prod.fst := List.mem_map.2 ⟨t, hm, ht⟩
      simp only [List.mem_cons]
      constructor
      · rintro (h | h)
        · exact .inl h
        · exact .inr (.inr h)
      · rintro (h | rfl | h)
        · exact .inl h
        · exact .inl this
        · exact .inr h
    | none =>
      have hs : (evaluate .optimalControl s c).1 = ⟨c.evaluation + 1, c.traces ++ [(s, c.evaluation + 1)]⟩ := by
        simp [evaluate, hf]
      rw [hs]
      have hnot : s ∉ c.traces.map Prod.fst := by
        intro h
        obtain ⟨t, ht, rfl⟩ := List.mem_map.1 h
        have := List.find?_eq_none.1 hf t ht
        simp at this
      obtain ⟨h1, h2, h3⟩ := ih ⟨c.evaluation + 1, c.traces ++ [(s, c.evaluation + 1)]⟩
        (by simp [hc]) (by
          simp only [List.map_append, List.map_cons, List.map_nil]
          exact List.Nodup.append hn (by simp) (by simpa using hnot))
      refine ⟨h1, h2, fun x => ?_⟩
      rw [h3 x]
      simp only [List.map_append, List.map_cons, List.map_nil, List.mem_append, List.mem_cons,
        List.not_mem_nil, or_false]
      constructor
      · rintro ((h | h) | h)
        · exact .inl h
        · exact .inr (.inl h)
        · exact .inr (.inr h)
      · rintro (h | h | h)
        · exact .inl (.inl h)
        · exact .inl (.inr h)
        · exact .inr h

/-- C179: with `OptimalControl` the counter is the number of different input signatures seen, not of
evaluations. -/
theorem C179_signatures {S : Type} [DecidableEq S] (ss : List S) :
    (ss.foldl (fun c s => (evaluate .optimalControl s c).1) (start .optimalControl)).evaluation = ss.dedup.length := by
  obtain ⟨h1, h2, h3⟩ := traces_spec ss (start .optimalControl) (by simp [start]) (by simp [start])
  rw [h1]
  have : ((ss.foldl (fun c s => (evaluate .optimalControl s c).1) (start .optimalControl)).traces.map Prod.fst).length
      = ss.dedup.length := by
    refine List.Perm.length_eq ((List.perm_ext_iff_of_nodup h2 (List.nodup_dedup _)).2 fun x => ?_)
    rw [h3 x]; simp [start]
  rw [List.length_map] at this
  exact_mod_cast this

/-- C179 fails: in an optimal control run, where every proposal has the same shape, each evaluation is logged
as number 1, and in a robust run as number 0. -/
theorem C179_false_numbers {S : Type} [DecidableEq S] (sig : S) (n : ℕ) :
    logged .optimalControl (List.replicate n sig) (start .optimalControl) = List.replicate n 1 ∧
    logged .robust (List.replicate n sig) (start .robust) = List.replicate n 0 := by
  constructor
  · have key : ∀ (n : ℕ) (e : ℤ), logged .optimalControl (List.replicate n sig) (⟨e, [(sig, e)]⟩ : Counter S) =
        List.replicate n e := by
      intro n e
      induction n with
      | zero => rfl
      | succ n ih => simp [List.replicate_succ, logged, evaluate, ih]
    cases n with
    | zero => rfl
    | succ n =>
      simp only [List.replicate_succ, logged, evaluate, start, List.find?_nil, List.nil_append, Int.zero_add]
      rw [key]
  · have key : ∀ n, logged .robust (List.replicate n sig) (start .robust : Counter S) = List.replicate n 0 := by
      intro n
      induction n with
      | zero => rfl
      | succ n ih =>
        simp only [List.replicate_succ, logged, evaluate]
        rw [ih]
        rfl
    exact key n

/-- C179: neither log is numbered consecutively from any start once there are two evaluations. -/
theorem C179_false_consecutive {S : Type} [DecidableEq S] (sig : S) (n : ℕ) (hn : 2 ≤ n) (a : ℤ) :
    ¬ Consecutive a (logged .optimalControl (List.replicate n sig) (start .optimalControl)) ∧
    ¬ Consecutive a (logged .robust (List.replicate n sig) (start .robust)) := by
  have key : ∀ b : ℤ, ¬ Consecutive a (List.replicate n b) := by
    intro b h
    have h0 := h 0 (by simp; omega)
    have h1 := h 1 (by simp; omega)
    simp only [List.getElem_replicate] at h0 h1
    rw [h0] at h1
    push_cast at h1
    omega
  rw [(C179_false_numbers sig n).1, (C179_false_numbers sig n).2]
  exact ⟨key 1, key 0⟩

/-- C179: the goal function of an optimal control run is told the same number in every evaluation of the same
signature. -/
theorem C179_false_n_eval {S : Type} [DecidableEq S] (sig : S) (c : Counter S) :
    let (c', n) := evaluate .optimalControl sig c
    (evaluate .optimalControl sig c').2 = n ∧ (evaluate .optimalControl sig c').1 = c' := by
  cases hf : c.traces.find? (fun t => decide (t.1 = sig)) with
  | some t => simp [evaluate, hf]
  | none => simp [evaluate, hf, List.find?_append]

example : logged .calibration [0, 0, 0] (start .calibration) = [1, 2, 3] := by decide
example : logged .optimalControl [0, 0, 1, 0] (start .optimalControl) = [1, 1, 2, 2] := by decide

end C3.Optim.GoalFuncs
