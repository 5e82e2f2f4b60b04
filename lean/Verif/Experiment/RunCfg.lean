import Mathlib.Data.List.Basic
import Mathlib.Tactic.Common

/-!
# C167: running an optimisation from a configuration file

Models c3/main.py:26-125 `run_cfg` with the signatures of the optimizer classes
(c3/optimizers/optimalcontrol.py:50-69, calibration.py:36-47, modellearning.py:51-66, sensitivity.py:51-66) and
`Optimizer.__init__` (c3/optimizers/optimizer.py:32-58).

Simplified: the files read for model, generator, instructions and experiment are there and well formed; of the
values in the file only paths and lists of paths are looked into.
-/

namespace C3.Experiment.RunCfg

/-! ## Model -/

/-- A value in the configuration. -/
inductive Val where
  | str (s : String)
  | list (l : List String)
  | other
deriving DecidableEq

/-- A configuration dictionary. -/
abbrev Cfg := List (String × Val)

def get (c : Cfg) (k : String) : Option Val := (c.find? fun kv => kv.1 = k).map Prod.snd

/-- `cfg.pop(k)`: the dictionary left behind. -/
def pop (c : Cfg) (k : String) : Cfg := c.filter fun kv => kv.1 ≠ k

/-- What the call does, in order. -/
inductive Act where
  | readModel (v : Val)
  | readGenerator (v : Val)
  | readInstructions (v : Val)
  | readExperiment (v : Val)
  | optGates (v : Option Val)
  | optMap (v : Val)
  | construct (kw : List String)
  | load (path : String)
  | adjust (path : Val)
  | run
deriving DecidableEq

inductive Err where
  | keyError       -- a missing key
  | unknownType    -- "Unknown optimization type specified"
  | typeError      -- unexpected or missing keyword, or `open` of something that is no path
  | notFound       -- FileNotFoundError, also as "No initial point found"
  | badInit        -- the warning raised for an initial point that is neither path nor list
deriving DecidableEq

/-- `optim_lib` (c3/main.py:38-45). -/
inductive Opt where
  | control | calibration | learning | sensitivity
deriving DecidableEq

def optimLib (s : String) : Option Opt :=
  if s = "C1" then some .control
  else if s = "C2" then some .calibration
  else if s = "C3" ∨ s = "C3_confirm" ∨ s = "confirm" then some .learning
  else if s = "SET" then some .sensitivity
  else none

/-- Keyword parameters without default (`pmap` is given by `run_cfg`); `state_labels` of `ModelLearning` has the
default `None`, with which the constructor raises. -/
def required : Opt → List String
  | .control => ["fid_func", "fid_subspace"]
  | .calibration => ["eval_func", "algorithm"]
  | .learning => ["sampling", "batch_sizes", "datafiles", "state_labels"]
  | .sensitivity => ["sampling", "batch_sizes", "datafiles", "state_labels", "sweep_map", "sweep_bounds", "algorithm"]

/-- All keyword parameters. -/
def accepted : Opt → List String
  | .control => ["fid_func", "fid_subspace", "dir_path", "callback_fids", "algorithm", "initial_point",
      "store_unitaries", "options", "run_name", "interactive", "include_model", "logger", "fid_func_kwargs",
      "ode_solver", "ode_step_function", "only_final_state"]
  | .calibration => ["eval_func", "algorithm", "dir_path", "exp_type", "exp_right", "options", "run_name", "logger"]
  | .learning => ["sampling", "batch_sizes", "datafiles", "dir_path", "estimator", "seqs_per_point", "state_labels",
      "callback_foms", "algorithm", "run_name", "options", "logger"]
  | .sensitivity => ["sampling", "batch_sizes", "datafiles", "state_labels", "sweep_map", "sweep_bounds", "algorithm",
      "estimator", "estimator_list", "dir_path", "run_name", "options"]

/-- `open(path)` and setting the values found there. `files p`: there is a file at `p`. -/
def loadBest (files : String → Bool) (v : Val) : List Act × Option Err :=
  match v with
  | .str p => if files p then ([.load p], none) else ([], some .notFound)
  | _ => ([], some .typeError)

/-- One step after another until something is raised. -/
def seqs : List (List Act × Option Err) → List Act × Option Err
  | [] => ([], none)
  | (a, some e) :: _ => (a, some e)
  | (a, none) :: rest => let r := seqs rest; (a ++ r.1, r.2)

/-- The constructor: `optim_lib[optim_type](**cfg, pmap=exp.pmap)`. -/
def construct (files : String → Bool) (o : Opt) (c : Cfg) : List Act × Option Err :=
  if (c.map Prod.fst).all (fun k => (accepted o).contains k) ∧ (required o).all (fun k => (get c k).isSome) then
    match o, get c "initial_point" with
    | .control, some v =>
      if v = .str "" then ([.construct (c.map Prod.fst)], none)
      else seqs [([.construct (c.map Prod.fst)], none), loadBest files v]
    | _, _ => ([.construct (c.map Prod.fst)], none)
  else ([], some .typeError)

/-- The part about initial points (c3/main.py:87-106). -/
def initialPoints (files : String → Bool) (c : Cfg) : List Act × Option Err :=
  match get c "initial_point" with
  | none => ([], none)
  | some (.str p) => seqs [loadBest files (.str p)]
  | some (.list l) => seqs (l.map fun p => loadBest files (.str p))
  | some .other => ([], some .badInit)

/-- The part about experimental values (c3/main.py:108-122). -/
def adjustExp (files : String → Bool) (t : String) (c : Cfg) : List Act × Option Err :=
  if t = "C1" then
    match get c "adjust_exp" with
    | none => ([], none)
    | some (.str p) => if files p then ([.adjust (.str p)], none) else ([], some .notFound)
    | some _ => ([], some .typeError)
  else ([], none)

/-- `if k in cfg: ... cfg.pop(k)`. -/
def popAct (c : Cfg) (k : String) (f : Val → Act) : List Act × Cfg :=
  match get c k with
  | none => ([], c)
  | some v => ([f v], pop c k)

/-- c3/main.py:26-125 `run_cfg`: the actions, what is raised, and the dictionary left behind. -/
def runCfg (files : String → Bool) (cfg : Cfg) (debug : Bool) : (List Act × Option Err) × Cfg :=
  match get cfg "optim_type" with
  | none => (([], some .keyError), cfg)
  | some t =>
    let c := pop cfg "optim_type"
    match (match t with
      | .str s => (optimLib s).map fun o => (s, o)
      | _ => none) with
    | none => (([], some .unknownType), c)
    | some (s, o) =>
      let c := pop c "propagation_method"
      let (a1, c) := popAct c "model" .readModel
      let (a2, c) := popAct c "generator" .readGenerator
      let (a3, c) := popAct c "instructions" .readInstructions
      let (a4, c) := popAct c "exp_cfg" .readExperiment
      let pre := a1 ++ a2 ++ a3 ++ a4
      if a3 = [] ∧ a4 = [] then
        -- quick_setup(cfg) starts with `cfg["model"]` (c3/experiment.py:154)
        match get c "model" with
        | none => ((pre, some .keyError), c)
        | some v => ((pre ++ [.readModel v], some .keyError), c)
      else
        let g := get c "opt_gates"
        let c := pop c "opt_gates"
        let (a5, c) := popAct c "gateset_opt_map" .optMap
        let (a6, c) := popAct c "exp_opt_map" .optMap
        (seqs [(pre ++ [.optGates g] ++ a5 ++ a6, none), construct files o c, initialPoints files c,
          adjustExp files s c, (if debug then [] else [.run], none)], c)

/-! ## Specification -/

/-- Keys that `run_cfg` uses itself and that are not for the optimizer. -/
def own : List String := ["optim_type", "propagation_method", "model", "generator", "instructions", "exp_cfg",
  "opt_gates", "gateset_opt_map", "exp_opt_map"]

/-- The entries for the optimizer. -/
def forOpt (c : Cfg) : Cfg := c.filter fun kv => !(own.contains kv.1)

theorem get_pop_ne (c : Cfg) {k k' : String} (h : k ≠ k') : get (pop c k') k = get c k := by
  unfold get pop
  congr 1
  induction c with
  | nil => rfl
  | cons kv c ih =>
    rw [List.filter_cons]
    by_cases h1 : kv.1 = k'
    · rw [if_neg (by simpa using h1), ih, List.find?_cons]
      have : ¬ kv.1 = k := fun h2 => h (by rw [← h2, h1])
      simp [this]
    · rw [if_pos (by simpa using h1), List.find?_cons, List.find?_cons, ih]

theorem get_pop_self (c : Cfg) (k : String) : get (pop c k) k = none := by
  unfold get pop
  simp only [Option.map_eq_none_iff, List.find?_eq_none, List.mem_filter]
  rintro kv ⟨_, h⟩
  simpa using h

theorem pop_of_none (c : Cfg) (k : String) (h : get c k = none) : pop c k = c := by
  unfold get at h
  simp only [Option.map_eq_none_iff, List.find?_eq_none] at h
  unfold pop
  rw [List.filter_eq_self]
  intro kv hkv
  simpa using h kv hkv

theorem popAct_snd (c : Cfg) (k : String) (f : Val → Act) : (popAct c k f).2 = pop c k := by
  unfold popAct
  split
  · rename_i h; exact (pop_of_none c k h).symm
  · rfl

theorem popAct_fst (c : Cfg) (k : String) (f : Val → Act) : (popAct c k f).1 = ((get c k).map f).toList := by
  unfold popAct
  split <;> simp_all

theorem pops (c : Cfg) : pop (pop (pop (pop (pop (pop (pop (pop (pop c "optim_type") "propagation_method") "model")
    "generator") "instructions") "exp_cfg") "opt_gates") "gateset_opt_map") "exp_opt_map" = forOpt c := by
  unfold pop forOpt
  simp only [List.filter_filter]
  refine List.filter_congr fun kv _ => ?_
  simp only [own, List.contains_eq_mem, List.mem_cons, List.not_mem_nil, or_false, decide_not, Bool.decide_or,
    Bool.not_or]
  simp only [Bool.and_comm, Bool.and_left_comm, Bool.and_assoc]

/-- Everything `run_cfg` does for a known type and a configuration with instructions or an experiment. -/
theorem runCfg_eq (files : String → Bool) (cfg : Cfg) (debug : Bool) (s : String) (o : Opt)
    (ht : get cfg "optim_type" = some (.str s)) (ho : optimLib s = some o)
    (he : get cfg "instructions" ≠ none ∨ get cfg "exp_cfg" ≠ none) :
    runCfg files cfg debug =
      (seqs [(((get cfg "model").map Act.readModel).toList ++ ((get cfg "generator").map Act.readGenerator).toList ++
          ((get cfg "instructions").map Act.readInstructions).toList ++
          ((get cfg "exp_cfg").map Act.readExperiment).toList ++ [.optGates (get cfg "opt_gates")] ++
          ((get cfg "gateset_opt_map").map Act.optMap).toList ++ ((get cfg "exp_opt_map").map Act.optMap).toList, none),
        construct files o (forOpt cfg), initialPoints files (forOpt cfg), adjustExp files s (forOpt cfg),
        (if debug then [] else [.run], none)], forOpt cfg) := by
  unfold runCfg
  simp only [ht, ho, Option.map_some, popAct_snd, popAct_fst]
  rw [if_neg]
  · rw [pops]
    simp [get_pop_ne]
  · simp only [ne_eq, String.reduceEq, not_false_eq_true, get_pop_ne, not_and]
    rcases he with he | he
    · intro h
      cases hi : get cfg "instructions" with
      | none => exact absurd hi he
      | some v => rw [hi] at h; simp at h
    · intro _ h
      cases hi : get cfg "exp_cfg" with
      | none => exact absurd hi he
      | some v => rw [hi] at h; simp at h

theorem get_forOpt (c : Cfg) (k : String) (h : k ∉ own) : get (forOpt c) k = get c k := by
  rw [← pops]
  simp only [own, List.mem_cons, List.not_mem_nil, or_false, not_or] at h
  obtain ⟨h1, h2, h3, h4, h5, h6, h7, h8, h9⟩ := h
  rw [get_pop_ne _ h9, get_pop_ne _ h8, get_pop_ne _ h7, get_pop_ne _ h6, get_pop_ne _ h5, get_pop_ne _ h4,
    get_pop_ne _ h3, get_pop_ne _ h2, get_pop_ne _ h1]

/-! ## C167 -/

/-- C167 for configurations with instructions or an experiment file, without initial point and experimental values:
the files are read in the order model, generator, instructions, experiment; then gates and parameters to optimise
are selected (`exp_opt_map` last); the optimizer gets exactly the remaining entries; it is run unless in debug
mode. Missing: the quick setup, lists of initial points, initial points for other optimizers and experimental
values, see the theorems with `false` below. -/
theorem C167_steps_partial (files : String → Bool) (cfg : Cfg) (debug : Bool) (s : String) (o : Opt)
    (ht : get cfg "optim_type" = some (.str s)) (ho : optimLib s = some o)
    (he : get cfg "instructions" ≠ none ∨ get cfg "exp_cfg" ≠ none)
    (hacc : ∀ kv ∈ cfg, kv.1 ∈ own ∨ kv.1 ∈ accepted o) (hreq : ∀ k ∈ required o, get cfg k ≠ none)
    (hi : get cfg "initial_point" = none) :
    (runCfg files cfg debug).1 =
      (((get cfg "model").map Act.readModel).toList ++ ((get cfg "generator").map Act.readGenerator).toList ++
        ((get cfg "instructions").map Act.readInstructions).toList ++
        ((get cfg "exp_cfg").map Act.readExperiment).toList ++ [.optGates (get cfg "opt_gates")] ++
        ((get cfg "gateset_opt_map").map Act.optMap).toList ++ ((get cfg "exp_opt_map").map Act.optMap).toList ++
        [.construct (forOpt cfg |>.map Prod.fst)] ++ (if debug then [] else [.run]), none) := by
  rw [runCfg_eq files cfg debug s o ht ho he]
  have hi' : get (forOpt cfg) "initial_point" = none := by rw [get_forOpt _ _ (by decide)]; exact hi
  have hadj : get cfg "adjust_exp" = none := by
    unfold get
    simp only [Option.map_eq_none_iff, List.find?_eq_none, decide_eq_true_eq]
    intro kv hkv h
    rcases hacc kv hkv with h1 | h1
    · rw [h] at h1; exact absurd h1 (by decide)
    · rw [h] at h1; cases o <;> exact absurd h1 (by decide)
  have hadj' : get (forOpt cfg) "adjust_exp" = none := by rw [get_forOpt _ _ (by decide)]; exact hadj
  have hc : construct files o (forOpt cfg) = ([.construct (forOpt cfg |>.map Prod.fst)], none) := by
    unfold construct
    rw [if_pos, hi']
    · cases o <;> rfl
    · constructor
      · rw [List.all_eq_true]
        intro k hk
        obtain ⟨kv, hkv, rfl⟩ := List.mem_map.1 hk
        unfold forOpt at hkv
        obtain ⟨hm, hn⟩ := List.mem_filter.1 hkv
        rcases hacc kv hm with h1 | h1
        · exfalso; simp at hn; exact hn h1
        · simpa using h1
      · rw [List.all_eq_true]
        intro k hk
        have hd : ∀ k ∈ required o, k ∉ own := by cases o <;> decide
        have : k ∉ own := hd k hk
        rw [get_forOpt _ _ this]
        exact Option.isSome_iff_ne_none.2 (hreq k hk)
  have ha : adjustExp files s (forOpt cfg) = ([], none) := by
    unfold adjustExp
    rw [hadj']
    split <;> rfl
  have hin : initialPoints files (forOpt cfg) = ([], none) := by unfold initialPoints; rw [hi']
  rw [hc, ha, hin]
  simp [seqs]

/-- The entries an optimisation needs, by its type. -/
def needs : String → List String
  | "C1" => ["fid_func", "fid_subspace"]
  | "C2" => ["eval_func", "algorithm"]
  | "SET" => ["algorithm", "sweep_map", "sweep_bounds", "sampling", "batch_sizes", "datafiles", "state_labels"]
  | _ => ["sampling", "batch_sizes", "datafiles", "state_labels"]

/-- The entries an optimisation may have besides those of `run_cfg`, by its type. -/
def mayHave : String → List String
  | "C1" => ["fid_func", "fid_subspace", "fid_func_kwargs", "dir_path", "run_name", "logger", "algorithm", "options",
      "initial_point", "callback_fids", "store_unitaries", "interactive", "include_model", "ode_solver",
      "ode_step_function", "only_final_state"]
  | "C2" => ["eval_func", "algorithm", "options", "exp_type", "exp_right", "dir_path", "run_name", "logger"]
  | "SET" => ["algorithm", "options", "sweep_map", "sweep_bounds", "sampling", "batch_sizes", "datafiles",
      "state_labels", "estimator", "estimator_list", "dir_path", "run_name"]
  | _ => ["sampling", "batch_sizes", "datafiles", "state_labels", "seqs_per_point", "estimator", "callback_foms",
      "algorithm", "options", "dir_path", "run_name", "logger"]

/-- C167: a configuration of a known type in which an entry is missing that its optimizer needs, or that has an entry
its optimizer does not know, is refused before anything is optimised; one with all and only such entries, without
initial point, is run. -/
theorem C167_entries (files : String → Bool) (cfg : Cfg) (s : String)
    (hs : s ∈ ["C1", "C2", "C3", "C3_confirm", "confirm", "SET"])
    (ht : get cfg "optim_type" = some (.str s)) (he : get cfg "instructions" ≠ none ∨ get cfg "exp_cfg" ≠ none)
    (hi : get cfg "initial_point" = none) :
    ((∃ k ∈ needs s, get cfg k = none) ∨ (∃ kv ∈ cfg, kv.1 ∉ own ∧ kv.1 ∉ mayHave s) →
      (runCfg files cfg false).1.2 = some .typeError ∧ Act.run ∉ (runCfg files cfg false).1.1) ∧
    ((∀ k ∈ needs s, get cfg k ≠ none) ∧ (∀ kv ∈ cfg, kv.1 ∈ own ∨ kv.1 ∈ mayHave s) →
      (runCfg files cfg false).1.2 = none ∧ (runCfg files cfg false).1.1.getLast? = some .run) := by
  obtain ⟨o, ho, hn, hm⟩ : ∃ o, optimLib s = some o ∧ (∀ k, k ∈ needs s ↔ k ∈ required o) ∧
      ∀ k, k ∈ mayHave s ↔ k ∈ accepted o := by
    simp only [List.mem_cons, List.not_mem_nil, or_false] at hs
    have key : ∀ l l' : List String, (∀ k ∈ l, k ∈ l') → (∀ k ∈ l', k ∈ l) → ∀ k, k ∈ l ↔ k ∈ l' :=
      fun l l' h1 h2 k => ⟨h1 k, h2 k⟩
    rcases hs with rfl | rfl | rfl | rfl | rfl | rfl
    · exact ⟨.control, rfl, key _ _ (by decide +kernel) (by decide +kernel), key _ _ (by decide +kernel) (by decide +kernel)⟩
    · exact ⟨.calibration, rfl, key _ _ (by decide +kernel) (by decide +kernel), key _ _ (by decide +kernel) (by decide +kernel)⟩
    · exact ⟨.learning, rfl, key _ _ (by decide +kernel) (by decide +kernel), key _ _ (by decide +kernel) (by decide +kernel)⟩
    · exact ⟨.learning, rfl, key _ _ (by decide +kernel) (by decide +kernel), key _ _ (by decide +kernel) (by decide +kernel)⟩
    · exact ⟨.learning, rfl, key _ _ (by decide +kernel) (by decide +kernel), key _ _ (by decide +kernel) (by decide +kernel)⟩
    · exact ⟨.sensitivity, rfl, key _ _ (by decide +kernel) (by decide +kernel), key _ _ (by decide +kernel) (by decide +kernel)⟩
  constructor
  · intro h
    rw [runCfg_eq files cfg false s o ht ho he]
    have hc : construct files o (forOpt cfg) = ([], some .typeError) := by
      unfold construct
      rw [if_neg]
      rintro ⟨h1, h2⟩
      rw [List.all_eq_true] at h1 h2
      rcases h with ⟨k, hk, hk'⟩ | ⟨kv, hkv, ho', hk'⟩
      · have := h2 k ((hn k).1 hk)
        have hd : ∀ k ∈ required o, k ∉ own := by cases o <;> decide
        rw [get_forOpt _ _ (hd k ((hn k).1 hk)), hk'] at this
        cases this
      · have := h1 kv.1 (List.mem_map.2 ⟨kv, List.mem_filter.2 ⟨hkv, by simpa using ho'⟩, rfl⟩)
        exact hk' ((hm _).2 (by simpa using this))
    rw [hc]
    refine ⟨by simp [seqs], ?_⟩
    simp only [seqs, List.append_nil, List.mem_append, Option.mem_toList, Option.map_eq_some_iff, List.mem_singleton]
    simp
  · rintro ⟨h1, h2⟩
    rw [C167_steps_partial files cfg false s o ht ho he (fun kv hkv => (h2 kv hkv).imp_right (hm _).1)
      (fun k hk => h1 k ((hn k).2 hk)) hi]
    exact ⟨rfl, by rw [if_neg (by simp)]; exact List.getLast?_concat⟩

/-- The configuration of test/c1.cfg, shortened. -/
def c1 : Cfg := [("optim_type", .str "C1"), ("exp_cfg", .str "test/one_qubit.hjson"), ("fid_func", .str "average_infid_set"),
  ("fid_subspace", .list ["Q1"]), ("algorithm", .str "lbfgs"), ("opt_gates", .list ["rx90p"]), ("gateset_opt_map", .other)]

example : (∀ kv ∈ c1, kv.1 ∈ own ∨ kv.1 ∈ accepted .control) ∧ (∀ k ∈ required .control, get c1 k ≠ none) ∧
    get c1 "initial_point" = none ∧ get c1 "exp_cfg" ≠ none := by decide

example : (runCfg (fun _ => true) c1 false).1.1.getLast? = some .run := by decide

/-- An initial point given as a path to optimal control: if the file is there, its values are loaded after all files
are read and before the run; if not, nothing is run. -/
theorem C167_initial_partial (files : String → Bool) (cfg : Cfg) (debug : Bool) (p : String) (hp : p ≠ "")
    (ht : get cfg "optim_type" = some (.str "C1"))
    (he : get cfg "instructions" ≠ none ∨ get cfg "exp_cfg" ≠ none) (hadj : get cfg "adjust_exp" = none)
    (hi : get cfg "initial_point" = some (.str p)) :
    (files p = false → Act.run ∉ (runCfg files cfg debug).1.1 ∧ (runCfg files cfg debug).1.2 ≠ none) ∧
    ((runCfg files cfg debug).1.2 = none → ∃ pre, (runCfg files cfg debug).1.1 =
      pre ++ [.load p, .load p] ++ (if debug then [] else [.run]) ∧ Act.run ∉ pre) := by
  have hi' : get (forOpt cfg) "initial_point" = some (.str p) := by rw [get_forOpt _ _ (by decide)]; exact hi
  have hadj' : get (forOpt cfg) "adjust_exp" = none := by rw [get_forOpt _ _ (by decide)]; exact hadj
  have ha : adjustExp files "C1" (forOpt cfg) = ([], none) := by unfold adjustExp; rw [hadj']; simp
  rw [runCfg_eq files cfg debug "C1" .control ht rfl he, ha]
  set A := ((get cfg "model").map Act.readModel).toList ++ ((get cfg "generator").map Act.readGenerator).toList ++
        ((get cfg "instructions").map Act.readInstructions).toList ++
        ((get cfg "exp_cfg").map Act.readExperiment).toList ++ [.optGates (get cfg "opt_gates")] ++
        ((get cfg "gateset_opt_map").map Act.optMap).toList ++ ((get cfg "exp_opt_map").map Act.optMap).toList with hA
  have hrun : Act.run ∉ A := by
    rw [hA]
    simp only [List.mem_append, Option.mem_toList, Option.map_eq_some_iff, List.mem_singleton]
    simp
  have hv : ¬ (Val.str p = Val.str "") := fun h => hp (by injection h)
  unfold construct initialPoints
  simp only [hi', if_neg hv, loadBest]
  constructor
  · intro hf
    split
    · simp [seqs, hf, hrun]
    · simp [seqs, hrun]
  · intro hok
    split at hok
    · rename_i hcond
      rw [if_pos hcond]
      by_cases hf : files p = true
      · refine ⟨A ++ [.construct ((forOpt cfg).map Prod.fst)], ?_, by simp [hrun]⟩
        simp [seqs, hf]
      · simp [seqs, hf] at hok
    · simp [seqs] at hok

example : get (c1 ++ [("initial_point", .str "best.c3log")]) "initial_point" = some (.str "best.c3log") := by decide

/-- In debug mode nothing is run. -/
theorem C167_debug (files : String → Bool) (cfg : Cfg) (s : String) (o : Opt)
    (ht : get cfg "optim_type" = some (.str s)) (ho : optimLib s = some o)
    (he : get cfg "instructions" ≠ none ∨ get cfg "exp_cfg" ≠ none) :
    ∀ r, runCfg files cfg false = r → (r.1.2 = none → (runCfg files cfg true).1.2 = none ∧
      r.1.1 = (runCfg files cfg true).1.1 ++ [.run]) := by
  rintro r rfl
  rw [runCfg_eq files cfg false s o ht ho he, runCfg_eq files cfg true s o ht ho he]
  generalize construct files o (forOpt cfg) = x
  generalize initialPoints files (forOpt cfg) = y
  generalize adjustExp files s (forOpt cfg) = z
  obtain ⟨x1, x2⟩ := x
  obtain ⟨y1, y2⟩ := y
  obtain ⟨z1, z2⟩ := z
  cases x2 <;> cases y2 <;> cases z2 <;> simp [seqs]

/-- C167 fails without instructions: the quick setup looks for the model in the dictionary from which it was
removed (or was missing), so that it always raises. -/
theorem C167_false_quick (files : String → Bool) (cfg : Cfg) (debug : Bool)
    (h1 : get cfg "instructions" = none) (h2 : get cfg "exp_cfg" = none) :
    (runCfg files cfg debug).1.2 ≠ none ∧ Act.run ∉ (runCfg files cfg debug).1.1 := by
  unfold runCfg
  split
  · simp
  · rename_i t _
    split
    · simp
    · simp only [popAct_snd, popAct_fst, ne_eq, String.reduceEq, not_false_eq_true, get_pop_ne, h1, h2, Option.map_none,
        Option.toList_none, and_self, if_true, get_pop_self, List.append_nil, reduceCtorEq, List.mem_append,
        Option.mem_toList, Option.map_eq_some_iff]
      simp

/-- C167 fails for experimental values in optimal control: `adjust_exp` is handed to the constructor, which does not
know it, so that the branch that loads them is never reached. -/
theorem C167_false_adjust (files : String → Bool) (cfg : Cfg) (debug : Bool) (v : Val)
    (ht : get cfg "optim_type" = some (.str "C1")) (hv : get cfg "adjust_exp" = some v)
    (he : get cfg "instructions" ≠ none ∨ get cfg "exp_cfg" ≠ none) :
    (runCfg files cfg debug).1.2 = some .typeError ∧
      ∀ a ∈ (runCfg files cfg debug).1.1, a ≠ .run ∧ ∀ w, a ≠ .adjust w := by
  rw [runCfg_eq files cfg debug "C1" .control ht rfl he]
  have hm : ∃ kv ∈ forOpt cfg, kv.1 = "adjust_exp" := by
    have : get (forOpt cfg) "adjust_exp" = some v := by rw [get_forOpt _ _ (by decide)]; exact hv
    unfold get at this
    obtain ⟨kv, h1, _⟩ := Option.map_eq_some_iff.1 this
    exact ⟨kv, List.mem_of_find?_eq_some h1, by simpa using List.find?_some h1⟩
  obtain ⟨kv, hkv, hk⟩ := hm
  have hc : construct files .control (forOpt cfg) = ([], some .typeError) := by
    unfold construct
    rw [if_neg]
    rintro ⟨h, _⟩
    rw [List.all_eq_true] at h
    have := h kv.1 (List.mem_map.2 ⟨kv, hkv, rfl⟩)
    rw [hk] at this
    exact absurd this (by decide)
  rw [hc]
  refine ⟨by simp [seqs], ?_⟩
  simp only [seqs, List.append_nil, List.mem_append, Option.mem_toList, Option.map_eq_some_iff,
    List.mem_singleton]
  intro a ha
  rcases ha with ((((((⟨w, _, rfl⟩ | ⟨w, _, rfl⟩) | ⟨w, _, rfl⟩) | ⟨w, _, rfl⟩) | rfl) | ⟨w, _, rfl⟩) | ⟨w, _, rfl⟩) <;> simp

example : get (c1 ++ [("adjust_exp", .str "model.c3log")]) "adjust_exp" = some (.str "model.c3log") := by decide

/-- C167 fails for initial points of the other optimizers, and for lists of initial points: the constructors of
calibration, model learning and sensitivity do not know the keyword, that of optimal control opens the list as if
it was a path. -/
theorem C167_false_initial (files : String → Bool) (cfg : Cfg) (debug : Bool) (s : String) (o : Opt) (v : Val)
    (ht : get cfg "optim_type" = some (.str s)) (ho : optimLib s = some o)
    (hv : get cfg "initial_point" = some v) (h : o ≠ .control ∨ ∃ l, v = .list l)
    (he : get cfg "instructions" ≠ none ∨ get cfg "exp_cfg" ≠ none) :
    (runCfg files cfg debug).1.2 = some .typeError ∧
      ∀ a ∈ (runCfg files cfg debug).1.1, a ≠ .run ∧ ∀ p, a ≠ .load p := by
  rw [runCfg_eq files cfg debug s o ht ho he]
  have hv' : get (forOpt cfg) "initial_point" = some v := by rw [get_forOpt _ _ (by decide)]; exact hv
  obtain ⟨kv, hkv, hk⟩ : ∃ kv ∈ forOpt cfg, kv.1 = "initial_point" := by
    unfold get at hv'
    obtain ⟨kv, h1, _⟩ := Option.map_eq_some_iff.1 hv'
    exact ⟨kv, List.mem_of_find?_eq_some h1, by simpa using List.find?_some h1⟩
  have hc : ∃ b, (b = [] ∨ b = [Act.construct ((forOpt cfg).map Prod.fst)]) ∧
      construct files o (forOpt cfg) = (b, some .typeError) := by
    unfold construct
    split
    · rename_i hcond
      by_cases hoc : o = .control
      · subst hoc
        obtain ⟨l, rfl⟩ := h.resolve_left (by simp)
        simp only [hv']
        rw [if_neg (by simp)]
        exact ⟨_, .inr rfl, by simp [seqs, loadBest]⟩
      · exfalso
        have := hcond.1
        rw [List.all_eq_true] at this
        have := this kv.1 (List.mem_map.2 ⟨kv, hkv, rfl⟩)
        rw [hk] at this
        cases o with
        | control => exact hoc rfl
        | calibration => exact absurd this (by decide)
        | learning => exact absurd this (by decide)
        | sensitivity => exact absurd this (by decide)
    · exact ⟨_, .inl rfl, rfl⟩
  obtain ⟨b, hb, hc⟩ := hc
  rw [hc]
  refine ⟨by simp [seqs], ?_⟩
  simp only [seqs, List.mem_append, Option.mem_toList, Option.map_eq_some_iff,
    List.mem_singleton]
  intro a ha
  rcases ha with (((((((⟨w, _, rfl⟩ | ⟨w, _, rfl⟩) | ⟨w, _, rfl⟩) | ⟨w, _, rfl⟩) | rfl) | ⟨w, _, rfl⟩) | ⟨w, _, rfl⟩) | ha)
  all_goals first | (rcases hb with rfl | rfl <;> simp at ha; subst ha; simp) | simp

/-- C167: an unknown type is refused before anything is read; a second call with the same dictionary always fails,
because the first one has removed the type. -/
theorem C167_false_twice (files : String → Bool) (cfg : Cfg) (debug debug' : Bool) :
    (runCfg files (runCfg files cfg debug).2 debug').1 = ([], some .keyError) := by
  have h : get (runCfg files cfg debug).2 "optim_type" = none := by
    unfold runCfg
    split
    · rename_i h; exact h
    · split
      · exact get_pop_self _ _
      · simp only [popAct_snd]
        split
        · split <;> simp [get_pop_ne, get_pop_self]
        · simp [get_pop_ne, get_pop_self]
  generalize (runCfg files cfg debug).2 = c at h
  unfold runCfg
  rw [h]

theorem C167_unknown (files : String → Bool) (cfg : Cfg) (debug : Bool) (s : String)
    (ht : get cfg "optim_type" = some (.str s)) (hs : s ∉ ["C1", "C2", "C3", "C3_confirm", "confirm", "SET"]) :
    (runCfg files cfg debug).1 = ([], some .unknownType) := by
  have : optimLib s = none := by
    simp only [List.mem_cons, List.not_mem_nil, or_false, not_or] at hs
    simp [optimLib, hs]
  unfold runCfg
  simp [ht, this]

end C3.Experiment.RunCfg
