import Mathlib.Data.List.Basic
import Mathlib.Data.Nat.Find
import Mathlib.Logic.Function.Basic
import Mathlib.Tactic.Common

/-!
# Log directories and stored propagators (C186-C188)

Models c3/optimizers/optimizer.py:67-94 (`replace_logdir`), 119-143 (`start_log`), 145-157 of optimalcontrol.py
(`log_setup`) and 164-186 (`optimize_controls`), c3/utils/utils.py:11-64 (`log_setup`, `replace_symlink`), and
c3/experiment.py:560-601 (`set_enable_store_unitaries`, `store_Udict`) as called by optimizer.py:180-182.

Simplifications: a path is a list of names; permissions are not modelled, a link is not followed,
and the data directory is not a file.
-/

noncomputable section

namespace C3.Optim.LogDirs

open scoped Classical

/-- A path as its list of components; relative paths start in the working directory. -/
abbrev Path := List String

inductive Node where
  | file
  | dir
  | link (target : Path)

/-- The file system: what is found at a path. -/
abbrev FS := Path → Option Node

inductive Err where
  | isADirectory
  | fileExists
  | attributeError
  | notFound
  /-- a value computed while tracing cannot be written -/
  | symbolic
  deriving DecidableEq

/-- `os.remove` with `FileNotFoundError` ignored. -/
def remove (fs : FS) (p : Path) : Except Err FS :=
  match fs p with
  | none => .ok fs
  | some .dir => .error .isADirectory
  | some _ => .ok (Function.update fs p none)

/-- A directory without entries. -/
def EmptyDir (fs : FS) (p : Path) : Prop := (∃ n, fs p = some n ∧ n = .dir) ∧ ∀ q ≠ [], fs (p ++ q) = none

/-- `os.rmdir` with `OSError` ignored. -/
def rmdir (fs : FS) (p : Path) : FS := if EmptyDir fs p then Function.update fs p none else fs

/-! ## replace_logdir -/

/-- The two kinds of loggers: `BaseLogger` and `BestPointLogger` have no method `set_logdir`. -/
inductive LoggerKind where
  | base | tensorBoard
  deriving DecidableEq

structure Logger where
  kind : LoggerKind
  dir : Option String

/-- A log directory as the string the user sees; `toPath` splits it. -/
structure Opt where
  /-- `self.logdir` -/
  logdir : String
  logname : String
  /-- `_Optimizer__dir_path` (optimizer.py:51): set to "" and never changed; the subclasses store the user's
  directory under their own mangled name (optimalcontrol.py:84) -/
  basePath : Path
  /-- `_OptimalControl__dir_path` -/
  userPath : Path
  loggers : List Logger

/-- c3/optimizers/optimizer.py:76: colons are replaced. -/
def noColon (s : List Char) : List Char := s.map fun c => if c = ':' then '_' else c

/-- c3/optimizers/optimizer.py:93-94: the method is looked up, not called. -/
def touchLoggers : List Logger → Option Err
  | [] => none
  | l :: ls => match l.kind with
    | .base => some .attributeError
    | .tensorBoard => touchLoggers ls

/-- c3/optimizers/optimizer.py:67-94 `replace_logdir`; `toPath` is the splitting of a directory name. -/
def replaceLogdir (toPath : String → Path) (fs : FS) (o : Opt) (new : String) : Opt × FS × Option Err :=
  let o' := { o with logdir := String.ofList (noColon new.toList) }
  match remove fs (o.basePath ++ ["recent"]) with
  | .error e => (o', fs, some e)
  | .ok fs' => (o', rmdir fs' (toPath o.logdir), touchLoggers o.loggers)

/-- c3/optimizers/optimizer.py:119-143 `start_log`: the log file, and the loggers are told the directory. -/
def startLog (o : Opt) : String × Opt :=
  (o.logdir ++ o.logname, { o with loggers := o.loggers.map fun l => { l with dir := some o.logdir } })

/-- c3/optimizers/optimalcontrol.py:164-186: where a run writes its log. By default a new directory is set up
first (`fresh` is the result of `log_setup`). -/
def runLog (o : Opt) (setupLog : Bool) (fresh : String) : String :=
  (startLog (if setupLog then { o with logdir := fresh, logname := "open_loop.c3log" } else o)).1

/-- C186: the new directory name is the given one with each colon replaced by an underscore. -/
theorem C186_name (toPath : String → Path) (fs : FS) (o : Opt) (new : String) :
    let d := (replaceLogdir toPath fs o new).1.logdir.toList
    ':' ∉ d ∧ d.length = new.toList.length ∧
    ∀ (i : ℕ) (c : Char), new.toList[i]? = some c → d[i]? = some (if c = ':' then '_' else c) := by
  have h : (replaceLogdir toPath fs o new).1.logdir = String.ofList (noColon new.toList) := by
    unfold replaceLogdir
    cases remove fs (o.basePath ++ ["recent"]) <;> rfl
  simp only [h, String.toList_ofList]
  refine ⟨?_, by simp [noColon], ?_⟩
  · simp only [noColon, List.mem_map, not_exists, not_and]
    intro c _ hc
    by_cases hcc : c = ':'
    · rw [if_pos hcc] at hc; revert hc; decide
    · rw [if_neg hcc] at hc; exact hcc hc
  · intro i c hc
    simp [noColon, hc]

/-- C186, what holds: without a file `recent` in the working directory and with TensorBoard loggers only, nothing
is raised and at most the old directory is removed, if it is an empty one. -/
theorem C186_cleanup_partial (toPath : String → Path) (fs : FS) (o : Opt) (new : String)
    (hr : fs (o.basePath ++ ["recent"]) = none) (hl : ∀ l ∈ o.loggers, l.kind = .tensorBoard) :
    let r := replaceLogdir toPath fs o new
    r.2.2 = none ∧ (∀ p ≠ toPath o.logdir, r.2.1 p = fs p) ∧
    (r.2.1 (toPath o.logdir) = if EmptyDir fs (toPath o.logdir) then none else fs (toPath o.logdir)) := by
  have hl' : touchLoggers o.loggers = none := by
    generalize o.loggers = ls at hl ⊢
    induction ls with
    | nil => rfl
    | cons l ls ih =>
      simp only [touchLoggers, hl l (by simp)]
      exact ih fun x hx => hl x (List.mem_cons_of_mem _ hx)
  simp only [replaceLogdir, remove, hr]
  refine ⟨hl', ?_, ?_⟩
  · intro p hp
    unfold rmdir
    split
    · rw [Function.update_of_ne hp]
    · rfl
  · unfold rmdir
    split
    · simp
    · rfl

/-- C186, which directories count as empty: one with nothing below it is removed, one with something below it is kept, and
so are files and links. -/
theorem C186_empty (toPath : String → Path) (fs : FS) (o : Opt) (new : String)
    (hr : fs (o.basePath ++ ["recent"]) = none) :
    let r := replaceLogdir toPath fs o new
    (fs (toPath o.logdir) = some .dir → (∀ q, q ≠ toPath o.logdir → toPath o.logdir <+: q → fs q = none) →
      r.2.1 (toPath o.logdir) = none) ∧
    (∀ q, q ≠ toPath o.logdir → toPath o.logdir <+: q → fs q ≠ none → r.2.1 = fs) ∧
    (fs (toPath o.logdir) ≠ some .dir → r.2.1 = fs) := by
  simp only [replaceLogdir, remove, hr, rmdir]
  refine ⟨fun h1 h2 => ?_, fun q h1 h2 h3 => ?_, fun h => ?_⟩
  · rw [if_pos]
    · simp
    · exact ⟨⟨_, h1, rfl⟩, fun q hq => h2 _ (by simpa using hq) (List.prefix_append _ _)⟩
  · rw [if_neg]
    rintro ⟨_, h4⟩
    obtain ⟨s, rfl⟩ := h2
    exact h3 (h4 s (by rintro rfl; simp at h1))
  · rw [if_neg]
    rintro ⟨⟨n, h1, rfl⟩, _⟩
    exact h h1

/-- C186 fails: the link `recent` in the user's directory is kept, while a file of that name in the working
directory, which nobody of this library made, is deleted. -/
theorem C186_false_recent (toPath : String → Path) (fs : FS) (o : Opt) (new : String) (hb : o.basePath = [])
    (hu : o.userPath ≠ []) (hold : toPath o.logdir ≠ o.userPath ++ ["recent"] ∧ toPath o.logdir ≠ ["recent"])
    (hf : fs ["recent"] = some .file) :
    (replaceLogdir toPath fs o new).2.1 (o.userPath ++ ["recent"]) = fs (o.userPath ++ ["recent"]) ∧
    (replaceLogdir toPath fs o new).2.1 ["recent"] = none := by
  have hne : o.userPath ++ ["recent"] ≠ ["recent"] := by
    intro h
    apply hu
    have := congrArg List.length h
    simp at this
    exact this
  simp only [replaceLogdir, hb, List.nil_append, remove, hf]
  constructor
  · unfold rmdir
    split
    · rw [Function.update_of_ne hold.1.symm, Function.update_of_ne hne]
    · rw [Function.update_of_ne hne]
  · unfold rmdir
    split
    · rw [Function.update_of_ne hold.2.symm]; simp
    · simp

/-- C186 fails: loggers that are already running keep writing to the old directory, and with any other logger the
call raises. -/
theorem C186_false_loggers (toPath : String → Path) (fs : FS) (o : Opt) (new : String) :
    (∀ l ∈ (replaceLogdir toPath fs (startLog o).2 new).1.loggers, l.dir = some o.logdir) ∧
    (fs (o.basePath ++ ["recent"]) = none → (∃ l ∈ o.loggers, l.kind = .base) →
      (replaceLogdir toPath fs o new).2.2 = some .attributeError) := by
  constructor
  · intro l hl
    have h : (replaceLogdir toPath fs (startLog o).2 new).1.loggers = (startLog o).2.loggers := by
      unfold replaceLogdir
      cases remove fs ((startLog o).2.basePath ++ ["recent"]) <;> rfl
    rw [h] at hl
    simp only [startLog, List.mem_map] at hl
    obtain ⟨l', -, rfl⟩ := hl
    rfl
  · rintro hr ⟨l, hl, hk⟩
    simp only [replaceLogdir, remove, hr]
    generalize o.loggers = ls at hl
    induction ls with
    | nil => simp at hl
    | cons a ls ih =>
      unfold touchLoggers
      cases ha : a.kind with
      | base => rfl
      | tensorBoard =>
        rcases List.mem_cons.1 hl with rfl | h
        · rw [hk] at ha; simp at ha
        · exact ih h

/-- C186 fails: a run started in the default way ignores the new directory, and otherwise a directory given
without a final slash is only the beginning of the name of the log file. -/
theorem C186_false_run (toPath : String → Path) (fs : FS) (o : Opt) (new fresh : String) :
    runLog (replaceLogdir toPath fs o new).1 true fresh = fresh ++ "open_loop.c3log" ∧
    runLog (replaceLogdir toPath fs o new).1 false fresh =
      (replaceLogdir toPath fs o new).1.logdir ++ o.logname := by
  refine ⟨rfl, ?_⟩
  have h : (replaceLogdir toPath fs o new).1.logname = o.logname := by
    unfold replaceLogdir
    cases remove fs (o.basePath ++ ["recent"]) <;> rfl
  simp only [runLog, startLog, Bool.false_eq_true, if_false, h]

example : String.ofList (noColon "a:b".toList) = "a_b" := by decide

/-! ## log_setup -/

/-- Creates a directory unless something is there. -/
def mk (fs : FS) (p : Path) : FS := match fs p with
  | none => Function.update fs p (some .dir)
  | some _ => fs

/-- c3/utils/utils.py:51-65 `replace_symlink`: what is at the alias is removed (a directory raises), then the link
is made; an existing entry is left. -/
def replaceSymlink (fs : FS) (target name : Path) : Except Err FS :=
  match remove fs name with
  | .error e => .error e
  | .ok fs' => match fs' name with
    | some _ => .ok fs'
    | none => .ok (Function.update fs' name (some (.link target)))

/-- c3/utils/utils.py:37-43: the directory of a run started at some time. -/
def runDir (data : Path) (run stamp : String) : Path := data ++ [run, stamp]

/-- c3/utils/utils.py:11-49 `log_setup`: `stamps i` is the time stamp after waiting `i` seconds. Nothing is
returned if every time stamp is taken (the loop does not end). -/
def logSetup (fs : FS) (data : Path) (run : String) (stamps : ℕ → String) : Option (Except Err Path × FS) :=
  let fs1 := mk fs data
  if h : ∃ i, fs1 (runDir data run (stamps i)) = none then
    let pwd := runDir data run (stamps (Nat.find h))
    let fs2 := mk (mk fs1 (data ++ [run])) pwd
    match replaceSymlink fs2 pwd (data ++ ["recent"]) with
    | .error e => some (.error e, fs2)
    | .ok fs3 => some (.ok pwd, fs3)
  else none

theorem mk_none (fs : FS) (p : Path) (h : fs p = none) : mk fs p = Function.update fs p (some .dir) := by
  simp [mk, h]

theorem mk_ne (fs : FS) (p q : Path) (h : q ≠ p) : mk fs p q = fs q := by
  unfold mk
  cases fs p with
  | none => exact Function.update_of_ne h _ _
  | some n => rfl

theorem mk_some (fs : FS) (p q : Path) (n : Node) (h : fs q = some n) : mk fs p q = some n := by
  unfold mk
  cases hp : fs p with
  | none =>
    have : q ≠ p := by rintro rfl; rw [hp] at h; simp at h
    simp only [Function.update_of_ne this, h]
  | some m => exact h

/-- C187, what holds: for a run name other than `recent`, and no directory of that name, the returned directory is
new and was empty space before, `recent` points to it, and everything that existed is still there, except what was
at `recent`. -/
theorem C187_setup_partial (fs : FS) (data : Path) (run : String) (stamps : ℕ → String) (hrun : run ≠ "recent")
    (hdir : fs (data ++ ["recent"]) ≠ some .dir) (hfree : ∃ i, fs (runDir data run (stamps i)) = none) :
    ∃ pwd fs', logSetup fs data run stamps = some (.ok pwd, fs') ∧
      (∃ i, pwd = runDir data run (stamps i) ∧ ∀ j < i, fs (runDir data run (stamps j)) ≠ none) ∧
      fs pwd = none ∧ fs' pwd = some .dir ∧ fs' (data ++ ["recent"]) = some (.link pwd) ∧
      ∀ q n, q ≠ data ++ ["recent"] → fs q = some n → fs' q = some n := by
  have hne : ∀ s, runDir data run s ≠ data := by
    intro s h
    have := congrArg List.length h
    simp [runDir] at this
  have h1 : ∀ s, mk fs data (runDir data run s) = fs (runDir data run s) := fun s => mk_ne fs data _ (hne s)
  have hex : ∃ i, mk fs data (runDir data run (stamps i)) = none := by
    obtain ⟨i, hi⟩ := hfree; exact ⟨i, by rw [h1, hi]⟩
  set i := Nat.find hex with hi
  set pwd := runDir data run (stamps i) with hpwd
  have hpn : fs pwd = none := by rw [← h1]; exact Nat.find_spec hex
  have hrp : (data ++ ["recent"] : Path) ≠ pwd := by
    intro h
    have := congrArg List.length h
    simp [hpwd, runDir] at this
  have hrr : (data ++ ["recent"] : Path) ≠ data ++ [run] := by
    intro h
    have := List.append_cancel_left h
    simp at this
    exact hrun this.symm
  have hrd : (data ++ ["recent"] : Path) ≠ data := by
    intro h
    have := congrArg List.length h
    simp at this
  have hpr : pwd ≠ data ++ [run] := by
    intro h
    have := congrArg List.length h
    simp [hpwd, runDir] at this
  set fs2 := mk (mk (mk fs data) (data ++ [run])) pwd with hfs2
  have hrec : fs2 (data ++ ["recent"]) = fs (data ++ ["recent"]) := by
    rw [hfs2, mk_ne _ _ _ hrp, mk_ne _ _ _ hrr, mk_ne _ _ _ hrd]
  have hp2 : fs2 pwd = some .dir := by
    rw [hfs2, mk_none _ pwd (by rw [mk_ne _ _ _ hpr, h1, hpn])]
    simp
  have hkeep : ∀ q n, fs q = some n → fs2 q = some n := by
    intro q n h
    exact mk_some _ _ _ _ (mk_some _ _ _ _ (mk_some _ _ _ _ h))
  have hlink : ∃ fs3, replaceSymlink fs2 pwd (data ++ ["recent"]) = .ok fs3 ∧
      fs3 (data ++ ["recent"]) = some (.link pwd) ∧ ∀ q ≠ data ++ ["recent"], fs3 q = fs2 q := by
    unfold replaceSymlink remove
    rw [hrec]
    cases hr : fs (data ++ ["recent"]) with
    | none =>
      refine ⟨Function.update fs2 (data ++ ["recent"]) (some (.link pwd)), by simp only [hrec, hr], by simp,
        fun q hq => Function.update_of_ne hq _ _⟩
    | some n =>
      cases n with
      | dir => exact absurd hr hdir
      | file =>
        refine ⟨Function.update (Function.update fs2 (data ++ ["recent"]) none) (data ++ ["recent"]) (some (.link pwd)),
          by simp only [Function.update_self], by simp, fun q hq => ?_⟩
        rw [Function.update_of_ne hq, Function.update_of_ne hq]
      | link t =>
        refine ⟨Function.update (Function.update fs2 (data ++ ["recent"]) none) (data ++ ["recent"]) (some (.link pwd)),
          by simp only [Function.update_self], by simp, fun q hq => ?_⟩
        rw [Function.update_of_ne hq, Function.update_of_ne hq]
  obtain ⟨fs3, h3, h4, h5⟩ := hlink
  refine ⟨pwd, fs3, ?_, ⟨i, rfl, ?_⟩, hpn, ?_, h4, ?_⟩
  · unfold logSetup
    simp only [dif_pos hex]
    have : replaceSymlink (mk (mk (mk fs data) (data ++ [run])) (runDir data run (stamps (Nat.find hex))))
        (runDir data run (stamps (Nat.find hex))) (data ++ ["recent"]) = .ok fs3 := h3
    rw [this]
  · intro j hj
    have := Nat.find_min hex hj
    rwa [h1] at this
  · rw [h5 pwd hrp.symm, hp2]
  · intro q n hq h
    rw [h5 q hq, hkeep q n h]

/-- C187 fails: a run called `recent` raises after its directory was made, in every directory without an entry of
that name. -/
theorem C187_false_recent (fs : FS) (data : Path) (stamps : ℕ → String) (hr : fs (data ++ ["recent"]) = none)
    (hfree : ∃ i, fs (runDir data "recent" (stamps i)) = none) :
    ∃ fs' i, logSetup fs data "recent" stamps = some (.error .isADirectory, fs') ∧
      fs' (runDir data "recent" (stamps i)) = some .dir := by
  have hne : ∀ s, runDir data "recent" s ≠ data := by
    intro s h
    have := congrArg List.length h
    simp [runDir] at this
  have h1 : ∀ s, mk fs data (runDir data "recent" s) = fs (runDir data "recent" s) := fun s => mk_ne fs data _ (hne s)
  have hex : ∃ i, mk fs data (runDir data "recent" (stamps i)) = none := by
    obtain ⟨i, hi⟩ := hfree; exact ⟨i, by rw [h1, hi]⟩
  have hrd : (data ++ ["recent"] : Path) ≠ data := by
    intro h
    have := congrArg List.length h
    simp at this
  have hpr : runDir data "recent" (stamps (Nat.find hex)) ≠ data ++ ["recent"] := by
    intro h
    have := congrArg List.length h
    simp [runDir] at this
  have hpn : fs (runDir data "recent" (stamps (Nat.find hex))) = none := by
    rw [← h1]; exact Nat.find_spec hex
  have hrec : mk (mk (mk fs data) (data ++ ["recent"])) (runDir data "recent" (stamps (Nat.find hex))) (data ++ ["recent"]) =
      some .dir := by
    rw [mk_ne _ _ _ hpr.symm, mk_none _ (data ++ ["recent"]) (by rw [mk_ne _ _ _ hrd, hr])]
    simp
  refine ⟨mk (mk (mk fs data) (data ++ ["recent"])) (runDir data "recent" (stamps (Nat.find hex))), Nat.find hex, ?_, ?_⟩
  · unfold logSetup
    simp only [dif_pos hex, replaceSymlink, remove, hrec]
  · rw [mk_none _ (runDir data "recent" (stamps (Nat.find hex))) (by
      rw [mk_ne _ _ _ hpr, h1, hpn])]
    simp

example : ∃ pwd fs', logSetup (fun _ => none) ["tmp"] "run" (fun _ => "now") = some (.ok pwd, fs') ∧ pwd = ["tmp", "run", "now"] := by
  obtain ⟨pwd, fs', h, ⟨i, hp, -⟩, -⟩ := C187_setup_partial (fun _ => none) ["tmp"] "run" (fun _ => "now") (by decide)
    (by simp) ⟨0, rfl⟩
  exact ⟨pwd, fs', h, by rw [hp]; rfl⟩

/-! ## Stored propagators -/

/-- A propagator: a number array, or the placeholder that a traced goal function leaves behind. -/
inductive Prop' (U : Type) where
  | value (u : U)
  | symbolic

/-- A stored evaluation: the folder, given by the counter and the goal, and its files. -/
structure Stored (U G : Type) where
  counter : ℕ
  goal : G
  pickle : List (String × U)
  texts : List (String × U)

/-- The part of `Experiment` that matters: current propagators, counter, folders. -/
structure Exp (U G : Type) where
  enabled : Bool
  dirExists : Bool
  counter : ℕ
  props : List (String × Prop' U)
  stored : List (Stored U G)

/-- c3/experiment.py:560-575 `set_enable_store_unitaries` with `exist_ok=False`. -/
def setEnable {U G : Type} (e : Exp U G) (flag : Bool) : Except Err (Exp U G) :=
  if flag then
    if e.dirExists then .error .fileExists
    else .ok { e with enabled := true, dirExists := true, counter := 0 }
  else .ok { e with enabled := false }

/-- All propagators as arrays, if they are. -/
def values {U : Type} : List (String × Prop' U) → Option (List (String × U))
  | [] => some []
  | (k, .value u) :: l => match values l with
    | some r => some ((k, u) :: r)
    | none => none
  | (_, .symbolic) :: _ => none

/-- c3/experiment.py:601: the name of the text file of a gate. -/
def textName (k : String) : String := String.ofList (k.toList.map fun c => if c = ':' then '.' else c)

/-- Files in a folder: writing a file of an existing name replaces it. -/
def writeTexts {U : Type} (acc : List (String × U)) : List (String × U) → List (String × U)
  | [] => acc
  | (k, u) :: l => writeTexts (acc.filter (fun p => p.1 ≠ textName k) ++ [(textName k, u)]) l

/-- c3/experiment.py:577-601 `store_Udict`, followed by the increment of the counter (optimizer.py:180-182). -/
def storeU {U G : Type} (e : Exp U G) (goal : G) : Except Err (Exp U G) :=
  match values e.props with
  | none => .error .symbolic
  | some v => .ok { e with stored := e.stored ++ [⟨e.counter, goal, v, writeTexts [] v⟩], counter := e.counter + 1 }

/-- An evaluation with a goal function that runs as ordinary code: the propagators are set, then stored. -/
def evalEager {U G : Type} (e : Exp U G) (us : List (String × U)) (goal : G) : Except Err (Exp U G) :=
  storeU { e with props := us.map fun p => (p.1, .value p.2) } goal

/-- An evaluation of `OptimalControl`: its goal function is wrapped by `tf.function`, so that the assignment to
`exp.propagators` happens while tracing and stores placeholders (optimalcontrol.py:200, experiment.py:527-532). -/
def evalTraced {U G : Type} (e : Exp U G) (us : List (String × U)) (goal : G) : Except Err (Exp U G) :=
  storeU { e with props := us.map fun p => (p.1, .symbolic) } goal

def runEager {U G : Type} : List (List (String × U) × G) → Exp U G → Except Err (Exp U G)
  | [], e => .ok e
  | (us, g) :: l, e => match evalEager e us g with
    | .ok e' => runEager l e'
    | .error x => .error x

theorem values_value {U : Type} (us : List (String × U)) : values (us.map fun p => (p.1, Prop'.value p.2)) = some us := by
  induction us with
  | nil => rfl
  | cons a us ih => simp [values, ih]

theorem writeTexts_nodup {U : Type} (acc l : List (String × U)) (hl : (l.map fun p => textName p.1).Nodup)
    (hd : ∀ p ∈ acc, ∀ q ∈ l, p.1 ≠ textName q.1) :
    writeTexts acc l = acc ++ l.map fun p => (textName p.1, p.2) := by
  induction l generalizing acc with
  | nil => simp [writeTexts]
  | cons a l ih =>
    obtain ⟨k, u⟩ := a
    simp only [List.map_cons, List.nodup_cons] at hl
    have hf : acc.filter (fun p => p.1 ≠ textName k) = acc := by
      rw [List.filter_eq_self]
      intro p hp
      simpa using hd p hp (k, u) (by simp)
    rw [writeTexts, hf, ih _ hl.2]
    · simp
    · intro p hp q hq
      rcases List.mem_append.1 hp with h | h
      · exact hd p h q (List.mem_cons_of_mem _ hq)
      · simp only [List.mem_cons, List.not_mem_nil, or_false] at h
        subst h
        intro hc
        simp only at hc
        exact hl.1 (List.mem_map.2 ⟨q, hq, hc.symm⟩)

/-- C188, what holds: with ordinary evaluation every evaluation gets a folder of its own, numbered from 0, with
the propagators of that evaluation, also as text files if the names stay different without colons. -/
theorem C188_stored_partial {U G : Type} (l : List (List (String × U) × G))
    (hn : ∀ x ∈ l, (x.1.map fun p => textName p.1).Nodup) (e0 e1 : Exp U G) (h0 : e0.stored = [])
    (he : setEnable e0 true = .ok e1) :
    ∃ e, runEager l e1 = .ok e ∧ e.stored.length = l.length ∧
      ∀ (i : ℕ) us g, l[i]? = some (us, g) →
        e.stored[i]? = some ⟨i, g, us, us.map fun p => (textName p.1, p.2)⟩ := by
  have h1 : e1.stored = [] ∧ e1.counter = 0 := by
    unfold setEnable at he
    simp only [if_true] at he
    split at he
    · simp at he
    · simp only [Except.ok.injEq] at he
      rw [← he]; exact ⟨h0, rfl⟩
  have key : ∀ (l : List (List (String × U) × G)), (∀ x ∈ l, (x.1.map fun p => textName p.1).Nodup) →
      ∀ e : Exp U G, e.counter = e.stored.length →
      ∃ e', runEager l e = .ok e' ∧ e'.stored.length = e.stored.length + l.length ∧
        (∀ (i : ℕ), i < e.stored.length → e'.stored[i]? = e.stored[i]?) ∧
        ∀ (i : ℕ) us g, l[i]? = some (us, g) →
          e'.stored[e.stored.length + i]? = some ⟨e.stored.length + i, g, us, us.map fun p => (textName p.1, p.2)⟩ := by
    intro l
    induction l with
    | nil => intro _ e _; exact ⟨e, rfl, by simp, fun _ _ => rfl, by simp⟩
    | cons x l ih =>
      obtain ⟨us, g⟩ := x
      intro hn e hc
      have hw : writeTexts [] us = us.map fun p => (textName p.1, p.2) := by
        have := writeTexts_nodup [] us (hn (us, g) (by simp)) (by simp)
        simpa using this
      let e2 : Exp U G := ⟨e.enabled, e.dirExists, e.counter + 1, us.map fun p => (p.1, .value p.2),
        e.stored ++ [⟨e.counter, g, us, us.map fun p => (textName p.1, p.2)⟩]⟩
      have hev : evalEager e us g = .ok e2 := by
        simp [evalEager, storeU, values_value, hw, e2]
      obtain ⟨e', h1, h2, h3, h4⟩ := ih (fun x hx => hn x (List.mem_cons_of_mem _ hx)) e2 (by simp [e2, hc])
      refine ⟨e', by rw [runEager, hev]; exact h1, ?_, ?_, ?_⟩
      · rw [h2]; simp [e2]; omega
      · intro i hi
        rw [h3 i (by simp [e2]; omega)]
        simp [e2, List.getElem?_append_left hi]
      · intro i us' g' hi
        cases i with
        | zero =>
          simp only [List.getElem?_cons_zero, Option.some.injEq, Prod.mk.injEq] at hi
          obtain ⟨rfl, rfl⟩ := hi
          rw [Nat.add_zero, h3 _ (by simp [e2])]
          simp [e2, hc]
        | succ i =>
          simp only [List.getElem?_cons_succ] at hi
          have := h4 i us' g' hi
          have hlen : e2.stored.length + i = e.stored.length + (i + 1) := by simp [e2]; omega
          rw [hlen] at this
          exact this
  obtain ⟨e, h2, h3, -, h4⟩ := key l hn e1 (by rw [h1.1, h1.2]; rfl)
  refine ⟨e, h2, by rw [h3, h1.1]; simp, ?_⟩
  intro i us g hi
  have := h4 i us g hi
  rw [h1.1] at this
  simpa using this

/-- C188 fails: `OptimalControl`, the only optimizer that can be asked to store propagators, cannot: the first
evaluation of any gate raises. -/
theorem C188_false_traced {U G : Type} (e : Exp U G) (us : List (String × U)) (hne : us ≠ []) (g : G) :
    evalTraced e us g = .error .symbolic := by
  cases us with
  | nil => exact absurd rfl hne
  | cons a us => simp [evalTraced, storeU, values]

/-- C188 fails: a second run into the same directory raises. -/
theorem C188_false_again {U G : Type} (e0 e1 : Exp U G) (he : setEnable e0 true = .ok e1) :
    setEnable e1 true = .error .fileExists := by
  unfold setEnable at he
  simp only [if_true] at he
  split at he
  · simp at he
  · simp only [Except.ok.injEq] at he
    simp [setEnable, ← he]

/-- C188 fails: the text files of two gates whose names differ by a colon and a dot overwrite each other. -/
theorem C188_false_names {U : Type} (u v : U) :
    writeTexts [] [("a:b", u), ("a.b", v)] = [("a.b", v)] := by
  have h1 : textName "a:b" = "a.b" := by decide
  have h2 : textName "a.b" = "a.b" := by decide
  simp [writeTexts, h1, h2]

/-- C188: storing can be switched on for a directory that does not exist yet, and off again at any time. Switching on starts
to count at zero and keeps what is stored; switching off only does that. -/
theorem C188_switch {U G : Type} (e : Exp U G) :
    (e.dirExists = false → ∃ e', setEnable e true = .ok e' ∧ e'.enabled = true ∧ e'.dirExists = true ∧ e'.counter = 0 ∧
      e'.props = e.props ∧ e'.stored = e.stored) ∧
    (e.dirExists = true → setEnable e true = .error .fileExists) ∧
    ∃ e', setEnable e false = .ok e' ∧ e'.enabled = false ∧ e'.dirExists = e.dirExists ∧ e'.counter = e.counter ∧
      e'.props = e.props ∧ e'.stored = e.stored := by
  refine ⟨fun h => ?_, fun h => ?_, ?_⟩
  · simp [setEnable, h]
  · simp [setEnable, h]
  · simp [setEnable]

example : (setEnable (⟨false, false, 5, [], []⟩ : Exp ℕ ℕ) true) = .ok ⟨true, true, 0, [], []⟩ := rfl

end C3.Optim.LogDirs
