import Mathlib.Data.Int.Notation
import Mathlib.Data.Nat.Notation
import Mathlib.Tactic.Common

/-!
# C224: constructing optimizers

Models the constructors of `ModelLearning` (c3/optimizers/modellearning.py:51-121) and `Sensitivity`
(c3/optimizers/sensitivity.py:51-98), the choice of the algorithm in `OptimalControl` (c3/optimizers/optimalcontrol.py:70-71)
and `Calibration` (c3/optimizers/calibration.py:48-49) with `set_algorithm` (c3/optimizers/optimizer.py:60-65), the default
values of `options` of all four, and what `Sensitivity.sensitivity` writes into the options
(c3/optimizers/sensitivity.py:104-114).

Default values are created once, when the class is defined. They are objects of a store here, because constructors hand
them on without copying. A function is its name. Reading a data file succeeds or not, its content is left out. The goal
functions of `OptimalControl` are in C177 and C178.
-/

namespace C3.Optim.Constructors

/-! ## Model -/

/-- An argument that is a function, the name of one, or `None`. -/
inductive FnArg where
  | none
  | name (s : String)
  | fn (s : String)
  deriving DecidableEq

inductive Err where
  | notImplemented
  | keyError (message : String)
  | attributeError
  | indexError
  | fileNotFound
  deriving DecidableEq

inductive Class where
  | optimalControl | calibration | modelLearning | sensitivity
  deriving DecidableEq

/-- An option dictionary: entries that matter here are lists of numbers. -/
abbrev Options := List (String × List (List ℤ))

/-- Assignment to a key of a dictionary. -/
def put (k : String) (v : List (List ℤ)) : Options → Options
  | [] => [(k, v)]
  | e :: es => if e.1 = k then (k, v) :: es else e :: put k v es

/-- What several optimizers can share: the optimization map of the parameter map and the option dictionaries. -/
structure Store where
  optMap : List (List String)
  dicts : ℕ → Options

def Store.write (st : Store) (i : ℕ) (k : String) (v : List (List ℤ)) : Store :=
  { st with dicts := fun j => if j = i then put k v (st.dicts j) else st.dicts j }

/-- The identity of the default value of `options`: calibration.py:44, optimalcontrol.py:59, modellearning.py:64 and
sensitivity.py:65 each create a dictionary. -/
def defaultOptions : Class → ℕ
  | .optimalControl => 0
  | .calibration => 1
  | .modelLearning => 2
  | .sensitivity => 3

/-- `options` as stored by the constructors. -/
def optionsOf (c : Class) (o : Option ℕ) : ℕ := o.getD (defaultOptions c)

/-- c3/optimizers/optimizer.py:60-65 `set_algorithm`: the default is used for `None` and for nothing else. -/
def setAlgorithm (a : Option String) : String := a.getD "lbfgs"

/-- c3/optimizers/optimalcontrol.py:70-71, c3/optimizers/calibration.py:48-49 with `set_algorithm`. -/
def algorithmOf (lib : List String) : FnArg → Except Err String
  | .none => .ok (setAlgorithm none)
  | .fn f => .ok (setAlgorithm (some f))
  | .name n => if n ∈ lib then .ok (setAlgorithm (some n)) else .error (.keyError n)

/-- The arguments of `ModelLearning`, and of `Sensitivity` with `estimatorList` and `sweepMap`. -/
structure Args where
  sampling : FnArg
  datafiles : List (String × Bool)
  estimator : Bool
  stateLabels : Option (List (String × List (List ℕ)))
  callbacks : List FnArg
  algorithm : FnArg
  options : Option ℕ
  estimatorList : Bool
  sweepMap : List (List String)

/-- The attributes set by the constructors. -/
structure Learner where
  algorithm : String
  sampling : Option String
  stateLabels : List (String × List (List ℕ))
  callbacks : List (Option String)
  data : List String
  options : ℕ
  scaling : Bool
  logname : String
  deriving DecidableEq

/-- c3/optimizers/modellearning.py:76-85: the lookup with its own message. -/
def lookup (lib : List String) (message : String) : FnArg → Except Err (Option String)
  | .none => .ok none
  | .fn f => .ok (some f)
  | .name n => if n ∈ lib then .ok (some n) else .error (.keyError message)

/-- Assignment to a key of the dictionary of labels. -/
def putLabels (k : String) (v : List (List ℕ)) : List (String × List (List ℕ)) → List (String × List (List ℕ))
  | [] => [(k, v)]
  | e :: es => if e.1 = k then (k, v) :: es else e :: putLabels k v es

/-- c3/optimizers/modellearning.py:93-104: unknown names are skipped with a warning. -/
def callbacksOf (est : List String) : List FnArg → List (Option String)
  | [] => []
  | .name n :: l => if n ∈ est then some n :: callbacksOf est l else callbacksOf est l
  | .fn f :: l => some f :: callbacksOf est l
  | .none :: l => none :: callbacksOf est l

/-- c3/optimizers/modellearning.py:141-153 `read_data`. -/
def readData (files : List (String × Bool)) : Except Err (List String) :=
  if files = [] then .error .indexError
  else if files.all Prod.snd then .ok (files.map Prod.fst)
  else .error .fileNotFound

/-- c3/optimizers/modellearning.py:51-121 `ModelLearning.__init__`; `c` says whose default options are used. -/
def modelLearning (algs samps est : List String) (c : Class) (a : Args) : Except Err Learner := do
  if a.estimator then throw .notImplemented
  let alg ← lookup algs "C3:ERROR:Unknown algorithm." a.algorithm
  let samp ← lookup samps "C3:ERROR:Unknown sampling method." a.sampling
  match a.stateLabels with
  | none => throw .attributeError
  | some labels =>
    let data ← readData a.datafiles
    pure ⟨setAlgorithm alg, samp, labels.foldl (fun d l => putLabels l.1 l.2 d) [("all", [])], callbacksOf est a.callbacks,
      data, optionsOf c a.options, true, "model_learn.log"⟩

/-- c3/optimizers/sensitivity.py:51-98 `Sensitivity.__init__`. -/
def sensitivity (algs samps est : List String) (a : Args) (st : Store) : Except Err Learner × Store :=
  match modelLearning algs samps est .sensitivity { a with callbacks := [] } with
  | .error e => (.error e, st)
  | .ok l =>
    if a.estimatorList then (.error .notImplemented, st)
    else match a.sweepMap with
      | [] => (.error .indexError, st)
      | s :: _ => (.ok { l with scaling := false, logname := "sensitivity.log" }, { st with optMap := [s] })

/-- c3/optimizers/sensitivity.py:104-114: one turn of the loop up to the call of the algorithm, for sweep `ii`. The result
is the initial point. -/
def sweepTurn (l : Learner) (sweepMap : List (List String)) (bounds : List (List ℤ)) (ii : ℕ) (st : Store) :
    Except Err (List ℤ) × Store :=
  match sweepMap[ii]? with
  | none => (.error .indexError, st)
  | some m =>
    let st1 := { st with optMap := [m] }
    match bounds[ii]? with
    | none => (.error .indexError, st1)
    | some b =>
      let st2 := st1.write l.options "bounds" [b]
      match (st2.dicts l.options).lookup "init_point" with
      | none => (.error (.keyError "init_point"), st2)
      | some pts =>
        match pts[ii]? with
        | none => (.error .indexError, st2)
        | some x => (.ok x, st2)

/-! ## Lemmas -/

theorem lookup_put (k : String) (v : List (List ℤ)) (d : Options) (k' : String) :
    (put k v d).lookup k' = if k' = k then some v else d.lookup k' := by
  induction d with
  | nil =>
    by_cases h : k' = k
    · simp [put, h]
    · rw [if_neg h, put, List.lookup_cons, beq_eq_false_iff_ne.2 h]
  | cons e d ih =>
    obtain ⟨a, b⟩ := e
    by_cases h1 : a = k
    · subst h1
      by_cases h2 : k' = a
      · simp [put, h2]
      · rw [if_neg h2, put, if_pos rfl, List.lookup_cons, List.lookup_cons, beq_eq_false_iff_ne.2 h2]
    · rw [put, if_neg h1, List.lookup_cons, List.lookup_cons]
      by_cases h2 : k' = a
      · subst h2
        simp [h1]
      · rw [beq_eq_false_iff_ne.2 h2]
        exact ih

theorem putLabels_lookup (k : String) (v : List (List ℕ)) (d : List (String × List (List ℕ))) (k' : String) :
    (putLabels k v d).lookup k' = if k' = k then some v else d.lookup k' := by
  induction d with
  | nil =>
    by_cases h : k' = k
    · simp [putLabels, h]
    · rw [if_neg h, putLabels, List.lookup_cons, beq_eq_false_iff_ne.2 h]
  | cons e d ih =>
    obtain ⟨a, b⟩ := e
    by_cases h1 : a = k
    · subst h1
      by_cases h2 : k' = a
      · simp [putLabels, h2]
      · rw [if_neg h2, putLabels, if_pos rfl, List.lookup_cons, List.lookup_cons, beq_eq_false_iff_ne.2 h2]
    · rw [putLabels, if_neg h1, List.lookup_cons, List.lookup_cons]
      by_cases h2 : k' = a
      · subst h2
        simp [h1]
      · rw [beq_eq_false_iff_ne.2 h2]
        exact ih

theorem labels_fold (labels d : List (String × List (List ℕ))) (hn : (labels.map Prod.fst).Nodup) (k : String) :
    (labels.foldl (fun d l => putLabels l.1 l.2 d) d).lookup k = (labels.lookup k).or (d.lookup k) := by
  induction labels generalizing d with
  | nil => simp
  | cons e labels ih =>
    obtain ⟨a, b⟩ := e
    rw [List.map_cons, List.nodup_cons] at hn
    rw [List.foldl_cons, ih _ hn.2, putLabels_lookup, List.lookup_cons]
    by_cases h : k = a
    · subst h
      have : labels.lookup k = none := by
        rw [List.lookup_eq_none_iff]
        intro p hp
        rw [bne_iff_ne]
        rintro rfl
        exact hn.1 (List.mem_map.2 ⟨p, hp, rfl⟩)
      simp [this]
    · simp only [if_neg h, beq_eq_false_iff_ne.2 h]

/-! ## C224 -/

/-- The argument names or is a function. -/
def Known (lib : List String) : FnArg → Prop
  | .name n => n ∈ lib
  | _ => True

/-- **C224**: `ModelLearning` can be constructed if and only if no estimator is given, the names of algorithm and sampling
are in the libraries, state labels are given (although the default is `None`) and there are data files, all of which can be
read. -/
theorem C224_learning (algs samps est : List String) (c : Class) (a : Args) :
    (∃ l, modelLearning algs samps est c a = .ok l) ↔
      a.estimator = false ∧ Known algs a.algorithm ∧ Known samps a.sampling ∧ a.stateLabels ≠ none ∧
        a.datafiles ≠ [] ∧ ∀ f ∈ a.datafiles, f.2 = true := by
  have hl : ∀ (lib : List String) (m : String) (x : FnArg), (∃ r, lookup lib m x = .ok r) ↔ Known lib x := by
    intro lib m x
    cases x with
    | none => simp [lookup, Known]
    | fn f => simp [lookup, Known]
    | name n =>
      by_cases h : n ∈ lib <;> simp [lookup, Known, h]
  rw [← hl algs "C3:ERROR:Unknown algorithm.", ← hl samps "C3:ERROR:Unknown sampling method."]
  unfold modelLearning readData
  cases he : a.estimator
  · cases h1 : lookup algs "C3:ERROR:Unknown algorithm." a.algorithm
    · simp [bind, Except.bind]
    · cases h2 : lookup samps "C3:ERROR:Unknown sampling method." a.sampling
      · simp [bind, Except.bind]
      · cases h3 : a.stateLabels
        · simp [bind, Except.bind, throw, throwThe, MonadExceptOf.throw]
        · by_cases h4 : a.datafiles = []
          · simp [h4, bind, Except.bind]
          · by_cases h5 : a.datafiles.all Prod.snd = true
            · rw [List.all_eq_true] at h5
              simp only [bind, Except.bind, if_neg h4, if_pos (List.all_eq_true.2 h5)]
              simpa [h4, pure, Except.pure] using fun x => h5 (x, false)
            · have h6 := h5
              rw [List.all_eq_true] at h6
              simp only [bind, Except.bind, if_neg h4, if_neg h5]
              simp only [reduceCtorEq, exists_false, Bool.false_eq_true, if_false, false_iff]
              rintro ⟨-, -, -, -, -, h⟩
              exact h6 h
  · simp [bind, Except.bind, throw, throwThe, MonadExceptOf.throw]

/-- **C224**: what a constructed `ModelLearning` has: its labels are those given, with none for "all" unless given; names
of callback estimators that are not in the library are left out; without an algorithm it is `lbfgs`. -/
theorem C224_attributes (algs samps est : List String) (c : Class) (a : Args) (l : Learner)
    (h : modelLearning algs samps est c a = .ok l) :
    (∀ labels, a.stateLabels = some labels → (labels.map Prod.fst).Nodup → ∀ k,
      l.stateLabels.lookup k = if k = "all" then some ((labels.lookup k).getD []) else labels.lookup k) ∧
    (∀ n, some n ∈ l.callbacks ↔ FnArg.fn n ∈ a.callbacks ∨ FnArg.name n ∈ a.callbacks ∧ n ∈ est) ∧
    (a.algorithm = .none → l.algorithm = "lbfgs") ∧ (∀ n, a.algorithm = .name n ∨ a.algorithm = .fn n → l.algorithm = n) ∧
    l.data = a.datafiles.map Prod.fst ∧ l.options = optionsOf c a.options ∧ l.scaling = true := by
  have hcb : ∀ (cb : List FnArg) (n : String), some n ∈ callbacksOf est cb ↔ FnArg.fn n ∈ cb ∨ FnArg.name n ∈ cb ∧ n ∈ est := by
    intro cb n
    induction cb with
    | nil => simp [callbacksOf]
    | cons x cb ih =>
      cases x with
      | none => simp [callbacksOf, ih]
      | fn f =>
        simp only [callbacksOf, List.mem_cons, ih, Option.some.injEq, FnArg.fn.injEq, reduceCtorEq, false_or]
        tauto
      | name m =>
        by_cases hm : m ∈ est
        · simp only [callbacksOf, if_pos hm, List.mem_cons, ih, Option.some.injEq, FnArg.name.injEq, reduceCtorEq, false_or]
          constructor
          · rintro (rfl | h | h)
            · exact .inr ⟨.inl rfl, hm⟩
            · exact .inl h
            · exact .inr ⟨.inr h.1, h.2⟩
          · rintro (h | ⟨rfl | h, h'⟩)
            · exact .inr (.inl h)
            · exact .inl rfl
            · exact .inr (.inr ⟨h, h'⟩)
        · simp only [callbacksOf, if_neg hm, List.mem_cons, ih, FnArg.name.injEq, reduceCtorEq, false_or]
          constructor
          · rintro (h | h)
            · exact .inl h
            · exact .inr ⟨.inr h.1, h.2⟩
          · rintro (h | ⟨rfl | h, h'⟩)
            · exact .inl h
            · exact absurd h' hm
            · exact .inr ⟨h, h'⟩
  unfold modelLearning at h
  cases he : a.estimator
  · cases h1 : lookup algs "C3:ERROR:Unknown algorithm." a.algorithm with
    | error e => simp [he, h1, bind, Except.bind] at h
    | ok alg =>
      cases h2 : lookup samps "C3:ERROR:Unknown sampling method." a.sampling with
      | error e => simp [he, h1, h2, bind, Except.bind] at h
      | ok samp =>
        cases h3 : a.stateLabels with
        | none => simp [he, h1, h2, h3, bind, Except.bind, throw, throwThe, MonadExceptOf.throw] at h
        | some labels =>
          unfold readData at h
          by_cases h4 : a.datafiles = []
          · simp [he, h1, h2, h3, h4, bind, Except.bind] at h
          · by_cases h5 : a.datafiles.all Prod.snd = true
            · simp only [he, h1, h2, h3, bind, Except.bind, if_neg h4, if_pos h5, pure, Except.pure, Bool.false_eq_true,
                if_false, Except.ok.injEq] at h
              subst h
              refine ⟨?_, fun n => hcb _ n, ?_, ?_, rfl, rfl, rfl⟩
              · intro labels' hl hn k
                obtain rfl := Option.some.inj hl
                simp only
                rw [labels_fold labels _ hn]
                by_cases hk : k = "all"
                · subst hk
                  cases labels.lookup "all" <;> simp
                · rw [if_neg hk, List.lookup_cons, beq_eq_false_iff_ne.2 hk]
                  cases labels.lookup k <;> simp
              · intro ha
                rw [ha] at h1
                cases h1
                rfl
              · rintro n (ha | ha)
                · rw [ha] at h1
                  simp only [lookup] at h1
                  split at h1
                  · cases h1
                    rfl
                  · cases h1
                · rw [ha] at h1
                  cases h1
                  rfl
            · simp [he, h1, h2, h3, h4, h5, bind, Except.bind] at h
  · simp [he, bind, Except.bind, throw, throwThe, MonadExceptOf.throw] at h

/-- **C224**: `OptimalControl` and `Calibration` take the algorithm of the name, the function, or `lbfgs` for none, and
refuse other names. -/
theorem C224_algorithm (lib : List String) (n : String) :
    algorithmOf lib .none = .ok "lbfgs" ∧ algorithmOf lib (.fn n) = .ok n ∧
      (n ∈ lib → algorithmOf lib (.name n) = .ok n) ∧ (n ∉ lib → algorithmOf lib (.name n) = .error (.keyError n)) := by
  refine ⟨rfl, rfl, fun h => ?_, fun h => ?_⟩ <;> simp [algorithmOf, h, setAlgorithm]

/-- **C224**: `Sensitivity` can be constructed under the same conditions, if no list of estimators is given and there is
something to sweep. Option dictionaries are left alone. The optimization map of the parameter map, which may be shared with
other optimizers, is replaced by the first parameter to sweep; if the constructor raises, it is left alone. -/
theorem C224_sensitivity (algs samps est : List String) (a : Args) (st : Store) :
    ((∃ l, (sensitivity algs samps est a st).1 = .ok l) ↔
      (∃ l, modelLearning algs samps est .sensitivity a = .ok l) ∧ a.estimatorList = false ∧ a.sweepMap ≠ []) ∧
    (sensitivity algs samps est a st).2.dicts = st.dicts ∧
    (∀ l, (sensitivity algs samps est a st).1 = .ok l → l.scaling = false ∧ l.options = optionsOf .sensitivity a.options ∧
      ∃ s rest, a.sweepMap = s :: rest ∧ (sensitivity algs samps est a st).2.optMap = [s]) ∧
    (∀ e, (sensitivity algs samps est a st).1 = .error e → (sensitivity algs samps est a st).2 = st) := by
  have heq : (∃ l, modelLearning algs samps est .sensitivity a = .ok l) ↔
      ∃ l, modelLearning algs samps est .sensitivity { a with callbacks := [] } = .ok l := by
    rw [C224_learning, C224_learning]
  rw [heq]
  unfold sensitivity
  cases hm : modelLearning algs samps est .sensitivity { a with callbacks := [] } with
  | error e => simp
  | ok l =>
    have ho := (C224_attributes _ _ _ _ _ _ hm).2.2.2.2.2.1
    by_cases he : a.estimatorList = true
    · simp [he]
    · cases hs : a.sweepMap with
      | nil => simp [he]
      | cons s rest =>
        simp only [he]
        refine ⟨by simp, rfl, ?_, by simp⟩
        intro l' hl'
        simp only [Bool.false_eq_true, if_false, Except.ok.injEq] at hl'
        subst hl'
        exact ⟨rfl, ho, s, rest, rfl, rfl⟩

/-- **C224**: a sweep sets the bounds in the options it was given and the optimization map, and changes nothing else: no
other entry and no other dictionary. Missing: dictionaries that are shared, see `C224_false_shared`. -/
theorem C224_sweep_partial (l : Learner) (sweepMap : List (List String)) (bounds : List (List ℤ)) (ii : ℕ) (st : Store)
    (x : List ℤ) (st' : Store) (h : sweepTurn l sweepMap bounds ii st = (.ok x, st')) :
    (∃ m b, sweepMap[ii]? = some m ∧ bounds[ii]? = some b ∧ st'.optMap = [m] ∧
      (st'.dicts l.options).lookup "bounds" = some [b]) ∧
    (∃ pts, (st.dicts l.options).lookup "init_point" = some pts ∧ pts[ii]? = some x) ∧
    (∀ k, k ≠ "bounds" → (st'.dicts l.options).lookup k = (st.dicts l.options).lookup k) ∧
    ∀ j, j ≠ l.options → st'.dicts j = st.dicts j := by
  unfold sweepTurn at h
  split at h
  · simp at h
  · rename_i m hm
    split at h
    · simp at h
    · rename_i b hb
      simp only [Store.write, if_true, lookup_put, show ¬ ("init_point" = "bounds") by decide, if_false] at h
      split at h
      · simp at h
      · rename_i pts hp
        split at h
        · simp at h
        · rename_i y hy
          simp only [Prod.mk.injEq, Except.ok.injEq] at h
          obtain ⟨rfl, rfl⟩ := h
          refine ⟨⟨m, b, hm, hb, rfl, ?_⟩, ⟨pts, hp, hy⟩, fun k hk => ?_, fun j hj => ?_⟩
          · simp [lookup_put]
          · simp [lookup_put, hk]
          · simp [hj]

/-- **C224**: optimizers of a class that are constructed without options share one dictionary. A sweep of one of them sets
the bounds of the other, even though it raises because the shared dictionary has no initial point. -/
theorem C224_false_shared (l l' : Learner) (a a' : Args) (algs samps est : List String) (st st1 st2 : Store)
    (h : sensitivity algs samps est a st = (.ok l, st1)) (h' : sensitivity algs samps est a' st1 = (.ok l', st2))
    (ha : a.options = none) (ha' : a'.options = none) (hst : st.dicts (defaultOptions .sensitivity) = [])
    (m : List String) (ms : List (List String)) (b : List ℤ) (bs : List (List ℤ)) :
    ∃ st3, sweepTurn l (m :: ms) (b :: bs) 0 st2 = (.error (.keyError "init_point"), st3) ∧
      (st2.dicts l'.options).lookup "bounds" = none ∧ (st3.dicts l'.options).lookup "bounds" = some [b] := by
  obtain ⟨-, hd, ho, -⟩ := C224_sensitivity algs samps est a st
  obtain ⟨-, hd', ho', -⟩ := C224_sensitivity algs samps est a' st1
  rw [h] at hd ho
  rw [h'] at hd' ho'
  have e1 : l.options = defaultOptions .sensitivity := by
    rw [(ho l rfl).2.1, ha]
    rfl
  have e2 : l'.options = defaultOptions .sensitivity := by
    rw [(ho' l' rfl).2.1, ha']
    rfl
  simp only at hd hd'
  have e3 : st2.dicts (defaultOptions .sensitivity) = [] := by rw [hd', hd, hst]
  refine ⟨{ st2 with optMap := [m] }.write (defaultOptions .sensitivity) "bounds" [b], ?_, ?_, ?_⟩
  · simp [sweepTurn, e1, Store.write, e3, put, List.lookup]
  · rw [e2, e3]
    rfl
  · rw [e2]
    simp [Store.write, lookup_put]

/-- Arguments with which both constructors succeed. -/
def exArgs (o : Option ℕ) : Args :=
  ⟨.name "all", [("orbit", true)], false, some [("orbit", [[1]])], [.name "rms_dist", .name "nothing"], .name "sweep", o, false,
    [["Q1", "freq"], ["Q1", "anhar"]]⟩

example : modelLearning ["sweep"] ["all"] ["rms_dist"] .modelLearning (exArgs none) =
    .ok ⟨"sweep", some "all", [("all", []), ("orbit", [[1]])], [some "rms_dist"], ["orbit"], 2, true, "model_learn.log"⟩ := by
  decide

example : ∃ l st, sensitivity ["sweep"] ["all"] [] (exArgs (some 7)) ⟨[["d1"]], fun _ => [("init_point", [[4], [5]])]⟩ = (.ok l, st) ∧
    ∃ st', sweepTurn l (exArgs none).sweepMap [[1, 5], [2, 6]] 1 st = (.ok [5], st') ∧ st'.optMap = [["Q1", "anhar"]] ∧
      (st'.dicts 7).lookup "bounds" = some [[2, 6]] := by
  refine ⟨_, _, rfl, _, rfl, rfl, ?_⟩
  decide

end C3.Optim.Constructors
