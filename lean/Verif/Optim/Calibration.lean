import Verif.Optim.Logged
import Verif.Optim.Log

/-!
# Closed-loop calibration and the data set it leaves behind (C189, C190)

Models c3/optimizers/calibration.py:93-186 (`optimize_controls`, `goal_run`, `log_pickle`) with the two wrappers
of the goal function (c3/optimizers/optimizer.py:243-313), the best-point file (optimizer.py:173-186) and
c3/optimizers/modellearning.py:141-153 (`read_data`), which reads the data set of a calibration.

The evaluation function is arbitrary: it gets the list of quantities and returns a goal with the measured data, is
left by an exception, or is interrupted from the keyboard. The algorithm is any sequence of points, each asked for
with or without a gradient. Every run has its own directory (C187). Left out: the copy of the source of the
evaluation function, and an evaluation function that writes to the quantities it gets.
-/

noncomputable section

namespace C3.Optim.Calib

open C3 C3.Quantity C3.PMap C3.Optim

/-! ## Model -/

/-- What a call of `eval_func` does (calibration.py:145). `R` are the results, their standard deviations, the
sequences and the shots. The gradient is `none` if the goal is not computed by TensorFlow operations from the
parameters (optimizer.py:210-215). A goal `none` is NaN. -/
inductive Answer (R : Type) where
  | ok (goal : Option EReal) (grad : Option (List ℝ)) (data : R)
  | raised
  | interrupt

/-- One entry of the data set (calibration.py:178-184): the quantities are pickled, so they keep the values they
have at this time. -/
structure Entry (R : Type) where
  params : List Quantity
  data : R

/-- The file `dataset.pickle`: a sequence of pickled entries during the run, one dictionary afterwards
(calibration.py:112-124, 185-186). -/
inductive File (R : Type) where
  | missing
  | stream (es : List (Entry R))
  | dataset (es : List (Entry R)) (optMap : List (List String))

/-- calibration.py:185-186: open with "ab" and dump. Behind a complete dictionary no reader sees the entry. -/
def File.append {R : Type} : File R → Entry R → File R
  | .missing, e => .stream [e]
  | .stream es, e => .stream (es ++ [e])
  | .dataset es m, _ => .dataset es m

/-- A calibration object and the files of its current directory. -/
structure Cal (R : Type) where
  pmap : PMap
  evaluation : ℕ
  bestGoal : EReal
  bestFile : Option (List (List ℝ))
  file : File R
  log : List (List (List ℝ) × Option EReal)

inductive Stop where
  | interrupt
  | raised
  | pmap (e : PErr)
  /-- `None` has no attribute `flatten` (optimizer.py:295) -/
  | attribute
  /-- no best-point file (calibration.py:108) -/
  | noFile
  deriving Inhabited

variable {R : Type}

/-- calibration.py:126-155 `goal_run`. -/
def goalRun (ev : List Quantity → Answer R) (c : Cal R) (x : List ℝ) :
    Cal R × Except Stop (Option EReal × Option (List ℝ) × List (List ℝ)) :=
  match c.pmap.setParametersScaled x with
  | (m, some e) => ({ c with pmap := m }, .error (.pmap e))
  | (m, none) =>
    match m.getParameters m.optMap with
    | .error e => ({ c with pmap := m }, .error (.pmap e))
    | .ok qs =>
      match ev qs with
      | .raised => ({ c with pmap := m }, .error .raised)
      | .interrupt => ({ c with pmap := m }, .error .interrupt)
      | .ok g gr d =>
        (⟨m, c.evaluation + 1, c.bestGoal, c.bestFile, c.file.append ⟨qs, d⟩, c.log⟩, .ok (g, gr, qs.map Quantity.numpy))

open scoped Classical in
/-- c3/optimizers/optimizer.py:173-200 `log_parameters`. -/
def logPars (c : Cal R) (ps : List (List ℝ)) (g : Option EReal) : Cal R :=
  match g with
  | none => { c with log := c.log ++ [(ps, g)] }
  | some v =>
    if v < c.bestGoal then ⟨c.pmap, c.evaluation, v, some ps, c.file, c.log ++ [(ps, g)]⟩
    else { c with log := c.log ++ [(ps, g)] }

/-- c3/optimizers/optimizer.py:243-275 `fct_to_min` and 277-313 `fct_to_min_autograd` (the flag is set). -/
def query (ev : List Quantity → Answer R) (c : Cal R) (q : Bool × List ℝ) : Cal R × Option Stop :=
  if q.1 then
    match goalRun ev c q.2 with
    | (c1, .error e) => (c1, some e)
    | (c1, .ok (_, none, _)) => (c1, some .attribute)
    | (c1, .ok (g, some _, _)) =>
      match c1.pmap.setParametersScaled q.2 with
      | (m, some e) => ({ c1 with pmap := m }, some (.pmap e))
      | (m, none) =>
        match m.getParameters m.optMap with
        | .error e => ({ c1 with pmap := m }, some (.pmap e))
        | .ok qs => (logPars { c1 with pmap := m } (qs.map Quantity.numpy) g, none)
  else
    match c.pmap.getParameters c.pmap.optMap with
    | .error e => (c, some (.pmap e))
    | .ok _ =>
      match goalRun ev c q.2 with
      | (c1, .error e) => (c1, some e)
      | (c1, .ok (g, _, ps)) => (logPars c1 ps g, none)

/-- The algorithm, until it is done or left by an exception. -/
def search (ev : List Quantity → Answer R) : Cal R → List (Bool × List ℝ) → Cal R × Option Stop
  | c, [] => (c, none)
  | c, q :: qs =>
    match query ev c q with
    | (c1, none) => search ev c1 qs
    | (c1, some e) => (c1, some e)

/-- calibration.py:92-124 `optimize_controls`. A new directory has no files; `current_best_goal` is not reset. An
interrupt ends the algorithm, other exceptions pass. -/
def calibrate (ev : List Quantity → Answer R) (c : Cal R) (qs : List (Bool × List ℝ)) : Cal R × Option Stop :=
  match search ev { c with bestFile := none, file := .missing } qs with
  | (c1, some .raised) => (c1, some .raised)
  | (c1, some (.pmap e)) => (c1, some (.pmap e))
  | (c1, some .attribute) => (c1, some .attribute)
  | (c1, some .noFile) => (c1, some .noFile)
  | (c1, _) =>
    match c1.bestFile with
    | none => (c1, some .noFile)
    | some best =>
      match c1.pmap.setParameters best c1.pmap.optMap with
      | (m, some e) => ({ c1 with pmap := m }, some (.pmap e))
      | (m, none) =>
        match c1.file with
        | .stream es => ({ c1 with pmap := m, file := .dataset es m.optMap }, none)
        | _ => ({ c1 with pmap := m }, some .noFile)

/-- C190: every evaluation of the goal is logged behind those before it, with its parameters and its goal. -/
theorem C190_log (c : Cal R) (ps : List (List ℝ)) (g : Option EReal) :
    (logPars c ps g).log = c.log ++ [(ps, g)] := by
  unfold logPars
  cases g with
  | none => rfl
  | some v => simp only; split <;> rfl

/-- A new calibration object (c3/optimizers/optimizer.py:32-58). -/
def fresh (s : PMap) : Cal R := ⟨s, 0, initGoal, none, .missing, []⟩

/-- What `pickle.load` finds at the beginning of the file. -/
inductive Loaded (R : Type) where
  | noFile
  | entry (e : Entry R)
  | dataset (es : List (Entry R)) (optMap : List (List String))

/-- c3/optimizers/modellearning.py:141-153 `read_data` for one file: one object is loaded. -/
def readData : File R → Loaded R
  | .missing => .noFile
  | .stream [] => .noFile
  | .stream (e :: _) => .entry e
  | .dataset es m => .dataset es m

/-- modellearning.py:301-302: the data of a target, `none` for a `KeyError`. -/
def learnFrom : Loaded R → Option (List (Entry R) × List (List String))
  | .dataset es m => some (es, m)
  | _ => none

/-! ## Specification -/

/-- The entry is the record of an evaluation at the point `x`: the evaluation function saw the quantities of a map
on which `x` was set, and the entry has these quantities and the returned data. -/
def Records (ev : List Quantity → Answer R) (x : List ℝ) (e : Entry R) : Prop :=
  ∃ m m' : PMap, ∃ g gr, m.setParametersScaled x = (m', none) ∧ m'.getParameters m'.optMap = .ok e.params ∧
    ev e.params = .ok g gr e.data

/-! ## The data set -/

theorem optMap_setScaledLoop (s : PMap) (x : List ℝ) (m : List (List String)) :
    (s.setScaledLoop x m).1.optMap = s.optMap := by
  have hg : ∀ (g : List String) (s : PMap) (sl : List ℝ), (s.setScaledGroup sl g).1.optMap = s.optMap := by
    intro g
    induction g with
    | nil => intro s sl; rfl
    | cons k ks ih =>
      intro s sl
      unfold setScaledGroup
      cases s.ref k with
      | none => rfl
      | some r =>
        simp only
        cases (s.heap r).setOptValue sl with
        | error e => rfl
        | ok q => exact ih _ _
  induction m generalizing s x with
  | nil => cases x <;> rfl
  | cons g gs ih =>
    cases g with
    | nil => cases x <;> rfl
    | cons k ks =>
      unfold setScaledLoop
      cases hr : s.ref k with
      | none => rfl
      | some r =>
        simp only
        have h1 := hg (k :: ks) s (x.take (s.heap r).length)
        rcases h : s.setScaledGroup (x.take (s.heap r).length) (k :: ks) with ⟨s', _ | e⟩
        · rw [h] at h1
          simp only
          rw [ih]
          exact h1
        · rw [h] at h1
          exact h1

theorem optMap_setScaled (s : PMap) (x : List ℝ) : (s.setParametersScaled x).1.optMap = s.optMap := by
  unfold setParametersScaled
  have h := optMap_setScaledLoop s x s.optMap
  rcases hl : s.setScaledLoop x s.optMap with ⟨s', _ | e⟩ <;> rw [hl] at h
  · simp only
    split_ifs <;> exact h
  · exact h

/-- What one evaluation adds to the file. -/
theorem query_file (ev : List Quantity → Answer R) (c : Cal R) (q : Bool × List ℝ) (es : List (Entry R))
    (hf : c.file = .stream es ∨ c.file = .missing ∧ es = []) :
    ∃ new, (query ev c q).1.file = (if es ++ new = [] then c.file else .stream (es ++ new)) ∧
      (query ev c q).1.evaluation = c.evaluation + new.length ∧ (query ev c q).1.pmap.optMap = c.pmap.optMap ∧
      (new = [] ∨ ∃ e, new = [e] ∧ Records ev q.2 e) ∧ ((query ev c q).2 = none → new ≠ []) := by
  have hgoal : ∃ new, (goalRun ev c q.2).1.file = (if es ++ new = [] then c.file else .stream (es ++ new)) ∧
      (goalRun ev c q.2).1.evaluation = c.evaluation + new.length ∧
      (goalRun ev c q.2).1.pmap.optMap = c.pmap.optMap ∧
      (new = [] ∨ ∃ e, new = [e] ∧ Records ev q.2 e) ∧
      ((∃ a, (goalRun ev c q.2).2 = .ok a) → new ≠ []) := by
    have hsame : c.file = if es ++ [] = [] then c.file else .stream (es ++ []) := by
      rcases hf with h | ⟨h, rfl⟩
      · cases es with
        | nil => simp
        | cons a b => simp [h]
      · simp
    have ho := optMap_setScaled c.pmap q.2
    unfold goalRun
    rcases h1 : c.pmap.setParametersScaled q.2 with ⟨m, _ | e⟩ <;> rw [h1] at ho
    · simp only
      rcases h2 : m.getParameters m.optMap with e | qs
      · exact ⟨[], hsame, rfl, ho, Or.inl rfl, by simp⟩
      · simp only
        rcases h3 : ev qs with ⟨g, gr, d⟩ | _ | _
        · refine ⟨[⟨qs, d⟩], ?_, rfl, ho, Or.inr ⟨_, rfl, c.pmap, m, g, gr, h1, h2, h3⟩, by simp⟩
          rcases hf with h | ⟨h, rfl⟩ <;> simp [h, File.append]
        · exact ⟨[], hsame, rfl, ho, Or.inl rfl, by simp⟩
        · exact ⟨[], hsame, rfl, ho, Or.inl rfl, by simp⟩
    · exact ⟨[], hsame, rfl, ho, Or.inl rfl, by simp⟩
  have hlog : ∀ (c : Cal R) ps g, (logPars c ps g).file = c.file ∧ (logPars c ps g).evaluation = c.evaluation ∧
      (logPars c ps g).pmap = c.pmap := by
    intro c ps g
    unfold logPars
    cases g with
    | none => exact ⟨rfl, rfl, rfl⟩
    | some v => simp only; split_ifs <;> exact ⟨rfl, rfl, rfl⟩
  obtain ⟨new, a1, a2, a3, a4, a5⟩ := hgoal
  unfold query
  split_ifs with hq
  · rcases h : goalRun ev c q.2 with ⟨c1, e | ⟨g, _ | gr, ps⟩⟩ <;> rw [h] at a1 a2 a3 a5
    · exact ⟨new, a1, a2, a3, a4, by simp⟩
    · exact ⟨new, a1, a2, a3, a4, by simp⟩
    · simp only
      have ho := optMap_setScaled c1.pmap q.2
      rcases h1 : c1.pmap.setParametersScaled q.2 with ⟨m, _ | e⟩ <;> rw [h1] at ho
      · simp only
        rcases h2 : m.getParameters m.optMap with e | qs
        · exact ⟨new, a1, a2, ho.trans a3, a4, by simp⟩
        · simp only
          obtain ⟨l1, l2, l3⟩ := hlog { c1 with pmap := m } (qs.map Quantity.numpy) g
          exact ⟨new, l1.trans a1, l2.trans a2, by rw [l3]; exact ho.trans a3, a4, fun _ => a5 ⟨_, rfl⟩⟩
      · exact ⟨new, a1, a2, ho.trans a3, a4, by simp⟩
  · rcases h0 : c.pmap.getParameters c.pmap.optMap with e | qs
    · refine ⟨[], ?_, rfl, rfl, Or.inl rfl, by simp⟩
      rcases hf with h | ⟨h, rfl⟩
      · cases es with
        | nil => simp
        | cons a b => simp [h]
      · simp
    · simp only
      rcases h : goalRun ev c q.2 with ⟨c1, e | ⟨g, gr, ps⟩⟩ <;> rw [h] at a1 a2 a3 a5
      · exact ⟨new, a1, a2, a3, a4, by simp⟩
      · simp only
        obtain ⟨l1, l2, l3⟩ := hlog c1 ps g
        exact ⟨new, l1.trans a1, l2.trans a2, by rw [l3]; exact a3, a4, fun _ => a5 ⟨_, rfl⟩⟩

theorem search_file (ev : List Quantity → Answer R) (c : Cal R) (qs : List (Bool × List ℝ)) (es : List (Entry R))
    (hf : c.file = .stream es ∨ c.file = .missing ∧ es = []) :
    ∃ new pre, (search ev c qs).1.file = (if es ++ new = [] then c.file else .stream (es ++ new)) ∧
      (search ev c qs).1.evaluation = c.evaluation + new.length ∧ (search ev c qs).1.pmap.optMap = c.pmap.optMap ∧
      pre <+: qs ∧ List.Forall₂ (fun q e => Records ev q.2 e) pre new ∧ ((search ev c qs).2 = none → pre = qs) := by
  induction qs generalizing c es with
  | nil =>
    refine ⟨[], [], ?_, rfl, rfl, List.prefix_rfl, .nil, fun _ => rfl⟩
    simp only [search, List.append_nil]
    rcases hf with h | ⟨h, rfl⟩
    · cases es with
      | nil => simp
      | cons a b => simp [h]
    · simp
  | cons q qs ih =>
    obtain ⟨n1, a1, a2, a3, a4, a5⟩ := query_file ev c q es hf
    unfold search
    rcases h : query ev c q with ⟨c1, _ | e⟩ <;> rw [h] at a1 a2 a3 a5 <;> simp only at a1 a2 a3 a5 ⊢
    · rcases a4 with rfl | ⟨e, rfl, he⟩
      · exact absurd rfl (a5 (by trivial))
      obtain ⟨n2, pre, b1, b2, b3, b4, b5, b6⟩ := ih c1 (es ++ [e]) (Or.inl (by rw [a1, if_neg (by simp)]))
      refine ⟨e :: n2, q :: pre, ?_, ?_, b3.trans a3, ?_, .cons he b5, fun h => by rw [b6 h]⟩
      · rw [b1]
        simp
      · rw [b2, a2]
        simp only [List.length_cons, List.length_nil]
        omega
      · exact List.cons_prefix_cons.2 ⟨rfl, b4⟩
    · rcases a4 with rfl | ⟨e', rfl, he⟩
      · exact ⟨[], [], a1, a2, a3, List.nil_prefix, .nil, by simp⟩
      · exact ⟨[e'], [q], a1, a2, a3, List.cons_prefix_cons.2 ⟨rfl, List.nil_prefix⟩, .cons he .nil, by simp⟩

/-- C189, every calibration that ends without an exception leaves a data set with one entry for each evaluation, in
the order of the evaluations, each with the quantities the evaluation function saw and the data it returned, and
with the map of the optimised parameters. The evaluated points are the first points of the algorithm, all of them
if it was not interrupted. -/
theorem C189_dataset (ev : List Quantity → Answer R) (c : Cal R) (qs : List (Bool × List ℝ)) (c' : Cal R)
    (h : calibrate ev c qs = (c', none)) :
    ∃ es pre, c'.file = .dataset es c.pmap.optMap ∧ c'.evaluation = c.evaluation + es.length ∧ pre <+: qs ∧
      List.Forall₂ (fun q e => Records ev q.2 e) pre es ∧
      ((search ev { c with bestFile := none, file := .missing } qs).2 = none → pre = qs) ∧
      learnFrom (readData c'.file) = some (es, c.pmap.optMap) := by
  obtain ⟨new, pre, a1, a2, a3, a4, a5, a6⟩ :=
    search_file ev { c with bestFile := none, file := .missing } qs [] (Or.inr ⟨rfl, rfl⟩)
  have key : ∀ c1 : Cal R, (match c1.bestFile with
    | none => (c1, some Stop.noFile)
    | some best =>
      match c1.pmap.setParameters best c1.pmap.optMap with
      | (m, some e) => ({ c1 with pmap := m }, some (.pmap e))
      | (m, none) =>
        match c1.file with
        | .stream es => ({ c1 with pmap := m, file := .dataset es m.optMap }, none)
        | _ => ({ c1 with pmap := m }, some .noFile)) = (c', none) →
      ∃ es m best, c1.file = .stream es ∧ c1.pmap.setParameters best c1.pmap.optMap = (m, none) ∧
        c' = { c1 with pmap := m, file := .dataset es m.optMap } := by
    intro c1 h
    cases hb : c1.bestFile with
    | none => rw [hb] at h; simp at h
    | some best =>
      rw [hb] at h
      simp only at h
      rcases hm : c1.pmap.setParameters best c1.pmap.optMap with ⟨m, _ | e⟩ <;> rw [hm] at h <;> simp only at h
      · rcases hf : c1.file with _ | es | _ <;> rw [hf] at h <;> simp only at h
        · simp at h
        · exact ⟨es, m, best, rfl, hm, by simpa using h.symm⟩
        · simp at h
      · simp at h
  have hopt : ∀ (s : PMap) (v : List (List ℝ)) (m : List (List String)) s', s.setParameters v m = (s', none) →
      s'.optMap = s.optMap := by
    intro s v m s' hs
    have hgs : ∀ (m : List (List String)) (v : List (List ℝ)) (s : PMap), (s.setGroups false m v).1.optMap = s.optMap := by
      have hg : ∀ (g : List String) (v : List ℝ) (s : PMap), (s.setGroup v false g).1.optMap = s.optMap := by
        intro g v
        induction g with
        | nil => intro s; rfl
        | cons k ks ih =>
          intro s
          have h1 : (s.setOne k v false).1.optMap = s.optMap := by
            unfold setOne
            cases s.ref k with
            | none => rfl
            | some r => simp only; split <;> rfl
          unfold setGroup
          rcases h2 : s.setOne k v false with ⟨s', _ | e⟩ <;> rw [h2] at h1
          · simp only; rw [ih]; exact h1
          · exact h1
      intro m
      induction m with
      | nil => intro v s; cases v <;> rfl
      | cons g gs ih =>
        intro v s
        cases v with
        | nil => rfl
        | cons v vs =>
          unfold setGroups
          have h1 := hg g v s
          rcases h2 : s.setGroup v false g with ⟨s', _ | e⟩ <;> rw [h2] at h1
          · simp only; rw [ih]; exact h1
          · exact h1
    unfold setParameters at hs
    split at hs
    · simp at hs
    · have h1 := hgs m v s
      rcases h2 : s.setGroups false m v with ⟨t, _ | e⟩ <;> rw [h2] at h1 hs <;> simp only at hs
      · split_ifs at hs <;> (simp only [Prod.mk.injEq, and_true] at hs; rw [← hs]; exact h1)
      · simp at hs
  unfold calibrate at h
  have hmain : ∃ es m best, (search ev { c with bestFile := none, file := .missing } qs).1.file = .stream es ∧
      (search ev { c with bestFile := none, file := .missing } qs).1.pmap.setParameters best
        (search ev { c with bestFile := none, file := .missing } qs).1.pmap.optMap = (m, none) ∧
      c' = { (search ev { c with bestFile := none, file := .missing } qs).1 with
        pmap := m, file := .dataset es m.optMap } := by
    rcases hs : search ev { c with bestFile := none, file := .missing } qs with ⟨c1, _ | e⟩ <;> rw [hs] at h
    · exact key c1 h
    · cases e <;> first | exact key c1 h | simp at h
  obtain ⟨es, m, best, hf, hset, rfl⟩ := hmain
  have hmo : m.optMap = c.pmap.optMap := (hopt _ _ _ _ hset).trans a3
  rw [hf] at a1
  simp only [List.nil_append] at a1
  have hes : es = new := by
    split_ifs at a1
    simpa using a1
  subst hes
  exact ⟨es, pre, by rw [hmo], a2, a4, a5, a6, by simp [readData, learnFrom, hmo]⟩

/-- C189, model learning uses the entry as it was evaluated: when the quantities of an entry are set on any map with
the map of the data set (modellearning.py:230), every parameter of a group gets the value the evaluation function
saw. -/
theorem C189_learning (m m' t t' : PMap) (x : List ℝ) (e : List Quantity) (hgt : Good t)
    (hd : DisjointGroups t m'.optMap) (_hset : m.setParametersScaled x = (m', none))
    (hget : m'.getParameters m'.optMap = .ok e) (h : t.setParameters (e.map Quantity.numpy) m'.optMap = (t', none)) :
    ∀ g ∈ m'.optMap, ∀ k ∈ g, t'.read k = m'.read (g.headD "") :=
  C17_store_load m' t t' hgt false hd (m'.optMap, e.map Quantity.numpy) (by simp [storeValues, hget])
    h

/-! ## The best point -/

/-- `set_parameters` succeeds when every value is within the limits of the members of its group. -/
theorem setParameters_in_limits (t : PMap) (hg : Good t) (m : List (List String)) (values : List (List ℝ))
    (hl : values.length = m.length)
    (hdef : ∀ p ∈ m.zip values, ∀ k ∈ p.1, ∃ r, t.ref k = some r ∧ (t.heap r).length = p.2.length ∧
      ∀ x ∈ p.2, (t.heap r).getLimits.1 ≤ x ∧ x ≤ (t.heap r).getLimits.2) :
    ∃ t', t.setParameters values m = (t', none) := by
  have hlim : ∀ (q q' : Quantity) v, (Op.set v).call q = .ok q' → q'.getLimits = q.getLimits := by
    intro q q' v h
    by_cases hl : v.length ≠ q.length
    · simp [Op.call, setValue, hl] at h
    · have h' : q.setValueRaw v = .ok q' := by
        simpa [Op.call, setValue, hl] using h
      have := (setValueRaw_ok h').2.2
      rw [this]
      rfl
  have key : ∀ (ws : List (String × Op)) (t : PMap), Good t →
      (∀ w ∈ ws, ∃ v r, w.2 = .set v ∧ t.ref w.1 = some r ∧ (t.heap r).length = v.length ∧
        ∀ x ∈ v, (t.heap r).getLimits.1 ≤ x ∧ x ≤ (t.heap r).getLimits.2) →
      ∃ t', t.runWrites ws = (t', none) := by
    intro ws
    induction ws with
    | nil => intro t _ _; exact ⟨t, rfl⟩
    | cons w ws ih =>
      intro t hgt hw
      obtain ⟨k, o⟩ := w
      obtain ⟨v, r, ho, hr, hlen, hin⟩ := hw (k, o) List.mem_cons_self
      simp only at ho hr
      subst ho
      obtain ⟨q', hq', _⟩ := C04_accepted (t.heap r) (hgt k r hr) v hlen.symm hin
      have hc : (Op.set v).call (t.heap r) = .ok q' := hq'
      have hwr : t.write k (.set v) = ({ t with heap := Function.update t.heap r q' }, none) := by
        simp [write, hr, hc, step_of_ok hc]
      obtain ⟨hg1, href⟩ := good_of_write hgt hwr
      obtain ⟨t2, ht2⟩ := ih _ hg1 (by
        intro w hw'
        obtain ⟨v', r', h1, h2, h3, h4⟩ := hw w (List.mem_cons_of_mem _ hw')
        have hlen' := runWrites_length t hgt [(k, .set v)] _ (by simp [runWrites, hwr]; rfl) w.1 r' h2
        refine ⟨v', r', h1, h2, ?_, ?_⟩
        · rw [← h3]; exact hlen'
        · simp only
          by_cases e : r' = r
          · subst e
            simp only [Function.update_self]
            rw [hlim _ _ _ hc]
            exact h4
          · rw [Function.update_of_ne e]
            exact h4)
      exact ⟨t2, by simp [runWrites, hwr, ht2]⟩
  obtain ⟨t', ht'⟩ := key (setWrites false m values) t hg (by
    intro w hw
    obtain ⟨p, hp, hk, ho⟩ := mem_setWrites.1 hw
    obtain ⟨r, h1, h2, h3⟩ := hdef p hp w.1 hk
    exact ⟨p.2, r, by simpa using ho, h1, h2, h3⟩)
  rcases hsp : t.setParameters values m false with ⟨t2, e⟩
  rcases setParameters_cases t values m false t2 e hsp with ⟨hx, _⟩ | ⟨_, t3, h1, _⟩
  · exact absurd hl hx
  · rw [ht'] at h1
    simp only [Prod.mk.injEq] at h1
    obtain ⟨_, rfl⟩ := h1
    exact ⟨t2, rfl⟩

/-- State of a search on a map `s` of scalar parameters, with the entries so far. -/
structure Inv (ev : List Quantity → Answer R) (s : PMap) (g0 : EReal) (c : Cal R) (es : List (Entry R)) : Prop where
  map : c.pmap = s ∨ ∃ x, x.length = s.optMap.length ∧ s.setParametersScaled x = (c.pmap, none)
  entries : ∀ e ∈ es, ∃ x m, x.length = s.optMap.length ∧ s.setParametersScaled x = (m, none) ∧
    m.getParameters m.optMap = .ok e.params
  best : c.bestFile = none ∧ c.bestGoal = g0 ∨ ∃ e ∈ es, c.bestFile = some (e.params.map Quantity.numpy) ∧
    c.bestGoal < g0 ∧ ∃ gr, ev e.params = .ok (some c.bestGoal) gr e.data
  least : ∀ e ∈ es, ∀ g gr d, ev e.params = .ok (some g) gr d → c.bestGoal ≤ g
  file : c.file = .stream es ∨ c.file = .missing ∧ es = []

theorem logPars_inv {ev : List Quantity → Answer R} {s : PMap} {g0 : EReal} {c c1 : Cal R} {es : List (Entry R)}
    (h : Inv ev s g0 c es) (x : List ℝ) (hx : x.length = s.optMap.length) (m : PMap)
    (hm : s.setParametersScaled x = (m, none)) (qs : List Quantity) (hq : m.getParameters m.optMap = .ok qs)
    (g : Option EReal) (gr : Option (List ℝ)) (d : R) (he : ev qs = .ok g gr d)
    (h1 : c1 = ⟨m, c.evaluation + 1, c.bestGoal, c.bestFile, c.file.append ⟨qs, d⟩, c.log⟩) :
    Inv ev s g0 (logPars c1 (qs.map Quantity.numpy) g) (es ++ [⟨qs, d⟩]) := by
  subst h1
  have hmap : ∀ (c : Cal R) ps g, (logPars c ps g).pmap = c.pmap ∧ (logPars c ps g).file = c.file := by
    intro c ps g
    unfold logPars
    cases g with
    | none => exact ⟨rfl, rfl⟩
    | some v => simp only; split_ifs <;> exact ⟨rfl, rfl⟩
  refine ⟨?_, ?_, ?_, ?_, ?_⟩
  · rw [(hmap _ _ _).1]
    exact Or.inr ⟨x, hx, hm⟩
  · intro e hmem
    rcases List.mem_append.1 hmem with hmem | hmem
    · exact h.entries e hmem
    · rw [List.mem_singleton.1 hmem]
      exact ⟨x, m, hx, hm, hq⟩
  · have hkeep : c.bestFile = none ∧ c.bestGoal = g0 ∨ ∃ e ∈ es ++ [⟨qs, d⟩],
        c.bestFile = some (e.params.map Quantity.numpy) ∧ c.bestGoal < g0 ∧
          ∃ gr, ev e.params = .ok (some c.bestGoal) gr e.data := by
      rcases h.best with hb | ⟨e, he', hb⟩
      · exact Or.inl hb
      · exact Or.inr ⟨e, List.mem_append_left _ he', hb⟩
    unfold logPars
    cases g with
    | none => exact hkeep
    | some v =>
      simp only
      split_ifs with hlt
      · refine Or.inr ⟨⟨qs, d⟩, by simp, rfl, ?_, gr, he⟩
        refine lt_of_lt_of_le hlt ?_
        rcases h.best with ⟨_, hb⟩ | ⟨_, _, _, hb, _⟩
        · exact hb.le
        · exact hb.le
      · exact hkeep
  · intro e hmem g' gr' d' hev
    unfold logPars
    rcases List.mem_append.1 hmem with hmem | hmem
    · have := h.least e hmem g' gr' d' hev
      cases g with
      | none => exact this
      | some v =>
        simp only
        split_ifs with hlt
        · exact hlt.le.trans this
        · exact this
    · rw [List.mem_singleton.1 hmem] at hev
      simp only [he, Answer.ok.injEq] at hev
      obtain ⟨rfl, _, _⟩ := hev
      simp only
      split_ifs with hlt
      · exact le_refl _
      · exact not_lt.1 hlt
  · rw [(hmap _ _ _).2]
    rcases h.file with hf | ⟨hf, rfl⟩ <;> simp [hf, File.append]

theorem query_inv {ev : List Quantity → Answer R} {s : PMap} (hs : ScalarMap s) {g0 : EReal} {c : Cal R}
    {es : List (Entry R)} (h : Inv ev s g0 c es) (q : Bool × List ℝ) (hx : q.2.length = s.optMap.length) :
    ((query ev c q).2 = none → ∃ e, Inv ev s g0 (query ev c q).1 (es ++ [e])) ∧
    ((query ev c q).2 = some .interrupt → Inv ev s g0 (query ev c q).1 es) ∧
    ∀ e, (query ev c q).2 ≠ some (.pmap e) := by
  obtain ⟨m, hm, -, -⟩ := setScaled_spec s hs q.2 hx
  have hset : c.pmap.setParametersScaled q.2 = (m, none) := by
    rcases h.map with e | ⟨y, hy, hc⟩
    · rw [e]; exact hm
    · rw [setScaled_last s c.pmap hs y q.2 hy hx hc, hm]
  obtain ⟨hsm, hrefm, hoptm, _⟩ := hs.set hx hm
  have hgm := getParameters_eq m m.optMap hsm.ne fun g hg k hk =>
    let ⟨r, hr, _⟩ := hsm.dfd g hg k hk
    ⟨r, hr⟩
  have hsc : ScalarMap c.pmap := by
    rcases h.map with e | ⟨y, hy, hc⟩
    · rw [e]; exact hs
    · exact (hs.set hy hc).1
  have hgc := getParameters_eq c.pmap c.pmap.optMap hsc.ne fun g hg k hk =>
    let ⟨r, hr, _⟩ := hsc.dfd g hg k hk
    ⟨r, hr⟩
  have hset2 : m.setParametersScaled q.2 = (m, none) := by
    rw [setScaled_last s m hs q.2 q.2 hx hx hm, hm]
  have hint : Inv ev s g0 { c with pmap := m } es :=
    ⟨Or.inr ⟨q.2, hx, hm⟩, h.entries, h.best, h.least, h.file⟩
  set qs := m.optMap.map fun g => m.heap ((m.ref (g.headD "")).getD 0) with hqs
  unfold query
  split_ifs with hb
  · unfold goalRun
    simp only [hset, hgm]
    rcases hev : ev qs with ⟨g, gr, d⟩ | _ | _ <;> simp only
    · cases gr with
      | none => exact ⟨by simp, by simp, by simp⟩
      | some gr =>
        simp only [hset2, hgm]
        exact ⟨fun _ => ⟨⟨qs, d⟩, logPars_inv h q.2 hx m hm qs hgm g (some gr) d hev rfl⟩, by simp, by simp⟩
    · exact ⟨by simp, by simp, by simp⟩
    · exact ⟨by simp, fun _ => hint, by simp⟩
  · simp only [hgc]
    unfold goalRun
    simp only [hset, hgm]
    rcases hev : ev qs with ⟨g, gr, d⟩ | _ | _ <;> simp only
    · exact ⟨fun _ => ⟨⟨qs, d⟩, logPars_inv h q.2 hx m hm qs hgm g gr d hev rfl⟩, by simp, by simp⟩
    · exact ⟨by simp, by simp, by simp⟩
    · exact ⟨by simp, fun _ => hint, by simp⟩

theorem search_inv {ev : List Quantity → Answer R} {s : PMap} (hs : ScalarMap s) {g0 : EReal} {c : Cal R}
    {es : List (Entry R)} (h : Inv ev s g0 c es) (qs : List (Bool × List ℝ))
    (hx : ∀ q ∈ qs, q.2.length = s.optMap.length)
    (hstop : (search ev c qs).2 = none ∨ (search ev c qs).2 = some .interrupt) :
    ∃ es', es <+: es' ∧ Inv ev s g0 (search ev c qs).1 es' := by
  induction qs generalizing c es with
  | nil => exact ⟨es, List.prefix_rfl, h⟩
  | cons q qs ih =>
    obtain ⟨h1, h2, -⟩ := query_inv hs h q (hx q List.mem_cons_self)
    unfold search at hstop ⊢
    rcases hq : query ev c q with ⟨c1, _ | e⟩ <;> rw [hq] at h1 h2 hstop <;> simp only at h1 h2 hstop ⊢
    · obtain ⟨e, he⟩ := h1 (by trivial)
      obtain ⟨es', h3, h4⟩ := ih he (fun q hq => hx q (List.mem_cons_of_mem _ hq)) hstop
      exact ⟨es', (List.prefix_append _ _).trans h3, h4⟩
    · rcases hstop with h | h
      · simp at h
      · exact ⟨es, List.prefix_rfl, h2 h⟩

/-- C190, what holds: for scalar parameters, any proposals (also out of the range of the optimizer, unlike C112)
and any evaluation function, a calibration that was not left by an exception of the evaluation function, and in
which an evaluation was better than all goals so far, ends regularly, also after an interrupt. The parameters are
then those of an entry of the data set whose goal is the least. Missing: runs without such an evaluation and
algorithms that ask for gradients, see the negations. -/
theorem C190_best_partial (ev : List Quantity → Answer R) (c : Cal R) (hs : ScalarMap c.pmap)
    (qs : List (Bool × List ℝ)) (hx : ∀ q ∈ qs, q.2.length = c.pmap.optMap.length)
    (hstop : (search ev { c with bestFile := none, file := .missing } qs).2 = none ∨
      (search ev { c with bestFile := none, file := .missing } qs).2 = some .interrupt)
    (hbetter : (search ev { c with bestFile := none, file := .missing } qs).1.bestFile ≠ none) :
    ∃ c' es, calibrate ev c qs = (c', none) ∧ c'.file = .dataset es c.pmap.optMap ∧
      ∃ e ∈ es, (∃ g gr, ev e.params = .ok (some g) gr e.data ∧ g < c.bestGoal ∧ c'.bestGoal = g ∧
          ∀ e' ∈ es, ∀ g' gr' d', ev e'.params = .ok (some g') gr' d' → g ≤ g') ∧
        ∀ (n : ℕ) (g : List String), c.pmap.optMap[n]? = some g → ∀ k ∈ g,
          c'.pmap.read k = (e.params[n]?).map Quantity.numpy := by
  obtain ⟨es, -, hinv⟩ := search_inv (ev := ev) (s := c.pmap) hs (g0 := c.bestGoal)
    (c := { c with bestFile := none, file := .missing }) (es := [])
    ⟨Or.inl rfl, by simp, Or.inl ⟨rfl, rfl⟩, by simp, Or.inr ⟨rfl, rfl⟩⟩ qs hx hstop
  rcases hsr : search ev { c with bestFile := none, file := .missing } qs with ⟨c1, st⟩
  rw [hsr] at hinv hstop hbetter
  simp only at hinv hstop hbetter
  rcases hinv.best with ⟨hb, _⟩ | ⟨e, hmem, hb, hlt, gr, hev⟩
  · exact absurd hb hbetter
  obtain ⟨x, m, hxl, hm, hget⟩ := hinv.entries e hmem
  obtain ⟨t, ht1, ht2, ht3⟩ := setScaled_spec c.pmap hs x hxl
  rw [hm] at ht1
  simp only [Prod.mk.injEq, and_true] at ht1
  subst ht1
  obtain ⟨hsm, hrefm, hoptm, _⟩ := hs.set hxl hm
  have hgm := getParameters_eq m m.optMap hsm.ne fun g hg k hk =>
    let ⟨r, hr, _⟩ := hsm.dfd g hg k hk
    ⟨r, hr⟩
  rw [hgm] at hget
  simp only [Except.ok.injEq] at hget
  have hc1 : ScalarMap c1.pmap ∧ c1.pmap.ref = c.pmap.ref ∧ c1.pmap.optMap = c.pmap.optMap ∧
      ∀ r, ∃ v, c1.pmap.heap r = { c.pmap.heap r with value := v } := by
    rcases hinv.map with h | ⟨y, hy, hc⟩
    · rw [h]; exact ⟨hs, rfl, rfl, fun r => ⟨(c.pmap.heap r).value, rfl⟩⟩
    · obtain ⟨a, b, d, _⟩ := hs.set hy hc
      exact ⟨a, b, d, exists_value c.pmap hs y hy c1.pmap hc⟩
  obtain ⟨hs1, href1, hopt1, hval1⟩ := hc1
  have hplen : (e.params.map Quantity.numpy).length = c1.pmap.optMap.length := by
    rw [← hget]; simp [hoptm, hopt1]
  obtain ⟨fin, hfin⟩ := setParameters_in_limits c1.pmap hs1.good c1.pmap.optMap (e.params.map Quantity.numpy) hplen (by
    intro p hp k hk
    obtain ⟨n, hn, hpe⟩ := List.mem_iff_getElem.1 hp
    have hn1 : n < c.pmap.optMap.length := by rw [← hopt1]; simp at hn; omega
    have hn2 : n < x.length := by omega
    rw [hopt1] at hp
    have hp1 : p.1 = c.pmap.optMap[n] := by
      rw [← hpe]
      simp only [List.getElem_zip]
      congr 1
    have hgmem := List.getElem_mem hn1
    obtain ⟨r, hr, hl⟩ := hs.dfd _ hgmem k (by rw [← hp1]; exact hk)
    have hkh := head_mem (hs.ne _ hgmem)
    obtain ⟨r0, hr0, hl0⟩ := hs.dfd _ hgmem _ hkh
    have hz : (c.pmap.optMap[n], x[n]) ∈ c.pmap.optMap.zip x := by
      rw [List.mem_iff_getElem]
      exact ⟨n, by simp [hn1, hn2], by simp⟩
    have hheap := (ht3 r0).2 _ hz _ hkh hr0
    have hp2 : p.2 = [(c.pmap.heap r0).getOtherValue (foldOpt x[n])] := by
      rw [← hpe]
      simp only [List.getElem_zip, List.getElem_map, ← hget]
      have : m.optMap[n]'(by rw [hoptm]; exact hn1) = c.pmap.optMap[n] := by congr 1
      rw [this, hrefm, hr0, Option.getD_some, hheap, numpy_scalar]
    refine ⟨r, by rw [href1]; exact hr, ?_, ?_⟩
    · obtain ⟨v, hv⟩ := hval1 r
      rw [hv, hp2]
      exact hl
    · intro y hy
      rw [hp2, List.mem_singleton] at hy
      obtain ⟨v, hv⟩ := hval1 r
      have hlims := hs.lim _ hgmem k (by rw [← hp1]; exact hk) _ hkh r r0 hr hr0
      have hv' : (c1.pmap.heap r).getLimits = (c.pmap.heap r0).getLimits := by rw [hv]; exact hlims
      rw [hv', hy]
      have hb := foldOpt_mem x[n]
      have hw := hs.good _ r0 hr0
      simp only [getLimits, getOtherValue]
      have hp0 := hw.pref_pos
      have hs0 := hw.scale_pos
      constructor
      · rw [div_le_div_iff_of_pos_right hp0]
        nlinarith
      · rw [div_le_div_iff_of_pos_right hp0]
        nlinarith)
  have hfo : fin.optMap = c1.pmap.optMap := optMap_setParameters _ _ _ _ hs1.good hfin
  have hfile : c1.file = .stream es := by
    rcases hinv.file with h | ⟨_, h⟩
    · exact h
    · rw [h] at hmem; simp at hmem
  have hcal : calibrate ev c qs = ({ c1 with pmap := fin, file := .dataset es fin.optMap }, none) := by
    unfold calibrate
    rw [hsr]
    rcases hstop with rfl | rfl <;> simp only [hb, hfin, hfile]
  refine ⟨_, es, hcal, by simp only [hfo, hopt1], e, hmem, ⟨c1.bestGoal, gr, hev, hlt, rfl, hinv.least⟩, ?_⟩
  intro n g hg k hk
  obtain ⟨hl, hr⟩ := C10_group_members c1.pmap fin hs1.good _ _ false hs1.disj hfin
  have hn : n < c.pmap.optMap.length := (List.getElem?_eq_some_iff.1 hg).1
  have hge : c.pmap.optMap[n] = g := (List.getElem?_eq_some_iff.1 hg).2
  have hn1 : n < c1.pmap.optMap.length := by rw [hopt1]; exact hn
  have he1 : c1.pmap.optMap[n] = g := by
    rw [← hge]
    congr 1
  have := hr n hn1 (by omega) k (by rw [he1]; exact hk)
  simp only at this ⊢
  rw [this, List.getElem_map]
  have hn3 : n < e.params.length := by simp at hl; omega
  rw [List.getElem?_eq_getElem hn3]
  rfl

/-! ## What is not the case -/

/-- C190: a run in which no evaluation is better than the best goal of earlier runs of the same object fails, because
its directory has no best-point file (`current_best_goal` is kept, the directory is new). C189: the measurements of
such a run are not usable for learning, since the file is left as it is during the run. -/
theorem C190_false_second (ev : List Quantity → Answer R) (c : Cal R) (hs : ScalarMap c.pmap)
    (qs : List (Bool × List ℝ)) (hx : ∀ q ∈ qs, q.2.length = c.pmap.optMap.length)
    (hstop : (search ev { c with bestFile := none, file := .missing } qs).2 = none)
    (hno : ∀ ps g gr d, ev ps = .ok (some g) gr d → c.bestGoal ≤ g) :
    ∃ c' es, calibrate ev c qs = (c', some .noFile) ∧ es.length = qs.length ∧
      c'.evaluation = c.evaluation + qs.length ∧ (qs ≠ [] → c'.file = .stream es) ∧
      learnFrom (readData c'.file) = none := by
  obtain ⟨es, -, hinv⟩ := search_inv (ev := ev) (s := c.pmap) hs (g0 := c.bestGoal)
    (c := { c with bestFile := none, file := .missing }) (es := [])
    ⟨Or.inl rfl, by simp, Or.inl ⟨rfl, rfl⟩, by simp, Or.inr ⟨rfl, rfl⟩⟩ qs hx (Or.inl hstop)
  obtain ⟨new, pre, a1, a2, a3, a4, a5, a6⟩ :=
    search_file ev { c with bestFile := none, file := .missing } qs [] (Or.inr ⟨rfl, rfl⟩)
  have hpre := a6 hstop
  subst hpre
  have hlen := a5.length_eq
  rcases hsr : search ev { c with bestFile := none, file := .missing } pre with ⟨c1, st⟩
  rw [hsr] at hinv hstop a1 a2
  simp only at hinv hstop a1 a2
  subst hstop
  have hb : c1.bestFile = none := by
    rcases hinv.best with ⟨hb, _⟩ | ⟨e, _, _, hlt, gr, hev⟩
    · exact hb
    · exact absurd hlt (not_lt.2 (hno _ _ _ _ hev))
  refine ⟨c1, new, ?_, hlen.symm, by rw [a2, hlen], ?_, ?_⟩
  · unfold calibrate
    rw [hsr]
    simp only [hb]
  · intro hne
    rw [a1, if_neg]
    · rfl
    · simp only [List.nil_append]
      rintro rfl
      exact hne (List.length_eq_zero_iff.1 (by simpa using hlen))
  · rw [a1]
    split_ifs with h
    · rfl
    · cases new with
      | nil => simp at h
      | cons a b => rfl

/-- C189 and C190: with an algorithm that asks for a gradient, and an evaluation function whose goal is not
computed by TensorFlow (as for any measurement), the first evaluation is measured and counted, but the run is left
by an exception: nothing is logged, and the data cannot be read. -/
theorem C190_false_gradient (ev : List Quantity → Answer R) (c : Cal R) (hs : ScalarMap c.pmap) (x : List ℝ)
    (qs : List (Bool × List ℝ)) (hx : x.length = c.pmap.optMap.length)
    (hev : ∀ ps, ∃ g d, ev ps = .ok g none d) :
    ∃ c' e, calibrate ev c ((true, x) :: qs) = (c', some .attribute) ∧ c'.evaluation = c.evaluation + 1 ∧
      c'.log = c.log ∧ c'.bestFile = none ∧ c'.file = .stream [e] ∧ learnFrom (readData c'.file) = none := by
  obtain ⟨m, hm, -, -⟩ := setScaled_spec c.pmap hs x hx
  obtain ⟨hsm, -, -, -⟩ := hs.set hx hm
  have hgm := getParameters_eq m m.optMap hsm.ne fun g hg k hk =>
    let ⟨r, hr, _⟩ := hsm.dfd g hg k hk
    ⟨r, hr⟩
  set ps := m.optMap.map fun g => m.heap ((m.ref (g.headD "")).getD 0)
  obtain ⟨g, d, he⟩ := hev ps
  refine ⟨⟨m, c.evaluation + 1, c.bestGoal, none, .stream [⟨ps, d⟩], c.log⟩, ⟨ps, d⟩, ?_, rfl, rfl, rfl, rfl, rfl⟩
  simp only [calibrate, search, query, goalRun, if_true, hm, hgm, he, File.append]

/-- C189: an exception of the evaluation function also leaves the earlier measurements in a file that cannot be
read. -/
theorem C189_false_exception (ev : List Quantity → Answer R) (c : Cal R) (hs : ScalarMap c.pmap) (x y : List ℝ)
    (qs : List (Bool × List ℝ)) (hx : x.length = c.pmap.optMap.length) (hy : y.length = c.pmap.optMap.length)
    (h1 : ∀ ps, (c.pmap.setParametersScaled x).1.getParameters c.pmap.optMap = .ok ps →
      ∃ g gr d, ev ps = .ok g gr d)
    (h2 : ∀ ps, (c.pmap.setParametersScaled y).1.getParameters c.pmap.optMap = .ok ps → ev ps = .raised) :
    ∃ c' e, calibrate ev c ((false, x) :: (false, y) :: qs) = (c', some .raised) ∧
      c'.file = .stream [e] ∧ Records ev x e ∧ learnFrom (readData c'.file) = none := by
  obtain ⟨m, hm, -, -⟩ := setScaled_spec c.pmap hs x hx
  obtain ⟨hsm, -, hom, -⟩ := hs.set hx hm
  have hgm := getParameters_eq m m.optMap hsm.ne fun g hg k hk =>
    let ⟨r, hr, _⟩ := hsm.dfd g hg k hk
    ⟨r, hr⟩
  have hgc := getParameters_eq c.pmap c.pmap.optMap hs.ne fun g hg k hk =>
    let ⟨r, hr, _⟩ := hs.dfd g hg k hk
    ⟨r, hr⟩
  obtain ⟨m2, hm2, -, -⟩ := setScaled_spec c.pmap hs y hy
  obtain ⟨hsm2, -, hom2, -⟩ := hs.set hy hm2
  have hgm2 := getParameters_eq m2 m2.optMap hsm2.ne fun g hg k hk =>
    let ⟨r, hr, _⟩ := hsm2.dfd g hg k hk
    ⟨r, hr⟩
  have hset2 : m.setParametersScaled y = (m2, none) := by
    rw [setScaled_last c.pmap m hs x y hx hy hm, hm2]
  set ps := m.optMap.map fun g => m.heap ((m.ref (g.headD "")).getD 0) with hps
  obtain ⟨g, gr, d, he⟩ := h1 ps (by rw [hm, ← hom]; exact hgm)
  have he2 := h2 _ (by rw [hm2, ← hom2]; exact hgm2)
  have hp : ∀ (c : Cal R) ps g, (logPars c ps g).pmap = c.pmap ∧ (logPars c ps g).file = c.file := by
    intro c ps g
    unfold logPars
    cases g with
    | none => exact ⟨rfl, rfl⟩
    | some v => simp only; split_ifs <;> exact ⟨rfl, rfl⟩
  have hsearch : ∃ c1, search ev { c with bestFile := none, file := .missing } ((false, x) :: (false, y) :: qs) =
      (c1, some .raised) ∧ c1.file = .stream [⟨ps, d⟩] := by
    simp only [search, query, goalRun, Bool.false_eq_true, if_false, hm, hgc, hgm, he, File.append]
    simp only [(hp _ _ _).1, (hp _ _ _).2, hgm, hset2, hgm2, he2]
    exact ⟨_, rfl, rfl⟩
  obtain ⟨c1, hc1, hf⟩ := hsearch
  refine ⟨c1, ⟨ps, d⟩, ?_, hf, ⟨c.pmap, m, g, gr, hm, hgm, he⟩, by rw [hf]; rfl⟩
  unfold calibrate
  rw [hc1]

/-! ## Examples -/

/-- An evaluation function that always measures 1. -/
def exEv : List Quantity → Answer ℕ := fun _ => .ok (some 1) none 7

theorem one_lt_initGoal : (1 : EReal) < initGoal := by
  unfold initGoal
  rw [← EReal.coe_one, EReal.coe_lt_coe_iff]
  norm_num

/-- Setting values keeps the assumptions. -/
theorem scalar_setParameters (s s' : PMap) (hs : ScalarMap s) (values : List (List ℝ)) (m : List (List String))
    (h : s.setParameters values m = (s', none)) : ScalarMap s' ∧ s'.optMap = s.optMap := by
  unfold setParameters at h
  split_ifs at h
  · simp at h
  rw [setGroups_eq] at h
  rcases hrw : s.runWrites (setWrites false m values) with ⟨t, _ | e⟩
  swap
  · rw [hrw] at h; simp at h
  rw [hrw] at h
  obtain ⟨_, _, _, _, hg, hsame, _, _⟩ := runWrites_spec s hs.good _ t none hrw
  have hval : ∀ (ws : List (String × Op)) (s t : PMap), (∀ w ∈ ws, ∃ v, w.2 = .set v) → s.runWrites ws = (t, none) →
      ∀ r, ∃ v, t.heap r = { s.heap r with value := v } := by
    intro ws
    induction ws with
    | nil =>
      intro s t _ h r
      simp only [runWrites, Prod.mk.injEq, and_true] at h
      exact ⟨(s.heap r).value, by rw [← h]⟩
    | cons w ws ih =>
      intro s t hw h r
      obtain ⟨k, o⟩ := w
      obtain ⟨v, ho⟩ := hw (k, o) List.mem_cons_self
      simp only at ho
      subst ho
      simp only [runWrites] at h
      rcases h1 : s.write k (.set v) with ⟨s1, _ | e⟩ <;> rw [h1] at h
      · obtain ⟨v2, h2⟩ := ih s1 t (fun w hw' => hw w (List.mem_cons_of_mem _ hw')) h r
        obtain ⟨r', q', hr, hc, rfl⟩ := write_none h1
        rw [h2]
        by_cases e : r = r'
        · subst e
          simp only [Function.update_self]
          have hl : ¬ v.length ≠ (s.heap r).length := by
            intro hl
            simp [Op.call, setValue, hl] at hc
          have h' : (s.heap r).setValueRaw v = .ok q' := by simpa [Op.call, setValue, hl] using hc
          exact ⟨v2, by rw [(setValueRaw_ok h').2.2]⟩
        · simp only [Function.update_of_ne e]
          exact ⟨v2, rfl⟩
      · simp at h
  have hv := hval _ s t (by
    intro w hw
    obtain ⟨p, _, _, ho⟩ := mem_setWrites.1 hw
    exact ⟨p.2, by simpa using ho⟩) hrw
  have ht : t.ref = s.ref ∧ t.optMap = s.optMap ∧ t.hasModel = s.hasModel ∧ t.updateModel = s.updateModel := by
    rw [hsame]; exact ⟨rfl, rfl, rfl, rfl⟩
  have hst : s'.heap = t.heap ∧ s'.ref = t.ref ∧ s'.optMap = t.optMap ∧ s'.hasModel = t.hasModel ∧
      s'.updateModel = t.updateModel := by
    simp only at h
    split_ifs at h <;> (simp only [Prod.mk.injEq, and_true] at h; rw [← h]; exact ⟨rfl, rfl, rfl, rfl, rfl⟩)
  obtain ⟨b1, b2, b3, b4, b5⟩ := hst
  obtain ⟨a1, a2, a3, a4⟩ := ht
  refine ⟨⟨?_, ?_, ?_, ?_, ?_, ?_⟩, b3.trans a2⟩
  · intro k r hk
    rw [b1]
    exact hg k r (by rw [← b2]; exact hk)
  · rw [b3, a2]; exact hs.ne
  · rw [b3, a2, b2, a1, b1]
    intro g hg k hk
    obtain ⟨r, h5, h6⟩ := hs.dfd g hg k hk
    obtain ⟨v, hv⟩ := hv r
    exact ⟨r, h5, by rw [hv]; exact h6⟩
  · rw [b3, a2]
    unfold DisjointGroups
    rw [b2, a1]
    exact hs.disj
  · rw [b3, a2]
    intro g hg k hk k' hk' r r' h5 h6
    rw [b2, a1] at h5 h6
    rw [b1]
    obtain ⟨v, hv1⟩ := hv r
    obtain ⟨v', hv2⟩ := hv r'
    rw [hv1, hv2]
    exact hs.lim g hg k hk k' hk' r r' h5 h6
  · rw [b4, b5, a3, a4]; exact hs.upd

/-- A calibration with regular end keeps the assumptions. -/
theorem scalar_calibrate (ev : List Quantity → Answer R) (c c' : Cal R) (hs : ScalarMap c.pmap)
    (qs : List (Bool × List ℝ)) (hx : ∀ q ∈ qs, q.2.length = c.pmap.optMap.length)
    (hstop : (search ev { c with bestFile := none, file := .missing } qs).2 = none)
    (h : calibrate ev c qs = (c', none)) : ScalarMap c'.pmap ∧ c'.pmap.optMap = c.pmap.optMap := by
  obtain ⟨es, -, hinv⟩ := search_inv (ev := ev) (s := c.pmap) hs (g0 := c.bestGoal)
    (c := { c with bestFile := none, file := .missing }) (es := [])
    ⟨Or.inl rfl, by simp, Or.inl ⟨rfl, rfl⟩, by simp, Or.inr ⟨rfl, rfl⟩⟩ qs hx (Or.inl hstop)
  unfold calibrate at h
  rcases hsr : search ev { c with bestFile := none, file := .missing } qs with ⟨c1, st⟩
  rw [hsr] at hinv hstop h
  simp only at hinv hstop h
  subst hstop
  have hs1 : ScalarMap c1.pmap ∧ c1.pmap.optMap = c.pmap.optMap := by
    rcases hinv.map with e | ⟨y, hy, hc⟩
    · rw [e]; exact ⟨hs, rfl⟩
    · obtain ⟨a, _, b, _⟩ := hs.set hy hc
      exact ⟨a, b⟩
  simp only at h
  cases hb : c1.bestFile with
  | none => rw [hb] at h; simp at h
  | some best =>
    rw [hb] at h
    simp only at h
    rcases hm : c1.pmap.setParameters best c1.pmap.optMap with ⟨m, _ | e⟩ <;> rw [hm] at h <;> simp only at h
    · obtain ⟨a, b⟩ := scalar_setParameters _ _ hs1.1 _ _ hm
      rcases hf : c1.file with _ | es | _ <;> rw [hf] at h <;> simp only at h
      · simp at h
      · simp only [Prod.mk.injEq, and_true] at h
        rw [← h]
        exact ⟨a, b.trans hs1.2⟩
      · simp at h
    · simp at h

/-- One evaluation without gradient. -/
theorem search_one (ev : List Quantity → Answer R) (c : Cal R) (hs : ScalarMap c.pmap) (x : List ℝ)
    (hx : x.length = c.pmap.optMap.length) (g : Option EReal) (gr : Option (List ℝ)) (d : R)
    (hev : ∀ ps, ev ps = .ok g gr d) :
    ∃ m qs, search ev c [(false, x)] =
      (logPars ⟨m, c.evaluation + 1, c.bestGoal, c.bestFile, c.file.append ⟨qs, d⟩, c.log⟩ (qs.map Quantity.numpy) g,
        none) := by
  obtain ⟨m, hm, -, -⟩ := setScaled_spec c.pmap hs x hx
  obtain ⟨hsm, -, hom, -⟩ := hs.set hx hm
  have hgm := getParameters_eq m m.optMap hsm.ne fun g hg k hk =>
    let ⟨r, hr, _⟩ := hsm.dfd g hg k hk
    ⟨r, hr⟩
  have hgc := getParameters_eq c.pmap c.pmap.optMap hs.ne fun g hg k hk =>
    let ⟨r, hr, _⟩ := hs.dfd g hg k hk
    ⟨r, hr⟩
  refine ⟨m, m.optMap.map fun g => m.heap ((m.ref (g.headD "")).getD 0), ?_⟩
  simp only [search, query, goalRun, Bool.false_eq_true, if_false, hm, hgc, hgm, hev]

/-- Two runs of one object: the first, with a proposal out of range, ends regularly with its data set, the second
measures as well and fails. -/
example : ∃ c1 c2 es, calibrate exEv (fresh exOne) [(false, [3 / 2])] = (c1, none) ∧
    c1.file = .dataset es exOne.optMap ∧ es.length = 1 ∧
    calibrate exEv c1 [(false, [0])] = (c2, some .noFile) ∧ c2.evaluation = 2 := by
  have hx : ∀ q ∈ [(false, [(3 : ℝ) / 2])], q.2.length = exOne.optMap.length := by
    intro q hq
    rw [List.mem_singleton.1 hq]
    rfl
  obtain ⟨m, ps, h1⟩ := search_one exEv (fresh exOne : Cal ℕ) exOne_scalar
    [3 / 2] rfl (some 1) none 7 (fun _ => rfl)
  have hlt : ∀ c : Cal ℕ, c.bestGoal = initGoal → ∀ ps, (logPars c ps (some 1)).bestFile ≠ none := by
    intro c hc ps
    unfold logPars
    simp only
    rw [if_pos (by rw [hc]; exact one_lt_initGoal)]
    simp
  have hst : (search exEv (fresh exOne : Cal ℕ) [(false, [3 / 2])]).2 = none := by rw [h1]
  obtain ⟨c1, es, hc, hf, e, -, ⟨g, gr, hev, hg0, hbest, -⟩, -⟩ := C190_best_partial exEv (fresh exOne) exOne_scalar
    [(false, [3 / 2])] hx (Or.inl hst) (by
      change (search exEv (fresh exOne : Cal ℕ) [(false, [3 / 2])]).1.bestFile ≠ none
      rw [h1]
      exact hlt _ rfl _)
  obtain ⟨es', pre, hf', hev', -, hfa, hpre, -⟩ := C189_dataset exEv (fresh exOne) _ c1 hc
  have hee : es' = es := by
    rw [hf] at hf'
    simpa using hf'.symm
  subst hee
  have hlen : es'.length = 1 := by rw [← hfa.length_eq, hpre hst]; rfl
  obtain ⟨hs1, ho1⟩ := scalar_calibrate exEv (fresh exOne) c1 exOne_scalar _ hx hst hc
  have hx0 : [(0 : ℝ)].length = c1.pmap.optMap.length := by rw [ho1]; rfl
  obtain ⟨m2, ps2, h2⟩ := search_one exEv ({ c1 with bestFile := none, file := .missing } : Cal ℕ) hs1
    [0] hx0 (some 1) none 7 (fun _ => rfl)
  obtain ⟨c2, _, hc2, -, he2, -, -⟩ := C190_false_second exEv c1 hs1 [(false, [0])]
    (by
      intro q hq
      rw [List.mem_singleton.1 hq]
      exact hx0) (by rw [h2]) (by
      intro ps g' gr' d' h'
      simp only [exEv, Answer.ok.injEq, Option.some.injEq] at h' hev
      rw [hbest, ← h'.1, ← hev.1])
  refine ⟨c1, c2, es', hc, hf, hlen, hc2, ?_⟩
  rw [he2, hev', hlen]
  rfl

/-- An algorithm with gradients on a measured goal. -/
example : ∃ c' e, calibrate exEv (fresh exOne) [(true, [0])] = (c', some .attribute) ∧ c'.evaluation = 1 ∧
    c'.log = [] ∧ c'.bestFile = none ∧ c'.file = .stream [e] ∧ learnFrom (readData c'.file) = none :=
  C190_false_gradient exEv (fresh exOne) exOne_scalar [0] [] rfl (fun _ => ⟨_, _, rfl⟩)

theorem exOne_values (x : ℝ) (h1 : -1 ≤ x) (h2 : x ≤ 1) (ps : List Quantity)
    (h : (exOne.setParametersScaled [x]).1.getParameters exOne.optMap = .ok ps) : ps.map (·.value) = [[x]] := by
  obtain ⟨m, hm, h3, h4⟩ := setScaled_spec exOne exOne_scalar [x] rfl
  rw [hm] at h
  have hr : m.ref "a" = some 1 := by rw [h3]; simp [exOne, exS]
  simp only [exOne, getParameters, hr, Except.ok.injEq] at h
  rw [← h]
  have := (h4 1).2 (["a"], x) (by simp [exOne]) "a" (by simp) (by simp [exOne, exS])
  simp [this, foldOpt_of_mem h1 h2]

open scoped Classical in
/-- An evaluation function that fails away from the starting point. -/
example : ∃ (ev : List Quantity → Answer ℕ) (c' : Cal ℕ) (e : Entry ℕ),
    calibrate ev (fresh exOne) [(false, [0]), (false, [1])] = (c', some .raised) ∧
      c'.file = .stream [e] ∧ Records ev [0] e ∧ learnFrom (readData c'.file) = none := by
  refine ⟨fun ps => if ps.map (·.value) = [[0]] then .ok (some 1) none 7 else .raised, ?_⟩
  refine C189_false_exception _ (fresh exOne) exOne_scalar [0] [1] [] rfl rfl ?_ ?_
  · intro ps h
    exact ⟨_, _, _, if_pos (exOne_values 0 (by norm_num) (by norm_num) ps h)⟩
  · intro ps h
    refine if_neg ?_
    rw [exOne_values 1 (by norm_num) (by norm_num) ps h]
    simp

end C3.Optim.Calib
