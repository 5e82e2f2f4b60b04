import Mathlib.Data.Real.Basic
import Mathlib.Data.List.Basic
import Mathlib.Tactic.Linarith
import Verif.Optim.GoalFuncs

/-!
# The TensorBoard log and the table of the log reader (C180, C181)

Models c3/optimizers/optimizer.py:316-424 (`BaseLogger`, `TensorBoardLogger`) and
c3/utils/log_reader.py:13-73 (`show_table` and the main loop).

Simplifications: TensorBoard is the list of records written to it; strings of formatted numbers are replaced by
the numbers.
-/

noncomputable section

namespace C3.Optim.Loggers

open scoped Classical

/-! ## The TensorBoard logger -/

/-- A float as far as comparisons matter. -/
inductive Flt where
  | nan
  | num (x : ℝ)
  | inf

/-- Python's `a > b`. -/
def Flt.gt : Flt → Flt → Prop
  | .num a, .num b => b < a
  | .inf, .num _ => True
  | _, _ => False

/-- A value in the list `optim_status["params"]`: numbers, and lists for parameters with several entries
(optimizer.py:262, 306-308: `tolist`). -/
inductive PVal where
  | scalar (x : ℝ)
  | list (xs : List ℝ)

/-- A further value in the status. -/
inductive SVal where
  | float (x : Flt)
  | list (xs : List ℝ)
  | other

/-- `optim_status`: the entries the logger takes out, whether the entry `time` exists, and the rest. -/
structure Status where
  params : List PVal
  goal : Flt
  gradient : Option (List ℝ)
  time : Bool
  rest : List (String × SVal)

inductive Err where
  /-- numbers of parameters differ -/
  | lengths
  /-- `TypeError` of `float(list)` -/
  | typeError
  /-- `KeyError: 'time'` -/
  | keyTime
  /-- `raise Warning(...)` for values that are neither floats nor lists -/
  | notLogged (k : String)
  deriving DecidableEq

/-- What is written: name, value and step. -/
inductive Rec where
  | scalar (key : String) (v : Flt) (step : ℤ)
  | hist (key : String) (v : List ℝ) (step : ℤ)

/-- c3/optimizers/optimizer.py:348-350: the names of one group. The test `type(params[i]) is float or
np.float64` is true for every value (a class is true), so that the branches for lists are never reached and
`float` of a list raises. -/
def writeGroup (step : ℤ) (p : PVal) : List String → List Rec × Option Err
  | [] => ([], none)
  | k :: ks => match p with
    | .scalar x => let (r, e) := writeGroup step p ks; (.scalar k (.num x) step :: r, e)
    | .list _ => ([], some .typeError)

/-- The loop of c3/optimizers/optimizer.py:347-357 over the groups. -/
def writeGroups (step : ℤ) : List (List String) → List PVal → List Rec × Option Err
  | g :: gs, p :: ps => match writeGroup step p g with
    | (r, some e) => (r, some e)
    | (r, none) => let (r', e) := writeGroups step gs ps; (r ++ r', e)
  | _, _ => ([], none)

/-- c3/optimizers/optimizer.py:342-358 `TensorBoardLogger.write_params`. -/
def writeParams (optMap : List (List String)) (ps : List PVal) (step : ℤ) : List Rec × Option Err :=
  if optMap.length = ps.length then writeGroups step optMap ps else ([], some .lengths)

/-- c3/optimizers/optimizer.py:413-423: the remaining entries of the status. -/
def writeRest (step : ℤ) : List (String × SVal) → List Rec × Option Err
  | [] => ([], none)
  | (k, .float x) :: l => let (r, e) := writeRest step l; (.scalar k x step :: r, e)
  | (k, .list xs) :: l => let (r, e) := writeRest step l; (.hist k xs step :: r, e)
  | (k, .other) :: _ => ([], some (.notLogged k))

/-- The logger: names of the groups, `store_better_iterations_only`, `best_iteration`, and the records. -/
structure TB where
  optMap : List (List String)
  betterOnly : Bool
  best : Flt
  written : List Rec

/-- c3/optimizers/optimizer.py:335-340, 363-366: a new logger after `start_log`. -/
def TB.init (m : List (List String)) : TB := ⟨m, true, .inf, []⟩

/-- c3/optimizers/optimizer.py:407-411: gradients are clipped to [-3, 3]. -/
def clip (x : ℝ) : ℝ := max (-3) (min 3 x)

/-- c3/optimizers/optimizer.py:402-423: writing one status, with the exception that left it. -/
def writeStatus (m : List (List String)) (ev : ℤ) (s : Status) : List Rec × Option Err :=
  match writeParams m s.params ev with
  | (r, some e) => (r, some e)
  | (r, none) =>
    let r := r ++ [.scalar "goal" s.goal ev]
    let r := match s.gradient with
      | some g => r ++ [.hist "gradient" (g.map clip) ev]
      | none => r
    if s.time then let (r', e) := writeRest ev s.rest; (r ++ r', e) else (r, some .keyTime)

/-- c3/optimizers/optimizer.py:395-424 `TensorBoardLogger.log_parameters`. -/
def TB.log (t : TB) (ev : ℤ) (s : Status) : TB × Option Err :=
  if t.betterOnly ∧ s.goal.gt t.best then (t, none)
  else
    let best := if t.betterOnly then s.goal else t.best
    let (r, e) := writeStatus t.optMap ev s
    ({ t with best := best, written := t.written ++ r }, e)

/-- A run: the evaluations are logged one after the other until one raises. -/
def TB.run (t : TB) : List (ℤ × Status) → TB × Option Err
  | [] => (t, none)
  | (ev, s) :: l => match t.log ev s with
    | (t', some e) => (t', some e)
    | (t', none) => t'.run l

/-! ## C180: specification -/

/-- An entry of the gradient as it is expected in the log: itself between -3 and 3, the nearer limit otherwise. -/
def limited (x : ℝ) : ℝ :=
  open scoped Classical in
  if x < -3 then -3 else if 3 < x then 3 else x

theorem clip_eq : clip = limited := by
  funext x
  unfold clip limited
  split_ifs with h1 h2
  · rw [min_eq_right (by linarith), max_eq_left h1.le]
  · rw [min_eq_left h2.le, max_eq_right (by norm_num)]
  · rw [min_eq_right (not_lt.1 h2), max_eq_right (not_lt.1 h1)]

/-- The records expected for one evaluation: every name of group `i` with the value of parameter `i`, the goal,
the clipped gradient and every further entry, all at the step of the evaluation. -/
def expected (m : List (List String)) (xs : List ℝ) (s : Status) (ev : ℤ) : List Rec :=
  ((m.zip xs).flatMap fun gx => gx.1.map fun k => .scalar k (.num gx.2) ev) ++ [.scalar "goal" s.goal ev] ++
  (match s.gradient with | some g => [.hist "gradient" (g.map limited) ev] | none => []) ++
  s.rest.filterMap (fun kv => match kv.2 with
    | .float x => some (.scalar kv.1 x ev) | .list l => some (.hist kv.1 l ev) | .other => none)

/-- A status this logger can write: scalar parameters, one per group, a time and only floats and lists. -/
def Writable (m : List (List String)) (xs : List ℝ) (s : Status) : Prop :=
  s.params = xs.map .scalar ∧ m.length = xs.length ∧ s.time = true ∧ ∀ kv ∈ s.rest, kv.2 ≠ .other

theorem writeGroup_scalar (ev : ℤ) (x : ℝ) (g : List String) :
    writeGroup ev (.scalar x) g = (g.map fun k => .scalar k (.num x) ev, none) := by
  induction g with
  | nil => rfl
  | cons k ks ih => simp [writeGroup, ih]

theorem writeGroups_scalar (ev : ℤ) (m : List (List String)) (xs : List ℝ) :
    writeGroups ev m (xs.map .scalar) = ((m.zip xs).flatMap fun gx => gx.1.map fun k => .scalar k (.num gx.2) ev, none) := by
  induction m generalizing xs with
  | nil => cases xs <;> rfl
  | cons g gs ih =>
    cases xs with
    | nil => rfl
    | cons x xs => simp [writeGroups, writeGroup_scalar, ih]

theorem writeRest_ok (ev : ℤ) (l : List (String × SVal)) (h : ∀ kv ∈ l, kv.2 ≠ .other) :
    writeRest ev l = (l.filterMap (fun kv => match kv.2 with
      | .float x => some (.scalar kv.1 x ev) | .list l => some (.hist kv.1 l ev) | .other => none), none) := by
  induction l with
  | nil => rfl
  | cons a l ih =>
    have ih := ih fun kv hk => h kv (List.mem_cons_of_mem _ hk)
    obtain ⟨k, v⟩ := a
    cases v with
    | float x => simp [writeRest, ih]
    | list x => simp [writeRest, ih]
    | other => exact absurd rfl (h (k, .other) (by simp))

/-- C180, what holds: a status with scalar parameters and a time is written completely, every value under its
own name and at the number of its evaluation. -/
theorem C180_content_partial (m : List (List String)) (xs : List ℝ) (s : Status) (ev : ℤ) (h : Writable m xs s) :
    writeStatus m ev s = (expected m xs s ev, none) := by
  obtain ⟨h1, h2, h3, h4⟩ := h
  unfold writeStatus writeParams expected
  rw [← clip_eq]
  rw [if_pos (by rw [h1, List.length_map]; exact h2), h1, writeGroups_scalar]
  simp only [h3, if_true, writeRest_ok ev s.rest h4]
  cases s.gradient <;> simp

theorem init_log (t : TB) (ev : ℤ) (s : Status) (xs : List ℝ) (h : Writable t.optMap xs s) (hb : t.betterOnly = true) :
    t.log ev s = if s.goal.gt t.best then (t, none)
      else (⟨t.optMap, true, s.goal, t.written ++ expected t.optMap xs s ev⟩, none) := by
  unfold TB.log
  simp only [hb, true_and, if_true]
  split
  · rfl
  · rw [C180_content_partial t.optMap xs s ev h]

/-- An evaluation is at least as good as all earlier ones. -/
def Record (gs : List ℝ) (i : ℕ) : Prop := ∀ j ≤ i, ∀ a b, gs[j]? = some a → gs[i]? = some b → b ≤ a

/-- What the log should contain: the evaluations at least as good as all before, in order. -/
def expectedRun (m : List (List String)) : List ℝ → List (ℤ × Status × List ℝ × ℝ) → List Rec
  | _, [] => []
  | prev, (ev, s, xs, g) :: l =>
    (if ∀ a ∈ prev, g ≤ a then expected m xs s ev else []) ++ expectedRun m (prev ++ [g]) l

/-- C180, what holds: of a run with numbers as goals the evaluations at least as good as all before are logged,
completely, and no others. -/
theorem C180_run_partial (m : List (List String)) (l : List (ℤ × Status × List ℝ × ℝ))
    (hl : ∀ x ∈ l, Writable m x.2.2.1 x.2.1 ∧ x.2.1.goal = .num x.2.2.2) :
    let r := (TB.init m).run (l.map fun x => (x.1, x.2.1))
    r.2 = none ∧ r.1.written = expectedRun m [] l := by
  have key : ∀ (l : List (ℤ × Status × List ℝ × ℝ)),
      (∀ x ∈ l, Writable m x.2.2.1 x.2.1 ∧ x.2.1.goal = .num x.2.2.2) →
      ∀ (t : TB) (prev : List ℝ), t.optMap = m → t.betterOnly = true →
      ((prev = [] ∧ t.best = .inf) ∨ ∃ b, t.best = .num b ∧ b ∈ prev ∧ ∀ a ∈ prev, b ≤ a) →
      (t.run (l.map fun x => (x.1, x.2.1))).2 = none ∧
      (t.run (l.map fun x => (x.1, x.2.1))).1.written = t.written ++ expectedRun m prev l := by
    intro l
    induction l with
    | nil => intro _ t prev _ _ _; simp [TB.run, expectedRun]
    | cons x l ih =>
      obtain ⟨ev, s, xs, g⟩ := x
      intro hl t prev hm hb hbest
      obtain ⟨hw, hg⟩ := hl (ev, s, xs, g) (by simp)
      simp only at hw hg
      have ih := ih fun x hx => hl x (List.mem_cons_of_mem _ hx)
      have hlog := init_log t ev s xs (hm ▸ hw) hb
      simp only [List.map_cons, TB.run, expectedRun]
      by_cases hrec : ∀ a ∈ prev, g ≤ a
      · have hng : ¬ s.goal.gt t.best := by
          rw [hg]
          rcases hbest with ⟨-, h⟩ | ⟨b, h, hbm, -⟩
          · rw [h]; simp [Flt.gt]
          · rw [h]; simpa [Flt.gt] using hrec b hbm
        rw [if_neg hng] at hlog
        rw [hlog]
        have := ih ⟨t.optMap, true, s.goal, t.written ++ expected t.optMap xs s ev⟩ (prev ++ [g]) hm rfl
          (.inr ⟨g, hg, by simp, by
            intro a ha
            rcases List.mem_append.1 ha with h | h
            · exact hrec a h
            · simp at h; rw [h]⟩)
        refine ⟨this.1, this.2.trans ?_⟩
        rw [if_pos hrec]
        simp [hm]
      · have hgt : s.goal.gt t.best := by
          rw [hg]
          rcases hbest with ⟨h0, -⟩ | ⟨b, h, hbm, hmin⟩
          · exact absurd (by rw [h0]; simp) hrec
          · rw [h]
            push Not at hrec
            obtain ⟨a, ha, hlt⟩ := hrec
            exact lt_of_le_of_lt (hmin a ha) hlt
        rw [if_pos hgt] at hlog
        rw [hlog]
        have := ih t (prev ++ [g]) hm hb (by
          rcases hbest with ⟨h0, -⟩ | ⟨b, h, hbm, hmin⟩
          · exact absurd (by rw [h0]; simp) hrec
          · refine .inr ⟨b, h, List.mem_append_left _ hbm, ?_⟩
            intro a ha
            rcases List.mem_append.1 ha with h' | h'
            · exact hmin a h'
            · simp at h'
              rw [h'] 
              have : b < g := by rw [hg, h] at hgt; exact hgt
              exact this.le)
        refine ⟨this.1, this.2.trans ?_⟩
        rw [if_neg hrec]
        simp
  have := key l hl (TB.init m) [] rfl rfl (.inl ⟨rfl, rfl⟩)
  exact ⟨this.1, by simpa [TB.init] using this.2⟩

/-- C180 fails: `OptimalControl` writes no time to the status, and the first evaluation raises. -/
theorem C180_false_time (m : List (List String)) (ev : ℤ) (s : Status) (l : List (ℤ × Status)) (xs : List ℝ)
    (hp : s.params = xs.map .scalar) (hm : m.length = xs.length) (ht : s.time = false) :
    ((TB.init m).run ((ev, s) :: l)).2 = some .keyTime := by
  have hng : ¬ s.goal.gt .inf := by cases h : s.goal <;> simp [Flt.gt]
  have hw : (writeStatus m ev s).2 = some .keyTime := by
    unfold writeStatus writeParams
    rw [if_pos (by rw [hp, List.length_map]; exact hm), hp, writeGroups_scalar]
    simp [ht]
  have : ((TB.init m).log ev s).2 = some .keyTime := by
    unfold TB.log
    rw [if_neg (by simpa [TB.init] using hng)]
    exact hw
  simp only [TB.run]
  cases hl : (TB.init m).log ev s with
  | mk t e =>
    rw [hl] at this
    simp only at this
    subst this
    rfl

/-- C180 fails: a parameter with several entries cannot be logged. -/
theorem C180_false_vector (m : List (List String)) (ev : ℤ) (s : Status) (a : List PVal) (v : List ℝ) (b : List PVal)
    (hp : s.params = a ++ .list v :: b) (hm : m.length = s.params.length) (hne : ∀ g ∈ m, g ≠ []) :
    (writeStatus m ev s).2 = some .typeError := by
  have key : ∀ (a : List PVal) (m : List (List String)), m.length = (a ++ .list v :: b).length → (∀ g ∈ m, g ≠ []) →
      (writeGroups ev m (a ++ .list v :: b)).2 = some .typeError := by
    intro a
    induction a with
    | nil =>
      intro m hm hne
      cases m with
      | nil => simp at hm
      | cons g gs =>
        cases hg : g with
        | nil => exact absurd hg (hne g (by simp))
        | cons k ks => simp [writeGroups, writeGroup]
    | cons p a ih =>
      intro m hm hne
      cases m with
      | nil => simp at hm
      | cons g gs =>
        have ih := ih gs (by simpa using hm) fun x hx => hne x (List.mem_cons_of_mem _ hx)
        cases p with
        | scalar x =>
          rw [List.cons_append, writeGroups, writeGroup_scalar]
          exact ih
        | list x =>
          cases hg : g with
          | nil => exact absurd hg (hne g (by simp))
          | cons k ks => simp [writeGroups, writeGroup]
  unfold writeStatus writeParams
  rw [if_pos hm, hp]
  have := key a m (by rw [← hp]; exact hm) hne
  cases hw : writeGroups ev m (a ++ .list v :: b) with
  | mk r e =>
    rw [hw] at this
    simp only at this
    subst this
    rfl

/-- C180 fails: after a goal that is not a number the next evaluation is logged and taken as the best one, even
if it is worse than all before. -/
theorem C180_false_nan (t : TB) (hb : t.betterOnly = true) (ev : ℤ) (s s' : Status) (ev' : ℤ) (hs : s.goal = .nan)
    (t' : TB) (h : t.log ev s = (t', none)) : (t'.log ev' s').1.best = s'.goal ∧
      (t'.log ev' s').1.written = t'.written ++ (writeStatus t'.optMap ev' s').1 := by
  have h1 : t'.best = .nan ∧ t'.betterOnly = true := by
    unfold TB.log at h
    rw [if_neg (by rw [hs]; simp [Flt.gt])] at h
    simp only [hb, if_true, Prod.mk.injEq] at h
    rw [← h.1]
    exact ⟨hs, rfl⟩
  unfold TB.log
  rw [if_neg (by rw [h1.1]; cases s'.goal <;> simp [Flt.gt])]
  simp [h1.2]

/-- C180 fails: in a robust optimal control run, the only kind of control run with a time, all evaluations are
written at step 0. -/
theorem C180_false_steps (m : List (List String)) (n : ℕ) (ss : List Status) :
    ∀ x ∈ (GoalFuncs.logged .robust (List.replicate n ()) (GoalFuncs.start .robust)).zip ss,
      ∀ r ∈ (writeStatus m x.1 x.2).1, ∃ k, (∃ v, r = .scalar k v 0) ∨ ∃ v, r = .hist k v 0 := by
  intro x hx r hr
  have h0 : x.1 = 0 := by
    have := (List.of_mem_zip hx).1
    rw [(GoalFuncs.C179_false_numbers () n).2] at this
    exact List.eq_of_mem_replicate this
  obtain ⟨ev, s⟩ := x
  simp only at h0 hr
  subst h0
  have hgroup : ∀ p ks, ∀ r ∈ (writeGroup 0 p ks).1, ∃ k v, r = .scalar k v 0 := by
    intro p ks
    induction ks with
    | nil => simp [writeGroup]
    | cons k ks ih =>
      intro r hr
      cases p with
      | scalar x =>
        simp only [writeGroup, List.mem_cons] at hr
        rcases hr with rfl | hr
        · exact ⟨_, _, rfl⟩
        · exact ih r hr
      | list x => simp [writeGroup] at hr
  have hgroups : ∀ (m : List (List String)) ps, ∀ r ∈ (writeGroups 0 m ps).1, ∃ k v, r = .scalar k v 0 := by
    intro m
    induction m with
    | nil => intro ps r hr; simp [writeGroups] at hr
    | cons g gs ih =>
      intro ps r hr
      cases ps with
      | nil => simp [writeGroups] at hr
      | cons p ps =>
        have hg := hgroup p g
        rw [writeGroups] at hr
        cases hw : writeGroup 0 p g with
        | mk a e =>
          rw [hw] at hr hg
          cases e with
          | some e => exact hg r hr
          | none =>
            rcases List.mem_append.1 hr with h | h
            · exact hg r h
            · exact ih ps r h
  have hrest : ∀ l, ∀ r ∈ (writeRest 0 l).1, ∃ k, (∃ v, r = .scalar k v 0) ∨ ∃ v, r = .hist k v 0 := by
    intro l
    induction l with
    | nil => simp [writeRest]
    | cons a l ih =>
      obtain ⟨k, v⟩ := a
      intro r hr
      cases v with
      | float x =>
        simp only [writeRest, List.mem_cons] at hr
        rcases hr with rfl | hr
        · exact ⟨k, .inl ⟨_, rfl⟩⟩
        · exact ih r hr
      | list x =>
        simp only [writeRest, List.mem_cons] at hr
        rcases hr with rfl | hr
        · exact ⟨k, .inr ⟨_, rfl⟩⟩
        · exact ih r hr
      | other => simp [writeRest] at hr
  have hparams : ∀ r ∈ (writeParams m s.params 0).1, ∃ k v, r = .scalar k v 0 := by
    unfold writeParams
    split
    · exact hgroups _ _
    · simp
  unfold writeStatus at hr
  cases hw : writeParams m s.params 0 with
  | mk a e =>
    rw [hw] at hr hparams
    have sc : ∀ r ∈ a, ∃ k, (∃ v, r = Rec.scalar k v 0) ∨ ∃ v, r = Rec.hist k v 0 := by
      intro r hr
      obtain ⟨k, v, h⟩ := hparams r hr
      exact ⟨k, .inl ⟨v, h⟩⟩
    cases e with
    | some e => exact sc r hr
    | none =>
      have hbase : ∀ r ∈ (match s.gradient with
          | some g => (a ++ [Rec.scalar "goal" s.goal 0]) ++ [Rec.hist "gradient" (g.map clip) 0]
          | none => a ++ [Rec.scalar "goal" s.goal 0]), ∃ k, (∃ v, r = Rec.scalar k v 0) ∨ ∃ v, r = Rec.hist k v 0 := by
        intro r hr
        cases hgr : s.gradient with
        | none =>
          rw [hgr] at hr
          simp only [List.mem_append, List.mem_cons, List.not_mem_nil, or_false] at hr
          rcases hr with hr | rfl
          · exact sc r hr
          · exact ⟨_, .inl ⟨_, rfl⟩⟩
        | some g =>
          rw [hgr] at hr
          simp only [List.mem_append, List.mem_cons, List.not_mem_nil, or_false] at hr
          rcases hr with (hr | rfl) | rfl
          · exact sc r hr
          · exact ⟨_, .inl ⟨_, rfl⟩⟩
          · exact ⟨_, .inr ⟨_, rfl⟩⟩
      by_cases ht : s.time = true
      · simp only [ht, if_true] at hr
        rcases List.mem_append.1 hr with h | h
        · exact hbase r h
        · exact hrest _ r h
      · simp only [ht, if_false, Bool.false_eq_true] at hr
        exact hbase r hr

example : Writable [["a", "b"]] [1] ⟨[.scalar 1], .num 2, none, true, []⟩ := by
  refine ⟨rfl, rfl, rfl, ?_⟩; simp

example : expectedRun [["a"]] [] [(1, ⟨[.scalar 1], .num 2, none, true, []⟩, [1], 2),
    (2, ⟨[.scalar 5], .num 3, none, true, []⟩, [5], 3)] =
    [.scalar "a" (.num 1) 1, .scalar "goal" (.num 2) 1] := by
  norm_num [expectedRun, expected]

/-! ## The table of the log reader -/

/-- The content of a log file of the best point: names, units, status. `goal` is `none` once taken out. -/
structure LogFile where
  optMap : List (List String)
  units : List String
  params : List PVal
  gradient : Option (List ℝ)
  goal : Option ℝ
  time : Option String

/-- One line of the table: name, value with unit, gradient with unit; further names of a group show `''`. -/
inductive Row where
  | full (id : String) (value : ℝ) (grad : ℝ) (unit : String)
  | ditto (id : String)

inductive TErr where
  | indexError
  /-- `np.array2string` of a list raises `AttributeError`, `eng_num` of a one-entry list `TypeError` -/
  | notANumber
  deriving DecidableEq

/-- c3/utils/log_reader.py:35-42: the lines of one group. -/
def groupRows (ids : List String) (p : Option PVal) (g : Option ℝ) (u : Option String) : Except TErr (List Row) :=
  match p with
  | none => .error .indexError
  | some (.list _) => .error .notANumber
  | some (.scalar x) => match ids, g, u with
    | id :: rest, some g, some u => .ok (.full id x g u :: rest.map .ditto)
    | _, _, _ => .error .indexError

/-- c3/utils/log_reader.py:35-42: the loop over the groups; `ii` is the number of the group. -/
def rows (params : List PVal) (grads : List ℝ) (units : List String) : ℕ → List (List String) → Except TErr (List Row)
  | _, [] => .ok []
  | ii, g :: gs => match groupRows g params[ii]? grads[ii]? units[ii]? with
    | .error e => .error e
    | .ok r => match rows params grads units (ii + 1) gs with
      | .error e => .error e
      | .ok r' => .ok (r ++ r')

/-- c3/utils/log_reader.py:13-48 `show_table`: the headline (goal and time), the table, and the log afterwards:
goal and time have been taken out of it. -/
def showTable (l : LogFile) : Except TErr ((ℝ × String) × List Row) × LogFile :=
  let grads := match l.gradient with | some g => g | none => List.replicate l.params.length 0
  match rows l.params grads l.units 0 l.optMap with
  | .error e => (.error e, l)
  | .ok r => (.ok (((match l.goal with | some g => g | none => -1), (match l.time with | some t => t | none => "0")), r),
      { l with goal := none, time := none })

/-- c3/utils/log_reader.py:62-72: with `--watch` the file is read once, then the table is shown again and
again. The list of the first `n` displays. -/
def watch (l : LogFile) : ℕ → List (Except TErr ((ℝ × String) × List Row))
  | 0 => []
  | n + 1 => let (r, l') := showTable l; r :: watch l' n

/-- C181: what a table should show: for every group its first name with value, gradient and unit, then the
other names. -/
def RightTable (m : List (List String)) (xs gs : List ℝ) (us : List String) (t : List Row) : Prop :=
  t = ((m.zip xs).zip (gs.zip us)).flatMap fun q => match q.1.1 with
    | id :: rest => .full id q.1.2 q.2.1 q.2.2 :: rest.map .ditto
    | [] => []

/-- C181, what holds: for scalar parameters the first display shows every parameter with its own value,
gradient and unit, and the goal and time of the file. -/
theorem C181_table_partial (l : LogFile) (xs gs : List ℝ) (hp : l.params = xs.map .scalar)
    (hne : ∀ g ∈ l.optMap, g ≠ []) (hx : l.optMap.length = xs.length) (hu : l.units.length = xs.length)
    (hgl : gs.length = xs.length)
    (hg : l.gradient = some gs ∨ (l.gradient = none ∧ gs = List.replicate xs.length 0))
    (goal : ℝ) (time : String) (hgoal : l.goal = some goal) (htime : l.time = some time) :
    ∃ t, (showTable l).1 = .ok ((goal, time), t) ∧ RightTable l.optMap xs gs l.units t := by
  have key : ∀ (m : List (List String)) (a xs : List ℝ) (b gs : List ℝ) (c us : List String),
      a.length = b.length → b.length = c.length → m.length = xs.length → xs.length = gs.length → gs.length = us.length →
      (∀ g ∈ m, g ≠ []) →
      rows ((a ++ xs).map .scalar) (b ++ gs) (c ++ us) a.length m = .ok (((m.zip xs).zip (gs.zip us)).flatMap fun q =>
        match q.1.1 with
        | id :: rest => .full id q.1.2 q.2.1 q.2.2 :: rest.map .ditto
        | [] => []) := by
    intro m
    induction m with
    | nil => intros; simp [rows]
    | cons g m ih =>
      intro a xs b gs c us h1 h2 h3 h4 h5 hne
      cases xs with
      | nil => simp at h3
      | cons x xs =>
        cases gs with
        | nil => simp at h4
        | cons y gs =>
          cases us with
          | nil => simp at h5
          | cons u us =>
            cases g with
            | nil => exact absurd rfl (hne [] (by simp))
            | cons id rest =>
              have hx : ((a ++ x :: xs).map PVal.scalar)[a.length]? = some (.scalar x) := by simp
              have hy : (b ++ y :: gs)[a.length]? = some y := by rw [h1]; simp
              have hu : (c ++ u :: us)[a.length]? = some u := by rw [h1, h2]; simp
              rw [rows, hx, hy, hu]
              simp only [groupRows]
              have := ih (a ++ [x]) xs (b ++ [y]) gs (c ++ [u]) us (by simp [h1]) (by simp [h2]) (by simpa using h3)
                (by simpa using h4) (by simpa using h5) (fun g hg => hne g (List.mem_cons_of_mem _ hg))
              simp only [List.append_assoc, List.cons_append, List.nil_append, List.length_append, List.length_cons,
                List.length_nil, Nat.zero_add] at this
              rw [this]
              simp
  have hgr : (match l.gradient with | some g => g | none => List.replicate l.params.length 0) = gs := by
    rcases hg with h | ⟨h, h'⟩
    · rw [h]
    · rw [h, h', hp]; simp
  have hrows := key l.optMap [] xs [] gs [] l.units rfl rfl hx hgl.symm (by rw [hgl, hu]) hne
  simp only [List.nil_append, List.length_nil] at hrows
  refine ⟨_, ?_, rfl⟩
  unfold showTable
  simp only [hgr, hgoal, htime]
  rw [hp, hrows]

/-- C181 fails: a log with a parameter of several entries cannot be shown. -/
theorem C181_false_vector (l : LogFile) (i : ℕ) (v : List ℝ) (hi : i < l.optMap.length)
    (hp : l.params[i]? = some (.list v)) : ∃ e, (showTable l).1 = .error e := by
  have key : ∀ (grads : List ℝ) (m : List (List String)) (k : ℕ), k ≤ i → i < k + m.length →
      ∃ e, rows l.params grads l.units k m = .error e := by
    intro grads m
    induction m with
    | nil => intro k h1 h2; simp at h2; omega
    | cons g m ih =>
      intro k h1 h2
      rw [rows]
      by_cases hk : k = i
      · subst hk
        rw [hp]
        exact ⟨.notANumber, by simp [groupRows]⟩
      · obtain ⟨e, he⟩ := ih (k + 1) (by omega) (by simp at h2; omega)
        rw [he]
        cases groupRows g l.params[k]? grads[k]? l.units[k]? with
        | error e' => exact ⟨e', rfl⟩
        | ok r => exact ⟨e, rfl⟩
  obtain ⟨e, he⟩ := key (match l.gradient with | some g => g | none => List.replicate l.params.length 0) l.optMap 0
    (Nat.zero_le _) (by simpa using hi)
  refine ⟨e, ?_⟩
  simp only [showTable, he]

/-- C181 fails: when watching, every display after the first reports the goal -1 at time 0, whatever the file
contains, and always the same table. -/
theorem C181_false_watch (l : LogFile) (t : List Row) (h : ℝ × String) (hok : (showTable l).1 = .ok (h, t)) (n k : ℕ)
    (hk : 0 < k) (hkn : k < n) : (watch l n)[k]? = some (.ok ((-1, "0"), t)) := by
  have hl : ∀ l : LogFile, ∀ h t, (showTable l).1 = .ok (h, t) →
      (showTable (showTable l).2).1 = .ok ((-1, "0"), t) := by
    intro l h t hok
    simp only [showTable] at hok ⊢
    cases hr : rows l.params (match l.gradient with | some g => g | none => List.replicate l.params.length 0) l.units 0 l.optMap with
    | error e => rw [hr] at hok; simp at hok
    | ok r =>
      rw [hr] at hok
      simp only [Except.ok.injEq, Prod.mk.injEq] at hok
      simp only [hr, hok.2]
  have iter : ∀ (n k : ℕ) (l : LogFile) (h : ℝ × String), (showTable l).1 = .ok (h, t) → k < n →
      (watch l n)[k]? = some (.ok (if k = 0 then h else (-1, "0"), t)) := by
    intro n
    induction n with
    | zero => intro k l h _ hk; omega
    | succ n ih =>
      intro k l h hok hk
      rw [watch]
      cases k with
      | zero => simp [hok]
      | succ k =>
        have := ih k (showTable l).2 (-1, "0") (hl l h t hok) (by omega)
        simp only [List.getElem?_cons_succ]
        rw [this]
        simp
  have := iter n k l h hok hkn
  rw [this, if_neg (by omega)]

example : ∃ t, (showTable ⟨[["a", "b"], ["c"]], ["V", "Hz"], [.scalar 1, .scalar 2], some [3, 4], some 5, some "now"⟩).1 =
    .ok ((5, "now"), t) ∧ RightTable [["a", "b"], ["c"]] [1, 2] [3, 4] ["V", "Hz"] t :=
  C181_table_partial _ [1, 2] [3, 4] rfl (by simp) rfl rfl rfl (.inl rfl) _ _ rfl rfl

end C3.Optim.Loggers
