import Mathlib.Data.EReal.Basic
import Mathlib.Data.List.Induction
import Mathlib.Algebra.Order.Round
import Mathlib.Algebra.Order.Floor.Ring
import Mathlib.Tactic.Linarith
import Mathlib.Tactic.NormNum

/-!
# C70, C71, C72: best point, crash safety, gradients

Models c3/optimizers/optimizer.py:32-58 (`__init__`), 173-200 (`log_parameters`), 217-241
(`lookup_gradient`), the bookkeeping of 243-313 (`fct_to_min`, `fct_to_min_autograd`) and the writing of
c3/parametermap.py:92-116 (`store_values`).

Goals are `Option EReal`: `none` is NaN, which compares false with everything, and infinities are kept.
-/

namespace C3.Optim

/-! ## Model: best point and log -/

/-- c3/optimizers/optimizer.py:43: the initial `current_best_goal`. -/
noncomputable def initGoal : EReal := ((9876543210.123456789 : ℝ) : EReal)

/-- State of an optimizer that `log_parameters` reads or writes; `P` are the parameter values in
`optim_status["params"]`. `bestFile` is the file `best_point_...`, `log` the log file. -/
structure OptState (P : Type) where
  bestGoal : EReal
  bestParams : Option P
  bestFile : Option (P × EReal)
  log : List (P × Option EReal)

noncomputable def OptState.init (P : Type) : OptState P := ⟨initGoal, none, none, []⟩

open scoped Classical in
/-- c3/optimizers/optimizer.py:173-200 `log_parameters`. -/
noncomputable def logParameters {P : Type} (s : OptState P) (params : P) (goal : Option EReal) : OptState P :=
  let s := match goal with
    | none => s
    | some g => if g < s.bestGoal then ⟨g, some params, some (params, g), s.log⟩ else s
  { s with log := s.log ++ [(params, goal)] }

/-- One call of `fct_to_min`: evaluated, or left by an exception in the goal function. -/
inductive Ev (P : Type) where
  | done (params : P) (goal : Option EReal)
  | raised

/-- c3/optimizers/optimizer.py:260-275: an exception passes `log_parameters`. -/
noncomputable def step {P : Type} (s : OptState P) : Ev P → OptState P
  | .done p g => logParameters s p g
  | .raised => s

noncomputable def runLog {P : Type} (s : OptState P) (es : List (Ev P)) : OptState P := es.foldl step s

/-! ## C70 -/

/-- C70 for every history of evaluations, also with NaN, infinite goals and exceptions. The stored best
goal is below all goals seen. If some goal was below the initial value, the stored best goal is the goal
of an evaluation, the stored parameters and the file belong to it, and all evaluations before it were
worse. Otherwise nothing is stored. Missing: goals not below the initial 9876543210.12, see
`C70_false_large`. -/
theorem C70_best_partial {P : Type} (es : List (Ev P)) :
    let s := runLog (OptState.init P) es
    (∀ p g, Ev.done p (some g) ∈ es → s.bestGoal ≤ g) ∧
    ((∃ p g, Ev.done p (some g) ∈ es ∧ g < initGoal) →
      ∃ pre p post, es = pre ++ Ev.done p (some s.bestGoal) :: post ∧ s.bestParams = some p ∧
        s.bestFile = some (p, s.bestGoal) ∧ ∀ q g, Ev.done q (some g) ∈ pre → s.bestGoal < g) ∧
    ((∀ p g, Ev.done p (some g) ∈ es → initGoal ≤ g) → s.bestGoal = initGoal ∧ s.bestParams = none ∧
      s.bestFile = none) := by
  induction es using List.reverseRecOn with
  | nil => simp [runLog, OptState.init]
  | append_singleton es e ih =>
    simp only at ih ⊢
    have hrun : runLog (OptState.init P) (es ++ [e]) = step (runLog (OptState.init P) es) e := by
      simp [runLog]
    rw [hrun]
    generalize runLog (OptState.init P) es = S at ih
    obtain ⟨h1, h2, h3⟩ := ih
    have hkeep : ∀ S' : OptState P, S'.bestGoal = S.bestGoal → S'.bestParams = S.bestParams →
        S'.bestFile = S.bestFile → (∀ p g, e = Ev.done p (some g) → S.bestGoal ≤ g) →
        (∀ p g, Ev.done p (some g) ∈ es ++ [e] → S'.bestGoal ≤ g) ∧
        ((∃ p g, Ev.done p (some g) ∈ es ++ [e] ∧ g < initGoal) →
          ∃ pre p post, es ++ [e] = pre ++ Ev.done p (some S'.bestGoal) :: post ∧ S'.bestParams = some p ∧
            S'.bestFile = some (p, S'.bestGoal) ∧ ∀ q g, Ev.done q (some g) ∈ pre → S'.bestGoal < g) ∧
        ((∀ p g, Ev.done p (some g) ∈ es ++ [e] → initGoal ≤ g) → S'.bestGoal = initGoal ∧
          S'.bestParams = none ∧ S'.bestFile = none) := by
      intro S' e1 e2 e3 he
      rw [e1, e2, e3]
      refine ⟨?_, ?_, ?_⟩
      · intro p g hm
        rcases List.mem_append.1 hm with hm | hm
        · exact h1 p g hm
        · exact he p g (List.mem_singleton.1 hm).symm
      · rintro ⟨p, g, hm, hlt⟩
        have : ∃ p g, Ev.done p (some g) ∈ es ∧ g < initGoal := by
          by_contra hno
          push Not at hno
          have h3' := (h3 hno).1
          rcases List.mem_append.1 hm with hm | hm
          · exact absurd hlt (not_lt.2 (hno p g hm))
          · have := he p g (List.mem_singleton.1 hm).symm
            rw [h3'] at this
            exact absurd hlt (not_lt.2 this)
        obtain ⟨pre, p, post, hes, a, b, c⟩ := h2 this
        exact ⟨pre, p, post ++ [e], by conv_lhs => rw [hes]
                                       simp, a, b, c⟩
      · intro hall
        exact h3 fun p g hm => hall p g (List.mem_append_left _ hm)
    cases e with
    | raised => exact hkeep S rfl rfl rfl (by simp)
    | done p g =>
      cases g with
      | none => exact hkeep _ rfl rfl rfl (by simp)
      | some g =>
        simp only [step, logParameters]
        by_cases hlt : g < S.bestGoal
        · rw [if_pos hlt]
          simp only
          have hle : S.bestGoal ≤ initGoal := by
            by_cases h : ∀ p g, Ev.done p (some g) ∈ es → initGoal ≤ g
            · exact (h3 h).1.le
            · push Not at h
              obtain ⟨p, g, hm, hl⟩ := h
              exact ((h1 p g hm).trans_lt hl).le
          refine ⟨?_, ?_, ?_⟩
          · intro p' g' hm
            rcases List.mem_append.1 hm with hm | hm
            · exact hlt.le.trans (h1 p' g' hm)
            · simp only [List.mem_singleton, Ev.done.injEq, Option.some.injEq] at hm
              exact hm.2.ge
          · rintro -
            exact ⟨es, p, [], rfl, rfl, rfl, fun q g' hm => hlt.trans_le (h1 q g' hm)⟩
          · intro hall
            exact absurd (hlt.trans_le hle) (not_lt.2 (hall p g (by simp)))
        · rw [if_neg hlt]
          refine hkeep _ rfl rfl rfl ?_
          intro p' g' he
          simp only [Ev.done.injEq, Option.some.injEq] at he
          rw [← he.2]
          exact not_lt.1 hlt

/-- C70: every finished evaluation is in the log, in order and with its goal. -/
theorem C70_log {P : Type} (s : OptState P) (es : List (Ev P)) :
    (runLog s es).log = s.log ++ es.filterMap fun e => match e with
      | .done p g => some (p, g)
      | .raised => none := by
  induction es generalizing s with
  | nil => simp [runLog]
  | cons e es ih =>
    have : runLog s (e :: es) = runLog (step s e) es := rfl
    rw [this, ih]
    cases e with
    | raised => simp [step]
    | done p g =>
      have hl : (step s (.done p g)).log = s.log ++ [(p, g)] := by
        simp only [step, logParameters]
        cases g with
        | none => rfl
        | some g =>
          simp only
          split <;> rfl
      rw [hl]
      simp

/-- C70: with goals not below 9876543210.12 no best point is stored although there are evaluations. -/
theorem C70_false_large : ∃ es : List (Ev ℕ), es ≠ [] ∧ (∀ e ∈ es, ∃ p g, e = Ev.done p (some g)) ∧
    (runLog (OptState.init ℕ) es).bestParams = none ∧ (runLog (OptState.init ℕ) es).bestFile = none ∧
    ∀ p g, Ev.done p (some g) ∈ es → (runLog (OptState.init ℕ) es).bestGoal < g := by
  have hlt : initGoal < ((1e10 : ℝ) : EReal) := by
    unfold initGoal
    rw [EReal.coe_lt_coe_iff]
    norm_num
  have h := (C70_best_partial [Ev.done 0 (some ((1e10 : ℝ) : EReal))]).2.2 (by
    intro p g hm
    simp only [List.mem_singleton, Ev.done.injEq, Option.some.injEq] at hm
    rw [hm.2]
    exact hlt.le)
  refine ⟨[Ev.done 0 (some ((1e10 : ℝ) : EReal))], by simp, by simp, h.2.1, h.2.2, ?_⟩
  intro p g hm
  simp only [List.mem_singleton, Ev.done.injEq, Option.some.injEq] at hm
  rw [hm.2, h.1]
  exact hlt

example : (runLog (OptState.init ℕ) [.done 0 (some 5), .done 1 none, .raised, .done 2 (some 3),
    .done 3 (some 3), .done 4 (some ⊤)]).bestParams = some 2 := by
  have hi : ∀ n : ℕ, n ≤ 10 → ((n : ℝ) : EReal) < initGoal := by
    intro n hn
    unfold initGoal
    rw [EReal.coe_lt_coe_iff]
    have : (n : ℝ) ≤ 10 := by exact_mod_cast hn
    linarith
  have h5 : (5 : EReal) < initGoal := by exact_mod_cast hi 5 (by norm_num)
  have h35 : (3 : EReal) < 5 := by exact_mod_cast (by norm_num : (3 : ℝ) < 5)
  simp [runLog, step, logParameters, OptState.init, h5, h35]

/-! ## C71 -/

/-- Writing a file (c3/parametermap.py:109-116): the file on disk, what is still buffered, and whether the
file has been opened. -/
structure FileSt where
  disk : Option (List Char)
  todo : List (List Char)
  buffer : List Char
  opened : Bool

/-- The steps of `with open(path, "w")`: opening truncates; each `write` appends to the buffer; the
buffer may go to the disk in pieces at any time (at the latest when the file is closed). -/
inductive FStep : FileSt → FileSt → Prop where
  | open {d t} : FStep ⟨d, t, [], false⟩ ⟨some [], t, [], true⟩
  | write {d w t b} : FStep ⟨d, w :: t, b, true⟩ ⟨d, t, b ++ w, true⟩
  | flush {d t b c} : FStep ⟨some d, t, b ++ c, true⟩ ⟨some (d ++ b), t, c, true⟩

/-- States in which a crash may happen while `chunks` replace the old content. -/
inductive Reach (old : Option (List Char)) (chunks : List (List Char)) : FileSt → Prop where
  | start : Reach old chunks ⟨old, chunks, [], false⟩
  | step {a b} : Reach old chunks a → FStep a b → Reach old chunks b

/-- C71, what holds: at every crash point the best-point file is the old one or a prefix of the new one.
Missing: proper prefixes, see `C71_false`. -/
theorem C71_prefix_partial (old : Option (List Char)) (chunks : List (List Char)) (s : FileSt)
    (h : Reach old chunks s) :
    s.disk = old ∨ ∃ d, s.disk = some d ∧ d <+: chunks.flatten := by
  have inv : (s.opened = false ∧ s.disk = old ∧ s.todo = chunks ∧ s.buffer = []) ∨
      (s.opened = true ∧ ∃ d, s.disk = some d ∧ d ++ s.buffer ++ s.todo.flatten = chunks.flatten) := by
    induction h with
    | start => exact Or.inl ⟨rfl, rfl, rfl, rfl⟩
    | step _ hs ih =>
      cases hs with
      | «open» =>
        rcases ih with ⟨_, _, h, _⟩ | ⟨h, _⟩
        · exact Or.inr ⟨rfl, [], rfl, by simp_all⟩
        · simp at h
      | write =>
        rcases ih with ⟨h, _⟩ | ⟨_, d, h1, h2⟩
        · simp at h
        · exact Or.inr ⟨rfl, d, h1, by simpa using h2⟩
      | @flush d0 _ b _ =>
        rcases ih with ⟨h, _⟩ | ⟨_, d, h1, h2⟩
        · simp at h
        · simp only [Option.some.injEq] at h1
          subst h1
          exact Or.inr ⟨rfl, d0 ++ b, rfl, by simpa using h2⟩
  rcases inv with ⟨_, h, _⟩ | ⟨_, d, h1, h2⟩
  · exact Or.inl h
  · exact Or.inr ⟨d, h1, ⟨s.buffer ++ s.todo.flatten, by rw [← List.append_assoc]; exact h2⟩⟩

/-- C71: the completed write holds the new content. -/
theorem C71_complete (old : Option (List Char)) (chunks : List (List Char)) :
    Reach old chunks ⟨some chunks.flatten, [], [], true⟩ := by
  have h0 : Reach old chunks ⟨some [], chunks, [], true⟩ := .step .start .open
  have h1 : ∀ (l : List (List Char)) b, Reach old chunks ⟨some [], l, b, true⟩ →
      Reach old chunks ⟨some [], [], b ++ l.flatten, true⟩ := by
    intro l
    induction l with
    | nil => intro b hb; simpa using hb
    | cons w l ih =>
      intro b hb
      have := ih _ (.step hb .write)
      simpa using this
  have h2 := h1 chunks [] h0
  have h3 : FStep ⟨some [], [], [] ++ chunks.flatten, true⟩ ⟨some ([] ++ chunks.flatten), [], [], true⟩ := by
    have := @FStep.flush [] [] ([] ++ chunks.flatten) []
    simpa using this
  have := Reach.step h2 h3
  simpa using this

/-- C71: a crash right after opening loses the previous best point: whatever the two contents are (not
empty), there is a crash point where the file is neither. -/
theorem C71_false (old : List Char) (chunks : List (List Char)) (ho : old ≠ []) (hn : chunks.flatten ≠ []) :
    ∃ s, Reach (some old) chunks s ∧ s.disk ≠ some old ∧ s.disk ≠ some chunks.flatten := by
  refine ⟨⟨some [], chunks, [], true⟩, .step .start .open, ?_, ?_⟩
  · simpa using ho.symm
  · simpa using hn.symm

/-- Appending to the log (c3/optimizers/optimizer.py:190-197): opening with "a" keeps the content. -/
inductive AStep : FileSt → FileSt → Prop where
  | open {d t} : AStep ⟨some d, t, [], false⟩ ⟨some d, t, [], true⟩
  | write {d w t b} : AStep ⟨d, w :: t, b, true⟩ ⟨d, t, b ++ w, true⟩
  | flush {d t b c} : AStep ⟨some d, t, b ++ c, true⟩ ⟨some (d ++ b), t, c, true⟩

inductive AReach (old : List Char) (chunks : List (List Char)) : FileSt → Prop where
  | start : AReach old chunks ⟨some old, chunks, [], false⟩
  | step {a b} : AReach old chunks a → AStep a b → AReach old chunks b

/-- C71: the log file loses at most the entry being written: at every crash point it is the old log
followed by a prefix of the new entry. -/
theorem C71_log (old : List Char) (chunks : List (List Char)) (s : FileSt) (h : AReach old chunks s) :
    ∃ d, s.disk = some (old ++ d) ∧ d <+: chunks.flatten := by
  have inv : (s.opened = false ∧ s.disk = some old ∧ s.todo = chunks ∧ s.buffer = []) ∨
      (s.opened = true ∧ ∃ d, s.disk = some (old ++ d) ∧ d ++ s.buffer ++ s.todo.flatten = chunks.flatten) := by
    induction h with
    | start => exact Or.inl ⟨rfl, rfl, rfl, rfl⟩
    | step _ hs ih =>
      cases hs with
      | «open» =>
        rcases ih with ⟨_, h1, h2, _⟩ | ⟨h, _⟩
        · refine Or.inr ⟨rfl, [], ?_, by simp_all⟩
          simpa using h1
        · simp at h
      | write =>
        rcases ih with ⟨h, _⟩ | ⟨_, d, h1, h2⟩
        · simp at h
        · exact Or.inr ⟨rfl, d, h1, by simpa using h2⟩
      | @flush d0 _ b _ =>
        rcases ih with ⟨h, _⟩ | ⟨_, d, h1, h2⟩
        · simp at h
        · simp only [Option.some.injEq] at h1
          subst h1
          exact Or.inr ⟨rfl, d ++ b, by simp, by simpa using h2⟩
  rcases inv with ⟨_, h, _⟩ | ⟨_, d, h1, h2⟩
  · exact ⟨[], by simpa using h, List.nil_prefix⟩
  · exact ⟨d, h1, ⟨s.buffer ++ s.todo.flatten, by rw [← List.append_assoc]; exact h2⟩⟩

example : Reach (some ['o', 'l', 'd']) [['n', 'e', 'w'], ['\n']] ⟨some ['n', 'e', 'w', '\n'], [], [], true⟩ :=
  C71_complete _ _

/-! ## C72 -/

/-- A component of a gradient as a float. -/
inductive GVal where
  | fin (x : ℝ)
  | nan
  | inf

/-- c3/optimizers/optimizer.py:233-240: bad entries become 1e-10. -/
noncomputable def cleanVal : GVal → ℝ
  | .fin x => x
  | .nan => 1e-10
  | .inf => 1e-10

noncomputable def clean (g : List GVal) : List ℝ := g.map cleanVal

/-- Calls that touch `self.gradients`. -/
inductive GOp (X : Type) where
  | eval (x : X) (g : List GVal)
  | lookup (x : X)

/-- The point a call is about. -/
def GOp.pt {X : Type} : GOp X → X
  | .eval x _ => x
  | .lookup x => x

/-- The dictionary `self.gradients`. -/
abbrev GDict (K : Type) := K → Option (List GVal)

section Grad

variable {X K : Type} [DecidableEq K] (key : X → K)

/-- c3/optimizers/optimizer.py:302 in `fct_to_min_autograd`. -/
def gradStore (d : GDict K) (x : X) (g : List GVal) : GDict K := fun k => if k = key x then some g else d k

/-- c3/optimizers/optimizer.py:217-241 `lookup_gradient`: the result (`none` is a `KeyError`) and the
dictionary afterwards. -/
noncomputable def gradLookup (d : GDict K) (x : X) : Option (List ℝ) × GDict K :=
  match d (key x) with
  | none => (none, d)
  | some g => (some (clean g), fun k => if k = key x then none else d k)

noncomputable def gstep (d : GDict K) : GOp X → GDict K
  | .eval x g => gradStore key d x g
  | .lookup x => (gradLookup key d x).2

noncomputable def grun (d : GDict K) (ops : List (GOp X)) : GDict K := ops.foldl (gstep key) d

/-- C72, for every interleaving: what is stored under a key is the gradient of the latest evaluation
with this key, unless it has been looked up since. -/
theorem C72_history (ops : List (GOp X)) (k : K) (g : List GVal) :
    grun key (fun _ => none) ops k = some g ↔
      ∃ pre x post, ops = pre ++ .eval x g :: post ∧ key x = k ∧
        ∀ o ∈ post, key o.pt ≠ k := by
  induction ops using List.reverseRecOn with
  | nil => simp [grun]
  | append_singleton ops o ih =>
    have hr : grun key (fun _ => none) (ops ++ [o]) = gstep key (grun key (fun _ => none) ops) o := by
      simp [grun]
    rw [hr]
    generalize grun key (fun _ => none) ops = D at ih
    have hback : (∃ pre x post, ops ++ [o] = pre ++ GOp.eval x g :: post ∧ key x = k ∧
        ∀ o ∈ post, key o.pt ≠ k) ↔
      (∃ x, o = .eval x g ∧ key x = k) ∨ (D k = some g ∧ key o.pt ≠ k) := by
      rw [ih]
      constructor
      · rintro ⟨pre, x, post, heq, h1, h2⟩
        rcases List.eq_nil_or_concat post with rfl | ⟨post', f, rfl⟩
        · have h := List.append_inj_right' heq rfl
          simp only [List.cons.injEq, and_true] at h
          exact Or.inl ⟨x, h, h1⟩
        · rw [List.concat_eq_append, ← List.cons_append, ← List.append_assoc] at heq
          have hf := List.append_inj_right' heq rfl
          have hl := List.append_inj_left' heq rfl
          simp only [List.cons.injEq, and_true] at hf
          subst hf
          refine Or.inr ⟨⟨pre, x, post', hl, h1, fun f hf => h2 f ?_⟩, h2 o ?_⟩
          · rw [List.concat_eq_append]; exact List.mem_append_left _ hf
          · rw [List.concat_eq_append]; simp
      · rintro (⟨x, rfl, h1⟩ | ⟨⟨pre, x, post, rfl, h1, h2⟩, h3⟩)
        · exact ⟨ops, x, [], rfl, h1, by simp⟩
        · refine ⟨pre, x, post ++ [o], by simp, h1, ?_⟩
          intro f hf
          rcases List.mem_append.1 hf with hf | hf
          · exact h2 f hf
          · rw [List.mem_singleton] at hf
            subst hf
            exact h3
    rw [hback]
    cases o with
    | eval y g' =>
      simp only [gstep, gradStore]
      by_cases hk : key y = k
      · rw [if_pos hk.symm]
        simp only [Option.some.injEq, GOp.eval.injEq, GOp.pt, hk, ne_eq, not_true, and_false, or_false]
        constructor
        · rintro rfl
          exact ⟨y, ⟨rfl, rfl⟩, hk⟩
        · rintro ⟨x, ⟨_, h⟩, _⟩
          exact h
      · rw [if_neg (Ne.symm hk)]
        simp only [GOp.eval.injEq, GOp.pt, ne_eq, hk, not_false_iff, and_true]
        constructor
        · exact Or.inr
        · rintro (⟨x, ⟨rfl, _⟩, h⟩ | h)
          · exact absurd h hk
          · exact h
    | lookup y =>
      simp only [gstep, gradLookup]
      by_cases hk : key y = k
      · subst hk
        cases hd : D (key y) with
        | none => simp [hd, GOp.pt]
        | some v => simp [GOp.pt]
      · have : (match D (key y) with
            | none => ((none, D) : Option (List ℝ) × GDict K)
            | some g => (some (clean g), fun k => if k = key y then none else D k)).2 k = D k := by
          cases D (key y) with
          | none => rfl
          | some v => simp [Ne.symm hk]
        rw [this]
        simp [hk, GOp.pt]

/-- C72: a lookup directly after the evaluation returns its gradient, whatever happened before. -/
theorem C72_immediate (d : GDict K) (x : X) (g : List GVal) :
    (gradLookup key (gradStore key d x g) x).1 = some (clean g) := by
  simp [gradLookup, gradStore]

/-- C72: the second lookup raises, whatever happens to other keys in between. -/
theorem C72_second_raises (d : GDict K) (x : X) : (gradLookup key (gradLookup key d x).2 x).1 = none := by
  simp only [gradLookup]
  cases h : d (key x) with
  | none => simp [h]
  | some g => simp

/-- C72: if different points have different keys, the gradient returned for `x` is the one of the latest
evaluation at `x`. Missing: the keys used by the code are not injective, see `C72_false_round` and
`C72_false_long`. -/
theorem C72_queried_partial (ops : List (GOp X)) (x : X) (r : List ℝ)
    (hinj : ∀ y g, GOp.eval y g ∈ ops → key y = key x → y = x)
    (h : (gradLookup key (grun key (fun _ => none) ops) x).1 = some r) :
    ∃ pre g post, ops = pre ++ .eval x g :: post ∧ r = clean g ∧ (∀ g', GOp.eval x g' ∉ post) ∧
      GOp.lookup x ∉ post := by
  unfold gradLookup at h
  split at h
  · simp at h
  · rename_i g hg
    simp only [Option.some.injEq] at h
    obtain ⟨pre, y, post, hops, hk, hpost⟩ := (C72_history key ops (key x) g).1 hg
    have hy : y = x := hinj y g (by rw [hops]; simp) hk
    subst hy
    refine ⟨pre, g, post, hops, h.symm, ?_, ?_⟩
    · intro g' hm
      exact (hpost _ hm) rfl
    · intro hm
      exact (hpost _ hm) rfl

/-- C72: the entries returned are those stored, with NaN and infinities replaced. -/
theorem C72_clean (g : List GVal) : (clean g).length = g.length ∧ ∀ (n : ℕ) (hn : n < g.length)
    (hn' : n < (clean g).length), (∀ x, g[n] = .fin x → (clean g)[n] = x) ∧
      ((g[n] = .nan ∨ g[n] = .inf) → (clean g)[n] = 1e-10) := by
  refine ⟨by simp [clean], ?_⟩
  intro n hn hn'
  simp only [clean, List.getElem_map]
  refine ⟨fun x hx => by rw [hx]; rfl, ?_⟩
  rintro (h | h) <;> rw [h] <;> rfl

end Grad

/-- numpy's `str` of a float vector with entries of magnitude between 1e-4 and 1: eight decimals, and
from more than 1000 entries only the first and last three (numpy print options `precision=8`,
`threshold=1000`, `edgeitems=3`). The Boolean records the dots. -/
noncomputable def npKey (x : List ℝ) : List ℤ × Bool :=
  if x.length ≤ 1000 then (x.map fun v => round (v * 10 ^ 8), false)
  else ((x.take 3 ++ x.drop (x.length - 3)).map fun v => round (v * 10 ^ 8), true)

/-- C72: two points that agree in eight decimals share a gradient: after evaluating both, the lookup at
the first returns the gradient of the second, and the lookup at the second raises. -/
theorem C72_false_round : ∃ (x y : List ℝ) (g h : List GVal), x ≠ y ∧ clean g ≠ clean h ∧
    let d := grun npKey (fun _ => none) [.eval x g, .eval y h]
    (gradLookup npKey d x).1 = some (clean h) ∧
    (gradLookup npKey (gradLookup npKey d x).2 y).1 = none := by
  have hk : npKey [1 / 2] = npKey [1 / 2 + 1 / 10 ^ 10] := by
    unfold npKey
    simp only [List.length_singleton, Nat.one_le_ofNat, if_true, List.map_cons, List.map_nil]
    have h1 : round ((1 / 2 : ℝ) * 10 ^ 8) = 50000000 := by
      rw [round_eq, Int.floor_eq_iff]
      norm_num
    have h2 : round ((1 / 2 + 1 / 10 ^ 10 : ℝ) * 10 ^ 8) = 50000000 := by
      rw [round_eq, Int.floor_eq_iff]
      norm_num
    rw [h1, h2]
  refine ⟨[1 / 2], [1 / 2 + 1 / 10 ^ 10], [.fin 1], [.fin 2], by norm_num, by norm_num [clean, cleanVal], ?_, ?_⟩
  · simp only [grun, gstep, gradStore, gradLookup, hk, List.foldl, if_true]
  · simp only [grun, gstep, gradStore, gradLookup, hk, List.foldl, if_true]

/-- C72: with more than 1000 parameters, points that differ anywhere but in the first and last three
entries share a gradient. -/
theorem C72_false_long (a b : List ℝ) (x y : List ℝ) (ha : a.length = 3) (hb : b.length = 3)
    (hl : x.length = y.length) (hx : 995 ≤ x.length) : npKey (a ++ x ++ b) = npKey (a ++ y ++ b) := by
  have hgen : ∀ z : List ℝ, 995 ≤ z.length →
      npKey (a ++ z ++ b) = ((a ++ b).map fun v => round (v * 10 ^ 8), true) := by
    intro z hz
    unfold npKey
    rw [if_neg (by simp [ha, hb]; omega)]
    have h1 : (a ++ z ++ b).take 3 = a := by
      rw [List.append_assoc, ← ha, List.take_left]
    have h2 : (a ++ z ++ b).drop ((a ++ z ++ b).length - 3) = b := by
      have : (a ++ z ++ b).length - 3 = (a ++ z).length := by simp [hb]; omega
      rw [this, List.drop_left]
    rw [h1, h2]
  rw [hgen x hx, hgen y (by omega)]

example : (gradLookup npKey (grun npKey (fun _ => none) [.eval [1 / 2] [.fin 1, .nan], .eval [1 / 4] [.inf],
    .lookup [1 / 4]]) [1 / 2]).1 = some [1, 1e-10] := by
  have h1 : round ((1 / 2 : ℝ) * 10 ^ 8) = 50000000 := by
    rw [round_eq, Int.floor_eq_iff]
    norm_num
  have h2 : round ((1 / 4 : ℝ) * 10 ^ 8) = 25000000 := by
    rw [round_eq, Int.floor_eq_iff]
    norm_num
  have hk : npKey [1 / 2] ≠ npKey [1 / 4] := by
    simp only [npKey, List.length_singleton, Nat.one_le_ofNat, if_true, List.map_cons, List.map_nil, h1, h2]
    decide
  simp only [grun, gstep, gradStore, gradLookup, hk, List.foldl, if_true, if_false, clean, cleanVal,
    List.map_cons, List.map_nil]

end C3.Optim
