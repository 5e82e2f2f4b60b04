import Mathlib.Data.Real.Basic
import Mathlib.Data.List.Basic
import Mathlib.Tactic.Linarith
import Mathlib.Tactic.Ring
import Mathlib.Tactic.FieldSimp
import Mathlib.Tactic.NormNum
import Mathlib.Tactic.Positivity
import Verif.Optim.GoalFuncs

/-!
# Adaptive scan, gradient descent, the two-stage optimization and the table of algorithms (C182-C185)

Models c3/libraries/algorithms.py:163-235 (`adaptive_scan`), 238-292 (`tf_sgd`), 295-389 (the unregistered
wrappers), 392-449 (`lbfgs`, `lbfgs_grad_free`), 569-590 (`cma_pre_lbfgs`), 669-671 (`oneplusone`) and the
registry `algorithms` (17-26), as it is used by the optimizers (optimalcontrol.py:71, 180-186;
calibration.py:49, 102-108; modellearning.py and sensitivity.py).

Trusted: `tf.keras.optimizers.SGD` updates `v ← m v - η g`, `x ← x + v`; scipy ignores options its solver does
not know, and selects BFGS if no method, bounds or constraints are given.
-/

noncomputable section

namespace C3.Optim.Scans

open C3.Optim.GoalFuncs (Func Param bind Fits bind_ok_iff CallErr)

/-! ## adaptive_scan -/

/-- An entry of the option `probe_list`: a string containing a number, or anything else. -/
inductive Lit where
  | str (x : ℝ)
  | notStr
  deriving Inhabited

inductive Err where
  | valueError
  | keyError (k : String)
  deriving DecidableEq

/-- The options of the scan; `bounds` is the list of intervals. -/
structure ScanOpts where
  probes : Option (List Lit)
  initPoint : Option Bool
  bounds : List (ℝ × ℝ)

/-- c3/libraries/algorithms.py:198-201: `ast.literal_eval` accepts strings only. -/
def readProbes : List Lit → Except Err (List ℝ)
  | [] => .ok []
  | .notStr :: _ => .error .valueError
  | .str x :: l => match readProbes l with
    | .ok r => .ok (x :: r)
    | .error e => .error e

/-- c3/libraries/algorithms.py:191-218: the probes and the widened interval, or an exception. The initial point
is an array; comparing it with numbers works for one entry only. `min` of an empty list raises. -/
def scanSetup (xInit : List ℝ) (o : ScanOpts) : Except Err (List ℝ × ℝ × ℝ) :=
  match readProbes (o.probes.getD []) with
  | .error e => .error e
  | .ok ps =>
    let all : Except Err (List ℝ) := if o.initPoint = some true then
        (match xInit with
          | [x] => .ok (ps ++ [x])
          | _ => .error .valueError)
      else .ok ps
    match all with
    | .error e => .error e
    | .ok ps => match o.bounds with
      | [] => .error .valueError
      | (a, b) :: _ => match ps with
        | [] => .error .valueError
        | p :: l => .ok (p :: l, min a (l.foldl min p), max b (l.foldl max p))

/-- c3/libraries/algorithms.py:163-235 `adaptive_scan`: the evaluated points, the exception, and the options
afterwards (`init_point` is taken out). `ask` stands for the sampling strategy of the package `adaptive`: the
points chosen for an interval after some probes. -/
def scan (ask : List ℝ → ℝ → ℝ → List ℝ) (xInit : List ℝ) (o : ScanOpts) : List ℝ × Option Err × ScanOpts :=
  let o' : ScanOpts := match readProbes (o.probes.getD []) with
    | .ok _ => { o with initPoint := none }
    | .error _ => o
  match scanSetup xInit o with
  | .error e => ([], some e, o')
  | .ok (ps, a, b) => (ps ++ ask ps a b, none, o')

/-- Points the user asks to include: the probes and, if asked, the initial point. -/
def asked (ps : List ℝ) (x : ℝ) (o : ScanOpts) : List ℝ := if o.initPoint = some true then ps ++ [x] else ps

theorem readProbes_str (ps : List ℝ) : readProbes (ps.map .str) = .ok ps := by
  induction ps with
  | nil => rfl
  | cons p ps ih => simp [readProbes, ih]

theorem foldl_min_spec (p : ℝ) (l : List ℝ) : l.foldl min p ∈ p :: l ∧ ∀ q ∈ p :: l, l.foldl min p ≤ q := by
  induction l generalizing p with
  | nil => simp
  | cons a l ih =>
    obtain ⟨h1, h2⟩ := ih (min p a)
    simp only [List.foldl_cons]
    constructor
    · rcases List.mem_cons.1 h1 with h | h
      · rw [h]; rcases min_choice p a with h | h <;> rw [h] <;> simp
      · exact List.mem_cons_of_mem _ (List.mem_cons_of_mem _ h)
    · intro q hq
      have hm := h2 (min p a) (by simp)
      rcases List.mem_cons.1 hq with rfl | hq
      · exact hm.trans (min_le_left _ _)
      · rcases List.mem_cons.1 hq with rfl | hq
        · exact hm.trans (min_le_right _ _)
        · exact h2 q (List.mem_cons_of_mem _ hq)

theorem foldl_max_spec (p : ℝ) (l : List ℝ) : l.foldl max p ∈ p :: l ∧ ∀ q ∈ p :: l, q ≤ l.foldl max p := by
  induction l generalizing p with
  | nil => simp
  | cons a l ih =>
    obtain ⟨h1, h2⟩ := ih (max p a)
    simp only [List.foldl_cons]
    constructor
    · rcases List.mem_cons.1 h1 with h | h
      · rw [h]; rcases max_choice p a with h | h <;> rw [h] <;> simp
      · exact List.mem_cons_of_mem _ (List.mem_cons_of_mem _ h)
    · intro q hq
      have hm := h2 (max p a) (by simp)
      rcases List.mem_cons.1 hq with rfl | hq
      · exact (le_max_left _ _).trans hm
      · rcases List.mem_cons.1 hq with rfl | hq
        · exact (le_max_right _ _).trans hm
        · exact h2 q (List.mem_cons_of_mem _ hq)

/-- C182, what holds: with one parameter, probes given as strings and at least one point asked for, the scan
first evaluates exactly these points in order, and samples the smallest interval that contains the bounds and all
of them. -/
theorem C182_scan_partial (ask : List ℝ → ℝ → ℝ → List ℝ) (x : ℝ) (o : ScanOpts) (ps : List ℝ) (a b : ℝ)
    (rest : List (ℝ × ℝ)) (hp : o.probes.getD [] = ps.map .str) (hb : o.bounds = (a, b) :: rest)
    (hne : asked ps x o ≠ []) :
    ∃ lo hi, (scan ask [x] o).1 = asked ps x o ++ ask (asked ps x o) lo hi ∧ (scan ask [x] o).2.1 = none ∧
      lo ≤ a ∧ b ≤ hi ∧ (∀ p ∈ asked ps x o, lo ≤ p ∧ p ≤ hi) ∧
      (∀ lo' hi', lo' ≤ a → b ≤ hi' → (∀ p ∈ asked ps x o, lo' ≤ p ∧ p ≤ hi') → lo' ≤ lo ∧ hi ≤ hi') := by
  have hset : ∀ p l, asked ps x o = p :: l →
      scanSetup [x] o = .ok (p :: l, min a (l.foldl min p), max b (l.foldl max p)) := by
    intro p l h
    unfold scanSetup
    simp only [hp, readProbes_str]
    unfold asked at h
    by_cases hi : o.initPoint = some true
    · simp only [hi, if_true] at h ⊢
      simp only [h, hb]
    · simp only [hi, if_false] at h ⊢
      simp only [h, hb]
  cases hq : asked ps x o with
  | nil => exact absurd hq hne
  | cons p l =>
    refine ⟨min a (l.foldl min p), max b (l.foldl max p), ?_, ?_, min_le_left _ _, le_max_left _ _, ?_, ?_⟩
    · simp [scan, hset p l hq]
    · simp [scan, hset p l hq]
    · intro q hq'
      exact ⟨(min_le_right _ _).trans ((foldl_min_spec p l).2 q hq'),
        ((foldl_max_spec p l).2 q hq').trans (le_max_right _ _)⟩
    · intro lo' hi' h1 h2 h3
      exact ⟨le_min h1 (h3 _ (foldl_min_spec p l).1).1, max_le h2 (h3 _ (foldl_max_spec p l).1).2⟩

/-- C182 fails: without probes and initial point nothing is evaluated, the scan raises for all bounds. -/
theorem C182_false_no_probes (ask : List ℝ → ℝ → ℝ → List ℝ) (xInit : List ℝ) (o : ScanOpts)
    (hp : o.probes.getD [] = []) (hi : o.initPoint ≠ some true) :
    (scan ask xInit o).1 = [] ∧ (scan ask xInit o).2.1 = some .valueError := by
  have : scanSetup xInit o = .error .valueError := by
    unfold scanSetup
    simp only [hp, readProbes, hi, if_false]
    cases o.bounds <;> rfl
  simp [scan, this]

/-- C182 fails: probes given as numbers, as the description of the option says, raise. -/
theorem C182_false_numbers (ask : List ℝ → ℝ → ℝ → List ℝ) (xInit : List ℝ) (o : ScanOpts) (l : List Lit)
    (hl : o.probes = some l) (hn : Lit.notStr ∈ l) : (scan ask xInit o).1 = [] ∧ (scan ask xInit o).2.1 = some .valueError := by
  have key : ∀ l : List Lit, Lit.notStr ∈ l → readProbes l = .error .valueError := by
    intro l
    induction l with
    | nil => intro h; simp at h
    | cons a l ih =>
      intro h
      cases a with
      | notStr => rfl
      | str x =>
        have := ih (by simpa using h)
        simp [readProbes, this]
  have : scanSetup xInit o = .error .valueError := by
    unfold scanSetup
    simp [hl, key l hn]
  simp [scan, this]

/-- C182 fails: with several parameters the initial point cannot be included. -/
theorem C182_false_several (ask : List ℝ → ℝ → ℝ → List ℝ) (xInit : List ℝ) (o : ScanOpts)
    (hi : o.initPoint = some true) (hx : xInit.length ≠ 1) :
    (scan ask xInit o).1 = [] ∧ (scan ask xInit o).2.1 = some .valueError := by
  have : scanSetup xInit o = .error .valueError := by
    unfold scanSetup
    cases hr : readProbes (o.probes.getD []) with
    | error e =>
      have : ∀ l e, readProbes l = .error e → e = .valueError := by
        intro l
        induction l with
        | nil => intro e h; simp [readProbes] at h
        | cons a l ih =>
          intro e h
          cases a with
          | notStr => simp [readProbes] at h; exact h.symm
          | str x =>
            cases hq : readProbes l with
            | ok r => simp [readProbes, hq] at h
            | error e' => simp [readProbes, hq] at h; rw [← h]; exact ih e' hq
      simp [this _ _ hr]
    | ok ps =>
      simp only [hi, if_true]
      match xInit, hx with
      | [], _ => rfl
      | [_], hx => simp at hx
      | _ :: _ :: _, _ => rfl
  simp [scan, this]

/-- C182 fails: a second scan with the same options does not include the initial point; without probes it
raises. -/
theorem C182_false_again (ask : List ℝ → ℝ → ℝ → List ℝ) (x a b : ℝ) :
    let o : ScanOpts := ⟨none, some true, [(a, b)]⟩
    (scan ask [x] o).2.1 = none ∧ (scan ask [x] (scan ask [x] o).2.2).2.1 = some .valueError := by
  simp [scan, scanSetup, readProbes]

example : asked [1, 2] 3 ⟨some [.str 1, .str 2], some true, [(0, 1)]⟩ ≠ [] := by simp [asked]

/-! ## tf_sgd -/

/-- The options of `tf_sgd`. -/
structure SgdOpts where
  maxfun : Bool
  maxiters : Option ℕ
  learningRate : Option ℝ
  momentum : Option ℝ

/-- One update of Keras' SGD with momentum on a list of numbers. -/
def sgdStep (lr m : ℝ) (grad : List ℝ → List ℝ) (s : List ℝ × List ℝ) : List ℝ × List ℝ :=
  let v := List.zipWith (fun v g => m * v - lr * g) s.2 (grad s.1)
  (List.zipWith (· + ·) s.1 v, v)

/-- c3/libraries/algorithms.py:287-289: each iteration evaluates the goal function in `minimize` and again
after the update for the message. -/
def sgdLoop (lr m : ℝ) (grad : List ℝ → List ℝ) : ℕ → List ℝ × List ℝ → List (List ℝ) × List ℝ
  | 0, s => ([], s.1)
  | n + 1, s =>
    let s' := sgdStep lr m grad s
    let (ev, x) := sgdLoop lr m grad n s'
    (s.1 :: s'.1 :: ev, x)

/-- c3/libraries/algorithms.py:238-292 `tf_sgd`: the evaluated points and the returned point. -/
def sgd (grad : List ℝ → List ℝ) (x0 : List ℝ) (o : SgdOpts) : Except Err (List (List ℝ) × List ℝ) :=
  if o.maxfun then .error (.keyError "Tensorflow Optimizers require a maxiters")
  else match o.maxiters with
    | none => .error (.keyError "maxiters")
    | some n => .ok (sgdLoop (o.learningRate.getD (1 / 10)) (o.momentum.getD (9 / 10)) grad n (x0, x0.map fun _ => 0))

/-! ### C183: specification -/

/-- Gradient descent with momentum: positions `x 0 = x0, x 1, ...` with
`x (n+1) = x n + m (x n - x (n-1)) - η ∇f(x n)`, entry by entry. -/
def HeavyBall (lr m : ℝ) (grad : List ℝ → List ℝ) (x : ℕ → List ℝ) : Prop :=
  ∀ (n j : ℕ) (a b g : ℝ), (x n)[j]? = some a → (grad (x n))[j]? = some g →
    ((n = 0 → (x 1)[j]? = some (a - lr * g)) ∧
     (∀ k, n = k + 1 → (x k)[j]? = some b → (x (n + 1))[j]? = some (a + m * (a - b) - lr * g)))

/-- The sequence of positions and velocities. -/
def orbit (lr m : ℝ) (grad : List ℝ → List ℝ) (x0 : List ℝ) : ℕ → List ℝ × List ℝ
  | 0 => (x0, x0.map fun _ => 0)
  | n + 1 => sgdStep lr m grad (orbit lr m grad x0 n)

theorem sgdLoop_eq (lr m : ℝ) (grad : List ℝ → List ℝ) (s : List ℝ × List ℝ) (it : ℕ → List ℝ × List ℝ)
    (h0 : it 0 = s) (hs : ∀ n, it (n + 1) = sgdStep lr m grad (it n)) (n : ℕ) :
    sgdLoop lr m grad n s = ((List.range n).flatMap fun i => [(it i).1, (it (i + 1)).1], (it n).1) := by
  induction n generalizing s it with
  | zero => simp [sgdLoop, h0]
  | succ n ih =>
    have h1 : it 1 = sgdStep lr m grad s := by rw [hs 0, h0]
    have := ih (it 1) (fun k => it (k + 1)) rfl (fun k => hs (k + 1))
    rw [sgdLoop, ← h1, this, List.range_succ_eq_map, List.flatMap_cons, List.flatMap_map]
    simp [h0]

/-- C183, what holds: `maxiters` iterations of gradient descent with momentum, each evaluating the goal function
at the old and at the new point; the last point is returned. -/
theorem C183_evaluations (grad : List ℝ → List ℝ) (x0 : List ℝ) (o : SgdOpts) (n : ℕ) (hf : o.maxfun = false)
    (hn : o.maxiters = some n) :
    let it := orbit (o.learningRate.getD (1 / 10)) (o.momentum.getD (9 / 10)) grad x0
    sgd grad x0 o = .ok ((List.range n).flatMap fun i => [(it i).1, (it (i + 1)).1], (it n).1) := by
  simp only [sgd, hf, hn, Bool.false_eq_true, if_false]
  exact congrArg Except.ok (sgdLoop_eq _ _ _ _ (orbit _ _ grad x0) rfl (fun _ => rfl) n)

/-- C183: the number of evaluations is twice the number of iterations. -/
theorem C183_count (grad : List ℝ → List ℝ) (x0 : List ℝ) (o : SgdOpts) (n : ℕ) (hf : o.maxfun = false)
    (hn : o.maxiters = some n) (r : List (List ℝ) × List ℝ) (h : sgd grad x0 o = .ok r) : r.1.length = 2 * n := by
  have := C183_evaluations grad x0 o n hf hn
  rw [h] at this
  simp only [Except.ok.injEq] at this
  rw [this]
  clear this h hn
  induction n with
  | zero => simp
  | succ n ih =>
    rw [List.range_succ, List.flatMap_append, List.length_append]
    simp only at ih ⊢
    rw [ih]
    simp
    omega

/-- C183: without `maxiters`, or with `maxfun`, nothing is evaluated. -/
theorem C183_refused (grad : List ℝ → List ℝ) (x0 : List ℝ) (o : SgdOpts) (h : o.maxfun = true ∨ o.maxiters = none) :
    ∃ k, sgd grad x0 o = .error (.keyError k) := by
  unfold sgd
  by_cases hm : o.maxfun = true
  · exact ⟨_, by simp only [hm, if_true]; rfl⟩
  · rcases h with h | h
    · exact absurd h hm
    · exact ⟨"maxiters", by simp [hm, h]⟩

theorem orbit_lengths (lr m : ℝ) (grad : List ℝ → List ℝ) (hg : ∀ x, (grad x).length = x.length) (x0 : List ℝ) (n : ℕ) :
    (orbit lr m grad x0 n).1.length = x0.length ∧ (orbit lr m grad x0 n).2.length = x0.length := by
  induction n with
  | zero => simp [orbit]
  | succ n ih => simp [orbit, sgdStep, hg, ih.1, ih.2]

/-- C183: the points are those of gradient descent with momentum. -/
theorem C183_heavy_ball (lr m : ℝ) (grad : List ℝ → List ℝ) (hg : ∀ x, (grad x).length = x.length) (x0 : List ℝ) :
    HeavyBall lr m grad fun n => (orbit lr m grad x0 n).1 := by
  intro n j a b g ha hgj
  have hj : j < x0.length := by
    have := (List.getElem?_eq_some_iff.1 ha).1
    rwa [(orbit_lengths lr m grad hg x0 n).1] at this
  have step : ∀ n a g v, (orbit lr m grad x0 n).1[j]? = some a → (grad (orbit lr m grad x0 n).1)[j]? = some g →
      (orbit lr m grad x0 n).2[j]? = some v →
      (orbit lr m grad x0 (n + 1)).1[j]? = some (a + (m * v - lr * g)) ∧
      (orbit lr m grad x0 (n + 1)).2[j]? = some (m * v - lr * g) := by
    intro n a g v h1 h2 h3
    simp [orbit, sgdStep, List.getElem?_zipWith, h1, h2, h3]
  constructor
  · rintro rfl
    have h0 : (orbit lr m grad x0 0).2[j]? = some 0 := by
      simp [orbit, hj]
    have := (step 0 a g 0 ha hgj h0).1
    rw [this]; congr 1; ring
  · rintro k rfl hb
    have hbk : ∃ v, (orbit lr m grad x0 k).2[j]? = some v := by
      have := (orbit_lengths lr m grad hg x0 k).2
      exact ⟨_, List.getElem?_eq_getElem (by rw [this]; exact hj)⟩
    obtain ⟨v, hv⟩ := hbk
    have hgk : ∃ g', (grad (orbit lr m grad x0 k).1)[j]? = some g' := by
      have := hg (orbit lr m grad x0 k).1
      have h2 := (orbit_lengths lr m grad hg x0 k).1
      exact ⟨_, List.getElem?_eq_getElem (by rw [this, h2]; exact hj)⟩
    obtain ⟨g', hg'⟩ := hgk
    obtain ⟨h1, h2⟩ := step k b g' v hb hg' hv
    have hab : a = b + (m * v - lr * g') := by
      simp only at ha
      rw [h1] at ha
      exact (Option.some.inj ha).symm
    have := (step (k + 1) a g _ ha hgj h2).1
    rw [this, hab]; congr 1; ring

/-- C183: a point with vanishing gradient is kept. -/
theorem C183_stationary (lr m : ℝ) (grad : List ℝ → List ℝ) (x0 : List ℝ) (h : grad x0 = x0.map fun _ => 0) (n : ℕ) :
    (orbit lr m grad x0 n).1 = x0 := by
  have : orbit lr m grad x0 n = (x0, x0.map fun _ => 0) := by
    induction n with
    | zero => rfl
    | succ n ih =>
      have hz : ∀ l : List ℝ, List.zipWith (fun v g => m * v - lr * g) (l.map fun _ => 0) (l.map fun _ => 0) =
          l.map fun _ => 0 := by
        intro l
        induction l with
        | nil => rfl
        | cons a l ih => simp
      have ha : ∀ l : List ℝ, List.zipWith (· + ·) l (l.map fun _ => 0) = l := by
        intro l
        induction l with
        | nil => rfl
        | cons a l ih =>
          simp only [List.map_cons, List.zipWith_cons_cons, add_zero, List.cons.injEq, true_and]
          exact ih
      simp only [orbit, ih, sgdStep, h, hz, ha]
  rw [this]

/-- C183: on a parabola of curvature `k` with minimum `c` the distance to the minimum decays at least like the
square root of the momentum per iteration, as long as `(1 + m - η k)² < 4 m`. -/
theorem C183_converges (lr m k c x0 : ℝ) (hk : (1 + m - lr * k) ^ 2 < 4 * m) :
    ∃ C : ℝ, ∀ n, ∃ x, (orbit lr m (fun l => l.map fun y => k * (y - c)) [x0] n).1 = [x] ∧ (x - c) ^ 2 ≤ C * m ^ n := by
  set a := 1 + m - lr * k with ha
  -- position and velocity as numbers
  let it : ℕ → ℝ × ℝ := fun n => Nat.rec (x0, 0) (fun _ s => (s.1 + (m * s.2 - lr * (k * (s.1 - c))), m * s.2 - lr * (k * (s.1 - c)))) n
  have hit : ∀ n, orbit lr m (fun l => l.map fun y => k * (y - c)) [x0] n = ([(it n).1], [(it n).2]) := by
    intro n
    induction n with
    | zero => simp [orbit, it]
    | succ n ih => simp [orbit, ih, sgdStep, it]
  have hs : ∀ n, it (n + 1) = ((it n).1 + (m * (it n).2 - lr * (k * ((it n).1 - c))), m * (it n).2 - lr * (k * ((it n).1 - c))) :=
    fun _ => rfl
  -- conserved quadratic form
  let Q : ℕ → ℝ := fun n => ((it (n + 1)).1 - c) ^ 2 - a * ((it (n + 1)).1 - c) * ((it n).1 - c) + m * ((it n).1 - c) ^ 2
  have hv : ∀ n, (it (n + 1)).2 = (it (n + 1)).1 - (it n).1 := by
    intro n; rw [hs n]; ring
  have hrec : ∀ n, (it (n + 2)).1 - c = a * ((it (n + 1)).1 - c) - m * ((it n).1 - c) := by
    intro n
    have h1 := hs (n + 1)
    have h2 : (it (n + 2)).1 = (it (n + 1)).1 + (m * (it (n + 1)).2 - lr * (k * ((it (n + 1)).1 - c))) := by rw [h1]
    rw [h2, hv n, ha]; ring
  have hQ : ∀ n, Q (n + 1) = m * Q n := by
    intro n
    simp only [Q]
    rw [show n + 1 + 1 = n + 2 from rfl, hrec n]
    ring
  have hQn : ∀ n, Q n = Q 0 * m ^ n := by
    intro n
    induction n with
    | zero => simp
    | succ n ih => rw [hQ, ih]; ring
  have hpos : 0 < 4 * m - a ^ 2 := by linarith
  refine ⟨4 * Q 0 / (4 * m - a ^ 2), fun n => ⟨(it n).1, by rw [hit n], ?_⟩⟩
  have hlow : (4 * m - a ^ 2) / 4 * ((it n).1 - c) ^ 2 ≤ Q n := by
    simp only [Q]
    nlinarith [sq_nonneg (((it (n + 1)).1 - c) - a / 2 * ((it n).1 - c))]
  rw [hQn n] at hlow
  rw [div_mul_eq_mul_div, le_div_iff₀ hpos]
  nlinarith

/-- C183 fails: the returned point is not the best one evaluated, although the result claims success. -/
theorem C183_false_best : ∃ (f : ℝ → ℝ) (o : SgdOpts) (r : List (List ℝ) × List ℝ),
    (∀ y, f y = y ^ 2) ∧ sgd (fun l => l.map fun y => 2 * y) [1] o = .ok r ∧
    ∃ x ∈ r.1, ∃ y z, x = [y] ∧ r.2 = [z] ∧ f y < f z := by
  refine ⟨fun y => y ^ 2, ⟨false, some 1, some 2, none⟩, ([[1], [-3]], [-3]), fun _ => rfl, ?_, ?_⟩
  · simp [sgd, sgdLoop, sgdStep]; norm_num
  · exact ⟨[1], by simp, 1, -3, rfl, rfl, by norm_num⟩

example : (1 + 9 / 10 - 1 / 10 * 2 : ℝ) ^ 2 < 4 * (9 / 10) := by norm_num

/-! ## cma_pre_lbfgs -/

variable {V : Type}

/-- A dictionary of options: later entries of the same key are never created. -/
abbrev Dict (V : Type) := List (String × V)

def Dict.get (d : Dict V) (k : String) : Option V := (d.find? fun p => p.1 == k).map Prod.snd

/-- The options: the two sub-dictionaries, if present, and the shared entries. -/
structure PreOpts (V : Type) where
  cma : Option (Dict V)
  lbfgs : Option (Dict V)
  shared : Dict V

/-- c3/libraries/algorithms.py:583-586: shared entries are added where the key is missing. -/
def addMissing (d : Dict V) : Dict V → Dict V
  | [] => d
  | (k, v) :: l => addMissing (match Dict.get d k with | some _ => d | none => d ++ [(k, v)]) l

/-- c3/libraries/algorithms.py:575-586: the options are completed in place. -/
def prepare (o : PreOpts V) : PreOpts V :=
  ⟨some (addMissing (o.cma.getD []) o.shared), some (addMissing (o.lbfgs.getD []) o.shared), o.shared⟩

/-- c3/libraries/algorithms.py:491-522: `cmaes` takes its custom entries out of the dictionary it is given. -/
def customKeys : List String := ["noise", "batch_noise", "init_point", "spread", "stop_at_convergence", "stop_at_sigma"]
def popCustom (d : Dict V) : Dict V := d.filter fun p => !(customKeys.contains p.1)

/-- c3/libraries/algorithms.py:569-590 `cma_pre_lbfgs`: the options seen by the two stages, the starting point of
the second stage, and the options afterwards. `best d` is the best point of `cmaes` with options `d`. -/
def cmaPreLbfgs {P : Type} (best : Dict V → P) (o : PreOpts V) : (Dict V × Dict V × P) × PreOpts V :=
  let o' := prepare o
  let c := o'.cma.getD []
  ((c, o'.lbfgs.getD [], best c), { o' with cma := some (popCustom c) })

theorem get_append (d e : Dict V) (k : String) :
    Dict.get (d ++ e) k = match Dict.get d k with | some v => some v | none => Dict.get e k := by
  unfold Dict.get
  rw [List.find?_append]
  cases d.find? (fun p => p.1 == k) <;> simp

theorem get_addMissing (d l : Dict V) (k : String) :
    Dict.get (addMissing d l) k = match Dict.get d k with | some v => some v | none => Dict.get l k := by
  induction l generalizing d with
  | nil => simp only [addMissing]; cases Dict.get d k <;> simp [Dict.get]
  | cons p l ih =>
    obtain ⟨k', v⟩ := p
    rw [addMissing, ih]
    by_cases hk : k' = k
    · subst hk
      cases hd : Dict.get d k' with
      | some w => simp [hd]
      | none =>
        simp only [get_append, hd]
        simp [Dict.get]
    · have hl : Dict.get ((k', v) :: l) k = Dict.get l k := by simp [Dict.get, hk]
      rw [hl]
      cases hd : Dict.get d k' with
      | some w => rfl
      | none =>
        simp only [get_append]
        cases hdk : Dict.get d k with
        | some w => rfl
        | none => simp [Dict.get, hk]

/-- C184, what holds: in the first run each stage sees its own options and, where it has none, the shared ones,
and the second stage starts at the best point of the first. -/
theorem C184_options_partial {P : Type} (best : Dict V → P) (o : PreOpts V) (k : String) :
    let r := (cmaPreLbfgs best o).1
    Dict.get r.1 k = (match Dict.get (o.cma.getD []) k with | some v => some v | none => Dict.get o.shared k) ∧
    Dict.get r.2.1 k = (match Dict.get (o.lbfgs.getD []) k with | some v => some v | none => Dict.get o.shared k) ∧
    r.2.2 = best r.1 := by
  refine ⟨?_, ?_, rfl⟩
  · simp [cmaPreLbfgs, prepare, get_addMissing]
  · simp [cmaPreLbfgs, prepare, get_addMissing]

/-- C184 fails: after a run, changing a shared option has no effect on either stage (unless it is one of the six
entries `cmaes` takes out). -/
theorem C184_false_stale {P : Type} (best : Dict V → P) (o : PreOpts V) (k : String) (v w : V)
    (hv : Dict.get o.shared k = some v) (hc : Dict.get (o.cma.getD []) k = none)
    (hl : Dict.get (o.lbfgs.getD []) k = none) (hk : k ∉ customKeys) (shared' : Dict V) (_hw : Dict.get shared' k = some w) :
    let o' := { (cmaPreLbfgs best o).2 with shared := shared' }
    Dict.get (cmaPreLbfgs best o').1.1 k = some v ∧ Dict.get (cmaPreLbfgs best o').1.2.1 k = some v := by
  have hpop : ∀ d : Dict V, Dict.get (popCustom d) k = Dict.get d k := by
    intro d
    unfold Dict.get popCustom
    congr 1
    induction d with
    | nil => rfl
    | cons p d ih =>
      by_cases hp : p.1 = k
      · have h1 : (!(customKeys.contains p.1)) = true := by rw [hp]; simpa using hk
        rw [List.filter_cons, if_pos h1]
        simp [hp]
      · by_cases h1 : (!(customKeys.contains p.1)) = true
        · rw [List.filter_cons, if_pos h1]
          simp only [List.find?_cons]
          rw [ih]
        · rw [List.filter_cons, if_neg h1, ih]
          have : (p.1 == k) = false := by simpa using hp
          simp [this]
  constructor
  · simp [cmaPreLbfgs, prepare, get_addMissing, hpop, hc, hv]
  · simp [cmaPreLbfgs, prepare, get_addMissing, hl, hv]

/-- C184 fails: options of the first stage that are not options of CMA-ES itself are lost in the second run. -/
theorem C184_false_lost {P : Type} (best : Dict V → P) (k : String) (hk : k ∈ customKeys) (v : V) (o : PreOpts V)
    (hc : Dict.get (o.cma.getD []) k = some v) (hs : Dict.get o.shared k = none) :
    Dict.get (cmaPreLbfgs best o).1.1 k = some v ∧
    Dict.get (cmaPreLbfgs best (cmaPreLbfgs best o).2).1.1 k = none := by
  have hpop : ∀ d : Dict V, Dict.get (popCustom d) k = none := by
    intro d
    unfold Dict.get popCustom
    rw [Option.map_eq_none_iff, List.find?_eq_none]
    intro p hp
    have := (List.mem_filter.1 hp).2
    intro h
    have : p.1 = k := by simpa using h
    simp_all
  constructor
  · simp [cmaPreLbfgs, prepare, get_addMissing, hc]
  · simp [cmaPreLbfgs, prepare, get_addMissing, hpop, hs]

/-- C184: the entries that `cmaes` takes out of its options. -/
theorem C184_custom (k : String) : k ∈ customKeys ↔ k = "noise" ∨ k = "batch_noise" ∨ k = "init_point" ∨ k = "spread" ∨
    k = "stop_at_convergence" ∨ k = "stop_at_sigma" := by
  simp [customKeys]

example : Dict.get ([("a", 1), ("b", 2)] : Dict ℕ) "b" = some 2 := by decide

/-! ## The table of algorithms -/

private def r (n : String) : Param := ⟨n, false⟩
private def o (n : String) : Param := ⟨n, true⟩

/-- The parameters all algorithms but one share. -/
def common : List Param := [r "x_init", o "fun", o "fun_grad", o "grad_lookup", o "options"]

/-- The dictionary `algorithms` (c3/libraries/algorithms.py:17-26), with the parameters of each function. -/
def algorithms : List Func :=
  [ ⟨"single_eval", common⟩, ⟨"grid2D", common⟩, ⟨"sweep", common⟩, ⟨"adaptive_scan", common⟩, ⟨"tf_sgd", common⟩,
    ⟨"lbfgs", common⟩, ⟨"lbfgs_grad_free", common⟩, ⟨"cmaes", common⟩, ⟨"cma_pre_lbfgs", common⟩,
    ⟨"gcmaes", common⟩, ⟨"oneplusone", [r "x_init", r "goal_fun"]⟩ ]

/-- Functions of the library without the decorator (295, 327, 359). -/
def unregistered : List String := ["tf_adam", "tf_rmsprop", "tf_adadelta"]

/-- c3/optimizers/optimalcontrol.py:70-71 (and calibration.py:48-49): an algorithm given by name. -/
def selectAlgorithm (s : String) : Except Err Func :=
  match algorithms.find? (fun f => f.name == s) with
  | some f => .ok f
  | none => .error (.keyError s)

/-- c3/optimizers/optimalcontrol.py:179-186: the call; the first argument is positional. -/
def startKw : List String := ["x_init", "fun", "fun_grad", "grad_lookup", "options"]

def startAlgorithm (f : Func) : Except CallErr Unit := bind f startKw

/-- C185, what holds: every registered algorithm except `oneplusone` is found by its name and can be called by
the optimizers. -/
theorem C185_start_partial (f : Func) (hf : f ∈ algorithms) :
    selectAlgorithm f.name = .ok f ∧ (startAlgorithm f = .ok () ↔ f.name ≠ "oneplusone") := by
  simp only [algorithms, List.mem_cons, List.not_mem_nil, or_false] at hf
  rcases hf with h | h | h | h | h | h | h | h | h | h | h <;> subst h <;>
    refine ⟨by simp [selectAlgorithm, algorithms], ?_⟩ <;> decide

/-- C185: other names are refused. -/
theorem C185_unknown (s : String) (h : ∀ f ∈ algorithms, f.name ≠ s) : selectAlgorithm s = .error (.keyError s) := by
  have : algorithms.find? (fun f => f.name == s) = none :=
    List.find?_eq_none.2 fun f hf => by simpa using h f hf
  simp [selectAlgorithm, this]

/-- C185 fails: `oneplusone` is registered but cannot be called, and three algorithms of the library are not
registered. -/
theorem C185_false_all :
    (∃ f ∈ algorithms, startAlgorithm f ≠ .ok ()) ∧ ∀ s ∈ unregistered, selectAlgorithm s = .error (.keyError s) := by
  refine ⟨⟨⟨"oneplusone", [r "x_init", r "goal_fun"]⟩, by simp [algorithms], by decide⟩, ?_⟩
  intro s hs
  apply C185_unknown
  revert s
  decide

/-- C185: the names of the algorithms, and of those of the library that are not among them. -/
theorem C185_names : algorithms.map Func.name = ["single_eval", "grid2D", "sweep", "adaptive_scan", "tf_sgd", "lbfgs",
      "lbfgs_grad_free", "cmaes", "cma_pre_lbfgs", "gcmaes", "oneplusone"] ∧
    ∀ s ∈ ["tf_adam", "tf_rmsprop", "tf_adadelta"], selectAlgorithm s = .error (.keyError s) := by
  refine ⟨rfl, ?_⟩
  intro s hs
  simp only [List.mem_cons, List.not_mem_nil, or_false] at hs
  rcases hs with rfl | rfl | rfl <;> rfl

/-- C185: only the initial point has to be given, by name, and further arguments are left at their defaults. -/
theorem C185_arguments (f : Func) (hf : f ∈ algorithms) (hn : f.name ≠ "oneplusone") :
    bind f ["x_init"] = .ok () ∧ bind f [] = .error (.missing "x_init") := by
  simp only [algorithms, List.mem_cons, List.not_mem_nil, or_false] at hf
  rcases hf with h | h | h | h | h | h | h | h | h | h | h <;> subst h <;> first
    | exact absurd rfl hn
    | exact ⟨by decide, by decide⟩

/-- Solvers of scipy used by the wrappers. -/
inductive Solver where
  | lbfgsb | bfgs
  deriving DecidableEq

/-- c3/libraries/algorithms.py:418-420, 450: `lbfgs` names its method, `lbfgs_grad_free` leaves it to scipy, which
takes BFGS. -/
def solverOf : String → Option Solver
  | "lbfgs" => some .lbfgsb
  | "lbfgs_grad_free" => some .bfgs
  | _ => none

/-- Options limiting the number of evaluations that scipy's solvers know. -/
def limits : Solver → List String
  | .lbfgsb => ["maxfun", "maxiter"]
  | .bfgs => ["maxiter"]

/-- C185: both solvers know the limit on the number of iterations. -/
theorem C185_maxiter (n : String) (s : Solver) (_h : solverOf n = some s) : "maxiter" ∈ limits s := by
  cases s <;> decide

/-- C185 fails: without gradients the solver is not L-BFGS-B, and the option `maxfun` has no effect. -/
theorem C185_false_maxfun :
    solverOf "lbfgs_grad_free" ≠ solverOf "lbfgs" ∧
    (∀ s, solverOf "lbfgs" = some s → "maxfun" ∈ limits s) ∧
    ∀ s, solverOf "lbfgs_grad_free" = some s → "maxfun" ∉ limits s := by
  refine ⟨by decide, ?_, ?_⟩
  · intro s h
    simp only [solverOf, Option.some.injEq] at h
    subst h; decide
  · intro s h
    simp only [solverOf, Option.some.injEq] at h
    subst h; decide

end C3.Optim.Scans
