import Verif.Optim.Algorithms

/-!
# C200: What the evolution strategies return

Models the loops of c3/libraries/algorithms.py:524-565 (`cmaes`) and 593-665 (`gcmaes`) around a strategy that asks for
points and is told their values. pycma is an arbitrary strategy that remembers the first of the best points it was told;
the local search of `gcmaes` is an arbitrary function.

Simplified: values are real numbers (no NaN).
-/

namespace C3.Optim.Evolution

open C3.Optim.Alg (Cfg CmaOpts Es StopsAt parse leaves solutions stopsAt_iff)

/-! ## Model -/

/-- `cma.CMAEvolutionStrategy`. -/
structure Strategy (S P : Type) where
  start : S
  stop : S → Bool
  sigma : S → ℝ
  ask : S → List P
  tell : S → List (P × ℝ) → S

variable {S P R : Type}

/-- c3/libraries/algorithms.py:544-549, 646-649: the points of a generation. -/
def cloud (c : Cfg R) (es : Strategy S P) (x0 : P) (iter : ℕ) (s : S) : List P :=
  if c.initPoint ∧ iter = 0 then x0 :: es.ask s else es.ask s

/-- The strategy before generation `n`; `eval` turns the points of a generation into what the strategy is told. -/
def stateAt (c : Cfg R) (es : Strategy S P) (x0 : P) (eval : ℕ → List P → List (P × ℝ)) : ℕ → S
  | 0 => es.start
  | n + 1 =>
    let s := stateAt c es x0 eval n
    es.tell s (eval n (cloud c es x0 n s))

/-- What the strategy is told in generation `n`. -/
def toldAt (c : Cfg R) (es : Strategy S P) (x0 : P) (eval : ℕ → List P → List (P × ℝ)) (n : ℕ) : List (P × ℝ) :=
  eval n (cloud c es x0 n (stateAt c es x0 eval n))

/-- What the strategy is told in the generations before `n`. -/
def toldUpTo (c : Cfg R) (es : Strategy S P) (x0 : P) (eval : ℕ → List P → List (P × ℝ)) (n : ℕ) : List (P × ℝ) :=
  (List.range n).flatMap (toldAt c es x0 eval)

open scoped Classical in
/-- `es.result.xbest`: the first point with the lowest value, `None` before any. -/
noncomputable def best : List (P × ℝ) → Option (P × ℝ)
  | [] => none
  | a :: l => some (l.foldl (fun b x => if x.2 < b.2 then x else b) a)

/-- The loop conditions as seen by C77 and C116. -/
def asEs (c : Cfg R) (es : Strategy S P) (x0 : P) (eval : ℕ → List P → List (P × ℝ)) : Es P where
  sigma n := es.sigma (stateAt c es x0 eval n)
  stop n := es.stop (stateAt c es x0 eval n)
  ask n := es.ask (stateAt c es x0 eval n)

/-- A run that ends after `n` generations returns `x`. -/
def Returns (c : Cfg R) (es : Strategy S P) (x0 : P) (eval : ℕ → List P → List (P × ℝ)) (n : ℕ) (x : Option P) : Prop :=
  StopsAt c (asEs c es x0 eval) n ∧ x = (best (toldUpTo c es x0 eval n)).map Prod.fst

/-- c3/libraries/algorithms.py:550-560, `cmaes`: the goal function at every point, with the noise of C117; `rnd` are the
random numbers of every generation. -/
noncomputable def goalEval (c : Cfg R) (f : P → ℝ) (rnd : ℕ → ℕ → ℝ) (n : ℕ) (xs : List P) : List (P × ℝ) :=
  xs.zip (solutions c (rnd n) (xs.map f))

/-- c3/libraries/algorithms.py:650-661, `gcmaes`: the results of a local search from every point. -/
def localEval (search : P → P × ℝ) (_ : ℕ) (xs : List P) : List (P × ℝ) := xs.map search

/-- The options of `gcmaes`. -/
structure GOpts (R L : Type) where
  cmaes : Option (CmaOpts R)
  lbfgs : Option L

inductive Err where
  | key (k : String)
  deriving DecidableEq

/-- c3/libraries/algorithms.py:601-624, 657: the options of `gcmaes`, the missing ones raise: those of the evolution at
the beginning, those of the local search with the first point. -/
noncomputable def gOptions {L : Type} (o : GOpts R L) (points : ℕ) : Except Err (Cfg R) × GOpts R L :=
  match o.cmaes with
  | none => (.error (.key "cmaes"), o)
  | some c =>
    let o' : GOpts R L := ⟨some { c with initPoint := none, spread := none, stopAtConvergence := none, stopAtSigma := none },
      o.lbfgs⟩
    match o.lbfgs with
    | none => if points = 0 then (.ok (parse c).1, o') else (.error (.key "lbfgs"), o')
    | some _ => (.ok (parse c).1, o')

/-! ## Specification -/

/-- The points at which the strategy wanted to know the goal, in the first `n` generations. -/
def Asked (c : Cfg R) (es : Strategy S P) (x0 : P) (eval : ℕ → List P → List (P × ℝ)) (n : ℕ) (y : P) : Prop :=
  ∃ m < n, y ∈ es.ask (stateAt c es x0 eval m)

/-! ## Theorems -/

theorem best_spec (l : List (P × ℝ)) (b : P × ℝ) (h : best l = some b) : b ∈ l ∧ ∀ x ∈ l, b.2 ≤ x.2 := by
  classical
  cases l with
  | nil => cases h
  | cons a l =>
    simp only [best, Option.some.injEq] at h
    subst h
    induction l generalizing a with
    | nil => simp
    | cons y l ih =>
      rw [List.foldl_cons]
      by_cases hy : y.2 < a.2
      · rw [if_pos hy]
        obtain ⟨h1, h2⟩ := ih y
        refine ⟨List.mem_cons_of_mem _ h1, fun x hx => ?_⟩
        rcases List.mem_cons.1 hx with rfl | hx
        · exact (h2 y List.mem_cons_self).trans hy.le
        · exact h2 x hx
      · rw [if_neg hy]
        obtain ⟨h1, h2⟩ := ih a
        refine ⟨?_, fun x hx => ?_⟩
        · rcases List.mem_cons.1 h1 with h | h
          · rw [h]; exact List.mem_cons_self
          · exact List.mem_cons_of_mem _ (List.mem_cons_of_mem _ h)
        · rcases List.mem_cons.1 hx with rfl | hx
          · exact h2 _ List.mem_cons_self
          · rcases List.mem_cons.1 hx with rfl | hx
            · exact (h2 a List.mem_cons_self).trans (not_lt.1 hy)
            · exact h2 x (List.mem_cons_of_mem _ hx)

theorem mem_told (c : Cfg R) (es : Strategy S P) (x0 : P) (eval : ℕ → List P → List (P × ℝ)) (n : ℕ) (p : P × ℝ) :
    p ∈ toldUpTo c es x0 eval n ↔ ∃ m < n, p ∈ toldAt c es x0 eval m := by
  simp [toldUpTo]

theorem asked_in_cloud (c : Cfg R) (es : Strategy S P) (x0 : P) (m : ℕ) (s : S) (y : P) (h : y ∈ es.ask s) :
    y ∈ cloud c es x0 m s := by
  unfold cloud
  split
  · exact List.mem_cons_of_mem _ h
  · exact h

/-- C200: whatever the strategy, the goal and the errors, a run returns a point it was told about, with the lowest of
all values it was told. -/
theorem C200_best (c : Cfg R) (es : Strategy S P) (x0 : P) (eval : ℕ → List P → List (P × ℝ)) (n : ℕ) (x : P)
    (h : Returns c es x0 eval n (some x)) :
    ∃ v, (∃ m < n, (x, v) ∈ toldAt c es x0 eval m) ∧ ∀ m < n, ∀ p ∈ toldAt c es x0 eval m, v ≤ p.2 := by
  have h2 := h.2.symm
  rw [Option.map_eq_some_iff] at h2
  obtain ⟨b, hb, rfl⟩ := h2
  obtain ⟨h3, h4⟩ := best_spec _ _ hb
  exact ⟨b.2, (mem_told _ _ _ _ _ _).1 h3, fun m hm p hp => h4 p ((mem_told _ _ _ _ _ _).2 ⟨m, hm, hp⟩)⟩

/-- C200: a run returns no point exactly if no generation had points. -/
theorem C200_none (c : Cfg R) (es : Strategy S P) (x0 : P) (eval : ℕ → List P → List (P × ℝ)) (n : ℕ) (x : Option P)
    (h : Returns c es x0 eval n x) : x = none ↔ ∀ m < n, toldAt c es x0 eval m = [] := by
  rw [h.2, Option.map_eq_none_iff]
  have : best (toldUpTo c es x0 eval n) = none ↔ toldUpTo c es x0 eval n = [] := by
    cases toldUpTo c es x0 eval n <;> simp [best]
  rw [this, toldUpTo]
  simp

theorem solutions_length (c : Cfg R) (rnd : ℕ → ℝ) (goals : List ℝ) : (solutions c rnd goals).length = goals.length := by
  simp [solutions]

theorem goalEval_noiseless (c : Cfg R) (hc : c.noise = 0) (f : P → ℝ) (rnd : ℕ → ℕ → ℝ) (n : ℕ) (xs : List P) :
    goalEval c f rnd n xs = xs.map fun x => (x, f x) := by
  have h : solutions c (rnd n) (xs.map f) = xs.map f := by
    unfold solutions
    simp only [hc, mul_zero, add_zero, ne_eq, not_true_eq_false, ite_self]
    exact List.zipIdx_map_fst 0 _
  unfold goalEval
  rw [h, List.zip_map_right]
  clear h
  induction xs with
  | nil => rfl
  | cons a l ih => simp_all

/-- **C200** for `cmaes`, what holds: without noise the goal at the returned point is the lowest of all points the
strategy asked for, and with `init_point` it is not above the goal at the initial point. Missing: noise, see
`C200_false_noise`. -/
theorem C200_cmaes_partial (c : Cfg R) (hc : c.noise = 0) (es : Strategy S P) (x0 : P) (f : P → ℝ) (rnd : ℕ → ℕ → ℝ)
    (n : ℕ) (x : P) (h : Returns c es x0 (goalEval c f rnd) n (some x)) :
    (∀ y, Asked c es x0 (goalEval c f rnd) n y → f x ≤ f y) ∧ (c.initPoint = true → f x ≤ f x0) ∧
      (Asked c es x0 (goalEval c f rnd) n x ∨ (c.initPoint = true ∧ x = x0)) := by
  have hm : ∀ (k : ℕ) (xs : List P) (p : P × ℝ), p ∈ goalEval c f rnd k xs ↔ p.1 ∈ xs ∧ p.2 = f p.1 := by
    intro k xs p
    rw [goalEval_noiseless c hc, List.mem_map]
    constructor
    · rintro ⟨q, hq, rfl⟩
      exact ⟨hq, rfl⟩
    · rintro ⟨h1, h2⟩
      exact ⟨p.1, h1, by rw [← h2]⟩
  obtain ⟨v, ⟨m, hmn, hxm⟩, hall⟩ := C200_best c es x0 _ n x h
  have hv : v = f x := ((hm _ _ _).1 hxm).2
  refine ⟨?_, ?_, ?_⟩
  · rintro y ⟨k, hk, hy⟩
    rw [← hv]
    exact hall k hk (y, f y) ((hm _ _ _).2 ⟨asked_in_cloud c es x0 _ _ y hy, rfl⟩)
  · intro hi
    rw [← hv]
    refine hall 0 (by omega) (x0, f x0) ((hm _ _ _).2 ⟨?_, rfl⟩)
    unfold cloud
    rw [if_pos ⟨hi, rfl⟩]
    exact List.mem_cons_self
  · have hx := ((hm _ _ _).1 hxm).1
    simp only [cloud] at hx
    split at hx
    · rename_i hc
      rcases List.mem_cons.1 hx with h1 | h1
      · exact Or.inr ⟨hc.1, h1⟩
      · exact Or.inl ⟨m, hmn, h1⟩
    · exact Or.inl ⟨m, hmn, hx⟩

/-- **C200** for `gcmaes`: if the local search reports the goal at the point it found and never goes up, the goal at the
returned point is not above that at any point the strategy asked for, at any local result, and, with `init_point`, at
the initial point. -/
theorem C200_gcmaes (c : Cfg R) (es : Strategy S P) (x0 : P) (f : P → ℝ) (search : P → P × ℝ)
    (hs : ∀ y, (search y).2 = f (search y).1) (hd : ∀ y, (search y).2 ≤ f y) (n : ℕ) (x : P)
    (h : Returns c es x0 (localEval search) n (some x)) :
    (∃ y, x = (search y).1) ∧
    (∀ y, Asked c es x0 (localEval search) n y → f x ≤ f (search y).1 ∧ f x ≤ f y) ∧
      (c.initPoint = true → f x ≤ f (search x0).1 ∧ f x ≤ f x0) := by
  obtain ⟨v, ⟨m, hmn, hxm⟩, hall⟩ := C200_best c es x0 _ n x h
  obtain ⟨y0, hy0, hyx⟩ := List.mem_map.1 hxm
  have hv : v = f x := by
    have := hs y0
    rw [hyx] at this
    exact this
  have key : ∀ k < n, ∀ y ∈ cloud c es x0 k (stateAt c es x0 (localEval search) k), f x ≤ f (search y).1 ∧ f x ≤ f y := by
    intro k hk y hy
    have := hall k hk (search y) (List.mem_map.2 ⟨y, hy, rfl⟩)
    rw [hv] at this
    exact ⟨by rwa [← hs y], this.trans (hd y)⟩
  refine ⟨⟨y0, by rw [hyx]⟩, ?_, ?_⟩
  · rintro y ⟨k, hk, hy⟩
    exact key k hk y (asked_in_cloud c es x0 _ _ y hy)
  · intro hi
    refine key 0 (by omega) x0 ?_
    unfold cloud
    rw [if_pos ⟨hi, rfl⟩]
    exact List.mem_cons_self

/-- C200, evaluations: `cmaes` evaluates every point it asks for once, in order, and the initial point once, first. -/
theorem C200_evaluated (c : Cfg R) (es : Strategy S P) (x0 : P) (f : P → ℝ) (rnd : ℕ → ℕ → ℝ) (n : ℕ) :
    (toldUpTo c es x0 (goalEval c f rnd) n).map Prod.fst =
      (if c.initPoint = true ∧ 0 < n then [x0] else []) ++
        (List.range n).flatMap fun m => es.ask (stateAt c es x0 (goalEval c f rnd) m) := by
  have hf : ∀ m, (toldAt c es x0 (goalEval c f rnd) m).map Prod.fst =
      cloud c es x0 m (stateAt c es x0 (goalEval c f rnd) m) := by
    intro m
    unfold toldAt goalEval
    rw [List.map_fst_zip]
    rw [solutions_length, List.length_map]
  unfold toldUpTo
  rw [List.map_flatMap]
  simp only [hf]
  induction n with
  | zero => simp
  | succ n ih =>
    rw [List.range_succ, List.flatMap_append, List.flatMap_append, ih, List.flatMap_singleton, List.flatMap_singleton]
    cases n with
    | zero =>
      by_cases hi : c.initPoint = true <;> simp [cloud, hi]
    | succ n =>
      simp [cloud]

/-- **C200 is false** with noise: the point with the lowest noisy value is returned, which may be worse than the
initial point although that was evaluated. -/
theorem C200_false_noise : ∃ (c : Cfg Unit) (es : Strategy ℕ Bool) (f : Bool → ℝ) (rnd : ℕ → ℕ → ℝ) (n : ℕ) (x : Bool),
    c.initPoint = true ∧ Returns c es false (goalEval c f rnd) n (some x) ∧ f false < f x := by
  refine ⟨⟨1, 0, true, 1 / 10, none, none, ()⟩, ⟨0, fun s => s == 1, fun _ => 1, fun _ => [true], fun s _ => s + 1⟩,
    fun b => if b then 1 else 0, fun _ i => if i = 1 then -2 else 0, 1, true, rfl, ⟨?_, ?_⟩, by norm_num⟩
  · rw [stopsAt_iff]
    refine ⟨by simp [leaves, asEs, stateAt], fun j hj => ?_⟩
    have : j = 0 := by omega
    subst this
    simp [leaves, asEs, stateAt]
  · simp only [toldUpTo, List.range_one, List.flatMap_singleton, toldAt, cloud, goalEval, best, solutions]
    norm_num [List.zipIdx]

/-- **C200 is false** without `init_point`: the returned point may be worse than the initial one. -/
theorem C200_false_init : ∃ (c : Cfg Unit) (es : Strategy ℕ Bool) (f : Bool → ℝ) (n : ℕ) (x : Bool),
    c.noise = 0 ∧ c.initPoint = false ∧ Returns c es false (goalEval c f fun _ _ => 0) n (some x) ∧ f false < f x := by
  refine ⟨⟨0, 0, false, 1 / 10, none, none, ()⟩, ⟨0, fun s => s == 1, fun _ => 1, fun _ => [true], fun s _ => s + 1⟩,
    fun b => if b then 1 else 0, 1, true, rfl, rfl, ⟨?_, ?_⟩, by norm_num⟩
  · rw [stopsAt_iff]
    refine ⟨by simp [leaves, asEs, stateAt], fun j hj => ?_⟩
    have : j = 0 := by omega
    subst this
    simp [leaves, asEs, stateAt]
  · simp [toldUpTo, toldAt, cloud, goalEval, best, solutions]

/-- C200, options of `gcmaes`: options for both parts are needed, those of the local search with the first point, and the custom ones are taken out, so that a second
run with the same options has the default spread, no initial point and no stopping conditions. -/
theorem C200_options {L : Type} (o : GOpts R L) (points : ℕ) :
    (o.cmaes = none → (gOptions o points).1 = .error (.key "cmaes")) ∧
    (∀ c, o.cmaes = some c → o.lbfgs = none → 0 < points → (gOptions o points).1 = .error (.key "lbfgs")) ∧
    (∀ c, o.cmaes = some c → o.lbfgs = none → ∃ cfg, (gOptions o 0).1 = .ok cfg) ∧
    (∀ c l, o.cmaes = some c → o.lbfgs = some l → ∃ cfg, (gOptions o points).1 = .ok cfg ∧
      cfg.initPoint = c.initPoint.getD false ∧ cfg.spread = c.spread.getD (1 / 10) ∧
      ∃ cfg', (gOptions (gOptions o points).2 points).1 = .ok cfg' ∧ cfg'.initPoint = false ∧
        cfg'.spread = 1 / 10 ∧ cfg'.sigmaConv = none ∧ cfg'.stopSigma = none) := by
  refine ⟨fun h => ?_, fun c h1 h2 hp => ?_, fun c h1 h2 => ?_, fun c l h1 h2 => ?_⟩
  · simp [gOptions, h]
  · simp [gOptions, h1, h2, hp.ne']
  · simp [gOptions, h1, h2]
  · simp only [gOptions, h1, h2]
    exact ⟨_, rfl, rfl, rfl, _, rfl, rfl, rfl, rfl, rfl⟩

/-- A run of `cmaes` that returns its only point. -/
example : ∃ (c : Cfg Unit) (es : Strategy ℕ ℝ), Returns c es 0 (goalEval c (fun x => x ^ 2) fun _ _ => 0) 1 (some 3) := by
  refine ⟨⟨0, 0, false, 1 / 10, none, none, ()⟩, ⟨0, fun s => s == 1, fun _ => 1, fun _ => [3], fun s _ => s + 1⟩, ?_, ?_⟩
  · rw [stopsAt_iff]
    refine ⟨by simp [leaves, asEs, stateAt], fun j hj => ?_⟩
    have : j = 0 := by omega
    subst this
    simp [leaves, asEs, stateAt]
  · simp [toldUpTo, toldAt, cloud, goalEval, best, solutions]

end C3.Optim.Evolution
