import Mathlib.Data.Real.Basic
import Mathlib.Algebra.Order.Floor.Ring
import Mathlib.Algebra.Order.Archimedean.Real.Basic
import Mathlib.Tactic.Linarith
import Mathlib.Tactic.NormNum
import Mathlib.Tactic.Ring
import Mathlib.Tactic.FieldSimp
import Mathlib.Tactic.Positivity

/-!
# C77, C78, C116, C117, C118: scans and the CMA-ES wrapper

Models c3/libraries/algorithms.py:50-96 (`grid2D`), 100-159 (`sweep`), 454-565 (`cmaes`), 568-590
(`cma_pre_lbfgs`); `gcmaes` (593-665) has the same stopping conditions as `cmaes`.

Simplified: the goal function returns a value (no exceptions); `cma.CMAEvolutionStrategy` is given by what it
delivers: the cloud size `sigma`, its own stopping decision and the samples of every generation. Numbers are
reals.
-/

namespace C3.Optim.Alg

/-! ## Model: scans -/

inductive Err where
  | key      -- a missing option
  | index    -- `x_init[0]` of an empty point
  | value    -- `min([])`, no "x" in the wrapper, negative number of points
deriving DecidableEq

/-- An entry of `options["wrapper"]`. -/
inductive Slot where
  | num (v : ℝ)
  | x
  | y
  | other (n : ℕ)

/-- What `fun` is called with: `[x]`, `[x, y]` or `[val]` with a filled wrapper. -/
inductive Arg where
  | pt (l : List ℝ)
  | wrapped (l : List Slot)

def Slot.isX : Slot → Bool
  | .x => true
  | _ => false

def Slot.isY : Slot → Bool
  | .y => true
  | _ => false

/-- `val[val.index(name)] = v`. -/
def fill (p : Slot → Bool) (v : ℝ) : List Slot → Except Err (List Slot)
  | [] => .error .value
  | s :: l => if p s then .ok (.num v :: l) else (fill p v l).map (s :: ·)

/-- `np.linspace(a, b, n)` for `n ≥ 0`; a single point is the start. -/
noncomputable def linspace (a b : ℝ) (n : ℕ) : List ℝ :=
  (List.range n).map fun (i : ℕ) => a + i * ((b - a) / ((n : ℝ) - 1))

structure SweepOpts where
  points : Option ℤ
  initPoint : Option Bool
  bounds : Option (ℝ × ℝ)
  probes : Option (List ℝ)
  wrapper : Option (List Slot)

/-- The call of `fun` for one scan value. -/
def sweepArg (w : Option (List Slot)) (v : ℝ) : Except Err Arg :=
  match w with
  | none => .ok (.pt [v])
  | some t => (fill Slot.isX v t).map .wrapped

/-- A loop of calls: the calls made and the exception that ended it. -/
def callAll {A : Type} (f : A → Except Err Arg) : List A → List Arg × Option Err
  | [] => ([], none)
  | v :: l => match f v with
    | .error e => ([], some e)
    | .ok a => let r := callAll f l; (a :: r.1, r.2)

/-- Sequential composition. -/
def andThen (r : List Arg × Option Err) (k : List Arg × Option Err) : List Arg × Option Err :=
  match r.2 with
  | some e => (r.1, some e)
  | none => (r.1 ++ k.1, k.2)

/-- `np.linspace` refuses a negative number of samples. -/
noncomputable def scan {A : Type} (n : ℤ) (pts : ℕ → List A) (f : A → Except Err Arg) : List Arg × Option Err :=
  if n < 0 then ([], some .value) else callAll f (pts n.toNat)

def listMin : ℝ → List ℝ → ℝ := fun a l => l.foldl min a
def listMax : ℝ → List ℝ → ℝ := fun a l => l.foldl max a

/-- c3/libraries/algorithms.py:100-159 `sweep`: the calls of `fun` in order, and the exception, if any. -/
noncomputable def sweep (xInit : List ℝ) (o : SweepOpts) : List Arg × Option Err :=
  let points := o.points.getD 100
  let first : List Arg × Option Err := if o.initPoint = some true then
      (match xInit with
        | [] => ([], some .index)
        | x :: _ => ([.pt [x]], none))
    else ([], none)
  andThen first (match o.bounds with
    | none => ([], some .key)
    | some (lo, hi) => match o.probes with
      | none => scan points (linspace lo hi) (sweepArg o.wrapper)
      | some [] => ([], some .value)
      | some (p :: ps) => andThen (callAll (sweepArg o.wrapper) (p :: ps))
          (scan points (linspace (min lo (listMin p ps)) (max hi (listMax p ps))) (sweepArg o.wrapper)))

structure GridOpts where
  points : Option ℤ
  bounds : Option ((ℝ × ℝ) × (ℝ × ℝ))
  wrapper : Option (List Slot)

def gridArg (w : Option (List Slot)) (v : ℝ × ℝ) : Except Err Arg :=
  match w with
  | none => .ok (.pt [v.1, v.2])
  | some t => (fill Slot.isX v.1 t).bind fun t' => (fill Slot.isY v.2 t').map .wrapped

/-- c3/libraries/algorithms.py:50-96 `grid2D`. -/
noncomputable def grid2D (o : GridOpts) : List Arg × Option Err :=
  match o.bounds with
  | none => ([], some .key)
  | some (bx, bb) => scan (o.points.getD 100)
      (fun n => (linspace bx.1 bx.2 n).flatMap fun x => (linspace bb.1 bb.2 n).map fun y => (x, y))
      (gridArg o.wrapper)

/-! ## Specification: evenly spaced points -/

/-- `n` values from `a` to `b` with equal steps. -/
def EvenlySpaced (a b : ℝ) (n : ℕ) (l : List ℝ) : Prop :=
  l.length = n ∧ l.head? = some a ∧ l.getLast? = some b ∧
    ∃ step, ∀ i v w, l[i]? = some v → l[i + 1]? = some w → w - v = step

theorem linspace_length (a b : ℝ) (n : ℕ) : (linspace a b n).length = n := by simp [linspace]

theorem linspace_get (a b : ℝ) (n i : ℕ) (v : ℝ) :
    (linspace a b n)[i]? = some v ↔ i < n ∧ v = a + i * ((b - a) / ((n : ℝ) - 1)) := by
  unfold linspace
  rw [List.getElem?_map, Option.map_eq_some_iff]
  constructor
  · rintro ⟨j, hj, rfl⟩
    obtain ⟨h1, h2⟩ := List.getElem?_eq_some_iff.1 hj
    simp at h1 h2
    subst h2
    exact ⟨h1, rfl⟩
  · rintro ⟨h1, rfl⟩
    exact ⟨i, by simp [h1], rfl⟩

theorem linspace_even (a b : ℝ) (n : ℕ) (hn : 2 ≤ n) : EvenlySpaced a b n (linspace a b n) := by
  have hn' : (n : ℝ) - 1 ≠ 0 := by
    have : (2 : ℝ) ≤ n := by exact_mod_cast hn
    linarith
  refine ⟨linspace_length a b n, ?_, ?_, (b - a) / ((n : ℝ) - 1), ?_⟩
  · rw [List.head?_eq_getElem?, linspace_get]
    exact ⟨by omega, by simp⟩
  · rw [List.getLast?_eq_getElem?, linspace_length, linspace_get]
    refine ⟨by omega, ?_⟩
    rw [Nat.cast_sub (by omega)]
    field_simp
    push_cast
    ring
  · intro i v w hv hw
    obtain ⟨-, rfl⟩ := (linspace_get a b n i v).1 hv
    obtain ⟨-, rfl⟩ := (linspace_get a b n (i + 1) w).1 hw
    push_cast
    ring

theorem linspace_between (a b : ℝ) (hab : a ≤ b) (n : ℕ) (v : ℝ) (hv : v ∈ linspace a b n) : a ≤ v ∧ v ≤ b := by
  obtain ⟨i, hi⟩ := List.mem_iff_getElem?.1 hv
  obtain ⟨hin, rfl⟩ := (linspace_get a b n i v).1 hi
  rcases Nat.lt_or_ge n 2 with h | h
  · have : i = 0 := by omega
    subst this; simpa using hab
  · have h1 : (0 : ℝ) < (n : ℝ) - 1 := by
      have : (2 : ℝ) ≤ n := by exact_mod_cast h
      linarith
    have h2 : (i : ℝ) ≤ (n : ℝ) - 1 := by
      have : (i : ℝ) + 1 ≤ n := by exact_mod_cast hin
      linarith
    have h3 : 0 ≤ (b - a) / ((n : ℝ) - 1) := div_nonneg (by linarith) h1.le
    constructor
    · have : 0 ≤ (i : ℝ) * ((b - a) / ((n : ℝ) - 1)) := by positivity
      linarith
    · have h4 : (i : ℝ) * ((b - a) / ((n : ℝ) - 1)) ≤ ((n : ℝ) - 1) * ((b - a) / ((n : ℝ) - 1)) :=
        mul_le_mul_of_nonneg_right h2 h3
      rw [mul_div_cancel₀ _ h1.ne'] at h4
      linarith

theorem foldl_min (p : ℝ) (ps : List ℝ) : listMin p ps ∈ p :: ps ∧ ∀ q ∈ p :: ps, listMin p ps ≤ q := by
  unfold listMin
  induction ps generalizing p with
  | nil => simp
  | cons q ps ih =>
    obtain ⟨h1, h2⟩ := ih (min p q)
    rw [List.foldl_cons]
    constructor
    · rcases List.mem_cons.1 h1 with h | h
      · rw [h]; rcases min_choice p q with h' | h' <;> rw [h'] <;> simp
      · simp [h]
    · have h0 := h2 _ List.mem_cons_self
      intro r hr
      rcases List.mem_cons.1 hr with rfl | hr
      · exact h0.trans (min_le_left _ _)
      · rcases List.mem_cons.1 hr with rfl | hr
        · exact h0.trans (min_le_right _ _)
        · exact h2 r (by simp [hr])

theorem foldl_max (p : ℝ) (ps : List ℝ) : listMax p ps ∈ p :: ps ∧ ∀ q ∈ p :: ps, q ≤ listMax p ps := by
  unfold listMax
  induction ps generalizing p with
  | nil => simp
  | cons q ps ih =>
    obtain ⟨h1, h2⟩ := ih (max p q)
    rw [List.foldl_cons]
    constructor
    · rcases List.mem_cons.1 h1 with h | h
      · rw [h]; rcases max_choice p q with h' | h' <;> rw [h'] <;> simp
      · simp [h]
    · have h0 := h2 _ List.mem_cons_self
      intro r hr
      rcases List.mem_cons.1 hr with rfl | hr
      · exact (le_max_left _ _).trans h0
      · rcases List.mem_cons.1 hr with rfl | hr
        · exact (le_max_right _ _).trans h0
        · exact h2 r (by simp [hr])

theorem callAll_pt (l : List ℝ) : callAll (sweepArg none) l = (l.map fun v => Arg.pt [v], none) := by
  induction l with
  | nil => rfl
  | cons v l ih => simp [callAll, sweepArg, ih]

theorem callAll_grid (l : List (ℝ × ℝ)) :
    callAll (gridArg none) l = (l.map fun v => Arg.pt [v.1, v.2], none) := by
  induction l with
  | nil => rfl
  | cons v l ih => simp [callAll, gridArg, ih]

/-! ## C78 -/

/-- C78 without wrapper and initial point: for ordered bounds and at least two points, `sweep` evaluates all
probe points in their order and then exactly `n` evenly spaced points from the lower to the upper bound,
where the bounds are extended just as far as the probe points need it; nothing outside is evaluated and no
exception is raised. Missing: `init_point`, see `C78_init_outside`; one point, `C78_one_point`; an empty
probe list, `C78_empty_probes`; reversed bounds, `C78_reversed_false`. -/
theorem C78_sweep_partial (xInit : List ℝ) (o : SweepOpts) (n : ℕ) (hn : 2 ≤ n)
    (hpts : o.points = some (n : ℤ) ∨ o.points = none ∧ n = 100) (hi : o.initPoint ≠ some true)
    (a b : ℝ) (hb : o.bounds = some (a, b)) (hab : a ≤ b) (hw : o.wrapper = none) (hp : o.probes ≠ some []) :
    ∃ lo hi grid, sweep xInit o = ((o.probes.getD [] ++ grid).map fun v => Arg.pt [v], none) ∧
      EvenlySpaced lo hi n grid ∧
      (lo ≤ a ∧ b ≤ hi ∧ (∀ p ∈ o.probes.getD [], lo ≤ p ∧ p ≤ hi)) ∧
      ((lo = a ∨ lo ∈ o.probes.getD []) ∧ (hi = b ∨ hi ∈ o.probes.getD [])) ∧
      ∀ v ∈ o.probes.getD [] ++ grid, lo ≤ v ∧ v ≤ hi := by
  have hpoints : o.points.getD 100 = (n : ℤ) := by
    rcases hpts with h | ⟨h, rfl⟩ <;> rw [h] <;> rfl
  have hscan : ∀ c d, scan (n : ℤ) (linspace c d) (sweepArg none) =
      ((linspace c d n).map fun v => Arg.pt [v], none) := by
    intro c d
    unfold scan
    rw [if_neg (by omega), callAll_pt]; simp
  cases hprobes : o.probes with
  | none =>
    refine ⟨a, b, linspace a b n, ?_, linspace_even a b n hn, ⟨le_refl _, le_refl _, by simp⟩,
      ⟨.inl rfl, .inl rfl⟩, ?_⟩
    · unfold sweep
      rw [hpoints]
      simp only [if_neg hi, hb, hprobes, hw, hscan]
      simp [andThen]
    · intro v hv
      exact linspace_between a b hab n v (by simpa using hv)
  | some l =>
    cases l with
    | nil => exact absurd hprobes hp
    | cons p ps =>
      obtain ⟨m1, m2⟩ := foldl_min p ps
      obtain ⟨M1, M2⟩ := foldl_max p ps
      have hlohi : min a (listMin p ps) ≤ max b (listMax p ps) :=
        (min_le_left _ _).trans (hab.trans (le_max_left _ _))
      have hin : ∀ q ∈ p :: ps, min a (listMin p ps) ≤ q ∧ q ≤ max b (listMax p ps) := fun q hq =>
        ⟨(min_le_right _ _).trans (m2 q hq), (M2 q hq).trans (le_max_right _ _)⟩
      refine ⟨min a (listMin p ps), max b (listMax p ps), linspace _ _ n, ?_, linspace_even _ _ n hn,
        ⟨min_le_left _ _, le_max_left _ _, hin⟩, ⟨?_, ?_⟩, ?_⟩
      · unfold sweep
        rw [hpoints]
        simp only [if_neg hi, hb, hprobes, hw, hscan, callAll_pt]
        simp [andThen]
      · rcases min_choice a (listMin p ps) with h | h <;> rw [h]
        · exact .inl rfl
        · exact .inr m1
      · rcases max_choice b (listMax p ps) with h | h <;> rw [h]
        · exact .inl rfl
        · exact .inr M1
      · intro v hv
        rcases List.mem_append.1 hv with hv | hv
        · exact hin v hv
        · exact linspace_between _ _ hlohi n v hv

example : ∃ o : SweepOpts, o.points = some ((3 : ℕ) : ℤ) ∧ o.initPoint ≠ some true ∧ o.bounds = some (0, 1) ∧
    (0 : ℝ) ≤ 1 ∧ o.wrapper = none ∧ o.probes ≠ some [] :=
  ⟨⟨some 3, none, some (0, 1), some [2], none⟩, rfl, by simp, rfl, by norm_num, rfl, by simp⟩

/-- The initial point is evaluated first when asked for, also outside the bounds. -/
theorem C78_init_outside (x : ℝ) (o : SweepOpts) (hi : o.initPoint = some true) :
    (sweep [x] o).1.head? = some (Arg.pt [x]) := by
  unfold sweep
  simp only [if_pos hi, andThen, List.singleton_append, List.head?_cons]

/-- With a single point the upper bound is not evaluated, with none nothing is. -/
theorem C78_one_point (xInit : List ℝ) (a b : ℝ) :
    sweep xInit ⟨some 1, none, some (a, b), none, none⟩ = ([Arg.pt [a]], none) ∧
      sweep xInit ⟨some 0, none, some (a, b), none, none⟩ = ([], none) := by
  constructor <;> simp [sweep, andThen, scan, callAll, linspace, sweepArg]

/-- An empty probe list raises before any point of the sweep is evaluated. -/
theorem C78_empty_probes (xInit : List ℝ) (o : SweepOpts) (hi : o.initPoint ≠ some true)
    (hb : o.bounds ≠ none) (hp : o.probes = some []) : sweep xInit o = ([], some .value) := by
  unfold sweep
  cases h : o.bounds with
  | none => exact absurd h hb
  | some ab => simp [if_neg hi, hp, andThen]

example : ∃ o : SweepOpts, o.initPoint ≠ some true ∧ o.bounds ≠ none ∧ o.probes = some [] :=
  ⟨⟨none, none, some (0, 1), some [], none⟩, by simp, by simp, rfl⟩

/-- Reversed bounds work without probe points, but with a probe point inside them the whole sweep collapses to
that point: neither bound is evaluated. -/
theorem C78_reversed_false (xInit : List ℝ) (n : ℕ) :
    ∀ arg ∈ (sweep xInit ⟨some (n : ℤ), none, some (1, 0), some [1 / 2], none⟩).1, arg = Arg.pt [1 / 2] := by
  unfold sweep
  have h1 : min (1 : ℝ) (listMin (1 / 2) []) = 1 / 2 := by norm_num [listMin]
  have h2 : max (0 : ℝ) (listMax (1 / 2) []) = 1 / 2 := by norm_num [listMax]
  simp only [Option.getD_some, h1, h2, scan, callAll_pt]
  rw [if_neg (by omega : ¬ (n : ℤ) < 0)]
  intro arg harg
  simp only [andThen, linspace, reduceCtorEq, if_false, List.nil_append, sub_self, zero_div, mul_zero, add_zero,
    List.map_map, List.mem_append, List.mem_map] at harg
  rcases harg with ⟨v, hv, rfl⟩ | ⟨i, -, rfl⟩
  · simp at hv; rw [hv]; norm_num
  · rfl

/-- C78 with a wrapper: every value of a scan is put into the first "x" of the template and nothing else
changes; without an "x" the first call raises. -/
theorem C78_wrapper (t : List Slot) (vs : List ℝ) :
    (∀ pre post, t = pre ++ .x :: post → (∀ s ∈ pre, s.isX = false) →
      callAll (sweepArg (some t)) vs = (vs.map fun v => .wrapped (pre ++ .num v :: post), none)) ∧
    ((∀ s ∈ t, s.isX = false) → vs ≠ [] → callAll (sweepArg (some t)) vs = ([], some .value)) := by
  have hfill : ∀ pre post v, (∀ s ∈ pre, s.isX = false) →
      fill Slot.isX v (pre ++ .x :: post) = .ok (pre ++ .num v :: post) := by
    intro pre post v
    induction pre with
    | nil => intro _; simp [fill, Slot.isX]
    | cons s pre ih =>
      intro h
      rw [List.cons_append, fill, if_neg (by simp [h s (by simp)]), ih fun r hr => h r (by simp [hr])]
      rfl
  have hno : ∀ v, ∀ t : List Slot, (∀ s ∈ t, s.isX = false) → fill Slot.isX v t = .error .value := by
    intro v t
    induction t with
    | nil => intro _; rfl
    | cons s t ih =>
      intro h
      rw [fill, if_neg (by simp [h s (by simp)]), ih fun r hr => h r (by simp [hr])]
      rfl
  constructor
  · rintro pre post rfl hpre
    induction vs with
    | nil => rfl
    | cons v vs ih => simp [callAll, sweepArg, hfill pre post v hpre, Except.map] at ih ⊢; rw [ih]; simp
  · intro h hne
    obtain ⟨v, vs', rfl⟩ := List.exists_cons_of_ne_nil hne
    simp [callAll, sweepArg, hno v t h, Except.map]

example : callAll (sweepArg (some [.num 1, .x])) [5] = ([.wrapped [.num 1, .num 5]], none) := by
  simp [callAll, sweepArg, fill, Slot.isX, Except.map]

theorem isX_iff (s : Slot) : s.isX = true ↔ s = .x := by cases s <;> simp [Slot.isX]

theorem isY_iff (s : Slot) : s.isY = true ↔ s = .y := by cases s <;> simp [Slot.isY]

theorem fill_first (p : Slot → Bool) (s0 : Slot) (hp : ∀ s, p s = true ↔ s = s0) (v : ℝ) (pre post : List Slot)
    (h : s0 ∉ pre) : fill p v (pre ++ s0 :: post) = .ok (pre ++ .num v :: post) := by
  induction pre with
  | nil => simp [fill, (hp s0).2 rfl]
  | cons s pre ih =>
    simp only [List.mem_cons, not_or] at h
    rw [List.cons_append, fill, if_neg (fun hs => h.1 ((hp s).1 hs).symm), ih h.2]
    rfl

theorem fill_none (p : Slot → Bool) (s0 : Slot) (hp : ∀ s, p s = true ↔ s = s0) (v : ℝ) (t : List Slot)
    (h : s0 ∉ t) : fill p v t = .error .value := by
  induction t with
  | nil => rfl
  | cons s t ih =>
    simp only [List.mem_cons, not_or] at h
    rw [fill, if_neg (fun hs => h.1 ((hp s).1 hs).symm), ih h.2]
    rfl

/-- C78 for `grid2D` with a wrapper: the first value goes into the first "x" and the second into the first "y" of
the template, in whichever order they stand; a template without "x" or "y" raises. -/
theorem C78_grid_wrapper (v w : ℝ) (pre mid post : List Slot) (hx : .x ∉ pre) (hy : .y ∉ pre) :
    (.y ∉ mid → gridArg (some (pre ++ .x :: (mid ++ .y :: post))) (v, w) =
      .ok (.wrapped (pre ++ .num v :: (mid ++ .num w :: post)))) ∧
    (.x ∉ mid → gridArg (some (pre ++ .y :: (mid ++ .x :: post))) (v, w) =
      .ok (.wrapped (pre ++ .num w :: (mid ++ .num v :: post)))) ∧
    (.x ∉ mid → gridArg (some mid) (v, w) = .error .value) ∧
    (.y ∉ mid → gridArg (some (pre ++ .x :: mid)) (v, w) = .error .value) := by
  unfold gridArg
  refine ⟨fun h => ?_, fun h => ?_, fun h => ?_, fun h => ?_⟩
  · simp only
    rw [fill_first _ _ isX_iff v pre _ hx]
    have := fill_first _ _ isY_iff w (pre ++ .num v :: mid) post (by simp [hy, h])
    simp only [List.append_assoc, List.cons_append] at this
    simp only [Except.bind, this, Except.map]
  · simp only
    have := fill_first _ _ isX_iff v (pre ++ .y :: mid) post (by simp [hx, h])
    simp only [List.append_assoc, List.cons_append] at this
    rw [this]
    simp only [Except.bind, fill_first _ _ isY_iff w pre _ hy, Except.map]
  · simp only
    rw [fill_none _ _ isX_iff v mid h]
    rfl
  · simp only
    rw [fill_first _ _ isX_iff v pre _ hx]
    simp only [Except.bind]
    rw [fill_none _ _ isY_iff w _ (by simp [hy, h])]
    rfl

example : gridArg (some [.y, .num 3, .x]) (1, 2) = .ok (.wrapped [.num 2, .num 3, .num 1]) :=
  (C78_grid_wrapper 1 2 [] [.num 3] [] (by simp) (by simp)).2.1 (by simp)

/-- C78 for `grid2D`: exactly the `n²` pairs of evenly spaced values, each axis from its lower to its upper
bound. -/
theorem C78_grid (o : GridOpts) (n : ℕ) (hn : 2 ≤ n)
    (hpts : o.points = some (n : ℤ) ∨ o.points = none ∧ n = 100) (a b c d : ℝ)
    (hb : o.bounds = some ((a, b), (c, d))) (hw : o.wrapper = none) :
    ∃ xs ys, EvenlySpaced a b n xs ∧ EvenlySpaced c d n ys ∧ (grid2D o).2 = none ∧
      (grid2D o).1.length = n * n ∧
      ∀ arg, arg ∈ (grid2D o).1 ↔ ∃ x ∈ xs, ∃ y ∈ ys, arg = .pt [x, y] := by
  have hpoints : o.points.getD 100 = (n : ℤ) := by
    rcases hpts with h | ⟨h, rfl⟩ <;> rw [h] <;> rfl
  have hg : grid2D o = (((linspace a b n).flatMap fun x => (linspace c d n).map fun y => (x, y)).map
      fun v => Arg.pt [v.1, v.2], none) := by
    unfold grid2D
    rw [hpoints]
    simp only [hb, hw, scan]
    rw [if_neg (by omega), callAll_grid]
    simp
  refine ⟨linspace a b n, linspace c d n, linspace_even a b n hn, linspace_even c d n hn, ?_, ?_, ?_⟩
  · rw [hg]
  · rw [hg]
    simp [List.length_flatMap, linspace_length]
  · intro arg
    rw [hg]
    simp only [List.mem_map, List.mem_flatMap]
    constructor
    · rintro ⟨v, ⟨x, hx, y, hy, rfl⟩, rfl⟩
      exact ⟨x, hx, y, hy, rfl⟩
    · rintro ⟨x, hx, y, hy, rfl⟩
      exact ⟨(x, y), ⟨x, hx, y, hy, rfl⟩, rfl⟩

example : ∃ o : GridOpts, o.points = none ∧ o.bounds = some ((0, 1), (0, 1)) ∧ o.wrapper = none :=
  ⟨⟨none, some ((0, 1), (0, 1)), none⟩, rfl, rfl, rfl⟩

/-! ## Model: CMA-ES wrapper -/

/-- Python `int` of a float: truncation. -/
noncomputable def pyInt (x : ℝ) : ℤ := if 0 ≤ x then ⌊x⌋ else ⌈x⌉

/-- The options dictionary handed to `cmaes`; `rest` are the options of pycma. -/
structure CmaOpts (R : Type) where
  noise : Option ℝ
  batchNoise : Option ℝ
  initPoint : Option Bool
  spread : Option ℝ
  stopAtConvergence : Option ℝ
  stopAtSigma : Option ℝ
  rest : R

structure Cfg (R : Type) where
  noise : ℝ
  batchNoise : ℝ
  initPoint : Bool
  spread : ℝ
  sigmaConv : Option ℤ
  stopSigma : Option ℤ
  settings : R

/-- c3/libraries/algorithms.py:491-522: the options are taken out of the dictionary with `pop`; the second
component is the dictionary the caller is left with. -/
noncomputable def parse {R : Type} (o : CmaOpts R) : Cfg R × CmaOpts R :=
  (⟨o.noise.getD 0, o.batchNoise.getD 0, o.initPoint.getD false, o.spread.getD (1 / 10),
    o.stopAtConvergence.map pyInt, o.stopAtSigma.map pyInt, o.rest⟩,
   ⟨none, none, none, none, none, none, o.rest⟩)

/-- What `cma.CMAEvolutionStrategy` does: cloud size, its own stopping decision and samples per iteration. -/
structure Es (P : Type) where
  sigma : ℕ → ℝ
  stop : ℕ → Bool
  ask : ℕ → List P

/-- c3/libraries/algorithms.py:529-537: the last `sigma_conv - 1` differences of the recorded sizes. -/
def shrunk {P : Type} (es : Es P) (conv : ℤ) (iter : ℕ) : Prop :=
  conv < iter ∧ ∀ i : ℕ, (i : ℤ) < conv - 1 → es.sigma (iter - i) < es.sigma (iter - (i + 1))

open scoped Classical in
/-- Whether the loop is left at the top of iteration `iter`. -/
noncomputable def leaves {R P : Type} (c : Cfg R) (es : Es P) (iter : ℕ) : Bool :=
  es.stop iter || (match c.sigmaConv with
    | some k => decide (shrunk es k iter)
    | none => false) || (match c.stopSigma with
    | some s => decide (es.sigma iter < (s : ℝ))
    | none => false)

/-- The loop of c3/libraries/algorithms.py:526-563: number of completed generations, if it ends within
`fuel` iterations. -/
noncomputable def generations {R P : Type} (c : Cfg R) (es : Es P) : ℕ → ℕ → Option ℕ
  | 0, _ => none
  | fuel + 1, iter => if leaves c es iter then some iter else generations c es fuel (iter + 1)

/-- The run ends after `n` generations. -/
def StopsAt {R P : Type} (c : Cfg R) (es : Es P) (n : ℕ) : Prop := ∃ fuel, generations c es fuel 0 = some n

theorem generations_spec {R P : Type} (c : Cfg R) (es : Es P) (fuel i n : ℕ) :
    generations c es fuel i = some n ↔
      i ≤ n ∧ n < i + fuel ∧ leaves c es n = true ∧ ∀ j, i ≤ j → j < n → leaves c es j = false := by
  induction fuel generalizing i with
  | zero => simp only [generations]; constructor
            · intro h; cases h
            · rintro ⟨h1, h2, -⟩; omega
  | succ fuel ih =>
    rw [generations]
    cases hl : leaves c es i with
    | true =>
      rw [if_pos rfl]
      constructor
      · intro h
        cases h
        exact ⟨le_refl _, by omega, hl, fun j h1 h2 => by omega⟩
      · rintro ⟨h1, h2, h3, h4⟩
        rcases Nat.lt_or_ge i n with h | h
        · have := h4 i (le_refl _) h
          rw [hl] at this; cases this
        · rw [le_antisymm h1 h]
    | false =>
      rw [if_neg (by simp), ih]
      constructor
      · rintro ⟨h1, h2, h3, h4⟩
        refine ⟨by omega, by omega, h3, fun j hj1 hj2 => ?_⟩
        rcases Nat.eq_or_lt_of_le hj1 with rfl | h
        · exact hl
        · exact h4 j h hj2
      · rintro ⟨h1, h2, h3, h4⟩
        have hne : i ≠ n := by
          rintro rfl
          rw [hl] at h3; cases h3
        exact ⟨by omega, by omega, h3, fun j hj1 hj2 => h4 j (by omega) hj2⟩

theorem stopsAt_iff {R P : Type} (c : Cfg R) (es : Es P) (n : ℕ) :
    StopsAt c es n ↔ leaves c es n = true ∧ ∀ j < n, leaves c es j = false := by
  constructor
  · rintro ⟨fuel, h⟩
    obtain ⟨-, -, h3, h4⟩ := (generations_spec c es fuel 0 n).1 h
    exact ⟨h3, fun j hj => h4 j (by omega) hj⟩
  · rintro ⟨h3, h4⟩
    exact ⟨n + 1, (generations_spec c es (n + 1) 0 n).2 ⟨by omega, by omega, h3, fun j _ hj => h4 j hj⟩⟩

/-! ## C77 -/

/-- Specification: the run ends at the first iteration where CMA itself stops or the cloud is smaller than
requested. -/
def SigmaSpec {P : Type} (es : Es P) (s : ℝ) (n : ℕ) : Prop :=
  (es.stop n = true ∨ es.sigma n < s) ∧ ∀ j < n, es.stop j = false ∧ ¬ es.sigma j < s

/-- C77 for a requested size that is a whole number. Missing: fractional sizes, see
`C77_fractional_false`. -/
theorem C77_whole_partial {R P : Type} (o : CmaOpts R) (es : Es P) (s : ℤ) (hs : o.stopAtSigma = some (s : ℝ))
    (hc : o.stopAtConvergence = none) (n : ℕ) : StopsAt (parse o).1 es n ↔ SigmaSpec es s n := by
  have hint : pyInt (s : ℝ) = s := by unfold pyInt; split <;> simp
  have hl : ∀ j, leaves (parse o).1 es j = true ↔ es.stop j = true ∨ es.sigma j < (s : ℝ) := by
    intro j
    unfold leaves
    simp only [parse, hs, hc, Option.map_none, Option.map_some, hint]
    simp
  have hl' : ∀ j, leaves (parse o).1 es j = false ↔ es.stop j = false ∧ ¬ es.sigma j < (s : ℝ) := by
    intro j
    rw [← Bool.not_eq_true, hl]
    rw [not_or, Bool.not_eq_true]
  rw [stopsAt_iff, SigmaSpec, hl]
  constructor
  · rintro ⟨h1, h2⟩; exact ⟨h1, fun j hj => (hl' j).1 (h2 j hj)⟩
  · rintro ⟨h1, h2⟩; exact ⟨h1, fun j hj => (hl' j).2 (h2 j hj)⟩

example : ∃ o : CmaOpts Unit, o.stopAtSigma = some ((2 : ℤ) : ℝ) ∧ o.stopAtConvergence = none :=
  ⟨⟨none, none, none, none, none, some ((2 : ℤ) : ℝ), ()⟩, rfl, rfl⟩

/-- C77 fails for every requested size below one: it is truncated to zero, and as the cloud size is positive
the condition never holds. The run goes on until CMA itself stops, whatever the size. -/
theorem C77_fractional_false {R P : Type} (o : CmaOpts R) (es : Es P) (s : ℝ) (hs : o.stopAtSigma = some s)
    (h0 : 0 ≤ s) (h1 : s < 1) (hc : o.stopAtConvergence = none) (hpos : ∀ i, 0 < es.sigma i) (n : ℕ) :
    StopsAt (parse o).1 es n ↔ es.stop n = true ∧ ∀ j < n, es.stop j = false := by
  have hint : pyInt s = 0 := by
    unfold pyInt
    rw [if_pos h0]
    exact Int.floor_eq_zero_iff.2 ⟨h0, h1⟩
  have hl : ∀ j, leaves (parse o).1 es j = es.stop j := by
    intro j
    unfold leaves
    simp only [parse, hs, hc, Option.map_none, Option.map_some, hint]
    have : ¬ es.sigma j < ((0 : ℤ) : ℝ) := by
      have := hpos j
      push_cast; linarith
    simp only [this, decide_false, Bool.or_false]
  rw [stopsAt_iff, hl]
  exact and_congr Iff.rfl (forall₂_congr fun j _ => by rw [hl])

/-- The requested size 1/2 with a cloud that is always smaller: the specification stops at once, the code
never does. -/
theorem C77_never : ∃ (o : CmaOpts Unit) (es : Es Unit), o.stopAtSigma = some (1 / 2) ∧ (∀ i, 0 < es.sigma i) ∧
    SigmaSpec es (1 / 2) 0 ∧ ∀ n, ¬ StopsAt (parse o).1 es n := by
  refine ⟨⟨none, none, none, none, none, some (1 / 2), ()⟩, ⟨fun _ => 1 / 4, fun _ => false, fun _ => []⟩, rfl,
    fun _ => by norm_num, ⟨.inr (by norm_num), fun j hj => by omega⟩, fun n => ?_⟩
  rw [C77_fractional_false _ _ (1 / 2) rfl (by norm_num) (by norm_num) rfl (fun _ => by norm_num)]
  simp

/-- In general the code compares with the size rounded towards zero. -/
theorem C77_truncated {R P : Type} (o : CmaOpts R) (es : Es P) (s : ℝ) (hs : o.stopAtSigma = some s)
    (h0 : 0 ≤ s) (hc : o.stopAtConvergence = none) (n : ℕ) :
    StopsAt (parse o).1 es n ↔ SigmaSpec es (⌊s⌋ : ℤ) n := by
  have hint : pyInt s = ⌊s⌋ := by unfold pyInt; rw [if_pos h0]
  have h2 : (parse o).1 = (parse { o with stopAtSigma := some ((⌊s⌋ : ℤ) : ℝ) }).1 := by
    unfold parse
    simp only [hs, Option.map_some, hint]
    have : pyInt ((⌊s⌋ : ℤ) : ℝ) = ⌊s⌋ := by unfold pyInt; split <;> simp
    rw [this]
  rw [h2]
  exact C77_whole_partial { o with stopAtSigma := some ((⌊s⌋ : ℤ) : ℝ) } es ⌊s⌋ rfl hc n

/-! ## C116: stop_at_convergence -/

/-- The cloud shrunk in each of the last `k` generations before iteration `n`. -/
def ShrunkFor {P : Type} (es : Es P) (k n : ℕ) : Prop := ∀ i, n - k ≤ i → i < n → es.sigma (i + 1) < es.sigma i

theorem shrunk_iff {P : Type} (es : Es P) (k n : ℕ) :
    shrunk es ((k : ℤ) + 1) n ↔ k + 1 < n ∧ ShrunkFor es k n := by
  unfold shrunk ShrunkFor
  constructor
  · rintro ⟨h1, h2⟩
    refine ⟨by omega, fun i hi1 hi2 => ?_⟩
    have := h2 (n - (i + 1)) (by omega)
    rwa [show n - (n - (i + 1)) = i + 1 by omega, show n - (n - (i + 1) + 1) = i by omega] at this
  · rintro ⟨h1, h2⟩
    refine ⟨by omega, fun i hi => ?_⟩
    have := h2 (n - (i + 1)) (by omega) (by omega)
    rwa [show n - (i + 1) + 1 = n - i by omega] at this

/-- With `stop_at_convergence` equal to `k + 1`, the run ends at the first iteration after `k + 2` or more
generations where CMA stops or the cloud shrunk for the last `k` generations. So it stops in time when the
cloud shrunk for the documented number of generations. Missing: the documented number is `k + 1`, one
more, see `C116_early_false`. -/
theorem C116_convergence_partial {R P : Type} (o : CmaOpts R) (es : Es P) (k : ℕ)
    (hc : o.stopAtConvergence = some ((k : ℝ) + 1)) (hs : o.stopAtSigma = none) (n : ℕ) :
    StopsAt (parse o).1 es n ↔ (es.stop n = true ∨ k + 1 < n ∧ ShrunkFor es k n) ∧
      ∀ j < n, es.stop j = false ∧ ¬ (k + 1 < j ∧ ShrunkFor es k j) := by
  have hint : pyInt ((k : ℝ) + 1) = (k : ℤ) + 1 := by
    unfold pyInt
    rw [if_pos (by positivity)]
    exact_mod_cast Int.floor_natCast (R := ℝ) (k + 1)
  have hl : ∀ j, leaves (parse o).1 es j = true ↔ es.stop j = true ∨ k + 1 < j ∧ ShrunkFor es k j := by
    intro j
    unfold leaves
    simp only [parse, hs, hc, Option.map_none, Option.map_some, hint]
    rw [← shrunk_iff]
    simp
  have hl' : ∀ j, leaves (parse o).1 es j = false ↔
      es.stop j = false ∧ ¬ (k + 1 < j ∧ ShrunkFor es k j) := by
    intro j
    rw [← Bool.not_eq_true, hl, not_or, Bool.not_eq_true]
  rw [stopsAt_iff, hl]
  exact and_congr Iff.rfl (forall₂_congr fun j _ => hl' j)

example : ∃ o : CmaOpts Unit, o.stopAtConvergence = some (((4 : ℕ) : ℝ) + 1) ∧ o.stopAtSigma = none :=
  ⟨⟨none, none, none, none, some (((4 : ℕ) : ℝ) + 1), none, ()⟩, rfl, rfl⟩

/-- It stops one generation too early: asked for two shrinking generations it stops after one; asked for one
it stops although the cloud has only grown. -/
theorem C116_early_false :
    (∃ (o : CmaOpts Unit) (es : Es Unit) (n : ℕ), o.stopAtConvergence = some 2 ∧ o.stopAtSigma = none ∧
      es.stop n = false ∧ StopsAt (parse o).1 es n ∧ ¬ ShrunkFor es 2 n) ∧
    (∃ (o : CmaOpts Unit) (es : Es Unit) (n : ℕ), o.stopAtConvergence = some 1 ∧ o.stopAtSigma = none ∧
      es.stop n = false ∧ StopsAt (parse o).1 es n ∧ ∀ i, es.sigma i < es.sigma (i + 1)) := by
  constructor
  · refine ⟨⟨none, none, none, none, some 2, none, ()⟩,
      ⟨fun i => if i < 3 then 1 else 1 / 2, fun _ => false, fun _ => []⟩, 3, rfl, rfl, rfl, ?_, ?_⟩
    · rw [C116_convergence_partial _ _ 1 (by norm_num) rfl]
      refine ⟨.inr ⟨by norm_num, fun i h1 h2 => ?_⟩, fun j hj => ⟨rfl, fun h => by omega⟩⟩
      have : i = 2 := by omega
      subst this; norm_num
    · intro h
      have := h 1 (by norm_num) (by norm_num)
      norm_num at this
  · refine ⟨⟨none, none, none, none, some 1, none, ()⟩,
      ⟨fun i => (i : ℝ) + 1, fun _ => false, fun _ => []⟩, 2, rfl, rfl, rfl, ?_, fun i => by push_cast; linarith⟩
    rw [C116_convergence_partial _ _ 0 (by norm_num) rfl]
    exact ⟨.inr ⟨by norm_num, fun i h1 h2 => by omega⟩, fun j hj => ⟨rfl, fun h => by omega⟩⟩

/-! ## C117: noise and initial point -/

open scoped Classical in
/-- c3/libraries/algorithms.py:551-559: the goals told to CMA for one generation; `rnd` is the stream of
`np.random.randn()`. -/
noncomputable def solutions {R : Type} (c : Cfg R) (rnd : ℕ → ℝ) (goals : List ℝ) : List ℝ :=
  let start := if c.batchNoise ≠ 0 then 1 else 0
  goals.zipIdx.map fun (g, i) =>
    if c.noise ≠ 0 then g + rnd (start + i) * c.noise
    else if c.batchNoise ≠ 0 then g + rnd 0 * c.noise
    else g

/-- `noise`: every evaluation gets its own normal error of that scale; without it the goals are unchanged. -/
theorem C117_noise {R : Type} (o : CmaOpts R) (hb : o.batchNoise = none) (rnd : ℕ → ℝ) (goals : List ℝ) (i : ℕ)
    (g : ℝ) (hg : goals[i]? = some g) :
    (solutions (parse o).1 rnd goals)[i]? = some (g + rnd i * o.noise.getD 0) := by
  unfold solutions
  rw [List.getElem?_map, List.getElem?_zipIdx, hg]
  simp only [parse, hb, Option.getD_none, ne_eq, not_true_eq_false, if_false, Option.map_some]
  by_cases h : o.noise.getD 0 = 0
  · rw [if_neg (by simp [h]), h]; simp
  · rw [if_pos h]; simp

example : ∃ o : CmaOpts Unit, o.batchNoise = none ∧ o.noise = some 1 :=
  ⟨⟨some 1, none, none, none, none, none, ()⟩, rfl, rfl⟩

/-- `batch_noise` has no effect on the goals: alone it adds an error of scale zero, and together with `noise`
its error is replaced; only one more random number is drawn. -/
theorem C117_batch_noise_false {R : Type} (o : CmaOpts R) (rnd : ℕ → ℝ) (goals : List ℝ) :
    (o.noise = none → solutions (parse o).1 rnd goals = goals) ∧
    (∀ v, o.batchNoise = some v → v ≠ 0 →
      solutions (parse o).1 rnd goals = solutions (parse { o with batchNoise := none }).1 (fun i => rnd (i + 1)) goals) := by
  constructor
  · intro h
    unfold solutions
    simp only [parse, h, Option.getD_none, mul_zero, add_zero, ne_eq, not_true_eq_false, ite_self]
    exact List.zipIdx_map_fst 0 goals
  · intro v hv hv0
    unfold solutions
    simp only [parse, hv, Option.getD_some, Option.getD_none, ne_eq, hv0, not_false_eq_true, if_true,
      not_true_eq_false, if_false]
    refine List.map_congr_left fun gi _ => ?_
    by_cases h : o.noise.getD 0 = 0
    · rw [if_neg (by simp [h]), if_neg (by simp [h]), h]; simp
    · rw [if_pos h, if_pos h]
      simp [Nat.add_comm]

example : ∃ o : CmaOpts Unit, o.noise = none ∧ o.batchNoise = some 1 :=
  ⟨⟨none, some 1, none, none, none, none, ()⟩, rfl, rfl⟩

/-- c3/libraries/algorithms.py:544-549: the points evaluated in iteration `iter`. -/
def evaluated {R P : Type} (c : Cfg R) (es : Es P) (xInit : P) (iter : ℕ) : List P :=
  if c.initPoint = true ∧ iter = 0 then xInit :: es.ask iter else es.ask iter

/-- All points of a run of `n` generations. -/
def evaluatedRun {R P : Type} (c : Cfg R) (es : Es P) (xInit : P) (n : ℕ) : List P :=
  (List.range n).flatMap (evaluated c es xInit)

/-- `init_point`: the initial point is evaluated first, once, before the samples of the first generation; without
it exactly the samples are evaluated. -/
theorem C117_init_point {R P : Type} (o : CmaOpts R) (es : Es P) (xInit : P) (n : ℕ) (hn : 0 < n) :
    (o.initPoint = some true →
      evaluatedRun (parse o).1 es xInit n = xInit :: (List.range n).flatMap es.ask) ∧
    (o.initPoint ≠ some true → evaluatedRun (parse o).1 es xInit n = (List.range n).flatMap es.ask) := by
  obtain ⟨m, rfl⟩ : ∃ m, n = m + 1 := ⟨n - 1, by omega⟩
  constructor
  · intro h
    unfold evaluatedRun
    rw [List.range_succ_eq_map, List.flatMap_cons, List.flatMap_cons]
    simp [evaluated, parse, h, List.flatMap_map]
  · intro h
    unfold evaluatedRun
    have : o.initPoint.getD false = false := by
      cases hi : o.initPoint with
      | none => rfl
      | some b => cases b <;> simp_all
    congr 1
    funext i
    simp [evaluated, parse, this]

example : ∃ o : CmaOpts Unit, o.initPoint = some true ∧ 0 < 1 :=
  ⟨⟨none, none, some true, none, none, none, ()⟩, rfl, by norm_num⟩

/-! ## C118: options of a repeated run -/

/-- The options of pycma are handed over and left unchanged. -/
theorem C118_rest_partial {R : Type} (o : CmaOpts R) : (parse o).1.settings = o.rest ∧ (parse o).2.rest = o.rest :=
  ⟨rfl, rfl⟩

/-- A second run with the same options dictionary (as `Optimizer.options` is) ignores all custom options: they
were taken out by the first. -/
theorem C118_second_run_false {R : Type} (o : CmaOpts R) :
    let c := (parse (parse o).2).1
    c.noise = 0 ∧ c.batchNoise = 0 ∧ c.initPoint = false ∧ c.spread = 1 / 10 ∧ c.sigmaConv = none ∧
      c.stopSigma = none := ⟨rfl, rfl, rfl, rfl, rfl, rfl⟩

/-- For instance a requested spread of 1/2 holds for the first run only. -/
theorem C118_witness : ∃ o : CmaOpts Unit, (parse o).1.spread = 1 / 2 ∧ (parse (parse o).2).1.spread ≠ 1 / 2 :=
  ⟨⟨none, none, none, some (1 / 2), none, none, ()⟩, rfl, by norm_num [parse]⟩

end C3.Optim.Alg
