import Verif.Propagation.RungeKutta
import Mathlib.Data.List.Sort
import Mathlib.Data.List.Perm.Basic

/-!
# C91: the solvers sample the signal at their own nodes

`interpolate_signal` (c3/utils/tf_utils.py:521-559) builds the list of interpolation times, the loop
of `ode_solver` cuts slices out of it. Modelled here: the times. The interpolated values are the
piecewise linear interpolation of the signal at these times (`tfp.math.interp_regular_1d_grid`).
-/

namespace C3.Propagation

open List

/-! ## Model -/

/-- `tf.linspace(a, b, num)`. -/
noncomputable def linspace (a b : ℝ) (num : ℕ) : List ℝ :=
  (List.range num).map fun k : ℕ => a + (b - a) / ((num - 1 : ℕ) : ℝ) * (k : ℝ)

/-- The offsets listed in `interpolate_signal` for `interpolate_res = -1` (DOPRI5), lines 524-537. -/
noncomputable def dopriNodes : List ℝ := [0, 1 / 5, 3 / 10, 4 / 5, 8 / 9, 1]

/-- The offsets for `interpolate_res = -2` (tsit5), lines 538-552. -/
noncomputable def tsitNodes : List ℝ := [0, 0.161, 0.327, 0.9, 0.9800255409045097, 1]

open scoped Classical in
/-- `tf.sort(tf.concat([ts, ts + c1 * dt, ...]))` (lines 527-537, 541-551). -/
noncomputable def sortedConcat (ts nodes : List ℝ) (dt : ℝ) : List ℝ :=
  (nodes.flatMap fun c => ts.map fun t => t + c * dt).insertionSort (· ≤ ·)

/-- c3/utils/tf_utils.py:521-559, the list `ts_interp` for the resolution that
`solver_slicing` (c3/libraries/propagation.py:27-32) prescribes; `ts` has at least two entries. -/
noncomputable def interpTimes (s : Solver) (ts : List ℝ) : List ℝ :=
  let dt := ts.getD 1 0 - ts.getD 0 0
  match s with
  | .rk4 => linspace (ts.getD 0 0) (ts.getLastD 0 + dt) (ts.length * 2 + 1)
  | .rk38 => linspace (ts.getD 0 0) (ts.getLastD 0 + dt) (ts.length * 3 + 1)
  | .rk5 => sortedConcat ts dopriNodes dt
  | .tsit5 => sortedConcat ts tsitNodes dt

/-! ## Specification -/

/-- The node (fraction of the step) of the `j`-th Hamiltonian sample of a solver. -/
noncomputable def nodes : Solver → List ℝ
  | .rk4 => [0, 1 / 2, 1]
  | .rk38 => [0, 1 / 3, 2 / 3, 1]
  | .rk5 => [0, 1 / 5, 3 / 10, 4 / 5, 8 / 9, 1]
  | .tsit5 => [0, 0.161, 0.327, 0.9, 0.9800255409045097, 1]

/-- A regular time grid of `N` points. -/
noncomputable def grid (t0 dt : ℝ) (N : ℕ) : List ℝ := (List.range N).map fun i : ℕ => t0 + (i : ℝ) * dt

/-! ## Lemmas -/

theorem flatMap_swap_perm (ts : List ℝ) (g : ℝ → ℝ → ℝ) :
    ∀ cs : List ℝ, (cs.flatMap fun c => ts.map fun t => g t c) ~ ts.flatMap fun t => cs.map (g t)
  | [] => by simp
  | c :: cs => by
    rw [List.flatMap_cons]
    refine ((flatMap_swap_perm ts g cs).append_left _).trans ?_
    exact map_append_flatMap_perm ts (fun t => g t c) fun t => cs.map (g t)

theorem getElem?_flatMap_const (f : ℕ → List ℝ) (m : ℕ) (hf : ∀ i, (f i).length = m) (N : ℕ) :
    ∀ i, i < N → ∀ j, j < m → ((List.range N).flatMap f)[m * i + j]? = (f i)[j]? := by
  induction N with
  | zero => intro i hi; omega
  | succ N ih =>
    intro i hi j hj
    rw [List.range_succ, List.flatMap_append]
    have hlen : ((List.range N).flatMap f).length = m * N := by
      simp [List.length_flatMap, hf, Nat.mul_comm]
    rcases Nat.lt_succ_iff_lt_or_eq.1 hi with h | rfl
    · rw [List.getElem?_append_left, ih i h j hj]
      rw [hlen]
      have : m * (i + 1) ≤ m * N := Nat.mul_le_mul_left m h
      rw [Nat.mul_add] at this
      omega
    · rw [List.getElem?_append_right (by rw [hlen]; omega), hlen]
      simp

theorem sortedConcat_eq (t0 dt : ℝ) (hdt : 0 < dt) (N : ℕ) (cs : List ℝ)
    (hs : cs.Pairwise (· ≤ ·)) (h0 : ∀ c ∈ cs, 0 ≤ c ∧ c ≤ 1) :
    sortedConcat (grid t0 dt N) cs dt =
      (List.range N).flatMap fun i : ℕ => cs.map fun c => t0 + (i : ℝ) * dt + c * dt := by
  unfold sortedConcat
  have hperm := flatMap_swap_perm (grid t0 dt N) (fun t c => t + c * dt) cs
  have e : (grid t0 dt N).flatMap (fun t => cs.map fun c => t + c * dt) =
      (List.range N).flatMap fun i : ℕ => cs.map fun c => t0 + (i : ℝ) * dt + c * dt := by
    rw [grid, List.flatMap_map]
  rw [e] at hperm
  classical
  apply Perm.eq_of_pairwise' (r := (· ≤ ·)) (pairwise_insertionSort _ _)
  · rw [List.pairwise_flatMap]
    constructor
    · intro i _
      rw [List.pairwise_map]
      exact hs.imp fun {a b} hab => by
        have := mul_le_mul_of_nonneg_right hab hdt.le
        linarith
    · refine (List.pairwise_lt_range (n := N)).imp ?_
      intro i j hij x hx y hy
      obtain ⟨c, hc, rfl⟩ := List.mem_map.1 hx
      obtain ⟨c', hc', rfl⟩ := List.mem_map.1 hy
      have h1 : (i : ℝ) + 1 ≤ j := by exact_mod_cast hij
      have h2 := mul_le_mul_of_nonneg_right h1 hdt.le
      have h3 := mul_le_mul_of_nonneg_right (h0 c hc).2 hdt.le
      have h4 := mul_nonneg (h0 c' hc').1 hdt.le
      linarith
  · exact (perm_insertionSort _ _).trans hperm

theorem grid_getD (t0 dt : ℝ) (N k : ℕ) (hk : k < N) : (grid t0 dt N).getD k 0 = t0 + k * dt := by
  simp [grid, List.getD, hk]

theorem grid_dt (t0 dt : ℝ) (N : ℕ) (hN : 2 ≤ N) :
    (grid t0 dt N).getD 1 0 - (grid t0 dt N).getD 0 0 = dt := by
  rw [grid_getD _ _ _ _ (by omega), grid_getD _ _ _ _ (by omega)]
  push_cast; ring

theorem grid_last (t0 dt : ℝ) (N : ℕ) (hN : 2 ≤ N) :
    (grid t0 dt N).getLastD 0 = t0 + (N - 1 : ℝ) * dt := by
  obtain ⟨M, rfl⟩ := Nat.exists_eq_add_of_le' hN
  rw [grid, List.range_succ, List.map_append, List.getLastD_eq_getLast?]
  simp
  left
  ring

/-! ## C91 -/

/-- **C91**: on a regular grid of at least two points, the `j`-th Hamiltonian sample handed to a
solver in step `i` belongs to the time `t_i + c_j dt`, where `c_j` is the solver's node. -/
theorem C91_sample_times (s : Solver) (t0 dt : ℝ) (hdt : 0 < dt) (N : ℕ) (hN : 2 ≤ N) (i : ℕ)
    (hi : i < N) (j : ℕ) (hj : j < (nodes s).length) :
    (interpTimes s (grid t0 dt N))[s.start * i + j]? =
      some ((grid t0 dt N).getD i 0 + (nodes s).getD j 0 * dt) := by
  rw [grid_getD _ _ _ _ hi]
  have hlen : (grid t0 dt N).length = N := by simp [grid]
  have hN' : (N : ℝ) ≠ 0 := by exact_mod_cast (by omega : N ≠ 0)
  have lin : ∀ (m : ℕ), 0 < m → ∀ k, k < N * m + 1 →
      (linspace ((grid t0 dt N).getD 0 0) ((grid t0 dt N).getLastD 0 +
        ((grid t0 dt N).getD 1 0 - (grid t0 dt N).getD 0 0)) ((grid t0 dt N).length * m + 1))[k]? =
      some (t0 + k * (dt / m)) := by
    intro m hm k hk
    rw [grid_dt _ _ _ hN, grid_last _ _ _ hN, hlen, grid_getD _ _ _ _ (by omega)]
    unfold linspace
    rw [List.getElem?_map, List.getElem?_range hk]
    have hm' : (m : ℝ) ≠ 0 := by exact_mod_cast hm.ne'
    simp only [Nat.add_sub_cancel, Option.map_some, Option.some.injEq]
    push_cast
    field_simp
    ring
  cases s with
  | rk4 =>
    simp only [nodes, List.length_cons, List.length_nil] at hj
    simp only [interpTimes, Solver.start]
    rw [lin 2 (by norm_num) _ (by omega)]
    congr 1
    have : j = 0 ∨ j = 1 ∨ j = 2 := by omega
    rcases this with rfl | rfl | rfl <;> simp [nodes] <;> ring
  | rk38 =>
    simp only [nodes, List.length_cons, List.length_nil] at hj
    simp only [interpTimes, Solver.start]
    rw [lin 3 (by norm_num) _ (by omega)]
    congr 1
    have : j = 0 ∨ j = 1 ∨ j = 2 ∨ j = 3 := by omega
    rcases this with rfl | rfl | rfl | rfl <;> simp [nodes] <;> ring
  | rk5 =>
    have hl : (nodes .rk5).length = 6 := rfl
    rw [hl] at hj
    simp only [interpTimes, Solver.start, grid_dt _ _ _ hN]
    rw [sortedConcat_eq t0 dt hdt N dopriNodes
      (by simp [dopriNodes, List.pairwise_cons]; norm_num)
      (by simp [dopriNodes]; norm_num),
      getElem?_flatMap_const _ 6 (by intro i; simp [dopriNodes]) N i hi j hj]
    have : j = 0 ∨ j = 1 ∨ j = 2 ∨ j = 3 ∨ j = 4 ∨ j = 5 := by omega
    rcases this with rfl | rfl | rfl | rfl | rfl | rfl <;> simp [nodes, dopriNodes]
  | tsit5 =>
    have hl : (nodes .tsit5).length = 6 := rfl
    rw [hl] at hj
    simp only [interpTimes, Solver.start, grid_dt _ _ _ hN]
    rw [sortedConcat_eq t0 dt hdt N tsitNodes
      (by simp [tsitNodes, List.pairwise_cons]; norm_num)
      (by simp [tsitNodes]; norm_num),
      getElem?_flatMap_const _ 6 (by intro i; simp [tsitNodes]) N i hi j hj]
    have : j = 0 ∨ j = 1 ∨ j = 2 ∨ j = 3 ∨ j = 4 ∨ j = 5 := by omega
    rcases this with rfl | rfl | rfl | rfl | rfl | rfl <;> simp [nodes, tsitNodes]

/-- **C91** (the nodes belong to the tableau): sampled at these times, the non-autonomous equation
`x' = 1 + lam (x - t)` with solution `x = t` is integrated without error by `rk4`, `rk38` and `rk5`,
for every rate `lam`. (This pins down the nodes as the row sums of the stage coefficients.) -/
theorem C91_nodes_consistent (s : Solver) (hs : s ≠ .tsit5) (t dt lam : ℂ) :
    s.run (fun (x tau : ℂ) => dt * (1 + lam * (x - tau))) t
      (fun j => t + ((nodes s).getD j 0 : ℝ) * dt) = t + dt := by
  cases s with
  | rk4 => simp [Solver.run, rk4, nodes]; ring
  | rk38 => simp [Solver.run, rk38, nodes]; ring
  | rk5 => simp [Solver.run, rk5, nodes]; ring
  | tsit5 => exact absurd rfl hs

/-- A solver reads no more samples than it has nodes. -/
theorem run_congr {V H : Type*} [AddCommGroup V] [Module ℂ V] (s : Solver) (f : V → H → V) (x : V)
    (h h' : ℕ → H) (e : ∀ j, j < (nodes s).length → h j = h' j) : s.run f x h = s.run f x h' := by
  cases s <;> simp only [nodes, List.length_cons, List.length_nil] at e
  · simp only [Solver.run, rk4, e 0 (by norm_num), e 1 (by norm_num), e 2 (by norm_num)]
  · simp only [Solver.run, rk38, e 0 (by norm_num), e 1 (by norm_num), e 2 (by norm_num),
      e 3 (by norm_num)]
  · simp only [Solver.run, rk5, e 0 (by norm_num), e 1 (by norm_num), e 2 (by norm_num),
      e 3 (by norm_num), e 4 (by norm_num), e 5 (by norm_num)]
  · simp only [Solver.run, tsit5, e 0 (by norm_num), e 1 (by norm_num), e 2 (by norm_num),
      e 3 (by norm_num), e 4 (by norm_num), e 5 (by norm_num)]

/-- **C91** (the steps): if `H t` is the Hamiltonian at time `t`, the solvers applied to the list of
samples make in step `i` a step with the Hamiltonians `H (t_i + c_j dt)`, for the final state and for
every state of the trajectory. -/
theorem C91_steps {V H : Type*} [AddCommGroup V] [Module ℂ V] (s : Solver) (t0 dt : ℝ) (hdt : 0 < dt)
    (N : ℕ) (hN : 2 ≤ N) (f : V → H → V) (ham : ℝ → H) (x : V) :
    let Hs : ℕ → H := fun k => ham ((interpTimes s (grid t0 dt N)).getD k 0)
    let exact (n : ℕ) : V := (List.range n).foldl (fun (st : V) (i : ℕ) =>
      s.run f st fun j => ham (t0 + i * dt + (nodes s).getD j 0 * dt)) x
    odeSolverFinal s f Hs N x = exact N ∧
      odeSolver s f Hs N x = (List.range N).map fun i => exact (i + 1) := by
  intro Hs exact
  have hstep : ∀ (st : V) (i : ℕ), i < N → odeStep s f Hs st i =
      s.run f st fun j => ham (t0 + i * dt + (nodes s).getD j 0 * dt) := by
    intro st i hi
    unfold odeStep
    apply run_congr
    intro j hj
    have h := C91_sample_times s t0 dt hdt N hN i hi j hj
    rw [grid_getD _ _ _ _ hi] at h
    simp only [Hs, List.getD_eq_getElem?_getD, h, Option.getD_some]
  have hl : ∀ n, n ≤ N → (List.range n).foldl (fun st i => odeStep s f Hs st i) x = exact n := by
    intro n
    induction n with
    | zero => intro _; rfl
    | succ n ih =>
      intro hn
      simp only [exact, List.range_succ, List.foldl_append, List.foldl_cons, List.foldl_nil]
      rw [ih (by omega), hstep _ _ (by omega)]
  refine ⟨hl N le_rfl, ?_⟩
  unfold odeSolver
  have key : ∀ n, n ≤ N → (List.range n).foldl (fun (acc : V × List V) index =>
      let st := odeStep s f Hs acc.1 index
      (st, acc.2 ++ [st])) (x, []) = (exact n, (List.range n).map fun i => exact (i + 1)) := by
    intro n
    induction n with
    | zero => intro _; rfl
    | succ n ih =>
      intro hn
      have e : exact (n + 1) = odeStep s f Hs (exact n) n := by
        rw [← hl (n + 1) hn, ← hl n (by omega), List.range_succ, List.foldl_append]
        rfl
      rw [List.range_succ, List.foldl_append, ih (by omega), List.map_append]
      simp only [List.foldl_cons, List.foldl_nil, List.map_cons, List.map_nil, e]
  rw [key N le_rfl]

example : (interpTimes .rk5 (grid 0 1 3))[6 * 2 + 3]? = some ((grid 0 1 3).getD 2 0 + 4 / 5 * 1) :=
  C91_sample_times .rk5 0 1 one_pos 3 (by norm_num) 2 (by norm_num) 3 (by simp [nodes])

end C3.Propagation
