import Verif.Propagation.Sampling
import Verif.Propagation.Times

/-!
# C203: the Hamiltonians given to the Runge-Kutta solvers

Models `Model.Hs_of_t` and `Model.calculate_sum_Hs` (c3/model.py:641-697), `interpolate_signal`
(c3/utils/tf_utils.py:521-559, the times in C91) and the loops of `ode_solver` and `ode_solver_final_state`
(c3/libraries/propagation.py:687-752) on their result.

Simplified: the signals are the input; every channel has at least two values; floats are exact.
-/

noncomputable section

namespace C3.Propagation.HsOfT

open Times

variable {M : Type} [AddCommGroup M] [Module ℂ M]

/-! ## Model -/

/-- `tfp.math.interp_regular_1d_grid(x, s, e, ys, fill_value="extrapolate")` for `s < e` and at least two samples: the
line through the two neighbouring samples, outside of the grid through the first or last two. -/
def interpLin (s e : ℝ) (ys : List ℝ) (x : ℝ) : ℝ :=
  let u := (x - s) / (e - s) * ((ys.length - 1 : ℕ) : ℝ)
  let k := min ⌊u⌋₊ (ys.length - 2)
  (1 - (u - k)) * ys.getD k 0 + (u - k) * ys.getD (k + 1) 0

/-- The times of all channels at a sample, c3/model.py:656-664. -/
def timesOf (chs : List Chan) (i : ℕ) : List ℝ := chs.map fun c => c.ts.getD i 0

/-- c3/model.py:691-697 `calculate_sum_Hs` for one time. -/
def sumHs (h0 : M) (hks : List M) (cf : List ℝ) : M := ((cf.zip hks).map fun p => (p.1 : ℂ) • p.2).sum + h0

open scoped Classical in
/-- c3/model.py:641-689 `Hs_of_t`, with the interpolation of the given solver. -/
def hsOfT (h0 : M) (hctrl : String → Option M) (s : Solver) (chs : List Chan) : Except Err (Out M) :=
  match chs.mapM fun c => hctrl c.key with
  | none => .error .keyError
  | some hks =>
    match chs.getLast? with
    | none => .error .indexError
    | some last =>
      if ∀ c ∈ chs, c.ts.length = last.ts.length then
        let ts := (List.range last.ts.length).map fun i => mean (timesOf chs i)
        if 1 < ts.length then
          if (∀ i < ts.length, variance (timesOf chs i) < 1e-5 * (ts.getD 1 0 - ts.getD 0 0)) ∧
              variance (diffs ts) < 1e-5 * (ts.getD 1 0 - ts.getD 0 0) then
            .ok ⟨(interpTimes s ts).map fun t =>
                sumHs h0 hks (chs.map fun c => interpLin (ts.getD 0 0) (ts.getLastD 0) c.values t),
              ts, ts.getD 1 0 - ts.getD 0 0⟩
          else .error .times
        else .error .indexError
      else .error .shape

/-- `ode_solver_final_state` (c3/libraries/propagation.py:724-752) from the signals on; `step dt` is the step
function. -/
def finalState {V : Type*} [AddCommGroup V] [Module ℂ V] (step : ℝ → V → M → V) (h0 : M)
    (hctrl : String → Option M) (s : Solver) (chs : List Chan) (init : V) : Except Err (V × List ℝ) :=
  (hsOfT h0 hctrl s chs).map fun o =>
    (odeSolverFinal s (step o.dt) (fun k => o.hs.getD k 0) o.ts.length init, o.ts)

/-- `ode_solver` (c3/libraries/propagation.py:687-721) from the signals on. -/
def trajectory {V : Type*} [AddCommGroup V] [Module ℂ V] (step : ℝ → V → M → V) (h0 : M)
    (hctrl : String → Option M) (s : Solver) (chs : List Chan) (init : V) : Except Err (List V × List ℝ) :=
  (hsOfT h0 hctrl s chs).map fun o =>
    (odeSolver s (step o.dt) (fun k => o.hs.getD k 0) o.ts.length init, o.ts)

/-! ## Specification -/

/-- The value of a signal a fraction `c` after sample `i`: on the line to the next sample, or after the last sample on
the line from the one before. -/
def lineAt (v : List ℝ) (i : ℕ) (c : ℝ) : ℝ :=
  if i + 1 < v.length then v.getD i 0 + c * (v.getD (i + 1) 0 - v.getD i 0)
  else v.getD i 0 + c * (v.getD i 0 - v.getD (i - 1) 0)

/-- The Hamiltonian a fraction `c` after sample `i`. -/
def hamLine (h0 : M) (hk : String → M) (chs : List Chan) (i : ℕ) (c : ℝ) : M :=
  h0 + (chs.map fun ch => (lineAt ch.values i c : ℂ) • hk ch.key).sum

/-! ## C203 -/

theorem interpLin_line (a δ : ℝ) (hδ : 0 < δ) (v : List ℝ) (hN : 2 ≤ v.length) (i : ℕ) (hi : i < v.length) (c : ℝ)
    (h0 : 0 ≤ c) (h1 : c ≤ 1) :
    interpLin a (a + (v.length - 1 : ℕ) * δ) v (a + i * δ + c * δ) = lineAt v i c := by
  have hn : (0 : ℝ) < ((v.length - 1 : ℕ) : ℝ) := by exact_mod_cast (by omega : 0 < v.length - 1)
  have hu : (a + i * δ + c * δ - a) / (a + (v.length - 1 : ℕ) * δ - a) * ((v.length - 1 : ℕ) : ℝ) = i + c := by
    have e1 : a + i * δ + c * δ - a = (i + c) * δ := by ring
    have e2 : a + (v.length - 1 : ℕ) * δ - a = (v.length - 1 : ℕ) * δ := by ring
    rw [e1, e2, mul_div_mul_right _ _ hδ.ne', div_mul_cancel₀ _ hn.ne']
  unfold interpLin lineAt
  simp only [hu]
  by_cases h2 : i + 1 < v.length
  · rw [if_pos h2]
    rcases h1.lt_or_eq with h3 | rfl
    · have hf : ⌊(i : ℝ) + c⌋₊ = i := by
        rw [Nat.floor_eq_iff (by positivity)]
        constructor <;> linarith
      rw [hf, Nat.min_eq_left (by omega)]
      ring
    · have hf : ⌊(i : ℝ) + 1⌋₊ = i + 1 := by
        have := Nat.floor_natCast (R := ℝ) (i + 1)
        push_cast at this
        exact this
      rw [hf]
      by_cases h4 : i + 1 ≤ v.length - 2
      · rw [Nat.min_eq_left h4]
        push_cast
        ring
      · rw [Nat.min_eq_right (by omega), show v.length - 2 = i by omega]
        ring
  · rw [if_neg h2]
    have hf : i ≤ ⌊(i : ℝ) + c⌋₊ := by
      rw [Nat.le_floor_iff (by positivity)]
      linarith
    obtain ⟨j, rfl⟩ : ∃ j, i = j + 1 := ⟨i - 1, by omega⟩
    rw [Nat.min_eq_right (by omega), show v.length - 2 = j by omega, show j + 1 - 1 = j by omega]
    push_cast
    ring

theorem sumHs_eq (h0 : M) (hk : String → M) (chs : List Chan) (g : Chan → ℝ) :
    sumHs h0 (chs.map fun c => hk c.key) (chs.map g) = h0 + (chs.map fun c => (g c : ℂ) • hk c.key).sum := by
  unfold sumHs
  rw [List.zip_map', List.map_map, add_comm]
  rfl

theorem uniform_grid (a δ : ℝ) (N : ℕ) : uniform a δ N = grid a δ N := rfl

/-- The value returned for channels on one uniform grid. -/
theorem hsOfT_uniform (h0 : M) (hctrl : String → Option M) (hk : String → M) (s : Solver) (a δ : ℝ) (hδ : 0 < δ)
    (N : ℕ) (hN : 2 ≤ N) (chs : List Chan) (hgrid : OnGrid (uniform a δ N) chs)
    (hkey : ∀ c ∈ chs, hctrl c.key = some (hk c.key)) :
    hsOfT h0 hctrl s chs = .ok ⟨(interpTimes s (grid a δ N)).map fun t =>
      h0 + (chs.map fun c => (interpLin a (a + (N - 1 : ℕ) * δ) c.values t : ℂ) • hk c.key).sum, grid a δ N, δ⟩ := by
  have hlen : (uniform a δ N).length = N := by simp [uniform]
  obtain ⟨hne, hall⟩ := hgrid
  have hl : chs.getLast? = some (chs.getLast hne) := List.getLast?_eq_some_getLast hne
  obtain ⟨l1, l2⟩ := hall _ (List.getLast_mem hne)
  have hall' : ∀ i < N, ∀ y ∈ timesOf chs i, y = a + i * δ := by
    intro i hi y hy
    obtain ⟨c, hc, rfl⟩ := List.mem_map.1 hy
    rw [(hall c hc).1]
    exact uniform_get a δ N i hi
  have hne' : ∀ i, timesOf chs i ≠ [] := fun i => by simpa [timesOf] using hne
  have hts : (List.range N).map (fun i => mean (timesOf chs i)) = uniform a δ N := by
    unfold uniform
    apply List.map_congr_left
    intro i hi
    exact mean_const _ _ (hne' i) (hall' i (List.mem_range.1 hi))
  have hd : (uniform a δ N).getD 1 0 - (uniform a δ N).getD 0 0 = δ := grid_dt a δ N hN
  have hpos : (0 : ℝ) < 1e-5 * δ := by positivity
  have hdiff : variance (diffs (uniform a δ N)) = 0 := by
    have hdl : (diffs (uniform a δ N)).length = N - 1 := by
      simp [diffs, hlen]
    refine variance_const δ _ ?_ ?_
    · intro hc
      rw [hc] at hdl
      simp at hdl
      omega
    · intro y hy
      obtain ⟨i, hi, rfl⟩ := List.getElem_of_mem hy
      rw [hdl] at hi
      simp only [diffs, uniform, List.getElem_zipWith, List.getElem_tail, List.getElem_map, List.getElem_range]
      push_cast
      ring
  have h00 : (uniform a δ N).getD 0 0 = a := by
    rw [uniform_get a δ N 0 (by omega)]
    simp
  have hlast : (uniform a δ N).getLastD 0 = a + (N - 1 : ℕ) * δ := by
    rw [uniform_grid, grid_last a δ N hN, Nat.cast_sub (by omega)]
    simp
  unfold hsOfT
  rw [mapM_some chs hkey, hl]
  simp only
  rw [if_pos (fun c hc => by rw [(hall c hc).1, l1]), l1, hlen, hts, hlen, hd, if_pos (by omega), if_pos, h00, hlast]
  · simp only [sumHs_eq]
    rfl
  · refine ⟨fun i hi => ?_, by rw [hdiff]; exact hpos⟩
    rw [variance_const _ _ (hne' i) (hall' i hi)]
    exact hpos

theorem nodes_range (s : Solver) (j : ℕ) (hj : j < (nodes s).length) :
    0 ≤ (nodes s).getD j 0 ∧ (nodes s).getD j 0 ≤ 1 := by
  have h : ∀ c ∈ nodes s, 0 ≤ c ∧ c ≤ 1 := by
    cases s <;> simp only [nodes, List.mem_cons, List.not_mem_nil, or_false] <;> rintro c hc <;>
      rcases hc with rfl | rfl | rfl | rfl | rfl | rfl <;> norm_num
  rw [List.getD_eq_getElem?_getD, List.getElem?_eq_getElem hj]
  exact h _ (List.getElem_mem hj)

/-- **C203**: for channels on one uniform grid, the `j`-th Hamiltonian of step `i` is the drift plus the control
Hamiltonians times the signals on the straight line between the samples `i` and `i + 1`, at the fraction given by the
node of the solver; behind the last sample the last line is continued. The step size and the times are those of the
grid. -/
theorem C203_samples (h0 : M) (hctrl : String → Option M) (hk : String → M) (s : Solver) (a δ : ℝ) (hδ : 0 < δ)
    (N : ℕ) (hN : 2 ≤ N) (chs : List Chan) (hgrid : OnGrid (uniform a δ N) chs)
    (hkey : ∀ c ∈ chs, hctrl c.key = some (hk c.key)) :
    ∃ o, hsOfT h0 hctrl s chs = .ok o ∧ o.dt = δ ∧ o.ts = uniform a δ N ∧
      ∀ i < N, ∀ j < (nodes s).length,
        o.hs[s.start * i + j]? = some (hamLine h0 hk chs i ((nodes s).getD j 0)) := by
  refine ⟨_, hsOfT_uniform h0 hctrl hk s a δ hδ N hN chs hgrid hkey, rfl, rfl, fun i hi j hj => ?_⟩
  simp only [List.getElem?_map]
  rw [C91_sample_times s a δ hδ N hN i hi j hj, Option.map_some, grid_getD a δ N i hi]
  congr 2
  congr 1
  apply List.map_congr_left
  intro c hc
  have hv : c.values.length = N := by
    rw [(hgrid.2 c hc).2]
    simp [uniform]
  obtain ⟨n0, n1⟩ := nodes_range s j hj
  have := interpLin_line a δ hδ c.values (by omega) i (by omega) _ n0 n1
  rw [hv] at this
  rw [this]

/-- **C203**: at its first node a solver uses the samples themselves, and at its last node those of the next slice. -/
theorem C203_ends (h0 : M) (hk : String → M) (g : List ℝ) (chs : List Chan) (hgrid : OnGrid g chs)
    (i : ℕ) :
    hamLine h0 hk chs i 0 = Times.hamAt h0 hk chs i ∧
      (i + 1 < g.length → hamLine h0 hk chs i 1 = Times.hamAt h0 hk chs (i + 1)) := by
  constructor
  · unfold hamLine Times.hamAt
    congr 2
    apply List.map_congr_left
    intro c hc
    simp [lineAt]
  · intro h
    unfold hamLine Times.hamAt
    congr 2
    apply List.map_congr_left
    intro c hc
    simp [lineAt, (hgrid.2 c hc).2, h]

/-- **C203**: both solvers make one step per sample, of the size of the grid, with these Hamiltonians; the trajectory
holds the state after each step. -/
theorem C203_steps {V : Type*} [AddCommGroup V] [Module ℂ V] (step : ℝ → V → M → V) (h0 : M)
    (hctrl : String → Option M) (hk : String → M) (s : Solver) (a δ : ℝ) (hδ : 0 < δ)
    (N : ℕ) (hN : 2 ≤ N) (chs : List Chan) (hgrid : OnGrid (uniform a δ N) chs)
    (hkey : ∀ c ∈ chs, hctrl c.key = some (hk c.key)) (init : V) :
    let after (n : ℕ) : V := (List.range n).foldl (fun st i =>
      s.run (step δ) st fun j => hamLine h0 hk chs i ((nodes s).getD j 0)) init
    finalState step h0 hctrl s chs init = .ok (after N, uniform a δ N) ∧
      trajectory step h0 hctrl s chs init = .ok ((List.range N).map fun i => after (i + 1), uniform a δ N) := by
  intro after
  obtain ⟨o, ho, hdt, hts, hs⟩ := C203_samples h0 hctrl hk s a δ hδ N hN chs hgrid hkey
  have hl : (uniform a δ N).length = N := by simp [uniform]
  have key : ∀ n ≤ N, odeSolverFinal s (step δ) (fun k => o.hs.getD k 0) n init = after n := by
    intro n
    induction n with
    | zero => intro _; rfl
    | succ n ih =>
      intro hn
      have e := ih (by omega)
      unfold odeSolverFinal at e ⊢
      simp only [after, List.range_succ, List.foldl_append, List.foldl_cons, List.foldl_nil]
      rw [e]
      unfold odeStep
      apply run_congr
      intro j hj
      show o.hs.getD (s.start * n + j) 0 = _
      rw [List.getD_eq_getElem?_getD, hs n (by omega) j hj]
      rfl
  constructor
  · unfold finalState
    rw [ho]
    simp only [Except.map, hdt, hts, hl]
    rw [key N le_rfl]
  · unfold trajectory
    rw [ho]
    simp only [Except.map, hdt, hts, hl]
    rw [C28_trajectory]
    congr 2
    apply List.map_congr_left
    intro i hi
    exact key (i + 1) (by have := List.mem_range.1 hi; omega)

/-- **C203 is false** for the times returned with the states: the first state, returned with the first time, has already
made a whole step. For a constant level of frequency one it is the initial state times `13/24 - 5/6 i`. -/
theorem C203_false_label : ∃ (chs : List Chan) (st : List ℂ) (ts : List ℝ),
    trajectory (fun dt x h => (dt : ℂ) * (-Complex.I * (h * x))) (0 : ℂ) (fun _ => some 1) .rk4 chs 1 = .ok (st, ts) ∧
      chs = [⟨"d", [1, 1], [0, 1]⟩] ∧ ts = [0, 1] ∧ st.length = 2 ∧ st[0]? = some (13 / 24 - 5 / 6 * Complex.I) := by
  have hg : OnGrid (uniform 0 1 2) [⟨"d", [1, 1], [0, 1]⟩] := by
    refine ⟨by simp, fun c hc => ?_⟩
    rw [List.mem_singleton.1 hc]
    simp [uniform, List.range_succ]
  have h := (C203_steps (fun dt x h => (dt : ℂ) * (-Complex.I * (h * x))) (0 : ℂ) (fun _ => some 1) (fun _ => 1) .rk4 0 1
    one_pos 2 le_rfl _ hg (fun _ _ => rfl) 1).2
  refine ⟨_, _, _, h, rfl, ?_, by simp, ?_⟩
  · simp [uniform, List.range_succ]
  · simp [List.range_succ, Solver.run, rk4, hamLine, lineAt]
    apply Complex.ext <;> simp <;> norm_num

example : OnGrid (uniform 0 1 2) [⟨"d", [1, 1], [0, 1]⟩] := by
  refine ⟨by simp, fun c hc => ?_⟩
  rw [List.mem_singleton.1 hc]
  simp [uniform, List.range_succ]

example : lineAt [1, 3] 0 (1 / 2) = 2 ∧ lineAt [1, 3] 1 (1 / 2) = 4 := by
  constructor <;> norm_num [lineAt]

end C3.Propagation.HsOfT
