import Mathlib.LinearAlgebra.Matrix.Defs
import Mathlib.Data.Complex.Basic
import Mathlib.Data.Real.Basic
import Mathlib.Algebra.BigOperators.Group.List.Basic
import Mathlib.Algebra.Order.BigOperators.Group.List
import Mathlib.Tactic.Ring
import Mathlib.Tactic.Linarith
import Mathlib.Tactic.NormNum
import Mathlib.Tactic.FieldSimp
import Mathlib.Tactic.Positivity

/-!
# C197: Hamiltonians, times and step size that belong together

Models c3/libraries/propagation.py:104-218 (`get_hs_of_t_ts`, `_get_hs_of_t_ts_controlled`, `_get_hs_of_t_ts`,
`sum_h0_hks`) and the same lines in `pwc` (282-313). The signals of the channels are the input.

Simplified: the Hamiltonian of a model without separate control Hamiltonians is an arbitrary function of the values of
all channels at a sample (`Model.get_Hamiltonian`, C39). The factor on `gen.resolution`, which nothing reads, is left
out.
-/

set_option linter.unusedSectionVars false

noncomputable section

namespace C3.Propagation.Times

variable {M : Type} [AddCommGroup M] [Module ℂ M]

/-! ## Model -/

/-- The signal of one channel. -/
structure Chan where
  key : String
  values : List ℝ
  ts : List ℝ

inductive Err where
  | keyError     -- a channel without control Hamiltonian
  | indexError   -- no channel, or too few samples
  | shape        -- channels with different numbers of samples
  | times        -- "Something with the times happend."
deriving DecidableEq

/-- c3/libraries/propagation.py:207-218 `sum_h0_hks`. -/
def sumH (h0 : M) (hks : List M) (cf : List ℂ) : M :=
  (hks.zip cf).foldl (fun h p => h + p.2 • p.1) h0

/-- `ts[::p]`. -/
def every (p : ℕ) (ts : List ℝ) : List ℝ := (List.range ((ts.length + p - 1) / p)).map fun i => ts.getD (i * p) 0

/-- The values of all channels at a sample. -/
def sample (chs : List Chan) (i : ℕ) : List ℝ := chs.map fun c => c.values.getD i 0

/-- Result: Hamiltonians, times, step size. -/
structure Out (M : Type) where
  hs : List M
  ts : List ℝ
  dt : ℝ

/-- c3/libraries/propagation.py:114-161 `_get_hs_of_t_ts_controlled`. -/
def controlled (h0 : M) (hctrl : String → Option M) (p : ℕ) (chs : List Chan) : Except Err (Out M) :=
  match chs.mapM fun c => hctrl c.key with
  | none => .error .keyError
  | some hks =>
    match chs.getLast? with
    | none => .error .indexError
    | some last =>
      if ∀ c ∈ chs, c.values.length = last.values.length then
        if p < last.ts.length then
          .ok ⟨(List.range last.values.length).map fun i => sumH h0 hks ((sample chs i).map fun x : ℝ => (x : ℂ)),
            every p last.ts, last.ts.getD p 0 - last.ts.getD 0 0⟩
        else .error .indexError
      else .error .shape

/-- `tf.math.reduce_mean` of numbers. -/
def mean (l : List ℝ) : ℝ := l.sum / l.length

/-- `tf.math.reduce_variance` of numbers. -/
def variance (l : List ℝ) : ℝ := mean (l.map fun x => (x - mean l) ^ 2)

/-- `[sig["ts"][1:][i] for sig in signal.values()]`. -/
def timesAt (chs : List Chan) (i : ℕ) : List ℝ := chs.map fun c => c.ts.tail.getD i 0

/-- `ts[1:] - ts[:-1]`. -/
def diffs (l : List ℝ) : List ℝ := List.zipWith (· - ·) l.tail l

open scoped Classical in
/-- c3/libraries/propagation.py:164-204 `_get_hs_of_t_ts`. -/
def uncontrolled (ham : List ℝ → M) (p : ℕ) (chs : List Chan) : Except Err (Out M) :=
  match chs.getLast? with
  | none => .error .indexError
  | some last =>
    if (∀ c ∈ chs, c.values.length = last.values.length) ∧ ∀ c ∈ chs, c.ts.length = last.ts.length then
      let ts := (List.range last.ts.tail.length).map fun i => mean (timesAt chs i)
      if 1 < ts.length then
        if (∀ i < ts.length, variance (timesAt chs i) < 1e-5 * (ts.getD 1 0 - ts.getD 0 0)) ∧
            variance (diffs ts) < 1e-5 * (ts.getD 1 0 - ts.getD 0 0) then
          if p < ts.length then
            .ok ⟨(List.range last.values.length).map fun i => ham (sample chs i), every p ts,
              ts.getD p 0 - ts.getD 0 0⟩
          else .error .indexError
        else .error .times
      else .error .indexError
    else .error .shape

/-! ## Specification -/

/-- All channels are sampled on the time grid `g`. -/
def OnGrid (g : List ℝ) (chs : List Chan) : Prop :=
  chs ≠ [] ∧ ∀ c ∈ chs, c.ts = g ∧ c.values.length = g.length

/-- A grid of `N` samples at distance `δ`. -/
def uniform (a δ : ℝ) (N : ℕ) : List ℝ := (List.range N).map fun i : ℕ => a + i * δ

/-- The Hamiltonian at a sample: drift plus the sum of value times control Hamiltonian over the channels. -/
def hamAt (h0 : M) (hk : String → M) (chs : List Chan) (i : ℕ) : M :=
  h0 + (chs.map fun c => ((c.values.getD i 0 : ℝ) : ℂ) • hk c.key).sum

/-! ## Theorems -/

theorem foldl_add (l : List (M × ℂ)) (h : M) :
    l.foldl (fun h p => h + p.2 • p.1) h = h + (l.map fun p => p.2 • p.1).sum := by
  induction l generalizing h with
  | nil => simp
  | cons a l ih => rw [List.foldl_cons, ih, List.map_cons, List.sum_cons, add_assoc]

theorem sumH_eq (h0 : M) (hk : String → M) (chs : List Chan) (i : ℕ) :
    sumH h0 (chs.map fun c => hk c.key) ((sample chs i).map fun x : ℝ => (x : ℂ)) = hamAt h0 hk chs i := by
  unfold sumH hamAt sample
  rw [foldl_add, List.map_map, List.zip_map']
  simp [List.map_map, Function.comp_def]

theorem mapM_some {hctrl : String → Option M} {hk : String → M} (chs : List Chan)
    (h : ∀ c ∈ chs, hctrl c.key = some (hk c.key)) :
    (chs.mapM fun c => hctrl c.key) = some (chs.map fun c => hk c.key) := by
  induction chs with
  | nil => rfl
  | cons c chs ih =>
    rw [List.mapM_cons, h c List.mem_cons_self, ih fun c hc => h c (List.mem_cons_of_mem _ hc)]
    rfl

theorem every_get (p : ℕ) (hp : 1 ≤ p) (ts : List ℝ) (k : ℕ) (hk : k * p < ts.length) :
    (every p ts).getD k 0 = ts.getD (k * p) 0 := by
  unfold every
  rw [List.getD_eq_getElem?_getD, List.getElem?_map, List.getElem?_range]
  · rfl
  · rw [Nat.lt_iff_add_one_le, Nat.le_div_iff_mul_le hp]
    rw [add_mul]
    omega

theorem every_length (p : ℕ) (hp : 1 ≤ p) (ts : List ℝ) (k : ℕ) : k < (every p ts).length ↔ k * p < ts.length := by
  unfold every
  rw [List.length_map, List.length_range, Nat.lt_iff_add_one_le, Nat.le_div_iff_mul_le hp, add_mul]
  omega

theorem uniform_get (a δ : ℝ) (N k : ℕ) (hk : k < N) : (uniform a δ N).getD k 0 = a + k * δ := by
  simp [uniform, List.getD_eq_getElem?_getD, hk]

/-- **C197**, what holds with control Hamiltonians and all channels on one grid: there is one Hamiltonian per sample,
the drift plus the sum over the channels; the `k`-th returned time is the sample `k * p`, whose Hamiltonian is the
`k * p`-th. Missing: channels on different grids, and models without control Hamiltonians. -/
theorem C197_controlled_partial (h0 : M) (hctrl : String → Option M) (hk : String → M) (p : ℕ) (hp : 1 ≤ p)
    (g : List ℝ) (hg : p < g.length) (chs : List Chan) (hgrid : OnGrid g chs)
    (hkey : ∀ c ∈ chs, hctrl c.key = some (hk c.key)) :
    ∃ o, controlled h0 hctrl p chs = .ok o ∧ o.hs.length = g.length ∧
      (∀ i < g.length, o.hs.getD i 0 = hamAt h0 hk chs i) ∧
      (∀ k, k < o.ts.length ↔ k * p < g.length) ∧ (∀ k < o.ts.length, o.ts.getD k 0 = g.getD (k * p) 0) := by
  obtain ⟨hne, hall⟩ := hgrid
  have hl : chs.getLast? = some (chs.getLast hne) := List.getLast?_eq_some_getLast hne
  obtain ⟨l1, l2⟩ := hall _ (List.getLast_mem hne)
  refine ⟨⟨(List.range (chs.getLast hne).values.length).map fun i =>
      sumH h0 (chs.map fun c => hk c.key) ((sample chs i).map fun x : ℝ => (x : ℂ)), every p (chs.getLast hne).ts,
      (chs.getLast hne).ts.getD p 0 - (chs.getLast hne).ts.getD 0 0⟩, ?_, ?_⟩
  · unfold controlled
    rw [mapM_some chs hkey, hl]
    simp only
    rw [if_pos (fun c hc => by rw [(hall c hc).2, l2]), if_pos (by rw [l1]; exact hg)]
  · rw [l1, l2]
    refine ⟨by simp, ?_, every_length p hp g, fun k hk => every_get p hp g k ((every_length p hp g k).1 hk)⟩
    intro i hi
    rw [List.getD_eq_getElem?_getD, List.getElem?_map, List.getElem?_range hi, Option.map_some, Option.getD_some,
      sumH_eq]

/-- **C197**, what holds on a uniform grid: the step size is the distance of the returned times. -/
theorem C197_step_partial (h0 : M) (hctrl : String → Option M) (hk : String → M) (p : ℕ) (hp : 1 ≤ p) (a δ : ℝ)
    (N : ℕ) (hN : p < N) (chs : List Chan) (hgrid : OnGrid (uniform a δ N) chs)
    (hkey : ∀ c ∈ chs, hctrl c.key = some (hk c.key)) :
    ∃ o, controlled h0 hctrl p chs = .ok o ∧ o.dt = p * δ ∧
      ∀ k, k + 1 < o.ts.length → o.ts.getD (k + 1) 0 - o.ts.getD k 0 = o.dt := by
  have hlen : (uniform a δ N).length = N := by simp [uniform]
  obtain ⟨o, ho, -, -, h1, h2⟩ := C197_controlled_partial h0 hctrl hk p hp (uniform a δ N) (by rwa [hlen]) chs hgrid
    hkey
  have hdt : o.dt = p * δ := by
    obtain ⟨hne, hall⟩ := hgrid
    have hl : chs.getLast? = some (chs.getLast hne) := List.getLast?_eq_some_getLast hne
    obtain ⟨l1, l2⟩ := hall _ (List.getLast_mem hne)
    unfold controlled at ho
    rw [mapM_some chs hkey, hl] at ho
    simp only at ho
    rw [if_pos (fun c hc => by rw [(hall c hc).2, l2]), if_pos (by rw [l1, hlen]; exact hN)] at ho
    simp only [Except.ok.injEq] at ho
    rw [← ho]
    simp only [l1]
    rw [uniform_get a δ N p hN, uniform_get a δ N 0 (by omega)]
    push_cast
    ring
  refine ⟨o, ho, hdt, fun k hk => ?_⟩
  have hk1 := (h1 (k + 1)).1 hk
  rw [hlen] at hk1
  have hk0 : k * p < N := by rw [add_mul] at hk1; omega
  rw [h2 _ hk, h2 k (by omega), uniform_get a δ N _ hk1, uniform_get a δ N _ hk0, hdt]
  push_cast
  ring

/-- **C197 is false** for channels on different grids: with control Hamiltonians nothing compares the times, only those
of the last channel are used. -/
theorem C197_false_grids (h0 : M) (hctrl : String → Option M) (p : ℕ) (c last : Chan) (ts : List ℝ)
    (chs : List Chan) :
    controlled h0 hctrl p (⟨c.key, c.values, ts⟩ :: chs ++ [last]) = controlled h0 hctrl p (c :: chs ++ [last]) := by
  unfold controlled
  have h1 : ((⟨c.key, c.values, ts⟩ :: chs ++ [last] : List Chan).mapM fun c => hctrl c.key) =
      (c :: chs ++ [last]).mapM fun c => hctrl c.key := by
    simp only [List.cons_append, List.mapM_cons]
  have h2 : ∀ c : Chan, (c :: chs ++ [last]).getLast? = some last := fun c => by
    rw [List.cons_append, ← List.cons_append, List.getLast?_concat]
  have h3 : ∀ i, sample (⟨c.key, c.values, ts⟩ :: chs ++ [last]) i = sample (c :: chs ++ [last]) i := fun i => rfl
  rw [h1, h2, h2]
  simp only [h3]
  cases (c :: chs ++ [last]).mapM fun c => hctrl c.key with
  | none => rfl
  | some hks =>
    refine if_congr ?_ rfl rfl
    simp only [List.cons_append, List.forall_mem_cons]

theorem mean_const (x : ℝ) (l : List ℝ) (hne : l ≠ []) (h : ∀ y ∈ l, y = x) : mean l = x := by
  have hl : (l.length : ℝ) ≠ 0 := by
    rw [Nat.cast_ne_zero]
    exact fun hc => hne (List.length_eq_zero_iff.1 hc)
  have : l = List.replicate l.length x := List.eq_replicate_iff.2 ⟨rfl, h⟩
  unfold mean
  rw [this, List.sum_replicate, List.length_replicate, nsmul_eq_mul, mul_div_assoc]
  field_simp

theorem variance_const (x : ℝ) (l : List ℝ) (hne : l ≠ []) (h : ∀ y ∈ l, y = x) : variance l = 0 := by
  unfold variance
  refine mean_const 0 _ (by simpa using hne) ?_
  intro y hy
  obtain ⟨z, hz, rfl⟩ := List.mem_map.1 hy
  rw [mean_const x l hne h, h z hz]
  ring

/-- **C197**, what holds without control Hamiltonians: channels on one uniform grid are accepted, with one Hamiltonian
per sample and the right step size. Missing: the times, see `C197_false_shift`. -/
theorem C197_uncontrolled_partial (ham : List ℝ → M) (p : ℕ) (a δ : ℝ) (hδ : 0 < δ) (N : ℕ)
    (hN : p + 1 < N) (hN3 : 3 ≤ N) (chs : List Chan) (hgrid : OnGrid (uniform a δ N) chs) :
    ∃ o, uncontrolled ham p chs = .ok o ∧ o.hs.length = N ∧ (∀ i < N, o.hs.getD i 0 = ham (sample chs i)) ∧
      o.dt = p * δ ∧ o.ts = every p (uniform (a + δ) δ (N - 1)) := by
  have hlen : (uniform a δ N).length = N := by simp [uniform]
  obtain ⟨hne, hall⟩ := hgrid
  have hl : chs.getLast? = some (chs.getLast hne) := List.getLast?_eq_some_getLast hne
  obtain ⟨l1, l2⟩ := hall _ (List.getLast_mem hne)
  have hall' : ∀ i < N - 1, ∀ y ∈ timesAt chs i, y = a + δ + i * δ := by
    intro i hi y hy
    obtain ⟨c, hc, rfl⟩ := List.mem_map.1 hy
    rw [(hall c hc).1]
    have : (uniform a δ N).tail.getD i 0 = (uniform a δ N).getD (i + 1) 0 := by
      rw [List.getD_eq_getElem?_getD, List.getElem?_tail, List.getD_eq_getElem?_getD]
    rw [this, uniform_get a δ N (i + 1) (by omega)]
    push_cast
    ring
  have hne' : ∀ i, timesAt chs i ≠ [] := fun i => by simpa [timesAt] using hne
  have hts : (List.range (uniform a δ N).tail.length).map (fun i => mean (timesAt chs i)) =
      uniform (a + δ) δ (N - 1) := by
    unfold uniform
    rw [List.length_tail, List.length_map, List.length_range]
    apply List.map_congr_left
    intro i hi
    exact mean_const _ _ (hne' i) (hall' i (List.mem_range.1 hi))
  have hul : (uniform (a + δ) δ (N - 1)).length = N - 1 := by simp [uniform]
  have hd : (uniform (a + δ) δ (N - 1)).getD 1 0 - (uniform (a + δ) δ (N - 1)).getD 0 0 = δ := by
    rw [uniform_get _ _ _ 1 (by omega), uniform_get _ _ _ 0 (by omega)]
    push_cast
    ring
  have hpos : (0 : ℝ) < 1e-5 * δ := by positivity
  have hdiff : variance (diffs (uniform (a + δ) δ (N - 1))) = 0 := by
    have hdl : (diffs (uniform (a + δ) δ (N - 1))).length = N - 2 := by
      simp [diffs, hul]; omega
    refine variance_const δ _ ?_ ?_
    · intro hc
      rw [hc] at hdl
      simp at hdl
      omega
    · intro y hy
      obtain ⟨i, hi, rfl⟩ := List.getElem_of_mem hy
      rw [hdl] at hi
      simp only [diffs, uniform, List.getElem_zipWith, List.getElem_tail, List.getElem_map, List.getElem_range]
      push_cast
      ring
  refine ⟨⟨(List.range (chs.getLast hne).values.length).map fun i => ham (sample chs i),
      every p (uniform (a + δ) δ (N - 1)),
      (uniform (a + δ) δ (N - 1)).getD p 0 - (uniform (a + δ) δ (N - 1)).getD 0 0⟩, ?_, ?_⟩
  · unfold uncontrolled
    rw [hl]
    simp only
    rw [if_pos ⟨fun c hc => by rw [(hall c hc).2, l2], fun c hc => by rw [(hall c hc).1, l1]⟩, l1, hts, hul, hd,
      if_pos (by omega), if_pos, if_pos (by omega)]
    refine ⟨fun i hi => ?_, by rw [hdiff]; exact hpos⟩
    rw [variance_const _ _ (hne' i) (hall' i hi)]
    exact hpos
  · refine ⟨by simp [l2, hlen], ?_, ?_, rfl⟩
    · intro i hi
      simp only [l2, hlen]
      rw [List.getD_eq_getElem?_getD, List.getElem?_map, List.getElem?_range hi]
      rfl
    · simp only
      rw [uniform_get _ _ _ p (by omega), uniform_get _ _ _ 0 (by omega)]
      push_cast
      ring

/-- **C197 is false** for the times without control Hamiltonians: the first time is cut off but its Hamiltonian is not.
There is one time less than Hamiltonians, and the time returned for a Hamiltonian is that of the sample after it. -/
theorem C197_false_shift (ham : List ℝ → M) (a δ : ℝ) (hδ : 0 < δ) (N : ℕ) (hN3 : 3 ≤ N) (chs : List Chan)
    (hgrid : OnGrid (uniform a δ N) chs) :
    ∃ o, uncontrolled ham 1 chs = .ok o ∧ o.hs.length = o.ts.length + 1 ∧
      ∀ i < o.ts.length, o.hs.getD i 0 = ham (sample chs i) ∧
        o.ts.getD i 0 = (uniform a δ N).getD (i + 1) 0 ∧ o.ts.getD i 0 ≠ (uniform a δ N).getD i 0 := by
  obtain ⟨o, h1, h2, h3, -, h5⟩ := C197_uncontrolled_partial ham 1 a δ hδ N (by omega) hN3 chs hgrid
  have hl : o.ts.length = N - 1 := by
    rw [h5]
    simp [every, uniform]
  refine ⟨o, h1, by omega, fun i hi => ⟨h3 i (by omega), ?_, ?_⟩⟩
  · rw [h5, every_get 1 le_rfl _ _ (by simp [uniform]; omega), mul_one, uniform_get _ _ _ _ (by omega),
      uniform_get _ _ _ _ (by omega)]
    push_cast
    ring
  · rw [h5, every_get 1 le_rfl _ _ (by simp [uniform]; omega), mul_one, uniform_get _ _ _ _ (by omega),
      uniform_get _ _ _ _ (by omega)]
    intro h
    linarith

theorem sq_le_sum (l : List ℝ) (f : ℝ → ℝ) (hf : ∀ x, 0 ≤ f x) (x : ℝ) (hx : x ∈ l) : f x ≤ (l.map f).sum := by
  induction l with
  | nil => simp at hx
  | cons a l ih =>
    have hs : 0 ≤ (l.map f).sum := List.sum_nonneg fun y hy => by
      obtain ⟨z, _, rfl⟩ := List.mem_map.1 hy
      exact hf z
    rw [List.map_cons, List.sum_cons]
    rcases List.mem_cons.1 hx with rfl | h
    · linarith
    · have := ih h
      have := hf a
      linarith

/-- C197: what the comparison of the times does guarantee: the squared distance of the time of a channel from the mean
is below `1e-5` times the step times the number of channels. -/
theorem C197_tolerance (ham : List ℝ → M) (chs : List Chan) (o : Out M) (h : uncontrolled ham 1 chs = .ok o)
    (c : Chan) (hc : c ∈ chs) (i : ℕ) (hi : i < c.ts.length - 1) :
    (c.ts.getD (i + 1) 0 - mean (timesAt chs i)) ^ 2 < chs.length * (1e-5 * o.dt) := by
  unfold uncontrolled at h
  cases hl : chs.getLast? with
  | none => rw [hl] at h; simp at h
  | some last =>
    rw [hl] at h
    simp only at h
    split_ifs at h with g1 g2 g3
    simp only [Except.ok.injEq] at h
    have hlen : c.ts.length = last.ts.length := g1.2 c hc
    have hi' : i < ((List.range last.ts.tail.length).map fun i => mean (timesAt chs i)).length := by
      simp; omega
    have hv := g3.1 i hi'
    have hdt : o.dt = ((List.range last.ts.tail.length).map fun i => mean (timesAt chs i)).getD 1 0 -
        ((List.range last.ts.tail.length).map fun i => mean (timesAt chs i)).getD 0 0 := by rw [← h]
    rw [← hdt] at hv
    have hmem : c.ts.tail.getD i 0 ∈ timesAt chs i := List.mem_map.2 ⟨c, hc, rfl⟩
    have hs := sq_le_sum (timesAt chs i) (fun x => (x - mean (timesAt chs i)) ^ 2) (fun x => sq_nonneg _) _ hmem
    have hpos : (0 : ℝ) < chs.length := by
      rw [Nat.cast_pos]
      exact List.length_pos_of_mem hc
    have htl : c.ts.tail.getD i 0 = c.ts.getD (i + 1) 0 := by
      rw [List.getD_eq_getElem?_getD, List.getElem?_tail, List.getD_eq_getElem?_getD]
    rw [htl] at hs
    refine lt_of_le_of_lt hs ?_
    unfold variance at hv
    rw [mean, List.length_map] at hv
    have hlt : (timesAt chs i).length = chs.length := by simp [timesAt]
    rw [hlt, div_lt_iff₀ hpos] at hv
    linarith

/-- **C197 is false** for the comparison of the times: it compares a squared time with a time. At the default resolution
of 100 samples per nanosecond, two channels that are apart by ten nanoseconds, a thousand samples, are accepted, and
their samples are combined as if they were simultaneous. -/
theorem C197_false_tolerance (ham : List ℝ → M) (v w : List ℝ) (N : ℕ) (hN : 3 ≤ N) (hv : v.length = N)
    (hw : w.length = N) :
    ∃ o, uncontrolled ham 1 [⟨"d1", v, uniform 0 1e-11 N⟩, ⟨"d2", w, uniform 1e-8 1e-11 N⟩] = .ok o ∧
      o.dt = 1e-11 ∧ ∀ i < N, o.hs.getD i 0 = ham [v.getD i 0, w.getD i 0] := by
  have hlen : ∀ a : ℝ, (uniform a 1e-11 N).length = N := fun a => by simp [uniform]
  have htl : ∀ (a : ℝ) (i : ℕ), i < N - 1 → (uniform a 1e-11 N).tail.getD i 0 = a + (i + 1) * 1e-11 := by
    intro a i hi
    have : (uniform a 1e-11 N).tail.getD i 0 = (uniform a 1e-11 N).getD (i + 1) 0 := by
      rw [List.getD_eq_getElem?_getD, List.getElem?_tail, List.getD_eq_getElem?_getD]
    rw [this, uniform_get a _ N (i + 1) (by omega)]
    push_cast
    ring
  set chs : List Chan := [⟨"d1", v, uniform 0 1e-11 N⟩, ⟨"d2", w, uniform 1e-8 1e-11 N⟩] with hchs
  have hta : ∀ i < N - 1, timesAt chs i = [(i + 1 : ℝ) * 1e-11, 1e-8 + (i + 1 : ℝ) * 1e-11] := by
    intro i hi
    simp only [hchs, timesAt, List.map_cons, List.map_nil, htl _ i hi, zero_add]
  have hmean : ∀ i < N - 1, mean (timesAt chs i) = 5e-9 + 1e-11 + i * 1e-11 := by
    intro i hi
    rw [hta i hi]
    simp only [mean, List.sum_cons, List.sum_nil, List.length_cons, List.length_nil]
    push_cast
    ring
  have hvar : ∀ i < N - 1, variance (timesAt chs i) = 25e-18 := by
    intro i hi
    unfold variance
    rw [hmean i hi, hta i hi]
    simp only [mean, List.map_cons, List.map_nil, List.sum_cons, List.sum_nil, List.length_cons, List.length_nil]
    push_cast
    ring
  have hts : (List.range (uniform 1e-8 1e-11 N).tail.length).map (fun i => mean (timesAt chs i)) =
      uniform (5e-9 + 1e-11) 1e-11 (N - 1) := by
    unfold uniform
    rw [List.length_tail, List.length_map, List.length_range]
    apply List.map_congr_left
    intro i hi
    exact hmean i (List.mem_range.1 hi)
  have hul : (uniform (5e-9 + 1e-11) 1e-11 (N - 1)).length = N - 1 := by simp [uniform]
  have hd : (uniform (5e-9 + 1e-11) 1e-11 (N - 1)).getD 1 0 - (uniform (5e-9 + 1e-11) 1e-11 (N - 1)).getD 0 0 =
      1e-11 := by
    rw [uniform_get _ _ _ 1 (by omega), uniform_get _ _ _ 0 (by omega)]
    push_cast
    ring
  have hdiff : variance (diffs (uniform (5e-9 + 1e-11) 1e-11 (N - 1))) = 0 := by
    have hdl : (diffs (uniform (5e-9 + 1e-11) 1e-11 (N - 1))).length = N - 2 := by
      simp [diffs, hul]; omega
    refine variance_const 1e-11 _ ?_ ?_
    · intro hc
      rw [hc] at hdl
      simp at hdl
      omega
    · intro y hy
      obtain ⟨i, hi, rfl⟩ := List.getElem_of_mem hy
      simp only [diffs, uniform, List.getElem_zipWith, List.getElem_tail, List.getElem_map, List.getElem_range]
      push_cast
      ring
  have hlast : chs.getLast? = some ⟨"d2", w, uniform 1e-8 1e-11 N⟩ := by simp [hchs]
  refine ⟨⟨(List.range w.length).map fun i => ham (sample chs i),
      every 1 (uniform (5e-9 + 1e-11) 1e-11 (N - 1)), 1e-11⟩, ?_, ?_⟩
  · unfold uncontrolled
    rw [hlast]
    simp only
    rw [if_pos, hts, hul, hd, if_pos (by omega), if_pos, if_pos (by omega)]
    · refine ⟨fun i hi => ?_, ?_⟩
      · rw [hvar i hi]; norm_num
      · rw [hdiff]; norm_num
    · simp [hchs, hv, hw, hlen]
  · refine ⟨rfl, fun i hi => ?_⟩
    simp only [hw]
    rw [List.getD_eq_getElem?_getD, List.getElem?_map, List.getElem?_range hi]
    rfl

/-- **C197 is false** for gates of one sample: there is no second time to compute a step size from. Without control
Hamiltonians it takes three samples. -/
theorem C197_false_short (h0 : M) (hctrl : String → Option M) (ham : List ℝ → M) (chs : List Chan) (o : Out M) :
    ((∀ c ∈ chs, c.ts.length ≤ 1) → controlled h0 hctrl 1 chs ≠ .ok o) ∧
      ((∀ c ∈ chs, c.ts.length ≤ 2) → uncontrolled ham 1 chs ≠ .ok o) := by
  constructor
  · intro h hc
    unfold controlled at hc
    cases hm : chs.mapM fun c => hctrl c.key with
    | none => rw [hm] at hc; simp at hc
    | some hks =>
      cases hl : chs.getLast? with
      | none => rw [hm, hl] at hc; simp at hc
      | some last =>
        rw [hm, hl] at hc
        simp only at hc
        have := h last (List.mem_of_getLast? hl)
        split_ifs at hc with h1 h2
        omega
  · intro h hc
    unfold uncontrolled at hc
    cases hl : chs.getLast? with
    | none => rw [hl] at hc; simp at hc
    | some last =>
      rw [hl] at hc
      simp only at hc
      have := h last (List.mem_of_getLast? hl)
      split_ifs at hc with h1 h2
      simp at h2
      omega

/-- Channels for which the theorems apply. -/
example : OnGrid (uniform 0 1 3) [⟨"d1", [1, 2, 3], uniform 0 1 3⟩, ⟨"d2", [0, 0, 1], uniform 0 1 3⟩] := by
  refine ⟨by simp, ?_⟩
  intro c hc
  simp only [List.mem_cons, List.not_mem_nil, or_false] at hc
  rcases hc with rfl | rfl <;> simp [uniform]

end C3.Propagation.Times
