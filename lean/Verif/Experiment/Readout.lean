import Verif.Hilbert.Embed
import Mathlib.Tactic.Linarith
import Mathlib.Algebra.Order.BigOperators.Group.List
import Mathlib.Data.Real.Basic

/-!
# C67, C69: confusion matrix, selection of labels, rescaling

Models c3/libraries/tasks.py:107-178 (`ConfusionMatrix.confuse`, `MeasurementRescale.rescale`) and
c3/experiment.py:355-407 (`Experiment.process`).
-/

set_option linter.unusedSectionVars false

namespace C3.Experiment

open Finset C3.Hilbert

/-! ## Model -/

/-- c3/libraries/tasks.py:124-126: the matrix of one subsystem, `row1` above `1 - row1`. -/
def confMat (row : List ℝ) : Arr ℝ :=
  ⟨2, row.length, fun i j => if i = 0 then row.getD j 0 else 1 - row.getD j 0⟩

/-- c3/libraries/tasks.py:122-127: `conf_matrix`. -/
def confMatrix (rows : List (List ℝ)) : Arr ℝ := npKronN (rows.map confMat)

inductive PErr where
  /-- shapes that do not fit, index out of range -/
  | shape
  /-- label not found -/
  | label
  deriving DecidableEq

/-- c3/libraries/tasks.py:107-129 `confuse`. -/
def confuse (rows : List (List ℝ)) (pops : Arr ℝ) : Except PErr (Arr ℝ) :=
  let C := confMatrix rows
  if C.cols = pops.rows then
    .ok ⟨C.rows, pops.cols, fun i j => ∑ k ∈ range C.cols, C.e i k * pops.e k j⟩
  else .error .shape

/-- The tasks of the model that matter: confusion rows, scale and offset. -/
structure Tasks where
  conf : Option (List (List ℝ))
  rescale : Option (ℝ × ℝ)

/-- c3/experiment.py:382-386 and 390-400: `pops_select`. -/
def selectLabels (table : List (List ℕ)) (pops : Arr ℝ) : List (List ℕ) → ℝ → Except PErr ℝ
  | [], acc => .ok acc
  | l :: ls, acc =>
    match table.findIdx? (· == l) with
    | none => .error .label
    | some i => if i < pops.rows then selectLabels table pops ls (acc + pops.e i 0) else .error .shape

/-- A processed value: a number if labels are given, otherwise the vector. -/
inductive Val where
  | num (x : ℝ)
  | vec (l : List ℝ)

/-- c3/libraries/tasks.py:161-178 `rescale`. -/
def rescaleVal (so : ℝ × ℝ) : Val → Val
  | .num x => .num (x * so.1 + so.2)
  | .vec l => .vec (l.map fun x => x * so.1 + so.2)

/-- c3/experiment.py:380-402, before rescaling. -/
def processOne (dims : List ℕ) (tasks : Tasks) (labels : Option (List (List ℕ))) (pops : Arr ℝ) :
    Except PErr Val := do
  let (table, pops) ← match tasks.conf with
    | some rows => do
      let p ← confuse rows pops
      .ok (compStateLabels dims, p)
    | none => .ok (stateLabels dims, pops)
  match labels with
  | some ls => do
    let x ← selectLabels table pops ls 0
    .ok (.num x)
  | none => if pops.cols = 1 then .ok (.vec ((List.range pops.rows).map fun i => pops.e i 0)) else .error .shape

/-- c3/experiment.py:355-407 `process`: the final values and those before rescaling. -/
def process (dims : List ℕ) (tasks : Tasks) (labels : Option (List (List ℕ))) :
    List (Arr ℝ) → Except PErr (List Val × List Val)
  | [] => .ok ([], [])
  | p :: ps => do
    let v ← processOne dims tasks labels p
    let (final, noRescale) ← process dims tasks labels ps
    match tasks.rescale with
    | some so => .ok (rescaleVal so v :: final, v :: noRescale)
    | none => .ok (v :: final, noRescale)

/-! ## Specification -/

/-- A column of probabilities of length `n`. -/
def ProbCol (n : ℕ) (p : ℕ → ℝ) : Prop := (∀ i < n, 0 ≤ p i) ∧ ∑ i ∈ range n, p i = 1

/-- All columns are probability distributions. -/
def ColStoch (a : Arr ℝ) : Prop := ∀ j < a.cols, ProbCol a.rows fun i => a.e i j

/-! ## C67 -/

theorem ColStoch.kron {a b : Arr ℝ} (ha : ColStoch a) (hb : ColStoch b) : ColStoch (C3.Hilbert.kron a b) := by
  intro j hj
  simp only [C3.Hilbert.kron] at hj ⊢
  have hbc : 0 < b.cols := Nat.pos_of_ne_zero fun h => by rw [h] at hj; simp at hj
  have h1 := ha (j / b.cols) (Nat.div_lt_of_lt_mul (by rw [mul_comm]; exact hj))
  have h2 := hb (j % b.cols) (Nat.mod_lt _ hbc)
  constructor
  · intro i hi
    have hbr : 0 < b.rows := Nat.pos_of_ne_zero fun h => by rw [h] at hi; simp at hi
    exact mul_nonneg (h1.1 _ (Nat.div_lt_of_lt_mul (by rw [mul_comm]; exact hi)))
      (h2.1 _ (Nat.mod_lt _ hbr))
  · rw [sum_range_mul]
    have : ∀ x ∈ range a.rows, ∀ y ∈ range b.rows,
        a.e ((x * b.rows + y) / b.rows) (j / b.cols) * b.e ((x * b.rows + y) % b.rows) (j % b.cols) =
        a.e x (j / b.cols) * b.e y (j % b.cols) := by
      intro x _ y hy
      rw [mem_range] at hy
      rw [Nat.mul_comm x, Nat.mul_add_mod, Nat.mod_eq_of_lt hy, Nat.mul_add_div (by omega),
        Nat.div_eq_of_lt hy, add_zero]
    rw [sum_congr rfl fun x hx => sum_congr rfl fun y hy => this x hx y hy]
    simp only [← mul_sum, h2.2, mul_one, h1.2]

theorem colStoch_confMatrix (rows : List (List ℝ)) (h : ∀ r ∈ rows, ∀ x ∈ r, 0 ≤ x ∧ x ≤ 1) :
    ColStoch (confMatrix rows) := by
  have hc : ∀ r, (∀ x ∈ r, 0 ≤ x ∧ x ≤ 1) → ColStoch (confMat r) := by
    intro r hr j hj
    simp only [confMat] at hj ⊢
    have hx := hr (r.getD j 0) (by rw [List.getD_eq_getElem _ _ hj]; exact List.getElem_mem hj)
    constructor
    · intro i _
      beta_reduce
      split
      · exact hx.1
      · linarith [hx.2]
    · rw [sum_range_succ, sum_range_succ, sum_range_zero]
      simp
  have hg : ∀ ms : List (Arr ℝ), ∀ a, ColStoch a → (∀ m ∈ ms, ColStoch m) →
      ColStoch (ms.foldl C3.Hilbert.kron a) := by
    intro ms
    induction ms with
    | nil => intro a ha _; exact ha
    | cons m ms ih =>
      intro a ha hm
      exact ih _ (ha.kron (hm m List.mem_cons_self)) fun x hx => hm x (List.mem_cons_of_mem _ hx)
  apply hg
  · intro j hj
    simp only [eye] at hj ⊢
    obtain rfl : j = 0 := by omega
    refine ⟨fun i hi => ?_, by simp⟩
    beta_reduce
    split <;> norm_num
  · intro m hm
    obtain ⟨r, hr, rfl⟩ := List.mem_map.1 hm
    exact hc r (h r hr)

theorem confMatrix_shape (rows : List (List ℝ)) :
    (confMatrix rows).rows = 2 ^ rows.length ∧ (confMatrix rows).cols = (rows.map List.length).prod := by
  have h := npKronN_shape (rows.map confMat)
  unfold confMatrix
  rw [h.1, h.2]
  simp [List.map_map, Function.comp_def, confMat]

/-- C67: for every number of subsystems, every list of rows with entries in [0, 1] and every probability
vector of the fitting length, the confused populations are a probability distribution over the `2 ^ n`
readout results. -/
theorem C67_probability (rows : List (List ℝ)) (h : ∀ r ∈ rows, ∀ x ∈ r, 0 ≤ x ∧ x ≤ 1) (pops : Arr ℝ)
    (hr : pops.rows = (rows.map List.length).prod) (j : ℕ) (hp : ProbCol pops.rows fun i => pops.e i j) :
    ∃ q, confuse rows pops = .ok q ∧ q.rows = 2 ^ rows.length ∧ q.cols = pops.cols ∧
      ProbCol q.rows fun i => q.e i j := by
  have hs := confMatrix_shape rows
  have hst := colStoch_confMatrix rows h
  unfold confuse
  rw [if_pos (by rw [hs.2, hr])]
  refine ⟨_, rfl, hs.1, rfl, ?_⟩
  simp only
  have hcols : (confMatrix rows).cols = pops.rows := by rw [hs.2, hr]
  rw [hcols]
  constructor
  · intro i hi
    apply sum_nonneg
    intro k hk
    rw [mem_range] at hk
    exact mul_nonneg ((hst k (by rw [hcols]; exact hk)).1 i hi) (hp.1 k hk)
  · rw [sum_comm]
    simp only [← sum_mul]
    rw [← hp.2]
    apply sum_congr rfl
    intro k hk
    rw [mem_range] at hk
    rw [(hst k (by rw [hcols]; exact hk)).2, one_mul]

/-- C67: the entry for the readout result `b` (a list of bits) and the level labels `l` is the product of
the probabilities of the single readouts. -/
theorem C67_entries (rows : List (List ℝ)) (b l : List ℕ) (hb : Valid (rows.map fun _ => 2) b)
    (hl : Valid (rows.map List.length) l) :
    (confMatrix rows).e (flat (rows.map fun _ => 2) b) (flat (rows.map List.length) l) =
      ∏ t ∈ range rows.length, if b.getD t 0 = 0 then (rows.getD t []).getD (l.getD t 0) 0
        else 1 - (rows.getD t []).getD (l.getD t 0) 0 := by
  have h1 : (rows.map confMat).map (·.rows) = rows.map fun _ => 2 := by
    simp [List.map_map, Function.comp_def, confMat]
  have h2 : (rows.map confMat).map (·.cols) = rows.map List.length := by
    simp [List.map_map, Function.comp_def, confMat]
  have := npKronN_e (rows.map confMat) b l (by rw [h1]; exact hb) (by rw [h2]; exact hl)
  rw [h1, h2] at this
  unfold confMatrix
  rw [this]
  unfold prodE
  rw [List.length_map]
  apply prod_congr rfl
  intro t ht
  rw [mem_range] at ht
  have : (rows.map confMat).getD t (eye 0 0) = confMat (rows.getD t []) := by
    rw [List.getD_eq_getElem _ _ (by simpa using ht), List.getD_eq_getElem _ _ ht, List.getElem_map]
  rw [this]
  rfl

/-- C67: a population vector of another length raises. -/
theorem C67_refused (rows : List (List ℝ)) (pops : Arr ℝ) (h : pops.rows ≠ (rows.map List.length).prod) :
    confuse rows pops = .error .shape := by
  unfold confuse
  rw [if_neg]
  rw [(confMatrix_shape rows).2]
  exact Ne.symm h

example : ∃ q, confuse [[0.9, 0.2], [0.8, 0.1, 0]] ⟨6, 1, fun i _ => if i = 0 then 1 else 0⟩ = .ok q ∧
    q.rows = 2 ^ 2 ∧ q.cols = 1 ∧ ProbCol q.rows fun i => q.e i 0 := by
  refine C67_probability _ ?_ _ rfl 0 ⟨fun i _ => ?_, ?_⟩
  · intro r hr x hx
    rcases List.mem_cons.1 hr with rfl | hr
    · simp only [List.mem_cons, List.not_mem_nil, or_false] at hx
      rcases hx with rfl | rfl <;> norm_num
    · rw [List.mem_singleton] at hr
      subst hr
      simp only [List.mem_cons, List.not_mem_nil, or_false] at hx
      rcases hx with rfl | rfl | rfl <;> norm_num
  · simp only
    split <;> norm_num
  · simp

/-! ## C69 -/

theorem compStateLabels_eq (dims : List ℕ) : compStateLabels dims = stateLabels (dims.map fun _ => 2) := by
  simp only [compStateLabels, stateLabels, List.map_map]
  rfl

theorem selectLabels_ok (D : List ℕ) (pops : Arr ℝ) (hr : pops.rows = D.prod) (ls : List (List ℕ))
    (h : ∀ l ∈ ls, Valid D l) (acc : ℝ) :
    selectLabels (stateLabels D) pops ls acc = .ok (acc + (ls.map fun l => pops.e (flat D l) 0).sum) := by
  induction ls generalizing acc with
  | nil => simp [selectLabels]
  | cons l ls ih =>
    have hl := h l List.mem_cons_self
    have hi := (C31_index D l).1 hl
    unfold getStateIndex at hi
    unfold selectLabels
    rw [hi]
    simp only
    rw [if_pos (by rw [hr]; exact flat_lt hl), ih fun x hx => h x (List.mem_cons_of_mem _ hx)]
    simp [add_assoc]

theorem selectLabels_unknown (D : List ℕ) (pops : Arr ℝ) (hr : pops.rows = D.prod) (ls : List (List ℕ))
    (l : List ℕ) (hl : l ∈ ls) (hv : ¬ Valid D l) (acc : ℝ) :
    selectLabels (stateLabels D) pops ls acc = .error .label := by
  induction ls generalizing acc with
  | nil => simp at hl
  | cons a ls ih =>
    unfold selectLabels
    by_cases ha : Valid D a
    · have hi := (C31_index D a).1 ha
      unfold getStateIndex at hi
      rw [hi]
      simp only
      rw [if_pos (by rw [hr]; exact flat_lt ha)]
      rcases List.mem_cons.1 hl with rfl | hl
      · exact absurd ha hv
      · exact ih hl _
    · have hi := (C31_index D a).2 ha
      unfold getStateIndex at hi
      rw [hi]

/-- The rescaling of the model, if any. -/
def finalNum (tasks : Tasks) (x : ℝ) : ℝ :=
  match tasks.rescale with
  | some so => x * so.1 + so.2
  | none => x

/-- The table of labels and the measured populations the selection works on. -/
def readoutDims (dims : List ℕ) (tasks : Tasks) : List ℕ :=
  match tasks.conf with
  | some _ => dims.map fun _ => 2
  | none => dims

/-- C69: without a confusion matrix `process` returns, for every population vector, the sum of the
populations of the labels (each counted as often as it is listed), rescaled if there is a rescaling
task; the second list holds the values before rescaling. -/
theorem C69_plain (dims : List ℕ) (tasks : Tasks) (hc : tasks.conf = none) (ls : List (List ℕ))
    (h : ∀ l ∈ ls, Valid dims l) (ps : List (Arr ℝ)) (hr : ∀ p ∈ ps, p.rows = dims.prod) :
    process dims tasks (some ls) ps = .ok
      (ps.map fun p => Val.num (finalNum tasks (ls.map fun l => p.e (flat dims l) 0).sum),
        if tasks.rescale.isSome then ps.map fun p => Val.num (ls.map fun l => p.e (flat dims l) 0).sum
        else []) := by
  induction ps with
  | nil => simp [process]
  | cons p ps ih =>
    unfold process
    rw [ih fun x hx => hr x (List.mem_cons_of_mem _ hx)]
    have h1 : processOne dims tasks (some ls) p =
        .ok (.num (ls.map fun l => p.e (flat dims l) 0).sum) := by
      unfold processOne
      rw [hc]
      simp only [bind, Except.bind]
      rw [selectLabels_ok dims p (hr p List.mem_cons_self) ls h 0]
      simp
    rw [h1]
    cases ht : tasks.rescale with
    | none => simp [bind, Except.bind, finalNum, ht]
    | some so => simp [bind, Except.bind, finalNum, ht, rescaleVal]

/-- C69: with a confusion matrix the labels are computational ones and refer to the confused
populations; rescaling comes last. -/
theorem C69_confused (dims : List ℕ) (tasks : Tasks) (rows : List (List ℝ)) (hc : tasks.conf = some rows)
    (hlen : rows.map List.length = dims) (ls : List (List ℕ))
    (h : ∀ l ∈ ls, Valid (dims.map fun _ => 2) l) (ps : List (Arr ℝ)) (hr : ∀ p ∈ ps, p.rows = dims.prod) :
    process dims tasks (some ls) ps = .ok
      (ps.map fun p => Val.num (finalNum tasks (ls.map fun l => ∑ k ∈ range dims.prod,
          (confMatrix rows).e (flat (dims.map fun _ => 2) l) k * p.e k 0).sum),
        if tasks.rescale.isSome then ps.map fun p => Val.num (ls.map fun l => ∑ k ∈ range dims.prod,
          (confMatrix rows).e (flat (dims.map fun _ => 2) l) k * p.e k 0).sum
        else []) := by
  have hs := confMatrix_shape rows
  induction ps with
  | nil => simp [process]
  | cons p ps ih =>
    unfold process
    rw [ih fun x hx => hr x (List.mem_cons_of_mem _ hx)]
    have h1 : processOne dims tasks (some ls) p = .ok (.num (ls.map fun l => ∑ k ∈ range dims.prod,
          (confMatrix rows).e (flat (dims.map fun _ => 2) l) k * p.e k 0).sum) := by
      unfold processOne
      rw [hc]
      simp only [confuse]
      rw [if_pos (by rw [hs.2, hlen, hr p List.mem_cons_self])]
      simp only [bind, Except.bind]
      rw [compStateLabels_eq, selectLabels_ok]
      · simp [hs.2, hlen]
      · show (confMatrix rows).rows = _
        rw [hs.1, List.map_const', List.prod_replicate, ← hlen, List.length_map]
      · exact h
    rw [h1]
    cases ht : tasks.rescale with
    | none => simp [bind, Except.bind, finalNum, ht]
    | some so => simp [bind, Except.bind, finalNum, ht, rescaleVal]

/-- C69: an unknown label raises, for plain and for confused populations. -/
theorem C69_unknown (dims : List ℕ) (tasks : Tasks) (hc : ∀ rows, tasks.conf = some rows →
      rows.map List.length = dims) (ls : List (List ℕ)) (l : List ℕ) (hl : l ∈ ls)
    (hv : ¬ Valid (readoutDims dims tasks) l) (p : Arr ℝ) (ps : List (Arr ℝ)) (hr : p.rows = dims.prod) :
    process dims tasks (some ls) (p :: ps) = .error .label := by
  unfold process
  have : processOne dims tasks (some ls) p = .error .label := by
    unfold processOne
    cases h : tasks.conf with
    | none =>
      simp only [bind, Except.bind]
      rw [selectLabels_unknown dims p hr ls l hl (by simpa [readoutDims, h] using hv)]
    | some rows =>
      have hlen := hc rows h
      have hs := confMatrix_shape rows
      simp only [confuse]
      rw [if_pos (by rw [hs.2, hlen, hr])]
      simp only [bind, Except.bind]
      rw [compStateLabels_eq, selectLabels_unknown _ _ _ ls l hl (by simpa [readoutDims, h] using hv)]
      show (confMatrix rows).rows = _
      rw [hs.1, List.map_const', List.prod_replicate, ← hlen, List.length_map]
  rw [this]
  rfl

/-- C69: without labels the vector itself is returned (confused, then rescaled). -/
theorem C69_vector (dims : List ℕ) (tasks : Tasks) (hc : tasks.conf = none) (p : Arr ℝ) (hcol : p.cols = 1) :
    process dims tasks none [p] = .ok
      ([Val.vec ((List.range p.rows).map fun i => finalNum tasks (p.e i 0))],
        if tasks.rescale.isSome then [Val.vec ((List.range p.rows).map fun i => p.e i 0)] else []) := by
  cases ht : tasks.rescale with
  | none => simp [process, processOne, hc, hcol, bind, Except.bind, ht, finalNum]
  | some so => simp [process, processOne, hc, hcol, bind, Except.bind, ht, finalNum, rescaleVal]

/-- C69: for distinct labels and a probability distribution the selected value is in [0, 1]. -/
theorem C69_range (D : List ℕ) (p : ℕ → ℝ) (hp : ProbCol D.prod p) (ls : List (List ℕ)) (hnd : ls.Nodup)
    (h : ∀ l ∈ ls, Valid D l) :
    0 ≤ (ls.map fun l => p (flat D l)).sum ∧ (ls.map fun l => p (flat D l)).sum ≤ 1 := by
  constructor
  · apply List.sum_nonneg
    intro x hx
    obtain ⟨l, hl, rfl⟩ := List.mem_map.1 hx
    exact hp.1 _ (flat_lt (h l hl))
  · have hnd2 : (ls.map fun l => flat D l).Nodup := by
      rw [List.nodup_map_iff_inj_on hnd]
      intro a ha b hb hab
      exact (flat_inj (h a ha) (h b hb)).1 hab
    have : (ls.map fun l => p (flat D l)).sum = ∑ i ∈ (ls.map fun l => flat D l).toFinset, p i := by
      rw [List.sum_toFinset _ hnd2, List.map_map]
      rfl
    rw [this, ← hp.2]
    apply sum_le_sum_of_subset_of_nonneg
    · intro i hi
      rw [List.mem_toFinset] at hi
      obtain ⟨l, hl, rfl⟩ := List.mem_map.1 hi
      exact mem_range.2 (flat_lt (h l hl))
    · intro i hi _
      exact hp.1 i (mem_range.1 hi)

example : process [2, 3] ⟨none, some (2, 1)⟩ (some [[1, 0], [1, 2]]) [⟨6, 1, fun i _ => i⟩] =
    .ok ([Val.num 17], [Val.num 8]) := by
  have h : ∀ l ∈ [[1, 0], [1, 2]], Valid [2, 3] l := by
    intro l hl
    simp only [List.mem_cons, List.not_mem_nil, or_false] at hl
    rcases hl with rfl | rfl <;> simp [Valid]
  rw [C69_plain [2, 3] ⟨none, some (2, 1)⟩ rfl _ h _ (by simp)]
  simp [finalNum, flat]
  norm_num

end C3.Experiment
