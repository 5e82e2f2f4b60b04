import Mathlib.Data.Real.Basic
import Mathlib.Data.List.Nodup
import Mathlib.Data.List.Range
import Mathlib.Tactic.Linarith
import Mathlib.Tactic.NormNum
import Mathlib.Tactic.Ring
import Mathlib.Tactic.FinCases

/-!
# C74, C75, C113: selection of learning and validation points

Models c3/libraries/sampling.py:17-182 (all samplers) and c3/optimizers/modellearning.py:155-179
(`select_from_data`), 202-216 (`confirm`).

Simplified: a data set is its number of points together with the two statistics the samplers sort by
(`std/mean` and `mean` of the results, real numbers, so no NaN). `np.argsort` is not stable, so its result
is any permutation sorting the statistic. `random.sample` is any draw the caller could get. The quotient
`total_size / batch_size` is exact (it is rounded in the code, which matters above 2^53 points).
-/

namespace C3.Optim.Sampling

/-! ## Model -/

inductive Err where
  | zeroDivision
  | value
deriving DecidableEq

/-- Python `l[:b]`. -/
def sliceTo (l : List ℕ) (b : ℤ) : List ℕ :=
  if 0 ≤ b then l.take b.toNat else l.take (l.length - (-b).toNat)

/-- Python `l[a:]`. -/
def sliceFrom (l : List ℕ) (a : ℤ) : List ℕ :=
  if 0 ≤ a then l.drop a.toNat else l.drop (l.length - (-a).toNat)

/-- Python `l[::k]` for `k > 0`. -/
def everyNth (l : List ℕ) (k : ℕ) : List ℕ :=
  (List.range ((l.length + k - 1) / k)).filterMap fun i => l[i * k]?

/-- Python `l[::k]`: a zero step is refused, a negative one goes backwards. -/
def sliceStep (l : List ℕ) (k : ℤ) : Except Err (List ℕ) :=
  if k = 0 then .error .value
  else if 0 < k then .ok (everyNth l k.toNat)
  else .ok (everyNth l.reverse (-k).toNat)

/-- `int(np.ceil(total_size / batch_size))`. -/
def ceilDiv (n : ℕ) (b : ℤ) : Except Err ℤ :=
  if b = 0 then .error .zeroDivision else .ok (-(Int.fdiv (-(n : ℤ)) b))

/-- The data set as the samplers see it: `learn_from` with `size` points; `ratio` and `mean` are
`np.std/np.mean` and `np.mean` of the results, `byRatio` and `byMean` what `np.argsort` gives for them. -/
structure Data where
  size : ℕ
  ratio : ℕ → ℝ
  mean : ℕ → ℝ
  byRatio : List ℕ
  byMean : List ℕ

/-- `o` is a possible result of `np.argsort` for `n` values. -/
def IsArgsort (n : ℕ) (v : ℕ → ℝ) (o : List ℕ) : Prop :=
  o.Perm (List.range n) ∧ o.Pairwise fun i j => v i ≤ v j

def Data.WF (d : Data) : Prop := IsArgsort d.size d.ratio d.byRatio ∧ IsArgsort d.size d.mean d.byMean

/-- The keys of the registry `sampling`. -/
inductive Method where
  | all | fromStart | fromEnd | even | randomSample | highStd | evenFid
deriving DecidableEq

/-- c3/libraries/sampling.py:17-182. `draw` is what the random generator would deliver. -/
def sample (m : Method) (d : Data) (draw : List ℕ) (b : ℤ) : Except Err (List ℕ) :=
  match m with
  | .all => .ok (List.range d.size)
  | .fromStart => .ok (sliceTo (List.range d.size) b)
  | .fromEnd => .ok (sliceFrom (List.range d.size) (-b))
  | .even => (ceilDiv d.size b).bind fun n => sliceStep (List.range d.size) n
  | .randomSample => if b < 0 ∨ (d.size : ℤ) < b then .error .value else .ok draw
  | .highStd => .ok (sliceFrom d.byRatio (-b))
  | .evenFid => (ceilDiv d.size b).bind fun n => sliceStep d.byMean n

/-- What `random.sample(all, b)` may return. -/
def ValidDraw (n : ℕ) (b : ℤ) (draw : List ℕ) : Prop :=
  draw.Nodup ∧ (∀ i ∈ draw, i < n) ∧ (draw.length : ℤ) = b

/-- c3/optimizers/modellearning.py:155-179 `select_from_data`. The order of `list(set(...))` is not
specified; the model gives it ascending. -/
def selectFromData (inverse : Bool) (m : Method) (d : Data) (draw : List ℕ) (b : ℤ) :
    Except Err (List ℕ) :=
  (sample m d draw b).map fun ind =>
    if inverse then (List.range d.size).filter fun i => i ∉ ind else ind

/-! ## Specification -/

/-- Distinct valid indices. -/
def ValidIndices (n : ℕ) (l : List ℕ) : Prop := l.Nodup ∧ ∀ i ∈ l, i < n

/-- `V` are exactly the points not in `L`. -/
def IsComplement (n : ℕ) (L V : List ℕ) : Prop := V.Nodup ∧ ∀ i, i ∈ V ↔ i < n ∧ i ∉ L

/-! ## Lemmas -/

theorem sliceTo_sublist (l : List ℕ) (b : ℤ) : (sliceTo l b).Sublist l := by
  unfold sliceTo; split <;> exact List.take_sublist _ _

theorem sliceFrom_sublist (l : List ℕ) (b : ℤ) : (sliceFrom l b).Sublist l := by
  unfold sliceFrom; split <;> exact List.drop_sublist _ _

theorem everyNth_mem (l : List ℕ) (k i : ℕ) (h : i ∈ everyNth l k) : i ∈ l := by
  unfold everyNth at h
  obtain ⟨a, _, ha⟩ := List.mem_filterMap.1 h
  exact List.mem_of_getElem? ha

theorem everyNth_nodup (l : List ℕ) (k : ℕ) (hk : 0 < k) (h : l.Nodup) : (everyNth l k).Nodup := by
  unfold everyNth
  refine List.Nodup.filterMap ?_ List.nodup_range
  intro a a' b hb hb'
  have hb : l[a * k]? = some b := hb
  have hb' : l[a' * k]? = some b := hb'
  have hlt : a * k < l.length := (List.getElem?_eq_some_iff.1 hb).1
  have := (List.getElem?_inj hlt h).1 (hb.trans hb'.symm)
  exact Nat.eq_of_mul_eq_mul_right hk this

theorem everyNth_length (l : List ℕ) (k : ℕ) : (everyNth l k).length ≤ (l.length + k - 1) / k := by
  unfold everyNth
  exact (List.length_filterMap_le _ _).trans (by simp)

/-- With the step of `even` not more than `b` points are left. -/
theorem everyNth_le (l : List ℕ) (k b : ℕ) (hk : 0 < k) (h : l.length ≤ b * k) :
    (everyNth l k).length ≤ b := by
  refine (everyNth_length l k).trans ?_
  rw [← Nat.lt_succ_iff, Nat.div_lt_iff_lt_mul hk, Nat.succ_mul]
  omega

theorem ceilDiv_spec (n : ℕ) (b : ℤ) (hb : 0 < b) :
    ∃ k : ℕ, ceilDiv n b = .ok (k : ℤ) ∧ (n : ℤ) ≤ b * k ∧ (0 < n → 0 < k) ∧ b * ((k : ℤ) - 1) < n := by
  have h1 := Int.emod_nonneg (-(n : ℤ)) hb.ne'
  have h2 := Int.emod_lt_of_pos (-(n : ℤ)) hb
  have h3 := Int.mul_ediv_add_emod (-(n : ℤ)) b
  have hq : (-(n : ℤ)) / b ≤ 0 := by
    rcases lt_or_ge 0 ((-(n : ℤ)) / b) with h | h
    · nlinarith
    · exact h
  refine ⟨(-((-(n : ℤ)) / b)).toNat, ?_, ?_, ?_, ?_⟩
  · unfold ceilDiv
    rw [if_neg hb.ne', Int.toNat_of_nonneg (by omega), Int.fdiv_eq_ediv_of_nonneg _ hb.le]
  · rw [Int.toNat_of_nonneg (by omega)]; nlinarith
  · intro hn
    have : (-(n : ℤ)) / b < 0 := by
      rcases lt_or_ge ((-(n : ℤ)) / b) 0 with h | h
      · exact h
      · have : (-(n : ℤ)) / b = 0 := le_antisymm hq h
        rw [this] at h3; omega
    omega
  · rw [Int.toNat_of_nonneg (by omega)]; nlinarith

theorem sliceStep_pos (l : List ℕ) (k : ℕ) (hk : 0 < k) : sliceStep l k = .ok (everyNth l k) := by
  unfold sliceStep
  rw [if_neg (by omega), if_pos (by omega)]; simp

theorem valid_of_sublist {n : ℕ} {l o : List ℕ} (h : l.Sublist o) (ho : o.Perm (List.range n)) :
    ValidIndices n l :=
  ⟨h.nodup (ho.nodup_iff.2 List.nodup_range), fun i hi => List.mem_range.1 (ho.mem_iff.1 (h.subset hi))⟩

theorem sliceFrom_neg (l : List ℕ) (b : ℤ) (hb : 0 < b) : sliceFrom l (-b) = l.drop (l.length - b.toNat) := by
  unfold sliceFrom
  rw [if_neg (by omega)]; simp

theorem sliceTo_nonneg (l : List ℕ) (b : ℤ) (hb : 0 ≤ b) : sliceTo l b = l.take b.toNat := by
  unfold sliceTo; rw [if_pos hb]

/-! ## C75 -/

/-- C75 for every data set with at least one point and batch size at least one, except the method `all`:
distinct valid indices, at most `batch_size`. `random_sample` refuses to draw more points than there are;
the others always succeed. Missing: `all` and batch size zero, see `C75_all_false`, `C75_zero_false`; the
empty data set, see `C75_empty_even`. -/
theorem C75_samplers_partial (m : Method) (hm : m ≠ .all) (d : Data) (hd : d.WF) (hn : 0 < d.size)
    (draw : List ℕ) (b : ℤ) (hb : 0 < b) (hdraw : ValidDraw d.size b draw ∨ m ≠ .randomSample) :
    (∃ l, sample m d draw b = .ok l ∧ ValidIndices d.size l ∧ (l.length : ℤ) ≤ b) ∨
      (m = .randomSample ∧ (d.size : ℤ) < b ∧ sample m d draw b = .error .value) := by
  obtain ⟨⟨hr, -⟩, ⟨hM, -⟩⟩ := hd
  obtain ⟨k, hk, hkn, hk0, -⟩ := ceilDiv_spec d.size b hb
  have hk0 := hk0 hn
  have hstep : ∀ o : List ℕ, o.Perm (List.range d.size) → ValidIndices d.size (everyNth o k) ∧
      ((everyNth o k).length : ℤ) ≤ b := by
    intro o ho
    refine ⟨⟨everyNth_nodup o k hk0 (ho.nodup_iff.2 List.nodup_range), fun i hi =>
      List.mem_range.1 (ho.mem_iff.1 (everyNth_mem o k i hi))⟩, ?_⟩
    have hlen : o.length ≤ b.toNat * k := by
      have := ho.length_eq
      rw [List.length_range] at this
      rw [this]; zify; rw [Int.toNat_of_nonneg hb.le]; exact hkn
    have := everyNth_le o k b.toNat hk0 hlen
    omega
  cases m with
  | all => exact absurd rfl hm
  | fromStart =>
    refine .inl ⟨_, rfl, valid_of_sublist (sliceTo_sublist _ _) (List.Perm.refl _), ?_⟩
    rw [sliceTo_nonneg _ _ hb.le, List.length_take]; omega
  | fromEnd =>
    refine .inl ⟨_, rfl, valid_of_sublist (sliceFrom_sublist _ _) (List.Perm.refl _), ?_⟩
    rw [sliceFrom_neg _ _ hb, List.length_drop]; omega
  | even =>
    refine .inl ⟨everyNth (List.range d.size) k, ?_, hstep _ (List.Perm.refl _)⟩
    simp only [sample, hk, Except.bind, sliceStep_pos _ k hk0]
  | randomSample =>
    have hdraw : ValidDraw d.size b draw := hdraw.resolve_right (by simp)
    rcases lt_or_ge (d.size : ℤ) b with h | h
    · exact .inr ⟨rfl, h, by simp only [sample]; rw [if_pos (Or.inr h)]⟩
    · refine .inl ⟨draw, ?_, ⟨hdraw.1, hdraw.2.1⟩, hdraw.2.2.le⟩
      simp only [sample]; rw [if_neg (by omega)]
  | highStd =>
    refine .inl ⟨_, rfl, valid_of_sublist (sliceFrom_sublist _ _) hr, ?_⟩
    rw [sliceFrom_neg _ _ hb, List.length_drop]; omega
  | evenFid =>
    refine .inl ⟨everyNth d.byMean k, ?_, hstep _ hM⟩
    simp only [sample, hk, Except.bind, sliceStep_pos _ k hk0]

/-- The data sets `0, …, n-1` with all statistics equal. -/
def flatData (n : ℕ) : Data := ⟨n, fun _ => 0, fun _ => 0, List.range n, List.range n⟩

theorem flatData_wf (n : ℕ) : (flatData n).WF := by
  refine ⟨⟨List.Perm.refl _, ?_⟩, ⟨List.Perm.refl _, ?_⟩⟩ <;>
    exact List.pairwise_of_forall (fun _ _ => le_refl _)

/-- The premises are met by `even` with 10 points and batch size 4, which gives `0, 3, 6, 9`. -/
example : sample .even (flatData 10) [] 4 = .ok [0, 3, 6, 9] ∧ (flatData 10).WF ∧ 0 < (flatData 10).size :=
  ⟨by decide +kernel, flatData_wf 10, by decide⟩

/-- Every sampler but `random_sample` returns distinct valid indices (or raises) whatever the batch size,
also zero or negative. -/
theorem C75_valid (m : Method) (d : Data) (hd : d.WF) (draw : List ℕ) (b : ℤ) (hm : m ≠ .randomSample)
    (l : List ℕ) (h : sample m d draw b = .ok l) : ValidIndices d.size l := by
  obtain ⟨⟨hr, -⟩, ⟨hM, -⟩⟩ := hd
  have hstep : ∀ (o : List ℕ) (k : ℤ), o.Perm (List.range d.size) → sliceStep o k = .ok l →
      ValidIndices d.size l := by
    intro o k ho hs
    unfold sliceStep at hs
    split at hs
    · cases hs
    · split at hs
      · cases hs
        exact ⟨everyNth_nodup o _ (by omega) (ho.nodup_iff.2 List.nodup_range), fun i hi =>
          List.mem_range.1 (ho.mem_iff.1 (everyNth_mem o _ i hi))⟩
      · cases hs
        have ho' := (List.reverse_perm o).trans ho
        exact ⟨everyNth_nodup _ _ (by omega) (ho'.nodup_iff.2 List.nodup_range), fun i hi =>
          List.mem_range.1 (ho'.mem_iff.1 (everyNth_mem _ _ i hi))⟩
  have hbind : ∀ o : List ℕ, o.Perm (List.range d.size) →
      ((ceilDiv d.size b).bind fun n => sliceStep o n) = .ok l → ValidIndices d.size l := by
    intro o ho hs
    cases hc : ceilDiv d.size b with
    | error e => rw [hc] at hs; cases hs
    | ok k => rw [hc] at hs; exact hstep o k ho hs
  cases m with
  | all => cases h; exact valid_of_sublist (List.Sublist.refl _) (List.Perm.refl _)
  | fromStart => cases h; exact valid_of_sublist (sliceTo_sublist _ _) (List.Perm.refl _)
  | fromEnd => cases h; exact valid_of_sublist (sliceFrom_sublist _ _) (List.Perm.refl _)
  | even => exact hbind _ (List.Perm.refl _) h
  | randomSample => exact absurd rfl hm
  | highStd => cases h; exact valid_of_sublist (sliceFrom_sublist _ _) hr
  | evenFid => exact hbind _ hM h

/-- Batch size -2 of 5 points walks backwards. -/
example : sample .even (flatData 5) [] (-2) = .ok [4, 2, 0] := by decide +kernel

/-- C75 fails for `all`: it ignores the batch size. -/
theorem C75_all_false (d : Data) (draw : List ℕ) (b : ℤ) (hb : b < d.size) :
    ∃ l, sample .all d draw b = .ok l ∧ b < l.length :=
  ⟨_, rfl, by simpa using hb⟩

example : ∃ l, sample .all (flatData 3) [] 1 = .ok l ∧ (1 : ℤ) < l.length :=
  C75_all_false (flatData 3) [] 1 (by decide)

/-- C75 fails for batch size zero: `all[-0:]` is everything, so `from_end` and `high_std` return all points;
`from_start` returns none; `even` and `even_fid` divide by zero. -/
theorem C75_zero_false (d : Data) (draw : List ℕ) :
    sample .fromEnd d draw 0 = .ok (List.range d.size) ∧ sample .highStd d draw 0 = .ok d.byRatio ∧
      sample .fromStart d draw 0 = .ok [] ∧ sample .even d draw 0 = .error .zeroDivision ∧
      sample .evenFid d draw 0 = .error .zeroDivision := by
  refine ⟨?_, ?_, ?_, rfl, rfl⟩ <;> simp [sample, sliceFrom, sliceTo]

/-- A negative batch size `-b` makes `from_start` leave out the last `b` points and `from_end` the first `b`. -/
theorem C75_negative (d : Data) (draw : List ℕ) (b : ℕ) (hb : 0 < b) :
    sample .fromStart d draw (-b) = .ok ((List.range d.size).take (d.size - b)) ∧
      sample .fromEnd d draw (-b) = .ok ((List.range d.size).drop b) := by
  have h : ¬ (0 : ℤ) ≤ -b := by omega
  constructor
  · simp only [sample, sliceTo, if_neg h]
    simp
  · simp [sample, sliceFrom]

/-- An empty data set makes `even` and `even_fid` raise: the step of the slice is zero. -/
theorem C75_empty_even (d : Data) (h : d.size = 0) (draw : List ℕ) (b : ℤ) (hb : b ≠ 0) :
    sample .even d draw b = .error .value ∧ sample .evenFid d draw b = .error .value := by
  have : ceilDiv d.size b = .ok 0 := by
    unfold ceilDiv; rw [if_neg hb, h]; simp
  constructor <;> simp [sample, this, Except.bind, sliceStep]

/-- `from_start` returns the first and `from_end` the last points, as many as asked for. -/
theorem C75_ends (d : Data) (draw : List ℕ) (b : ℕ) (hb : 0 < b) (hbn : b ≤ d.size) :
    (∃ l, sample .fromStart d draw b = .ok l ∧ l.length = b ∧ ∀ i, i ∈ l ↔ i < b) ∧
      (∃ l, sample .fromEnd d draw b = .ok l ∧ l.length = b ∧ ∀ i, i ∈ l ↔ d.size - b ≤ i ∧ i < d.size) := by
  constructor
  · refine ⟨_, rfl, ?_, ?_⟩
    · rw [sliceTo_nonneg _ _ (by omega)]; simp; omega
    · intro i
      rw [sliceTo_nonneg _ _ (by omega), List.take_range]
      simp; omega
  · refine ⟨_, rfl, ?_, ?_⟩
    · rw [sliceFrom_neg _ _ (by omega)]; simp; omega
    · intro i
      rw [sliceFrom_neg _ _ (by omega)]
      constructor
      · intro hi
        obtain ⟨k, hk, rfl⟩ := List.mem_iff_getElem.1 hi
        simp at hk ⊢; omega
      · rintro ⟨h1, h2⟩
        refine List.mem_iff_getElem.2 ⟨i - (d.size - b), ?_, ?_⟩
        · simp; omega
        · simp; omega

/-- `even` spreads the points: they are the multiples of the least step that leaves at most `b` points. -/
theorem C75_even (d : Data) (hn : 0 < d.size) (draw : List ℕ) (b : ℕ) (hb : 0 < b) :
    ∃ k l, sample .even d draw b = .ok l ∧ (∀ i, i ∈ l ↔ i < d.size ∧ k ∣ i) ∧
      d.size ≤ b * k ∧ ∀ k', d.size ≤ b * k' → k ≤ k' := by
  obtain ⟨k, hk, hkn, hk0, hmin⟩ := ceilDiv_spec d.size b (by omega)
  have hk0 := hk0 hn
  refine ⟨k, everyNth (List.range d.size) k, ?_, ?_, by exact_mod_cast hkn, ?_⟩
  · simp only [sample, hk, Except.bind, sliceStep_pos _ k hk0]
  · intro i
    unfold everyNth
    rw [List.mem_filterMap]
    constructor
    · rintro ⟨a, -, ha⟩
      obtain ⟨h1, h2⟩ := List.getElem?_eq_some_iff.1 ha
      simp at h1 h2
      subst h2
      exact ⟨h1, Dvd.intro_left a rfl⟩
    · rintro ⟨h1, a, rfl⟩
      refine ⟨a, ?_, ?_⟩
      · rw [List.mem_range, List.length_range, Nat.lt_iff_add_one_le, Nat.le_div_iff_mul_le hk0]
        have : (a + 1) * k = k * a + k := by ring
        omega
      · rw [List.getElem?_eq_some_iff]
        refine ⟨by rw [List.length_range, Nat.mul_comm]; exact h1, ?_⟩
        simp [Nat.mul_comm]
  · intro k' hk'
    by_contra hlt
    push Not at hlt
    have h1 : (k' : ℤ) ≤ (k : ℤ) - 1 := by omega
    have h2 : (b : ℤ) * k' ≤ b * ((k : ℤ) - 1) := mul_le_mul_of_nonneg_left h1 (by omega)
    have h3 : (d.size : ℤ) ≤ b * k' := by exact_mod_cast hk'
    linarith

/-- `even` may return fewer points than asked for, although more are there: 5 of 10 for batch size 6. -/
theorem C75_even_fewer : sample .even (flatData 10) [] 6 = .ok [0, 2, 4, 6, 8] := by decide +kernel

/-! ## C113: what `high_std` and `even_fid` prefer -/

/-- `high_std` picks the points with the highest ratio: no point left out has a higher ratio than a
selected one, and exactly `b` are selected. -/
theorem C113_high_std (d : Data) (hd : d.WF) (draw : List ℕ) (b : ℕ) (hb : 0 < b) (hbn : b ≤ d.size) :
    ∃ l, sample .highStd d draw b = .ok l ∧ l.length = b ∧
      ∀ i ∈ l, ∀ j < d.size, j ∉ l → d.ratio j ≤ d.ratio i := by
  obtain ⟨⟨hr, hs⟩, -⟩ := hd
  have hlen : d.byRatio.length = d.size := by rw [hr.length_eq]; simp
  refine ⟨_, rfl, ?_, ?_⟩
  · rw [sliceFrom_neg _ _ (by omega), List.length_drop]; simp; omega
  · rw [sliceFrom_neg _ _ (by omega)]
    intro i hi j hj hjl
    have hmem : j ∈ d.byRatio := hr.mem_iff.2 (List.mem_range.2 hj)
    rw [← List.take_append_drop (d.byRatio.length - ((b : ℤ)).toNat) d.byRatio] at hmem hs
    have hjt := (List.mem_append.1 hmem).resolve_right hjl
    exact (List.pairwise_append.1 hs).2.2 j hjt i hi

example : (flatData 3).WF ∧ 0 < 2 ∧ 2 ≤ (flatData 3).size := ⟨flatData_wf 3, by decide, by decide⟩

/-- `even_fid` returns its points in the order of their means and starts with a lowest one. -/
theorem C113_even_fid (d : Data) (hd : d.WF) (hn : 0 < d.size) (draw : List ℕ) (b : ℕ) (hb : 0 < b) :
    ∃ i l, sample .evenFid d draw b = .ok (i :: l) ∧ (i :: l).Pairwise (fun i j => d.mean i ≤ d.mean j) ∧
      ∀ j < d.size, d.mean i ≤ d.mean j := by
  obtain ⟨-, ⟨hM, hs⟩⟩ := hd
  obtain ⟨k, hk, hkn, hk0, -⟩ := ceilDiv_spec d.size b (by omega)
  have hk0 := hk0 hn
  have hlen : d.byMean.length = d.size := by rw [hM.length_eq]; simp
  have hpos : 0 < d.byMean.length := by omega
  have hsample : sample .evenFid d draw b = .ok (everyNth d.byMean k) := by
    simp only [sample, hk, Except.bind, sliceStep_pos _ k hk0]
  have hm : 0 < (d.byMean.length + k - 1) / k := Nat.div_pos (by omega) hk0
  obtain ⟨m, hm'⟩ : ∃ m, (d.byMean.length + k - 1) / k = m + 1 := ⟨_, (Nat.succ_pred hm.ne').symm⟩
  have hsorted : (everyNth d.byMean k).Pairwise (fun i j => d.mean i ≤ d.mean j) := by
    unfold everyNth
    rw [List.pairwise_filterMap]
    refine List.Pairwise.imp ?_ List.pairwise_lt_range
    intro a a' haa x hx y hy
    have hx : d.byMean[a * k]? = some x := hx
    have hy : d.byMean[a' * k]? = some y := hy
    obtain ⟨hx1, rfl⟩ := List.getElem?_eq_some_iff.1 hx
    obtain ⟨hy1, rfl⟩ := List.getElem?_eq_some_iff.1 hy
    exact List.pairwise_iff_getElem.1 hs _ _ hx1 hy1 (Nat.mul_lt_mul_of_pos_right haa hk0)
  refine ⟨d.byMean[0], (everyNth d.byMean k).tail, ?_, ?_, ?_⟩
  · rw [hsample]
    congr 1
    unfold everyNth
    rw [hm', List.range_succ_eq_map, List.filterMap_cons]
    simp [hpos]
  · have : everyNth d.byMean k = d.byMean[0] :: (everyNth d.byMean k).tail := by
      unfold everyNth
      rw [hm', List.range_succ_eq_map, List.filterMap_cons]
      simp [hpos]
    rw [← this]; exact hsorted
  · intro j hj
    have hmem : j ∈ d.byMean := hM.mem_iff.2 (List.mem_range.2 hj)
    obtain ⟨p, hp, rfl⟩ := List.mem_iff_getElem.1 hmem
    rcases Nat.eq_zero_or_pos p with h | h
    · subst h; exact le_refl _
    · exact List.pairwise_iff_getElem.1 hs 0 p hpos hp h

example : sample .evenFid (flatData 5) [] 2 = .ok [0, 3] := by decide +kernel

/-! ## C74 -/

/-- The points evaluated over a whole learning run: one selection per evaluation of the goal function,
each with its own draw. -/
def usedPoints (m : Method) (d : Data) (draws : List (List ℕ)) (b : ℤ) : List ℕ :=
  draws.flatMap fun dr => match selectFromData false m d dr b with
    | .ok l => l
    | .error _ => []

/-- C74 for the methods without randomness: over a learning run with at least one evaluation, the points of
`confirm` are exactly those no evaluation used, whatever the batch size. If the sampler raises, so does
`confirm`. Missing: `random_sample`, see `C74_random_false`. -/
theorem C74_complement_partial (m : Method) (hm : m ≠ .randomSample) (d : Data) (draws : List (List ℕ))
    (hdraws : draws ≠ []) (draw : List ℕ) (b : ℤ) :
    (∃ V, selectFromData true m d draw b = .ok V ∧ IsComplement d.size (usedPoints m d draws b) V) ∨
      (∃ e, selectFromData true m d draw b = .error e ∧ ∀ dr, selectFromData false m d dr b = .error e) := by
  have hdet : ∀ dr dr', sample m d dr b = sample m d dr' b := by
    intro dr dr'; cases m <;> first | rfl | exact absurd rfl hm
  cases hs : sample m d draw b with
  | error e =>
    refine .inr ⟨e, by rw [selectFromData, hs]; rfl, fun dr => ?_⟩
    rw [selectFromData, hdet dr draw, hs]; rfl
  | ok L =>
    refine .inl ⟨_, by rw [selectFromData, hs]; rfl, ?_⟩
    have hused : ∀ i, i ∈ usedPoints m d draws b ↔ i ∈ L := by
      intro i
      unfold usedPoints
      rw [List.mem_flatMap]
      have hsel : ∀ dr, selectFromData false m d dr b = .ok L := by
        intro dr; rw [selectFromData, hdet dr draw, hs]; rfl
      constructor
      · rintro ⟨dr, -, hi⟩
        rw [hsel dr] at hi; exact hi
      · intro hi
        obtain ⟨dr, hdr⟩ := List.exists_mem_of_ne_nil _ hdraws
        exact ⟨dr, hdr, by rw [hsel dr]; exact hi⟩
    refine ⟨List.Nodup.filter _ List.nodup_range, fun i => ?_⟩
    rw [hused]
    simp

example : usedPoints .even (flatData 5) [[], []] 2 = [0, 3, 0, 3] ∧
    selectFromData true .even (flatData 5) [] 2 = .ok [1, 2, 4] := by decide +kernel

/-- For one and the same draw, the validation points of `random_sample` are the complement, too. -/
theorem C74_same_draw (d : Data) (draw : List ℕ) (b : ℤ) (L : List ℕ)
    (h : selectFromData false .randomSample d draw b = .ok L) :
    ∃ V, selectFromData true .randomSample d draw b = .ok V ∧ IsComplement d.size L V := by
  cases hs : sample .randomSample d draw b with
  | error e => rw [selectFromData, hs] at h; cases h
  | ok L' =>
    rw [selectFromData, hs] at h
    cases h
    refine ⟨_, by rw [selectFromData, hs]; rfl, List.Nodup.filter _ List.nodup_range, fun i => ?_⟩
    simp

example : selectFromData false .randomSample (flatData 3) [2] 1 = .ok [2] := by decide +kernel

/-- C74 fails for `random_sample`: `confirm` draws again. With two points, learning on the first, the
validation can be on the same first point, and the unused one is not validated. -/
theorem C74_random_false : ∃ (d : Data) (draw draw' : List ℕ) (b : ℤ), d.WF ∧ ValidDraw d.size b draw ∧
    ValidDraw d.size b draw' ∧ ∃ V, selectFromData true .randomSample d draw' b = .ok V ∧
      ¬ IsComplement d.size (usedPoints .randomSample d [draw] b) V := by
  refine ⟨flatData 2, [0], [1], 1, flatData_wf 2, by unfold ValidDraw; decide, by unfold ValidDraw; decide,
    [0], by decide +kernel, ?_⟩
  rintro ⟨-, h⟩
  have := ((h 0).1 (by decide)).2
  exact this (by decide +kernel)

/-- Worse: whenever learning and validation draws differ as sets of the same size, some learning point is
validated. -/
theorem C74_random_overlap (d : Data) (draw draw' : List ℕ) (b : ℤ) (h : ValidDraw d.size b draw)
    (hb : b ≤ d.size) (hb0 : 0 ≤ b) (hne : ∃ i ∈ draw, i ∉ draw') :
    ∃ V, selectFromData true .randomSample d draw' b = .ok V ∧ ∃ i ∈ draw, i ∈ V := by
  obtain ⟨i, hi, hi'⟩ := hne
  have hs : sample .randomSample d draw' b = .ok draw' := by
    simp only [sample]; rw [if_neg (by omega)]
  refine ⟨_, by rw [selectFromData, hs]; rfl, i, hi, ?_⟩
  simp [h.2.1 i hi, hi']

example : ValidDraw 2 1 [0] ∧ ∃ i ∈ [0], i ∉ [1] := by unfold ValidDraw; decide

/-- With `all` there is nothing left to validate on. -/
theorem C74_all_empty (d : Data) (draw : List ℕ) (b : ℤ) : selectFromData true .all d draw b = .ok [] := by
  rw [selectFromData]
  simp [sample, Except.map]

end C3.Optim.Sampling
