import Verif.Optim.Learn
import Verif.Optim.Log
import Mathlib.Analysis.Calculus.FDeriv.Pi
import Mathlib.Analysis.Calculus.FDeriv.Comp
import Mathlib.Analysis.Calculus.Deriv.Comp
import Mathlib.Analysis.Calculus.Deriv.Prod
import Mathlib.Analysis.SpecialFunctions.Trigonometric.InverseDeriv
import Mathlib.Topology.Order.LocalExtr

/-!
# C243: optimizing without limits in the coordinates of the optimizer

The algorithms propose any vector of real numbers; `set_opt_value` (c3/c3objs.py:324-333) folds every entry to the interval
from -1 to 1, `set_parameters_scaled` (c3/parametermap.py:356-395) writes it, and the goal is computed
(c3/optimizers/optimalcontrol.py:200-229). What the minima and the gradients of this function of unlimited numbers have to do
with those of the goal within the limits, and what `lookup_gradient` (c3/optimizers/optimizer.py:217-241) returns at a limit.
-/

noncomputable section

namespace C3.Optim.Folded

open C3 C3.Quantity C3.PMap C3.Optim Filter Topology

/-! ## Model -/

/-- The goal as a function of the proposal (c3/optimizers/optimalcontrol.py:215-229); `f` is the simulation with the
fidelity. -/
def goalAt {n : ℕ} (f : PMap → ℝ) (s : PMap) (x : Fin n → ℝ) : ℝ := f (s.setParametersScaled (List.ofFn x)).1

/-- The derivative of `set_opt_value` as the gradient tape computes it: `-1/sqrt(1 - c²)` for `acos` at `c`, times `-sin` for
`cos`, times the constants. At `c = ±1` it is zero times infinity, or infinity if the sine is rounded. -/
def tapeFold (v : ℝ) : GVal :=
  if 1 - Real.cos ((v + 1) * Real.pi / 2) ^ 2 = 0 then .nan
  else .fin (-1 / √(1 - Real.cos ((v + 1) * Real.pi / 2) ^ 2) * -Real.sin ((v + 1) * Real.pi / 2) *
    (Real.pi / 2) / Real.pi * 2)

/-- One entry of the gradient of the tape: the derivative `d` by the stored value, times that of `set_opt_value`. -/
def tapeEntry (d v : ℝ) : GVal :=
  match tapeFold v with
  | .fin σ => .fin (d * σ)
  | e => e

/-! ## Specification -/

/-- The limits, in the coordinates of the optimizer. -/
def box (n : ℕ) : Set (Fin n → ℝ) := {y | ∀ i, -1 ≤ y i ∧ y i ≤ 1}

/-- The point within the limits that a proposal stands for. -/
def fold {n : ℕ} (x : Fin n → ℝ) : Fin n → ℝ := fun i => foldOpt (x i)

/-- The coordinate is a limit after folding. -/
def AtLimit (v : ℝ) : Prop := foldOpt v = -1 ∨ foldOpt v = 1

open scoped Classical in
/-- The sign of the folding: minus where an odd number of limits was passed. -/
def slope (v : ℝ) : ℝ := if ∃ k : ℤ, v = foldOpt v + 4 * k then 1 else -1

/-! ## Proofs -/

theorem foldOpt_fold (v : ℝ) : foldOpt (foldOpt v) = foldOpt v :=
  foldOpt_of_mem (foldOpt_mem v).1 (foldOpt_mem v).2

theorem setScaledGroup_fold (s : PMap) (v : List ℝ) (g : List String) :
    s.setScaledGroup (v.map foldOpt) g = s.setScaledGroup v g := by
  have h : ∀ q : Quantity, q.setOptValue (v.map foldOpt) = q.setOptValue v := by
    intro q
    have : foldOpt ∘ foldOpt = foldOpt := funext foldOpt_fold
    simp [setOptValue, List.map_map, this]
  induction g generalizing s with
  | nil => rfl
  | cons k ks ih =>
    simp only [setScaledGroup, h, ih]

theorem setScaledLoop_fold (s : PMap) (v : List ℝ) (m : List (List String)) :
    s.setScaledLoop (v.map foldOpt) m = s.setScaledLoop v m := by
  induction m generalizing s v with
  | nil => rfl
  | cons g gs ih =>
    cases g with
    | nil => rfl
    | cons k ks =>
      simp only [setScaledLoop, ← List.map_take, ← List.map_drop, setScaledGroup_fold]
      rcases s.ref k with _ | r
      · rfl
      simp only
      rcases s.setScaledGroup (v.take (s.heap r).length) (k :: ks) with ⟨s', _ | e⟩
      · exact ih _ _
      · rfl

/-- **C243**: a proposal and the point it is folded to have the same effect on the parameter map. -/
theorem C243_set (s : PMap) (x : List ℝ) : s.setParametersScaled x = s.setParametersScaled (x.map foldOpt) := by
  unfold setParametersScaled
  rw [setScaledLoop_fold]

theorem goalAt_fold {n : ℕ} (f : PMap → ℝ) (s : PMap) (x : Fin n → ℝ) : goalAt f s x = goalAt f s (fold x) := by
  unfold goalAt
  rw [C243_set, List.map_ofFn]
  rfl

theorem fold_mem {n : ℕ} (x : Fin n → ℝ) : fold x ∈ box n := fun i => foldOpt_mem (x i)

theorem fold_of_mem {n : ℕ} {x : Fin n → ℝ} (h : x ∈ box n) : fold x = x :=
  funext fun i => foldOpt_of_mem (h i).1 (h i).2

/-- **C243**: the minima of the goal over all vectors are the proposals that are folded to minima within the limits. -/
theorem C243_global {n : ℕ} (f : PMap → ℝ) (s : PMap) (x : Fin n → ℝ) :
    (∀ y : Fin n → ℝ, goalAt f s x ≤ goalAt f s y) ↔ ∀ y ∈ box n, goalAt f s (fold x) ≤ goalAt f s y := by
  constructor
  · intro h y _
    rw [← goalAt_fold]
    exact h y
  · intro h y
    rw [goalAt_fold f s x, goalAt_fold f s y]
    exact h _ (fold_mem y)

theorem fold_cases (v : ℝ) : ∃ k : ℤ, v = foldOpt v + 4 * k ∨ v = 2 - foldOpt v + 4 * k := by
  set k : ℤ := ⌊(v + 1) / 4⌋ with hk
  have h1 := Int.floor_le ((v + 1) / 4)
  have h2 := Int.lt_floor_add_one ((v + 1) / 4)
  rw [← hk] at h1 h2
  have e : foldOpt v = foldOpt (v - 4 * k) := by
    rw [← foldOpt_add_four (v - 4 * k) k]; congr 1; ring
  refine ⟨k, ?_⟩
  by_cases h : v - 4 * k ≤ 1
  · left
    rw [e, foldOpt_of_mem (by linarith) h]; ring
  · right
    push Not at h
    have : foldOpt (v - 4 * k) = 2 - (v - 4 * k) := by
      rw [← foldOpt_reflect, ← foldOpt_add_four _ 1, foldOpt_of_mem] <;> push_cast <;> linarith
    rw [e, this]; ring

theorem fold_even (y : ℝ) (k : ℤ) (h1 : -1 ≤ y) (h2 : y ≤ 1) : foldOpt (y + 4 * k) = y := by
  rw [foldOpt_add_four, foldOpt_of_mem h1 h2]

theorem fold_odd (y : ℝ) (k : ℤ) (h1 : -1 ≤ y) (h2 : y ≤ 1) : foldOpt (2 - y + 4 * k) = y := by
  rw [foldOpt_add_four, ← foldOpt_reflect, ← foldOpt_add_four _ 1, foldOpt_of_mem] <;> push_cast <;> linarith

/-- `foldOpt` has an affine inverse on the limits through every point. -/
theorem branch (v : ℝ) : ∃ σ c : ℝ, (σ = 1 ∨ σ = -1) ∧ v = σ * foldOpt v + c ∧
    ∀ y, -1 ≤ y → y ≤ 1 → foldOpt (σ * y + c) = y := by
  obtain ⟨k, h | h⟩ := fold_cases v
  · refine ⟨1, 4 * k, Or.inl rfl, by linarith, fun y h1 h2 => ?_⟩
    rw [one_mul]
    exact fold_even y k h1 h2
  · refine ⟨-1, 2 + 4 * k, Or.inr rfl, by linarith, fun y h1 h2 => ?_⟩
    rw [show -1 * y + (2 + 4 * (k : ℝ)) = 2 - y + 4 * k by ring]
    exact fold_odd y k h1 h2

theorem continuous_foldOpt : Continuous foldOpt := by
  unfold foldOpt
  exact (((Real.continuous_arccos.comp (Real.continuous_cos.comp (by fun_prop))).div_const _).mul_const _).sub continuous_const

theorem continuous_fold {n : ℕ} : Continuous (fold (n := n)) :=
  continuous_pi fun i => continuous_foldOpt.comp (continuous_apply i)

/-- **C243**: the local minima of the goal over all vectors are the proposals that are folded to local minima within the
limits, also if those lie on the limits. -/
theorem C243_local {n : ℕ} (f : PMap → ℝ) (s : PMap) (x : Fin n → ℝ) :
    IsLocalMin (goalAt f s) x ↔ IsLocalMinOn (goalAt f s) (box n) (fold x) := by
  constructor
  · intro h
    choose σ c hσ hx hb using fun i => branch (x i)
    have hc : Continuous fun (y : Fin n → ℝ) i => σ i * y i + c i :=
      continuous_pi fun i => (continuous_const.mul (continuous_apply i)).add continuous_const
    have hx' : (fun i => σ i * fold x i + c i) = x := funext fun i => (hx i).symm
    have ht : Tendsto (fun (y : Fin n → ℝ) i => σ i * y i + c i) (𝓝[box n] (fold x)) (𝓝 x) := by
      have := (hc.tendsto (fold x)).mono_left (nhdsWithin_le_nhds (s := box n))
      rwa [hx'] at this
    filter_upwards [ht.eventually h, self_mem_nhdsWithin] with y hy hyb
    have e : fold (fun i => σ i * y i + c i) = y := funext fun i => hb i (y i) (hyb i).1 (hyb i).2
    rw [← goalAt_fold]
    refine hy.trans_eq ?_
    rw [goalAt_fold, e]
  · intro h
    have ht : Tendsto fold (𝓝 x) (𝓝[box n] (fold x)) :=
      tendsto_nhdsWithin_of_tendsto_nhds_of_eventually_within _ (continuous_fold.tendsto x)
        (Eventually.of_forall fun y => fold_mem y)
    filter_upwards [ht.eventually h] with y hy
    rw [goalAt_fold f s x, goalAt_fold f s y]
    exact hy

theorem slope_even (y : ℝ) (k : ℤ) (h1 : -1 ≤ y) (h2 : y ≤ 1) : slope (y + 4 * k) = 1 := by
  unfold slope
  rw [if_pos ⟨k, by rw [fold_even y k h1 h2]⟩]

theorem slope_odd (y : ℝ) (k : ℤ) (h1 : -1 < y) (h2 : y < 1) : slope (2 - y + 4 * k) = -1 := by
  unfold slope
  rw [if_neg]
  rintro ⟨l, hl⟩
  rw [fold_odd y k h1.le h2.le] at hl
  have e : (2 : ℝ) - 2 * y = ((4 * (l - k) : ℤ) : ℝ) := by push_cast; linarith
  have a : (0 : ℝ) < ((4 * (l - k) : ℤ) : ℝ) := by rw [← e]; linarith
  have b : ((4 * (l - k) : ℤ) : ℝ) < (4 : ℤ) := by rw [← e]; push_cast; linarith
  have a' := Int.cast_pos.1 a
  have b' := Int.cast_lt.1 b
  omega

theorem interior {v : ℝ} (h : ¬ AtLimit v) : -1 < foldOpt v ∧ foldOpt v < 1 := by
  obtain ⟨h1, h2⟩ := foldOpt_mem v
  unfold AtLimit at h
  push Not at h
  exact ⟨lt_of_le_of_ne h1 (Ne.symm h.1), lt_of_le_of_ne h2 h.2⟩

/-- **C243**: away from the limits folding has slope one, with the sign of the number of limits passed. -/
theorem C243_slope (v : ℝ) (h : ¬ AtLimit v) : HasDerivAt foldOpt (slope v) v := by
  obtain ⟨h1, h2⟩ := interior h
  obtain ⟨k, e | e⟩ := fold_cases v
  · have hs : slope v = 1 := by rw [e]; exact slope_even _ _ h1.le h2.le
    rw [hs]
    have hd : HasDerivAt (fun w : ℝ => w - 4 * k) 1 v := (hasDerivAt_id v).sub_const _
    refine hd.congr_of_eventuallyEq ?_
    have : ∀ᶠ w in 𝓝 v, w ∈ Set.Ioo (-1 + 4 * (k : ℝ)) (1 + 4 * k) :=
      Ioo_mem_nhds (by linarith) (by linarith)
    filter_upwards [this] with w hw
    have := fold_even (w - 4 * k) k (by linarith [hw.1]) (by linarith [hw.2])
    rwa [sub_add_cancel] at this
  · have hs : slope v = -1 := by rw [e]; exact slope_odd _ _ h1 h2
    rw [hs]
    have hd : HasDerivAt (fun w : ℝ => (2 + 4 * k) - w) (-1) v := (hasDerivAt_id v).const_sub _
    refine hd.congr_of_eventuallyEq ?_
    have : ∀ᶠ w in 𝓝 v, w ∈ Set.Ioo (1 + 4 * (k : ℝ)) (3 + 4 * k) :=
      Ioo_mem_nhds (by linarith) (by linarith)
    filter_upwards [this] with w hw
    have := fold_odd ((2 + 4 * k) - w) k (by linarith [hw.2]) (by linarith [hw.1])
    rwa [show 2 - ((2 + 4 * (k : ℝ)) - w) + 4 * k = w by ring] at this

theorem slope_sq (v : ℝ) : slope v * slope v = 1 := by
  unfold slope
  split <;> norm_num

/-- **C243**: the physical value changes by half the distance of the limits per unit of the optimizer. -/
theorem C243_value (q : Quantity) (v : ℝ) (h : ¬ AtLimit v) :
    HasDerivAt (fun w => q.getOtherValue (foldOpt w)) (slope v * ((q.getLimits.2 - q.getLimits.1) / 2)) v := by
  have := ((((C243_slope v h).add_const 1).const_mul q.scale).div_const 2 |>.add_const q.offset).div_const q.pref
  refine this.congr_deriv ?_
  simp only [getLimits]
  ring

/-- Multiplication of every coordinate with the sign of its folding. -/
def signs {n : ℕ} (x : Fin n → ℝ) : (Fin n → ℝ) →L[ℝ] (Fin n → ℝ) :=
  ContinuousLinearMap.pi fun i => slope (x i) • ContinuousLinearMap.proj i

theorem hasFDerivAt_fold {n : ℕ} (x : Fin n → ℝ) (h : ∀ i, ¬ AtLimit (x i)) : HasFDerivAt fold (signs x) x := by
  refine hasFDerivAt_pi.2 fun i => ?_
  have := (C243_slope (x i) (h i)).comp_hasFDerivAt x (hasFDerivAt_apply (𝕜 := ℝ) i x)
  exact this

/-- **C243**: away from the limits the gradient at a proposal is the gradient at the point it is folded to, with the signs of
the folding. -/
theorem C243_gradient {n : ℕ} (f : PMap → ℝ) (s : PMap) (x : Fin n → ℝ) (h : ∀ i, ¬ AtLimit (x i))
    (L : (Fin n → ℝ) →L[ℝ] ℝ) (hL : HasFDerivAt (goalAt f s) L (fold x)) :
    HasFDerivAt (goalAt f s) (L.comp (signs x)) x := by
  have := hL.comp x (hasFDerivAt_fold x h)
  refine this.congr_of_eventuallyEq (Eventually.of_forall fun y => ?_)
  exact goalAt_fold f s y

/-- C243: the stationary points are those of the goal within the limits. -/
theorem C243_stationary {n : ℕ} (f : PMap → ℝ) (s : PMap) (x : Fin n → ℝ) (h : ∀ i, ¬ AtLimit (x i))
    (L : (Fin n → ℝ) →L[ℝ] ℝ) (hL : HasFDerivAt (goalAt f s) L (fold x)) :
    fderiv ℝ (goalAt f s) x = 0 ↔ L = 0 := by
  rw [(C243_gradient f s x h L hL).fderiv]
  constructor
  · intro e
    ext y
    have := congrArg (fun M : (Fin n → ℝ) →L[ℝ] ℝ => M (signs x y)) e
    simp only [ContinuousLinearMap.comp_apply, zero_apply] at this ⊢
    rw [← this]
    congr 1
    ext i
    simp [signs, ← mul_assoc, slope_sq]
  · rintro rfl
    simp

/-! ### What the tape computes -/

theorem limit_iff (v : ℝ) : 1 - Real.cos ((v + 1) * Real.pi / 2) ^ 2 = 0 ↔ AtLimit v := by
  have hp := Real.pi_pos
  set c := Real.cos ((v + 1) * Real.pi / 2) with hc
  have e : foldOpt v = Real.arccos c / Real.pi * 2 - 1 := rfl
  have h1 := Real.neg_one_le_cos ((v + 1) * Real.pi / 2)
  have h2 := Real.cos_le_one ((v + 1) * Real.pi / 2)
  have a1 : foldOpt v = -1 ↔ c = 1 := by
    rw [e]
    constructor
    · intro h
      have : Real.arccos c = 0 := by
        have : Real.arccos c / Real.pi = 0 := by linarith
        rcases div_eq_zero_iff.1 this with h | h
        · exact h
        · exact absurd h hp.ne'
      exact le_antisymm h2 (Real.arccos_eq_zero.1 this)
    · intro h
      rw [h]; simp
  have a2 : foldOpt v = 1 ↔ c = -1 := by
    rw [e]
    constructor
    · intro h
      have : Real.arccos c = Real.pi := by
        have : Real.arccos c / Real.pi = 1 := by linarith
        rwa [div_eq_one_iff_eq hp.ne'] at this
      exact le_antisymm (Real.arccos_eq_pi.1 this) h1
    · intro h
      rw [h]; simp [hp.ne']; norm_num
  unfold AtLimit
  rw [a1, a2]
  constructor
  · intro h
    have h0 : (c - 1) * (c + 1) = 0 := by linear_combination -h
    rcases mul_eq_zero.1 h0 with h | h
    · exact Or.inl (by linarith)
    · exact Or.inr (by linarith)
  · rintro (h | h) <;> rw [h] <;> norm_num

theorem tapeFold_limit {v : ℝ} (h : AtLimit v) : tapeFold v = .nan := if_pos ((limit_iff v).2 h)

/-- **C243**: away from the limits the tape computes the slope of the folding; at a limit it divides by zero. -/
theorem C243_tape (v : ℝ) : (¬ AtLimit v → tapeFold v = .fin (slope v)) ∧ (AtLimit v → tapeFold v = .nan) := by
  refine ⟨fun h => ?_, tapeFold_limit⟩
  have hne : 1 - Real.cos ((v + 1) * Real.pi / 2) ^ 2 ≠ 0 := fun e => h ((limit_iff v).1 e)
  unfold tapeFold
  rw [if_neg hne]
  have hp := Real.pi_pos.ne'
  have hc1 : Real.cos ((v + 1) * Real.pi / 2) ≠ 1 := by
    intro e; rw [e] at hne; norm_num at hne
  have hc2 : Real.cos ((v + 1) * Real.pi / 2) ≠ -1 := by
    intro e; rw [e] at hne; norm_num at hne
  have d1 : HasDerivAt (fun w : ℝ => (w + 1) * Real.pi / 2) (Real.pi / 2) v := by
    have := (((hasDerivAt_id v).add_const 1).mul_const Real.pi).div_const 2
    simpa using this
  have d2 := (Real.hasDerivAt_arccos hc2 hc1).comp v ((Real.hasDerivAt_cos _).comp v d1)
  have d3 := ((d2.div_const Real.pi).mul_const 2).sub_const 1
  have := d3.unique (C243_slope v h)
  rw [← this]
  congr 1
  ring

/-- **C243**: away from the limits, what the algorithm gets as gradient is the gradient of its goal. -/
theorem C243_lookup_partial {n : ℕ} (f : PMap → ℝ) (s : PMap) (x : Fin n → ℝ) (h : ∀ i, ¬ AtLimit (x i))
    (L : (Fin n → ℝ) →L[ℝ] ℝ) (hL : HasFDerivAt (goalAt f s) L (fold x)) :
    clean (List.ofFn fun i => tapeEntry (L (Pi.single i 1)) (x i)) =
      List.ofFn fun i => fderiv ℝ (goalAt f s) x (Pi.single i 1) := by
  rw [(C243_gradient f s x h L hL).fderiv, clean, List.map_ofFn]
  congr 1
  ext i
  have e : signs x (Pi.single i 1) = slope (x i) • Pi.single i 1 := by
    ext j
    by_cases hj : j = i
    · subst hj; simp [signs]
    · simp [signs, hj]
  simp only [Function.comp_apply, tapeEntry, (C243_tape (x i)).1 (h i), cleanVal, ContinuousLinearMap.comp_apply, e, map_smul,
    smul_eq_mul]
  ring

/-- C243: at a limit the algorithm gets 1e-10, whatever the goal is. -/
theorem C243_limit (d v : ℝ) (h : AtLimit v) : cleanVal (tapeEntry d v) = 1e-10 := by
  simp [tapeEntry, tapeFold_limit h, cleanVal]

/-- C243: at a limit folding is a reflection. -/
theorem fold_mirror (v : ℝ) (h : AtLimit v) (t : ℝ) : foldOpt (v + t) = foldOpt (v - t) := by
  obtain ⟨k, e⟩ : ∃ k : ℤ, v = 2 * k + 1 := by
    obtain ⟨k, e | e⟩ := fold_cases v <;> rcases h with h | h <;> rw [h] at e
    · exact ⟨2 * k - 1, by push_cast; linarith⟩
    · exact ⟨2 * k, by push_cast; linarith⟩
    · exact ⟨2 * k + 1, by push_cast; linarith⟩
    · exact ⟨2 * k, by push_cast; linarith⟩
  have h4 := foldOpt_add_four (-2 - (v + t)) (k + 1)
  rw [foldOpt_reflect] at h4
  rw [← h4]
  congr 1
  rw [e]; push_cast; ring

/-- **C243**: at a limit the goal is mirrored: if it changes at some rate within the limits, it has no gradient there. -/
theorem C243_kink {n : ℕ} (f : PMap → ℝ) (s : PMap) (x : Fin n → ℝ) (i : Fin n) (h : AtLimit (x i)) (a : ℝ) (ha : a ≠ 0)
    (hd : HasDerivWithinAt (fun t => goalAt f s (Function.update x i (x i + t))) a (Set.Ici 0) 0) :
    ¬ DifferentiableAt ℝ (goalAt f s) x := by
  intro hdf
  have hl : HasDerivAt (fun t : ℝ => Function.update x i (x i + t)) (Pi.single i 1) 0 := by
    refine hasDerivAt_pi.2 ?_
    intro j
    by_cases hj : j = i
    · subst hj
      simpa using (hasDerivAt_id (0 : ℝ)).const_add (x j)
    · simpa [hj] using hasDerivAt_const (0 : ℝ) (x j)
  have h0 : Function.update x i (x i + 0) = x := by simp
  have hg : HasDerivAt (fun t => goalAt f s (Function.update x i (x i + t))) (fderiv ℝ (goalAt f s) x (Pi.single i 1)) 0 := by
    have h1 : HasFDerivAt (goalAt f s) (fderiv ℝ (goalAt f s) x) (Function.update x i (x i + 0)) := by
      rw [h0]; exact hdf.hasFDerivAt
    exact h1.comp_hasDerivAt (0 : ℝ) hl
  have e1 : fderiv ℝ (goalAt f s) x (Pi.single i 1) = a :=
    (uniqueDiffOn_Ici (0 : ℝ) 0 (by simp)).eq_deriv _ hg.hasDerivWithinAt hd
  rw [e1] at hg
  have hm : (fun t => goalAt f s (Function.update x i (x i + t))) = fun t => goalAt f s (Function.update x i (x i + -t)) := by
    funext t
    rw [goalAt_fold, goalAt_fold f s (Function.update x i (x i + -t))]
    congr 1
    ext j
    by_cases hj : j = i
    · subst hj
      simp only [fold, Function.update_self]
      rw [fold_mirror _ h t, sub_eq_add_neg]
    · simp [fold, hj]
  have hneg : HasDerivAt (fun t => goalAt f s (Function.update x i (x i + -t))) (-a) 0 := by
    have h1 : HasDerivAt (fun t => goalAt f s (Function.update x i (x i + t))) a (-(0 : ℝ)) := by simpa using hg
    have := h1.comp (0 : ℝ) (hasDerivAt_neg (0 : ℝ))
    simpa [Function.comp_def] using this
  rw [← hm] at hneg
  have := hg.unique hneg
  exact ha (by linarith)

/-! ### Example: one control with the limits 0 and 2 -/

/-- The value of the control. -/
def readA (t : PMap) : ℝ := ((t.read "a").getD [0]).headD 0

theorem readA_goal (v : ℝ) (h1 : -1 ≤ v) (h2 : v ≤ 1) : goalAt readA (exN 1 1) ![v] = v + 1 := by
  have h : (exN 1 1).setParametersScaled (List.ofFn ![v]) = (exAt 1 (v + 1) (exN 1 1).heap, none) := by
    rw [show List.ofFn ![v] = [v] by simp]
    exact exAt_scaled 1 1 v (v + 1) _ h1 h2 (by ring)
  unfold goalAt
  rw [h]
  simp [readA, exAt_read_a]

/-- **C243 is false** at a limit: the goal, the value of a control that starts at its upper limit, falls at rate one towards the
inside, every other point is better, and the gradient the algorithm gets is 1e-10: that of a point where nothing changes. The
goal has no gradient at this point. -/
theorem C243_false_limit :
    AtLimit 1 ∧ (∀ v, -1 ≤ v → v ≤ 1 → goalAt readA (exN 1 1) ![v] = v + 1) ∧
      (∀ v : ℝ, ¬ (∃ k : ℤ, v = 1 + 4 * k) → goalAt readA (exN 1 1) ![v] < goalAt readA (exN 1 1) ![1]) ∧
      (∀ d, clean [tapeEntry d 1] = [1e-10]) ∧ ¬ DifferentiableAt ℝ (goalAt (n := 1) readA (exN 1 1)) ![1] := by
  have hl : AtLimit 1 := Or.inr (foldOpt_of_mem (by norm_num) le_rfl)
  refine ⟨hl, readA_goal, ?_, fun d => by simp [clean, C243_limit d 1 hl], ?_⟩
  · intro v hv
    have e : fold ![v] = ![foldOpt v] := by ext i; fin_cases i; rfl
    obtain ⟨a, b⟩ := foldOpt_mem v
    rw [goalAt_fold, e, readA_goal _ a b, readA_goal 1 (by norm_num) le_rfl]
    have : foldOpt v ≠ 1 := by
      intro h1
      obtain ⟨k, h | h⟩ := fold_cases v <;> rw [h1] at h <;> exact hv ⟨k, by linarith⟩
    have := lt_of_le_of_ne b this
    linarith
  · refine C243_kink readA (exN 1 1) ![1] 0 (by simpa using hl) (-1) (by norm_num) ?_
    have hd : HasDerivWithinAt (fun t : ℝ => 2 - t) (-1) (Set.Ici 0) 0 := ((hasDerivAt_id (0 : ℝ)).const_sub 2).hasDerivWithinAt
    refine hd.congr_of_eventuallyEq ?_ ?_
    · have : ∀ᶠ t in 𝓝[Set.Ici (0 : ℝ)] 0, t < 2 := nhdsWithin_le_nhds (Iio_mem_nhds (by norm_num))
      filter_upwards [this, self_mem_nhdsWithin] with t ht ht0
      have ht0 : (0 : ℝ) ≤ t := ht0
      have e : fold (Function.update ![(1 : ℝ)] 0 (![1] 0 + t)) = ![1 - t] := by
        ext i; fin_cases i
        have := fold_odd (1 - t) 0 (by linarith) (by linarith)
        simp only [fold, Fin.zero_eta, Function.update_self]
        rw [show (![(1 : ℝ)] 0 + t) = 2 - (1 - t) + 4 * ((0 : ℤ) : ℝ) by simp; ring, this]
        rfl
      rw [goalAt_fold, e, readA_goal _ (by linarith) (by linarith)]
      ring
    · have e : Function.update ![(1 : ℝ)] 0 (![1] 0 + 0) = ![1] := by simp
      rw [e, readA_goal 1 (by norm_num) le_rfl]
      norm_num

/-- Inside the limits the gradient is right: here the value changes by one per unit, and beyond a limit by minus one. -/
example : HasDerivAt (fun w => (exR [0]).getOtherValue (foldOpt w)) (-1) (3 / 2) := by
  have hf : foldOpt (3 / 2) = 1 / 2 := foldOpt_three_halves
  have h : ¬ AtLimit (3 / 2) := by unfold AtLimit; rw [hf]; norm_num
  have hs : slope (3 / 2) = -1 := by
    have := slope_odd (1 / 2) 0 (by norm_num) (by norm_num)
    rw [← this]; norm_num
  have := C243_value (exR [0]) (3 / 2) h
  rw [hs] at this
  refine this.congr_deriv ?_
  simp [exR, getLimits]

/-- The minimum of the example is the lower limit: a local minimum of the folded goal where it has a kink. -/
example : IsLocalMin (goalAt (n := 1) readA (exN 1 1)) ![-1] := by
  rw [C243_local]
  filter_upwards [self_mem_nhdsWithin] with y hy
  have e : fold ![(-1 : ℝ)] = ![-1] := fold_of_mem fun i => by fin_cases i; norm_num
  have ey : y = ![y 0] := by ext i; fin_cases i; rfl
  rw [e, readA_goal _ le_rfl (by norm_num), ey, readA_goal _ (hy 0).1 (hy 0).2]
  linarith [(hy 0).1]

end C3.Optim.Folded
