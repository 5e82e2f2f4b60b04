import Verif.Propagation.Lindblad
import Verif.Propagation.Unitary
import Verif.Devices.Grid
import Mathlib.Analysis.CStarAlgebra.Matrix
import Mathlib.Analysis.Calculus.MeanValue
import Mathlib.Analysis.SpecialFunctions.Exponential
import Mathlib.Analysis.Calculus.Deriv.Mul
import Mathlib.Analysis.Calculus.Deriv.Pow
import Mathlib.Analysis.ODE.Gronwall
import Mathlib.Analysis.SpecialFunctions.Trigonometric.Bounds

/-!
# C202: a finer resolution converges to the Schrödinger and to the master equation

For a drift and drive Hamiltonians with control signals that are functions of time, what `pwc`
(c3/libraries/propagation.py:259-341) returns for `N` samples taken by `create_ts`
(c3/generator/devices.py:87-122) is compared with the solution of the differential equation.

The models of `pwc` and `create_ts` are those of C19-C25 and C49. Simplified: the signal is taken to be the function of
time itself, as in a chain without sampling and filtering devices; floats are exact.
-/

namespace C3.Propagation.Converge

open NormedSpace Set

section Banach

variable {𝔸 : Type*} [NormedRing 𝔸] [NormedAlgebra ℝ 𝔸] [CompleteSpace 𝔸]

theorem exp_smul_mul_neg (B : 𝔸) (s : ℝ) : exp (s • B) * exp ((-s) • B) = 1 := by
  have hc : Commute (s • B) ((-s) • B) := (Commute.refl B).smul_left s |>.smul_right (-s)
  let _ : NormedAlgebra ℚ 𝔸 := NormedAlgebra.restrictScalars ℚ ℝ 𝔸
  rw [← exp_add_of_commute hc, ← add_smul]
  simp

/-- The solution seen from a constant generator: its derivative. -/
theorem hasDeriv_frame (A U : ℝ → 𝔸) (B : 𝔸) (a t : ℝ) (S : Set ℝ) (hU : HasDerivWithinAt U (A t * U t) S t) :
    HasDerivWithinAt (fun t => exp ((-(t - a)) • B) * U t) (exp ((-(t - a)) • B) * (A t - B) * U t) S t := by
  have h1 : HasDerivAt (fun u : ℝ => exp (u • B)) (exp ((-(t - a)) • B) * B) (-(t - a)) :=
    hasDerivAt_exp_smul_const B _
  have h2 : HasDerivAt (fun t : ℝ => -(t - a)) (-1) t := ((hasDerivAt_id t).sub_const a).neg
  have h3 := (h1.scomp t h2).hasDerivWithinAt (s := S)
  have h4 := h3.mul hU
  have e : exp ((-(t - a)) • B) * (A t - B) * U t =
      ((-1 : ℝ) • (exp ((-(t - a)) • B) * B)) * U t + exp ((-(t - a)) • B) * (A t * U t) := by
    rw [neg_one_smul, mul_sub, sub_mul, neg_mul, mul_assoc, mul_assoc]
    abel
  rw [e]
  exact h4

theorem hasDeriv_exp (B : 𝔸) (a t : ℝ) (S : Set ℝ) :
    HasDerivWithinAt (fun t => exp ((-(t - a)) • B)) (-(exp ((-(t - a)) • B) * B)) S t := by
  have h := hasDeriv_frame (fun _ => (0 : 𝔸)) (fun _ => (1 : 𝔸)) B a t S
    (by simpa using hasDerivWithinAt_const t S (1 : 𝔸))
  simpa using h

/-- From the frame back to the solution. -/
theorem frame_back (U : ℝ → 𝔸) (B : 𝔸) (a b q e : ℝ) (hq : ‖exp ((b - a) • B)‖ ≤ q)
    (h : ‖exp ((-(b - a)) • B) * U b - exp ((-(a - a)) • B) * U a‖ ≤ e) :
    ‖U b - exp ((b - a) • B) * U a‖ ≤ q * e := by
  have e1 : U b - exp ((b - a) • B) * U a =
      exp ((b - a) • B) * (exp ((-(b - a)) • B) * U b - exp ((-(a - a)) • B) * U a) := by
    rw [mul_sub, ← mul_assoc, exp_smul_mul_neg]
    simp
  rw [e1]
  exact (norm_mul_le _ _).trans (mul_le_mul hq h (norm_nonneg _) ((norm_nonneg _).trans hq))

/-- One slice: replacing the generator by a constant within `δ` of it. -/
theorem slice_first (A U : ℝ → 𝔸) (B : 𝔸) (a b δ q K : ℝ) (hab : a ≤ b)
    (hU : ∀ t ∈ Icc a b, HasDerivWithinAt U (A t * U t) (Icc a b) t)
    (hA : ∀ t ∈ Icc a b, ‖A t - B‖ ≤ δ)
    (hq : ∀ t, |t| ≤ b - a → ‖exp (t • B)‖ ≤ q) (hK : ∀ t ∈ Icc a b, ‖U t‖ ≤ K) :
    ‖U b - exp ((b - a) • B) * U a‖ ≤ q * (q * δ * K * (b - a)) := by
  have hba : 0 ≤ b - a := by linarith
  refine frame_back U B a b q _ (hq _ (by rw [abs_of_nonneg hba])) ?_
  refine norm_image_sub_le_of_norm_deriv_le_segment' (f := fun t => exp ((-(t - a)) • B) * U t)
    (fun t ht => hasDeriv_frame A U B a t _ (hU t ht)) ?_ b ⟨hab, le_rfl⟩
  intro t ht
  have ht' : t ∈ Icc a b := ⟨ht.1, ht.2.le⟩
  have hE : ‖exp ((-(t - a)) • B)‖ ≤ q := hq _ (by
    rw [abs_neg, abs_of_nonneg (by linarith [ht.1])]; linarith [ht.2])
  have hq0 : 0 ≤ q := (norm_nonneg _).trans hE
  have hd0 : 0 ≤ δ := (norm_nonneg _).trans (hA t ht')
  calc ‖exp ((-(t - a)) • B) * (A t - B) * U t‖
      ≤ ‖exp ((-(t - a)) • B)‖ * ‖A t - B‖ * ‖U t‖ := norm_mul₃_le
    _ ≤ q * δ * K := by
        gcongr
        · exact hA t ht'
        · exact hK t ht'

/-- One slice with the generator in the middle. -/
theorem slice_middle (A U : ℝ → 𝔸) (D : 𝔸) (a b L M d q K : ℝ) (hab : a ≤ b)
    (hU : ∀ t ∈ Icc a b, HasDerivWithinAt U (A t * U t) (Icc a b) t)
    (hA : ∀ t ∈ Icc a b, ‖A t - A ((a + b) / 2) - (t - (a + b) / 2) • D‖ ≤ L * (t - (a + b) / 2) ^ 2)
    (hM : ∀ t ∈ Icc a b, ‖A t‖ ≤ M) (hD : ‖D‖ ≤ d) (hL : 0 ≤ L)
    (hq : ∀ t, |t| ≤ b - a → ‖exp (t • A ((a + b) / 2))‖ ≤ q) (hK : ∀ t ∈ Icc a b, ‖U t‖ ≤ K) :
    ‖U b - exp ((b - a) • A ((a + b) / 2)) * U a‖ ≤
      q * ((q * (L * ((b - a) / 2) ^ 2) * K + (b - a) / 2 * (q * M * (b - a) * d * K + d * (M * K * (b - a)))) *
        (b - a)) := by
  have hba : 0 ≤ b - a := by linarith
  set s := (a + b) / 2 with hs
  have hsm : s ∈ Icc a b := ⟨by rw [hs]; linarith, by rw [hs]; linarith⟩
  set B := A s with hB
  refine frame_back U B a b q _ (hq _ (by rw [abs_of_nonneg hba])) ?_
  have hM0 : 0 ≤ M := (norm_nonneg _).trans (hM s hsm)
  have hd0 : 0 ≤ d := (norm_nonneg _).trans hD
  have hK0 : 0 ≤ K := (norm_nonneg _).trans (hK s hsm)
  have hE : ∀ t ∈ Icc a b, ‖exp ((-(t - a)) • B)‖ ≤ q := fun t ht => hq _ (by
    rw [abs_neg, abs_of_nonneg (by linarith [ht.1])]; linarith [ht.2])
  have hq0 : 0 ≤ q := (norm_nonneg _).trans (hE s hsm)
  have hE1 : ∀ t ∈ Icc a b, ‖exp ((-(t - a)) • B) - 1‖ ≤ q * M * (b - a) := by
    intro t ht
    have := norm_image_sub_le_of_norm_deriv_le_segment' (f := fun t => exp ((-(t - a)) • B)) (C := q * M)
      (fun t _ => hasDeriv_exp B a t (Icc a b)) (fun t ht => by
        rw [norm_neg]
        exact (norm_mul_le _ _).trans (mul_le_mul (hE t ⟨ht.1, ht.2.le⟩) (hM s hsm) (norm_nonneg _) hq0)) t ht
    simp only [sub_self, neg_zero, zero_smul, exp_zero] at this
    refine this.trans ?_
    have h1 : t - a ≤ b - a := by linarith [ht.2]
    exact mul_le_mul_of_nonneg_left h1 (by positivity)
  have hU1 : ∀ t ∈ Icc a b, ‖U t - U a‖ ≤ M * K * (b - a) := by
    intro t ht
    have := norm_image_sub_le_of_norm_deriv_le_segment' (f := U) (C := M * K) hU (fun t ht => by
        exact (norm_mul_le _ _).trans (mul_le_mul (hM t ⟨ht.1, ht.2.le⟩) (hK t ⟨ht.1, ht.2.le⟩) (norm_nonneg _) hM0)) t ht
    refine this.trans ?_
    have h1 : t - a ≤ b - a := by linarith [ht.2]
    exact mul_le_mul_of_nonneg_left h1 (by positivity)
  have hW : ∀ t ∈ Icc a b, HasDerivWithinAt
      (fun t => exp ((-(t - a)) • B) * U t - ((t - s) ^ 2 / 2) • (D * U a))
      (exp ((-(t - a)) • B) * (A t - B) * U t - (t - s) • (D * U a)) (Icc a b) t := by
    intro t ht
    have h1 : HasDerivAt (fun t : ℝ => (t - s) ^ 2 / 2) (t - s) t := by
      have := (((hasDerivAt_id t).sub_const s).pow 2).div_const 2
      have e : (((2 : ℕ) : ℝ) * (id t - s) ^ (2 - 1) * 1) / 2 = t - s := by simp
      rw [e] at this
      exact this
    exact (hasDeriv_frame A U B a t _ (hU t ht)).sub (h1.smul_const (D * U a)).hasDerivWithinAt
  have key := norm_image_sub_le_of_norm_deriv_le_segment' hW
    (C := q * (L * ((b - a) / 2) ^ 2) * K + (b - a) / 2 * (q * M * (b - a) * d * K + d * (M * K * (b - a)))) ?_ b
    ⟨hab, le_rfl⟩
  · have e : (b - s) ^ 2 = (a - s) ^ 2 := by rw [hs]; ring
    simp only [e] at key
    rwa [sub_sub_sub_cancel_right] at key
  · intro t ht
    have ht' : t ∈ Icc a b := ⟨ht.1, ht.2.le⟩
    have hts : |t - s| ≤ (b - a) / 2 := by
      rw [abs_le, hs]; constructor <;> linarith [ht.1, ht.2]
    have e : exp ((-(t - a)) • B) * (A t - B) * U t - (t - s) • (D * U a) =
        exp ((-(t - a)) • B) * (A t - B - (t - s) • D) * U t +
          (t - s) • ((exp ((-(t - a)) • B) - 1) * D * U t + D * (U t - U a)) := by
      rw [mul_sub _ (A t - B), sub_mul _ _ (U t), sub_mul _ (1 : 𝔸), one_mul, sub_mul _ D, mul_sub D, smul_add,
        smul_sub, smul_sub, mul_smul_comm, smul_mul_assoc]
      abel
    rw [e]
    refine (norm_add_le _ _).trans (add_le_add ?_ ?_)
    · refine norm_mul₃_le.trans ?_
      have h1 : ‖A t - B - (t - s) • D‖ ≤ L * ((b - a) / 2) ^ 2 := by
        refine (hA t ht').trans (mul_le_mul_of_nonneg_left ?_ hL)
        rw [← sq_abs (t - s)]
        gcongr
      gcongr
      · exact hE t ht'
      · exact hK t ht'
    · rw [norm_smul, Real.norm_eq_abs]
      refine mul_le_mul hts ?_ (norm_nonneg _) (by linarith)
      refine (norm_add_le _ _).trans (add_le_add ?_ ?_)
      · refine norm_mul₃_le.trans ?_
        gcongr
        · exact hE1 t ht'
        · exact hK t ht'
      · refine (norm_mul_le _ _).trans ?_
        gcongr
        exact hU1 t ht'

theorem timeOrdered_succ {M : Type*} [Monoid M] (f : ℕ → M) (N : ℕ) :
    Fold.timeOrdered ((List.range (N + 1)).map f) = f N * Fold.timeOrdered ((List.range N).map f) := by
  simp [Fold.timeOrdered, List.range_succ]

omit [NormedAlgebra ℝ 𝔸] [CompleteSpace 𝔸] in
/-- Errors of the slices add up. -/
theorem telescope (U : ℕ → 𝔸) (P : ℕ → 𝔸) (N : ℕ) (q e : ℝ) (hq1 : 1 ≤ q) (he : 0 ≤ e)
    (hP : ∀ k < N, ‖P k‖ ≤ q) (h : ∀ k < N, ‖U (k + 1) - P k * U k‖ ≤ e) :
    ‖U N - Fold.timeOrdered ((List.range N).map P) * U 0‖ ≤ N * (q ^ N * e) := by
  induction N with
  | zero => simp [Fold.timeOrdered]
  | succ N ih =>
    have ih' := ih (fun k hk => hP k (by omega)) (fun k hk => h k (by omega))
    rw [timeOrdered_succ]
    have e1 : U (N + 1) - P N * Fold.timeOrdered ((List.range N).map P) * U 0 =
        (U (N + 1) - P N * U N) + P N * (U N - Fold.timeOrdered ((List.range N).map P) * U 0) := by
      rw [mul_sub, mul_assoc]; abel
    rw [e1]
    refine (norm_add_le _ _).trans ?_
    have h1 := h N (by omega)
    have h2 : ‖P N * (U N - Fold.timeOrdered ((List.range N).map P) * U 0)‖ ≤ q * (N * (q ^ N * e)) :=
      (norm_mul_le _ _).trans (mul_le_mul (hP N (by omega)) ih' (norm_nonneg _) (by linarith))
    have h3 : e ≤ q ^ (N + 1) * e := le_mul_of_one_le_left he (one_le_pow₀ hq1)
    have h4 : q * (N * (q ^ N * e)) = N * (q ^ (N + 1) * e) := by ring
    push_cast
    nlinarith

/-- The slices of an interval. -/
theorem slice_mem (a h : ℝ) (hh : 0 ≤ h) (N k : ℕ) (hk : k < N) :
    Icc (a + k * h) (a + (k + 1 : ℕ) * h) ⊆ Icc a (a + N * h) := by
  intro t ht
  have h1 : (0 : ℝ) ≤ k * h := by positivity
  have h2 : ((k + 1 : ℕ) : ℝ) * h ≤ N * h := by
    apply mul_le_mul_of_nonneg_right _ hh
    exact_mod_cast hk
  exact ⟨by linarith [ht.1], by linarith [ht.2]⟩

/-- All slices, generator taken somewhere in each slice. -/
theorem global_first (A U : ℝ → 𝔸) (a h L q K : ℝ) (N : ℕ) (hh : 0 ≤ h) (s : ℕ → ℝ)
    (hs : ∀ k < N, s k ∈ Icc (a + k * h) (a + (k + 1 : ℕ) * h))
    (hU : ∀ t ∈ Icc a (a + N * h), HasDerivWithinAt U (A t * U t) (Icc a (a + N * h)) t)
    (hA : ∀ t ∈ Icc a (a + N * h), ∀ s ∈ Icc a (a + N * h), ‖A t - A s‖ ≤ L * |t - s|) (hL : 0 ≤ L)
    (hq1 : 1 ≤ q) (hq : ∀ s ∈ Icc a (a + N * h), ∀ t, |t| ≤ h → ‖exp (t • A s)‖ ≤ q) (hK0 : 0 ≤ K)
    (hK : ∀ t ∈ Icc a (a + N * h), ‖U t‖ ≤ K) :
    ‖U (a + N * h) - Fold.timeOrdered ((List.range N).map fun k => exp (h • A (s k))) * U a‖ ≤
      N * (q ^ N * (q * (q * (L * h) * K * h))) := by
  have hq0 : 0 ≤ q := by linarith
  have hw : ∀ k : ℕ, (a + (k + 1 : ℕ) * h) - (a + k * h) = h := fun k => by push_cast; ring
  have hle : ∀ k : ℕ, a + k * h ≤ a + (k + 1 : ℕ) * h := fun k => by linarith [hw k]
  have key := telescope (fun k : ℕ => U (a + k * h)) (fun k => exp (h • A (s k))) N q
    (q * (q * (L * h) * K * h)) hq1 (by positivity)
    (fun k hk => hq _ (slice_mem a h hh N k hk (hs k hk)) h (by rw [abs_of_nonneg hh])) ?_
  · simpa using key
  · intro k hk
    have hsub := slice_mem a h hh N k hk
    have := slice_first A U (A (s k)) (a + k * h) (a + (k + 1 : ℕ) * h) (L * h) q K (hle k)
      (fun t ht => (hU t (hsub ht)).mono hsub)
      (fun t ht => (hA t (hsub ht) _ (hsub (hs k hk))).trans (by
        apply mul_le_mul_of_nonneg_left _ hL
        have h1 := hs k hk
        have h2 := hw k
        rw [abs_le]
        constructor <;> linarith [ht.1, ht.2, h1.1, h1.2]))
      (fun t ht => hq _ (hsub (hs k hk)) t (by rwa [hw k] at ht)) (fun t ht => hK t (hsub ht))
    simpa only [hw k] using this

/-- All slices, generator taken in the middle of each slice. -/
theorem global_middle (A U D : ℝ → 𝔸) (a h L M d q K : ℝ) (N : ℕ) (hh : 0 ≤ h)
    (hU : ∀ t ∈ Icc a (a + N * h), HasDerivWithinAt U (A t * U t) (Icc a (a + N * h)) t)
    (hA : ∀ s ∈ Icc a (a + N * h), ∀ t ∈ Icc a (a + N * h), ‖A t - A s - (t - s) • D s‖ ≤ L * (t - s) ^ 2)
    (hM : ∀ t ∈ Icc a (a + N * h), ‖A t‖ ≤ M) (hD : ∀ t ∈ Icc a (a + N * h), ‖D t‖ ≤ d) (hL : 0 ≤ L)
    (hM0 : 0 ≤ M) (hd0 : 0 ≤ d)
    (hq1 : 1 ≤ q) (hq : ∀ s ∈ Icc a (a + N * h), ∀ t, |t| ≤ h → ‖exp (t • A s)‖ ≤ q) (hK0 : 0 ≤ K)
    (hK : ∀ t ∈ Icc a (a + N * h), ‖U t‖ ≤ K) :
    ‖U (a + N * h) - Fold.timeOrdered ((List.range N).map fun k : ℕ => exp (h • A (a + (k + 1 / 2) * h))) * U a‖ ≤
      N * (q ^ N * (q * ((q * (L * (h / 2) ^ 2) * K + h / 2 * (q * M * h * d * K + d * (M * K * h))) * h))) := by
  have hq0 : 0 ≤ q := by linarith
  have hw : ∀ k : ℕ, (a + (k + 1 : ℕ) * h) - (a + k * h) = h := fun k => by push_cast; ring
  have hm : ∀ k : ℕ, ((a + k * h) + (a + (k + 1 : ℕ) * h)) / 2 = a + (k + 1 / 2) * h := fun k => by push_cast; ring
  have hle : ∀ k : ℕ, a + k * h ≤ a + (k + 1 : ℕ) * h := fun k => by linarith [hw k]
  have hmm : ∀ k : ℕ, a + (k + 1 / 2) * h ∈ Icc (a + k * h) (a + (k + 1 : ℕ) * h) := fun k => by
    have h1 := hle k
    rw [← hm]
    constructor <;> linarith
  have key := telescope (fun k : ℕ => U (a + k * h)) (fun k : ℕ => exp (h • A (a + (k + 1 / 2) * h))) N q
    (q * ((q * (L * (h / 2) ^ 2) * K + h / 2 * (q * M * h * d * K + d * (M * K * h))) * h)) hq1 (by positivity)
    (fun k hk => hq _ (slice_mem a h hh N k hk (hmm k)) h (by rw [abs_of_nonneg hh])) ?_
  · simpa using key
  · intro k hk
    have hsub := slice_mem a h hh N k hk
    have := slice_middle A U (D (a + (k + 1 / 2) * h)) (a + k * h) (a + (k + 1 : ℕ) * h) L M d q K (hle k)
      (fun t ht => (hU t (hsub ht)).mono hsub)
      (fun t ht => by
        rw [hm]
        exact hA _ (hsub (hmm k)) _ (hsub ht))
      (fun t ht => hM t (hsub ht)) (hD _ (hsub (hmm k))) hL
      (fun t ht => by
        rw [hm]
        exact hq _ (hsub (hmm k)) t (by rwa [hw k] at ht)) (fun t ht => hK t (hsub ht))
    simpa only [hw k, hm k] using this

omit [CompleteSpace 𝔸] in
/-- Growth of a solution. -/
theorem growth (A U : ℝ → 𝔸) (a b M : ℝ) (hU : ∀ t ∈ Icc a b, HasDerivWithinAt U (A t * U t) (Icc a b) t)
    (hM : ∀ t ∈ Icc a b, ‖A t‖ ≤ M) : ∀ t ∈ Icc a b, ‖U t‖ ≤ ‖U a‖ * Real.exp (M * (t - a)) := by
  intro t ht
  have := norm_le_gronwallBound_of_norm_deriv_right_le (f := U) (f' := fun t => A t * U t) (δ := ‖U a‖) (K := M)
    (ε := 0) (a := a) (b := b) (fun t ht => (hU t ht).continuousWithinAt)
    (fun t ht => (hU t ⟨ht.1, ht.2.le⟩).mono_of_mem_nhdsWithin (Icc_mem_nhdsGE_of_mem ht)) le_rfl
    (fun t ht => by
      rw [add_zero]
      exact (norm_mul_le _ _).trans (mul_le_mul_of_nonneg_right (hM t ⟨ht.1, ht.2.le⟩) (norm_nonneg _))) t ht
  rwa [gronwallBound_ε0] at this

theorem norm_exp_smul_le (B : 𝔸) (M t : ℝ) (hB : ‖B‖ ≤ M) (h1 : ‖(1 : 𝔸)‖ ≤ 1) :
    ‖exp (t • B)‖ ≤ Real.exp (M * |t|) := by
  have pos : ∀ (C : 𝔸), ‖C‖ ≤ M → ∀ u : ℝ, 0 ≤ u → ‖exp (u • C)‖ ≤ Real.exp (M * u) := by
    intro C hC u hu
    have := growth (fun _ => C) (fun u => exp (u • C)) 0 u M
      (fun t _ => (hasDerivAt_exp_smul_const' C t).hasDerivWithinAt) (fun _ _ => hC) u ⟨hu, le_rfl⟩
    simp only [zero_smul, exp_zero, sub_zero] at this
    refine this.trans ?_
    exact mul_le_of_le_one_left (Real.exp_pos _).le h1
  rcases le_total 0 t with h | h
  · rw [abs_of_nonneg h]; exact pos B hB t h
  · rw [abs_of_nonpos h]
    have := pos (-B) (by rwa [norm_neg]) (-t) (by linarith)
    rwa [smul_neg, neg_smul, neg_neg] at this

end Banach

/-! ## Smooth controls -/

section Smooth

variable {E F : Type*} [NormedAddCommGroup E] [NormedSpace ℝ E] [NormedAddCommGroup F] [NormedSpace ℝ F]

/-- Bounded, with a bounded derivative and a remainder of second order. -/
def Sm (a b : ℝ) (G : ℝ → E) : Prop :=
  ∃ (D : ℝ → E) (L M d : ℝ), 0 ≤ L ∧ 0 ≤ M ∧ 0 ≤ d ∧ (∀ s ∈ Icc a b, ‖G s‖ ≤ M) ∧ (∀ s ∈ Icc a b, ‖D s‖ ≤ d) ∧
    ∀ s ∈ Icc a b, ∀ t ∈ Icc a b, ‖G t - G s - (t - s) • D s‖ ≤ L * (t - s) ^ 2

theorem Sm.const (a b : ℝ) (x : E) : Sm a b fun _ => x :=
  ⟨fun _ => 0, 0, ‖x‖, 0, le_rfl, norm_nonneg _, le_rfl, fun _ _ => le_rfl, fun _ _ => by simp, fun _ _ _ _ => by simp⟩

theorem Sm.add {a b : ℝ} {G H : ℝ → E} (hG : Sm a b G) (hH : Sm a b H) : Sm a b fun t => G t + H t := by
  obtain ⟨D, L, M, d, h1, h2, h3, h4, h5, h6⟩ := hG
  obtain ⟨D', L', M', d', h1', h2', h3', h4', h5', h6'⟩ := hH
  refine ⟨fun t => D t + D' t, L + L', M + M', d + d', by positivity, by positivity, by positivity,
    fun s hs => norm_add_le_of_le (h4 s hs) (h4' s hs), fun s hs => norm_add_le_of_le (h5 s hs) (h5' s hs),
    fun s hs t ht => ?_⟩
  have e : G t + H t - (G s + H s) - (t - s) • (D s + D' s) =
      (G t - G s - (t - s) • D s) + (H t - H s - (t - s) • D' s) := by rw [smul_add]; abel
  rw [e, add_mul]
  exact norm_add_le_of_le (h6 s hs t ht) (h6' s hs t ht)

theorem Sm.map {a b : ℝ} {G : ℝ → E} (hG : Sm a b G) (Λ : E →L[ℝ] F) : Sm a b fun t => Λ (G t) := by
  obtain ⟨D, L, M, d, h1, h2, h3, h4, h5, h6⟩ := hG
  refine ⟨fun t => Λ (D t), ‖Λ‖ * L, ‖Λ‖ * M, ‖Λ‖ * d, by positivity, by positivity, by positivity,
    fun s hs => Λ.le_opNorm_of_le (h4 s hs), fun s hs => Λ.le_opNorm_of_le (h5 s hs), fun s hs t ht => ?_⟩
  rw [← map_sub, ← map_smul, ← map_sub, mul_assoc]
  exact Λ.le_opNorm_of_le (h6 s hs t ht)

/-- A real function with a Lipschitz derivative. -/
theorem Sm.of_deriv {a b : ℝ} (f f' : ℝ → ℝ) (L : ℝ)
    (hf : ∀ t ∈ Icc a b, HasDerivWithinAt f (f' t) (Icc a b) t)
    (hL : ∀ s ∈ Icc a b, ∀ t ∈ Icc a b, |f' s - f' t| ≤ L * |s - t|) : Sm a b f := by
  by_cases hab : a ≤ b
  · have ha : a ∈ Icc a b := ⟨le_rfl, hab⟩
    have hb : ∀ s ∈ Icc a b, |s - a| ≤ b - a := fun s hs => by
      rw [abs_of_nonneg (by linarith [hs.1])]; linarith [hs.2]
    have hd : ∀ s ∈ Icc a b, ‖f' s‖ ≤ |f' a| + |L| * (b - a) := by
      intro s hs
      have h1 := hL s hs a ha
      have h2 : L * |s - a| ≤ |L| * (b - a) :=
        mul_le_mul (le_abs_self L) (hb s hs) (abs_nonneg _) (abs_nonneg _)
      have h3 := abs_sub_abs_le_abs_sub (f' s) (f' a)
      rw [Real.norm_eq_abs]
      linarith
    have hba : 0 ≤ b - a := by linarith
    refine ⟨f', |L|, |f a| + (|f' a| + |L| * (b - a)) * (b - a), |f' a| + |L| * (b - a), abs_nonneg _,
      by positivity, by positivity, fun s hs => ?_, hd, fun s hs t ht => ?_⟩
    · have h1 := (convex_Icc a b).norm_image_sub_le_of_norm_hasDerivWithin_le hf hd ha hs
      have h2 : (|f' a| + |L| * (b - a)) * ‖s - a‖ ≤ (|f' a| + |L| * (b - a)) * (b - a) :=
        mul_le_mul_of_nonneg_left (hb s hs) (by positivity)
      have h3 := abs_sub_abs_le_abs_sub (f s) (f a)
      rw [Real.norm_eq_abs] at h1 ⊢
      linarith
    · have hsub : uIcc s t ⊆ Icc a b := fun u hu => ordConnected_Icc.uIcc_subset hs ht hu
      have h1 : ∀ u ∈ uIcc s t, HasDerivWithinAt (fun u => f u - (u - s) * f' s) (f' u - f' s) (uIcc s t) u := by
        intro u hu
        have h2 : HasDerivAt (fun u : ℝ => (u - s) * f' s) (f' s) u := by
          simpa using ((hasDerivAt_id u).sub_const s).mul_const (f' s)
        exact ((hf u (hsub hu)).mono hsub).sub h2.hasDerivWithinAt
      have h3 := (convex_uIcc s t).norm_image_sub_le_of_norm_hasDerivWithin_le h1 (C := |L| * |t - s|)
        (fun u hu => by
          rw [Real.norm_eq_abs]
          refine (hL u (hsub hu) s hs).trans (mul_le_mul (le_abs_self L) ?_ (abs_nonneg _) (abs_nonneg _))
          exact abs_sub_left_of_mem_uIcc hu)
        left_mem_uIcc right_mem_uIcc
      have e : f t - f s - (t - s) • f' s = (f t - (t - s) * f' s) - (f s - (s - s) * f' s) := by
        simp only [smul_eq_mul, sub_self, zero_mul, sub_zero]; ring
      rw [e]
      refine h3.trans (le_of_eq ?_)
      rw [Real.norm_eq_abs, mul_assoc, ← sq, sq_abs]
  · have : Icc a b = ∅ := Icc_eq_empty hab
    exact ⟨0, 0, 0, 0, le_rfl, le_rfl, le_rfl, by simp [this], by simp [this], by simp [this]⟩

theorem Sm.smul_const {a b : ℝ} {f : ℝ → ℝ} (hf : Sm a b f) (x : E) : Sm a b fun t => f t • x :=
  hf.map (ContinuousLinearMap.smulRight (ContinuousLinearMap.id ℝ ℝ) x)

theorem Sm.sum {a b : ℝ} {ι : Type*} (l : List ι) (G : ι → ℝ → E) (h : ∀ i ∈ l, Sm a b (G i)) :
    Sm a b fun t => (l.map fun i => G i t).sum := by
  induction l with
  | nil => simpa using Sm.const a b (0 : E)
  | cons i l ih =>
    simp only [List.map_cons, List.sum_cons]
    exact (h i (by simp)).add (ih fun j hj => h j (by simp [hj]))

end Smooth


/-! ## Matrices -/

section Matrices

open Matrix
open scoped Matrix.Norms.L2Operator

variable {m : Type*} [Fintype m] [DecidableEq m]

theorem hasDeriv_of_entries (U : ℝ → Matrix m m ℂ) (U' : Matrix m m ℂ) (S : Set ℝ) (t : ℝ)
    (h : ∀ i j, HasDerivWithinAt (fun t => U t i j) (U' i j) S t) : HasDerivWithinAt U U' S t := by
  have e : ∀ M : Matrix m m ℂ, M = ∑ i, ∑ j, M i j • single i j (1 : ℂ) := by
    intro M
    conv_lhs => rw [matrix_eq_sum_single M]
    simp [smul_single]
  have hs : HasDerivWithinAt (fun t => ∑ i, ∑ j, U t i j • single i j (1 : ℂ))
      (∑ i, ∑ j, U' i j • single i j (1 : ℂ)) S t :=
    HasDerivWithinAt.fun_sum fun i _ => HasDerivWithinAt.fun_sum fun j _ => (h i j).smul_const _
  rw [← e U'] at hs
  convert hs using 1
  funext t
  exact e (U t)

theorem entry_le (M : Matrix m m ℂ) (i j : m) : ‖M i j‖ ≤ ‖M‖ := by
  have h1 := Matrix.l2_opNorm_mulVec M (EuclideanSpace.single j (1 : ℂ))
  have hn : ‖EuclideanSpace.single j (1 : ℂ)‖ = 1 := by simp
  rw [hn, mul_one] at h1
  refine le_trans ?_ h1
  have h2 := PiLp.norm_apply_le ((EuclideanSpace.equiv m ℂ).symm (M *ᵥ (EuclideanSpace.single j (1 : ℂ)).ofLp)) i
  refine le_trans (le_of_eq ?_) h2
  simp [mulVec_single]

theorem norm_one_le : ‖(1 : Matrix m m ℂ)‖ ≤ 1 := by
  rcases subsingleton_or_nontrivial (Matrix m m ℂ) with h | h
  · rw [Subsingleton.elim (1 : Matrix m m ℂ) 0, norm_zero]; exact zero_le_one
  · exact le_of_eq CStarRing.norm_one

/-- Convergence of the products of exponentials. -/
theorem products (A : ℝ → Matrix m m ℂ) (a T : ℝ) (hT : 0 ≤ T) (hA : Sm a (a + T) A) (U : ℝ → Matrix m m ℂ)
    (hU : ∀ t ∈ Icc a (a + T), ∀ i j, HasDerivWithinAt (fun t => U t i j) ((A t * U t) i j) (Icc a (a + T)) t) :
    ∃ C : ℝ, ∀ N : ℕ, 1 ≤ N → ∀ i j,
      ‖(Fold.timeOrdered ((List.range N).map fun k : ℕ =>
        exp (((T / N : ℝ) : ℂ) • A (a + (k + 1 / 2) * (T / N)))) * U a) i j - U (a + T) i j‖ ≤ C / N ^ 2 := by
  obtain ⟨D, L, M, d, hL, hM, hd, h1, h2, h3⟩ := hA
  set Q := Real.exp (M * T) with hQ
  set K := ‖U a‖ * Q with hK
  have hU' : ∀ t ∈ Icc a (a + T), HasDerivWithinAt U (A t * U t) (Icc a (a + T)) t :=
    fun t ht => hasDeriv_of_entries U _ _ t (hU t ht)
  refine ⟨T * (Q * (Q * ((Q * (L / 4) * K + 1 / 2 * (Q * M * d * K + d * (M * K))) * T ^ 2))), fun N hN i j => ?_⟩
  have hN' : (0 : ℝ) < N := by exact_mod_cast hN
  have hTN : (N : ℝ) * (T / N) = T := by field_simp
  set q := Real.exp (M * (T / N)) with hq
  have hqN : q ^ N = Q := by
    rw [hq, hQ, ← Real.exp_nat_mul]
    congr 1
    field_simp
  have hq1 : 1 ≤ q := Real.one_le_exp (by positivity)
  have hqQ : q ≤ Q := by
    rw [← hqN]
    exact le_self_pow₀ hq1 (by omega)
  have hT1 : T / N ≤ T := div_le_self hT (by exact_mod_cast hN)
  have key := global_middle A U D a (T / N) L M d q K N (by positivity)
    (by rw [hTN]; exact hU') (by rw [hTN]; exact h3) (by rw [hTN]; exact h1) (by rw [hTN]; exact h2) hL hM hd hq1
    (by
      rw [hTN]
      intro s hs t ht
      refine (norm_exp_smul_le (A s) M t (h1 s hs) norm_one_le).trans ?_
      rw [hq]
      exact Real.exp_le_exp.2 (mul_le_mul_of_nonneg_left ht hM)) (by positivity)
    (by
      rw [hTN]
      intro t ht
      refine (growth A U a (a + T) M hU' h1 t ht).trans ?_
      rw [hK]
      refine mul_le_mul_of_nonneg_left ?_ (norm_nonneg _)
      rw [hQ]
      exact Real.exp_le_exp.2 (mul_le_mul_of_nonneg_left (by linarith [ht.2]) hM))
  rw [hTN, hqN] at key
  have hb : (N : ℝ) * (Q * (q * ((q * (L * (T / N / 2) ^ 2) * K + T / N / 2 *
      (q * M * (T / N) * d * K + d * (M * K * (T / N)))) * (T / N)))) ≤
      T * (Q * (Q * ((Q * (L / 4) * K + 1 / 2 * (Q * M * d * K + d * (M * K))) * T ^ 2))) / N ^ 2 := by
    have hK0 : 0 ≤ K := by positivity
    have e : T * (Q * (Q * ((Q * (L / 4) * K + 1 / 2 * (Q * M * d * K + d * (M * K))) * T ^ 2))) / N ^ 2 =
        (N : ℝ) * (Q * (Q * ((Q * (L * (T / N / 2) ^ 2) * K + T / N / 2 *
      (Q * M * (T / N) * d * K + d * (M * K * (T / N)))) * (T / N)))) := by
      field_simp
      ring
    rw [e]
    gcongr
  refine le_trans ?_ (key.trans hb)
  rw [← norm_neg, neg_sub]
  exact entry_le (U (a + T) - _) i j


variable {n : Type*} [Fintype n] [DecidableEq n]

/-! ## Specification -/

/-- The Hamiltonian at time `t`: the drift and every drive Hamiltonian times its control signal. -/
noncomputable def drive (h0 : Matrix n n ℂ) (hks : List (Matrix n n ℂ)) (fs : List (ℝ → ℝ)) (t : ℝ) : Matrix n n ℂ :=
  h0 + ((fs.zip hks).map fun p => (p.1 t : ℂ) • p.2).sum

/-- A signal with a Lipschitz continuous derivative. -/
def SmoothOn (a b : ℝ) (f : ℝ → ℝ) : Prop :=
  ∃ (f' : ℝ → ℝ) (L : ℝ), (∀ t ∈ Icc a b, HasDerivWithinAt f (f' t) (Icc a b) t) ∧
    ∀ s ∈ Icc a b, ∀ t ∈ Icc a b, |f' s - f' t| ≤ L * |s - t|

/-- `U` is the evolution operator from time `a`: it solves the Schrödinger equation. -/
def Schrodinger (H : ℝ → Matrix n n ℂ) (a b : ℝ) (U : ℝ → Matrix n n ℂ) : Prop :=
  U a = 1 ∧ ∀ t ∈ Icc a b, ∀ i j,
    HasDerivWithinAt (fun t => U t i j) (((-Complex.I) • (H t * U t)) i j) (Icc a b) t

/-- `rho` solves the Lindblad master equation. -/
def Master (H : ℝ → Matrix n n ℂ) (cols : List (Matrix n n ℂ)) (a b : ℝ) (rho : ℝ → Matrix n n ℂ) : Prop :=
  ∀ t ∈ Icc a b, ∀ i j, HasDerivWithinAt (fun t => rho t i j) (masterRHS (H t) cols (rho t) i j) (Icc a b) t

/-! ## C202 -/

theorem hamAt_drive (h0 : Matrix n n ℂ) (hks : List (Matrix n n ℂ)) (fs : List (ℝ → ℝ)) (t : ℝ) :
    hamAt h0 ((fs.map fun f => f t).zip hks) = drive h0 hks fs t := by
  rw [hamAt_eq_sum, drive, List.zip_map_left, List.map_map]
  rfl

theorem Sm_drive (h0 : Matrix n n ℂ) (hks : List (Matrix n n ℂ)) (fs : List (ℝ → ℝ)) (a b : ℝ)
    (hf : ∀ f ∈ fs, SmoothOn a b f) : Sm a b (drive h0 hks fs) := by
  unfold drive
  refine (Sm.const a b h0).add (Sm.sum (fs.zip hks) (fun p t => (p.1 t : ℂ) • p.2) fun p hp => ?_)
  obtain ⟨f', L, h1, h2⟩ := hf p.1 (List.of_mem_zip hp).1
  exact (Sm.of_deriv p.1 f' L h1 h2).smul_const p.2

theorem grid_samples (a T : ℝ) (hT : 0 < T) (N : ℕ) (hN : 1 ≤ N) :
    Devices.createTs (N / T) a (a + T) true = some ((List.range N).map fun k : ℕ => a + (k + 1 / 2) * (T / N)) := by
  have hN' : (0 : ℝ) < N := by exact_mod_cast hN
  have h := Devices.C49_centred (N / T) a (by positivity) N hN
  have e : (N : ℝ) / (N / T) = T := by field_simp
  rw [e, one_div_div] at h
  exact h

/-- **C202** (closed system): with smooth control signals the gate computed from `N` samples differs from the solution
of the Schrödinger equation by at most a constant over `N²`. -/
theorem C202_closed (h0 : Matrix n n ℂ) (hks : List (Matrix n n ℂ)) (fs : List (ℝ → ℝ)) (a T : ℝ) (hT : 0 < T)
    (hf : ∀ f ∈ fs, SmoothOn a (a + T) f) (U : ℝ → Matrix n n ℂ) (hU : Schrodinger (drive h0 hks fs) a (a + T) U) :
    ∃ C : ℝ, ∀ N : ℕ, 1 ≤ N → ∀ bs : ℕ, 1 ≤ bs →
      ∃ ts P, Devices.createTs (N / T) a (a + T) true = some ts ∧
        pwc h0 hks (T / N) (ts.map fun t => fs.map fun f => f t) bs (Fold.stackFor ts.length) = some P ∧
        ∀ i j, ‖P i j - U (a + T) i j‖ ≤ C / N ^ 2 := by
  have hA : Sm a (a + T) fun t => (-Complex.I) • drive h0 hks fs t :=
    (Sm_drive h0 hks fs a (a + T) hf).map
      (((-Complex.I) • ContinuousLinearMap.id ℂ (Matrix n n ℂ) : Matrix n n ℂ →L[ℂ] Matrix n n ℂ).restrictScalars ℝ)
  obtain ⟨C, hC⟩ := products (fun t => (-Complex.I) • drive h0 hks fs t) a T hT.le hA U (by
    intro t ht i j
    have := hU.2 t ht i j
    rwa [← smul_mul_assoc] at this)
  refine ⟨C, fun N hN bs hbs => ⟨_, Fold.timeOrdered ((List.range N).map fun k : ℕ =>
    exp (((T / N : ℝ) : ℂ) • (-Complex.I) • drive h0 hks fs (a + (k + 1 / 2) * (T / N)))),
    grid_samples a T hT N hN, ?_, ?_⟩⟩
  · have h := pwc_eq h0 hks (T / N) (((List.range N).map fun k : ℕ => a + (k + 1 / 2) * (T / N)).map
      fun t => fs.map fun f => f t) (by simp; omega) bs hbs
    rw [List.length_map] at h
    rw [h, List.map_map, List.map_map]
    simp only [Function.comp_def, dUOfT, hamAt_drive]
  · intro i j
    have := hC N hN i j
    rwa [hU.1, mul_one] at this

/-- **C202** (open system): likewise the superoperator computed from `N` samples takes every initial density matrix to
the solution of the master equation, up to a constant over `N²`. -/
theorem C202_open (h0 : Matrix n n ℂ) (hks cols : List (Matrix n n ℂ)) (fs : List (ℝ → ℝ)) (a T : ℝ) (hT : 0 < T)
    (hf : ∀ f ∈ fs, SmoothOn a (a + T) f) (rho : ℝ → Matrix n n ℂ)
    (hr : Master (drive h0 hks fs) cols a (a + T) rho) :
    ∃ C : ℝ, ∀ N : ℕ, 1 ≤ N → ∀ bs : ℕ, 1 ≤ bs →
      ∃ ts P, Devices.createTs (N / T) a (a + T) true = some ts ∧
        pwcLind h0 hks cols (T / N) (ts.map fun t => fs.map fun f => f t) bs (Fold.stackFor ts.length) = some P ∧
        ∀ i j, ‖(P *ᵥ rowVec (rho a)) (i, j) - rho (a + T) i j‖ ≤ C / N ^ 2 := by
  set Λ : Matrix n n ℂ →ₗ[ℂ] Matrix (n × n) (n × n) ℂ :=
    { toFun := fun h => (-Complex.I) • (spre h - spost h)
      map_add' := fun x y => by
        simp only [spre, spost, Matrix.add_kronecker, Matrix.transpose_add, Matrix.kronecker_add]
        module
      map_smul' := fun c x => by
        simp only [spre, spost, Matrix.smul_kronecker, Matrix.transpose_smul, Matrix.kronecker_smul, RingHom.id_apply]
        module } with hΛ
  have hlin : ∀ h, lindOp h cols = lindOp 0 cols + Λ h := by
    intro h
    rw [← lindOpVec_eq, ← lindOpVec_eq]
    simp only [lindOpVec, hΛ, LinearMap.coe_mk, AddHom.coe_mk, spre, spost, Matrix.zero_kronecker, Matrix.transpose_zero,
      Matrix.kronecker_zero]
    module
  have hA : Sm a (a + T) fun t => lindOp (drive h0 hks fs t) cols := by
    have h1 := (Sm.const a (a + T) (lindOp 0 cols : Matrix (n × n) (n × n) ℂ)).add
      ((Sm_drive h0 hks fs a (a + T) hf).map ((LinearMap.toContinuousLinearMap Λ).restrictScalars ℝ))
    refine (funext fun t => ?_ : (fun t => lindOp (drive h0 hks fs t) cols) = _) ▸ h1
    exact hlin _
  set V : ℝ → Matrix (n × n) (n × n) ℂ := fun t => Matrix.of fun p _ => rowVec (rho t) p with hV
  have hmul : ∀ (S : Matrix (n × n) (n × n) ℂ) t p q, (S * V t) p q = (S *ᵥ rowVec (rho t)) p := fun S t p q => rfl
  obtain ⟨C, hC⟩ := products (fun t => lindOp (drive h0 hks fs t) cols) a T hT.le hA V (by
    intro t ht p q
    rw [hmul, lindOp_mulVec]
    exact hr t ht p.1 p.2)
  refine ⟨C, fun N hN bs hbs => ⟨_, Fold.timeOrdered ((List.range N).map fun k : ℕ =>
    exp (((T / N : ℝ) : ℂ) • lindOp (drive h0 hks fs (a + (k + 1 / 2) * (T / N))) cols)),
    grid_samples a T hT N hN, ?_, ?_⟩⟩
  · have h := pwcLind_eq h0 hks cols (T / N) (((List.range N).map fun k : ℕ => a + (k + 1 / 2) * (T / N)).map
      fun t => fs.map fun f => f t) (by simp; omega) bs hbs
    rw [List.length_map] at h
    rw [h, List.map_map, List.map_map]
    simp only [Function.comp_def, dUOfTLind, hamAt_drive]
  · intro i j
    have := hC N hN (i, j) (i, j)
    rwa [hmul] at this

/-- A signal growing linearly is smooth. -/
theorem smoothOn_id (a b : ℝ) : SmoothOn a b fun t => t :=
  ⟨fun _ => 1, 0, fun t _ => (hasDerivAt_id t).hasDerivWithinAt, fun _ _ _ _ => by simp⟩

/-- A single level with frequency growing linearly: the phase is quadratic in time. -/
theorem linear_phase : Schrodinger (drive (0 : Matrix Unit Unit ℂ) [1] [fun t => t]) 0 (0 + 1)
    fun t => Matrix.of fun _ _ => Complex.exp (-Complex.I * ((t ^ 2 / 2 : ℝ) : ℂ)) := by
  constructor
  · ext i j
    simp
  · intro t _ i j
    have h1 : HasDerivAt (fun t : ℝ => t ^ 2 / 2) t t := by
      have := (hasDerivAt_pow 2 t).div_const 2
      have e : ((2 : ℕ) : ℝ) * t ^ (2 - 1) / 2 = t := by simp
      rwa [e] at this
    have h2 := ((h1.ofReal_comp).const_mul (-Complex.I)).cexp.hasDerivWithinAt (s := Icc (0 : ℝ) (0 + 1))
    have e : ((-Complex.I) • (drive (0 : Matrix Unit Unit ℂ) [1] [fun t => t] t *
        Matrix.of fun _ _ : Unit => Complex.exp (-Complex.I * ((t ^ 2 / 2 : ℝ) : ℂ)))) i j =
        Complex.exp (-Complex.I * ((t ^ 2 / 2 : ℝ) : ℂ)) * (-Complex.I * (t : ℂ)) := by
      simp [drive]
      ring
    rw [e]
    exact h2

example : ∃ C : ℝ, ∀ N : ℕ, 1 ≤ N → ∀ bs : ℕ, 1 ≤ bs →
    ∃ ts P, Devices.createTs (N / 1) 0 (0 + 1) true = some ts ∧
      pwc (0 : Matrix Unit Unit ℂ) [1] (1 / N) (ts.map fun t => [t]) bs (Fold.stackFor ts.length) = some P ∧
      ∀ i j, ‖P i j - Complex.exp (-Complex.I * (((0 + 1) ^ 2 / 2 : ℝ) : ℂ))‖ ≤ C / N ^ 2 :=
  C202_closed 0 [1] [fun t => t] 0 1 one_pos (by simpa using smoothOn_id 0 (0 + 1)) _ linear_phase

theorem sum_range_real (N : ℕ) : ∑ k ∈ Finset.range N, (k : ℝ) = N * (N - 1) / 2 := by
  induction N with
  | zero => simp
  | succ N ih =>
    rw [Finset.sum_range_succ, ih]
    push_cast
    ring

theorem exp_phase (c : ℂ) : exp (c • (1 : Matrix Unit Unit ℂ)) = Complex.exp c • (1 : Matrix Unit Unit ℂ) := by
  have h : c • (1 : Matrix Unit Unit ℂ) = diagonal fun _ => c := by
    ext i j
    simp
  rw [h, Matrix.exp_diagonal]
  ext i j
  simp [Complex.exp_eq_exp_ℂ, Pi.exp_def]

theorem timeOrdered_phase (c : ℕ → ℂ) (N : ℕ) :
    Fold.timeOrdered ((List.range N).map fun k => exp (c k • (1 : Matrix Unit Unit ℂ))) =
      Complex.exp (∑ k ∈ Finset.range N, c k) • (1 : Matrix Unit Unit ℂ) := by
  induction N with
  | zero => simp [Fold.timeOrdered]
  | succ N ih =>
    rw [timeOrdered_succ, ih, exp_phase, Finset.sum_range_succ, Complex.exp_add, smul_mul_smul_comm, one_mul, mul_comm]

/-- **C202**: the second order depends on the centred samples. Taking the samples at the beginnings of the slices, the
result for the linear signal stays away from the solution by a constant over `N`. -/
theorem C202_centred_needed : ¬ ∃ C : ℝ, ∀ N : ℕ, 1 ≤ N →
    ∃ P, pwc (0 : Matrix Unit Unit ℂ) [1] (1 / N) ((List.range N).map fun k : ℕ => [(k : ℝ) * (1 / N)]) 1
        (Fold.stackFor ((List.range N).map fun k : ℕ => [(k : ℝ) * (1 / N)]).length) = some P ∧
      ∀ i j, ‖P i j - Complex.exp (-Complex.I * (((0 + 1) ^ 2 / 2 : ℝ) : ℂ))‖ ≤ C / N ^ 2 := by
  rintro ⟨C, hC⟩
  have key : ∀ N : ℕ, 1 ≤ N → (N : ℝ) ≤ 4 * C := by
    intro N hN
    have hN' : (0 : ℝ) < N := by exact_mod_cast hN
    have hN1 : (1 : ℝ) ≤ N := by exact_mod_cast hN
    obtain ⟨P, hP, hb⟩ := hC N hN
    rw [pwc_eq _ _ _ _ (by simp; omega) 1 le_rfl, List.map_map] at hP
    have hdU : (dUOfT (0 : Matrix Unit Unit ℂ) [1] (1 / N) ∘ fun k : ℕ => [(k : ℝ) * (1 / N)]) =
        fun k : ℕ => exp ((-Complex.I * (((1 / N) ^ 2 * k : ℝ) : ℂ)) • (1 : Matrix Unit Unit ℂ)) := by
      funext k
      simp only [Function.comp_def, dUOfT, hamAt_eq_sum, List.zip_cons_cons, List.zip_nil_right, List.map_cons,
        List.map_nil, List.sum_cons, List.sum_nil, add_zero, zero_add, smul_smul]
      congr 2
      push_cast
      ring
    have hsum : ∑ k ∈ Finset.range N, (-Complex.I * (((1 / N : ℝ) ^ 2 * k : ℝ) : ℂ)) =
        -Complex.I * ((1 / 2 - 1 / (2 * N) : ℝ) : ℂ) := by
      rw [← Finset.mul_sum, ← Complex.ofReal_sum, ← Finset.mul_sum, sum_range_real]
      congr 2
      field_simp
    rw [hdU, timeOrdered_phase, hsum] at hP
    have h1 := hb () ()
    rw [← Option.some.inj hP] at h1
    have e : (Complex.exp (-Complex.I * ((1 / 2 - 1 / (2 * N) : ℝ) : ℂ)) • (1 : Matrix Unit Unit ℂ)) () () -
        Complex.exp (-Complex.I * (((0 + 1) ^ 2 / 2 : ℝ) : ℂ)) =
        Complex.exp (((-1 / 2 : ℝ) : ℂ) * Complex.I) * (Complex.exp (((1 / (2 * N) : ℝ) : ℂ) * Complex.I) - 1) := by
      rw [mul_sub, ← Complex.exp_add, Matrix.smul_apply, Matrix.one_apply_eq, smul_eq_mul, mul_one, mul_one]
      congr 2
      · push_cast; ring
      · push_cast; ring
    rw [e, norm_mul, Complex.norm_exp_ofReal_mul_I, one_mul] at h1
    have h2 : Real.sin (1 / (2 * N)) ≤ ‖Complex.exp (((1 / (2 * N) : ℝ) : ℂ) * Complex.I) - 1‖ := by
      refine le_trans (le_trans (le_of_eq ?_) (le_abs_self _)) (Complex.abs_im_le_norm _)
      rw [Complex.sub_im, Complex.one_im, sub_zero, Complex.exp_ofReal_mul_I_im]
    have hx1 : 1 / (2 * (N : ℝ)) ≤ 1 / 2 := by
      apply one_div_le_one_div_of_le <;> linarith
    have h3 := Real.mul_le_sin (x := 1 / (2 * N)) (by positivity) (by linarith [Real.two_le_pi])
    have h4 : 1 / 2 ≤ 2 / Real.pi := by
      rw [div_le_div_iff₀ two_pos Real.pi_pos]
      linarith [Real.pi_le_four]
    have h5 : 1 / 2 * (1 / (2 * (N : ℝ))) ≤ C / N ^ 2 :=
      ((mul_le_mul_of_nonneg_right h4 (by positivity)).trans h3).trans (h2.trans h1)
    rw [le_div_iff₀ (by positivity)] at h5
    have e2 : 1 / 2 * (1 / (2 * (N : ℝ))) * N ^ 2 = N / 4 := by
      field_simp
      norm_num
    linarith
  obtain ⟨N, hN⟩ := exists_nat_gt (4 * C)
  have := key (N + 1) (by omega)
  push_cast at this
  linarith

end Matrices

end C3.Propagation.Converge
