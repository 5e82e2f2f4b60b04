import Verif.Propagation.Order
import Verif.Propagation.HsOfT
import Verif.Propagation.Converge
import Mathlib.Topology.Algebra.Module.FiniteDimension
import Mathlib.Analysis.Calculus.ContDiff.Basic
import Mathlib.Analysis.Calculus.IteratedDeriv.Defs
import Mathlib.Analysis.Calculus.Deriv.Prod

/-!
# C204, C205: convergence of the Runge-Kutta solvers

What `ode_solver_final_state` (c3/libraries/propagation.py:724-752) returns for signals that are functions of time,
sampled by `create_ts` (c3/generator/devices.py:87-122), is compared with the solution of the differential equation.

The models are those of C27, C49, C91 and C203. Simplified as in C202: the signal is the function of time itself; floats
are exact.
-/

noncomputable section

namespace C3.Propagation.SolverConverge

open Set Matrix _root_.C3.Propagation.Order HsOfT Times

/-! ## Expansions of the Hamiltonian in the slices -/

section Both

variable {E F : Type*} [NormedAddCommGroup E] [NormedSpace ℂ E] [NormedAddCommGroup F] [NormedSpace ℂ F]

/-- The function `A` has a Taylor expansion with error of order `k` at all times, and the samples `B N n j` have the same
expansion at the start of slice `n`, at the `j`-th node of the solver. -/
def Both (s : Solver) (k : ℕ) (a b T : ℝ) (N0 : ℕ) (α : ℕ → ℝ) (A : ℝ → E) (B : ℕ → ℕ → ℕ → E) : Prop :=
  ∃ Ac : ℝ → ℕ → E, (∀ i, ∃ C, ∀ t ∈ Icc a b, ‖Ac t i‖ ≤ C) ∧
    (∃ C, ∀ t ∈ Icc a b, ∀ σ, 0 ≤ σ → t + σ ∈ Icc a b →
      ‖A (t + σ) - ∑ i ∈ Finset.range k, (σ : ℂ) ^ i • Ac t i‖ ≤ C * σ ^ k) ∧
    ∀ j < (nodes s).length, ∃ C, ∀ N ≥ N0, ∀ n < N,
      ‖B N n j - ∑ i ∈ Finset.range k, ((((nodes s).getD j 0 * (T / N) : ℝ)) : ℂ) ^ i • Ac (α N + n * (T / N)) i‖ ≤
        C * (T / N) ^ k

variable {s : Solver} {k : ℕ} {a b T : ℝ} {N0 : ℕ} {α : ℕ → ℝ}

theorem Both.const (hk : 1 ≤ k) (x : E) : Both s k a b T N0 α (fun _ => x) fun _ _ _ => x := by
  obtain ⟨k, rfl⟩ : ∃ l, k = l + 1 := ⟨k - 1, by omega⟩
  have e : ∀ c : ℂ, x - ∑ i ∈ Finset.range (k + 1), c ^ i • (if i = 0 then x else 0) = 0 := fun c => by
    rw [Finset.sum_range_succ', Finset.sum_eq_zero (by simp)]
    simp
  refine ⟨fun _ i => if i = 0 then x else 0, fun i => ⟨‖x‖, fun _ _ => ?_⟩, ⟨0, fun _ _ σ _ _ => ?_⟩, fun _ _ =>
    ⟨0, fun _ _ _ _ => ?_⟩⟩
  · beta_reduce
    split_ifs
    · exact le_rfl
    · simp
  · rw [e]
    simp
  · rw [e]
    simp

theorem Both.add {A A' : ℝ → E} {B B' : ℕ → ℕ → ℕ → E} (h : Both s k a b T N0 α A B)
    (h' : Both s k a b T N0 α A' B') :
    Both s k a b T N0 α (fun t => A t + A' t) fun N n j => B N n j + B' N n j := by
  obtain ⟨Ac, h1, ⟨C, h2⟩, h3⟩ := h
  obtain ⟨Ac', h1', ⟨C', h2'⟩, h3'⟩ := h'
  have e : ∀ (x y : E) (c : ℂ) (u v : ℕ → E), x + y - ∑ i ∈ Finset.range k, c ^ i • (u i + v i) =
      (x - ∑ i ∈ Finset.range k, c ^ i • u i) + (y - ∑ i ∈ Finset.range k, c ^ i • v i) := fun x y c u v => by
    simp only [smul_add, Finset.sum_add_distrib]
    abel
  refine ⟨fun t i => Ac t i + Ac' t i, fun i => ?_, ⟨C + C', fun t ht σ h0 hσ => ?_⟩, fun j hj => ?_⟩
  · obtain ⟨D, hD⟩ := h1 i
    obtain ⟨D', hD'⟩ := h1' i
    exact ⟨D + D', fun t ht => norm_add_le_of_le (hD t ht) (hD' t ht)⟩
  · rw [e, add_mul]
    exact norm_add_le_of_le (h2 t ht σ h0 hσ) (h2' t ht σ h0 hσ)
  · obtain ⟨D, hD⟩ := h3 j hj
    obtain ⟨D', hD'⟩ := h3' j hj
    refine ⟨D + D', fun N hN n hn => ?_⟩
    rw [e, add_mul]
    exact norm_add_le_of_le (hD N hN n hn) (hD' N hN n hn)

theorem Both.map {A : ℝ → E} {B : ℕ → ℕ → ℕ → E} (h : Both s k a b T N0 α A B) (Λ : E →L[ℂ] F) :
    Both s k a b T N0 α (fun t => Λ (A t)) fun N n j => Λ (B N n j) := by
  obtain ⟨Ac, h1, ⟨C, h2⟩, h3⟩ := h
  have e : ∀ (x : E) (c : ℂ) (u : ℕ → E), Λ x - ∑ i ∈ Finset.range k, c ^ i • Λ (u i) =
      Λ (x - ∑ i ∈ Finset.range k, c ^ i • u i) := fun x c u => by
    simp only [map_sub, map_sum, map_smul]
  refine ⟨fun t i => Λ (Ac t i), fun i => ?_, ⟨‖Λ‖ * C, fun t ht σ h0 hσ => ?_⟩, fun j hj => ?_⟩
  · obtain ⟨D, hD⟩ := h1 i
    exact ⟨‖Λ‖ * D, fun t ht => Λ.le_opNorm_of_le (hD t ht)⟩
  · rw [e, mul_assoc]
    exact Λ.le_opNorm_of_le (h2 t ht σ h0 hσ)
  · obtain ⟨D, hD⟩ := h3 j hj
    refine ⟨‖Λ‖ * D, fun N hN n hn => ?_⟩
    rw [e, mul_assoc]
    exact Λ.le_opNorm_of_le (hD N hN n hn)

theorem Both.sum (hk : 1 ≤ k) {ι : Type*} (l : List ι) (A : ι → ℝ → E) (B : ι → ℕ → ℕ → ℕ → E)
    (h : ∀ i ∈ l, Both s k a b T N0 α (A i) (B i)) :
    Both s k a b T N0 α (fun t => (l.map fun i => A i t).sum) fun N n j => (l.map fun i => B i N n j).sum := by
  induction l with
  | nil => simpa using Both.const hk (0 : E)
  | cons i l ih =>
    simp only [List.map_cons, List.sum_cons]
    exact (h i (by simp)).add (ih fun j hj => h j (by simp [hj]))

/-- From a real signal to complex numbers. -/
theorem Both.real {f : ℝ → ℝ} {g : ℕ → ℕ → ℕ → ℝ} (fc : ℝ → ℕ → ℝ)
    (h1 : ∀ i, ∃ C, ∀ t ∈ Icc a b, |fc t i| ≤ C)
    (h2 : ∃ C, ∀ t ∈ Icc a b, ∀ σ, 0 ≤ σ → t + σ ∈ Icc a b →
      |f (t + σ) - ∑ i ∈ Finset.range k, σ ^ i * fc t i| ≤ C * σ ^ k)
    (h3 : ∀ j < (nodes s).length, ∃ C, ∀ N ≥ N0, ∀ n < N,
      |g N n j - ∑ i ∈ Finset.range k, ((nodes s).getD j 0 * (T / N)) ^ i * fc (α N + n * (T / N)) i| ≤
        C * (T / N) ^ k) :
    Both s k a b T N0 α (fun t => (f t : ℂ)) fun N n j => (g N n j : ℂ) := by
  have e : ∀ (x c : ℝ) (u : ℕ → ℝ), ‖(x : ℂ) - ∑ i ∈ Finset.range k, (c : ℂ) ^ i • (u i : ℂ)‖ =
      |x - ∑ i ∈ Finset.range k, c ^ i * u i| := fun x c u => by
    rw [← Real.norm_eq_abs, ← Complex.norm_real]
    push_cast
    rfl
  refine ⟨fun t i => (fc t i : ℂ), fun i => ?_, ?_, fun j hj => ?_⟩
  · obtain ⟨C, hC⟩ := h1 i
    exact ⟨C, fun t ht => by rw [Complex.norm_real]; exact hC t ht⟩
  · obtain ⟨C, hC⟩ := h2
    exact ⟨C, fun t ht σ h0 hσ => by rw [e]; exact hC t ht σ h0 hσ⟩
  · obtain ⟨C, hC⟩ := h3 j hj
    exact ⟨C, fun N hN n hn => by rw [e]; exact hC N hN n hn⟩

end Both

/-! ## Signals and their samples -/

/-- The signal is Lipschitz continuous between `a` and `b`. -/
def LipOn (a b : ℝ) (f : ℝ → ℝ) : Prop := ∃ L, ∀ x ∈ Icc a b, ∀ y ∈ Icc a b, |f x - f y| ≤ L * |x - y|

/-- The samples of `f` at `N` times from `α` on. -/
def samples (f : ℝ → ℝ) (α h : ℝ) (N : ℕ) : List ℝ := (uniform α h N).map f

theorem samples_getD (f : ℝ → ℝ) (α h : ℝ) (N i : ℕ) (hi : i < N) : (samples f α h N).getD i 0 = f (α + i * h) := by
  simp [samples, uniform, hi]

theorem lineAt_samples (f : ℝ → ℝ) (α h : ℝ) (N i : ℕ) (hN : 2 ≤ N) (hi : i < N) (c : ℝ) :
    lineAt (samples f α h N) i c = f (α + i * h) + c * (if i + 1 < N then f (α + i * h + h) - f (α + i * h)
      else f (α + i * h) - f (α + i * h - h)) := by
  have hl : (samples f α h N).length = N := by simp [samples, uniform]
  unfold lineAt
  rw [hl]
  split_ifs with h1
  · rw [samples_getD _ _ _ _ _ hi, samples_getD _ _ _ _ _ h1]
    congr 4
    push_cast
    ring
  · rw [samples_getD _ _ _ _ _ hi, samples_getD _ _ _ _ (i - 1) (by omega)]
    congr 4
    rw [Nat.cast_sub (by omega)]
    push_cast
    ring

theorem slice_time (T : ℝ) (hT : 0 ≤ T) (N n : ℕ) (hn : n < N) :
    0 ≤ (n : ℝ) * (T / N) ∧ (n : ℝ) * (T / N) + T / N ≤ T := by
  have hN : (0 : ℝ) < N := by exact_mod_cast (by omega : 0 < N)
  refine ⟨by positivity, ?_⟩
  have h1 : ((n : ℝ) + 1) * (T / N) ≤ N * (T / N) := by
    refine mul_le_mul_of_nonneg_right ?_ (by positivity)
    exact_mod_cast hn
  have h2 : (N : ℝ) * (T / N) = T := by field_simp
  linarith

theorem both_first (s : Solver) (a T : ℝ) (hT : 0 ≤ T) (f : ℝ → ℝ) (hf : LipOn a (a + T) f) :
    Both s 1 a (a + T) T 2 (fun _ => a) (fun t => (f t : ℂ)) fun N n j =>
      (lineAt (samples f (a + 1 / 2 * (T / N)) (T / N) N) n ((nodes s).getD j 0) : ℂ) := by
  obtain ⟨L, hL⟩ := hf
  have hL' : ∀ x ∈ Icc a (a + T), ∀ y ∈ Icc a (a + T), |f x - f y| ≤ |L| * |x - y| := fun x hx y hy =>
    (hL x hx y hy).trans (mul_le_mul_of_nonneg_right (le_abs_self _) (abs_nonneg _))
  have ha : a ∈ Icc a (a + T) := ⟨le_rfl, by linarith⟩
  refine Both.real (fun t _ => f t) (fun _ => ⟨|f a| + |L| * T, fun t ht => ?_⟩) ⟨|L|, fun t ht σ h0 hσ => ?_⟩
    fun j hj => ⟨2 * |L|, fun N hN n hn => ?_⟩
  · have h1 := hL' t ht a ha
    have h2 : |t - a| ≤ T := by
      rw [abs_of_nonneg (by linarith [ht.1])]
      linarith [ht.2]
    have h3 : |L| * |t - a| ≤ |L| * T := mul_le_mul_of_nonneg_left h2 (abs_nonneg _)
    calc |f t| = |f a + (f t - f a)| := by congr 1; ring
      _ ≤ |f a| + |f t - f a| := abs_add_le _ _
      _ ≤ _ := by linarith
  · have h1 := hL' _ hσ t ht
    rw [add_sub_cancel_left, abs_of_nonneg h0] at h1
    simpa using h1
  · have hN' : (0 : ℝ) < N := by exact_mod_cast (by omega : 0 < N)
    set h := T / N with hh
    have hh0 : 0 ≤ h := by positivity
    have mem : ∀ m : ℕ, m < N → a + 1 / 2 * h + m * h ∈ Icc a (a + T) := fun m hm => by
      obtain ⟨h1, h2⟩ := slice_time T hT N m hm
      exact ⟨by linarith, by linarith⟩
    have mem0 : a + n * h ∈ Icc a (a + T) := by
      obtain ⟨h1, h2⟩ := slice_time T hT N n hn
      exact ⟨by linarith, by linarith⟩
    obtain ⟨c0, c1⟩ := nodes_range s j hj
    rw [lineAt_samples _ _ _ _ _ hN hn]
    simp only [Finset.range_one, Finset.sum_singleton, pow_zero, one_mul, pow_one]
    set d := if n + 1 < N then f (a + 1 / 2 * h + n * h + h) - f (a + 1 / 2 * h + n * h)
      else f (a + 1 / 2 * h + n * h) - f (a + 1 / 2 * h + n * h - h) with hd
    have hd1 : |d| ≤ |L| * h := by
      rw [hd]
      split_ifs with h1
      · have m1 := mem (n + 1) h1
        have e : a + 1 / 2 * h + ((n + 1 : ℕ) : ℝ) * h = a + 1 / 2 * h + n * h + h := by push_cast; ring
        rw [e] at m1
        have := hL' _ m1 _ (mem n hn)
        rwa [add_sub_cancel_left, abs_of_nonneg hh0] at this
      · have m1 := mem (n - 1) (by omega)
        have e : a + 1 / 2 * h + ((n - 1 : ℕ) : ℝ) * h = a + 1 / 2 * h + n * h - h := by
          rw [Nat.cast_sub (by omega)]
          push_cast
          ring
        rw [e] at m1
        have := hL' _ (mem n hn) _ m1
        rwa [sub_sub_cancel, abs_of_nonneg hh0] at this
    have hd2 : |(nodes s).getD j 0 * d| ≤ |L| * h := by
      rw [abs_mul, abs_of_nonneg c0]
      exact (mul_le_of_le_one_left (abs_nonneg _) c1).trans hd1
    have h3 := hL' _ (mem n hn) _ mem0
    have e : a + 1 / 2 * h + n * h - (a + n * h) = 1 / 2 * h := by ring
    rw [e, abs_of_nonneg (by positivity : (0 : ℝ) ≤ 1 / 2 * h)] at h3
    calc _ = |(f (a + 1 / 2 * h + n * h) - f (a + n * h)) + (nodes s).getD j 0 * d| := by congr 1; ring
      _ ≤ _ := abs_add_le _ _
      _ ≤ _ := by
        have : 0 ≤ |L| * h := by positivity
        linarith

theorem both_second (s : Solver) (a b T : ℝ) (hT : 0 ≤ T) (α : ℕ → ℝ) (hα : ∀ N ≥ 2, a ≤ α N ∧ α N + T ≤ b)
    (f : ℝ → ℝ) (hf : Converge.SmoothOn a b f) :
    Both s 2 a b T 2 α (fun t => (f t : ℂ)) fun N n j =>
      (lineAt (samples f (α N) (T / N) N) n ((nodes s).getD j 0) : ℂ) := by
  obtain ⟨f', L', hf1, hf2⟩ := hf
  obtain ⟨D, L, M, d, hL0, -, -, hM, hd, hL⟩ := Converge.Sm.of_deriv f f' L' hf1 hf2
  simp only [Real.norm_eq_abs, smul_eq_mul] at hM hd hL
  refine Both.real (fun t i => if i = 0 then f t else D t) (fun i => ⟨max M d, fun t ht => ?_⟩)
    ⟨L, fun t ht σ h0 hσ => ?_⟩ fun j hj => ⟨L, fun N hN n hn => ?_⟩
  · split_ifs
    · exact (hM t ht).trans (le_max_left _ _)
    · exact (hd t ht).trans (le_max_right _ _)
  · have h1 := hL t ht _ hσ
    rw [add_sub_cancel_left] at h1
    refine le_trans (le_of_eq ?_) h1
    congr 1
    simp [Finset.sum_range_succ]
    ring
  · have hN' : (0 : ℝ) < N := by exact_mod_cast (by omega : 0 < N)
    set h := T / N with hh
    have hh0 : 0 ≤ h := by positivity
    obtain ⟨a1, a2⟩ := hα N hN
    have mem : ∀ m : ℕ, m < N → α N + m * h ∈ Icc a b := fun m hm => by
      obtain ⟨h1, h2⟩ := slice_time T hT N m hm
      exact ⟨by linarith, by linarith⟩
    obtain ⟨c0, c1⟩ := nodes_range s j hj
    rw [lineAt_samples _ _ _ _ _ hN hn]
    set t := α N + n * h with ht
    have hmt : t ∈ Icc a b := mem n hn
    set e := if n + 1 < N then f (t + h) - f t else f t - f (t - h) with he
    have he1 : |e - h * D t| ≤ L * h ^ 2 := by
      rw [he]
      split_ifs with h1
      · have m1 := mem (n + 1) h1
        have e : α N + ((n + 1 : ℕ) : ℝ) * h = t + h := by rw [ht]; push_cast; ring
        rw [e] at m1
        have := hL t hmt _ m1
        rwa [add_sub_cancel_left] at this
      · have m1 := mem (n - 1) (by omega)
        have e : α N + ((n - 1 : ℕ) : ℝ) * h = t - h := by
          rw [ht, Nat.cast_sub (by omega)]
          push_cast
          ring
        rw [e] at m1
        have := hL t hmt _ m1
        have e2 : f (t - h) - f t - (t - h - t) * D t = -(f t - f (t - h) - h * D t) := by ring
        have e3 : (t - h - t) ^ 2 = h ^ 2 := by ring
        rwa [e2, abs_neg, e3] at this
    have e3 : f t + (nodes s).getD j 0 * e - ∑ i ∈ Finset.range 2, ((nodes s).getD j 0 * h) ^ i *
        (if i = 0 then f t else D t) = (nodes s).getD j 0 * (e - h * D t) := by
      simp [Finset.sum_range_succ]
      ring
    rw [e3, abs_mul, abs_of_nonneg c0]
    exact (mul_le_of_le_one_left (abs_nonneg _) c1).trans he1

/-- Taylor's formula with one constant for all times. -/
theorem taylor (a b : ℝ) (m : ℕ) : ∀ (F : ℕ → ℝ → ℝ) (M : ℝ), 0 ≤ M →
    (∀ i < m, ∀ t ∈ Icc a b, HasDerivWithinAt (F i) (F (i + 1) t) (Icc a b) t) → (∀ t ∈ Icc a b, |F m t| ≤ M) →
    ∀ t ∈ Icc a b, ∀ σ, 0 ≤ σ → t + σ ∈ Icc a b →
      |F 0 (t + σ) - ∑ i ∈ Finset.range m, σ ^ i * (F i t / i.factorial)| ≤ M * σ ^ m := by
  induction m with
  | zero =>
    intro F M _ _ hb t _ σ _ hσ
    simpa using hb _ hσ
  | succ m ih =>
    intro F M hM hd hb t ht σ h0 hσ
    have h1 := ih (fun i => F (i + 1)) M hM (fun i hi => hd (i + 1) (by omega)) hb t ht
    have mem : ∀ τ ∈ Icc 0 σ, t + τ ∈ Icc a b := fun τ hτ => ⟨by linarith [ht.1, hτ.1], by linarith [hσ.2, hτ.2]⟩
    have hder : ∀ τ ∈ Icc 0 σ, HasDerivWithinAt
        (fun τ => F 0 (t + τ) - ∑ i ∈ Finset.range (m + 1), τ ^ i * (F i t / i.factorial))
        (F 1 (t + τ) - ∑ i ∈ Finset.range m, τ ^ i * (F (i + 1) t / i.factorial)) (Icc 0 σ) τ := by
      intro τ hτ
      refine HasDerivWithinAt.sub ?_ ?_
      · have h2 := hd 0 (by omega) (t + τ) (mem τ hτ)
        have h3 : HasDerivWithinAt (fun τ => t + τ) 1 (Icc 0 σ) τ :=
          ((hasDerivAt_id τ).const_add t).hasDerivWithinAt
        have h4 := h2.scomp τ h3 mem
        rwa [one_smul] at h4
      · have h2 : HasDerivWithinAt (fun τ : ℝ => ∑ i ∈ Finset.range (m + 1), τ ^ i * (F i t / i.factorial))
            (∑ i ∈ Finset.range (m + 1), ((i : ℝ) * τ ^ (i - 1)) * (F i t / i.factorial)) (Icc 0 σ) τ :=
          HasDerivWithinAt.fun_sum fun i _ => ((hasDerivAt_pow i τ).hasDerivWithinAt.mul_const _)
        have e : ∑ i ∈ Finset.range (m + 1), ((i : ℝ) * τ ^ (i - 1)) * (F i t / i.factorial) =
            ∑ i ∈ Finset.range m, τ ^ i * (F (i + 1) t / i.factorial) := by
          rw [Finset.sum_range_succ']
          simp only [Nat.cast_zero, zero_mul, add_zero]
          refine Finset.sum_congr rfl fun i _ => ?_
          rw [Nat.add_sub_cancel, Nat.factorial_succ]
          have : ((i.factorial : ℕ) : ℝ) ≠ 0 := by exact_mod_cast i.factorial_ne_zero
          have : ((i : ℝ) + 1) ≠ 0 := by positivity
          push_cast
          field_simp
        rwa [e] at h2
    have hfin := norm_image_sub_le_of_norm_deriv_le_segment' (C := M * σ ^ m) hder (by
      intro τ hτ
      refine (h1 τ hτ.1 (mem τ ⟨hτ.1, hτ.2.le⟩)).trans ?_
      exact mul_le_mul_of_nonneg_left (pow_le_pow_left₀ hτ.1 hτ.2.le m) hM) σ ⟨h0, le_rfl⟩
    have e3 : F 0 (t + 0) - ∑ i ∈ Finset.range (m + 1), (0 : ℝ) ^ i * (F i t / i.factorial) = 0 := by
      rw [Finset.sum_range_succ', Finset.sum_eq_zero]
      · simp
      · intro i _
        simp
    rw [e3, sub_zero, sub_zero, mul_assoc, ← pow_succ] at hfin
    exact hfin

theorem both_exact (s : Solver) (k : ℕ) (a T : ℝ) (hT : 0 < T) (f : ℝ → ℝ) (hf : ContDiffOn ℝ k f (Icc a (a + T))) :
    Both s k a (a + T) T 1 (fun _ => a) (fun t => (f t : ℂ)) fun N n j =>
      (f (a + (n + (nodes s).getD j 0) * (T / N)) : ℂ) := by
  have hu : UniqueDiffOn ℝ (Icc a (a + T)) := uniqueDiffOn_Icc (by linarith)
  set F : ℕ → ℝ → ℝ := fun i => if i ≤ k then iteratedDerivWithin i f (Icc a (a + T)) else fun _ => 0 with hF
  have hF0 : F 0 = f := by
    rw [hF]
    simp only [Nat.zero_le, if_true]
    funext t
    simp
  have hcont : ∀ i, ContinuousOn (F i) (Icc a (a + T)) := by
    intro i
    simp only [hF]
    split_ifs with hi
    · exact hf.continuousOn_iteratedDerivWithin (by exact_mod_cast hi) hu
    · exact continuousOn_const
  have hder : ∀ i < k, ∀ t ∈ Icc a (a + T), HasDerivWithinAt (F i) (F (i + 1) t) (Icc a (a + T)) t := by
    intro i hi t ht
    simp only [hF, if_pos hi.le, if_pos (show i + 1 ≤ k from hi)]
    rw [iteratedDerivWithin_succ]
    exact (hf.differentiableOn_iteratedDerivWithin (by exact_mod_cast hi) hu t ht).hasDerivWithinAt
  have hbound : ∀ i, ∃ C, ∀ t ∈ Icc a (a + T), |F i t| ≤ C := fun i =>
    isCompact_Icc.exists_bound_of_continuousOn (hcont i)
  obtain ⟨M, hM⟩ := hbound k
  have hM0 : 0 ≤ M := (abs_nonneg _).trans (hM a ⟨le_rfl, by linarith⟩)
  have htay := taylor a (a + T) k F M hM0 hder hM
  rw [hF0] at htay
  refine Both.real (fun t i => F i t / i.factorial) (fun i => ?_) ⟨M, htay⟩ fun j hj => ⟨M, fun N hN n hn => ?_⟩
  · obtain ⟨C, hC⟩ := hbound i
    refine ⟨C, fun t ht => ?_⟩
    rw [abs_div]
    refine (div_le_self (abs_nonneg _) ?_).trans (hC t ht)
    rw [Nat.abs_cast]
    exact_mod_cast Nat.succ_le_of_lt i.factorial_pos
  · have hN' : (0 : ℝ) < N := by exact_mod_cast (by omega : 0 < N)
    have hh0 : 0 ≤ T / N := by positivity
    obtain ⟨h1, h2⟩ := slice_time T hT.le N n hn
    obtain ⟨c0, c1⟩ := nodes_range s j hj
    have h3 : (nodes s).getD j 0 * (T / N) ≤ T / N := mul_le_of_le_one_left hh0 c1
    have h4 : 0 ≤ (nodes s).getD j 0 * (T / N) := mul_nonneg c0 hh0
    have h5 := htay (a + n * (T / N)) ⟨by linarith, by linarith⟩ _ h4 ⟨by linarith, by linarith⟩
    have e : a + (n + (nodes s).getD j 0) * (T / N) = a + n * (T / N) + (nodes s).getD j 0 * (T / N) := by ring
    rw [e]
    exact h5.trans (mul_le_mul_of_nonneg_left (pow_le_pow_left₀ h4 h3 k) hM0)

/-! ## The convergence for a Hamiltonian given by signals -/

section General

variable {n : Type} [Fintype n] [DecidableEq n] {V : Type*} [NormedAddCommGroup V] [NormedSpace ℂ V]
  [FiniteDimensional ℂ V]

/-- The Hamiltonian of a drift and of signals on channels. -/
def driveBy (h0 : Matrix n n ℂ) (hk : String → Matrix n n ℂ) (sigs : List (String × (ℝ → ℝ))) (t : ℝ) :
    Matrix n n ℂ := h0 + (sigs.map fun p => (p.2 t : ℂ) • hk p.1).sum

open scoped Matrix.Norms.L2Operator in
theorem general (s : Solver) {k : ℕ} {κ : ℂ} (hs : Conditions s k κ) (hk1 : 1 ≤ k) (a b T : ℝ) (hT : 0 ≤ T) (N0 : ℕ)
    (hN0 : 1 ≤ N0) (α : ℕ → ℝ) (hα : ∀ N ≥ N0, a ≤ α N ∧ α N + T ≤ b)
    (step : ℝ → V → Matrix n n ℂ → V) (Λ : Matrix n n ℂ →ₗ[ℂ] V →ₗ[ℂ] V) (D : V →ₗ[ℂ] V)
    (hstep : ∀ dt x h, step dt x h = (dt : ℂ) • (Λ h x + D x))
    (h0 : Matrix n n ℂ) (hc : String → Matrix n n ℂ) (sigs : List (String × (ℝ → ℝ)))
    (g : String × (ℝ → ℝ) → ℕ → ℕ → ℕ → ℝ)
    (hsig : ∀ p ∈ sigs, Both s k a b T N0 α (fun t => (p.2 t : ℂ)) fun N n j => (g p N n j : ℂ))
    (U : ℝ → V) (hU : ∀ t ∈ Icc a b,
      HasDerivWithinAt U (κ • (Λ (driveBy h0 hc sigs t) (U t) + D (U t))) (Icc a b) t) :
    ∃ C, ∀ N ≥ N0, ‖(List.range N).foldl (fun st m => s.run (step (T / N)) st fun j =>
      h0 + (sigs.map fun p => (g p N m j : ℂ) • hc p.1).sum) (U (α N)) - U (α N + T)‖ ≤ C / N ^ k := by
  let L : Matrix n n ℂ →L[ℂ] V →L[ℂ] V :=
    LinearMap.toContinuousLinearMap ((LinearMap.toContinuousLinearMap : (V →ₗ[ℂ] V) ≃ₗ[ℂ] V →L[ℂ] V).toLinearMap ∘ₗ Λ)
  let D' : V →L[ℂ] V := LinearMap.toContinuousLinearMap D
  have hL : ∀ h x, L h x = Λ h x := fun _ _ => rfl
  have hH : Both s k a b T N0 α (driveBy h0 hc sigs) fun N m j => h0 + (sigs.map fun p => (g p N m j : ℂ) • hc p.1).sum := by
    unfold driveBy
    refine (Both.const hk1 h0).add (Both.sum hk1 sigs _ _ fun p hp => ?_)
    exact (hsig p hp).map (ContinuousLinearMap.smulRight (ContinuousLinearMap.id ℂ ℂ) (hc p.1))
  obtain ⟨Ac, h1, h2, h3⟩ := (hH.map L).add (Both.const hk1 D')
  obtain ⟨C, hC⟩ := converge s hs (fun t => L (driveBy h0 hc sigs t) + D') Ac a b T hT N0 hN0 α hα h1 h2 _ h3 U hU
  refine ⟨C, fun N hN => ?_⟩
  have := hC N hN
  have e : ∀ st m, s.run (fun x j => ((T / N : ℝ) : ℂ) •
      (L (h0 + (sigs.map fun p => (g p N m j : ℂ) • hc p.1).sum) + D') x) st id =
      s.run (step (T / N)) st fun j => h0 + (sigs.map fun p => (g p N m j : ℂ) • hc p.1).sum := by
    intro st m
    refine run_rel s _ _ _ _ Eq (fun _ _ _ _ e1 e2 => by rw [e1, e2]) (fun _ _ _ _ e1 e2 => by rw [e1, e2])
      (fun _ _ _ e => by rw [e]) (fun j _ x _ e => ?_) st st rfl
    rw [← e, hstep]
    rfl
  simp only [e] at this
  exact this

end General

/-! ## Specification -/

variable {n : Type} [Fintype n] [DecidableEq n]

/-- The channels with the signals taken at the times `ts`. -/
def channels (sigs : List (String × (ℝ → ℝ))) (ts : List ℝ) : List Chan := sigs.map fun p => ⟨p.1, ts.map p.2, ts⟩

/-- `psi` solves the Schrödinger equation. -/
def Ket (H : ℝ → Matrix n n ℂ) (a b : ℝ) (psi : ℝ → n → ℂ) : Prop :=
  ∀ t ∈ Icc a b, ∀ i, HasDerivWithinAt (fun t => psi t i) (-Complex.I * (H t *ᵥ psi t) i) (Icc a b) t

/-! ## C204 -/

section Code

variable {V : Type*} [NormedAddCommGroup V] [NormedSpace ℂ V]

omit [DecidableEq n] [Fintype n] in
theorem final_channels (step : ℝ → V → Matrix n n ℂ → V) (h0 : Matrix n n ℂ) (hc : String → Matrix n n ℂ) (s : Solver)
    (sigs : List (String × (ℝ → ℝ))) (hne : sigs ≠ []) (α h : ℝ) (hh : 0 < h) (N : ℕ) (hN : 2 ≤ N) (init : V) :
    finalState step h0 (fun k => some (hc k)) s (channels sigs (uniform α h N)) init =
      .ok ((List.range N).foldl (fun st i => s.run (step h) st fun j =>
        h0 + (sigs.map fun p => (lineAt (samples p.2 α h N) i ((nodes s).getD j 0) : ℂ) • hc p.1).sum) init,
        uniform α h N) := by
  have hg : OnGrid (uniform α h N) (channels sigs (uniform α h N)) := by
    refine ⟨by simpa [channels] using hne, fun c hcm => ?_⟩
    obtain ⟨p, _, rfl⟩ := List.mem_map.1 hcm
    exact ⟨rfl, by simp⟩
  have h1 := (C203_steps step h0 (fun k => some (hc k)) hc s α h hh N hN _ hg (fun _ _ => rfl) init).1
  rw [h1]
  unfold hamLine channels
  simp only [List.map_map]
  rfl

theorem grid_uniform (a T : ℝ) (N : ℕ) :
    ((List.range N).map fun k : ℕ => a + (k + 1 / 2) * (T / N)) = uniform (a + 1 / 2 * (T / N)) (T / N) N := by
  unfold uniform
  apply List.map_congr_left
  intro k _
  ring

variable [FiniteDimensional ℂ V]

theorem first (s : Solver) {κ : ℂ} (hs : Conditions s 1 κ) (a T : ℝ) (hT : 0 < T) (step : ℝ → V → Matrix n n ℂ → V)
    (Λ : Matrix n n ℂ →ₗ[ℂ] V →ₗ[ℂ] V) (D : V →ₗ[ℂ] V) (hstep : ∀ dt x h, step dt x h = (dt : ℂ) • (Λ h x + D x))
    (h0 : Matrix n n ℂ) (hc : String → Matrix n n ℂ) (sigs : List (String × (ℝ → ℝ))) (hne : sigs ≠ [])
    (hf : ∀ p ∈ sigs, LipOn a (a + T) p.2) (U : ℝ → V) (hU : ∀ t ∈ Icc a (a + T),
      HasDerivWithinAt U (κ • (Λ (driveBy h0 hc sigs t) (U t) + D (U t))) (Icc a (a + T)) t) :
    ∃ C : ℝ, ∀ N : ℕ, 2 ≤ N → ∃ ts out, Devices.createTs (N / T) a (a + T) true = some ts ∧
      finalState step h0 (fun k => some (hc k)) s (channels sigs ts) (U a) = .ok (out, ts) ∧
      ‖out - U (a + T)‖ ≤ C / N := by
  obtain ⟨C, hC⟩ := general s hs le_rfl a (a + T) T hT.le 2 (by norm_num) (fun _ => a)
    (fun _ _ => ⟨le_rfl, le_rfl⟩) step Λ D hstep h0 hc sigs
    (fun p N m j => lineAt (samples p.2 (a + 1 / 2 * (T / N)) (T / N) N) m ((nodes s).getD j 0))
    (fun p hp => both_first s a T hT.le p.2 (hf p hp)) U hU
  refine ⟨C, fun N hN => ?_⟩
  have hN' : (0 : ℝ) < N := by exact_mod_cast (by omega : 0 < N)
  refine ⟨_, _, ?_, final_channels step h0 hc s sigs hne (a + 1 / 2 * (T / N)) (T / N) (by positivity) N hN _, ?_⟩
  · rw [Converge.grid_samples a T hT N (by omega), grid_uniform]
  · have := hC N hN
    rwa [pow_one] at this

theorem late (s : Solver) (hs : s ≠ .tsit5) (a b T : ℝ) (hT : 0 < T) (hb : a + 5 / 4 * T ≤ b)
    (step : ℝ → V → Matrix n n ℂ → V)
    (Λ : Matrix n n ℂ →ₗ[ℂ] V →ₗ[ℂ] V) (D : V →ₗ[ℂ] V) (hstep : ∀ dt x h, step dt x h = (dt : ℂ) • (Λ h x + D x))
    (h0 : Matrix n n ℂ) (hc : String → Matrix n n ℂ) (sigs : List (String × (ℝ → ℝ))) (hne : sigs ≠ [])
    (hf : ∀ p ∈ sigs, Converge.SmoothOn a b p.2) (U : ℝ → V) (hU : ∀ t ∈ Icc a b,
      HasDerivWithinAt U (Λ (driveBy h0 hc sigs t) (U t) + D (U t)) (Icc a b) t) :
    ∃ C : ℝ, ∀ N : ℕ, 2 ≤ N → ∃ ts out, Devices.createTs (N / T) a (a + T) true = some ts ∧
      finalState step h0 (fun k => some (hc k)) s (channels sigs ts) (U (a + 1 / 2 * (T / N))) = .ok (out, ts) ∧
      ‖out - U (a + 1 / 2 * (T / N) + T)‖ ≤ C / N ^ 2 := by
  have hα : ∀ N : ℕ, N ≥ 2 → a ≤ a + 1 / 2 * (T / N) ∧ a + 1 / 2 * (T / N) + T ≤ b := by
    intro N hN
    have hN' : (2 : ℝ) ≤ N := by exact_mod_cast hN
    have h1 : T / N ≤ T / 2 := div_le_div_of_nonneg_left hT.le two_pos hN'
    have h2 : 0 ≤ T / N := by positivity
    exact ⟨by linarith, by linarith⟩
  obtain ⟨C, hC⟩ := general s (conditions_four s hs 2 (by norm_num)) (by norm_num) a b T hT.le 2 (by norm_num)
    (fun N => a + 1 / 2 * (T / N)) hα step Λ D hstep h0 hc sigs
    (fun p N m j => lineAt (samples p.2 (a + 1 / 2 * (T / N)) (T / N) N) m ((nodes s).getD j 0))
    (fun p hp => both_second s a b T hT.le _ hα p.2 (hf p hp)) U (fun t ht => by rw [one_smul]; exact hU t ht)
  refine ⟨C, fun N hN => ?_⟩
  have hN' : (0 : ℝ) < N := by exact_mod_cast (by omega : 0 < N)
  refine ⟨_, _, ?_, final_channels step h0 hc s sigs hne (a + 1 / 2 * (T / N)) (T / N) (by positivity) N hN _, ?_⟩
  · rw [Converge.grid_samples a T hT N (by omega), grid_uniform]
  · exact hC N hN

theorem fourth (s : Solver) (hs : s ≠ .tsit5) (a T : ℝ) (hT : 0 < T) (step : ℝ → V → Matrix n n ℂ → V)
    (Λ : Matrix n n ℂ →ₗ[ℂ] V →ₗ[ℂ] V) (D : V →ₗ[ℂ] V) (hstep : ∀ dt x h, step dt x h = (dt : ℂ) • (Λ h x + D x))
    (h0 : Matrix n n ℂ) (hc : String → Matrix n n ℂ) (sigs : List (String × (ℝ → ℝ)))
    (hf : ∀ p ∈ sigs, ContDiffOn ℝ 4 p.2 (Icc a (a + T))) (U : ℝ → V) (hU : ∀ t ∈ Icc a (a + T),
      HasDerivWithinAt U (Λ (driveBy h0 hc sigs t) (U t) + D (U t)) (Icc a (a + T)) t) :
    ∃ C : ℝ, ∀ N : ℕ, 1 ≤ N → ∀ Hs : ℕ → Matrix n n ℂ,
      (∀ i < N, ∀ j < (nodes s).length,
        Hs (s.start * i + j) = driveBy h0 hc sigs (a + (i + (nodes s).getD j 0) * (T / N))) →
      ‖odeSolverFinal s (step (T / N)) Hs N (U a) - U (a + T)‖ ≤ C / N ^ 4 := by
  obtain ⟨C, hC⟩ := general s (conditions_four s hs 4 le_rfl) (by norm_num) a (a + T) T hT.le 1 le_rfl (fun _ => a)
    (fun _ _ => ⟨le_rfl, le_rfl⟩) step Λ D hstep h0 hc sigs
    (fun p N m j => p.2 (a + (m + (nodes s).getD j 0) * (T / N)))
    (fun p hp => both_exact s 4 a T hT p.2 (hf p hp)) U (fun t ht => by rw [one_smul]; exact hU t ht)
  refine ⟨C, fun N hN Hs hHs => ?_⟩
  refine le_trans (le_of_eq ?_) (hC N hN)
  congr 2
  unfold odeSolverFinal
  refine List.foldl_ext _ _ _ fun st i hi => ?_
  unfold odeStep
  apply run_congr
  intro j hj
  exact hHs i (List.mem_range.1 hi) j hj

end Code

/-! ### The three equations -/

/-- Derivatives by coordinates. -/
theorem deriv_of_basis {V : Type*} [NormedAddCommGroup V] [NormedSpace ℂ V] {ι : Type*} [Fintype ι]
    (bas : Module.Basis ι ℂ V) (U : ℝ → V) (U' : V) (S : Set ℝ) (t : ℝ)
    (h : ∀ i, HasDerivWithinAt (fun t => bas.repr (U t) i) (bas.repr U' i) S t) : HasDerivWithinAt U U' S t := by
  have hs : HasDerivWithinAt (fun t => ∑ i, bas.repr (U t) i • bas i) (∑ i, bas.repr U' i • bas i) S t :=
    HasDerivWithinAt.fun_sum fun i _ => (h i).smul_const _
  simp only [Module.Basis.sum_repr] at hs
  exact hs

/-- The map of the Schrödinger equation. -/
def ketMap : Matrix n n ℂ →ₗ[ℂ] (n → ℂ) →ₗ[ℂ] (n → ℂ) :=
  LinearMap.mk₂ ℂ (fun h x => (-Complex.I) • (h *ᵥ x)) (fun h h' x => by rw [add_mulVec, smul_add])
    (fun c h x => by rw [smul_mulVec, smul_comm]) (fun h x y => by rw [mulVec_add, smul_add])
    (fun c h x => by rw [mulVec_smul, smul_comm])

/-- The commutator with the Hamiltonian. -/
def comMap : Matrix n n ℂ →ₗ[ℂ] Matrix n n ℂ →ₗ[ℂ] Matrix n n ℂ :=
  LinearMap.mk₂ ℂ (fun h x => (-Complex.I) • (h * x - x * h))
    (fun h h' x => by rw [add_mul, mul_add, ← smul_add]; congr 1; abel)
    (fun c h x => by rw [smul_mul, Matrix.mul_smul, ← smul_sub, smul_comm])
    (fun h x y => by rw [add_mul, mul_add, ← smul_add]; congr 1; abel)
    (fun c h x => by rw [smul_mul, Matrix.mul_smul, ← smul_sub, smul_comm])

omit [DecidableEq n] in
theorem ket_step (dt : ℝ) (x : n → ℂ) (h : Matrix n n ℂ) :
    schrodingerStep dt x h = (dt : ℂ) • (ketMap h x + (0 : (n → ℂ) →ₗ[ℂ] (n → ℂ)) x) := by
  simp [schrodingerStep, ketMap]

omit [DecidableEq n] in
theorem ket_deriv {H : ℝ → Matrix n n ℂ} {a b : ℝ} {psi : ℝ → n → ℂ} (h : Ket H a b psi) :
    ∀ t ∈ Icc a b, ∀ i, HasDerivWithinAt (fun t => (Pi.basisFun ℂ n).repr (psi t) i)
      ((Pi.basisFun ℂ n).repr (ketMap (H t) (psi t) + (0 : (n → ℂ) →ₗ[ℂ] (n → ℂ)) (psi t)) i) (Icc a b) t := by
  intro t ht i
  have := h t ht i
  simpa [ketMap] using this

/-- The dissipator of the collapse operators. -/
def disMap (cols : List (Matrix n n ℂ)) : Matrix n n ℂ →ₗ[ℂ] Matrix n n ℂ where
  toFun x := masterRHS 0 cols x
  map_add' x y := by
    unfold masterRHS
    induction cols with
    | nil => simp
    | cons L l ih =>
      simp only [zero_mul, mul_zero, sub_zero, smul_zero, zero_add, List.map_cons, List.sum_cons] at ih ⊢
      rw [ih]
      simp only [mul_add, add_mul, smul_add]
      abel
  map_smul' c x := by
    unfold masterRHS
    induction cols with
    | nil => simp
    | cons L l ih =>
      simp only [zero_mul, mul_zero, sub_zero, smul_zero, zero_add, List.map_cons, List.sum_cons] at ih ⊢
      rw [ih]
      simp only [Matrix.mul_smul, smul_mul, smul_add, smul_sub, RingHom.id_apply, smul_comm c]

theorem masterRHS_eq (h : Matrix n n ℂ) (cols : List (Matrix n n ℂ)) (x : Matrix n n ℂ) :
    masterRHS h cols x = comMap h x + disMap cols x := by
  simp [masterRHS, comMap, disMap]

theorem lind_step (cols : List (Matrix n n ℂ)) (dt : ℝ) (x h : Matrix n n ℂ) :
    lindbladStep cols dt x h = (dt : ℂ) • (comMap h x + disMap cols x) := by
  rw [lindbladStep_eq, masterRHS_eq]

open scoped Matrix.Norms.L2Operator in
theorem master_deriv {H : ℝ → Matrix n n ℂ} {cols : List (Matrix n n ℂ)} {a b : ℝ} {rho : ℝ → Matrix n n ℂ}
    (h : Converge.Master H cols a b rho) :
    ∀ t ∈ Icc a b, HasDerivWithinAt rho (comMap (H t) (rho t) + disMap cols (rho t)) (Icc a b) t := by
  intro t ht
  rw [← masterRHS_eq]
  exact Converge.hasDeriv_of_entries rho _ _ t (h t ht)

theorem vonNeumann_lind (dt : ℝ) : (vonNeumannStep dt : Matrix n n ℂ → _) = lindbladStep [] dt := by
  funext x h
  rw [lindbladStep_eq, (C27_step_functions [] dt x h).2]

/-- A solver whose weights add up to `κ` follows the Schrödinger equation of the Hamiltonian times `κ`. -/
theorem kets (s : Solver) {κ : ℝ} (hs : Conditions s 1 κ) (a T : ℝ) (hT : 0 < T) (h0 : Matrix n n ℂ)
    (hc : String → Matrix n n ℂ) (sigs : List (String × (ℝ → ℝ))) (hne : sigs ≠ [])
    (hf : ∀ p ∈ sigs, LipOn a (a + T) p.2) (psi : ℝ → n → ℂ)
    (hU : Ket (fun t => (κ : ℂ) • driveBy h0 hc sigs t) a (a + T) psi) :
    ∃ C : ℝ, ∀ N : ℕ, 2 ≤ N → ∃ ts out, Devices.createTs (N / T) a (a + T) true = some ts ∧
      finalState schrodingerStep h0 (fun k => some (hc k)) s (channels sigs ts) (psi a) = .ok (out, ts) ∧
      ∀ i, ‖out i - psi (a + T) i‖ ≤ C / N := by
  have hd := ket_deriv hU
  obtain ⟨C, hC⟩ := first s hs a T hT schrodingerStep ketMap 0 ket_step h0 hc sigs hne hf psi
    (by
      intro t ht
      apply deriv_of_basis (Pi.basisFun ℂ n)
      intro i
      have h1 := hd t ht i
      have e : (κ : ℂ) • (ketMap (driveBy h0 hc sigs t) (psi t) + (0 : (n → ℂ) →ₗ[ℂ] (n → ℂ)) (psi t)) =
          ketMap ((κ : ℂ) • driveBy h0 hc sigs t) (psi t) + (0 : (n → ℂ) →ₗ[ℂ] (n → ℂ)) (psi t) := by
        rw [map_smul, LinearMap.zero_apply, add_zero, add_zero, LinearMap.smul_apply]
      rw [e]
      exact h1)
  refine ⟨C, fun N hN => ?_⟩
  obtain ⟨ts, out, h1, h2, h3⟩ := hC N hN
  exact ⟨ts, out, h1, h2, fun i => (norm_le_pi_norm (out - psi (a + T)) i).trans h3⟩

omit [DecidableEq n] in
theorem masterRHS_scale (κ : ℝ) (hκ : 0 ≤ κ) (h : Matrix n n ℂ) (cols : List (Matrix n n ℂ)) (x : Matrix n n ℂ) :
    masterRHS ((κ : ℂ) • h) (cols.map fun L => ((Real.sqrt κ : ℝ) : ℂ) • L) x = (κ : ℂ) • masterRHS h cols x := by
  have hk : ((Real.sqrt κ : ℝ) : ℂ) * ((Real.sqrt κ : ℝ) : ℂ) = (κ : ℂ) := by
    rw [← Complex.ofReal_mul, Real.mul_self_sqrt hκ]
  have e : ∀ L : Matrix n n ℂ, (((Real.sqrt κ : ℝ) : ℂ) • L) * x * (((Real.sqrt κ : ℝ) : ℂ) • L)ᴴ -
      (1 / 2 : ℂ) • ((((Real.sqrt κ : ℝ) : ℂ) • L)ᴴ * (((Real.sqrt κ : ℝ) : ℂ) • L) * x +
        x * ((((Real.sqrt κ : ℝ) : ℂ) • L)ᴴ * (((Real.sqrt κ : ℝ) : ℂ) • L))) =
      (κ : ℂ) • (L * x * Lᴴ - (1 / 2 : ℂ) • (Lᴴ * L * x + x * (Lᴴ * L))) := by
    intro L
    have hst : star ((Real.sqrt κ : ℝ) : ℂ) = ((Real.sqrt κ : ℝ) : ℂ) := Complex.conj_ofReal _
    simp only [conjTranspose_smul, hst, Matrix.mul_smul, smul_mul, smul_smul, hk, smul_sub, smul_add]
    ring_nf
  unfold masterRHS
  rw [smul_add, List.map_map, List.smul_sum, List.map_map]
  congr 1
  · rw [smul_mul, Matrix.mul_smul, ← smul_sub, smul_comm]
  · congr 1
    apply List.map_congr_left
    intro L _
    exact e L

open scoped Matrix.Norms.L2Operator in
/-- The same for the master equation: frequencies and rates are multiplied by `κ`. -/
theorem densities (s : Solver) {κ : ℝ} (hκ : 0 ≤ κ) (hs : Conditions s 1 κ) (a T : ℝ) (hT : 0 < T) (h0 : Matrix n n ℂ)
    (hc : String → Matrix n n ℂ) (cols : List (Matrix n n ℂ)) (sigs : List (String × (ℝ → ℝ))) (hne : sigs ≠ [])
    (hf : ∀ p ∈ sigs, LipOn a (a + T) p.2) (rho : ℝ → Matrix n n ℂ)
    (hU : Converge.Master (fun t => (κ : ℂ) • driveBy h0 hc sigs t) (cols.map fun L => ((Real.sqrt κ : ℝ) : ℂ) • L)
      a (a + T) rho) :
    ∃ C : ℝ, ∀ N : ℕ, 2 ≤ N → ∃ ts out, Devices.createTs (N / T) a (a + T) true = some ts ∧
      finalState (lindbladStep cols) h0 (fun k => some (hc k)) s (channels sigs ts) (rho a) = .ok (out, ts) ∧
      (cols = [] → finalState vonNeumannStep h0 (fun k => some (hc k)) s (channels sigs ts) (rho a) = .ok (out, ts)) ∧
      ∀ i j, ‖out i j - rho (a + T) i j‖ ≤ C / N := by
  obtain ⟨C, hC⟩ := first s hs a T hT (lindbladStep cols) comMap (disMap cols) (lind_step cols) h0 hc sigs hne hf rho
    (by
      intro t ht
      rw [← masterRHS_eq, ← masterRHS_scale κ hκ]
      exact Converge.hasDeriv_of_entries rho _ _ t (hU t ht))
  refine ⟨C, fun N hN => ?_⟩
  obtain ⟨ts, out, h1, h2, h3⟩ := hC N hN
  refine ⟨ts, out, h1, h2, fun hcols => ?_, fun i j => (Converge.entry_le (out - rho (a + T)) i j).trans h3⟩
  rw [← h2, hcols]
  have e : (vonNeumannStep : ℝ → Matrix n n ℂ → _) = lindbladStep [] := funext vonNeumann_lind
  rw [e]

/-- **C204** (kets): for Lipschitz continuous signals, the final state computed from `N` samples differs from the
solution of the Schrödinger equation by at most a constant over `N`. -/
theorem C204_schrodinger_partial (s : Solver) (hs : s ≠ .tsit5) (a T : ℝ) (hT : 0 < T) (h0 : Matrix n n ℂ)
    (hc : String → Matrix n n ℂ) (sigs : List (String × (ℝ → ℝ))) (hne : sigs ≠ [])
    (hf : ∀ p ∈ sigs, LipOn a (a + T) p.2) (psi : ℝ → n → ℂ) (hU : Ket (driveBy h0 hc sigs) a (a + T) psi) :
    ∃ C : ℝ, ∀ N : ℕ, 2 ≤ N → ∃ ts out, Devices.createTs (N / T) a (a + T) true = some ts ∧
      finalState schrodingerStep h0 (fun k => some (hc k)) s (channels sigs ts) (psi a) = .ok (out, ts) ∧
      ∀ i, ‖out i - psi (a + T) i‖ ≤ C / N :=
  kets s (κ := 1) (by rw [Complex.ofReal_one]; exact conditions_four s hs 1 (by norm_num)) a T hT h0 hc sigs hne hf psi
    (by simpa only [Complex.ofReal_one, one_smul] using hU)

/-- **C204** (density matrices): the same for the master equation; without collapse operators for the von Neumann
equation. -/
theorem C204_lindblad_partial (s : Solver) (hs : s ≠ .tsit5) (a T : ℝ) (hT : 0 < T) (h0 : Matrix n n ℂ)
    (hc : String → Matrix n n ℂ) (cols : List (Matrix n n ℂ)) (sigs : List (String × (ℝ → ℝ))) (hne : sigs ≠ [])
    (hf : ∀ p ∈ sigs, LipOn a (a + T) p.2) (rho : ℝ → Matrix n n ℂ)
    (hU : Converge.Master (driveBy h0 hc sigs) cols a (a + T) rho) :
    ∃ C : ℝ, ∀ N : ℕ, 2 ≤ N → ∃ ts out, Devices.createTs (N / T) a (a + T) true = some ts ∧
      finalState (lindbladStep cols) h0 (fun k => some (hc k)) s (channels sigs ts) (rho a) = .ok (out, ts) ∧
      (cols = [] → finalState vonNeumannStep h0 (fun k => some (hc k)) s (channels sigs ts) (rho a) = .ok (out, ts)) ∧
      ∀ i j, ‖out i j - rho (a + T) i j‖ ≤ C / N :=
  densities s (κ := 1) zero_le_one (by rw [Complex.ofReal_one]; exact conditions_four s hs 1 (by norm_num)) a T hT h0 hc
    cols sigs hne hf rho (by simpa only [Complex.ofReal_one, one_smul, Real.sqrt_one, List.map_id'] using hU)

/-- **C204** (`tsit5`): this solver converges to the Schrödinger and to the master equation of a system whose energies and
rates are `tsitScale` times the given ones, because its decimal weights do not add up to one. The difference is below the
precision of a float. -/
theorem C204_tsit5 (a T : ℝ) (hT : 0 < T) (h0 : Matrix n n ℂ) (hc : String → Matrix n n ℂ)
    (cols : List (Matrix n n ℂ)) (sigs : List (String × (ℝ → ℝ))) (hne : sigs ≠ [])
    (hf : ∀ p ∈ sigs, LipOn a (a + T) p.2) :
    |tsitScale - 1| ≤ 1.5e-16 ∧
    (∀ psi : ℝ → n → ℂ, Ket (fun t => (tsitScale : ℂ) • driveBy h0 hc sigs t) a (a + T) psi →
      ∃ C : ℝ, ∀ N : ℕ, 2 ≤ N → ∃ ts out, Devices.createTs (N / T) a (a + T) true = some ts ∧
        finalState schrodingerStep h0 (fun k => some (hc k)) .tsit5 (channels sigs ts) (psi a) = .ok (out, ts) ∧
        ∀ i, ‖out i - psi (a + T) i‖ ≤ C / N) ∧
    ∀ rho : ℝ → Matrix n n ℂ, Converge.Master (fun t => (tsitScale : ℂ) • driveBy h0 hc sigs t)
        (cols.map fun L => ((Real.sqrt tsitScale : ℝ) : ℂ) • L) a (a + T) rho →
      ∃ C : ℝ, ∀ N : ℕ, 2 ≤ N → ∃ ts out, Devices.createTs (N / T) a (a + T) true = some ts ∧
        finalState (lindbladStep cols) h0 (fun k => some (hc k)) .tsit5 (channels sigs ts) (rho a) = .ok (out, ts) ∧
        (cols = [] → finalState vonNeumannStep h0 (fun k => some (hc k)) .tsit5 (channels sigs ts) (rho a) =
          .ok (out, ts)) ∧
        ∀ i j, ‖out i j - rho (a + T) i j‖ ≤ C / N := by
  refine ⟨?_, fun psi hU => kets .tsit5 conditions_tsit5 a T hT h0 hc sigs hne hf psi hU, fun rho hU =>
    densities .tsit5 ?_ conditions_tsit5 a T hT h0 hc cols sigs hne hf rho hU⟩
  · rw [abs_le, tsitScale]
    constructor <;> norm_num
  · rw [tsitScale]
    norm_num

/-- **C204** (kets): what the solvers follow to second order is the solution from half a slice after the start to half a
slice after the end, for signals with Lipschitz continuous derivative. -/
theorem C204_late (s : Solver) (hs : s ≠ .tsit5) (a b T : ℝ) (hT : 0 < T) (hb : a + 5 / 4 * T ≤ b) (h0 : Matrix n n ℂ)
    (hc : String → Matrix n n ℂ) (sigs : List (String × (ℝ → ℝ))) (hne : sigs ≠ [])
    (hf : ∀ p ∈ sigs, Converge.SmoothOn a b p.2) (psi : ℝ → n → ℂ) (hU : Ket (driveBy h0 hc sigs) a b psi) :
    ∃ C : ℝ, ∀ N : ℕ, 2 ≤ N → ∃ ts out, Devices.createTs (N / T) a (a + T) true = some ts ∧
      finalState schrodingerStep h0 (fun k => some (hc k)) s (channels sigs ts) (psi (a + 1 / 2 * (T / N))) =
        .ok (out, ts) ∧
      ∀ i, ‖out i - psi (a + 1 / 2 * (T / N) + T) i‖ ≤ C / N ^ 2 := by
  have hd := ket_deriv hU
  obtain ⟨C, hC⟩ := late s hs a b T hT hb schrodingerStep ketMap 0 ket_step h0 hc sigs hne hf psi
    (by
      intro t ht
      apply deriv_of_basis (Pi.basisFun ℂ n)
      intro i
      have h1 := hd t ht i
      exact h1)
  refine ⟨C, fun N hN => ?_⟩
  obtain ⟨ts, out, h1, h2, h3⟩ := hC N hN
  exact ⟨ts, out, h1, h2, fun i => (norm_le_pi_norm (out - psi _) i).trans h3⟩

open scoped Matrix.Norms.L2Operator in
/-- **C204** (density matrices): the same for the master equation. -/
theorem C204_late_open (s : Solver) (hs : s ≠ .tsit5) (a b T : ℝ) (hT : 0 < T) (hb : a + 5 / 4 * T ≤ b)
    (h0 : Matrix n n ℂ) (hc : String → Matrix n n ℂ) (cols : List (Matrix n n ℂ)) (sigs : List (String × (ℝ → ℝ)))
    (hne : sigs ≠ []) (hf : ∀ p ∈ sigs, Converge.SmoothOn a b p.2) (rho : ℝ → Matrix n n ℂ)
    (hU : Converge.Master (driveBy h0 hc sigs) cols a b rho) :
    ∃ C : ℝ, ∀ N : ℕ, 2 ≤ N → ∃ ts out, Devices.createTs (N / T) a (a + T) true = some ts ∧
      finalState (lindbladStep cols) h0 (fun k => some (hc k)) s (channels sigs ts) (rho (a + 1 / 2 * (T / N))) =
        .ok (out, ts) ∧
      ∀ i j, ‖out i j - rho (a + 1 / 2 * (T / N) + T) i j‖ ≤ C / N ^ 2 := by
  have hd := master_deriv hU
  obtain ⟨C, hC⟩ := late s hs a b T hT hb (lindbladStep cols) comMap (disMap cols) (lind_step cols) h0 hc sigs hne hf rho
    hd
  refine ⟨C, fun N hN => ?_⟩
  obtain ⟨ts, out, h1, h2, h3⟩ := hC N hN
  exact ⟨ts, out, h1, h2, fun i j => (Converge.entry_le (out - rho _) i j).trans h3⟩

/-- A level whose frequency grows linearly. -/
def chirp (t : ℝ) : Unit → ℂ := fun _ => Complex.exp (-Complex.I * ((t ^ 2 / 2 : ℝ) : ℂ))

theorem chirp_ket (b : ℝ) : Ket (driveBy (0 : Matrix Unit Unit ℂ) (fun _ => 1) [("d", fun t => t)]) 0 b chirp := by
  intro t _ i
  have h1 : HasDerivAt (fun t : ℝ => t ^ 2 / 2) t t := by
    have := (hasDerivAt_pow 2 t).div_const 2
    have e : ((2 : ℕ) : ℝ) * t ^ (2 - 1) / 2 = t := by simp
    rwa [e] at this
  have h2 := ((h1.ofReal_comp).const_mul (-Complex.I)).cexp.hasDerivWithinAt (s := Icc 0 b)
  have e : -Complex.I * ((driveBy (0 : Matrix Unit Unit ℂ) (fun _ => 1) [("d", fun t => t)] t) *ᵥ chirp t) i =
      Complex.exp (-Complex.I * ((t ^ 2 / 2 : ℝ) : ℂ)) * (-Complex.I * (t : ℂ)) := by
    simp [driveBy, chirp, mulVec, dotProduct]
    ring
  rw [e]
  exact h2

omit [DecidableEq n] in
theorem final_smul (s : Solver) (h : ℝ) (Hs : ℕ → ℕ → Matrix n n ℂ) (c : ℂ) (N : ℕ) (x : n → ℂ) :
    (List.range N).foldl (fun st i => s.run (schrodingerStep h) st (Hs i)) (c • x) =
      c • (List.range N).foldl (fun st i => s.run (schrodingerStep h) st (Hs i)) x := by
  induction N with
  | zero => rfl
  | succ N ih =>
    simp only [List.range_succ, List.foldl_append, List.foldl_cons, List.foldl_nil]
    rw [ih]
    refine run_rel s _ _ _ _ (fun y z => y = c • z) (fun _ _ _ _ e1 e2 => by rw [e1, e2, smul_add])
      (fun _ _ _ _ e1 e2 => by rw [e1, e2, smul_sub]) (fun d _ _ e => by rw [e, smul_comm])
      (fun j _ _ _ e => ?_) _ _ rfl
    rw [e, schrodingerStep, schrodingerStep, mulVec_smul, smul_comm _ c, smul_comm _ c]

/-- **C204 is false** with the second order that the samples at the slice centres give `pwc` (C202): for a level whose
frequency grows linearly no constant bounds the error times `N²`. -/
theorem C204_false_second (s : Solver) (hs : s ≠ .tsit5) :
    Ket (driveBy (0 : Matrix Unit Unit ℂ) (fun _ => 1) [("d", fun t => t)]) 0 (0 + 1) chirp ∧
    ¬ ∃ C : ℝ, ∀ N : ℕ, 2 ≤ N → ∀ ts out, Devices.createTs (N / 1) 0 (0 + 1) true = some ts →
      finalState schrodingerStep (0 : Matrix Unit Unit ℂ) (fun _ => some 1) s (channels [("d", fun t => t)] ts)
        (chirp 0) = .ok (out, ts) →
      ∀ i, ‖out i - chirp (0 + 1) i‖ ≤ C / N ^ 2 := by
  refine ⟨chirp_ket _, ?_⟩
  rintro ⟨C, hC⟩
  obtain ⟨C', hC'⟩ := C204_late s hs 0 2 1 one_pos (by norm_num) (0 : Matrix Unit Unit ℂ) (fun _ => 1)
    [("d", fun t => t)] (by simp) (by
      intro p hp
      rw [List.mem_singleton.1 hp]
      exact Converge.smoothOn_id 0 2) chirp (chirp_ket 2)
  obtain ⟨N, hN⟩ := exists_nat_gt (4 * (C + C') + 2)
  have hbig : ∀ N : ℕ, 2 ≤ N → (N : ℝ) ≤ 4 * (C + C') := by
    intro N hN
    have hN' : (0 : ℝ) < N := by exact_mod_cast (by omega : 0 < N)
    have hts := Converge.grid_samples 0 1 one_pos N (by omega)
    rw [grid_uniform] at hts
    have hfin := fun x => final_channels schrodingerStep (0 : Matrix Unit Unit ℂ) (fun _ => 1) s
      [("d", fun t => t)] (by simp) (0 + 1 / 2 * (1 / N)) (1 / N) (by positivity) N hN x
    obtain ⟨ts, out, h1, h2, h3⟩ := hC' N hN
    rw [hts, Option.some.injEq] at h1
    subst h1
    have h4 := hC N hN _ _ hts (hfin (chirp 0)) ()
    rw [hfin, Except.ok.injEq, Prod.mk.injEq] at h2
    set α : ℝ := 0 + 1 / 2 * (1 / N) with hα
    have hc : chirp α = (chirp α ()) • chirp 0 := by
      funext i
      simp [chirp]
    rw [hc, final_smul] at h2
    have h5 := h3 ()
    rw [← h2.1] at h5
    set o := (List.range N).foldl (fun st i => s.run (schrodingerStep (1 / N)) st fun j =>
      (0 : Matrix Unit Unit ℂ) + ([("d", fun t => t)].map fun p : String × (ℝ → ℝ) =>
        (lineAt (samples p.2 α (1 / N) N) i ((nodes s).getD j 0) : ℂ) • (1 : Matrix Unit Unit ℂ)).sum) (chirp 0) with ho
    have hn : ‖chirp α ()‖ = 1 := by
      have : -Complex.I * ((α ^ 2 / 2 : ℝ) : ℂ) = ((-(α ^ 2 / 2) : ℝ) : ℂ) * Complex.I := by push_cast; ring
      rw [chirp, this, Complex.norm_exp_ofReal_mul_I]
    have h6 : ‖chirp α () * chirp 1 () - chirp (α + 1) ()‖ ≤ (C + C') / N ^ 2 := by
      have e : chirp α () * chirp 1 () - chirp (α + 1) () =
          -(chirp α () * (o () - chirp (0 + 1) ())) + ((chirp α () • o) () - chirp (α + 1) ()) := by
        rw [Pi.smul_apply, smul_eq_mul, zero_add]
        ring
      rw [e, add_div]
      refine norm_add_le_of_le ?_ h5
      rw [norm_neg, norm_mul, hn, one_mul]
      exact h4
    have hα0 : 0 < α := by rw [hα]; positivity
    have h7 : 1 / 2 * α ≤ ‖chirp α () * chirp 1 () - chirp (α + 1) ()‖ := by
      have e : chirp α () * chirp 1 () - chirp (α + 1) () =
          Complex.exp (((-((α ^ 2 + 1) / 2) : ℝ) : ℂ) * Complex.I) * (1 - Complex.exp (((-α : ℝ) : ℂ) * Complex.I)) := by
        simp only [chirp]
        rw [mul_sub, mul_one, ← Complex.exp_add, ← Complex.exp_add]
        congr 2 <;> push_cast <;> ring
      rw [e, norm_mul, Complex.norm_exp_ofReal_mul_I, one_mul]
      refine le_trans ?_ (Complex.abs_im_le_norm _)
      rw [Complex.sub_im, Complex.one_im, Complex.exp_ofReal_mul_I_im, Real.sin_neg, zero_sub, neg_neg]
      refine le_trans ?_ (le_abs_self _)
      have hα1 : α ≤ 1 := by
        have h8 : (1 : ℝ) / N ≤ 1 := by
          rw [div_le_one hN']
          exact_mod_cast (by omega : 1 ≤ N)
        rw [hα]
        linarith
      have h9 := Real.mul_le_sin hα0.le (hα1.trans (by linarith [Real.two_le_pi]))
      refine le_trans ?_ h9
      refine mul_le_mul_of_nonneg_right ?_ hα0.le
      rw [div_le_div_iff₀ two_pos Real.pi_pos]
      linarith [Real.pi_le_four]
    have h8 := h7.trans h6
    rw [hα, le_div_iff₀ (by positivity)] at h8
    have e : 1 / 2 * (0 + 1 / 2 * (1 / (N : ℝ))) * N ^ 2 = N / 4 := by
      field_simp
      ring
    rw [e] at h8
    linarith
  have h1 := hbig (N + 2) (by omega)
  push_cast at h1
  linarith

/-! ## C205 -/

/-- **C205** (kets): with the Hamiltonian taken at the times of the nodes of each step, and signals with four continuous
derivatives, the final state differs from the solution by at most a constant over `N⁴`. -/
theorem C205_schrodinger (s : Solver) (hs : s ≠ .tsit5) (a T : ℝ) (hT : 0 < T) (h0 : Matrix n n ℂ)
    (hc : String → Matrix n n ℂ) (sigs : List (String × (ℝ → ℝ)))
    (hf : ∀ p ∈ sigs, ContDiffOn ℝ 4 p.2 (Icc a (a + T))) (psi : ℝ → n → ℂ)
    (hU : Ket (driveBy h0 hc sigs) a (a + T) psi) :
    ∃ C : ℝ, ∀ N : ℕ, 1 ≤ N → ∀ Hs : ℕ → Matrix n n ℂ,
      (∀ i < N, ∀ j < (nodes s).length,
        Hs (s.start * i + j) = driveBy h0 hc sigs (a + (i + (nodes s).getD j 0) * (T / N))) →
      ∀ i, ‖odeSolverFinal s (schrodingerStep (T / N)) Hs N (psi a) i - psi (a + T) i‖ ≤ C / N ^ 4 := by
  have hd := ket_deriv hU
  obtain ⟨C, hC⟩ := fourth s hs a T hT schrodingerStep ketMap 0 ket_step h0 hc sigs hf psi
    (by
      intro t ht
      apply deriv_of_basis (Pi.basisFun ℂ n)
      intro i
      have h1 := hd t ht i
      exact h1)
  exact ⟨C, fun N hN Hs hHs i => (norm_le_pi_norm (odeSolverFinal s _ Hs N (psi a) - psi (a + T)) i).trans
    (hC N hN Hs hHs)⟩

open scoped Matrix.Norms.L2Operator in
/-- **C205** (density matrices): the same for the master equation, and without collapse operators for the von Neumann
equation. -/
theorem C205_lindblad (s : Solver) (hs : s ≠ .tsit5) (a T : ℝ) (hT : 0 < T) (h0 : Matrix n n ℂ)
    (hc : String → Matrix n n ℂ) (cols : List (Matrix n n ℂ)) (sigs : List (String × (ℝ → ℝ)))
    (hf : ∀ p ∈ sigs, ContDiffOn ℝ 4 p.2 (Icc a (a + T))) (rho : ℝ → Matrix n n ℂ)
    (hU : Converge.Master (driveBy h0 hc sigs) cols a (a + T) rho) :
    ∃ C : ℝ, ∀ N : ℕ, 1 ≤ N → ∀ Hs : ℕ → Matrix n n ℂ,
      (∀ i < N, ∀ j < (nodes s).length,
        Hs (s.start * i + j) = driveBy h0 hc sigs (a + (i + (nodes s).getD j 0) * (T / N))) →
      ∀ i j, ‖odeSolverFinal s (lindbladStep cols (T / N)) Hs N (rho a) i j - rho (a + T) i j‖ ≤ C / N ^ 4 ∧
        (cols = [] → ‖odeSolverFinal s (vonNeumannStep (T / N)) Hs N (rho a) i j - rho (a + T) i j‖ ≤ C / N ^ 4) := by
  have hd := master_deriv hU
  obtain ⟨C, hC⟩ := fourth s hs a T hT (lindbladStep cols) comMap (disMap cols) (lind_step cols) h0 hc sigs hf rho
    hd
  refine ⟨C, fun N hN Hs hHs i j => ?_⟩
  have h := (Converge.entry_le (odeSolverFinal s (lindbladStep cols (T / N)) Hs N (rho a) - rho (a + T)) i j).trans
    (hC N hN Hs hHs)
  refine ⟨h, fun hcols => ?_⟩
  rw [vonNeumann_lind, ← hcols]
  exact h

/-- Every series of samples belongs to Hamiltonians at the nodes, if the samples shared by neighbouring steps agree. -/
example : ∃ Hs : ℕ → Matrix Unit Unit ℂ, ∀ i < 3, ∀ j < (nodes .rk4).length,
    Hs (Solver.rk4.start * i + j) =
      driveBy 0 (fun _ => 1) [("d", fun t => t)] (0 + (i + (nodes .rk4).getD j 0) * (1 / (3 : ℕ))) := by
  refine ⟨fun k => driveBy 0 (fun _ => 1) [("d", fun t => t)] (k / 6), fun i _ j hj => ?_⟩
  have e : ((Solver.rk4.start * i + j : ℕ) : ℝ) / 6 = 0 + (i + (nodes .rk4).getD j 0) * (1 / (3 : ℕ)) := by
    simp only [nodes, List.length_cons, List.length_nil] at hj
    interval_cases j <;> simp [nodes, Solver.start] <;> ring
  beta_reduce
  rw [e]

example : LipOn 0 (0 + 1) fun t => t := ⟨1, fun _ _ _ _ => by simp⟩

example : ContDiffOn ℝ 4 (fun t : ℝ => t) (Icc 0 (0 + 1)) := contDiffOn_id

end C3.Propagation.SolverConverge
