import Verif.Propagation.Series
import Verif.Propagation.Converge
import Mathlib.Analysis.Normed.Algebra.Exponential
import Mathlib.Analysis.Analytic.Basic

/-!
# C241: many Trotterised steps and the evolution under the Hamiltonian

The step is `pwc_trott_drift` (c3/libraries/propagation.py:443-458), modelled in `Series.lean`. Here `N` of these steps with the
time step `T / N` and constant control fields are compared with `exp(-i T (h0 + ht))`.
-/

namespace C3.Propagation.Trotter

open NormedSpace Filter Topology Asymptotics

section Banach

variable {𝔸 : Type*} [NormedRing 𝔸] [NormedAlgebra ℝ 𝔸] [CompleteSpace 𝔸]

omit [NormedAlgebra ℝ 𝔸] [CompleteSpace 𝔸] in
theorem norm_pow_sub (a b : 𝔸) (q : ℝ) (h1 : ‖(1 : 𝔸)‖ ≤ 1) (hq : 1 ≤ q) (ha : ‖a‖ ≤ q) (hb : ‖b‖ ≤ q) (N : ℕ) :
    ‖a ^ N - b ^ N‖ ≤ N * q ^ N * ‖a - b‖ := by
  have hp : ∀ N : ℕ, ‖a ^ N‖ ≤ q ^ N := by
    intro N
    induction N with
    | zero => simpa using h1
    | succ N ih =>
      rw [pow_succ, pow_succ]
      exact (norm_mul_le _ _).trans (mul_le_mul ih ha (norm_nonneg _) (by positivity))
  induction N with
  | zero => simp
  | succ N ih =>
    have e : a ^ (N + 1) - b ^ (N + 1) = a ^ N * (a - b) + (a ^ N - b ^ N) * b := by
      rw [pow_succ, pow_succ]; noncomm_ring
    rw [e]
    have x1 : ‖a ^ N * (a - b)‖ ≤ q ^ (N + 1) * ‖a - b‖ :=
      (norm_mul_le _ _).trans (mul_le_mul_of_nonneg_right ((hp N).trans (pow_le_pow_right₀ hq (by omega)))
        (norm_nonneg _))
    have x2 : ‖(a ^ N - b ^ N) * b‖ ≤ N * q ^ N * ‖a - b‖ * q :=
      (norm_mul_le _ _).trans (mul_le_mul ih hb (norm_nonneg _) (by positivity))
    calc _ ≤ _ := norm_add_le _ _
      _ ≤ q ^ (N + 1) * ‖a - b‖ + N * q ^ N * ‖a - b‖ * q := add_le_add x1 x2
      _ = _ := by push_cast; ring

/-- What `N` steps of length `T / N` are off by, if one step is off by `e s` for the length `s`. -/
theorem steps (F : ℝ → 𝔸) (X : 𝔸) (h0 : F 0 = 1) (hF : HasDerivAt F X 0) (h1 : ‖(1 : 𝔸)‖ ≤ 1) (T : ℝ) :
    ∃ C : ℝ, 0 ≤ C ∧ ∀ᶠ N : ℕ in atTop,
      ‖F (T / N) ^ N - exp (T • X)‖ ≤ C * (N * ‖F (T / N) - exp ((T / N) • X)‖) := by
  let _ : NormedAlgebra ℚ 𝔸 := NormedAlgebra.restrictScalars ℚ ℝ 𝔸
  have hb : ∀ᶠ s in 𝓝 (0 : ℝ), ‖F s - 1‖ ≤ (‖X‖ + 1) * |s| := by
    have := (hF.isLittleO.def (zero_lt_one))
    filter_upwards [this] with s hs
    simp only [sub_zero, h0, one_mul] at hs
    have e : F s - 1 = (F s - 1 - s • X) + s • X := by abel
    rw [e]
    refine (norm_add_le _ _).trans ?_
    rw [norm_smul]
    rw [Real.norm_eq_abs] at hs ⊢
    nlinarith [abs_nonneg s]
  have ht : Tendsto (fun N : ℕ => T / N) atTop (𝓝 0) := tendsto_const_div_atTop_nhds_zero_nat T
  refine ⟨Real.exp ((‖X‖ + 1) * |T|), (Real.exp_pos _).le, ?_⟩
  filter_upwards [ht.eventually hb, eventually_ge_atTop 1] with N hN hN1
  have hN0 : (N : ℝ) ≠ 0 := by positivity
  have hG : exp (T • X) = exp ((T / N) • X) ^ N := by
    rw [← NormedSpace.exp_nsmul, ← Nat.cast_smul_eq_nsmul ℝ, smul_smul]
    congr 2
    field_simp
  have hq : 1 ≤ Real.exp ((‖X‖ + 1) * |T / N|) := Real.one_le_exp (by positivity)
  have a1 : ‖F (T / N)‖ ≤ Real.exp ((‖X‖ + 1) * |T / N|) := by
    have e : F (T / N) = (F (T / N) - 1) + 1 := by abel
    rw [e]
    refine (norm_add_le _ _).trans ?_
    have := Real.add_one_le_exp ((‖X‖ + 1) * |T / N|)
    linarith
  have a2 := Converge.norm_exp_smul_le X (‖X‖ + 1) (T / N) (by linarith) h1
  rw [hG]
  refine (norm_pow_sub _ _ _ h1 hq a1 a2 N).trans (le_of_eq ?_)
  rw [← Real.exp_nat_mul, abs_div, Nat.abs_cast]
  have : (N : ℝ) * ((‖X‖ + 1) * (|T| / N)) = (‖X‖ + 1) * |T| := by field_simp
  rw [this]
  ring

/-- `N` steps of length `T / N` converge to the exponential of the derivative of the step. -/
theorem chernoff (F : ℝ → 𝔸) (X : 𝔸) (h0 : F 0 = 1) (hF : HasDerivAt F X 0) (h1 : ‖(1 : 𝔸)‖ ≤ 1) (T : ℝ) :
    Tendsto (fun N : ℕ => F (T / N) ^ N) atTop (𝓝 (exp (T • X))) := by
  obtain ⟨C, hC, h⟩ := steps F X h0 hF h1 T
  have ht : Tendsto (fun N : ℕ => T / N) atTop (𝓝 0) := tendsto_const_div_atTop_nhds_zero_nat T
  have hd : HasDerivAt (fun s => F s - exp (s • X)) 0 0 := by
    have h2 : HasDerivAt (fun s : ℝ => exp (s • X)) X 0 := by
      have := hasDerivAt_exp_smul_const (𝕂 := ℝ) X (0 : ℝ)
      simpa using this
    have h3 := hF.fun_sub h2
    rwa [sub_self] at h3
  have ho : (fun s => F s - exp (s • X)) =o[𝓝 0] fun s : ℝ => s := by
    have := hd.isLittleO
    simpa [h0] using this
  have ho2 := ho.comp_tendsto ht
  rw [tendsto_iff_norm_sub_tendsto_zero]
  refine squeeze_zero' (Eventually.of_forall fun _ => norm_nonneg _) h ?_
  rw [show (0 : ℝ) = C * 0 by ring]
  refine Tendsto.const_mul C ?_
  have ho3 : (fun N : ℕ => (N : ℝ) * ‖F (T / N) - exp ((T / N) • X)‖) =o[atTop] fun _ => (1 : ℝ) := by
    have := (isBigO_refl (fun N : ℕ => (N : ℝ)) atTop).mul_isLittleO ho2.norm_left
    refine this.trans_isBigO ?_
    refine IsBigO.of_bound |T| ?_
    filter_upwards [eventually_ge_atTop 1] with N hN
    have hN0 : (N : ℝ) ≠ 0 := by positivity
    simp only [Function.comp_apply]
    rw [mul_div_cancel₀ _ hN0]
    simp
  exact (isLittleO_one_iff ℝ).1 ho3

/-- The exponential to second order. -/
theorem exp_second (A : 𝔸) :
    (fun t : ℝ => exp (t • A) - (1 + t • A + (1 / 2 : ℝ) • (t • A) ^ 2)) =O[𝓝 0] fun t : ℝ => t ^ 3 := by
  have h1 : HasFPowerSeriesAt (exp : 𝔸 → 𝔸) (expSeries ℝ 𝔸) 0 :=
    (exp_hasFPowerSeriesOnBall (𝕂 := ℝ)).hasFPowerSeriesAt
  have h2 := h1.isBigO_sub_partialSum_pow 3
  have ht : Tendsto (fun t : ℝ => t • A) (𝓝 0) (𝓝 0) := by
    have : Continuous fun t : ℝ => t • A := by fun_prop
    simpa using this.tendsto 0
  have h3 := h2.comp_tendsto ht
  have h4 : (fun t : ℝ => ‖t • A‖ ^ 3) =O[𝓝 0] fun t : ℝ => t ^ 3 := by
    refine IsBigO.of_bound (‖A‖ ^ 3) (Eventually.of_forall fun t => ?_)
    rw [norm_smul, norm_pow, norm_pow, norm_mul, norm_norm, norm_norm]
    apply le_of_eq; ring
  refine (h3.trans h4).congr_left fun t => ?_
  simp only [Function.comp_apply, zero_add, FormalMultilinearSeries.partialSum, Finset.sum_range_succ,
    Finset.sum_range_zero, expSeries_apply_eq]
  simp [Nat.factorial]

/-- The step with the commutator is the exponential of the sum to second order. -/
theorem split (A B : 𝔸) :
    (fun t : ℝ => exp (t • A) * exp (t • B) * (1 - (t ^ 2 / 2) • (A * B - B * A)) - exp (t • (A + B))) =O[𝓝 0]
      fun t : ℝ => t ^ 3 := by
  have lin : ∀ X : 𝔸, (fun t : ℝ => t • X) =O[𝓝 0] fun t : ℝ => t := fun X =>
    IsBigO.of_bound ‖X‖ (Eventually.of_forall fun t => by rw [norm_smul, mul_comm])
  have bdd : ∀ f : ℝ → 𝔸, Continuous f → f =O[𝓝 0] fun _ => (1 : ℝ) := fun f hf =>
    (hf.tendsto 0).isBigO_one ℝ
  have e1 := exp_second A
  have e2 := exp_second B
  have e3 := exp_second (A + B)
  have cexp : ∀ X : 𝔸, Continuous fun t : ℝ => exp (t • X) := fun X =>
    continuous_iff_continuousAt.2 fun t => (hasDerivAt_exp_smul_const (𝕂 := ℝ) X t).continuousAt
  have c : Continuous fun t : ℝ => (1 : 𝔸) - (t ^ 2 / 2) • (A * B - B * A) := by fun_prop
  -- the first and the second exponential, with the other factors bounded
  have p1 := ((e1.mul (bdd _ (cexp B))).mul (bdd _ c)).congr_right (g₂ := fun t : ℝ => t ^ 3) fun t => by ring
  have p2 := (((bdd (fun t : ℝ => 1 + t • A + (1 / 2 : ℝ) • (t • A) ^ 2) (by fun_prop)).mul e2).mul
    (bdd _ c)).congr_right (g₂ := fun t : ℝ => t ^ 3) fun t => by ring
  -- the polynomials
  have la := lin A
  have lb := lin B
  have hc : (fun t : ℝ => (1 / 2 : ℝ) • ((t • A) * (t • B) - (t • B) * (t • A))) =O[𝓝 0] fun t : ℝ => t * t :=
    ((la.mul lb).sub (lb.mul la)).const_smul_left (1 / 2 : ℝ)
  have low : ∀ (k : ℕ) {f : ℝ → 𝔸}, f =O[𝓝 0] (fun t : ℝ => t ^ (3 + k)) → f =O[𝓝 0] fun t : ℝ => t ^ 3 := by
    intro k f hf
    refine hf.trans ?_
    refine IsBigO.of_bound 1 ?_
    filter_upwards [Metric.ball_mem_nhds (0 : ℝ) zero_lt_one] with t ht
    rw [Metric.mem_ball, dist_zero_right] at ht
    rw [pow_add, norm_mul, norm_pow, norm_pow, one_mul]
    exact mul_le_of_le_one_right (by positivity) (pow_le_one₀ (norm_nonneg _) ht.le)
  have r1 : (fun t : ℝ => (1 / 2 : ℝ) • ((t • A) * (t • B) ^ 2) + (1 / 2 : ℝ) • ((t • A) ^ 2 * (t • B))) =O[𝓝 0]
      fun t : ℝ => t ^ 3 := by
    refine IsBigO.add ?_ ?_
    · refine ((la.mul (lb.pow 2)).const_smul_left (1 / 2 : ℝ)).congr_right fun t => by ring
    · refine (((la.pow 2).mul lb).const_smul_left (1 / 2 : ℝ)).congr_right fun t => by ring
  have r2 : (fun t : ℝ => (1 / 4 : ℝ) • ((t • A) ^ 2 * (t • B) ^ 2)) =O[𝓝 0] fun t : ℝ => t ^ 3 := by
    refine low 1 ((((la.pow 2).mul (lb.pow 2)).const_smul_left (1 / 4 : ℝ)).congr_right fun t => by ring)
  have s1 : (fun t : ℝ => (t • A + t • B) * ((1 / 2 : ℝ) • ((t • A) * (t • B) - (t • B) * (t • A)))) =O[𝓝 0]
      fun t : ℝ => t ^ 3 := ((la.add lb).mul hc).congr_right fun t => by ring
  have s2 : (fun t : ℝ => ((1 / 2 : ℝ) • (t • A) ^ 2 + (t • A) * (t • B) + (1 / 2 : ℝ) • (t • B) ^ 2) *
      ((1 / 2 : ℝ) • ((t • A) * (t • B) - (t • B) * (t • A)))) =O[𝓝 0] fun t : ℝ => t ^ 3 := by
    have q : (fun t : ℝ => (1 / 2 : ℝ) • (t • A) ^ 2 + (t • A) * (t • B) + (1 / 2 : ℝ) • (t • B) ^ 2) =O[𝓝 0]
        fun t : ℝ => t ^ 2 := by
      refine IsBigO.add (IsBigO.add ((la.pow 2).const_smul_left (1 / 2 : ℝ)) ?_)
        ((lb.pow 2).const_smul_left (1 / 2 : ℝ))
      exact (la.mul lb).congr_right fun t => by ring
    exact low 1 ((q.mul hc).congr_right fun t => by ring)
  have s3 : (fun t : ℝ => ((1 / 2 : ℝ) • ((t • A) * (t • B) ^ 2) + (1 / 2 : ℝ) • ((t • A) ^ 2 * (t • B)) +
      (1 / 4 : ℝ) • ((t • A) ^ 2 * (t • B) ^ 2)) *
      ((1 / 2 : ℝ) • ((t • A) * (t • B) - (t • B) * (t • A)))) =O[𝓝 0] fun t : ℝ => t ^ 3 :=
    low 2 (((r1.add r2).mul hc).congr_right fun t => by ring)
  have total := ((((((r1.add r2).sub s1).sub s2).sub s3).add p1).add p2).sub e3
  refine total.congr_left fun t => ?_
  have hs : (t ^ 2 / 2) • (A * B - B * A) = (1 / 2 : ℝ) • ((t • A) * (t • B) - (t • B) * (t • A)) := by
    simp only [smul_mul_smul_comm, smul_sub, smul_smul]
    congr 2 <;> ring
  rw [hs, smul_add]
  generalize t • A = a
  generalize t • B = b
  have hab : (1 / 2 : ℝ) • (a + b) ^ 2 = ((1 / 2 : ℝ) • a ^ 2 + a * b + (1 / 2 : ℝ) • b ^ 2) -
      (1 / 2 : ℝ) • (a * b - b * a) := by
    simp only [pow_two, mul_add, add_mul, smul_add, smul_sub]
    module
  rw [hab]
  simp only [mul_add, add_mul, mul_sub, sub_mul, smul_mul_assoc, mul_smul_comm, mul_one, one_mul, pow_two, mul_assoc,
    smul_add, smul_sub]
  module

/-- The derivative of the step as it stands in the code. -/
theorem step_deriv (A B : 𝔸) :
    HasDerivAt (fun t : ℝ => exp (t • A) * exp (t • B) * (exp (t • A) - (t ^ 2 / 2) • (A * B - B * A)))
      ((2 : ℝ) • A + B) 0 := by
  have ha : ∀ X : 𝔸, HasDerivAt (fun t : ℝ => exp (t • X)) X 0 := fun X => by
    simpa using hasDerivAt_exp_smul_const (𝕂 := ℝ) X (0 : ℝ)
  have hc : HasDerivAt (fun t : ℝ => (t ^ 2 / 2) • (A * B - B * A)) 0 0 := by
    have h : HasDerivAt (fun t : ℝ => t ^ 2 / 2) 0 0 := by
      simpa using ((hasDerivAt_id (0 : ℝ)).pow 2).div_const 2
    simpa using h.smul_const (A * B - B * A)
  have := ((ha A).fun_mul (ha B)).fun_mul ((ha A).fun_sub hc)
  refine this.congr_deriv ?_
  simp [two_smul]
  abel

end Banach

section Matrices

open Matrix
open scoped Matrix.Norms.L2Operator

variable {n : Type*} [Fintype n] [DecidableEq n]

omit [Fintype n] [DecidableEq n] in
theorem real_smul (t : ℝ) (M : Matrix n n ℂ) : (t : ℂ) • M = t • M := by
  ext i j; simp

/-- The step of the code with exponentials in place of the eigenvectors. -/
theorem step_eq (h0 : Matrix n n ℂ) (e : n → ℝ) (v ht : Matrix n n ℂ) (dt : ℝ) (hv : v * vᵀ = 1)
    (heig : h0 * v = v * Matrix.diagonal fun i => (e i : ℂ)) :
    trottDrift h0 e v ht dt = exp (dt • ((-Complex.I) • h0)) * exp (dt • ((-Complex.I) • ht)) *
      (exp (dt • ((-Complex.I) • h0)) - (dt ^ 2 / 2) •
        ((-Complex.I) • h0 * ((-Complex.I) • ht) - (-Complex.I) • ht * ((-Complex.I) • h0))) := by
  simp only [trottDrift]
  rw [drift_exp h0 e v dt hv heig]
  simp only [real_smul]
  congr 2
  rw [← real_smul]
  simp only [Matrix.smul_mul, Matrix.mul_smul, smul_smul, smul_sub]
  ext i j
  simp [Complex.I_mul_I]
  ring_nf

/-- **C241 is false**: with constant fields, ever more Trotterised steps converge to the evolution with *twice* the drift
Hamiltonian. -/
theorem C241_false_limit (h0 : Matrix n n ℂ) (e : n → ℝ) (v ht : Matrix n n ℂ) (T : ℝ) (hv : v * vᵀ = 1)
    (heig : h0 * v = v * Matrix.diagonal fun i => (e i : ℂ)) :
    Tendsto (fun N : ℕ => trottDrift h0 e v ht (T / N) ^ N) atTop
      (𝓝 (exp ((T : ℂ) • (-Complex.I) • ((2 : ℂ) • h0 + ht)))) := by
  have h := chernoff (fun t : ℝ => trottDrift h0 e v ht t) ((2 : ℝ) • ((-Complex.I) • h0) + (-Complex.I) • ht)
    (by simp [step_eq h0 e v ht _ hv heig])
    (by
      have := step_deriv ((-Complex.I) • h0) ((-Complex.I) • ht)
      refine this.congr_of_eventuallyEq (Eventually.of_forall fun t => ?_)
      exact step_eq h0 e v ht t hv heig)
    Converge.norm_one_le T
  have e1 : (T : ℂ) • (-Complex.I) • ((2 : ℂ) • h0 + ht) =
      T • ((2 : ℝ) • ((-Complex.I) • h0) + (-Complex.I) • ht) := by
    rw [real_smul, smul_add, ← real_smul 2, smul_comm]
    norm_num
  rw [e1]
  exact h

/-- **C241**, what holds: if the last factor of the step starts from the identity instead of from a copy of the drift
propagator, `N` steps agree with the evolution under `h0 + ht` up to an error of second order in `1 / N`: the term with the
commutator is the right one. -/
theorem C241_order_partial (h0 : Matrix n n ℂ) (e : n → ℝ) (v ht : Matrix n n ℂ) (T : ℝ) (hv : v * vᵀ = 1)
    (heig : h0 * v = v * Matrix.diagonal fun i => (e i : ℂ)) (F : ℝ → Matrix n n ℂ)
    (hF : ∀ dt : ℝ, F dt = trottDrift h0 e v ht dt - exp ((dt : ℂ) • (-Complex.I) • h0) *
      exp ((dt : ℂ) • (-Complex.I) • ht) * (exp ((dt : ℂ) • (-Complex.I) • h0) - 1)) :
    ∃ C : ℝ, ∀ᶠ N : ℕ in atTop, ∀ i j,
      ‖(F (T / N) ^ N - exp ((T : ℂ) • (-Complex.I) • (h0 + ht))) i j‖ ≤ C / N ^ 2 := by
  set A := (-Complex.I) • h0 with hA
  set B := (-Complex.I) • ht with hB
  have hF' : F = fun t : ℝ => exp (t • A) * exp (t • B) * (1 - (t ^ 2 / 2) • (A * B - B * A)) := by
    funext t
    rw [hF, step_eq h0 e v ht t hv heig, real_smul, real_smul]
    simp only [mul_sub, mul_one, ← hA, ← hB]
    abel
  have hO := split A B
  have hd : HasDerivAt F (A + B) 0 := by
    have hG : HasDerivAt (fun t : ℝ => exp (t • (A + B))) (A + B) 0 := by
      simpa using hasDerivAt_exp_smul_const (𝕂 := ℝ) (A + B) (0 : ℝ)
    have ho : (fun t : ℝ => F t - exp (t • (A + B))) =o[𝓝 0] fun t : ℝ => t := by
      rw [hF']
      refine hO.trans_isLittleO ?_
      simpa using (isLittleO_pow_pow (𝕜 := ℝ) (show 1 < 3 by norm_num))
    have hz : HasDerivAt (fun t : ℝ => F t - exp (t • (A + B))) 0 0 := by
      rw [hasDerivAt_iff_isLittleO]
      have e0 : F 0 - exp ((0 : ℝ) • (A + B)) = 0 := by rw [hF']; simp
      refine ho.congr (fun t => ?_) fun t => ?_
      · rw [e0, smul_zero, sub_zero, sub_zero]
      · rw [sub_zero]
    have := hz.fun_add hG
    simpa using this
  obtain ⟨C, hC, h⟩ := steps F (A + B) (by rw [hF']; simp) hd Converge.norm_one_le T
  obtain ⟨K, hK0, hK⟩ := hO.exists_pos
  have ht' : Tendsto (fun N : ℕ => T / N) atTop (𝓝 0) := tendsto_const_div_atTop_nhds_zero_nat T
  refine ⟨C * (K * |T| ^ 3), ?_⟩
  filter_upwards [h, ht'.eventually hK.bound, eventually_ge_atTop 1] with N h1 h2 h3 i j
  have e1 : (T : ℂ) • (-Complex.I) • (h0 + ht) = T • (A + B) := by rw [real_smul, smul_add, hA, hB]
  rw [e1]
  refine (Converge.entry_le _ i j).trans (h1.trans ?_)
  have hN : (0 : ℝ) < N := by positivity
  rw [hF']
  have h4 : (N : ℝ) * (K * ‖(T / N) ^ 3‖) = K * |T| ^ 3 / N ^ 2 := by
    rw [norm_pow, norm_div, Real.norm_eq_abs, Real.norm_natCast]
    field_simp
  calc _ ≤ C * (N * (K * ‖(T / N) ^ 3‖)) :=
        mul_le_mul_of_nonneg_left (mul_le_mul_of_nonneg_left h2 hN.le) hC
    _ = _ := by rw [h4]; ring

/-- C241, a concrete case: without fields and for the drift `diag(0, 1)`, steps that add up to the time `π` converge to the
identity; the evolution is `diag(1, -1)`. -/
theorem C241_false_witness :
    ¬ Tendsto (fun N : ℕ => trottDrift (Matrix.diagonal ![0, 1]) ![0, 1] (1 : Matrix (Fin 2) (Fin 2) ℂ) 0
      (Real.pi / N) ^ N) atTop
      (𝓝 (exp (((Real.pi : ℝ) : ℂ) • (-Complex.I) • (Matrix.diagonal ![0, 1] + 0)))) := by
  have heig : (Matrix.diagonal ![0, 1] : Matrix (Fin 2) (Fin 2) ℂ) * 1 =
      1 * Matrix.diagonal fun i => ((![0, 1] i : ℝ) : ℂ) := by
    rw [Matrix.mul_one, Matrix.one_mul]
    congr 1
    funext i
    fin_cases i <;> simp
  intro h
  have h2 := tendsto_nhds_unique h (C241_false_limit _ _ _ _ _ (by simp) heig)
  have d : ∀ c : ℂ, exp ((Real.pi : ℂ) • (-Complex.I) • (c • (Matrix.diagonal ![0, 1] : Matrix (Fin 2) (Fin 2) ℂ) + 0)) 1 1 =
      Complex.exp (-(c * Real.pi * Complex.I)) := by
    intro c
    rw [add_zero, ← Matrix.diagonal_smul, ← Matrix.diagonal_smul, ← Matrix.diagonal_smul, exp_diagonal,
      Matrix.diagonal_apply_eq, Pi.coe_exp, Complex.exp_eq_exp_ℂ]
    congr 1
    simp
    ring
  have h3 := congrFun (congrFun h2 1) 1
  have d1 := d 1
  rw [one_smul] at d1
  rw [d1, d 2, one_mul, Complex.exp_neg, Complex.exp_pi_mul_I, Complex.exp_neg, Complex.exp_two_pi_mul_I] at h3
  norm_num at h3

/-- The drift and the eigenvectors of the theorems exist, with fields that do not commute with the drift. -/
example : (1 : Matrix (Fin 2) (Fin 2) ℂ) * (1 : Matrix (Fin 2) (Fin 2) ℂ)ᵀ = 1 ∧
    (!![0, 0; 0, 1] : Matrix (Fin 2) (Fin 2) ℂ) * 1 = 1 * Matrix.diagonal (fun i => ((![0, 1] i : ℝ) : ℂ)) ∧
    (!![0, 0; 0, 1] : Matrix (Fin 2) (Fin 2) ℂ) * !![0, 1; 1, 0] ≠ !![0, 1; 1, 0] * !![0, 0; 0, 1] := by
  refine ⟨by simp, ?_, ?_⟩
  · ext i j
    fin_cases i <;> fin_cases j <;> simp
  · intro h
    have := congrFun (congrFun h 0) 1
    simp [Matrix.mul_apply, Fin.sum_univ_two] at this

end Matrices

end C3.Propagation.Trotter
