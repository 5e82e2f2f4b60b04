import Verif.Propagation.Kraus
import Verif.Experiment.GoalCircuits

/-!
# C233: what the value of the goal function says about circuits of an open system

The goal functions `lindbladian_unitary_infid` (c3/libraries/fidelities.py:223-249) and `lindbladian_unitary_infid_set`
(255-286) are traces of the computational block of the superoperators. Here their values are followed to the populations
that `evaluate_legacy` (c3/experiment.py:273-302) returns for circuits of noisy gates, with all levels of the subsystems.
-/

set_option linter.unusedSectionVars false

noncomputable section

namespace C3.Experiment.OpenGoal

open Matrix C3.Propagation C3.Propagation.Kraus C3.Hilbert C3.Fidelity C3.Gates C3.Experiment C3.Experiment.Circuits
  C3.Experiment.GoalCircuits
open scoped ComplexOrder

/-! ## Specification -/

section

variable {m n : Type*} [Fintype m] [DecidableEq m] [Fintype n] [DecidableEq n]

/-- The projector on a state. -/
def pure (v : n → ℂ) : Matrix n n ℂ := vecMulVec v (star v)

/-- The difference of two positive matrices with traces that add up to at most `c`. -/
def Within (X : Matrix n n ℂ) (c : ℝ) : Prop :=
  ∃ P N : Matrix n n ℂ, P.PosSemidef ∧ N.PosSemidef ∧ X = P - N ∧ (P.trace + N.trace).re ≤ c

/-- The scalar product. -/
def overlap (u v : n → ℂ) : ℂ := star u ⬝ᵥ v

/-- The propagator of an open system as matrix on stacked density matrices. -/
def superMat (N : ℕ) (A : Arr ℂ) : Matrix (Fin N × Fin N) (Fin N × Fin N) ℂ :=
  of fun p q => A.e (p.1 * N + p.2) (q.1 * N + q.2)

/-! ## Lemmas -/

theorem Within.mono {X : Matrix n n ℂ} {c c' : ℝ} (h : Within X c) (hc : c ≤ c') : Within X c' :=
  let ⟨P, N, h1, h2, h3, h4⟩ := h
  ⟨P, N, h1, h2, h3, h4.trans hc⟩

theorem Within.zero : Within (0 : Matrix n n ℂ) 0 := ⟨0, 0, PosSemidef.zero, PosSemidef.zero, by simp, by simp⟩

theorem Within.add {X Y : Matrix n n ℂ} {c c' : ℝ} (h : Within X c) (h' : Within Y c') : Within (X + Y) (c + c') := by
  obtain ⟨P, N, h1, h2, h3, h4⟩ := h
  obtain ⟨P', N', h1', h2', h3', h4'⟩ := h'
  refine ⟨P + P', N + N', h1.add h1', h2.add h2', by rw [h3, h3']; abel, ?_⟩
  simp only [trace_add, Complex.add_re] at h4 h4' ⊢
  linarith

theorem Within.sum {r : ℕ} (X : Fin r → Matrix n n ℂ) (c : Fin r → ℝ) (h : ∀ k, Within (X k) (c k)) :
    Within (∑ k, X k) (∑ k, c k) := by
  induction r with
  | zero => simpa using Within.zero
  | succ r ih =>
    rw [Fin.sum_univ_succ, Fin.sum_univ_succ]
    exact (h 0).add (ih _ _ fun k => h k.succ)

theorem channel_pos (Ks : List (Matrix n n ℂ)) (rho : Matrix n n ℂ) (h : rho.PosSemidef) : (channel Ks rho).PosSemidef := by
  apply posSemidef_list_sum
  intro M hM
  obtain ⟨K, _, rfl⟩ := List.mem_map.1 hM
  exact h.mul_mul_conjTranspose_same K

theorem channel_sub (Ks : List (Matrix n n ℂ)) (a b : Matrix n n ℂ) : channel Ks (a - b) = channel Ks a - channel Ks b := by
  unfold channel
  induction Ks with
  | nil => simp
  | cons K Ks ih =>
    rw [List.map_cons, List.sum_cons, ih, List.map_cons, List.sum_cons, List.map_cons, List.sum_cons, mul_sub, sub_mul]
    abel

theorem Within.channel {X : Matrix n n ℂ} {c : ℝ} (h : Within X c) (Ks : List (Matrix n n ℂ))
    (hK : (Ks.map fun K => Kᴴ * K).sum = 1) : Within (channel Ks X) c := by
  obtain ⟨P, N, h1, h2, h3, h4⟩ := h
  refine ⟨_, _, channel_pos Ks P h1, channel_pos Ks N h2, by rw [h3, channel_sub], ?_⟩
  rw [trace_channel, trace_channel, hK, one_mul, one_mul]
  exact h4

theorem Within.pops {X : Matrix n n ℂ} {c : ℝ} (h : Within X c) : ∑ i, |(X i i).re| ≤ c := by
  obtain ⟨P, N, h1, h2, rfl, h4⟩ := h
  refine le_trans ?_ h4
  have hP : ∀ i, 0 ≤ (P i i).re := fun i => (Complex.le_def.1 h1.diag_nonneg).1
  have hN : ∀ i, 0 ≤ (N i i).re := fun i => (Complex.le_def.1 h2.diag_nonneg).1
  rw [Complex.add_re, Matrix.trace, Matrix.trace, Complex.re_sum, Complex.re_sum, ← Finset.sum_add_distrib]
  refine Finset.sum_le_sum fun i _ => ?_
  rw [Matrix.sub_apply, Complex.sub_re, diag_apply, diag_apply, abs_le]
  constructor <;> linarith [hP i, hN i]

/-! ### Two pure states -/

theorem pure_pos (v : n → ℂ) : (pure v).PosSemidef := posSemidef_vecMulVec_self_star v

theorem pure_trace (v : n → ℂ) : (pure v).trace = ((len v ^ 2 : ℝ) : ℂ) := by
  rw [pure, trace_vecMulVec, len_sq]
  simp only [dotProduct, Pi.star_apply, Complex.star_def, Complex.mul_conj, Complex.normSq_eq_norm_sq]
  push_cast
  rfl

theorem overlap_smul (c : ℂ) (u v : n → ℂ) : overlap u (c • v) = c * overlap u v := by
  rw [overlap, dotProduct_smul, smul_eq_mul, overlap]

theorem smul_overlap (c : ℂ) (u v : n → ℂ) : overlap (c • u) v = star c * overlap u v := by
  rw [overlap, star_smul, smul_dotProduct, smul_eq_mul, overlap]

theorem overlap_star (u v : n → ℂ) : overlap u v = star (overlap v u) := by
  rw [overlap, overlap, star_dotProduct]

theorem len_smul_sq (c : ℂ) (v : n → ℂ) : len (c • v) ^ 2 = ‖c‖ ^ 2 * len v ^ 2 := by
  rw [len_sq, len_sq, Finset.mul_sum]
  refine Finset.sum_congr rfl fun i _ => ?_
  rw [Pi.smul_apply, smul_eq_mul, norm_mul, mul_pow]

theorem len_add_sq (u v : n → ℂ) : len (u + v) ^ 2 = len u ^ 2 + len v ^ 2 + 2 * (overlap u v).re := by
  rw [len_sq, len_sq, len_sq, overlap, dotProduct, Complex.re_sum, Finset.mul_sum, ← Finset.sum_add_distrib,
    ← Finset.sum_add_distrib]
  refine Finset.sum_congr rfl fun i _ => ?_
  rw [Pi.add_apply, Complex.sq_norm, Complex.sq_norm, Complex.sq_norm, Complex.normSq_add]
  congr 2
  rw [Pi.star_apply, Complex.star_def, Complex.mul_re, Complex.mul_re, Complex.conj_re, Complex.conj_im, Complex.conj_re,
    Complex.conj_im]
  ring

theorem pure_smul (c : ℂ) (hc : ‖c‖ = 1) (v : n → ℂ) : pure (c • v) = pure v := by
  ext i j
  simp only [pure, vecMulVec_apply, Pi.smul_apply, Pi.star_apply, smul_eq_mul, star_mul]
  have : c * star c = 1 := by
    rw [Complex.star_def, Complex.mul_conj, Complex.normSq_eq_norm_sq, hc]
    simp
  calc c * v i * (star (v j) * star c) = (c * star c) * (v i * star (v j)) := by ring
    _ = _ := by rw [this, one_mul]

/-- Half of the sum and the difference. -/
theorem pure_sub (a b : n → ℂ) : pure a - pure b =
    (1 / 2 : ℂ) • (vecMulVec (a - b) (star (a + b)) + vecMulVec (a + b) (star (a - b))) := by
  ext i j
  simp only [pure, vecMulVec_apply, Matrix.sub_apply, Matrix.smul_apply, Matrix.add_apply, Pi.star_apply, Pi.sub_apply,
    Pi.add_apply, star_add, star_sub, smul_eq_mul]
  ring

theorem cross_within (a b : n → ℂ) :
    Within ((1 / 2 : ℂ) • (vecMulVec a (star b) + vecMulVec b (star a))) (len a * len b) := by
  by_cases ha : len a = 0
  · have : a = 0 := by
      have h := len_sq a
      rw [ha, zero_pow two_ne_zero, eq_comm, Finset.sum_eq_zero_iff_of_nonneg (fun _ _ => sq_nonneg _)] at h
      funext i
      simpa using h i (Finset.mem_univ i)
    subst this
    rw [ha, zero_mul]
    simpa using Within.zero
  by_cases hb : len b = 0
  · have : b = 0 := by
      have h := len_sq b
      rw [hb, zero_pow two_ne_zero, eq_comm, Finset.sum_eq_zero_iff_of_nonneg (fun _ _ => sq_nonneg _)] at h
      funext i
      simpa using h i (Finset.mem_univ i)
    subst this
    rw [hb, mul_zero]
    simpa using Within.zero
  have hA : 0 < len a := lt_of_le_of_ne (len_nonneg _) (Ne.symm ha)
  have hB : 0 < len b := lt_of_le_of_ne (len_nonneg _) (Ne.symm hb)
  set s : ℝ := Real.sqrt (len b / len a) with hs
  have hs0 : 0 < s := Real.sqrt_pos.2 (by positivity)
  have hs2 : s ^ 2 = len b / len a := Real.sq_sqrt (by positivity)
  have hsc : (s : ℂ) ≠ 0 := by exact_mod_cast hs0.ne'
  refine ⟨(1 / 4 : ℂ) • pure ((s : ℂ) • a + ((s : ℂ)⁻¹) • b), (1 / 4 : ℂ) • pure ((s : ℂ) • a + (-((s : ℂ)⁻¹)) • b),
    (pure_pos _).smul ?_, (pure_pos _).smul ?_, ?_, ?_⟩
  · rw [Complex.le_def]; norm_num
  · rw [Complex.le_def]; norm_num
  · ext i j
    simp only [pure, vecMulVec_apply, Matrix.sub_apply, Matrix.smul_apply, Matrix.add_apply, Pi.star_apply,
      Pi.add_apply, Pi.smul_apply, star_add, star_mul, star_neg, star_inv₀, smul_eq_mul, Complex.star_def, Complex.conj_ofReal]
    field_simp
    ring
  · rw [trace_smul, trace_smul, pure_trace, pure_trace, len_add_sq, len_add_sq, len_smul_sq, len_smul_sq, len_smul_sq]
    have h1 : overlap ((s : ℂ) • a) (((s : ℂ)⁻¹) • b) + overlap ((s : ℂ) • a) ((-((s : ℂ)⁻¹)) • b) = 0 := by
      rw [overlap, overlap, dotProduct_smul, dotProduct_smul]
      simp
    have h2 := congrArg Complex.re h1
    rw [Complex.add_re, Complex.zero_re] at h2
    have e1 : ‖(s : ℂ)‖ ^ 2 = len b / len a := by rw [Complex.norm_real, Real.norm_eq_abs, sq_abs, hs2]
    have e2 : ‖((s : ℂ)⁻¹)‖ ^ 2 = len a / len b := by rw [norm_inv, inv_pow, e1, inv_div]
    rw [norm_neg, e1, e2]
    simp only [smul_eq_mul]
    rw [Complex.add_re]
    have e3 : ∀ y : ℝ, ((1 / 4 : ℂ) * (y : ℂ)).re = 1 / 4 * y := by
      intro y
      have : (1 / 4 : ℂ) * (y : ℂ) = ((1 / 4 * y : ℝ) : ℂ) := by push_cast; ring
      rw [this, Complex.ofReal_re]
    rw [e3, e3]
    have e4 : len b / len a * len a ^ 2 = len a * len b := by field_simp
    have e5 : len a / len b * len b ^ 2 = len a * len b := by field_simp
    rw [e4, e5]
    linarith

/-- Two states of equal norm differ by at most twice the sine of their angle. -/
theorem pure_close (u v : n → ℂ) (huv : len u = len v) :
    Within (pure v - pure u) (2 * Real.sqrt (len u ^ 2 * len v ^ 2 - ‖overlap u v‖ ^ 2)) := by
  obtain ⟨c, hc, ht⟩ := phase_exists (overlap u v)
  have hi : overlap (c • u) v = (‖overlap u v‖ : ℂ) := by
    rw [← ht, smul_overlap]
  have hl : len (c • u) ^ 2 = len u ^ 2 := by rw [len_smul_sq, hc]; ring
  rw [← pure_smul c hc u, pure_sub]
  refine (cross_within _ _).mono (le_of_eq ?_)
  have hi' : overlap v (c • u) = (‖overlap u v‖ : ℂ) := by
    rw [← Complex.conj_ofReal, ← hi, ← Complex.star_def, ← overlap_star]
  have h1 : len (v + c • u) ^ 2 = 2 * len u ^ 2 + 2 * ‖overlap u v‖ := by
    rw [len_add_sq, hl, hi', Complex.ofReal_re, ← huv]; ring
  have h2 : len (v - c • u) ^ 2 = 2 * len u ^ 2 - 2 * ‖overlap u v‖ := by
    have : v - c • u = v + (-1 : ℂ) • (c • u) := by simp [sub_eq_add_neg]
    rw [this, len_add_sq, len_smul_sq, hl, overlap_smul, hi', ← huv]
    simp
    ring
  rw [← Real.sqrt_sq (mul_nonneg (len_nonneg (v - c • u)) (len_nonneg (v + c • u))), mul_pow, h1, h2]
  have h3 : (2 : ℝ) = Real.sqrt 4 := by
    rw [show (4 : ℝ) = 2 ^ 2 by norm_num, Real.sqrt_sq (by norm_num)]
  conv_rhs => rw [h3, ← Real.sqrt_mul (by norm_num)]
  congr 1
  rw [← huv]
  ring

/-! ### One gate -/

theorem mul_pure (K : Matrix n n ℂ) (v : n → ℂ) : K * pure v * Kᴴ = pure (K *ᵥ v) := by
  rw [pure, pure, mul_vecMulVec, vecMulVec_mul, star_mulVec]

theorem residual (v phi : n → ℂ) (hphi : len phi = 1) (b : ℂ) :
    len v ^ 2 - ‖overlap phi v‖ ^ 2 ≤ len (v - b • phi) ^ 2 := by
  have e : v - b • phi = v + (-b) • phi := by rw [neg_smul, sub_eq_add_neg]
  rw [e, len_add_sq, len_smul_sq, hphi, overlap_smul, norm_neg, one_pow, mul_one, overlap_star v phi]
  have h := Complex.normSq_nonneg (overlap phi v - b)
  rw [Complex.normSq_sub, Complex.normSq_eq_norm_sq, Complex.normSq_eq_norm_sq] at h
  have e3 : (-b * star (overlap phi v)).re = -(overlap phi v * (starRingEnd ℂ) b).re := by
    simp only [Complex.star_def, Complex.mul_re, Complex.neg_re, Complex.neg_im, Complex.conj_re, Complex.conj_im]
    ring
  rw [e3]
  linarith

theorem kraus_norm {r : ℕ} (K : Fin r → Matrix n n ℂ) (hK : ∑ k, (K k)ᴴ * K k = 1) (j : n) :
    ∑ k, ∑ p, ‖K k p j‖ ^ 2 = 1 := by
  have h := congrArg (fun M : Matrix n n ℂ => (M j j).re) hK
  simp only [Matrix.sum_apply, Matrix.mul_apply, conjTranspose_apply, Complex.re_sum, Matrix.one_apply_eq, Complex.one_re] at h
  rw [← h]
  refine Finset.sum_congr rfl fun k _ => Finset.sum_congr rfl fun p _ => ?_
  rw [Complex.star_def, mul_comm, Complex.mul_conj, Complex.ofReal_re, Complex.normSq_eq_norm_sq]

theorem kraus_len {r : ℕ} (K : Fin r → Matrix n n ℂ) (hK : ∑ k, (K k)ᴴ * K k = 1) (v : n → ℂ) :
    ∑ k, len (K k *ᵥ v) ^ 2 = len v ^ 2 := by
  have h : ((∑ k, len (K k *ᵥ v) ^ 2 : ℝ) : ℂ) = ((len v ^ 2 : ℝ) : ℂ) := by
    rw [← pure_trace v, ← one_mul (pure v), ← hK, Finset.sum_mul, trace_sum]
    push_cast
    refine Finset.sum_congr rfl fun k _ => ?_
    rw [mul_assoc, trace_mul_comm, mul_pure, pure_trace]
    push_cast
    rfl
  exact_mod_cast h

/-- The part of the columns of `K` that is not a multiple of the ideal gate. -/
theorem frobenius_residual [Nonempty m] (K : Matrix n n ℂ) (V : Matrix m m ℂ) (hV : Vᴴ * V = 1) (f : m → n) (hf : Function.Injective f)
    (xi : m → ℂ) (hxi : len xi = 1) :
    len (K *ᵥ encode f xi) ^ 2 - ‖overlap (encode f (V *ᵥ xi)) (K *ᵥ encode f xi)‖ ^ 2 ≤
      ∑ j, ∑ p, ‖K p (f j)‖ ^ 2 - ‖(K.submatrix f f * Vᴴ).trace‖ ^ 2 / Fintype.card m := by
  set t := (K.submatrix f f * Vᴴ).trace with ht
  have hpos : (0 : ℝ) < Fintype.card m := by exact_mod_cast Fintype.card_pos
  have hlen : len (encode f (V *ᵥ xi)) = 1 := by rw [encode_len f hf, len_unitary _ hV, hxi]
  refine (residual _ _ hlen (t / Fintype.card m)).trans ?_
  set b : ℂ := t / Fintype.card m with hb
  have e : K *ᵥ encode f xi - b • encode f (V *ᵥ xi) =
      (of fun p j => K p (f j) - b * encode f (fun i => V i j) p : Matrix n m ℂ) *ᵥ xi := by
    rw [mulVec_encode K f hf, encode_mulVec V f hf, ← smul_mulVec, ← sub_mulVec]
    rfl
  rw [e]
  refine (frobenius _ xi).trans (le_of_eq ?_)
  rw [hxi, one_pow, mul_one]
  simp only [of_apply]
  have h1 : ∀ j, ∑ p, ‖K p (f j) - b * encode f (fun i => V i j) p‖ ^ 2 =
      ∑ p, ‖K p (f j)‖ ^ 2 + ‖b‖ ^ 2 - 2 * (star b * ∑ i, K (f i) (f j) * star (V i j)).re := by
    intro j
    have h2 : ∑ p, ‖encode f (fun i => V i j) p‖ ^ 2 = 1 := by
      rw [← len_sq, encode_len f hf, len_sq, col_norm V hV j]
    have h3 : ∑ p, K p (f j) * star (encode f (fun i => V i j) p) = ∑ i, K (f i) (f j) * star (V i j) :=
      encode_sum f hf (fun i => V i j) (fun p x => K p (f j) * star x) fun p => by simp
    rw [← h3, Finset.mul_sum, Complex.re_sum, Finset.mul_sum]
    conv_rhs => rw [← mul_one (‖b‖ ^ 2), ← h2, Finset.mul_sum]
    rw [← Finset.sum_add_distrib, ← Finset.sum_sub_distrib]
    refine Finset.sum_congr rfl fun p _ => ?_
    rw [Complex.sq_norm, Complex.normSq_sub, Complex.normSq_eq_norm_sq, Complex.normSq_eq_norm_sq, norm_mul, mul_pow, map_mul]
    congr 3
    simp only [Complex.star_def]
    ring
  simp only [h1, Finset.sum_sub_distrib, Finset.sum_add_distrib]
  rw [← Finset.mul_sum, ← Complex.re_sum, ← Finset.mul_sum]
  have h4 : ∑ j, ∑ i, K (f i) (f j) * star (V i j) = t := by
    rw [ht, trace_mul_adj, Finset.sum_comm, Fintype.sum_prod_type]
    rfl
  have h5 : t = b * Fintype.card m := by rw [hb]; field_simp
  rw [h4]
  have h6 : (star b * t).re = ‖b‖ ^ 2 * Fintype.card m := by
    rw [h5, ← mul_assoc, Complex.star_def, mul_comm ((starRingEnd ℂ) b), Complex.mul_conj, Complex.normSq_eq_norm_sq]
    have : ((‖b‖ ^ 2 : ℝ) : ℂ) * (Fintype.card m : ℂ) = ((‖b‖ ^ 2 * Fintype.card m : ℝ) : ℂ) := by push_cast; rfl
    rw [this, Complex.ofReal_re]
  have h7 : ‖t‖ ^ 2 / Fintype.card m = ‖b‖ ^ 2 * Fintype.card m := by
    rw [h5, norm_mul, mul_pow, Complex.norm_natCast]
    field_simp
  rw [h6, h7]
  simp
  ring

theorem fidelity_open [Nonempty m] {r : ℕ} (K : Fin r → Matrix n n ℂ) (hK : ∑ k, (K k)ᴴ * K k = 1) (V : Matrix m m ℂ) (hV : Vᴴ * V = 1)
    (f : m → n) (hf : Function.Injective f) (xi : m → ℂ) (hxi : len xi = 1) :
    ∑ k, (len (K k *ᵥ encode f xi) ^ 2 - ‖overlap (encode f (V *ᵥ xi)) (K k *ᵥ encode f xi)‖ ^ 2) ≤
      Fintype.card m - (∑ k, ‖((K k).submatrix f f * Vᴴ).trace‖ ^ 2) / Fintype.card m := by
  refine (Finset.sum_le_sum fun k _ => frobenius_residual (K k) V hV f hf xi hxi).trans (le_of_eq ?_)
  rw [Finset.sum_sub_distrib, ← Finset.sum_div]
  congr 1
  rw [Finset.sum_comm]
  simp only [kraus_norm K hK]
  simp

theorem gate_open [Nonempty m] {r : ℕ} (K : Fin r → Matrix n n ℂ) (hK : ∑ k, (K k)ᴴ * K k = 1) (V : Matrix m m ℂ) (hV : Vᴴ * V = 1)
    (f : m → n) (hf : Function.Injective f) (xi : m → ℂ) (hxi : len xi = 1) :
    Within (∑ k, K k * pure (encode f xi) * (K k)ᴴ - pure (encode f (V *ᵥ xi)))
      (2 * Real.sqrt (Fintype.card m - (∑ k, ‖((K k).submatrix f f * Vᴴ).trace‖ ^ 2) / Fintype.card m)) := by
  set phi := encode f (V *ᵥ xi) with hphi
  set v : Fin r → n → ℂ := fun k => K k *ᵥ encode f xi with hv
  have hphi1 : len phi = 1 := by rw [hphi, encode_len f hf, len_unitary _ hV, hxi]
  have hsum : ∑ k, len (v k) ^ 2 = 1 := by rw [kraus_len K hK, encode_len f hf, hxi, one_pow]
  set q : Fin r → ℝ := fun k => len (v k) ^ 2 - ‖overlap phi (v k)‖ ^ 2 with hq
  have hlenc : ∀ k, len ((len (v k) : ℂ) • phi) = len (v k) := by
    intro k
    have h := len_smul_sq (len (v k) : ℂ) phi
    rw [hphi1, one_pow, mul_one, Complex.norm_real, Real.norm_eq_abs, sq_abs] at h
    exact (pow_left_inj₀ (len_nonneg _) (len_nonneg _) two_ne_zero).1 h
  have hone : ∀ k, Within (pure (v k) - ((len (v k) ^ 2 : ℝ) : ℂ) • pure phi) (2 * (len (v k) * Real.sqrt (q k))) := by
    intro k
    have h := pure_close ((len (v k) : ℂ) • phi) (v k) (hlenc k)
    have e : pure ((len (v k) : ℂ) • phi) = ((len (v k) ^ 2 : ℝ) : ℂ) • pure phi := by
      ext i j
      simp only [pure, vecMulVec_apply, Pi.smul_apply, Pi.star_apply, smul_eq_mul, star_mul, Matrix.smul_apply,
        Complex.star_def, Complex.conj_ofReal]
      push_cast
      ring
    rw [e, hlenc] at h
    refine h.mono (le_of_eq ?_)
    have e2 : len (v k) ^ 2 * len (v k) ^ 2 - ‖overlap ((len (v k) : ℂ) • phi) (v k)‖ ^ 2 = len (v k) ^ 2 * q k := by
      rw [smul_overlap, norm_mul, mul_pow, norm_star, Complex.norm_real, Real.norm_eq_abs, sq_abs, hq]
      ring
    rw [e2, Real.sqrt_mul (sq_nonneg _), Real.sqrt_sq (len_nonneg _)]
  have hW := Within.sum _ _ hone
  have e : ∑ k, (pure (v k) - ((len (v k) ^ 2 : ℝ) : ℂ) • pure phi) =
      ∑ k, K k * pure (encode f xi) * (K k)ᴴ - pure phi := by
    rw [Finset.sum_sub_distrib, ← Finset.sum_smul, ← Complex.ofReal_sum, hsum, Complex.ofReal_one, one_smul]
    simp only [hv, mul_pure]
  rw [e] at hW
  refine hW.mono ?_
  rw [← Finset.mul_sum]
  refine mul_le_mul_of_nonneg_left ?_ (by norm_num)
  have hq0 : ∀ k, 0 ≤ q k := by
    intro k
    have h := len_add_sq (v k) ((-overlap phi (v k)) • phi)
    rw [len_smul_sq, hphi1, norm_neg, overlap_smul, overlap_star (v k) phi] at h
    have e3 : (-overlap phi (v k) * star (overlap phi (v k))).re = - ‖overlap phi (v k)‖ ^ 2 := by
      rw [neg_mul, Complex.star_def, Complex.mul_conj, Complex.normSq_eq_norm_sq, Complex.neg_re, Complex.ofReal_re]
    rw [e3] at h
    have := sq_nonneg (len (v k + -overlap phi (v k) • phi))
    simp only [hq]
    linarith
  have hcs := Finset.sum_mul_sq_le_sq_mul_sq Finset.univ (fun k => len (v k)) (fun k => Real.sqrt (q k))
  rw [hsum, one_mul] at hcs
  refine Real.le_sqrt_of_sq_le (hcs.trans ?_)
  have e3 : ∑ k, Real.sqrt (q k) ^ 2 = ∑ k, q k := Finset.sum_congr rfl fun k _ => Real.sq_sqrt (hq0 k)
  rw [e3]
  exact fidelity_open K hK V hV f hf xi hxi

/-- The part of the states of the qubits that a channel moves outside. -/
theorem leak_open [Nonempty m] {r : ℕ} (K : Fin r → Matrix n n ℂ) (V : Matrix m m ℂ)
    (hV : Vᴴ * V = 1) (f : m → n) :
    1 - (∑ j, ∑ i, ∑ k, ‖K k (f i) (f j)‖ ^ 2) / Fintype.card m ≤
      1 - (∑ k, ‖((K k).submatrix f f * Vᴴ).trace‖ ^ 2) / Fintype.card m ^ 2 := by
  have hpos : (0 : ℝ) < Fintype.card m := by exact_mod_cast Fintype.card_pos
  have h5 : ∀ k, ‖((K k).submatrix f f * Vᴴ).trace‖ ^ 2 ≤ (∑ j, ∑ i, ‖K k (f i) (f j)‖ ^ 2) * Fintype.card m := by
    intro k
    rw [trace_mul_adj, Finset.sum_comm, ← Fintype.sum_prod_type' (f := fun i j => ‖K k (f i) (f j)‖ ^ 2)]
    have h6 := Finset.sum_mul_sq_le_sq_mul_sq Finset.univ
      (fun x : m × m => ‖K k (f x.1) (f x.2)‖) (fun x : m × m => ‖V x.1 x.2‖)
    have h7 : ∑ x : m × m, ‖V x.1 x.2‖ ^ 2 = Fintype.card m := by
      rw [Fintype.sum_prod_type' (f := fun i j => ‖V i j‖ ^ 2), Finset.sum_comm]
      simp [col_norm V hV]
    rw [h7] at h6
    refine (pow_le_pow_left₀ (norm_nonneg _) ((norm_sum_le _ _).trans (le_of_eq ?_)) 2).trans h6
    refine Finset.sum_congr rfl fun x _ => ?_
    rw [norm_mul, norm_star]
    rfl
  have h6 := Finset.sum_le_sum fun k (_ : k ∈ Finset.univ) => h5 k
  rw [← Finset.sum_mul] at h6
  have h7 : ∑ j, ∑ i, ∑ k, ‖K k (f i) (f j)‖ ^ 2 = ∑ k, ∑ j, ∑ i, ‖K k (f i) (f j)‖ ^ 2 := by
    rw [Finset.sum_comm]
    conv_rhs => rw [Finset.sum_comm]; enter [2, j]; rw [Finset.sum_comm]
    rw [Finset.sum_comm]
  rw [h7]
  refine sub_le_sub_left ?_ 1
  rw [div_le_div_iff₀ (by positivity) hpos]
  nlinarith [hpos]

/-! ### Circuits -/

theorem list_fin {α : Type*} [AddCommMonoid α] {β : Type*} (l : List β) (F : β → α) :
    (l.map F).sum = ∑ k : Fin l.length, F l[k] := by
  exact (Fin.sum_univ_fun_getElem l F).symm

/-- Errors of the gates add up. -/
theorem run_open (f : m → n) (props : String → Option (Matrix (n × n) (n × n) ℂ))
    (V : String → Matrix m m ℂ) (ε : String → ℝ) (s : List String)
    (h : ∀ g ∈ s, (V g)ᴴ * V g = 1 ∧ ∃ S, props g = some S ∧ HasKraus S ∧
      ∀ xi, len xi = 1 → Within (unRow (S *ᵥ rowVec (pure (encode f xi))) - pure (encode f (V g *ᵥ xi))) (ε g))
    (xi : m → ℂ) (hxi : len xi = 1) (rho : Matrix n n ℂ) (c : ℝ) (hrho : Within (rho - pure (encode f xi)) c) :
    ∃ v, runSeq props s (rowVec rho) = some v ∧
      Within (unRow v - pure (encode f (circuit V s xi))) (c + (s.map ε).sum) := by
  induction s generalizing xi rho c with
  | nil => exact ⟨_, rfl, by simpa [circuit] using hrho⟩
  | cons g s ih =>
    obtain ⟨hV, S, h1, ⟨Ks, hK, h2⟩, h3⟩ := h g List.mem_cons_self
    have hW : Within (unRow (S *ᵥ rowVec rho) - pure (encode f (V g *ᵥ xi))) (c + ε g) := by
      have h4 := (hrho.channel Ks hK).add (h3 xi hxi)
      rw [h2, channel_sub] at h4
      rw [h2]
      simpa using h4
    obtain ⟨v, h4, h5⟩ := ih (fun g hg => h g (List.mem_cons_of_mem _ hg)) (V g *ᵥ xi) (by rw [len_unitary _ hV, hxi])
      (unRow (S *ᵥ rowVec rho)) _ hW
    rw [rowVec_unRow] at h4
    refine ⟨v, by rw [runSeq, h1]; exact h4, ?_⟩
    rw [List.map_cons, List.sum_cons, ← add_assoc]
    exact h5

/-- The populations of circuits of gates that are close to ideal gates on the labels of the qubits. -/
theorem pops_open (f : m → n) (props : String → Option (Matrix (n × n) (n × n) ℂ))
    (V : String → Matrix m m ℂ) (ε : String → ℝ) (seqs : List (List String))
    (h : ∀ s ∈ seqs, ∀ g ∈ s, (V g)ᴴ * V g = 1 ∧ ∃ S, props g = some S ∧ HasKraus S ∧
      ∀ xi, len xi = 1 → Within (unRow (S *ᵥ rowVec (pure (encode f xi))) - pure (encode f (V g *ᵥ xi))) (ε g))
    (xi : m → ℂ) (hxi : len xi = 1) :
    ∃ pops, evaluateOpen props seqs (rowVec (pure (encode f xi))) = some pops ∧ pops.length = seqs.length ∧
      ∀ (i : ℕ) (seq : List String) (pop : n → ℝ), seqs[i]? = some seq → pops[i]? = some pop →
        ∑ p, |pop p - ‖encode f (circuit V seq xi) p‖ ^ 2| ≤ (seq.map ε).sum := by
  unfold evaluateOpen
  induction seqs with
  | nil => exact ⟨[], rfl, rfl, by simp⟩
  | cons s ss ih =>
    obtain ⟨ps, h1, h2, h3⟩ := ih fun s hs => h s (List.mem_cons_of_mem _ hs)
    obtain ⟨v, h4, h5⟩ := run_open f props V ε s (h s List.mem_cons_self) xi hxi (pure (encode f xi)) 0 (by
      rw [sub_self]; exact Within.zero)
    rw [List.mapM_cons, h1, h4]
    refine ⟨_, rfl, by simp [h2], fun i seq pop hi hp => ?_⟩
    cases i with
    | succ i => exact h3 i seq pop (by simpa using hi) (by simpa using hp)
    | zero =>
      simp only [List.getElem?_cons_zero, Option.some.injEq] at hi hp
      subst hi hp
      rw [zero_add] at h5
      refine le_trans (le_of_eq (Finset.sum_congr rfl fun p _ => ?_)) h5.pops
      congr 1
      rw [Matrix.sub_apply, Complex.sub_re, pure, vecMulVec_apply, Pi.star_apply, Complex.star_def, Complex.mul_conj,
        Complex.ofReal_re, Complex.normSq_eq_norm_sq]
      rfl

end

theorem value_open (ideal actual : Arr ℂ) (dims index : List ℕ) (hd : ∀ d ∈ dims, 2 ≤ d)
    (hne : index ≠ []) (hnd : index.Nodup) (hlt : ∀ i ∈ index, i < dims.length)
    (hr : actual.rows = dims.prod * dims.prod) (hc : actual.cols = dims.prod * dims.prod)
    (hir : ideal.rows = 2 ^ index.length) (hic : ideal.cols = 2 ^ index.length)
    (Ks : List (Matrix (Fin dims.prod) (Fin dims.prod) ℂ)) (hK : superMat dims.prod actual = (Ks.map tfSuper).sum) :
    lindUnitaryInfid ideal actual index dims =
      some (1 - (∑ k : Fin Ks.length, ‖(Ks[k].submatrix (compEmb dims index hd) (compEmb dims index hd) *
        (ideal.mat (outDims dims index).prod (outDims dims index).prod)ᴴ).trace‖ ^ 2) / (2 ^ index.length) ^ 2) := by
  have hp := outDims_prod dims index hnd hlt
  obtain ⟨i, l, rfl⟩ := List.exists_cons_of_ne_nil hne
  obtain ⟨C, h1, h2, h3, h4⟩ := C64_super_entries actual dims (.list (i :: l)) (by simp) hd hr hc
  change C.rows = (outDims dims (i :: l)).prod * (outDims dims (i :: l)).prod at h2
  change C.cols = (outDims dims (i :: l)).prod * (outDims dims (i :: l)).prod at h3
  change ∀ a b c d : Fin (outDims dims (i :: l)).prod, C.e (a * (outDims dims (i :: l)).prod + b)
    (c * (outDims dims (i :: l)).prod + d) = actual.e
      (compEmb dims (i :: l) hd a * dims.prod + compEmb dims (i :: l) hd b)
      (compEmb dims (i :: l) hd c * dims.prod + compEmb dims (i :: l) hd d) at h4
  rw [← hp] at hir hic
  have hq : ((2 : ℝ) ^ (i :: l).length) = ((outDims dims (i :: l)).prod : ℝ) := by
    rw [hp]
    push_cast
    rfl
  rw [hq]
  have hq2 : ((2 : ℕ) ^ (i :: l).length) = (outDims dims (i :: l)).prod := hp.symm
  unfold lindUnitaryInfid
  simp only [Option.bind_eq_bind, h1, Option.bind_some]
  rw [hq2]
  have hqpos : 0 < (outDims dims (i :: l)).prod := by
    rw [hp]
    positivity
  generalize compEmb dims (i :: l) hd = E at *
  generalize (outDims dims (i :: l)).prod = q at *
  set t : Fin Ks.length → ℂ := fun k => (Ks[k].submatrix E E * (ideal.mat q q)ᴴ).trace with ht
  have hsup : ∀ a b c d : Fin q, C.e (a * q + b) (c * q + d) =
      ∑ k : Fin Ks.length, Ks[k] (E a) (E c) * star (Ks[k] (E b) (E d)) := by
    intro a b c d
    rw [h4]
    have h := congrFun (congrFun hK (E a, E b)) (E c, E d)
    rw [list_fin, Matrix.sum_apply] at h
    simp only [Kraus.tfSuper_apply] at h
    exact h
  have htr : ∃ M, arrMul C (arrAdj (superArr ideal)) = some M ∧ arrTrace M = ((∑ k, ‖t k‖ ^ 2 : ℝ) : ℂ) := by
    unfold arrMul arrAdj superArr kron
    simp only [hir, hic, h2, h3, if_true]
    refine ⟨_, rfl, ?_⟩
    unfold arrTrace
    simp only [min_self]
    have hid : ∀ a b : Fin q, (a * q + b : ℕ) % q = b ∧ (a * q + b : ℕ) / q = a := by
      intro a b
      rw [Nat.mul_comm (a : ℕ), Nat.mul_add_mod, Nat.mod_eq_of_lt b.2, Nat.mul_add_div hqpos,
        Nat.div_eq_of_lt b.2]
      simp
    simp only [sum_range_mul q q]
    simp only [Finset.sum_range]
    have hterm : ∀ a b c d : Fin q, C.e (a * q + b) (c * q + d) *
        star (ideal.e ((a * q + b : ℕ) / q) ((c * q + d : ℕ) / q) *
          star (ideal.e ((a * q + b : ℕ) % q) ((c * q + d : ℕ) % q))) =
        ∑ k : Fin Ks.length, (Ks[k] (E a) (E c) * star (ideal.e a c)) * star (Ks[k] (E b) (E d) * star (ideal.e b d)) := by
      intro a b c d
      rw [hsup, (hid a b).1, (hid a b).2, (hid c d).1, (hid c d).2, Finset.sum_mul]
      refine Finset.sum_congr rfl fun k _ => ?_
      simp only [star_mul', star_star]
      ring
    simp only [hterm]
    have htt : ∀ k, t k = ∑ a, ∑ c, Ks[k] (E a) (E c) * star (ideal.e (a : Fin q) (c : Fin q)) := by
      intro k
      rw [ht]
      rfl
    have hk : ∀ k, ((‖t k‖ ^ 2 : ℝ) : ℂ) = ∑ a, ∑ b, ∑ c, ∑ d, (Ks[k] (E a) (E c) * star (ideal.e (a : Fin q) (c : Fin q))) *
        star (Ks[k] (E b) (E d) * star (ideal.e (b : Fin q) (d : Fin q))) := by
      intro k
      push_cast
      rw [← Complex.mul_conj' (t k), ← Complex.star_def, htt]
      simp only [star_sum, Finset.sum_mul_sum]
    rw [Complex.ofReal_sum]
    simp only [hk]
    simp only [Finset.sum_comm (s := (Finset.univ : Finset (Fin q))) (t := (Finset.univ : Finset (Fin Ks.length)))]
  obtain ⟨M, hM, hMt⟩ := htr
  unfold superoperUnitaryOverlap
  rw [hM]
  simp only [Option.map_some, Option.bind_some]
  rw [hMt]
  have hs0 : 0 ≤ ∑ k, ‖t k‖ ^ 2 := Finset.sum_nonneg fun k _ => sq_nonneg _
  have hsq : (((∑ k, ‖t k‖ ^ 2 : ℝ) : ℂ)) ^ (1 / 2 : ℂ) = ((Real.sqrt (∑ k, ‖t k‖ ^ 2) : ℝ) : ℂ) := by
    have h := Complex.ofReal_cpow hs0 (1 / 2)
    rw [← Real.sqrt_eq_rpow] at h
    refine Eq.trans ?_ h.symm
    congr 1
    push_cast
    rfl
  rw [hsq, norm_div, Complex.norm_real, Real.norm_eq_abs, abs_of_nonneg (Real.sqrt_nonneg _), Complex.norm_natCast, div_pow,
    Real.sq_sqrt hs0]

/-! ## Theorems -/

/-- The propagator of an open system and the ideal gate have the right shapes, the propagator is a channel (as all that the
code computes are, by C232) and the ideal gate is unitary. -/
structure FitsOpen (dims index : List ℕ) (ideal actual : Arr ℂ) : Prop where
  rows : actual.rows = dims.prod * dims.prod
  cols : actual.cols = dims.prod * dims.prod
  idealRows : ideal.rows = 2 ^ index.length
  idealCols : ideal.cols = 2 ^ index.length
  kraus : HasKraus (superMat dims.prod actual)
  idealUnitary : (ideal.mat (outDims dims index).prod (outDims dims index).prod)ᴴ *
    ideal.mat (outDims dims index).prod (outDims dims index).prod = 1

/-- The error of a gate for any state of the qubits, from its infidelity. -/
def errorOpen (index : List ℕ) (x : ℝ) : ℝ := 2 * Real.sqrt (2 ^ index.length * x)

/-- What the value of `lindbladian_unitary_infid` says about the Kraus operators. -/
theorem value_kraus (ideal actual : Arr ℂ) (dims index : List ℕ) (hd : ∀ d ∈ dims, 2 ≤ d) (hne : index ≠ [])
    (hnd : index.Nodup) (hlt : ∀ i ∈ index, i < dims.length) (hfit : FitsOpen dims index ideal actual) :
    ∃ (r : ℕ) (K : Fin r → Matrix (Fin dims.prod) (Fin dims.prod) ℂ), ∑ k, (K k)ᴴ * K k = 1 ∧
      (∀ rho, unRow (superMat dims.prod actual *ᵥ rowVec rho) = ∑ k, K k * rho * (K k)ᴴ) ∧
      lindUnitaryInfid ideal actual index dims =
        some (1 - (∑ k, ‖((K k).submatrix (compEmb dims index hd) (compEmb dims index hd) *
          (ideal.mat (outDims dims index).prod (outDims dims index).prod)ᴴ).trace‖ ^ 2) / (2 ^ index.length) ^ 2) := by
  obtain ⟨Ks, h1, h2⟩ := hfit.kraus
  refine ⟨Ks.length, fun k => Ks[k], by rw [← list_fin Ks fun K => Kᴴ * K, h1], fun rho => ?_, ?_⟩
  · rw [h2, channel, list_fin]
  · exact value_open ideal actual dims index hd hne hnd hlt hfit.rows hfit.cols hfit.idealRows hfit.idealCols Ks
      ((eq_sum_iff _ _).2 h2)

theorem card_eq (dims index : List ℕ) (hnd : index.Nodup) (hlt : ∀ i ∈ index, i < dims.length) :
    (Fintype.card (Fin (outDims dims index).prod) : ℝ) = 2 ^ index.length := by
  rw [Fintype.card_fin, outDims_prod dims index hnd hlt]
  push_cast
  rfl

theorem out_nonempty (dims index : List ℕ) (hnd : index.Nodup) (hlt : ∀ i ∈ index, i < dims.length) :
    Nonempty (Fin (outDims dims index).prod) := ⟨⟨0, by rw [outDims_prod dims index hnd hlt]; positivity⟩⟩

/-- **C233**: averaged over the labels of the qubits, the population that is not in the computational space after the
propagator is at least zero and at most the value of `lindbladian_unitary_infid`. So the value is not negative. -/
theorem C233_leakage (ideal actual : Arr ℂ) (dims index : List ℕ) (hd : ∀ d ∈ dims, 2 ≤ d) (hne : index ≠ [])
    (hnd : index.Nodup) (hlt : ∀ i ∈ index, i < dims.length) (hfit : FitsOpen dims index ideal actual) :
    ∃ x, lindUnitaryInfid ideal actual index dims = some x ∧ x ≤ 1 ∧
      let leak := 1 - (∑ j, ∑ i, popsOpen (superMat dims.prod actual *ᵥ
        rowVec (pure (encode (compEmb dims index hd) (Pi.single j 1)))) (compEmb dims index hd i)) / 2 ^ index.length
      0 ≤ leak ∧ leak ≤ x := by
  obtain ⟨r, K, h1, h2, h3⟩ := value_kraus ideal actual dims index hd hne hnd hlt hfit
  have := out_nonempty dims index hnd hlt
  refine ⟨_, h3, sub_le_self _ (div_nonneg (Finset.sum_nonneg fun _ _ => sq_nonneg _) (by positivity)), ?_⟩
  have hf := compEmb_injective dims index hd
  have h4 : ∀ j i, popsOpen (superMat dims.prod actual *ᵥ
        rowVec (pure (encode (compEmb dims index hd) (Pi.single j 1)))) (compEmb dims index hd i) =
      ∑ k, ‖K k (compEmb dims index hd i) (compEmb dims index hd j)‖ ^ 2 := by
    intro j i
    change (unRow (superMat dims.prod actual *ᵥ
        rowVec (pure (encode (compEmb dims index hd) (Pi.single j 1)))) (compEmb dims index hd i) (compEmb dims index hd i)).re = _
    rw [h2, Matrix.sum_apply, Complex.re_sum]
    refine Finset.sum_congr rfl fun k _ => ?_
    rw [mul_pure, mulVec_encode _ _ hf, mulVec_single_one, pure, vecMulVec_apply, Pi.star_apply, Complex.star_def,
      Complex.mul_conj, Complex.ofReal_re, Complex.normSq_eq_norm_sq]
    rfl
  simp only [h4]
  have hcard := card_eq dims index hnd hlt
  refine ⟨?_, ?_⟩
  · rw [sub_nonneg, div_le_one (by positivity), ← hcard]
    have h5 : ∀ j, ∑ i, ∑ k, ‖K k (compEmb dims index hd i) (compEmb dims index hd j)‖ ^ 2 ≤ 1 := by
      intro j
      rw [← kraus_norm K h1 (compEmb dims index hd j), Finset.sum_comm]
      refine Finset.sum_le_sum fun k _ => ?_
      rw [← Finset.sum_image (f := fun p => ‖K k p (compEmb dims index hd j)‖ ^ 2) (s := Finset.univ)
        (g := compEmb dims index hd) (fun a _ b _ h => hf h)]
      exact Finset.sum_le_univ_sum_of_nonneg fun p => sq_nonneg _
    refine (Finset.sum_le_sum fun j _ => h5 j).trans (le_of_eq ?_)
    simp
  · have h5 := leak_open K _ hfit.idealUnitary (compEmb dims index hd)
    rw [hcard] at h5
    exact h5

/-- **C233**: the value of `lindbladian_unitary_infid` bounds the error of the gate for every state of the qubits: the
fidelity of the state after the propagator with the state after the ideal gate is lower than one by at most the dimension
times the value, and the difference of the density matrices is, in trace norm, at most `errorOpen`. -/
theorem C233_gate (ideal actual : Arr ℂ) (dims index : List ℕ) (hd : ∀ d ∈ dims, 2 ≤ d) (hne : index ≠ [])
    (hnd : index.Nodup) (hlt : ∀ i ∈ index, i < dims.length) (hfit : FitsOpen dims index ideal actual) (x : ℝ)
    (hx : lindUnitaryInfid ideal actual index dims = some x) (xi : Fin (outDims dims index).prod → ℂ) (hxi : len xi = 1) :
    let out := unRow (superMat dims.prod actual *ᵥ rowVec (pure (encode (compEmb dims index hd) xi)))
    let want := encode (compEmb dims index hd) (ideal.mat (outDims dims index).prod (outDims dims index).prod *ᵥ xi)
    1 - (overlap want (out *ᵥ want)).re ≤ 2 ^ index.length * x ∧ Within (out - pure want) (errorOpen index x) := by
  obtain ⟨r, K, h1, h2, h3⟩ := value_kraus ideal actual dims index hd hne hnd hlt hfit
  have := out_nonempty dims index hnd hlt
  have hf := compEmb_injective dims index hd
  rw [hx, Option.some_inj] at h3
  have hcard := card_eq dims index hnd hlt
  have e : (Fintype.card (Fin (outDims dims index).prod) : ℝ) - (∑ k, ‖((K k).submatrix (compEmb dims index hd)
      (compEmb dims index hd) * (ideal.mat (outDims dims index).prod (outDims dims index).prod)ᴴ).trace‖ ^ 2) /
        Fintype.card (Fin (outDims dims index).prod) = 2 ^ index.length * x := by
    rw [hcard, h3]
    field_simp
  constructor
  · have h4 := fidelity_open K h1 _ hfit.idealUnitary _ hf xi hxi
    rw [e, Finset.sum_sub_distrib, kraus_len K h1, encode_len _ hf, hxi, one_pow] at h4
    refine le_trans (le_of_eq ?_) h4
    congr 1
    rw [h2, sum_mulVec, overlap, dotProduct_sum, Complex.re_sum]
    refine Finset.sum_congr rfl fun k _ => ?_
    rw [mul_pure, pure, vecMulVec_mulVec]
    change (overlap _ (MulOpposite.op (overlap _ _) • _)).re = _
    rw [op_smul_eq_smul, overlap_smul, overlap_star (encode (compEmb dims index hd) _), mul_comm, Complex.star_def]
    rw [RCLike.norm_conj, ← Complex.normSq_eq_conj_mul_self, Complex.ofReal_re, Complex.normSq_eq_norm_sq]
  · have h4 := gate_open K h1 _ hfit.idealUnitary _ hf xi hxi
    rw [e, ← h2] at h4
    exact h4

theorem len_one {k : Type*} [Fintype k] [DecidableEq k] (xi : k → ℂ) (h : ∑ j, ‖xi j‖ ^ 2 = 1) : len xi = 1 := by
  have h1 := len_sq xi
  rw [h] at h1
  exact (pow_eq_one_iff_of_nonneg (len_nonneg _) two_ne_zero).1 h1

/-- **C233**: let the propagators of some gates of an open system have values of `lindbladian_unitary_infid`. Then circuits
of them can be evaluated from every state of the qubits, and the sum of the errors of all populations, those of the higher
levels included, is at most the sum of the errors of the gates. -/
theorem C233_circuits (dims index : List ℕ) (hd : ∀ d ∈ dims, 2 ≤ d) (hne : index ≠ []) (hnd : index.Nodup)
    (hlt : ∀ i ∈ index, i < dims.length) (names : List String) (ideal actual : String → Arr ℂ) (x : String → ℝ)
    (hfit : ∀ g ∈ names, FitsOpen dims index (ideal g) (actual g))
    (hx : ∀ g ∈ names, lindUnitaryInfid (ideal g) (actual g) index dims = some (x g))
    (props : String → Option (Matrix (Fin dims.prod × Fin dims.prod) (Fin dims.prod × Fin dims.prod) ℂ))
    (hprops : ∀ g ∈ names, props g = some (superMat dims.prod (actual g)))
    (seqs : List (List String)) (hseqs : ∀ s ∈ seqs, ∀ g ∈ s, g ∈ names)
    (xi : Fin (outDims dims index).prod → ℂ) (hxi : ∑ j, ‖xi j‖ ^ 2 = 1) :
    ∃ pops, evaluateOpen props seqs (rowVec (pure (encode (compEmb dims index hd) xi))) = some pops ∧
      pops.length = seqs.length ∧
      ∀ (i : ℕ) (seq : List String) (pop : Fin dims.prod → ℝ), seqs[i]? = some seq → pops[i]? = some pop →
        ∑ p, |pop p - ‖encode (compEmb dims index hd) (circuit (fun g =>
            (ideal g).mat (outDims dims index).prod (outDims dims index).prod) seq xi) p‖ ^ 2| ≤
          (seq.map fun g => errorOpen index (x g)).sum :=
  pops_open (compEmb dims index hd) props _ (fun g => errorOpen index (x g)) seqs
    (fun s hs g hg => by
      have hg' := hseqs s hs g hg
      exact ⟨(hfit g hg').idealUnitary, _, hprops g hg', (hfit g hg').kraus, fun xi hxi =>
        (C233_gate (ideal g) (actual g) dims index hd hne hnd hlt (hfit g hg') (x g) (hx g hg') xi hxi).2⟩) xi
    (len_one xi hxi)

/-- The vector that the code makes of a state with real amplitudes, in particular of every state of the register where each
subsystem is in one level. -/
theorem start_real {k : Type*} [Fintype k] (psi : k → ℂ) (h : ∀ i, star (psi i) = psi i) :
    dmToVec (stateToDm psi) = rowVec (pure psi) := by
  funext p
  simp only [dmToVec, stateToDm, rowVec, pure, transpose_apply, of_apply, vecMulVec_apply, Pi.star_apply, h]
  ring

/-- **C233**: the value `v` of the goal function `lindbladian_unitary_infid_set` for a set of gates of all qubits bounds the
errors of all circuits of these gates in the open system, from all states of the qubits with real amplitudes: the sum of
the errors of all populations is at most the number of gates in the circuit times the error that belongs to the infidelity
`names.length * v`. In particular a value of zero makes all circuits exact. -/
theorem C233_set (dims index : List ℕ) (hd : ∀ d ∈ dims, 2 ≤ d) (hne : index ≠ []) (hnd : index.Nodup)
    (hlt : ∀ i ∈ index, i < dims.length) (names : List String) (data : String → GateData) (ideal : String → Arr ℂ)
    (hideal : ∀ g ∈ names, getIdealGate (data g).2.1 (data g).2.2 dims = some (ideal g))
    (hfit : ∀ g ∈ names, FitsOpen dims index (ideal g) (data g).1) (v : ℝ)
    (hv : lindUnitaryInfidSet (names.map data) index dims = some v)
    (props : String → Option (Matrix (Fin dims.prod × Fin dims.prod) (Fin dims.prod × Fin dims.prod) ℂ))
    (hprops : ∀ g ∈ names, props g = some (superMat dims.prod (data g).1))
    (seqs : List (List String)) (hseqs : ∀ s ∈ seqs, ∀ g ∈ s, g ∈ names)
    (xi : Fin (outDims dims index).prod → ℂ) (hxi : ∑ j, ‖xi j‖ ^ 2 = 1) (hreal : ∀ j, star (xi j) = xi j) :
    ∃ pops, evaluateOpen props seqs (dmToVec (stateToDm (encode (compEmb dims index hd) xi))) = some pops ∧
      pops.length = seqs.length ∧
      ∀ (i : ℕ) (seq : List String) (pop : Fin dims.prod → ℝ), seqs[i]? = some seq → pops[i]? = some pop →
        ∑ p, |pop p - ‖encode (compEmb dims index hd) (circuit (fun g =>
            (ideal g).mat (outDims dims index).prod (outDims dims index).prod) seq xi) p‖ ^ 2| ≤
          seq.length * errorOpen index (names.length * v) := by
  rw [start_real _ (by
    intro p
    by_cases hp : ∃ j, compEmb dims index hd j = p
    · obtain ⟨j, rfl⟩ := hp
      rw [encode, (compEmb_injective dims index hd).extend_apply, hreal]
    · rw [encode, Function.extend_apply' _ _ _ hp]
      simp)]
  have hval : ∀ g ∈ names, ∃ x, lindUnitaryInfid (ideal g) (data g).1 index dims = some x ∧ x ≤ names.length * v := by
    intro g hg
    obtain ⟨x, ⟨P, h1, h2⟩, h3⟩ := mem_le_mean _ _ _ ((C171_lindblad _ _ _ _).1 hv) (by
      intro a ha x hx
      obtain ⟨g', hg', rfl⟩ := List.mem_map.1 ha
      obtain ⟨P, h1, h2⟩ := hx
      rw [hideal g' hg', Option.some_inj] at h1
      subst h1
      obtain ⟨x', hx', -, h0, h4⟩ := C233_leakage _ _ dims index hd hne hnd hlt (hfit g' hg')
      rw [h2, Option.some_inj] at hx'
      rw [hx']
      exact h0.trans h4) (data g) (List.mem_map_of_mem hg)
    rw [hideal g hg, Option.some_inj] at h1
    subst h1
    rw [List.length_map] at h3
    exact ⟨x, h2, h3⟩
  have hall : ∀ g, ∃ x, g ∈ names → lindUnitaryInfid (ideal g) (data g).1 index dims = some x ∧
      x ≤ names.length * v := by
    intro g
    by_cases hg : g ∈ names
    · obtain ⟨x, h⟩ := hval g hg
      exact ⟨x, fun _ => h⟩
    · exact ⟨0, fun h => absurd h hg⟩
  choose x hx using hall
  obtain ⟨pops, h1, h2, h3⟩ := C233_circuits dims index hd hne hnd hlt names ideal (fun g => (data g).1) x hfit
    (fun g hg => (hx g hg).1) props hprops seqs hseqs xi hxi
  refine ⟨pops, h1, h2, fun i seq pop hi hp => (h3 i seq pop hi hp).trans ?_⟩
  have h4 := List.sum_le_card_nsmul (seq.map fun g => errorOpen index (x g)) (errorOpen index (names.length * v)) (by
    intro y hy
    obtain ⟨g, hg, rfl⟩ := List.mem_map.1 hy
    refine mul_le_mul_of_nonneg_left (Real.sqrt_le_sqrt ?_) (by norm_num)
    have := (hx g (hseqs seq (List.mem_of_getElem? hi) g hg)).2
    exact mul_le_mul_of_nonneg_left this (by positivity))
  rwa [List.length_map, nsmul_eq_mul] at h4

/-- **C233** for gates of the library with all qubits compared: the value `v` of `lindbladian_unitary_infid_set` bounds the
errors of the populations of all circuits of the open system. The ideal gates are the matrices of the library on the
targets; the propagators may be any channels, in particular those of C232. -/
theorem C233_named (dims : List ℕ) (hd : ∀ d ∈ dims, 2 ≤ d) (hne : dims ≠ []) (names : List String)
    (gate : String → Gate) (targets : String → List ℕ) (hnd : ∀ g ∈ names, (targets g).Nodup)
    (hlt : ∀ g ∈ names, ∀ t ∈ targets g, t < dims.length)
    (hlen : ∀ g ∈ names, (targets g).length = (gate g).qubits) (actual : String → Arr ℂ)
    (hact : ∀ g ∈ names, (actual g).rows = dims.prod * dims.prod ∧ (actual g).cols = dims.prod * dims.prod ∧
      HasKraus (superMat dims.prod (actual g))) :
    ∃ ideal : String → Arr ℂ,
      (∀ g ∈ names, ∀ l m, Valid (List.replicate dims.length 2) l → Valid (List.replicate dims.length 2) m →
        (ideal g).e (flat (List.replicate dims.length 2) l) (flat (List.replicate dims.length 2) m) =
          if SameRest dims.length (targets g) l m then
            (gate g).arr.e (flat (List.replicate (gate g).qubits 2) (tup (targets g) l))
              (flat (List.replicate (gate g).qubits 2) (tup (targets g) m))
          else 0) ∧
      (names ≠ [] → ∃ v, lindUnitaryInfidSet (names.map fun g =>
        (actual g, some (idealFromName [(gate g).name]), some (targets g))) (List.range dims.length) dims = some v) ∧
      ∀ v, lindUnitaryInfidSet (names.map fun g =>
        (actual g, some (idealFromName [(gate g).name]), some (targets g))) (List.range dims.length) dims = some v →
      ∀ (props : String → Option (Matrix (Fin dims.prod × Fin dims.prod) (Fin dims.prod × Fin dims.prod) ℂ)),
        (∀ g ∈ names, props g = some (superMat dims.prod (actual g))) →
      ∀ (seqs : List (List String)), (∀ s ∈ seqs, ∀ g ∈ s, g ∈ names) →
      ∀ xi : Fin (outDims dims (List.range dims.length)).prod → ℂ, ∑ j, ‖xi j‖ ^ 2 = 1 → (∀ j, star (xi j) = xi j) →
      ∃ pops, evaluateOpen props seqs (dmToVec (stateToDm (encode (compEmb dims (List.range dims.length) hd) xi))) =
          some pops ∧ pops.length = seqs.length ∧
        ∀ (i : ℕ) (seq : List String) (pop : Fin dims.prod → ℝ), seqs[i]? = some seq → pops[i]? = some pop →
          ∑ p, |pop p - ‖encode (compEmb dims (List.range dims.length) hd) (circuit (fun g => (ideal g).mat
              (outDims dims (List.range dims.length)).prod (outDims dims (List.range dims.length)).prod) seq xi) p‖ ^ 2| ≤
            2 * seq.length * Real.sqrt (2 ^ dims.length * (names.length * v)) := by
  have hall : ∀ g, ∃ P, g ∈ names → getIdealGate (some (idealFromName [(gate g).name])) (some (targets g)) dims = some P ∧
      P.rows = 2 ^ dims.length ∧ P.cols = 2 ^ dims.length ∧
      (∀ l m, Valid (List.replicate dims.length 2) l → Valid (List.replicate dims.length 2) m →
        P.e (flat (List.replicate dims.length 2) l) (flat (List.replicate dims.length 2) m) =
        if SameRest dims.length (targets g) l m then
          (gate g).arr.e (flat (List.replicate (gate g).qubits 2) (tup (targets g) l))
            (flat (List.replicate (gate g).qubits 2) (tup (targets g) m))
        else 0) ∧
      (P.mat (List.replicate dims.length 2).prod (List.replicate dims.length 2).prod)ᴴ *
        P.mat (List.replicate dims.length 2).prod (List.replicate dims.length 2).prod = 1 := by
    intro g
    by_cases hg : g ∈ names
    · obtain ⟨P, h⟩ := C57_named (gate g) (targets g) dims (hnd g hg) (hlt g hg) (hlen g hg)
      exact ⟨P, fun _ => h⟩
    · exact ⟨eye 0 0, fun h => absurd h hg⟩
  choose ideal hideal using hall
  have hfit : ∀ g ∈ names, FitsOpen dims (List.range dims.length) (ideal g) (actual g) := fun g hg =>
    ⟨(hact g hg).1, (hact g hg).2.1, by rw [List.length_range]; exact (hideal g hg).2.1,
      by rw [List.length_range]; exact (hideal g hg).2.2.1, (hact g hg).2.2,
      by rw [outDims_full]; exact (hideal g hg).2.2.2.2⟩
  have hr : List.range dims.length ≠ [] := by
    rw [Ne, List.range_eq_nil, List.length_eq_zero_iff]
    exact hne
  refine ⟨ideal, fun g hg => (hideal g hg).2.2.2.1, fun hn => ?_, fun v hv props hprops seqs hseqs xi hxi hreal => ?_⟩
  · have hval : ∀ g, ∃ x, g ∈ names → lindUnitaryInfid (ideal g) (actual g) (List.range dims.length) dims = some x := by
      intro g
      by_cases hg : g ∈ names
      · obtain ⟨x, h, -⟩ := C233_leakage (ideal g) (actual g) dims _ hd hr List.nodup_range (by simp) (hfit g hg)
        exact ⟨x, fun _ => h⟩
      · exact ⟨0, fun h => absurd h hg⟩
    choose x hx using hval
    refine ⟨(names.map x).sum / names.length, (C171_lindblad _ _ _ _).2 ⟨names.map x, ?_, by simpa using hn, ?_⟩⟩
    · rw [List.forall₂_map_left_iff, List.forall₂_map_right_iff, List.forall₂_same]
      exact fun g hg => ⟨ideal g, (hideal g hg).1, hx g hg⟩
    · have : (names.length : ℝ) ≠ 0 := by
        rw [Ne, Nat.cast_eq_zero, List.length_eq_zero_iff]
        exact hn
      rw [List.length_map, div_mul_cancel₀ _ this]
  · obtain ⟨pops, h1, h2, h3⟩ := C233_set dims (List.range dims.length) hd hr List.nodup_range (by simp) names
      (fun g => (actual g, some (idealFromName [(gate g).name]), some (targets g))) ideal (fun g hg => (hideal g hg).1)
      hfit v hv props hprops seqs hseqs xi hxi hreal
    refine ⟨pops, h1, h2, fun i seq pop hi hp => (h3 i seq pop hi hp).trans (le_of_eq ?_)⟩
    rw [errorOpen, List.length_range]
    ring

/-! ## Example: a decaying qubit -/

/-- The Kraus operators of a qubit that decays with probability 9 / 25. -/
def damp : List (Matrix (Fin 2) (Fin 2) ℂ) := [!![1, 0; 0, 4 / 5], !![0, 3 / 5; 0, 0]]

/-- Its propagator. -/
def exDamp : Arr ℂ := ⟨4, 4, fun r c => if r = c then (if r = 0 then 1 else if r = 3 then 16 / 25 else 4 / 5) else
  if r = 0 ∧ c = 3 then 9 / 25 else 0⟩

set_option linter.unusedSimpArgs false in
theorem exDamp_sum : superMat 2 exDamp = (damp.map tfSuper).sum := by
  have h : ∀ a : ℝ, (starRingEnd ℂ) (a : ℂ) = a := Complex.conj_ofReal
  have h3 := h 3
  have h4 := h 4
  have h5 := h 5
  push_cast at h3 h4 h5
  ext ⟨a, b⟩ ⟨c, d⟩
  simp only [damp, List.map_cons, List.map_nil, List.sum_cons, List.sum_nil, add_zero, Matrix.add_apply, Kraus.tfSuper_apply]
  fin_cases a <;> fin_cases b <;> fin_cases c <;> fin_cases d <;>
    simp [superMat, exDamp, h3, h4, h5] <;> norm_num

theorem exDamp_fits : FitsOpen [2] [0] (eye 2 2) exDamp := by
  refine ⟨rfl, rfl, rfl, rfl, ?_, ?_⟩
  · change HasKraus (superMat 2 exDamp)
    refine ⟨damp, ?_, (eq_sum_iff _ _).1 exDamp_sum⟩
    have h : ∀ a : ℝ, (starRingEnd ℂ) (a : ℂ) = a := Complex.conj_ofReal
    have h3 := h 3
    have h4 := h 4
    have h5 := h 5
    push_cast at h3 h4 h5
    ext i j
    fin_cases i <;> fin_cases j <;>
      (simp [damp, Matrix.mul_apply, Fin.sum_univ_two, h3, h4, h5]; try norm_num)
  · rw [eye_one, conjTranspose_one, one_mul]

/-- The value of `lindbladian_unitary_infid` for a gate that should do nothing. -/
theorem exDamp_infid : lindUnitaryInfid (eye 2 2) exDamp [0] [2] = some (19 / 100) := by
  have hv := value_open (eye 2 2) exDamp [2] [0] (by simp) (by simp) (by simp) (by simp) rfl rfl rfl rfl damp exDamp_sum
  have e0 : @Eq (Fin 2) (compEmb [2] [0] (by simp) (0 : Fin 2)) 0 := Fin.ext (by
    change flat [2] ((stateLabels [2]).getD 0 []) = 0
    decide)
  have e1 : @Eq (Fin 2) (compEmb [2] [0] (by simp) (1 : Fin 2)) 1 := Fin.ext (by
    change flat [2] ((stateLabels [2]).getD 1 []) = 1
    decide)
  have ht : ∀ K : Matrix (Fin 2) (Fin 2) ℂ, (Matrix.submatrix (K : Matrix (Fin [2].prod) (Fin [2].prod) ℂ)
      (compEmb [2] [0] (by simp)) (compEmb [2] [0] (by simp)) *
        ((eye 2 2 : Arr ℂ).mat (outDims [2] [0]).prod (outDims [2] [0]).prod)ᴴ).trace = K 0 0 + K 1 1 := by
    intro K
    rw [eye_one, conjTranspose_one, mul_one]
    refine (Fin.sum_univ_two (fun i : Fin 2 => K (compEmb [2] [0] (by simp) i) (compEmb [2] [0] (by simp) i))).trans ?_
    exact congrArg₂ (· + ·) (congrArg (fun x : Fin 2 => K x x) e0) (congrArg (fun x : Fin 2 => K x x) e1)
  have h9 : ‖(1 + 4 / 5 : ℂ)‖ = 9 / 5 := by
    have : (1 + 4 / 5 : ℂ) = ((9 / 5 : ℝ) : ℂ) := by push_cast; norm_num
    rw [this, Complex.norm_real]
    norm_num
  have hs := (list_fin damp (fun K => ‖(Matrix.submatrix (K : Matrix (Fin [2].prod) (Fin [2].prod) ℂ)
      (compEmb [2] [0] (by simp)) (compEmb [2] [0] (by simp)) *
        ((eye 2 2 : Arr ℂ).mat (outDims [2] [0]).prod (outDims [2] [0]).prod)ᴴ).trace‖ ^ 2)).symm.trans
    (show _ = (81 / 25 : ℝ) by
      simp only [ht]
      simp [damp]
      rw [h9]
      norm_num)
  refine hv.trans ((congrArg (fun y : ℝ => some (1 - y / (2 ^ [0].length) ^ 2)) hs).trans ?_)
  norm_num

/-- The error of all circuits that wait, and of the first gate. -/
example (k : ℕ) (xi : Fin (outDims [2] [0]).prod → ℂ) (hxi : ∑ j, ‖xi j‖ ^ 2 = 1) : ∃ pop,
    evaluateOpen (fun _ => some (superMat [2].prod exDamp)) [List.replicate k "id"]
      (rowVec (pure (encode (compEmb [2] [0] (by simp)) xi))) = some [pop] ∧
    ∑ p, |pop p - ‖encode (compEmb [2] [0] (by simp)) xi p‖ ^ 2| ≤ k * (2 * Real.sqrt (19 / 50)) := by
  obtain ⟨pops, h1, h2, h3⟩ := C233_circuits [2] [0] (by simp) (by simp) (by simp) (by simp) ["id"] (fun _ => eye 2 2)
    (fun _ => exDamp) (fun _ => 19 / 100) (fun _ _ => exDamp_fits) (fun _ _ => exDamp_infid)
    (fun _ => some (superMat [2].prod exDamp)) (fun _ _ => rfl) [List.replicate k "id"] (by
      intro s hs g hg
      rw [List.mem_singleton.1 hs] at hg
      rw [(List.mem_replicate.1 hg).2]
      simp) xi hxi
  obtain ⟨pop, rfl⟩ := List.length_eq_one_iff.1 h2
  refine ⟨pop, h1, ?_⟩
  have h4 := h3 0 _ pop rfl rfl
  have hc : circuit (fun _ => (eye 2 2 : Arr ℂ).mat (outDims [2] [0]).prod (outDims [2] [0]).prod) (List.replicate k "id") xi = xi := by
    clear h1 h2 h3 h4
    induction k with
    | zero => rfl
    | succ k ih =>
      rw [List.replicate_succ, circuit, List.foldl_cons, eye_one, one_mulVec, ← eye_one]
      exact ih
  rw [hc] at h4
  refine h4.trans (le_of_eq ?_)
  simp only [errorOpen, List.map_replicate, List.sum_replicate, nsmul_eq_mul, List.length_cons, List.length_nil]
  norm_num

end C3.Experiment.OpenGoal
