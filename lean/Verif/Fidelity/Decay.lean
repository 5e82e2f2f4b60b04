import Verif.Fidelity.CliffordMean
import Mathlib.Analysis.SpecialFunctions.Pow.Deriv

/-!
# C212: the decay of randomized benchmarking
-/

set_option linter.unusedSectionVars false

namespace C3.Fidelity.Decay

open Matrix C3.Gates C3.Fidelity.Twirl C3.Fold
open scoped Matrix.Norms.L2Operator

/-! ## Specification: average fidelity -/

/-- The overlap of two states. -/
noncomputable def ov (X Y : Herm) : ℝ := ((X : Matrix (Fin 2) (Fin 2) ℂ) * (Y : Matrix (Fin 2) (Fin 2) ℂ)).trace.re

/-- Sum over the six states on the axes. -/
noncomputable def sumAxes (f : Herm → ℝ) : ℝ :=
  f (bloch (1 / 2) (1 / 2) 0 0) + f (bloch (1 / 2) (-(1 / 2)) 0 0) + f (bloch (1 / 2) 0 (1 / 2) 0) + f (bloch (1 / 2) 0 (-(1 / 2)) 0) +
    f (bloch (1 / 2) 0 0 (1 / 2)) + f (bloch (1 / 2) 0 0 (-(1 / 2)))

/-- The average fidelity of an operation `S` with regard to the ideal `T`: the mean overlap of what they make of the six
states on the axes, which is the mean over all states (C206, C208). -/
noncomputable def axisFid (T S : Op) : ℝ := sumAxes (fun s => ov (T s) (S s)) / 6

/-- The error per Clifford: the mean infidelity of the 24 Cliffords, carried out by the decompositions of the code. -/
noncomputable def meanError (op : G4 → Op) : ℝ := avg fun c : Cl => 1 - axisFid (rep c) (cliffOp op c)

/-! ## Fidelity and twirl -/

theorem ov_ad (U : Matrix (Fin 2) (Fin 2) ℂ) (hU : Uᴴ * U = 1) (X Y : Herm) : ov (ad U X) (ad U Y) = ov X Y := by
  unfold ov
  rw [ad_apply, ad_apply]
  have e : U * (X : Matrix (Fin 2) (Fin 2) ℂ) * Uᴴ * (U * (Y : Matrix (Fin 2) (Fin 2) ℂ) * Uᴴ) =
      U * ((X : Matrix (Fin 2) (Fin 2) ℂ) * Y) * Uᴴ := by
    calc _ = U * X * (Uᴴ * U) * Y * Uᴴ := by simp only [Matrix.mul_assoc]
      _ = _ := by rw [hU, Matrix.mul_one]; simp only [Matrix.mul_assoc]
  rw [e, Matrix.trace_mul_comm, ← Matrix.mul_assoc, hU, Matrix.one_mul]

theorem ov_bloch (t x y z t' x' y' z' : ℝ) : ov (bloch t x y z) (bloch t' x' y' z') = 2 * (t * t' + x * x' + y * y' + z * z') := by
  unfold ov bloch
  rw [Matrix.mul_fin_two, Matrix.trace_fin_two_of]
  simp
  ring

theorem ov_add (X Y Z : Herm) : ov X (Y + Z) = ov X Y + ov X Z := by
  simp [ov, Matrix.mul_add]

theorem ov_smul (r : ℝ) (X Y : Herm) : ov X (r • Y) = r * ov X Y := by
  simp [ov]

theorem ad_xm (t x y z : ℝ) : ad G4.x90m.mat (bloch t x y z) = bloch t x z (-y) := by
  have h := ad_x t x z (-y)
  rw [neg_neg] at h
  rw [← h]
  have h2 : ad G4.x90m.mat * ad G4.x90p.mat = 1 := by
    rw [← ad_mul, ← ad_one, show G4.x90m.mat = G4.x90p.matᴴ from adj_x90p.symm, mat_unitary]
  exact congrArg (fun T : Op => T (bloch t x z (-y))) h2

theorem ad_ym (t x y z : ℝ) : ad G4.y90m.mat (bloch t x y z) = bloch t (-z) y x := by
  have h := ad_y t (-z) y x
  rw [neg_neg] at h
  rw [← h]
  have h2 : ad G4.y90m.mat * ad G4.y90p.mat = 1 := by
    rw [← ad_mul, ← ad_one, show G4.y90m.mat = G4.y90p.matᴴ from adj_y90p.symm, mat_unitary]
  exact congrArg (fun T : Op => T (bloch t (-z) y x)) h2

theorem sumAxes_gate (g : G4) (f : Herm → ℝ) : sumAxes (fun s => f (ad g.mat s)) = sumAxes f := by
  unfold sumAxes
  cases g
  all_goals
    simp only [ad_x, ad_y, ad_xm, ad_ym, neg_zero, neg_neg]
    ring

theorem sumAxes_rep (c : Cl) (f : Herm → ℝ) : sumAxes (fun s => f (rep c s)) = sumAxes f := by
  rw [← cliffOp_ideal]
  unfold cliffOp
  induction c.word using List.reverseRecOn generalizing f with
  | nil => rfl
  | append_singleton l g ih =>
    simp only [List.map_append, List.map_singleton, timeOrdered_concat, timeOrdered_one, mul_apply_eq_comp]
    rw [ih fun X => f (ad g.mat X), sumAxes_gate]

/-- The fidelity with regard to doing nothing, as a linear function. -/
noncomputable def fid : Op →ₗ[ℝ] ℝ where
  toFun S := axisFid 1 S
  map_add' S T := by
    simp only [axisFid, sumAxes, _root_.add_apply, ov_add]
    ring
  map_smul' r S := by
    simp only [axisFid, sumAxes, _root_.smul_apply, ov_smul, RingHom.id_apply, smul_eq_mul]
    ring

theorem rep_inv (c : Cl) : rep c * rep c⁻¹ = 1 ∧ rep c⁻¹ * rep c = 1 := by
  rw [← map_mul, ← map_mul, mul_inv_cancel, inv_mul_cancel, map_one]
  exact ⟨rfl, rfl⟩

theorem op_avg (φ : Op →ₗ[ℝ] ℝ) (f : Cl → Op) : φ (avg f) = avg fun c => φ (f c) := by
  simp [avg]

theorem fid_conj (c : Cl) (S : Op) : fid (rep c * S * rep c⁻¹) = fid S := by
  have h := sumAxes_rep c⁻¹ fun s => ov s (S s)
  change sumAxes (fun s => ov s (rep c (S (rep c⁻¹ s)))) / 6 = sumAxes (fun s => ov s (S s)) / 6
  rw [← h]
  congr 2
  funext s
  have e : s = rep c (rep c⁻¹ s) := by
    have := congrArg (fun T : Op => T s) (rep_inv c).1
    exact this.symm
  conv_lhs => rw [e]
  rw [show rep c⁻¹ (rep c (rep c⁻¹ s)) = rep c⁻¹ s by rw [← e]]
  exact ov_ad _ c.unitary _ _

theorem fid_twirl (S : Op) : fid (twirl rep S) = fid S := by
  unfold twirl
  refine (op_avg fid _).trans ?_
  simp only [fid_conj]
  exact avg_const _

theorem axisFid_rep (c : Cl) (S : Op) : axisFid (rep c) S = fid (S * rep c⁻¹) := by
  rw [← fid_conj c⁻¹, inv_inv, mul_assoc, mul_assoc, (rep_inv c).2, mul_one]
  change _ = sumAxes (fun s => ov s (rep c⁻¹ (S s))) / 6
  unfold axisFid
  congr 2
  funext s
  have e : S s = rep c (rep c⁻¹ (S s)) := by
    have := congrArg (fun T : Op => T (S s)) (rep_inv c).1
    exact this.symm
  conv_lhs => rw [e]
  exact ov_ad _ c.unitary _ _

theorem fid_form (D : Op) (q p : ℝ) (h : ∀ t x y z, D (bloch t x y z) = bloch (q * t) (p * x) (p * y) (p * z)) :
    fid D = (q + p) / 2 := by
  change sumAxes (fun s => ov s (D s)) / 6 = _
  simp only [sumAxes, h, ov_bloch]
  ring

theorem fid_one : fid 1 = 1 := by
  rw [fid_form 1 1 1 fun t x y z => by simp]
  norm_num

theorem meanError_eq (op : G4 → Op) : meanError op = 1 - fid (chan rep (cliffOp op)) := by
  unfold meanError
  refine Eq.trans ?_ (congrArg (1 - ·) (op_avg fid _).symm)
  have : (fun c : Cl => 1 - axisFid (rep c) (cliffOp op c)) = fun c : Cl => 1 + (-1 : ℝ) • fid (cliffOp op c * rep c⁻¹) := by
    funext c
    rw [axisFid_rep]
    simp
    ring
  rw [this, avg_add, avg_const, avg_smul]
  simp
  ring

/-! ## The decay -/

theorem rep_id (c : Cl) : rep c (bloch 1 0 0 0) = bloch 1 0 0 0 := by
  have hb : ((bloch 1 0 0 0 : Herm) : Matrix (Fin 2) (Fin 2) ℂ) = 1 := by
    unfold bloch
    ext i j
    fin_cases i <;> fin_cases j <;> simp
  apply Subtype.ext
  change c.mat * ((bloch 1 0 0 0 : Herm) : Matrix (Fin 2) (Fin 2) ℂ) * c.matᴴ = _
  rw [hb, Matrix.mul_one]
  exact mul_eq_one_comm.1 c.unitary

theorem op_le (T : Op) (X : Herm) (b : ℝ) (hT : ‖T‖ ≤ b) (hX : ‖X‖ ≤ 1) : ‖T X‖ ≤ b := by
  refine (T.le_opNorm X).trans ?_
  have := norm_nonneg T
  nlinarith [norm_nonneg X]

theorem pop_sub (S T : Op) (X : Herm) : pop (S X) - pop (T X) = pop ((S - T) X) := by
  rw [_root_.sub_apply, map_sub]

theorem decay_error (D T : Op) (p δ : ℝ) (hf : ∀ t x y z, D (bloch t x y z) = bloch (1 * t) (p * x) (p * y) (p * z))
    (hT : Commutes rep T) (h : ‖D - T‖ ≤ δ) : |(1 + p) / 2 - fid T| ≤ δ := by
  have hI : ‖bloch 1 0 0 0‖ ≤ 1 := bloch_norm _ _ _ (by norm_num) (by norm_num)
  have hZ : ‖bloch 0 0 0 1‖ ≤ 1 := bloch_norm _ _ _ (by norm_num) (by norm_num)
  obtain ⟨q', p', hf'⟩ := commutes_form T hT
  have hq' : |1 - q'| ≤ δ := by
    have e : 1 - q' = pop ((D - T) (bloch 1 0 0 0)) := by
      rw [_root_.sub_apply, map_sub, hf, hf', pop_bloch, pop_bloch]
      ring
    rw [e]
    exact (pop_le _).trans (op_le _ _ _ h hI)
  have hp' : |p - p'| ≤ δ := by
    have e : p - p' = pop ((D - T) (bloch 0 0 0 1)) := by
      rw [_root_.sub_apply, map_sub, hf, hf', pop_bloch, pop_bloch]
      ring
    rw [e]
    exact (pop_le _).trans (op_le _ _ _ h hZ)
  rw [fid_form T q' p' hf', abs_le]
  have := abs_le.1 hq'
  have := abs_le.1 hp'
  constructor <;> linarith

theorem decay_form (op : G4 → Op) (ε : ℝ) (hε : ε ≤ 1 / 50) (hC : ∀ c, ‖cliffOp op c - rep c‖ ≤ ε)
    (htr : ∀ g X, tr (op g X) = tr X) :
    ∃ p A B, |1 - p| ≤ 2 * ε ∧ |A - 1 / 2| ≤ 75 * ε ∧ |B - 1 / 2| ≤ 34 * ε ∧ |(1 - p) / 2 - meanError op| ≤ 18 * ε ^ 2 ∧
      ∀ k, |rbMean (survival op) k - (A * p ^ (k + 1) + B)| ≤ (38 * ε) ^ (k + 1) := by
  have hε0 : 0 ≤ ε := (norm_nonneg (cliffOp op 1 - rep 1)).trans (hC 1)
  obtain ⟨L, Rr, D, hD, hLD, hL, hR, hD1, hEn, hk⟩ := near_ideal_value rep rep_norm (cliffOp op) ε hε hC commutes_comm
  obtain ⟨q, p, hf⟩ := commutes_form D hD
  have hI : ‖bloch 1 0 0 0‖ ≤ 1 := bloch_norm _ _ _ (by norm_num) (by norm_num)
  have hZ : ‖bloch 0 0 0 1‖ ≤ 1 := bloch_norm _ _ _ (by norm_num) (by norm_num)
  -- the operator on the identity
  have hLI : |tr (L (bloch 1 0 0 0)) - 2| ≤ 12 * ε := by
    have e : tr (L (bloch 1 0 0 0)) - 2 = tr ((L - 1) (bloch 1 0 0 0)) := by
      rw [_root_.sub_apply, map_sub]
      simp [tr_bloch]
    rw [e]
    refine (tr_le _).trans ?_
    have := op_le (L - 1) (bloch 1 0 0 0) _ hL hI
    linarith
  have hq : q = 1 := by
    let φ : Op →ₗ[ℝ] ℝ :=
      { toFun := fun T => tr (T (bloch 1 0 0 0))
        map_add' := fun S T => by simp
        map_smul' := fun r S => by simp }
    have h := (op_avg φ _).symm.trans (congrArg φ hLD)
    have h1 : ∀ c : Cl, φ (cliffOp op c * L * rep c⁻¹) = tr (L (bloch 1 0 0 0)) := by
      intro c
      change tr (cliffOp op c (L (rep c⁻¹ (bloch 1 0 0 0)))) = _
      rw [cliffOp_tr op htr, rep_id]
    have h2 : φ (L * D) = q * tr (L (bloch 1 0 0 0)) := by
      change tr (L (D (bloch 1 0 0 0))) = _
      have : bloch (q * 1) (p * 0) (p * 0) (p * 0) = q • bloch 1 0 0 0 := by rw [bloch_smul]; simp
      rw [hf, this, map_smul, map_smul, smul_eq_mul]
    simp only [h1] at h
    rw [avg_const, h2] at h
    have hne : tr (L (bloch 1 0 0 0)) ≠ 0 := by
      intro h0
      rw [h0] at hLI
      norm_num at hLI
      linarith
    have : (1 - q) * tr (L (bloch 1 0 0 0)) = 0 := by linarith
    rcases mul_eq_zero.1 this with h | h
    · linarith
    · exact absurd h hne
  subst hq
  have hp : |1 - p| ≤ 2 * ε := by
    have e : 1 - p = -pop ((D - 1) (bloch 0 0 0 1)) := by
      rw [_root_.sub_apply, map_sub, hf]
      simp [pop_bloch]
    rw [e, abs_neg]
    exact (pop_le _).trans (op_le _ _ _ hD1 hZ)
  have hp0 : 0.96 ≤ p := by
    have := (abs_le.1 hp).2
    linarith
  -- the infidelity
  have hE : |(1 - p) / 2 - meanError op| ≤ 18 * ε ^ 2 := by
    have h := decay_error D _ p (18 * ε ^ 2) hf (twirl_commutes rep (chan rep (cliffOp op))) hEn
    rw [fid_twirl] at h
    rw [meanError_eq]
    have e : (1 - p) / 2 - (1 - fid (chan rep (cliffOp op))) = -((1 + p) / 2 - fid (chan rep (cliffOp op))) := by ring
    rw [e, abs_neg]
    exact h
  -- the coefficients
  obtain ⟨t, x, y, z, hg⟩ := bloch_surj (Rr ground)
  have ht : |t - 1 / 2| ≤ 27 * ε := by
    have e : 2 * (t - 1 / 2) = tr ((Rr - 1) ground) := by
      rw [_root_.sub_apply, map_sub, hg, tr_bloch]
      simp only [ground, one_apply_eq_self, tr_bloch]
      ring
    have h1 := tr_le ((Rr - 1) ground)
    have h2 := op_le (Rr - 1) ground _ hR ground_norm
    rw [← e, abs_mul, abs_of_pos (by norm_num : (0 : ℝ) < 2)] at h1
    linarith
  have hθ : |pop (L (bloch 1 0 0 0)) - 1| ≤ 6 * ε := by
    have e : pop (L (bloch 1 0 0 0)) - 1 = pop ((L - 1) (bloch 1 0 0 0)) := by
      rw [_root_.sub_apply, map_sub]
      simp [pop_bloch]
    rw [e]
    exact (pop_le _).trans (op_le _ _ _ hL hI)
  have hB : pop (L (bloch t 0 0 0)) = t * pop (L (bloch 1 0 0 0)) := by
    have : bloch t 0 0 0 = t • bloch 1 0 0 0 := by rw [bloch_smul]; simp
    rw [this, map_smul, map_smul, smul_eq_mul]
  have hB2 : |pop (L (bloch t 0 0 0)) - 1 / 2| ≤ 33.3 * ε := by
    rw [hB, abs_le]
    rw [abs_le] at ht hθ
    constructor <;> nlinarith [mul_nonneg hε0 (by linarith : (0 : ℝ) ≤ 1 / 50 - ε)]
  have hA : |pop (L (bloch 0 x y z)) - 1 / 2| ≤ 69.6 * ε := by
    have hsum : pop (L (bloch 0 x y z)) = pop ((L * Rr) ground) - pop (L (bloch t 0 0 0)) := by
      change _ = pop (L (Rr ground)) - _
      rw [hg, ← map_sub, ← map_sub]
      congr 2
      have : bloch t x y z = bloch 0 x y z + bloch t 0 0 0 := by rw [bloch_add]; simp
      rw [this, add_sub_cancel_right]
    have h1 : |pop ((L * Rr) ground) - 1| ≤ 6 * ε + 27 * ε + 6 * ε * (27 * ε) := by
      have e : pop ((L * Rr) ground) - 1 = pop ((L * Rr - 1) ground) := by
        rw [_root_.sub_apply, map_sub]
        simp [ground, pop_bloch]
        norm_num
      rw [e]
      exact (pop_le _).trans (op_le _ _ _ (norm_mul_sub_one L Rr _ _ hL hR) ground_norm)
    rw [hsum, abs_le]
    rw [abs_le] at h1 hB2
    constructor <;> nlinarith [mul_nonneg hε0 (by linarith : (0 : ℝ) ≤ 1 / 50 - ε)]
  refine ⟨p, pop (L (bloch 0 x y z)) / p, pop (L (bloch t 0 0 0)), hp, ?_, by linarith, hE, fun k => ?_⟩
  · have hpp : 0 < p := by linarith
    have e : pop (L (bloch 0 x y z)) / p - 1 / 2 = (pop (L (bloch 0 x y z)) - p / 2) / p := by
      field_simp
    rw [e, abs_div, abs_of_pos hpp, div_le_iff₀ hpp, abs_le]
    rw [abs_le] at hA hp
    constructor <;> nlinarith
  · have hDk : ∀ k, (D ^ k) (bloch t x y z) = bloch t 0 0 0 + p ^ k • bloch 0 x y z := by
      intro k
      induction k with
      | zero => rw [pow_zero, pow_zero, one_smul, bloch_add]; simp
      | succ k ih =>
        rw [pow_succ', mul_apply_eq_comp, ih, bloch_smul, bloch_add, hf, bloch_smul, bloch_add]
        congr 1 <;> ring
    have hform : pop ((L * D ^ k * Rr) ground) = pop (L (bloch 0 x y z)) / p * p ^ (k + 1) + pop (L (bloch t 0 0 0)) := by
      change pop (L ((D ^ k) (Rr ground))) = _
      rw [hg, hDk, map_add, map_add, map_smul, map_smul, smul_eq_mul, pow_succ]
      have hpp : p ≠ 0 := by linarith
      field_simp
      ring
    rw [rbMean_survival, ← hform, pop_sub]
    exact (pop_le _).trans (op_le _ _ _ (hk k) ground_norm)

/-- **C212: randomized benchmarking decays exponentially.** If the operations of the four gates preserve the trace and are
within `η` of the ideal ones (not necessarily unitary, different for every gate), the mean survival probability over all
sequences of `k + 1` Cliffords is `A p ^ (k + 1) + B`, the function that is fitted, up to `(190 η) ^ (k + 1)`; and the
error per Clifford `(1 - p) / 2` of the code is the mean infidelity of the Cliffords up to second order. -/
theorem C212_decay (op : G4 → Op) (η : ℝ) (hη : η ≤ 1 / 250) (hop : ∀ g, ‖op g - ad g.mat‖ ≤ η)
    (htr : ∀ g X, tr (op g X) = tr X) :
    ∃ p A B, |1 - p| ≤ 10 * η ∧ |A - 1 / 2| ≤ 375 * η ∧ |B - 1 / 2| ≤ 170 * η ∧
      |0.5 * (1 - p) - meanError op| ≤ 450 * η ^ 2 ∧
      ∀ k, |rbMean (survival op) k - (A * p ^ (k + 1) + B)| ≤ (190 * η) ^ (k + 1) := by
  obtain ⟨p, A, B, h1, h2, h3, h4, h5⟩ := decay_form op (5 * η) (by linarith) (cliffOp_close op η hη hop) htr
  refine ⟨p, A, B, by linarith, by linarith, by linarith, ?_, fun k => ?_⟩
  · rw [show 0.5 * (1 - p) = (1 - p) / 2 by ring]
    exact h4.trans (le_of_eq (by ring))
  · exact (h5 k).trans (le_of_eq (by ring))

/-! ## Closed systems and `orbit_infid` -/

theorem ground_coe : ((ground : Herm) : Matrix (Fin 2) (Fin 2) ℂ) = !![1, 0; 0, 0] := by
  unfold ground bloch
  ext i j
  fin_cases i <;> fin_cases j <;> norm_num

theorem pop_ad (V : Matrix (Fin 2) (Fin 2) ℂ) : pop (ad V ground) = ‖V 0 0‖ ^ 2 := by
  change ((V * ((ground : Herm) : Matrix (Fin 2) (Fin 2) ℂ) * Vᴴ) 0 0).re = _
  rw [ground_coe]
  simp [Matrix.mul_apply, Fin.sum_univ_two, Matrix.conjTranspose_apply]
  rw [← Complex.normSq_eq_norm_sq, Complex.normSq_apply]

theorem survival_closed (U : G4 → Matrix (Fin 2) (Fin 2) ℂ) (gates : List G4) :
    survival (fun g => ad (U g)) gates = ‖timeOrdered (gates.map U) 0 0‖ ^ 2 := by
  unfold survival
  rw [timeOrdered_ad, pop_ad]

theorem tr_ad (V : Matrix (Fin 2) (Fin 2) ℂ) (hV : Vᴴ * V = 1) (X : Herm) : tr (ad V X) = tr X := by
  change (V * (X : Matrix (Fin 2) (Fin 2) ℂ) * Vᴴ).trace.re = (X : Matrix (Fin 2) (Fin 2) ℂ).trace.re
  rw [Matrix.trace_mul_comm, ← Matrix.mul_assoc, hV, Matrix.one_mul]

theorem singleLengthRB_map (draws : List (List ℕ)) (target : ℕ) (h : ∀ d ∈ draws, ∀ c ∈ d, c < 24) :
    singleLengthRB draws target = some (draws.map fun d => ((singleRB d).getD []).map fun c => onTarget c.name target) := by
  unfold singleLengthRB
  induction draws with
  | nil => rfl
  | cons d ds ih =>
    obtain ⟨gates, hg, -⟩ := C59_rb d (h d List.mem_cons_self)
    rw [List.mapM_cons, ih fun x hx => h x (List.mem_cons_of_mem _ hx), hg]
    simp [hg]

/-- `orbit_infid` is the mean of the probabilities to leave the ground state. -/
theorem orbit_value (propagators : List (String × Matrix (Fin 2) (Fin 2) ℂ)) (target : ℕ) (U : G4 → Matrix (Fin 2) (Fin 2) ℂ)
    (hlook : ∀ c : G4, propagators.lookup (onTarget c.name target) = some (U c)) (draws : List (List ℕ)) (hne : draws ≠ [])
    (h : ∀ d ∈ draws, ∀ c ∈ d, c < 24) :
    (singleLengthRB draws target).bind (orbitInfid (d := 1) propagators) =
      some ((draws.map fun d => 1 - survival (fun g => ad (U g)) ((singleRB d).getD [])).sum / draws.length) := by
  rw [singleLengthRB_map draws target h, Option.bind_some]
  have hp : propagators ≠ [] := by
    rintro rfl
    have := hlook .x90p
    simp at this
  unfold orbitInfid
  rw [C3.Fold.C21_sequences propagators hp _ (by
    intro s hs g hg
    obtain ⟨d, -, rfl⟩ := List.mem_map.1 hs
    obtain ⟨c, -, rfl⟩ := List.mem_map.1 hg
    exact ⟨_, hlook c⟩)]
  simp only [apply_basis, List.map_map]
  unfold tfAve
  rw [if_neg (by simpa using hne), List.length_map]
  congr 4
  funext d
  simp only [Function.comp_apply, survival_closed]
  unfold seqProp
  have e : (fun g => (propagators.lookup g).getD 1) ∘ (fun c : G4 => onTarget c.name target) = U := by
    funext c
    simp only [Function.comp_apply, hlook, Option.getD_some]
  rw [List.map_map, e]

/-- The mean over independent draws of the mean of the draws. -/
theorem mean_of_means {X : Type*} [Fintype X] [Nonempty X] (f : X → ℝ) (m : ℕ) :
    (((Fintype.card X : ℝ)) ^ (m + 1))⁻¹ * ∑ D : Fin (m + 1) → X, (∑ i, f (D i)) / ((m + 1 : ℕ) : ℝ) =
      ((Fintype.card X : ℝ))⁻¹ * ∑ x, f x := by
  have hN : (Fintype.card X : ℝ) ≠ 0 := by exact_mod_cast Fintype.card_ne_zero
  have h1 : ∀ i : Fin (m + 1), ∑ D : Fin (m + 1) → X, f (D i) = (Fintype.card X : ℝ) ^ m * ∑ x, f x := by
    intro i
    rw [← (Fin.insertNthEquiv (fun _ => X) i).sum_comp, Fintype.sum_prod_type]
    simp [Fin.insertNthEquiv, Finset.mul_sum]
  rw [← Finset.sum_div, Finset.sum_comm]
  simp only [h1, Finset.sum_const, Finset.card_univ, Fintype.card_fin, nsmul_eq_mul]
  have hm : ((m + 1 : ℕ) : ℝ) ≠ 0 := by positivity
  field_simp
  ring

/-- **C212: the expected value of `orbit_infid`**: with the propagators `U` of the four gates, and `m + 1` sequences of
length `k + 1` drawn independently, every outcome of the draws gives a value (nothing raises), and the mean over all outcomes
is one minus the mean survival probability. -/
theorem C212_mean_orbit (propagators : List (String × Matrix (Fin 2) (Fin 2) ℂ)) (target : ℕ)
    (U : G4 → Matrix (Fin 2) (Fin 2) ℂ)
    (hlook : ∀ c : G4, propagators.lookup (onTarget c.name target) = some (U c)) (m k : ℕ) :
    ∃ v : (Fin (m + 1) → Fin k → Fin 24) → ℝ,
      (∀ D, (singleLengthRB (List.ofFn fun i => List.ofFn fun j => ((D i j : Fin 24) : ℕ)) target).bind
        (orbitInfid (d := 1) propagators) = some (v D)) ∧
      (((24 : ℝ) ^ k) ^ (m + 1))⁻¹ * ∑ D, v D =
        1 - rbMean (fun gates => ‖timeOrdered (gates.map U) 0 0‖ ^ 2) k := by
  let f : (Fin k → Fin 24) → ℝ := fun d => 1 - survival (fun g => ad (U g)) ((singleRB (List.ofFn fun j => (d j : ℕ))).getD [])
  refine ⟨fun D => (∑ i, f (D i)) / ((m + 1 : ℕ) : ℝ), fun D => ?_, ?_⟩
  · rw [orbit_value propagators target U hlook _ (by simp) (by
      intro d hd c hc
      obtain ⟨i, rfl⟩ := (List.mem_ofFn' _ _).1 hd
      obtain ⟨j, rfl⟩ := (List.mem_ofFn' _ _).1 hc
      exact (D i j).2)]
    rw [List.map_ofFn, List.sum_ofFn, List.length_ofFn]
    rfl
  · have h := mean_of_means f m
    have hc : (Fintype.card (Fin k → Fin 24) : ℝ) = 24 ^ k := by simp
    rw [hc] at h
    rw [h]
    simp only [f, Finset.sum_sub_distrib, survival_closed]
    unfold rbMean
    rw [mul_sub]
    simp

/-- **C212: closed systems.** With unitary propagators within `η` of the ideal ones, the expected value of `orbit_infid` is
`1 - B - A p ^ length` up to `(380 η) ^ length`. -/
theorem C212_closed (propagators : List (String × Matrix (Fin 2) (Fin 2) ℂ)) (target : ℕ)
    (U : G4 → Matrix (Fin 2) (Fin 2) ℂ)
    (hlook : ∀ c : G4, propagators.lookup (onTarget c.name target) = some (U c)) (hU : ∀ c, (U c)ᴴ * U c = 1)
    (η : ℝ) (hη : η ≤ 1 / 500) (hclose : ∀ c, ‖U c - c.mat‖ ≤ η) :
    ∃ p A B, |1 - p| ≤ 20 * η ∧ |A - 1 / 2| ≤ 750 * η ∧ |B - 1 / 2| ≤ 340 * η ∧
      |0.5 * (1 - p) - meanError fun g => ad (U g)| ≤ 1800 * η ^ 2 ∧
      ∀ m k, ∃ v : (Fin (m + 1) → Fin k → Fin 24) → ℝ,
        (∀ D, (singleLengthRB (List.ofFn fun i => List.ofFn fun j => ((D i j : Fin 24) : ℕ)) target).bind
          (orbitInfid (d := 1) propagators) = some (v D)) ∧
        |(((24 : ℝ) ^ k) ^ (m + 1))⁻¹ * ∑ D, v D - (1 - (A * p ^ (k + 1) + B))| ≤ (380 * η) ^ (k + 1) := by
  obtain ⟨p, A, B, h1, h2, h3, h4, h5⟩ := C212_decay (fun g => ad (U g)) (2 * η) (by linarith)
    (fun g => (ad_sub_norm _ _ (hU g) (mat_unitary g)).trans (by linarith [hclose g])) (fun g X => tr_ad _ (hU g) X)
  refine ⟨p, A, B, by linarith, by linarith, by linarith, h4.trans (le_of_eq (by ring)), fun m k => ?_⟩
  obtain ⟨v, hv, hs⟩ := C212_mean_orbit propagators target U hlook m k
  refine ⟨v, hv, ?_⟩
  rw [hs]
  have h := h5 k
  have e : rbMean (survival fun g => ad (U g)) k = rbMean (fun gates => ‖timeOrdered (gates.map U) 0 0‖ ^ 2) k := by
    unfold rbMean
    simp only [survival_closed]
  rw [e] at h
  rw [show (1 : ℝ) - rbMean (fun gates => ‖timeOrdered (gates.map U) 0 0‖ ^ 2) k - (1 - (A * p ^ (k + 1) + B)) =
    -(rbMean (fun gates => ‖timeOrdered (gates.map U) 0 0‖ ^ 2) k - (A * p ^ (k + 1) + B)) by ring, abs_neg]
  exact h.trans (le_of_eq (by ring))

/-! ## Depolarizing gates: what the error per gate of the code is -/

/-- A depolarizing channel: it keeps the trace and multiplies the rest by `l`. -/
noncomputable def depol (l : ℝ) : Op := LinearMap.toContinuousLinearMap
  { toFun := fun X => l • X + ((1 - l) * tr X / 2) • bloch 1 0 0 0
    map_add' := fun X Y => by rw [map_add, smul_add, mul_add, add_div, add_smul]; abel
    map_smul' := fun r X => by
      rw [map_smul, smul_eq_mul, RingHom.id_apply, smul_add, smul_smul, smul_smul, smul_smul]
      congr 2 <;> ring }

theorem depol_bloch (l t x y z : ℝ) : depol l (bloch t x y z) = bloch t (l * x) (l * y) (l * z) := by
  change l • bloch t x y z + ((1 - l) * tr (bloch t x y z) / 2) • bloch 1 0 0 0 = _
  rw [tr_bloch, bloch_smul, bloch_smul, bloch_add]
  congr 1 <;> ring

theorem depol_words (l : ℝ) (gates : List G4) (t x y z : ℝ) :
    timeOrdered (gates.map fun g => depol l * ad g.mat) (bloch t x y z) =
      depol (l ^ gates.length) (timeOrdered (gates.map fun g => ad g.mat) (bloch t x y z)) := by
  induction gates using List.reverseRecOn with
  | nil => simp [timeOrdered_nil, depol_bloch]
  | append_singleton gates g ih =>
    simp only [List.map_append, List.map_singleton, timeOrdered_concat, timeOrdered_one, mul_apply_eq_comp, List.length_append,
      List.length_singleton, ih]
    obtain ⟨t', x', y', z', h⟩ := bloch_surj (timeOrdered (gates.map fun g => ad g.mat) (bloch t x y z))
    rw [h]
    cases g <;> simp only [depol_bloch, ad_x, ad_y, ad_xm, ad_ym] <;> congr 1 <;> ring

theorem word_lengths : ∀ n : Fin 24, (Cl.word ⟨n⟩).length =
    ![2, 2, 2, 3, 1, 3, 2, 2, 2, 1, 1, 3, 2, 2, 2, 3, 3, 3, 4, 2, 2, 1, 3, 3] n := by decide

/-- The decay constant for gates that depolarize by `l`: four of the 24 Cliffords have one gate, eleven two, eight three
and one four. -/
noncomputable def depolDecay (l : ℝ) : ℝ := (4 * l + 11 * l ^ 2 + 8 * l ^ 3 + l ^ 4) / 24

theorem avg_words (l : ℝ) : avg (fun c : Cl => l ^ c.word.length) = depolDecay l := by
  unfold avg depolDecay
  rw [Cl.card, ← clEquiv.sum_comp]
  have : ∀ n : Fin 24, l ^ (clEquiv n).word.length =
      l ^ (![2, 2, 2, 3, 1, 3, 2, 2, 2, 1, 1, 3, 2, 2, 2, 3, 3, 3, 4, 2, 2, 1, 3, 3] n) := by
    intro n
    rw [← word_lengths n]
    rfl
  simp only [this, smul_eq_mul]
  simp only [Fin.sum_univ_succ, Fin.sum_univ_zero, Matrix.cons_val_zero, Matrix.cons_val_succ]
  push_cast
  ring

theorem word_pos (c : Cl) : 1 ≤ c.word.length := by
  have : ∀ n : Fin 24, 1 ≤ (Cl.word ⟨n⟩).length := by decide
  exact this c.n

/-- Powers over sequences, averaged. -/
theorem rbMean_pow (l : ℝ) (k : ℕ) : rbMean (fun gates => l ^ gates.length) k = 24 * seqMean (fun c : Cl => l ^ c.word.length) k 1 := by
  rw [rbMean_eq, seqMean_draws, smul_eq_mul, ← mul_assoc]
  have h24 : (Fintype.card Cl : ℝ) = 24 := by
    rw [Cl.card]
    norm_num
  have h1 : (24 : ℝ) * ((24 : ℝ) ^ (k + 1))⁻¹ = ((24 : ℝ) ^ k)⁻¹ := by
    rw [pow_succ']
    field_simp
  rw [h24, h1]
  congr 1
  refine Finset.sum_congr rfl fun d _ => ?_
  have e : ∀ m : List Cl, l ^ (m.flatMap Cl.word).length = timeOrdered (m.map fun c : Cl => l ^ c.word.length) := by
    intro m
    induction m with
    | nil => rfl
    | cons c m ih =>
      rw [List.flatMap_cons, List.length_append, pow_add, ih, List.map_cons, ← List.singleton_append, timeOrdered_concat,
        timeOrdered_one, mul_comm]
  rw [List.flatMap_append, List.length_append, pow_add, e, one_mul, mul_comm]
  simp

theorem depol_range (l : ℝ) (h0 : 0 ≤ l) (h1 : l ≤ 1) : l ^ 4 ≤ depolDecay l ∧ depolDecay l ≤ l := by
  have a1 : l ^ 4 ≤ l ^ 3 := pow_le_pow_of_le_one h0 h1 (by norm_num)
  have a2 : l ^ 3 ≤ l ^ 2 := pow_le_pow_of_le_one h0 h1 (by norm_num)
  have a3 : l ^ 2 ≤ l ^ 1 := pow_le_pow_of_le_one h0 h1 (by norm_num)
  rw [pow_one] at a3
  unfold depolDecay
  constructor <;> linarith

theorem rbMean_affine (v w : List G4 → ℝ) (k : ℕ) (s t : ℝ)
    (h : ∀ d : Fin k → Fin 24, v ((singleRB (List.ofFn fun i => (d i : ℕ))).getD []) =
      s + t * w ((singleRB (List.ofFn fun i => (d i : ℕ))).getD [])) : rbMean v k = s + t * rbMean w k := by
  unfold rbMean
  simp only [h, Finset.sum_add_distrib, ← Finset.mul_sum, Finset.sum_const, Finset.card_univ, nsmul_eq_mul]
  have hc : ((Fintype.card (Fin k → Fin 24) : ℕ) : ℝ) = 24 ^ k := by simp
  rw [hc]
  field_simp

theorem depol_cliff (l : ℝ) (c : Cl) : cliffOp (fun g => depol l * ad g.mat) c = depol (l ^ c.word.length) * rep c := by
  ext1 X
  obtain ⟨t, x, y, z, rfl⟩ := bloch_surj X
  rw [← cliffOp_ideal]
  exact depol_words l c.word t x y z

theorem fid_depol (l : ℝ) : fid (depol l) = (1 + l) / 2 :=
  fid_form _ 1 l fun t x y z => by rw [depol_bloch, one_mul]

/-- **C212: depolarizing gates.** If each of the four gates depolarizes by `l`, its average infidelity is `(1 - l) / 2`, and
the mean survival probability is `1/2 + r ^ length / 2` up to `(l - l⁴) ^ length / 2`, with `(1 - r) / 2` exactly the mean
infidelity of the Cliffords. -/
theorem C212_depolarizing (l : ℝ) (h0 : 0 ≤ l) (h1 : l ≤ 1) :
    (∀ g : G4, 1 - axisFid (ad g.mat) (depol l * ad g.mat) = (1 - l) / 2) ∧
    meanError (fun g => depol l * ad g.mat) = 0.5 * (1 - depolDecay l) ∧
    ∀ k, |rbMean (survival fun g => depol l * ad g.mat) k - (1 / 2 * depolDecay l ^ (k + 1) + 1 / 2)| ≤ (l - l ^ 4) ^ (k + 1) / 2 := by
  refine ⟨fun g => ?_, ?_, fun k => ?_⟩
  · have h := sumAxes_gate g fun s => ov s (depol l s)
    have e : axisFid (ad g.mat) (depol l * ad g.mat) = fid (depol l) := by
      change _ = sumAxes (fun s => ov s (depol l s)) / 6
      rw [← h]
      rfl
    rw [e, fid_depol]
    ring
  · unfold meanError
    have e : ∀ c : Cl, 1 - axisFid (rep c) (cliffOp (fun g => depol l * ad g.mat) c) = 1 / 2 + (-(1 / 2) : ℝ) • l ^ c.word.length := by
      intro c
      rw [axisFid_rep, depol_cliff, mul_assoc, (rep_inv c).1, mul_one, fid_depol, smul_eq_mul]
      ring
    simp only [e]
    rw [avg_add, avg_const, avg_smul, avg_words, smul_eq_mul]
    ring
  · have hs : rbMean (survival fun g => depol l * ad g.mat) k = 1 / 2 + 1 / 2 * rbMean (fun gates => l ^ gates.length) k := by
      refine rbMean_affine _ _ k _ _ fun d => ?_
      obtain ⟨gates, hg, hph, -⟩ := C59_rb (List.ofFn fun i => (d i : ℕ)) (by
        intro c hc
        obtain ⟨j, rfl⟩ := (List.mem_ofFn' _ _).1 hc
        exact (d j).2)
      rw [hg, Option.getD_some]
      unfold survival ground
      rw [depol_words, timeOrdered_ad]
      have e : timeOrdered (gates.map fun g : G4 => g.mat) = runGates gates := by
        rw [runGates_eq]
        unfold matmul timeOrdered
        rw [List.map_reverse]
      rw [e, ad_phase hph, ad_one, one_apply_eq_self, depol_bloch, pop_bloch]
      ring
    have hr := depol_range l h0 h1
    have hw : ∀ c : Cl, l ^ 4 ≤ l ^ c.word.length ∧ l ^ c.word.length ≤ l := by
      intro c
      refine ⟨pow_le_pow_of_le_one h0 h1 (word_length c), ?_⟩
      calc l ^ c.word.length ≤ l ^ 1 := pow_le_pow_of_le_one h0 h1 (word_pos c)
        _ = l := pow_one l
    let Δ : Cl → ℝ := fun c => l ^ c.word.length - depolDecay l
    have hΔ : avg Δ = 0 := by
      have : Δ = fun c : Cl => l ^ c.word.length + -depolDecay l := rfl
      rw [this, avg_add, avg_words, avg_const]
      ring
    have hdec := (decay (1 : Cl →* ℝ) (fun c => l ^ c.word.length) Δ (depolDecay l) 1 (depolDecay l) (fun c => by simp [Δ])
      (by
        have : (fun g : Cl => Δ g * depolDecay l * (1 : Cl →* ℝ) g⁻¹) = fun g => Δ g * depolDecay l := by
          funext g
          simp
        rw [this, avg_mul_right, hΔ, zero_mul])
      (by
        have : (fun g : Cl => (1 : Cl →* ℝ) g⁻¹ * 1 * Δ g) = Δ := by
          funext g
          simp
        rw [this, hΔ])
      (by
        unfold twirl
        simp only [MonoidHom.one_apply, one_mul, mul_one]
        exact avg_const _) k).1 1
    have hb := seqMean_norm Δ (l - l ^ 4) (by linarith) (fun c => by
      rw [Real.norm_eq_abs, abs_le]
      have := hw c
      change -(l - l ^ 4) ≤ l ^ c.word.length - depolDecay l ∧ l ^ c.word.length - depolDecay l ≤ l - l ^ 4
      constructor <;> linarith) k 1
    have h24 : (Fintype.card Cl : ℝ) = 24 := by
      rw [Cl.card]
      norm_num
    rw [h24] at hdec hb
    rw [hs, rbMean_pow, hdec]
    simp only [MonoidHom.one_apply, mul_one, smul_eq_mul]
    rw [Real.norm_eq_abs] at hb
    have e : (1 / 2 + 1 / 2 * (24 * (24⁻¹ * (depolDecay l * depolDecay l ^ k) + seqMean Δ k 1)) - (1 / 2 * depolDecay l ^ (k + 1) + 1 / 2) : ℝ) =
        12 * seqMean Δ k 1 := by ring
    rw [e, abs_mul, abs_of_pos (by norm_num : (0 : ℝ) < 12)]
    linarith

/-- **C212, the error per gate of the code is too small**: it is computed as if every Clifford had four gates; with gates
that depolarize by any `l < 1` the result is strictly smaller than the average infidelity of a gate. -/
theorem C212_false_epg (l : ℝ) (h0 : 0 ≤ l) (h1 : l < 1) (g : G4) :
    epg (depolDecay l) < 1 - axisFid (ad g.mat) (depol l * ad g.mat) := by
  rw [(C212_depolarizing l h0 h1.le).1 g]
  have hr := depol_range l h0 h1.le
  have hr0 : 0 ≤ depolDecay l := (pow_nonneg h0 4).trans hr.1
  obtain ⟨e0, e1, -, e2, -⟩ := C105_epg (depolDecay l) hr0 (by linarith)
  by_contra hcon
  push Not at hcon
  have hle : (1 - epg (depolDecay l)) ^ 4 ≤ ((1 + l) / 2) ^ 4 :=
    pow_le_pow_left₀ (by linarith) (by linarith) 4
  rw [e2] at hle
  have hpos : 0 < (1 - l) ^ 2 * (7 + 10 * l + 7 * l ^ 2) := by
    have : 0 < 1 - l := by linarith
    positivity
  nlinarith [hr.1]

/-- C212: to first order in the error the code reports 9/16 of the infidelity of a gate; with the mean number 9/4 of gates
of a Clifford (the "TODO" of the code) it would be the infidelity. -/
theorem C212_epg_slope :
    HasDerivAt (fun l => epg (depolDecay l)) (9 / 16 * (-(1 / 2))) 1 ∧
    HasDerivAt (fun l => 1 - (1 - 0.5 * (1 - depolDecay l)) ^ (1 / (9 / 4) : ℝ)) (-(1 / 2)) 1 ∧
    HasDerivAt (fun l : ℝ => (1 - l) / 2) (-(1 / 2)) 1 := by
  have hd : HasDerivAt depolDecay (9 / 4) 1 := by
    unfold depolDecay
    have := (((((hasDerivAt_id (1 : ℝ)).const_mul 4).add (((hasDerivAt_id (1 : ℝ)).pow 2).const_mul 11)).add
      (((hasDerivAt_id (1 : ℝ)).pow 3).const_mul 8)).add ((hasDerivAt_id (1 : ℝ)).pow 4)).div_const 24
    refine (this.congr_deriv ?_)
    norm_num
  have hone : depolDecay 1 = 1 := by norm_num [depolDecay]
  have hin : HasDerivAt (fun l => 1 - 0.5 * (1 - depolDecay l)) (9 / 8) 1 :=
    (((hd.const_sub 1).const_mul 0.5).const_sub 1).congr_deriv (by norm_num)
  have hpow : ∀ e : ℝ, HasDerivAt (fun l => 1 - (1 - 0.5 * (1 - depolDecay l)) ^ e) (-(9 / 8 * e)) 1 := by
    intro e
    have h := ((hin.rpow_const (p := e) (Or.inl (by rw [hone]; norm_num))).const_sub 1)
    refine h.congr_deriv ?_
    rw [hone]
    norm_num
  refine ⟨?_, ?_, ?_⟩
  · exact (hpow (1 / 4)).congr_deriv (by norm_num)
  · exact (hpow (1 / (9 / 4))).congr_deriv (by norm_num)
  · exact (((hasDerivAt_id (1 : ℝ)).const_sub 1).div_const 2).congr_deriv (by norm_num)

/-! ## Examples -/

example : ∀ g : G4, ‖ad g.mat - ad g.mat‖ ≤ (0 : ℝ) ∧ ∀ X, tr (ad g.mat X) = tr X :=
  fun g => ⟨(ad_sub_norm _ _ (mat_unitary g) (mat_unitary g)).trans (by simp), tr_ad _ (mat_unitary g)⟩

example : ∀ c : G4, ([("rx90p[0]", G4.x90p.mat), ("ry90p[0]", G4.y90p.mat), ("rx90m[0]", G4.x90m.mat),
    ("ry90m[0]", G4.y90m.mat)]).lookup (onTarget c.name 0) = some c.mat := by
  intro c
  cases c <;> rfl

end C3.Fidelity.Decay
