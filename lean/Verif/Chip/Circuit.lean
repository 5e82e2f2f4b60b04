import Verif.Chip.Potential
import Verif.Hilbert.Energies
import Mathlib.Analysis.SpecialFunctions.Pow.Real
import Mathlib.Analysis.Normed.Algebra.MatrixExponential
import Mathlib.Algebra.Polynomial.Derivative
import Mathlib.Algebra.Polynomial.Module.Basic
import Mathlib.Tactic.NoncommRing
import Mathlib.Tactic.LinearCombination
import Mathlib.Tactic.Module

/-!
# C153-C156: elements given by their circuit

Models `TransmonExpanded` (c3/libraries/chip.py:470-554), `CShuntFluxQubitCos` (c3/libraries/chip.py:556-668) and
the frequency and anharmonicity of `CShuntFluxQubit` (c3/libraries/chip.py:834-862).

Simplified: real arithmetic; a NaN is `none`; `fmin` is not modelled (only its starting point and the number of levels
that it needs).
-/

set_option linter.unusedSectionVars false

namespace C3.Chip

open Real Matrix

/-! ## Ladder operators with `D` levels -/

/-- `np.diag(np.sqrt(range(1, D)), k=1)` (c3/libraries/chip.py:487, 606-608, 617-619). -/
noncomputable def annLoc (D : ℕ) : Matrix (Fin D) (Fin D) ℝ :=
  fun i j => if j.val = i.val + 1 then √(j.val : ℝ) else 0

/-- `a† + a`. -/
noncomputable def xOp (D : ℕ) : Matrix (Fin D) (Fin D) ℝ := (annLoc D)ᵀ + annLoc D

/-- `a† - a`. -/
noncomputable def pOp (D : ℕ) : Matrix (Fin D) (Fin D) ℝ := (annLoc D)ᵀ - annLoc D

/-- The basis state of level `k`. -/
def lvl (D k : ℕ) : Fin D → ℝ := fun j => if j.val = k then 1 else 0

theorem ann_lvl (D k : ℕ) (hk : k < D) : annLoc D *ᵥ lvl D k = √(k : ℝ) • lvl D (k - 1) := by
  funext i
  rw [Matrix.mulVec, dotProduct, Finset.sum_eq_single (⟨k, hk⟩ : Fin D)]
  · rcases Nat.eq_zero_or_pos k with h | h
    · subst h; simp [annLoc, lvl]
    · by_cases hi : k = i.val + 1
      · simp [annLoc, lvl, hi]
      · have : i.val ≠ k - 1 := by omega
        simp [annLoc, lvl, hi, this]
  · intro j _ hj
    have : j.val ≠ k := fun h => hj (Fin.ext h)
    simp [lvl, this]
  · simp

theorem cre_lvl (D k : ℕ) (hk : k + 1 < D) : (annLoc D)ᵀ *ᵥ lvl D k = √(k + 1 : ℝ) • lvl D (k + 1) := by
  funext i
  rw [Matrix.mulVec, dotProduct, Finset.sum_eq_single (⟨k, by omega⟩ : Fin D)]
  · by_cases hi : i.val = k + 1
    · simp [annLoc, lvl, hi]
    · simp [annLoc, lvl, hi]
  · intro j _ hj
    have : j.val ≠ k := fun h => hj (Fin.ext h)
    simp [lvl, this]
  · simp

theorem x_lvl (D k : ℕ) (hk : k + 1 < D) :
    xOp D *ᵥ lvl D k = √(k + 1 : ℝ) • lvl D (k + 1) + √(k : ℝ) • lvl D (k - 1) := by
  rw [xOp, Matrix.add_mulVec, ann_lvl D k (by omega), cre_lvl D k hk]

theorem p_lvl (D k : ℕ) (hk : k + 1 < D) :
    pOp D *ᵥ lvl D k = √(k + 1 : ℝ) • lvl D (k + 1) - √(k : ℝ) • lvl D (k - 1) := by
  rw [pOp, Matrix.sub_mulVec, ann_lvl D k (by omega), cre_lvl D k hk]

theorem lvl_dot (D i j : ℕ) (hi : i < D) : lvl D i ⬝ᵥ lvl D j = if i = j then 1 else 0 := by
  rw [dotProduct, Finset.sum_eq_single (⟨i, hi⟩ : Fin D)]
  · simp [lvl]
  · intro b _ hb
    have : b.val ≠ i := fun h => hb (Fin.ext h)
    simp [lvl, this]
  · simp

theorem diag_eq (D : ℕ) (M : Matrix (Fin D) (Fin D) ℝ) (k : Fin D) : M k k = lvl D k ⬝ᵥ (M *ᵥ lvl D k) := by
  have h : lvl D k = Pi.single k 1 := by
    funext j
    by_cases hj : j = k
    · subst hj; simp [lvl]
    · have : j.val ≠ k.val := fun h => hj (Fin.ext h)
      simp [lvl, this, hj]
  rw [h]
  simp

theorem xOp_symm (D : ℕ) : (xOp D)ᵀ = xOp D := by
  rw [xOp, Matrix.transpose_add, Matrix.transpose_transpose, add_comm]

theorem pOp_anti (D : ℕ) : (pOp D)ᵀ = -pOp D := by
  rw [pOp, Matrix.transpose_sub, Matrix.transpose_transpose, neg_sub]

theorem dot_mul_symm (D : ℕ) (A : Matrix (Fin D) (Fin D) ℝ) (u v : Fin D → ℝ) :
    u ⬝ᵥ (A *ᵥ v) = (Aᵀ *ᵥ u) ⬝ᵥ v := by
  rw [Matrix.dotProduct_mulVec, Matrix.mulVec_transpose]

theorem sqrt_sq_cast (k : ℕ) : √(k : ℝ) * √(k : ℝ) = k := Real.mul_self_sqrt (by positivity)

theorem sqrt_sq_succ (k : ℕ) : √(k + 1 : ℝ) * √(k + 1 : ℝ) = k + 1 := Real.mul_self_sqrt (by positivity)

/-- Diagonal of `(a† + a)²`. -/
theorem x2_diag (D : ℕ) (k : Fin D) (hk : k.val + 1 < D) : (xOp D ^ 2) k k = 2 * k.val + 1 := by
  refine (diag_eq D _ k).trans ?_
  rw [pow_two, ← Matrix.mulVec_mulVec, dot_mul_symm, xOp_symm, x_lvl D k hk]
  have h1 := sqrt_sq_cast k.val
  have h2 := sqrt_sq_succ k.val
  rcases Nat.eq_zero_or_pos k.val with h | h
  · simp [h, lvl_dot, show (1 : ℕ) < D by omega]
  · simp only [add_dotProduct, dotProduct_add, smul_dotProduct, dotProduct_smul, smul_eq_mul,
      lvl_dot D _ _ hk, lvl_dot D _ _ (show k.val - 1 < D by omega)]
    rw [if_neg (show ¬k.val + 1 = k.val - 1 by omega), if_neg (show ¬k.val - 1 = k.val + 1 by omega)]
    simp only [if_true]
    linarith

/-- Diagonal of `(a† - a)²`. -/
theorem p2_diag (D : ℕ) (k : Fin D) (hk : k.val + 1 < D) : (pOp D ^ 2) k k = -(2 * k.val + 1) := by
  refine (diag_eq D _ k).trans ?_
  rw [pow_two, ← Matrix.mulVec_mulVec, dot_mul_symm, pOp_anti, Matrix.neg_mulVec, p_lvl D k hk]
  have h1 := sqrt_sq_cast k.val
  have h2 := sqrt_sq_succ k.val
  rcases Nat.eq_zero_or_pos k.val with h | h
  · simp [h, lvl_dot, show (1 : ℕ) < D by omega]
  · simp only [neg_dotProduct, sub_dotProduct, dotProduct_sub, smul_dotProduct, dotProduct_smul, smul_eq_mul,
      lvl_dot D _ _ hk, lvl_dot D _ _ (show k.val - 1 < D by omega)]
    rw [if_neg (show ¬k.val + 1 = k.val - 1 by omega), if_neg (show ¬k.val - 1 = k.val + 1 by omega)]
    simp only [if_true]
    linarith

theorem xx_lvl (D k : ℕ) (hk : k + 2 < D) :
    xOp D *ᵥ (xOp D *ᵥ lvl D k) = (√(k + 1 : ℝ) * √(k + 2 : ℝ)) • lvl D (k + 2) + (2 * k + 1 : ℝ) • lvl D k +
      (√(k : ℝ) * √((k - 1 : ℕ) : ℝ)) • lvl D (k - 2) := by
  rw [x_lvl D k (by omega), Matrix.mulVec_add, Matrix.mulVec_smul, Matrix.mulVec_smul, x_lvl D (k + 1) (by omega),
    x_lvl D (k - 1) (by omega)]
  have h1 := sqrt_sq_cast k
  have h2 := sqrt_sq_succ k
  rcases Nat.eq_zero_or_pos k with h | h
  · subst h
    simp only [Nat.cast_zero, Real.sqrt_zero, zero_smul, add_zero, zero_mul, smul_add, smul_smul]
    norm_num
  · obtain ⟨m, rfl⟩ : ∃ m, k = m + 1 := ⟨k - 1, by omega⟩
    simp only [Nat.add_sub_cancel] at *
    push_cast at *
    have e : (m : ℝ) + 1 + 1 + 1 = m + 1 + 2 := by ring
    simp only [smul_add, smul_smul, h1, h2, e]
    module

/-- Diagonal of `(a† + a)³`. -/
theorem x3_diag (D : ℕ) (k : Fin D) (hk : k.val + 2 < D) : (xOp D ^ 3) k k = 0 := by
  refine (diag_eq D _ k).trans ?_
  rw [pow_succ', pow_two, ← Matrix.mulVec_mulVec, ← Matrix.mulVec_mulVec, dot_mul_symm, xOp_symm,
    xx_lvl D k hk, x_lvl D k (by omega)]
  rcases Nat.eq_zero_or_pos k.val with h | h
  · simp [h, lvl_dot, show (1 : ℕ) < D by omega]
  · simp only [add_dotProduct, dotProduct_add, smul_dotProduct, dotProduct_smul, smul_eq_mul,
      lvl_dot D _ _ (show k.val + 1 < D by omega), lvl_dot D _ _ (show k.val - 1 < D by omega)]
    by_cases h1 : k.val = 1
    · simp [h1]
    · rw [if_neg (by omega), if_neg (by omega), if_neg (by omega), if_neg (by omega), if_neg (by omega),
        if_neg (by omega)]
      simp

/-- Diagonal of `(a† + a)⁴`. -/
theorem x4_diag (D : ℕ) (k : Fin D) (hk : k.val + 2 < D) :
    (xOp D ^ 4) k k = 6 * (k.val : ℝ) ^ 2 + 6 * k.val + 3 := by
  refine (diag_eq D _ k).trans ?_
  rw [show xOp D ^ 4 = xOp D * (xOp D * (xOp D * xOp D)) by rw [pow_succ', pow_succ', pow_two],
    ← Matrix.mulVec_mulVec, ← Matrix.mulVec_mulVec, ← Matrix.mulVec_mulVec, dot_mul_symm, xOp_symm, dot_mul_symm,
    xOp_symm, xx_lvl D k hk]
  have h1 : √(k.val + 1 : ℝ) * √(k.val + 1 : ℝ) = k.val + 1 := sqrt_sq_succ k.val
  have h2 : √(k.val + 2 : ℝ) * √(k.val + 2 : ℝ) = k.val + 2 := Real.mul_self_sqrt (by positivity)
  have h3 := sqrt_sq_cast k.val
  have h4 := sqrt_sq_cast (k.val - 1)
  simp only [add_dotProduct, dotProduct_add, smul_dotProduct, dotProduct_smul, smul_eq_mul,
    lvl_dot D _ _ hk, lvl_dot D _ _ k.isLt, lvl_dot D _ _ (show k.val - 2 < D by omega)]
  by_cases hk2 : 2 ≤ k.val
  · rw [if_neg (show ¬k.val = k.val + 2 by omega), if_neg (show ¬k.val - 2 = k.val + 2 by omega),
      if_neg (show ¬k.val + 2 = k.val by omega), if_neg (show ¬k.val - 2 = k.val by omega),
      if_neg (show ¬k.val + 2 = k.val - 2 by omega), if_neg (show ¬k.val = k.val - 2 by omega)]
    simp only [if_true]
    have h5 : ((k.val - 1 : ℕ) : ℝ) = k.val - 1 := by
      rw [Nat.cast_sub (by omega)]; simp
    rw [h5] at h4
    rw [h5]
    linear_combination (k.val + 2 : ℝ) * h1 + √(k.val + 1 : ℝ) * √(k.val + 1 : ℝ) * h2 +
      (k.val - 1 : ℝ) * h3 + √(k.val : ℝ) * √(k.val : ℝ) * h4
  · have hz : √(k.val : ℝ) * √((k.val - 1 : ℕ) : ℝ) = 0 := by
      rw [show k.val - 1 = 0 by omega]
      simp
    have hz2 : (k.val : ℝ) * (k.val - 1) = 0 := by
      rcases (show k.val = 0 ∨ k.val = 1 by omega) with h | h <;> rw [h] <;> simp
    rw [hz, if_neg (show ¬k.val = k.val + 2 by omega), if_neg (show ¬k.val + 2 = k.val by omega)]
    simp only [if_true, zero_mul, mul_zero, add_zero, mul_one, zero_add]
    linear_combination (k.val + 2 : ℝ) * h1 + √(k.val + 1 : ℝ) * √(k.val + 1 : ℝ) * h2 - hz2

/-! ## C153: the expanded transmon -/

/-- Prefactors of the terms of the Hamiltonian. -/
structure Prefactors where
  quadratic : ℝ
  quartic : ℝ
  sextic : ℝ

open scoped Classical in
/-- c3/libraries/chip.py:494-501 `TransmonExpanded.get_prefactors`; `factor` is `get_factor(sig)`. A square root of a
negative number and a division by zero give NaN (`none`). -/
noncomputable def prefactors (EC EJ0 factor : ℝ) : Option Prefactors :=
  let EJ := EJ0 * factor ^ 2
  if EJ = 0 ∨ 8 * EC * EJ < 0 ∨ 2 * EC / EJ < 0 then none
  else some ⟨√(8 * EC * EJ), -EC / 12, EJ / 720 * (2 * EC / EJ) ^ (3 / 2 : ℝ)⟩

/-- C153: the prefactors are undefined exactly if the Josephson energy vanishes or the two energies have different
signs. -/
theorem C153_defined (EC EJ0 f : ℝ) :
    prefactors EC EJ0 f = none ↔ EJ0 = 0 ∨ f = 0 ∨ EC * EJ0 < 0 := by
  unfold prefactors
  simp only
  rcases eq_or_ne EJ0 0 with h | h
  · simp [h]
  rcases eq_or_ne f 0 with hf | hf
  · simp [hf]
  have hf2 : 0 < f ^ 2 := by positivity
  have h1 : 8 * EC * (EJ0 * f ^ 2) < 0 ↔ EC * EJ0 < 0 := by
    rw [show 8 * EC * (EJ0 * f ^ 2) = (8 * f ^ 2) * (EC * EJ0) by ring]
    exact ⟨fun h => by by_contra hc; nlinarith [mul_nonneg (by positivity : 0 ≤ 8 * f ^ 2) (not_lt.1 hc)],
      fun h => mul_neg_of_pos_of_neg (by positivity) h⟩
  have h2 : 2 * EC / (EJ0 * f ^ 2) < 0 ↔ EC * EJ0 < 0 := by
    have hE : 0 < EJ0 ^ 2 := by positivity
    rw [show 2 * EC / (EJ0 * f ^ 2) = 2 / (f ^ 2 * EJ0 ^ 2) * (EC * EJ0) by field_simp]
    have hp : 0 < 2 / (f ^ 2 * EJ0 ^ 2) := by positivity
    exact ⟨fun h => by by_contra hc; exact absurd (mul_nonneg hp.le (not_lt.1 hc)) (not_le.2 h),
      fun h => mul_neg_of_pos_of_neg hp h⟩
  simp only [h1, h2]
  simp [h, hf]

example : prefactors 1 1 1 ≠ none := fun h => by
  rcases (C153_defined 1 1 1).1 h with h | h | h <;> norm_num at h

/-- c3/libraries/chip.py:472-484 and 537-553: the Hamiltonian without flux signal, from an operator `a` and its
adjoint `ad` in any algebra. -/
noncomputable def expandedHam {A : Type*} [Ring A] [Algebra ℝ A] (p : Prefactors) (a ad : A) : A :=
  p.quadratic • (ad * a) + p.quartic • ((ad + a) * (ad + a) * ((ad + a) * (ad + a))) +
    p.sextic • ((ad + a) * (ad + a) * ((ad + a) * (ad + a)) * ((ad + a) * (ad + a)))

/-- The zero point fluctuation of the phase, `(2 E_C / E_J)^(1/4)`, and of the charge, `(E_J / (32 E_C))^(1/4)`. -/
noncomputable def phiZpf (EC EJ : ℝ) : ℝ := (2 * EC / EJ) ^ (1 / 4 : ℝ)

noncomputable def nZpf (EC EJ : ℝ) : ℝ := (EJ / EC / 32) ^ (1 / 4 : ℝ)

theorem rpow_quarter (x : ℝ) (hx : 0 ≤ x) (k : ℕ) : (x ^ (1 / 4 : ℝ)) ^ k = x ^ ((k : ℝ) / 4) := by
  rw [← Real.rpow_natCast, ← Real.rpow_mul hx]
  congr 1
  ring

theorem phiZpf_sq (EC EJ : ℝ) (hC : 0 < EC) (hJ : 0 < EJ) : phiZpf EC EJ ^ 2 = √(2 * EC / EJ) := by
  rw [phiZpf, rpow_quarter _ (by positivity), Real.sqrt_eq_rpow]
  norm_num

theorem phiZpf_four (EC EJ : ℝ) (hC : 0 < EC) (hJ : 0 < EJ) : phiZpf EC EJ ^ 4 = 2 * EC / EJ := by
  rw [phiZpf, rpow_quarter _ (by positivity)]
  norm_num

theorem nZpf_sq (EC EJ : ℝ) (hC : 0 < EC) (hJ : 0 < EJ) : nZpf EC EJ ^ 2 = √(EJ / EC / 32) := by
  rw [nZpf, rpow_quarter _ (by positivity), Real.sqrt_eq_rpow]
  norm_num

/-- The kinetic and the quadratic potential energy have equal prefactors. -/
theorem kinetic (EC EJ : ℝ) (hC : 0 < EC) (hJ : 0 < EJ) :
    4 * EC * nZpf EC EJ ^ 2 = √(8 * EC * EJ) / 4 ∧ EJ / 2 * phiZpf EC EJ ^ 2 = √(8 * EC * EJ) / 4 := by
  rw [nZpf_sq EC EJ hC hJ, phiZpf_sq EC EJ hC hJ]
  constructor
  · have h : √(EJ / EC / 32) = √(8 * EC * EJ) / (16 * EC) := by
      rw [Real.sqrt_eq_iff_mul_self_eq (by positivity) (by positivity), div_mul_div_comm,
        Real.mul_self_sqrt (by positivity)]
      field_simp
      norm_num
    rw [h]
    field_simp
    norm_num
  · have h : √(2 * EC / EJ) = √(8 * EC * EJ) / (2 * EJ) := by
      rw [Real.sqrt_eq_iff_mul_self_eq (by positivity) (by positivity), div_mul_div_comm,
        Real.mul_self_sqrt (by positivity)]
      field_simp
      norm_num
    rw [h]
    field_simp
    norm_num

theorem prefactors_spec (EC EJ0 factor : ℝ) (hC : 0 < EC) (hJ : 0 < EJ0) (hf : factor ≠ 0) :
    ∃ p, prefactors EC EJ0 factor = some p ∧
      p.quadratic = √(8 * EC * (EJ0 * factor ^ 2)) ∧
      p.quartic = -(EJ0 * factor ^ 2) / 24 * phiZpf EC (EJ0 * factor ^ 2) ^ 4 ∧
      p.sextic = EJ0 * factor ^ 2 / 720 * phiZpf EC (EJ0 * factor ^ 2) ^ 6 := by
  have hE : 0 < EJ0 * factor ^ 2 := by positivity
  refine ⟨⟨√(8 * EC * (EJ0 * factor ^ 2)), -EC / 12,
    EJ0 * factor ^ 2 / 720 * (2 * EC / (EJ0 * factor ^ 2)) ^ (3 / 2 : ℝ)⟩, ?_, rfl, ?_, ?_⟩
  · unfold prefactors
    refine if_neg ?_
    push Not
    exact ⟨hE.ne', by positivity, by positivity⟩
  · rw [phiZpf_four EC _ hC hE]
    field_simp
    norm_num
  · rw [phiZpf, rpow_quarter _ (by positivity)]
    norm_num

/-- **C153**: for operators with the commutation relation of a harmonic oscillator, the Hamiltonian of the expanded
transmon is the circuit Hamiltonian `4 E_C n² - E_J cos φ` with the cosine expanded to sixth order, up to a constant
energy, where `E_J` is reduced by the square of the flux factor, `φ = φ_zpf (a† + a)` and
`n² = -n_zpf² (a† - a)²`. -/
theorem C153_expansion {A : Type*} [Ring A] [Algebra ℝ A] (a ad : A) (hcomm : a * ad - ad * a = 1)
    (EC EJ0 factor : ℝ) (hC : 0 < EC) (hJ : 0 < EJ0) (hf : factor ≠ 0) :
    ∃ p c, prefactors EC EJ0 factor = some p ∧
      (let EJ := EJ0 * factor ^ 2
       let phi := phiZpf EC EJ • (ad + a)
       let n2 := (-(nZpf EC EJ ^ 2)) • ((ad - a) * (ad - a))
       expandedHam p a ad + algebraMap ℝ A c =
        (4 * EC) • n2 - EJ • (1 - (1 / 2 : ℝ) • phi ^ 2 + (1 / 24 : ℝ) • phi ^ 4 - (1 / 720 : ℝ) • phi ^ 6)) := by
  have hE : 0 < EJ0 * factor ^ 2 := by positivity
  obtain ⟨p, hp, h2, h4, h6⟩ := prefactors_spec EC EJ0 factor hC hJ hf
  refine ⟨p, p.quadratic / 2 - EJ0 * factor ^ 2, hp, ?_⟩
  obtain ⟨k1, k2⟩ := kinetic EC _ hC hE
  set EJ := EJ0 * factor ^ 2
  rw [← h2] at k1 k2
  simp only [smul_pow, smul_smul]
  rw [smul_sub, smul_add, smul_sub]
  simp only [smul_smul]
  rw [show 4 * EC * -(nZpf EC EJ ^ 2) = -(p.quadratic / 4) by linarith,
    show EJ * (1 / 2 * phiZpf EC EJ ^ 2) = p.quadratic / 4 by linarith,
    show EJ * (1 / 24 * phiZpf EC EJ ^ 4) = -p.quartic by rw [h4]; ring,
    show EJ * (1 / 720 * phiZpf EC EJ ^ 6) = p.sextic by rw [h6]; ring]
  have hx : (ad + a) ^ 2 - (ad - a) * (ad - a) = (4 : ℝ) • (ad * a) + (2 : ℝ) • (1 : A) := by
    have : a * ad = ad * a + 1 := by rw [← hcomm]; abel
    have e : (ad + a) ^ 2 - (ad - a) * (ad - a) = ad * a + a * ad + (ad * a + a * ad) := by
      rw [pow_two]; noncomm_ring
    rw [e, this]
    module
  have hx2 : (ad - a) * (ad - a) = (ad + a) ^ 2 - ((4 : ℝ) • (ad * a) + (2 : ℝ) • (1 : A)) := by
    rw [← hx]; abel
  unfold expandedHam
  rw [hx2, Algebra.algebraMap_eq_smul_one, show (ad + a) ^ 4 = (ad + a) * (ad + a) * ((ad + a) * (ad + a)) by
    rw [show 4 = 2 + 2 from rfl, pow_add, pow_two], show (ad + a) ^ 6 = (ad + a) * (ad + a) *
    ((ad + a) * (ad + a)) * ((ad + a) * (ad + a)) by rw [show 6 = 2 + 2 + 2 from rfl, pow_add, pow_add, pow_two]]
  module

/-- Such operators exist: derivative and multiplication with the variable on polynomials. -/
example : (Polynomial.derivative : Module.End ℝ (Polynomial ℝ)) * LinearMap.mulLeft ℝ Polynomial.X -
    LinearMap.mulLeft ℝ Polynomial.X * Polynomial.derivative = 1 := by
  apply LinearMap.ext
  intro f
  simp

/-- **C153**: the Hamiltonian is Hermitian. -/
theorem C153_hermitian {n : Type*} [Fintype n] [DecidableEq n] (p : Prefactors) (a : Matrix n n ℂ) :
    (expandedHam p a aᴴ).IsHermitian := by
  have hx : (aᴴ + a)ᴴ = aᴴ + a := by
    rw [Matrix.conjTranspose_add, Matrix.conjTranspose_conjTranspose, add_comm]
  have hr : ∀ (r : ℝ) (M : Matrix n n ℂ), (r • M)ᴴ = r • Mᴴ := by
    intro r M
    ext i j
    simp
  unfold Matrix.IsHermitian expandedHam
  simp only [Matrix.conjTranspose_add, hr, Matrix.conjTranspose_mul, Matrix.conjTranspose_conjTranspose]
  simp only [Matrix.mul_assoc]
  rw [add_comm a aᴴ]

/-- **C153 is false** for a symmetric transmon at half a flux quantum: the flux factor vanishes and the sextic term is
zero times infinity. -/
theorem C153_false_half_flux (EC EJ0 phi0 : ℝ) (h0 : phi0 ≠ 0) :
    prefactors EC EJ0 (C3.Hilbert.squidFactor (phi0 / 2) phi0 0) = none := by
  have h : C3.Hilbert.squidFactor (phi0 / 2) phi0 0 = 0 := by
    unfold C3.Hilbert.squidFactor
    rw [show Real.pi * (phi0 / 2) / phi0 = Real.pi / 2 by field_simp, Real.cos_pi_div_two]
    simp
  rw [h]
  unfold prefactors
  simp

/-! ## C154: the energies of the expanded transmon -/

/-- The largest entry of an operator, `np.max(ann_oper)`. -/
def IsMax {n : Type*} (A : Matrix n n ℂ) (m : ℝ) : Prop := (∃ p q, A p q = (m : ℂ)) ∧ ∀ p q, (A p q).re ≤ m

/-- c3/libraries/chip.py:487: the number of levels of the local operators, from the largest entry of the annihilation
operator in the full space. -/
noncomputable def localLevels (m : ℝ) : ℕ := ⌊m ^ 2⌋₊ - 1 + 1

/-- c3/libraries/chip.py:516-529 `eval_func` after the eigenvalues; `none` is an index out of range. -/
noncomputable def fitCost (freq anhar : ℝ) (es : List ℝ) : Option ℝ :=
  match es with
  | e0 :: e1 :: e2 :: _ => some (|(e1 - e0) - (e0 - e0) - freq| + |(e2 - e0) - (e1 - e0) - (freq + anhar)|)
  | _ => none

theorem valid_of {dims l : List ℕ} (hl : l.length = dims.length) (h : ∀ t < dims.length, l.getD t 0 < dims.getD t 0) :
    C3.Hilbert.Valid dims l := by
  unfold C3.Hilbert.Valid
  rw [List.forall₂_iff_get]
  refine ⟨hl, fun t h1 h2 => ?_⟩
  have := h t h2
  simpa [List.getD_eq_getElem?_getD, h1, h2] using this

theorem ann_max (dims : List ℕ) (i : ℕ) (hi : i < dims.length) (hd : 2 ≤ dims.getD i 0)
    (hpos : ∀ t < dims.length, 0 < dims.getD t 0) (m : ℝ) (hm : IsMax (C3.Hilbert.ann dims i) m) :
    m = √((dims.getD i 0 - 1 : ℕ) : ℝ) := by
  obtain ⟨⟨p, q, hpq⟩, hmax⟩ := hm
  apply le_antisymm
  · obtain ⟨l, hl, hlp⟩ := C3.Hilbert.exists_flat dims p.val p.isLt
    obtain ⟨k, hk, hkq⟩ := C3.Hilbert.exists_flat dims q.val q.isLt
    have hp : p = ⟨C3.Hilbert.flat dims l, C3.Hilbert.flat_lt hl⟩ := Fin.ext hlp.symm
    have hq : q = ⟨C3.Hilbert.flat dims k, C3.Hilbert.flat_lt hk⟩ := Fin.ext hkq.symm
    have hkd := C3.Hilbert.valid_getD hk i hi
    rw [hp, hq, C3.Hilbert.C33_annihilator dims i hi l k hl hk] at hpq
    split at hpq
    · have := Complex.ofReal_injective hpq
      rw [← this]
      apply Real.sqrt_le_sqrt
      exact_mod_cast (by omega : k.getD i 0 ≤ dims.getD i 0 - 1)
    · have : m = 0 := (Complex.ofReal_eq_zero.1 hpq.symm)
      rw [this]
      positivity
  · set z := List.replicate dims.length 0 with hz
    have hzl : z.length = dims.length := by simp [hz]
    have hget : ∀ (x t : ℕ), t < dims.length → (z.set i x).getD t 0 = if t = i then x else 0 := by
      intro x t ht
      by_cases h : t = i
      · subst h; simp [List.getD_eq_getElem?_getD, hzl, ht]
      · simp [List.getD_eq_getElem?_getD, h, Ne.symm h, hz, ht]
    have hv : ∀ x, x < dims.getD i 0 → C3.Hilbert.Valid dims (z.set i x) := by
      intro x hx
      apply valid_of (by simp [hzl])
      intro t ht
      rw [hget x t ht]
      split
      · next h => rw [h]; exact hx
      · exact hpos t ht
    have h := C3.Hilbert.C33_annihilator dims i hi _ _ (hv (dims.getD i 0 - 2) (by omega))
      (hv (dims.getD i 0 - 1) (by omega))
    rw [if_pos] at h
    · rw [hget _ i hi, if_pos rfl] at h
      have := hmax ⟨_, C3.Hilbert.flat_lt (hv (dims.getD i 0 - 2) (by omega))⟩
        ⟨_, C3.Hilbert.flat_lt (hv (dims.getD i 0 - 1) (by omega))⟩
      rw [h] at this
      exact this
    · refine ⟨fun t ht hne => ?_, ?_⟩
      · rw [hget _ t ht, hget _ t ht, if_neg hne, if_neg hne]
      · rw [hget _ i hi, hget _ i hi, if_pos rfl, if_pos rfl]
        omega

/-- **C154 is false**: the energies are fitted with one level less than the element has. -/
theorem C154_false_levels (dims : List ℕ) (i : ℕ) (hi : i < dims.length) (hd : 2 ≤ dims.getD i 0)
    (hpos : ∀ t < dims.length, 0 < dims.getD t 0) (m : ℝ) (hm : IsMax (C3.Hilbert.ann dims i) m) :
    localLevels m + 1 = dims.getD i 0 := by
  rw [ann_max dims i hi hd hpos m hm, localLevels, Real.sq_sqrt (by positivity), Nat.floor_natCast]
  omega

/-- **C154 is false**: for an element with two or three levels the fit raises. -/
theorem C154_false_three (dims : List ℕ) (i : ℕ) (hi : i < dims.length) (hd : dims.getD i 0 = 2 ∨ dims.getD i 0 = 3)
    (hpos : ∀ t < dims.length, 0 < dims.getD t 0) (m : ℝ) (hm : IsMax (C3.Hilbert.ann dims i) m)
    (freq anhar : ℝ) (es : List ℝ) (hes : es.length = localLevels m) : fitCost freq anhar es = none := by
  have h := C154_false_levels dims i hi (by omega) hpos m hm
  have hlen : es.length ≤ 2 := by omega
  unfold fitCost
  match es, hlen with
  | [], _ => rfl
  | [_], _ => rfl
  | [_, _], _ => rfl

/-- **C154** (partial): with four or more levels the cost is defined, and it is zero exactly if the first two
transitions have the requested frequencies. -/
theorem C154_fit_partial (dims : List ℕ) (i : ℕ) (hi : i < dims.length) (hd : 4 ≤ dims.getD i 0)
    (hpos : ∀ t < dims.length, 0 < dims.getD t 0) (m : ℝ) (hm : IsMax (C3.Hilbert.ann dims i) m)
    (freq anhar : ℝ) (es : List ℝ) (hes : es.length = localLevels m) :
    ∃ c, fitCost freq anhar es = some c ∧ 0 ≤ c ∧
      (c = 0 ↔ es.getD 1 0 - es.getD 0 0 = freq ∧ es.getD 2 0 - es.getD 1 0 = freq + anhar) := by
  have h := C154_false_levels dims i hi (by omega) hpos m hm
  have hlen : 3 ≤ es.length := by omega
  match es, hlen with
  | e0 :: e1 :: e2 :: es, _ =>
    refine ⟨_, rfl, by positivity, ?_⟩
    rw [add_eq_zero_iff_of_nonneg (abs_nonneg _) (abs_nonneg _), abs_eq_zero, abs_eq_zero]
    simp only [List.getD_cons_zero, List.getD_cons_succ]
    constructor
    · rintro ⟨h1, h2⟩
      constructor <;> linarith
    · rintro ⟨h1, h2⟩
      constructor <;> linarith

example : ∃ m, IsMax (C3.Hilbert.ann [4] 0) m := by
  obtain ⟨x, _, hx⟩ := Finset.exists_max_image (Finset.univ : Finset (Fin [4].prod × Fin [4].prod))
    (fun x => (C3.Hilbert.ann [4] 0 x.1 x.2).re) ⟨(⟨0, by decide⟩, ⟨0, by decide⟩), Finset.mem_univ _⟩
  refine ⟨(C3.Hilbert.ann [4] 0 x.1 x.2).re, ⟨x.1, x.2, ?_⟩, fun p q => hx (p, q) (Finset.mem_univ _)⟩
  obtain ⟨l, hl, hlp⟩ := C3.Hilbert.exists_flat [4] x.1.val x.1.isLt
  obtain ⟨k, hk, hkq⟩ := C3.Hilbert.exists_flat [4] x.2.val x.2.isLt
  have hp : x.1 = ⟨C3.Hilbert.flat [4] l, C3.Hilbert.flat_lt hl⟩ := Fin.ext hlp.symm
  have hq : x.2 = ⟨C3.Hilbert.flat [4] k, C3.Hilbert.flat_lt hk⟩ := Fin.ext hkq.symm
  rw [hp, hq, C3.Hilbert.C33_annihilator [4] 0 (by simp) l k hl hk]
  split <;> simp

/-- c3/libraries/chip.py:507-508: the starting point of the fit. -/
noncomputable def guess (freq anhar : ℝ) : ℝ × ℝ := (-anhar, (freq + -anhar) ^ 2 / (8 * -anhar))

/-- **C154**: the starting point has the requested frequencies to first order in the quartic term (the diagonal of
the Hamiltonian without the sextic term), on any number of levels above four. -/
theorem C154_guess (freq anhar : ℝ) (ha : anhar < 0) (hf : 0 < freq - anhar) (D : ℕ) (hD : 4 < D) :
    ∃ p, prefactors (guess freq anhar).1 (guess freq anhar).2 1 = some p ∧
      (let E : Fin D → ℝ := fun k => (p.quadratic • ((annLoc D)ᵀ * annLoc D) + p.quartic • xOp D ^ 4) k k
       E ⟨1, by omega⟩ - E ⟨0, by omega⟩ = freq ∧ E ⟨2, by omega⟩ - E ⟨1, by omega⟩ = freq + anhar) := by
  have hC : 0 < (guess freq anhar).1 := by simp only [guess]; linarith
  have hJ : 0 < (guess freq anhar).2 := by
    simp only [guess]
    apply div_pos
    · have : freq + -anhar ≠ 0 := by linarith
      positivity
    · linarith
  obtain ⟨p, hp, h2, h4, -⟩ := prefactors_spec _ _ 1 hC hJ one_ne_zero
  refine ⟨p, hp, ?_⟩
  have hq : p.quadratic = freq - anhar := by
    rw [h2]
    simp only [guess]
    rw [show 8 * -anhar * ((freq + -anhar) ^ 2 / (8 * -anhar) * 1 ^ 2) = (freq - anhar) ^ 2 by
      have : anhar ≠ 0 := ha.ne
      field_simp
      ring]
    exact Real.sqrt_sq hf.le
  have hr : p.quartic = anhar / 12 := by
    rw [h4, phiZpf_four _ _ hC (by positivity)]
    have := hJ.ne'
    field_simp
    simp only [guess]
    ring
  have hnum : ∀ k : Fin D, ((annLoc D)ᵀ * annLoc D) k k = k.val := by
    intro k
    refine (diag_eq D _ k).trans ?_
    rw [← Matrix.mulVec_mulVec, dot_mul_symm, Matrix.transpose_transpose, ann_lvl D k k.isLt, smul_dotProduct,
      dotProduct_smul, lvl_dot D _ _ (by omega), if_pos rfl, smul_eq_mul, smul_eq_mul, mul_one, sqrt_sq_cast]
  have hE : ∀ k : Fin D, k.val + 2 < D →
      (p.quadratic • ((annLoc D)ᵀ * annLoc D) + p.quartic • xOp D ^ 4) k k =
        (freq - anhar) * k.val + anhar / 12 * (6 * (k.val : ℝ) ^ 2 + 6 * k.val + 3) := by
    intro k hk
    rw [Matrix.add_apply, Matrix.smul_apply, Matrix.smul_apply, hnum]
    refine congrArg₂ (· + ·) ?_ ?_
    · rw [hq]; rfl
    · rw [hr]
      exact congrArg _ (x4_diag D k hk)
  simp only
  rw [hE ⟨0, by omega⟩ (by simp; omega), hE ⟨1, by omega⟩ (by simp; omega), hE ⟨2, by omega⟩ (by simp; omega)]
  push_cast
  constructor <;> ring

/-! ## C155: the flux qubit with cosines -/

/-- c3/libraries/chip.py:643-647 `cosm`. -/
noncomputable def cosm {D : ℕ} (var : Matrix (Fin D) (Fin D) ℂ) (a b : ℂ) : Matrix (Fin D) (Fin D) ℂ :=
  let e := Complex.exp (Complex.I * b) • NormedSpace.exp (Complex.I • (a • var))
  (0.5 : ℂ) • (e + eᴴ)

/-- c3/libraries/chip.py:605-625: phase and charge. -/
noncomputable def phaseVar (D : ℕ) (EC EJ : ℝ) : Matrix (Fin D) (Fin D) ℂ :=
  (phiZpf EC EJ • ((annLoc D)ᵀ + annLoc D)).map ((↑) : ℝ → ℂ)

noncomputable def chargeVar (D : ℕ) (EC EJ : ℝ) : Matrix (Fin D) (Fin D) ℂ :=
  (nZpf EC EJ • (-(annLoc D)ᵀ + annLoc D)).map ((↑) : ℝ → ℂ)

/-- c3/libraries/chip.py:649-668 `CShuntFluxQubitCos.get_Hamiltonian`. -/
noncomputable def cosHam (D : ℕ) (EC EJ gamma phi phi0 : ℝ) : Matrix (Fin D) (Fin D) ℂ :=
  let phase : ℂ := 2 * Real.pi * phi / phi0
  let h := (4 * EC : ℂ) • chargeVar D EC EJ + (EJ : ℂ) • ((-1 : ℂ) • cosm (phaseVar D EC EJ) 2 phase -
    (2 * gamma : ℂ) • cosm (phaseVar D EC EJ) 1 0)
  h.map fun z => ((z.re : ℝ) : ℂ)

theorem cosm_hermitian {D : ℕ} (var : Matrix (Fin D) (Fin D) ℂ) (a b : ℂ) : (cosm var a b).IsHermitian := by
  unfold Matrix.IsHermitian cosm
  simp only
  rw [Matrix.conjTranspose_smul, Matrix.conjTranspose_add, Matrix.conjTranspose_conjTranspose, add_comm]
  congr 1
  norm_num

/-- C155: for a real symmetric or Hermitian variable and real scale and shift, `cosm` is the cosine: half the sum of the
exponentials of plus and minus `i (a φ + b)`. -/
theorem C155_cosine {D : ℕ} (var : Matrix (Fin D) (Fin D) ℂ) (hv : var.IsHermitian) (a b : ℝ) :
    cosm var a b = (1 / 2 : ℂ) • (NormedSpace.exp (Complex.I • ((a : ℂ) • var + (b : ℂ) • 1)) +
      NormedSpace.exp (-(Complex.I • ((a : ℂ) • var + (b : ℂ) • 1)))) := by
  have hs : ∀ z : ℂ, NormedSpace.exp (z • (1 : Matrix (Fin D) (Fin D) ℂ)) = Complex.exp z • 1 := by
    intro z
    have h := Matrix.exp_diagonal (𝔸 := ℂ) (fun _ : Fin D => z)
    rw [show Matrix.diagonal (fun _ : Fin D => z) = z • (1 : Matrix (Fin D) (Fin D) ℂ) by
      rw [← Matrix.diagonal_one, ← Matrix.diagonal_smul]; congr 1; funext i; simp] at h
    rw [h, Complex.exp_eq_exp_ℂ, ← Matrix.diagonal_one, ← Matrix.diagonal_smul]
    congr 1
    funext i
    simp
  have hadd : ∀ c : ℂ, NormedSpace.exp (c • ((a : ℂ) • var + (b : ℂ) • 1)) =
      Complex.exp (c * b) • NormedSpace.exp (c • ((a : ℂ) • var)) := by
    intro c
    rw [smul_add, smul_smul c (b : ℂ), Matrix.exp_add_of_commute, hs, Matrix.mul_smul, Matrix.mul_one]
    exact (Commute.one_right _).smul_right _
  have hstar : ((a : ℂ) • var)ᴴ = (a : ℂ) • var := by
    rw [Matrix.conjTranspose_smul, hv.eq]; simp
  unfold cosm
  simp only
  rw [← neg_smul, hadd, hadd]
  rw [Matrix.conjTranspose_smul, ← Matrix.exp_conjTranspose, Matrix.conjTranspose_smul, hstar]
  congr 1
  · norm_num
  · congr 2
    · rw [RCLike.star_def, ← Complex.exp_conj]
      simp
    · simp

/-- C155: the phase is Hermitian. -/
theorem C155_phase_hermitian (D : ℕ) (EC EJ : ℝ) : (phaseVar D EC EJ).IsHermitian := by
  unfold Matrix.IsHermitian phaseVar
  ext i j
  simp only [Matrix.conjTranspose_apply, Matrix.map_apply, RCLike.star_def, Complex.conj_ofReal, Matrix.smul_apply,
    Matrix.add_apply, Matrix.transpose_apply]
  rw [add_comm]

/-- C155: phase and charge are canonically conjugate: their commutator is minus one on all levels but the last. -/
theorem C155_conjugate (D : ℕ) (EC EJ : ℝ) (hC : 0 < EC) (hJ : 0 < EJ) (i k : Fin D) (hk : k.val + 1 < D) :
    (phaseVar D EC EJ * chargeVar D EC EJ - chargeVar D EC EJ * phaseVar D EC EJ) i k = if i = k then -1 else 0 := by
  have hz : phiZpf EC EJ * nZpf EC EJ = 1 / 2 := by
    unfold phiZpf nZpf
    rw [← Real.mul_rpow (by positivity) (by positivity), show 2 * EC / EJ * (EJ / EC / 32) = (1 / 2) ^ (4 : ℝ) by
      field_simp; norm_num, ← Real.rpow_mul (by norm_num)]
    norm_num
  have hmap : ∀ A B : Matrix (Fin D) (Fin D) ℝ, A.map ((↑) : ℝ → ℂ) * B.map ((↑) : ℝ → ℂ) =
      (A * B).map ((↑) : ℝ → ℂ) := fun A B => (Matrix.map_mul (f := Complex.ofRealHom) (L := A) (M := B)).symm
  have hcomm : (phiZpf EC EJ • ((annLoc D)ᵀ + annLoc D)) * (nZpf EC EJ • (-(annLoc D)ᵀ + annLoc D)) -
      (nZpf EC EJ • (-(annLoc D)ᵀ + annLoc D)) * (phiZpf EC EJ • ((annLoc D)ᵀ + annLoc D)) =
      (annLoc D)ᵀ * annLoc D - annLoc D * (annLoc D)ᵀ := by
    rw [Matrix.smul_mul, Matrix.smul_mul, Matrix.mul_smul, Matrix.mul_smul, smul_smul, smul_smul,
      mul_comm (nZpf EC EJ), hz, ← smul_sub]
    rw [show ((annLoc D)ᵀ + annLoc D) * (-(annLoc D)ᵀ + annLoc D) - (-(annLoc D)ᵀ + annLoc D) * ((annLoc D)ᵀ + annLoc D)
      = (2 : ℝ) • ((annLoc D)ᵀ * annLoc D - annLoc D * (annLoc D)ᵀ) by rw [two_smul]; noncomm_ring, smul_smul]
    norm_num
  have hv : ((annLoc D)ᵀ * annLoc D - annLoc D * (annLoc D)ᵀ) *ᵥ lvl D k = -lvl D k := by
    rw [Matrix.sub_mulVec, ← Matrix.mulVec_mulVec, ← Matrix.mulVec_mulVec, cre_lvl D k hk, ann_lvl D k k.isLt,
      Matrix.mulVec_smul, Matrix.mulVec_smul, ann_lvl D _ hk]
    rcases Nat.eq_zero_or_pos k.val with h | h
    · simp [h]
    · rw [cre_lvl D _ (by omega), smul_smul, smul_smul, show k.val - 1 + 1 = k.val by omega]
      have h1 := sqrt_sq_cast k.val
      have h2 := sqrt_sq_succ k.val
      have h3 : (((k.val - 1 : ℕ) : ℝ) + 1) = k.val := by
        rw [Nat.cast_sub h]; push_cast; ring
      rw [h3, h1]
      push_cast
      rw [h2, ← sub_smul]
      rw [show (k.val : ℝ) - (k.val + 1) = -1 by ring, neg_one_smul]
  have hl : lvl D k = Pi.single k 1 := by
    funext j
    by_cases hj : j = k
    · subst hj; simp [lvl]
    · have : j.val ≠ k.val := fun h => hj (Fin.ext h)
      simp [lvl, this, hj]
  have hi := congrFun hv i
  rw [hl, Matrix.mulVec_single_one] at hi
  unfold phaseVar chargeVar
  rw [hmap, hmap, Matrix.sub_apply, Matrix.map_apply, Matrix.map_apply, ← Complex.ofReal_sub]
  rw [← Matrix.sub_apply, hcomm]
  refine (congrArg Complex.ofReal hi).trans ?_
  by_cases h : i = k
  · subst h; simp
  · simp [h]

/-- **C155 is false**: the Hamiltonian of the flux qubit with cosines is not Hermitian: the charge enters linearly and
not squared, and its real antisymmetric part stays. -/
theorem C155_false_hermitian (D : ℕ) (hD : 2 ≤ D) (EC EJ gamma phi phi0 : ℝ) (hC : 0 < EC) (hJ : 0 < EJ) :
    ¬ (cosHam D EC EJ gamma phi phi0).IsHermitian := by
  intro h
  have h01 := h.apply ⟨0, by omega⟩ ⟨1, by omega⟩
  have hc : ∀ a b, ((cosm (phaseVar D EC EJ) a b) ⟨1, by omega⟩ ⟨0, by omega⟩).re =
      ((cosm (phaseVar D EC EJ) a b) ⟨0, by omega⟩ ⟨1, by omega⟩).re := by
    intro a b
    rw [← (cosm_hermitian (phaseVar D EC EJ) a b).apply]
    rfl
  have hn : 0 < nZpf EC EJ := by unfold nZpf; positivity
  unfold cosHam at h01
  simp only [Matrix.map_apply, RCLike.star_def, Complex.conj_ofReal, Complex.ofReal_inj, Matrix.add_apply,
    Matrix.smul_apply, Matrix.sub_apply, smul_eq_mul, Complex.add_re, chargeVar, Matrix.neg_apply,
    Matrix.transpose_apply, annLoc] at h01
  have e4 : (4 * EC : ℂ) = ((4 * EC : ℝ) : ℂ) := by push_cast; rfl
  have e2 : (2 * gamma : ℂ) = ((2 * gamma : ℝ) : ℂ) := by push_cast; rfl
  rw [e4, e2] at h01
  simp only [Complex.re_ofReal_mul, Complex.sub_re, neg_mul, one_mul, Complex.neg_re, hc, Complex.ofReal_re] at h01
  norm_num at h01
  have : 0 < EC * nZpf EC EJ := by positivity
  linarith

example : (2 : ℕ) ≤ 2 ∧ (0 : ℝ) < 1 := by norm_num

/-- **C155** (partial): apart from the charge term the Hamiltonian is Hermitian. Missing: see
`C155_false_hermitian`. -/
theorem C155_potential_partial (D : ℕ) (EC EJ gamma phi phi0 : ℝ) :
    (cosHam D EC EJ gamma phi phi0 - (4 * EC : ℂ) • chargeVar D EC EJ).IsHermitian := by
  have hc : ∀ a b i j, ((cosm (phaseVar D EC EJ) a b) i j).re = ((cosm (phaseVar D EC EJ) a b) j i).re := by
    intro a b i j
    rw [← (cosm_hermitian (phaseVar D EC EJ) a b).apply]
    rfl
  have e4 : (4 * EC : ℂ) = ((4 * EC : ℝ) : ℂ) := by push_cast; rfl
  have e2 : (2 * gamma : ℂ) = ((2 * gamma : ℝ) : ℂ) := by push_cast; rfl
  have e1 : (-1 : ℂ) = ((-1 : ℝ) : ℂ) := by push_cast; rfl
  have key : ∀ i j, (cosHam D EC EJ gamma phi phi0 - (4 * EC : ℂ) • chargeVar D EC EJ) i j =
      ((EJ * (-1 * ((cosm (phaseVar D EC EJ) 2 (2 * Real.pi * phi / phi0)) i j).re -
        2 * gamma * ((cosm (phaseVar D EC EJ) 1 0) i j).re) : ℝ) : ℂ) := by
    intro i j
    unfold cosHam
    simp only [Matrix.map_apply, Matrix.add_apply, Matrix.smul_apply, Matrix.sub_apply, smul_eq_mul, Complex.add_re,
      chargeVar]
    rw [e4, e2, e1]
    simp only [Complex.re_ofReal_mul, Complex.sub_re, Complex.ofReal_re]
    push_cast
    ring
  ext i j
  rw [Matrix.conjTranspose_apply, key, key, RCLike.star_def, Complex.conj_ofReal, hc _ _ i j, hc _ _ i j]

/-! ## C156: the flux qubit -/

/-- c3/libraries/chip.py:834-850 `CShuntFluxQubit.get_frequency`, with the minimum `x` of the potential. -/
noncomputable def fluxFreq (EC EJ gamma phi phi0 sig x : ℝ) : ℝ :=
  √(2 * EJ * EC) + √(2 * EC / EJ) * fluxPot EJ gamma phi phi0 2 sig x + EC / EJ * fluxPot EJ gamma phi phi0 4 sig x

/-- c3/libraries/chip.py:854-861 `get_anharmonicity`. -/
noncomputable def fluxAnhar (EC EJ gamma phi phi0 sig x : ℝ) : ℝ := EC / EJ * fluxPot EJ gamma phi phi0 4 sig x

/-- c3/libraries/chip.py:886-903 `get_Hamiltonian`: its diagonal, with the number and the Duffing operator. -/
noncomputable def fluxLevel (EC EJ gamma phi phi0 x : ℝ) (dim n : ℕ) : ℝ :=
  fluxFreq EC EJ gamma phi phi0 0 x * n +
    (if 2 < dim then fluxAnhar EC EJ gamma phi phi0 0 x * (n * (n - 1) / 2) else 0)

/-- Specification: the circuit Hamiltonian `4 E_C n² + V(x + φ)` with the potential expanded to fourth order around
`x`; constants and the linear term, which is zero at a minimum, are left out. -/
noncomputable def circuit (EC EJ : ℝ) (V : ℝ → ℝ) (x : ℝ) (D : ℕ) : Matrix (Fin D) (Fin D) ℝ :=
  (-(4 * EC * nZpf EC EJ ^ 2)) • pOp D ^ 2 +
    (iteratedDeriv 2 V x / 2 * phiZpf EC EJ ^ 2) • xOp D ^ 2 +
    (iteratedDeriv 3 V x / 6 * phiZpf EC EJ ^ 3) • xOp D ^ 3 +
    (iteratedDeriv 4 V x / 24 * phiZpf EC EJ ^ 4) • xOp D ^ 4

/-- **C156**: the level energies of the flux qubit are those of its circuit to first order: the diagonal of the circuit
Hamiltonian expanded around the same point of the potential, relative to the ground state. -/
theorem C156_flux_levels (EC EJ gamma phi phi0 x : ℝ) (hC : 0 < EC) (hJ : 0 < EJ) (D dim : ℕ) (k : Fin D)
    (hk : k.val + 2 < D) (hdim : k.val < dim) :
    fluxLevel EC EJ gamma phi phi0 x dim k.val =
      circuit EC EJ (fluxPot EJ gamma phi phi0 0 0) x D k k -
        circuit EC EJ (fluxPot EJ gamma phi phi0 0 0) x D ⟨0, by omega⟩ ⟨0, by omega⟩ := by
  have hdiag : ∀ j : Fin D, j.val + 2 < D → circuit EC EJ (fluxPot EJ gamma phi phi0 0 0) x D j j =
      √(8 * EC * EJ) / 4 * (2 * j.val + 1) + fluxPot EJ gamma phi phi0 2 0 x / 2 * √(2 * EC / EJ) * (2 * j.val + 1) +
        fluxPot EJ gamma phi phi0 4 0 x / 24 * (2 * EC / EJ) * (6 * (j.val : ℝ) ^ 2 + 6 * j.val + 3) := by
    intro j hj
    unfold circuit
    rw [← C84_flux_all_partial, ← C84_flux_all_partial, ← C84_flux_all_partial, (kinetic EC EJ hC hJ).1,
      phiZpf_sq EC EJ hC hJ, phiZpf_four EC EJ hC hJ]
    have e1 := p2_diag D j (by omega)
    have e2 := x2_diag D j (by omega)
    have e3 := x3_diag D j hj
    have e4 := x4_diag D j hj
    rw [Matrix.add_apply, Matrix.add_apply, Matrix.add_apply, Matrix.smul_apply, Matrix.smul_apply, Matrix.smul_apply,
      Matrix.smul_apply]
    refine (congrArg₂ (· + ·) (congrArg₂ (· + ·) (congrArg₂ (· + ·) (congrArg _ e1) (congrArg _ e2)) (congrArg _ e3))
      (congrArg _ e4)).trans ?_
    simp only [smul_eq_mul]
    ring
  have hs : √(2 * EJ * EC) = √(8 * EC * EJ) / 2 := by
    rw [Real.sqrt_eq_iff_mul_self_eq (by positivity) (by positivity), div_mul_div_comm,
      Real.mul_self_sqrt (by positivity)]
    ring
  rw [hdiag k hk, hdiag ⟨0, by omega⟩ (by simp; omega)]
  unfold fluxLevel fluxFreq fluxAnhar
  rw [hs]
  by_cases hd : 2 < dim
  · rw [if_pos hd]
    push_cast
    ring
  · rw [if_neg hd]
    rcases (show k.val = 0 ∨ k.val = 1 by omega) with h | h <;> rw [h] <;> push_cast <;> ring

example : ∃ (k : Fin 5), k.val + 2 < 5 ∧ k.val < 3 := ⟨2, by decide, by decide⟩

end C3.Chip
