import Verif.Gates.Clifford
import Verif.Fidelity.Twirl
import Mathlib.Analysis.CStarAlgebra.Matrix
import Mathlib.Analysis.Normed.Module.FiniteDimension
import Mathlib.Analysis.Normed.Operator.NormedSpace
import Mathlib.Algebra.Star.SelfAdjoint
import Mathlib.Algebra.Star.Module
import Mathlib.Algebra.Group.MinimalAxioms
import Mathlib.LinearAlgebra.Matrix.Notation

/-!
# The group of single-qubit Cliffords acting on density matrices

The numbers 1 to 24 of `CLIFFORDS` (C59) as a group, its action `X ↦ U X Uᴴ` on Hermitian matrices, and the operators
that commute with it: `D X = p X + (q - p) tr X / 2`.
-/

set_option linter.unusedSectionVars false

namespace C3.Fidelity.Decay

open Matrix C3.Gates C3.Fidelity.Twirl
open scoped Matrix.Norms.L2Operator

/-! ## The group -/

/-- A Clifford of the table, by its number minus one. -/
@[ext] structure Cl where
  n : Fin 24
  deriving DecidableEq, Fintype

/-- The number in the table. -/
def Cl.num (c : Cl) : ℕ := c.n + 1

theorem Cl.num_range (c : Cl) : 1 ≤ c.num ∧ c.num ≤ 24 := by
  have := c.n.2
  unfold Cl.num
  omega

theorem Cl.num_mem (c : Cl) : c.num ∈ List.range' 1 24 := by
  rw [List.mem_range'_1]
  have := c.num_range
  omega

def Cl.ofNum (i : ℕ) (h : i ∈ List.range' 1 24) : Cl := ⟨⟨i - 1, by rw [List.mem_range'_1] at h; omega⟩⟩

theorem Cl.num_ofNum (i : ℕ) (h : i ∈ List.range' 1 24) : (Cl.ofNum i h).num = i := by
  rw [List.mem_range'_1] at h
  unfold Cl.ofNum Cl.num
  simp only
  omega

theorem Cl.num_inj {c d : Cl} (h : c.num = d.num) : c = d := by
  unfold Cl.num at h
  exact Cl.ext (Fin.ext (by omega))

noncomputable def Cl.mat (c : Cl) : Matrix (Fin 2) (Fin 2) ℂ := matmul (cliffWord c.num)

theorem Cl.unitary (c : Cl) : c.matᴴ * c.mat = 1 := matmul_unitary _

noncomputable instance : Mul Cl := ⟨fun c d => Cl.ofNum (cliffMul c.num d.num) (cliff_table _ c.num_mem _ d.num_mem).1⟩
instance : One Cl := ⟨⟨0⟩⟩
noncomputable instance : Inv Cl := ⟨fun c => Cl.ofNum (cliff_inverse _ c.num_mem).choose (cliff_inverse _ c.num_mem).choose_spec.1⟩

theorem Cl.one_num : (1 : Cl).num = 1 := rfl

theorem Cl.mat_one : (1 : Cl).mat = 1 := cliff_one

theorem Cl.mat_mul (c d : Cl) : PhaseEq (c.mat * d.mat) (c * d).mat := by
  have h := (cliff_mul_phase _ _ c.num_mem d.num_mem).2
  have : (c * d).mat = matmul (cliffWord (cliffMul c.num d.num)) := by
    unfold Cl.mat
    rw [show (c * d).num = cliffMul c.num d.num from Cl.num_ofNum _ _]
  rw [this]
  exact h

theorem phase_symm {A B : Matrix (Fin 2) (Fin 2) ℂ} (h : PhaseEq A B) : PhaseEq B A := by
  obtain ⟨c, hc, rfl⟩ := h
  have h0 : c ≠ 0 := by
    intro h
    rw [h, norm_zero] at hc
    exact zero_ne_one hc
  exact ⟨c⁻¹, by rw [norm_inv, hc, inv_one], by rw [smul_smul, inv_mul_cancel₀ h0, one_smul]⟩

theorem phase_mul_right {A B : Matrix (Fin 2) (Fin 2) ℂ} (h : PhaseEq A B) (C : Matrix (Fin 2) (Fin 2) ℂ) :
    PhaseEq (A * C) (B * C) := by
  obtain ⟨c, hc, rfl⟩ := h
  exact ⟨c, hc, Matrix.smul_mul _ _ _⟩

theorem Cl.mat_inj {c d : Cl} (h : PhaseEq c.mat d.mat) : c = d :=
  Cl.num_inj ((C59_group _ _ c.num_range d.num_range).2 h)

noncomputable instance : Group Cl := Group.ofLeftAxioms
  (fun c d e => by
    apply Cl.mat_inj
    have h1 := phase_mul_right (Cl.mat_mul c d) e.mat
    have h2 := (Cl.mat_mul d e).mul_left c.mat
    have h3 := Cl.mat_mul (c * d) e
    have h4 := Cl.mat_mul c (d * e)
    rw [Matrix.mul_assoc] at h1
    exact ((phase_symm h3).trans (phase_symm h1)).trans (h2.trans h4))
  (fun c => by
    apply Cl.mat_inj
    have := Cl.mat_mul 1 c
    rw [Cl.mat_one, Matrix.one_mul] at this
    exact phase_symm this)
  (fun c => by
    apply Cl.num_inj
    have h := (cliff_inverse _ c.num_mem).choose_spec
    have h1 : (c⁻¹).num = (cliff_inverse _ c.num_mem).choose := Cl.num_ofNum _ _
    have h2 : (c⁻¹ * c).num = cliffMul (c⁻¹).num c.num := Cl.num_ofNum _ _
    rw [h2, h1, h.2]
    rfl)

theorem Cl.card : Fintype.card Cl = 24 := rfl

/-! ## The action on Hermitian matrices -/

/-- Hermitian 2×2 matrices, a real space of dimension four. -/
noncomputable abbrev Herm := selfAdjoint.submodule ℝ (Matrix (Fin 2) (Fin 2) ℂ)

theorem herm_star (X : Herm) : (X : Matrix (Fin 2) (Fin 2) ℂ)ᴴ = X := X.2

/-- Operations on Hermitian matrices. -/
noncomputable abbrev Op := Herm →L[ℝ] Herm

instance : Nontrivial Herm := by
  refine ⟨⟨0, ⟨1, ?_⟩, ?_⟩⟩
  · exact (selfAdjoint.mem_iff).2 (star_one _)
  · intro h
    have := congrArg (fun X : Herm => (X : Matrix (Fin 2) (Fin 2) ℂ) 0 0) h
    simp at this

theorem unitary_norm (U : Matrix (Fin 2) (Fin 2) ℂ) (h : Uᴴ * U = 1) : ‖U‖ ≤ 1 := by
  have h1 : ‖U‖ * ‖U‖ = 1 := by
    rw [← CStarRing.norm_star_mul_self, star_eq_conjTranspose, h, norm_one]
  nlinarith [norm_nonneg U]

/-- Conjugation with a matrix. -/
noncomputable def ad (U : Matrix (Fin 2) (Fin 2) ℂ) : Op :=
  LinearMap.mkContinuous
    { toFun := fun X => ⟨U * X * Uᴴ, by
        refine (selfAdjoint.mem_iff).2 ?_
        rw [star_eq_conjTranspose, Matrix.conjTranspose_mul, Matrix.conjTranspose_mul, Matrix.conjTranspose_conjTranspose,
          herm_star X, Matrix.mul_assoc]⟩
      map_add' := fun X Y => by
        apply Subtype.ext
        simp [Matrix.mul_add, Matrix.add_mul]
      map_smul' := fun t X => by
        apply Subtype.ext
        simp }
    (‖U‖ * ‖U‖) (fun X => by
      change ‖U * X * Uᴴ‖ ≤ _
      calc ‖U * X * Uᴴ‖ ≤ ‖U * X‖ * ‖Uᴴ‖ := norm_mul_le _ _
        _ ≤ (‖U‖ * ‖(X : Matrix (Fin 2) (Fin 2) ℂ)‖) * ‖Uᴴ‖ := by gcongr; exact norm_mul_le _ _
        _ = ‖U‖ * ‖U‖ * ‖X‖ := by rw [Matrix.l2_opNorm_conjTranspose]; change _ = ‖U‖ * ‖U‖ * ‖(X : Matrix (Fin 2) (Fin 2) ℂ)‖; ring)

theorem ad_apply (U : Matrix (Fin 2) (Fin 2) ℂ) (X : Herm) : ((ad U X : Herm) : Matrix (Fin 2) (Fin 2) ℂ) = U * X * Uᴴ := rfl

theorem ad_mul (U W : Matrix (Fin 2) (Fin 2) ℂ) : ad (U * W) = ad U * ad W := by
  ext1 X
  apply Subtype.ext
  rw [mul_apply_eq_comp, ad_apply, ad_apply, ad_apply, Matrix.conjTranspose_mul]
  simp only [Matrix.mul_assoc]

theorem ad_one : ad 1 = 1 := by
  ext1 X
  apply Subtype.ext
  rw [ad_apply]
  simp

theorem ad_phase {U W : Matrix (Fin 2) (Fin 2) ℂ} (h : PhaseEq U W) : ad U = ad W := by
  obtain ⟨c, hc, rfl⟩ := h
  ext1 X
  apply Subtype.ext
  rw [ad_apply, ad_apply, Matrix.conjTranspose_smul, Matrix.smul_mul, Matrix.smul_mul, Matrix.mul_smul, smul_smul]
  have : c * star c = 1 := by
    rw [Complex.star_def, Complex.mul_conj, Complex.normSq_eq_norm_sq, hc]
    norm_num
  rw [this, one_smul]

theorem ad_norm (U : Matrix (Fin 2) (Fin 2) ℂ) (h : Uᴴ * U = 1) : ‖ad U‖ ≤ 1 := by
  refine (LinearMap.mkContinuous_norm_le _ (by positivity) _).trans ?_
  have := unitary_norm U h
  nlinarith [norm_nonneg U]

/-- Conjugations with unitaries differ by at most twice the difference of the unitaries. -/
theorem ad_sub_norm (U W : Matrix (Fin 2) (Fin 2) ℂ) (hU : Uᴴ * U = 1) (hW : Wᴴ * W = 1) :
    ‖ad U - ad W‖ ≤ 2 * ‖U - W‖ := by
  refine ContinuousLinearMap.opNorm_le_bound _ (by positivity) fun X => ?_
  have e : (((ad U - ad W) X : Herm) : Matrix (Fin 2) (Fin 2) ℂ) = (U - W) * X * Uᴴ + W * X * (U - W)ᴴ := by
    change U * X * Uᴴ - W * X * Wᴴ = _
    rw [Matrix.conjTranspose_sub, Matrix.sub_mul, Matrix.sub_mul, Matrix.mul_sub]
    abel
  change ‖(((ad U - ad W) X : Herm) : Matrix (Fin 2) (Fin 2) ℂ)‖ ≤ _
  rw [e]
  have hu := unitary_norm U hU
  have hw := unitary_norm W hW
  have n1 : ‖(U - W) * X * Uᴴ‖ ≤ ‖U - W‖ * ‖X‖ := by
    calc ‖(U - W) * X * Uᴴ‖ ≤ ‖(U - W) * X‖ * ‖Uᴴ‖ := norm_mul_le _ _
      _ ≤ (‖U - W‖ * ‖(X : Matrix (Fin 2) (Fin 2) ℂ)‖) * 1 := by
          rw [Matrix.l2_opNorm_conjTranspose]
          gcongr
          exact norm_mul_le _ _
      _ = ‖U - W‖ * ‖X‖ := by rw [mul_one]; rfl
  have n2 : ‖W * X * (U - W)ᴴ‖ ≤ ‖U - W‖ * ‖X‖ := by
    calc ‖W * X * (U - W)ᴴ‖ ≤ ‖W * X‖ * ‖(U - W)ᴴ‖ := norm_mul_le _ _
      _ ≤ (1 * ‖(X : Matrix (Fin 2) (Fin 2) ℂ)‖) * ‖U - W‖ := by
          rw [Matrix.l2_opNorm_conjTranspose]
          gcongr
          exact (norm_mul_le _ _).trans (mul_le_mul_of_nonneg_right hw (norm_nonneg _))
      _ = ‖U - W‖ * ‖X‖ := by rw [one_mul, mul_comm]; rfl
  refine (norm_add_le _ _).trans ?_
  linarith

/-- The ideal action of the Cliffords. -/
noncomputable def rep : Cl →* Op where
  toFun c := ad c.mat
  map_one' := by rw [Cl.mat_one, ad_one]
  map_mul' c d := by rw [← ad_mul, ad_phase (Cl.mat_mul c d)]

theorem rep_norm (c : Cl) : ‖rep c‖ ≤ 1 := ad_norm _ c.unitary

/-! ## What commutes with it -/

/-- A Hermitian matrix by its coordinates. -/
noncomputable def bloch (t x y z : ℝ) : Herm := ⟨!![(t + z : ℂ), x - y * Complex.I; x + y * Complex.I, t - z], by
  refine (selfAdjoint.mem_iff).2 ?_
  ext i j
  fin_cases i <;> fin_cases j <;> simp [Complex.ext_iff]⟩

theorem bloch_surj (X : Herm) : ∃ t x y z, X = bloch t x y z := by
  have h := herm_star X
  have h00 := congrFun (congrFun h 0) 0
  have h01 := congrFun (congrFun h 0) 1
  have h11 := congrFun (congrFun h 1) 1
  rw [Matrix.conjTranspose_apply] at h00 h01 h11
  set M : Matrix (Fin 2) (Fin 2) ℂ := X.1 with hM
  have i00 : (M 0 0).im = 0 := by
    have := congrArg Complex.im h00
    simp only [Complex.star_def, Complex.conj_im] at this
    linarith
  have i11 : (M 1 1).im = 0 := by
    have := congrArg Complex.im h11
    simp only [Complex.star_def, Complex.conj_im] at this
    linarith
  have r10 : (M 1 0).re = (M 0 1).re := by
    have := congrArg Complex.re h01
    simpa using this
  have i10 : (M 1 0).im = -(M 0 1).im := by
    have := congrArg Complex.im h01
    simp only [Complex.star_def, Complex.conj_im] at this
    linarith
  refine ⟨((M 0 0).re + (M 1 1).re) / 2, (M 0 1).re, -(M 0 1).im, ((M 0 0).re - (M 1 1).re) / 2, ?_⟩
  apply Subtype.ext
  rw [← hM]
  ext i j
  fin_cases i <;> fin_cases j
  · simp [bloch, Complex.ext_iff, i00]
    ring
  · simp [bloch]
  · simp [bloch, Complex.ext_iff, r10, i10]
  · simp [bloch, Complex.ext_iff, i11]
    ring

theorem bloch_inj {t x y z t' x' y' z' : ℝ} (h : bloch t x y z = bloch t' x' y' z') : t = t' ∧ x = x' ∧ y = y' ∧ z = z' := by
  have h' : (bloch t x y z : Matrix (Fin 2) (Fin 2) ℂ) = bloch t' x' y' z' := congrArg _ h
  have h00 := congrArg Complex.re (congrFun (congrFun h' 0) 0)
  have h01 := congrFun (congrFun h' 0) 1
  have h11 := congrArg Complex.re (congrFun (congrFun h' 1) 1)
  have hr := congrArg Complex.re h01
  have hi := congrArg Complex.im h01
  simp [bloch] at h00 h11 hr hi
  exact ⟨by linarith, hr, hi, by linarith⟩

theorem bloch_add (t x y z t' x' y' z' : ℝ) : bloch t x y z + bloch t' x' y' z' = bloch (t + t') (x + x') (y + y') (z + z') := by
  apply Subtype.ext
  ext i j
  fin_cases i <;> fin_cases j <;> simp [bloch] <;> ring

theorem bloch_smul (s t x y z : ℝ) : s • bloch t x y z = bloch (s * t) (s * x) (s * y) (s * z) := by
  apply Subtype.ext
  ext i j
  fin_cases i <;> fin_cases j <;> simp [bloch] <;> ring

/-- The quarter turn about x. -/
theorem ad_x (t x y z : ℝ) : ad G4.x90p.mat (bloch t x y z) = bloch t x (-z) y := by
  apply Subtype.ext
  rw [ad_apply, G4.mat_eq, Matrix.conjTranspose_smul, Matrix.smul_mul, Matrix.smul_mul, Matrix.mul_smul, smul_smul]
  have hr : r2 * star r2 = 1 / 2 := by
    rw [← r2_sq]
    unfold r2
    simp
  rw [hr]
  have h1 : G4.x90p.gm.toC = !![1, -Complex.I; -Complex.I, 1] := by
    ext i j
    fin_cases i <;> fin_cases j <;> simp [GM.toC, G4.gm, GaussianInt.toComplex_def]
  have h2 : G4.x90p.gm.toCᴴ = !![1, Complex.I; Complex.I, 1] := by
    rw [h1]
    ext i j
    fin_cases i <;> fin_cases j <;> simp
  rw [h2, h1]
  simp only [bloch, Matrix.mul_fin_two, Matrix.smul_of, Matrix.smul_cons, Matrix.smul_empty, smul_eq_mul]
  ext i j
  fin_cases i <;> fin_cases j <;> apply Complex.ext <;> simp <;> ring

/-- The quarter turn about y. -/
theorem ad_y (t x y z : ℝ) : ad G4.y90p.mat (bloch t x y z) = bloch t z y (-x) := by
  apply Subtype.ext
  rw [ad_apply, G4.mat_eq, Matrix.conjTranspose_smul, Matrix.smul_mul, Matrix.smul_mul, Matrix.mul_smul, smul_smul]
  have hr : r2 * star r2 = 1 / 2 := by
    rw [← r2_sq]
    unfold r2
    simp
  rw [hr]
  have h1 : G4.y90p.gm.toC = !![1, -1; 1, 1] := by
    ext i j
    fin_cases i <;> fin_cases j <;> simp [GM.toC, G4.gm, GaussianInt.toComplex_def]
  have h2 : G4.y90p.gm.toCᴴ = !![1, 1; -1, 1] := by
    rw [h1]
    ext i j
    fin_cases i <;> fin_cases j <;> simp
  rw [h2, h1]
  simp only [bloch, Matrix.mul_fin_two, Matrix.smul_of, Matrix.smul_cons, Matrix.smul_empty, smul_eq_mul]
  ext i j
  fin_cases i <;> fin_cases j <;> apply Complex.ext <;> simp <;> ring

theorem rep_x : rep ⟨10⟩ = ad G4.x90p.mat := by
  change ad (matmul [G4.x90p]) = _
  simp [matmul]

theorem rep_y : rep ⟨21⟩ = ad G4.y90p.mat := by
  change ad (matmul [G4.y90p]) = _
  simp [matmul]

/-- An operator that commutes with all Cliffords multiplies the trace and the rest by a number each. -/
theorem commutes_form (D : Op) (hD : Commutes rep D) :
    ∃ q p : ℝ, ∀ t x y z, D (bloch t x y z) = bloch (q * t) (p * x) (p * y) (p * z) := by
  have hx : ∀ X, ad G4.x90p.mat (D X) = D (ad G4.x90p.mat X) := by
    intro X
    have := congrArg (fun T : Op => T X) (hD ⟨10⟩)
    rw [rep_x] at this
    exact this
  have hy : ∀ X, ad G4.y90p.mat (D X) = D (ad G4.y90p.mat X) := by
    intro X
    have := congrArg (fun T : Op => T X) (hD ⟨21⟩)
    rw [rep_y] at this
    exact this
  -- the identity
  obtain ⟨q, a1, a2, a3, h1⟩ := bloch_surj (D (bloch 1 0 0 0))
  have e1 := hx (bloch 1 0 0 0)
  have e2 := hy (bloch 1 0 0 0)
  rw [ad_x, h1, ad_x, neg_zero, h1] at e1
  rw [ad_y, h1, ad_y, neg_zero, h1] at e2
  obtain ⟨-, -, u1, u2⟩ := bloch_inj e1
  obtain ⟨-, u3, -, u4⟩ := bloch_inj e2
  have z3 : a3 = 0 := by linarith
  have z2 : a2 = 0 := by linarith
  have z1 : a1 = 0 := by linarith
  subst z1 z2 z3
  -- the x axis
  obtain ⟨b0, p, b2, b3, h2⟩ := bloch_surj (D (bloch 0 1 0 0))
  have e3 := hx (bloch 0 1 0 0)
  rw [ad_x, h2, ad_x, neg_zero, h2] at e3
  obtain ⟨-, -, v1, v2⟩ := bloch_inj e3
  have z3 : b3 = 0 := by linarith
  have z2 : b2 = 0 := by linarith
  subst z2 z3
  have e4 := hy (bloch 0 1 0 0)
  rw [ad_y, h2, ad_y] at e4
  have e5 := hy (bloch 0 0 0 (-1))
  rw [ad_y, ← e4, ad_y] at e5
  have hneg : bloch 0 (-1) 0 (-0) = (-1 : ℝ) • bloch 0 1 0 0 := by
    rw [bloch_smul]
    norm_num
  rw [hneg, map_smul, h2, bloch_smul] at e5
  obtain ⟨w1, -, -, -⟩ := bloch_inj e5
  have z0 : b0 = 0 := by linarith
  subst z0
  -- the z axis
  have h3 : D (bloch 0 0 0 1) = bloch 0 0 0 p := by
    have : bloch 0 0 0 1 = (-1 : ℝ) • bloch 0 0 0 (-1) := by
      rw [bloch_smul]
      norm_num
    rw [this, map_smul, ← e4, bloch_smul]
    norm_num
  -- the y axis
  have h4 : D (bloch 0 0 1 0) = bloch 0 0 p 0 := by
    have e6 := hx (bloch 0 0 0 1)
    rw [ad_x, h3, ad_x] at e6
    have : bloch 0 0 1 0 = (-1 : ℝ) • bloch 0 0 (-1) 0 := by
      rw [bloch_smul]
      norm_num
    rw [this, map_smul, ← e6, bloch_smul]
    norm_num
  refine ⟨q, p, fun t x y z => ?_⟩
  have : bloch t x y z = t • bloch 1 0 0 0 + x • bloch 0 1 0 0 + y • bloch 0 0 1 0 + z • bloch 0 0 0 1 := by
    simp only [bloch_smul, bloch_add]
    norm_num
  rw [this, map_add, map_add, map_add, map_smul, map_smul, map_smul, map_smul, h1, h2, h3, h4]
  simp only [bloch_smul, bloch_add]
  congr 1 <;> ring

theorem commutes_comm (D D' : Op) (hD : Commutes rep D) (hD' : Commutes rep D') : D * D' = D' * D := by
  obtain ⟨q, p, h⟩ := commutes_form D hD
  obtain ⟨q', p', h'⟩ := commutes_form D' hD'
  ext1 X
  obtain ⟨t, x, y, z, rfl⟩ := bloch_surj X
  rw [mul_apply_eq_comp, mul_apply_eq_comp, h', h, h, h']
  congr 1 <;> ring

end C3.Fidelity.Decay
