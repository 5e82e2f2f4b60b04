import Mathlib.Analysis.Complex.Basic
import Mathlib.Analysis.SpecialFunctions.Trigonometric.Basic
import Mathlib.LinearAlgebra.Matrix.ConjTranspose
import Mathlib.LinearAlgebra.Matrix.Notation
import Mathlib.LinearAlgebra.Matrix.NonsingularInverse
import Mathlib.Tactic.FinCases
import Mathlib.Tactic.LinearCombination

/-!
# C56: gate tables

The tables `GATES`, `PAULIS` of c3/libraries/constants.py:23-92 and `rotation`
(c3/utils/qt_utils.py:99-117).
-/

namespace C3.Gates

open Matrix Complex

/-- The names in `GATES` (c3/libraries/constants.py:50-89). -/
inductive Gate where
  | id | rx90p | rx90m | rxp | ry90p | ry90m | ryp | x | y | h | rz90p | rz90m | rzp
  | crxp | crzp | cr | cr90 | iswap | cz | ccz | cx
  deriving DecidableEq, Repr

/-- The dictionary keys. -/
def Gate.name : Gate → String
  | .id => "id" | .rx90p => "rx90p" | .rx90m => "rx90m" | .rxp => "rxp" | .ry90p => "ry90p"
  | .ry90m => "ry90m" | .ryp => "ryp" | .x => "x" | .y => "y" | .h => "h" | .rz90p => "rz90p"
  | .rz90m => "rz90m" | .rzp => "rzp" | .crxp => "crxp" | .crzp => "crzp" | .cr => "cr"
  | .cr90 => "cr90" | .iswap => "iswap" | .cz => "cz" | .ccz => "ccz" | .cx => "cx"

/-- All entries of the table, in order. -/
def allGates : List Gate :=
  [.id, .rx90p, .rx90m, .rxp, .ry90p, .ry90m, .ryp, .x, .y, .h, .rz90p, .rz90m, .rzp,
    .crxp, .crzp, .cr, .cr90, .iswap, .cz, .ccz, .cx]

/-- `key in GATES` and `GATES[key]`. -/
def lookup (key : String) : Option Gate := allGates.find? fun g => g.name == key

/-- Number of qubits of a gate. -/
def Gate.qubits : Gate → ℕ
  | .crxp | .crzp | .cr | .cr90 | .iswap | .cz | .cx => 2
  | .ccz => 3
  | _ => 1

/-- Dimension of a gate. -/
abbrev Gate.dim (g : Gate) : ℕ := 2 ^ g.qubits

/-- `1/√2`. -/
noncomputable def r2 : ℂ := ((1 / Real.sqrt 2 : ℝ) : ℂ)

/-- c3/libraries/constants.py:50-89 `GATES`. -/
noncomputable def Gate.mat : (g : Gate) → Matrix (Fin g.dim) (Fin g.dim) ℂ
  | .id => !![1, 0; 0, 1]
  | .rx90p => r2 • !![1, -I; -I, 1]
  | .rx90m => r2 • !![1, I; I, 1]
  | .rxp => !![0, -I; -I, 0]
  | .ry90p => r2 • !![1, -1; 1, 1]
  | .ry90m => r2 • !![1, 1; -1, 1]
  | .ryp => !![0, -1; 1, 0]
  | .x => !![0, 1; 1, 0]
  | .y => !![0, -I; I, 0]
  | .h => r2 • !![1, 1; 1, -1]
  | .rz90p => r2 • !![1 - I, 0; 0, 1 + I]
  | .rz90m => r2 • !![1 + I, 0; 0, 1 - I]
  | .rzp => !![-I, 0; 0, I]
  | .crxp => !![1, 0, 0, 0; 0, 1, 0, 0; 0, 0, 0, -I; 0, 0, -I, 0]
  | .crzp => !![1, 0, 0, 0; 0, 1, 0, 0; 0, 0, -I, 0; 0, 0, 0, I]
  | .cr => !![0, -I, 0, 0; -I, 0, 0, 0; 0, 0, 0, I; 0, 0, I, 0]
  | .cr90 => r2 • !![1, -I, 0, 0; -I, 1, 0, 0; 0, 0, 1, I; 0, 0, I, 1]
  | .iswap => !![1, 0, 0, 0; 0, 0, I, 0; 0, I, 0, 0; 0, 0, 0, 1]
  | .cz => Matrix.diagonal ![1, 1, 1, -1]
  | .ccz => Matrix.diagonal ![1, 1, 1, 1, 1, 1, 1, -1]
  | .cx => !![1, 0, 0, 0; 0, 0, 0, 1; 0, 0, 1, 0; 0, 1, 0, 0]

theorem r2_sq : r2 * r2 = 1 / 2 := by
  unfold r2
  rw [← Complex.ofReal_mul]
  have : (1 / Real.sqrt 2) * (1 / Real.sqrt 2) = 1 / 2 := by
    rw [div_mul_div_comm, Real.mul_self_sqrt (by norm_num)]
    norm_num
  rw [this]
  norm_num

theorem r2_star : star r2 = r2 := Complex.conj_ofReal _

theorem r2_conj : (starRingEnd ℂ) r2 = r2 := Complex.conj_ofReal _

theorem unitary_scaled {n : Type*} [Fintype n] [DecidableEq n] (M : Matrix n n ℂ)
    (h : Mᴴ * M = (2 : ℂ) • 1) : (r2 • M)ᴴ * (r2 • M) = 1 := by
  rw [Matrix.conjTranspose_smul, r2_star, Matrix.smul_mul, Matrix.mul_smul, smul_smul, r2_sq, h,
    smul_smul]
  norm_num

theorem u_id : (!![1, 0; 0, 1] : Matrix (Fin 2) (Fin 2) ℂ)ᴴ *
    !![1, 0; 0, 1] = 1 := by
  ext i j
  fin_cases i <;> fin_cases j <;>
    simp [Matrix.mul_apply, Fin.sum_univ_two]

theorem u_rx90p : (!![1, -I; -I, 1] : Matrix (Fin 2) (Fin 2) ℂ)ᴴ *
    !![1, -I; -I, 1] = (2 : ℂ) • 1 := by
  ext i j
  fin_cases i <;> fin_cases j <;>
    simp [Matrix.mul_apply, Fin.sum_univ_two] <;> norm_num

theorem u_rx90m : (!![1, I; I, 1] : Matrix (Fin 2) (Fin 2) ℂ)ᴴ *
    !![1, I; I, 1] = (2 : ℂ) • 1 := by
  ext i j
  fin_cases i <;> fin_cases j <;>
    simp [Matrix.mul_apply, Fin.sum_univ_two] <;> norm_num

theorem u_rxp : (!![0, -I; -I, 0] : Matrix (Fin 2) (Fin 2) ℂ)ᴴ *
    !![0, -I; -I, 0] = 1 := by
  ext i j
  fin_cases i <;> fin_cases j <;>
    simp [Matrix.mul_apply, Fin.sum_univ_two]

theorem u_ry90p : (!![1, -1; 1, 1] : Matrix (Fin 2) (Fin 2) ℂ)ᴴ *
    !![1, -1; 1, 1] = (2 : ℂ) • 1 := by
  ext i j
  fin_cases i <;> fin_cases j <;>
    simp [Matrix.mul_apply, Fin.sum_univ_two] <;> norm_num

theorem u_ry90m : (!![1, 1; -1, 1] : Matrix (Fin 2) (Fin 2) ℂ)ᴴ *
    !![1, 1; -1, 1] = (2 : ℂ) • 1 := by
  ext i j
  fin_cases i <;> fin_cases j <;>
    simp [Matrix.mul_apply, Fin.sum_univ_two] <;> norm_num

theorem u_ryp : (!![0, -1; 1, 0] : Matrix (Fin 2) (Fin 2) ℂ)ᴴ *
    !![0, -1; 1, 0] = 1 := by
  ext i j
  fin_cases i <;> fin_cases j <;>
    simp [Matrix.mul_apply, Fin.sum_univ_two]

theorem u_x : (!![0, 1; 1, 0] : Matrix (Fin 2) (Fin 2) ℂ)ᴴ *
    !![0, 1; 1, 0] = 1 := by
  ext i j
  fin_cases i <;> fin_cases j <;>
    simp [Matrix.mul_apply, Fin.sum_univ_two]

theorem u_y : (!![0, -I; I, 0] : Matrix (Fin 2) (Fin 2) ℂ)ᴴ *
    !![0, -I; I, 0] = 1 := by
  ext i j
  fin_cases i <;> fin_cases j <;>
    simp [Matrix.mul_apply, Fin.sum_univ_two]

theorem u_h : (!![1, 1; 1, -1] : Matrix (Fin 2) (Fin 2) ℂ)ᴴ *
    !![1, 1; 1, -1] = (2 : ℂ) • 1 := by
  ext i j
  fin_cases i <;> fin_cases j <;>
    simp [Matrix.mul_apply, Fin.sum_univ_two] <;> norm_num

theorem u_rz90p : (!![1 - I, 0; 0, 1 + I] : Matrix (Fin 2) (Fin 2) ℂ)ᴴ *
    !![1 - I, 0; 0, 1 + I] = (2 : ℂ) • 1 := by
  ext i j
  fin_cases i <;> fin_cases j <;>
    simp [Matrix.mul_apply, Fin.sum_univ_two] <;> (try ring_nf) <;> (try simp) <;> (try norm_num)

theorem u_rz90m : (!![1 + I, 0; 0, 1 - I] : Matrix (Fin 2) (Fin 2) ℂ)ᴴ *
    !![1 + I, 0; 0, 1 - I] = (2 : ℂ) • 1 := by
  ext i j
  fin_cases i <;> fin_cases j <;>
    simp [Matrix.mul_apply, Fin.sum_univ_two] <;> (try ring_nf) <;> (try simp) <;> (try norm_num)

theorem u_rzp : (!![-I, 0; 0, I] : Matrix (Fin 2) (Fin 2) ℂ)ᴴ *
    !![-I, 0; 0, I] = 1 := by
  ext i j
  fin_cases i <;> fin_cases j <;>
    simp [Matrix.mul_apply, Fin.sum_univ_two]

theorem u_crxp : (!![1, 0, 0, 0; 0, 1, 0, 0; 0, 0, 0, -I; 0, 0, -I, 0] : Matrix (Fin 4) (Fin 4) ℂ)ᴴ *
    !![1, 0, 0, 0; 0, 1, 0, 0; 0, 0, 0, -I; 0, 0, -I, 0] = 1 := by
  ext i j
  fin_cases i <;> fin_cases j <;>
    simp [Matrix.mul_apply, Fin.sum_univ_four]

theorem u_crzp : (!![1, 0, 0, 0; 0, 1, 0, 0; 0, 0, -I, 0; 0, 0, 0, I] : Matrix (Fin 4) (Fin 4) ℂ)ᴴ *
    !![1, 0, 0, 0; 0, 1, 0, 0; 0, 0, -I, 0; 0, 0, 0, I] = 1 := by
  ext i j
  fin_cases i <;> fin_cases j <;>
    simp [Matrix.mul_apply, Fin.sum_univ_four]

theorem u_cr : (!![0, -I, 0, 0; -I, 0, 0, 0; 0, 0, 0, I; 0, 0, I, 0] : Matrix (Fin 4) (Fin 4) ℂ)ᴴ *
    !![0, -I, 0, 0; -I, 0, 0, 0; 0, 0, 0, I; 0, 0, I, 0] = 1 := by
  ext i j
  fin_cases i <;> fin_cases j <;>
    simp [Matrix.mul_apply, Fin.sum_univ_four]

theorem u_cr90 : (!![1, -I, 0, 0; -I, 1, 0, 0; 0, 0, 1, I; 0, 0, I, 1] : Matrix (Fin 4) (Fin 4) ℂ)ᴴ *
    !![1, -I, 0, 0; -I, 1, 0, 0; 0, 0, 1, I; 0, 0, I, 1] = (2 : ℂ) • 1 := by
  ext i j
  fin_cases i <;> fin_cases j <;>
    simp [Matrix.mul_apply, Fin.sum_univ_four] <;> norm_num

theorem u_iswap : (!![1, 0, 0, 0; 0, 0, I, 0; 0, I, 0, 0; 0, 0, 0, 1] : Matrix (Fin 4) (Fin 4) ℂ)ᴴ *
    !![1, 0, 0, 0; 0, 0, I, 0; 0, I, 0, 0; 0, 0, 0, 1] = 1 := by
  ext i j
  fin_cases i <;> fin_cases j <;>
    simp [Matrix.mul_apply, Fin.sum_univ_four]

theorem u_cz : (Matrix.diagonal ![1, 1, 1, -1] : Matrix (Fin 4) (Fin 4) ℂ)ᴴ *
    Matrix.diagonal ![1, 1, 1, -1] = 1 := by
  rw [Matrix.diagonal_conjTranspose, Matrix.diagonal_mul_diagonal, ← Matrix.diagonal_one]
  congr 1
  funext i
  fin_cases i <;> simp

theorem u_ccz : (Matrix.diagonal ![1, 1, 1, 1, 1, 1, 1, -1] : Matrix (Fin 8) (Fin 8) ℂ)ᴴ *
    Matrix.diagonal ![1, 1, 1, 1, 1, 1, 1, -1] = 1 := by
  rw [Matrix.diagonal_conjTranspose, Matrix.diagonal_mul_diagonal, ← Matrix.diagonal_one]
  congr 1
  funext i
  fin_cases i <;> simp

theorem u_cx : (!![1, 0, 0, 0; 0, 0, 0, 1; 0, 0, 1, 0; 0, 1, 0, 0] : Matrix (Fin 4) (Fin 4) ℂ)ᴴ *
    !![1, 0, 0, 0; 0, 0, 0, 1; 0, 0, 1, 0; 0, 1, 0, 0] = 1 := by
  ext i j
  fin_cases i <;> fin_cases j <;>
    simp [Matrix.mul_apply, Fin.sum_univ_four]

/-- C56: every gate of the table is unitary. -/
theorem C56_unitary (g : Gate) : g.matᴴ * g.mat = 1 := by
  cases g with
  | id => exact u_id
  | rx90p => exact unitary_scaled _ u_rx90p
  | rx90m => exact unitary_scaled _ u_rx90m
  | rxp => exact u_rxp
  | ry90p => exact unitary_scaled _ u_ry90p
  | ry90m => exact unitary_scaled _ u_ry90m
  | ryp => exact u_ryp
  | x => exact u_x
  | y => exact u_y
  | h => exact unitary_scaled _ u_h
  | rz90p => exact unitary_scaled _ u_rz90p
  | rz90m => exact unitary_scaled _ u_rz90m
  | rzp => exact u_rzp
  | crxp => exact u_crxp
  | crzp => exact u_crzp
  | cr => exact u_cr
  | cr90 => exact unitary_scaled _ u_cr90
  | iswap => exact u_iswap
  | cz => exact u_cz
  | ccz => exact u_ccz
  | cx => exact u_cx

/-- C56: unitary from the other side as well. -/
theorem C56_unitary' (g : Gate) : g.mat * g.matᴴ = 1 := mul_eq_one_comm.1 (C56_unitary g)

/-- c3/libraries/constants.py:91-94. -/
noncomputable def x90p : Matrix (Fin 2) (Fin 2) ℂ := Gate.rx90p.mat
noncomputable def y90p : Matrix (Fin 2) (Fin 2) ℂ := Gate.ry90p.mat
noncomputable def x90m : Matrix (Fin 2) (Fin 2) ℂ := Gate.rx90m.mat
noncomputable def y90m : Matrix (Fin 2) (Fin 2) ℂ := Gate.ry90m.mat

/-- Abbreviations for the other 90 degree gates. -/
noncomputable def z90p : Matrix (Fin 2) (Fin 2) ℂ := Gate.rz90p.mat
noncomputable def z90m : Matrix (Fin 2) (Fin 2) ℂ := Gate.rz90m.mat

theorem x90p_eq : x90p = r2 • !![1, -I; -I, 1] := rfl
theorem y90p_eq : y90p = r2 • !![1, -1; 1, 1] := rfl
theorem x90m_eq : x90m = r2 • !![1, I; I, 1] := rfl
theorem y90m_eq : y90m = r2 • !![1, 1; -1, 1] := rfl

theorem adj_x90p : x90pᴴ = x90m := by
  rw [x90p_eq, x90m_eq, Matrix.conjTranspose_smul, r2_star]
  congr 1
  ext i j
  fin_cases i <;> fin_cases j <;> simp

theorem adj_y90p : y90pᴴ = y90m := by
  rw [y90p_eq, y90m_eq, Matrix.conjTranspose_smul, r2_star]
  congr 1
  ext i j
  fin_cases i <;> fin_cases j <;> simp

theorem adj_rz90p : (r2 • (!![1 - I, 0; 0, 1 + I] : Matrix (Fin 2) (Fin 2) ℂ))ᴴ =
    r2 • !![1 + I, 0; 0, 1 - I] := by
  rw [Matrix.conjTranspose_smul, r2_star]
  congr 1
  ext i j
  fin_cases i <;> fin_cases j <;> simp [sub_eq_add_neg]

/-- C56: the `90m` gates undo the `90p` gates, on both sides. -/
theorem C56_inverse_pairs :
    (x90m * x90p = 1 ∧ x90p * x90m = 1) ∧ (y90m * y90p = 1 ∧ y90p * y90m = 1) ∧
    (z90m * z90p = 1 ∧ z90p * z90m = 1) := by
  refine ⟨?_, ?_, ?_⟩
  · rw [← adj_x90p]
    exact ⟨C56_unitary .rx90p, C56_unitary' .rx90p⟩
  · rw [← adj_y90p]
    exact ⟨C56_unitary .ry90p, C56_unitary' .ry90p⟩
  · have h : z90m = z90pᴴ := adj_rz90p.symm
    rw [h]
    exact ⟨C56_unitary .rz90p, C56_unitary' .rz90p⟩

/-- C56: two 90 degree gates make the 180 degree gates `rxp`, `ryp` and `rzp`. -/
theorem C56_half_turns :
    x90p * x90p = Gate.rxp.mat ∧ y90p * y90p = Gate.ryp.mat ∧
      z90p * z90p = Gate.rzp.mat := by
  have key : ∀ M : Matrix (Fin 2) (Fin 2) ℂ, (r2 • M) * (r2 • M) = (1 / 2 : ℂ) • (M * M) := by
    intro M
    rw [Matrix.smul_mul, Matrix.mul_smul, smul_smul, r2_sq]
  refine ⟨?_, ?_, ?_⟩
  · rw [x90p_eq, key]
    change _ = (!![0, -I; -I, 0] : Matrix (Fin 2) (Fin 2) ℂ)
    ext i j
    fin_cases i <;> fin_cases j <;> simp <;> ring
  · rw [y90p_eq, key]
    change _ = (!![0, -1; 1, 0] : Matrix (Fin 2) (Fin 2) ℂ)
    ext i j
    fin_cases i <;> fin_cases j <;> simp <;> ring
  · change (r2 • (!![1 - I, 0; 0, 1 + I] : Matrix (Fin 2) (Fin 2) ℂ)) * (r2 • !![1 - I, 0; 0, 1 + I]) =
      (!![-I, 0; 0, I] : Matrix (Fin 2) (Fin 2) ℂ)
    rw [key]
    have hI : I ^ 2 = -1 := Complex.I_sq
    ext i j
    fin_cases i <;> fin_cases j <;> simp
    · linear_combination (1 / 2 : ℂ) * hI
    · linear_combination (1 / 2 : ℂ) * hI

/-- C56: the names in the table. -/
theorem C56_keys : allGates.map Gate.name =
    ["id", "rx90p", "rx90m", "rxp", "ry90p", "ry90m", "ryp", "x", "y", "h", "rz90p", "rz90m", "rzp", "crxp", "crzp", "cr",
      "cr90", "iswap", "cz", "ccz", "cx"] := rfl

/-- The table has an entry for every gate name, and only for those. -/
theorem C56_lookup (key : String) (g : Gate) : lookup key = some g ↔ key = g.name := by
  constructor
  · intro h
    have := List.find?_some h
    simp only [beq_iff_eq] at this
    exact this.symm
  · rintro rfl
    cases g <;> decide

/-! ### Rotations -/

/-- c3/utils/qt_utils.py:99-117 `rotation`. -/
noncomputable def rotation (phase : ℝ) (nx ny nz : ℝ) : Matrix (Fin 2) (Fin 2) ℂ :=
  (Real.cos (phase / 2) : ℂ) • !![1, 0; 0, 1] - (I * (Real.sin (phase / 2) : ℂ)) •
    ((nx : ℂ) • !![0, 1; 1, 0] + (ny : ℂ) • !![0, -I; I, 0] + (nz : ℂ) • !![1, 0; 0, -1])

/-- A matrix of the special unitary group. -/
noncomputable def su2 (a b : ℂ) : Matrix (Fin 2) (Fin 2) ℂ := !![a, b; -star b, star a]

theorem su2_unitary (a b : ℂ) (h : ‖a‖ ^ 2 + ‖b‖ ^ 2 = 1) : (su2 a b)ᴴ * su2 a b = 1 := by
  have h1 : a * star a + b * star b = 1 := by
    rw [RCLike.star_def, Complex.mul_conj, Complex.mul_conj, Complex.normSq_eq_norm_sq,
      Complex.normSq_eq_norm_sq]
    exact_mod_cast h
  rw [RCLike.star_def] at h1
  unfold su2
  ext i j
  fin_cases i <;> fin_cases j <;> simp [Matrix.mul_apply, Fin.sum_univ_two]
  · linear_combination h1
  · ring
  · ring
  · linear_combination h1

theorem rotation_eq (phase nx ny nz : ℝ) :
    rotation phase nx ny nz =
      su2 ⟨Real.cos (phase / 2), -(Real.sin (phase / 2) * nz)⟩
        ⟨-(Real.sin (phase / 2) * ny), -(Real.sin (phase / 2) * nx)⟩ := by
  unfold rotation su2
  generalize Real.cos (phase / 2) = c
  generalize Real.sin (phase / 2) = s
  ext i j
  fin_cases i <;> fin_cases j <;> apply Complex.ext <;> simp

/-- C56: rotations about a unit vector are unitary. -/
theorem C56_rotation_unitary (phase nx ny nz : ℝ) (h : nx ^ 2 + ny ^ 2 + nz ^ 2 = 1) :
    (rotation phase nx ny nz)ᴴ * rotation phase nx ny nz = 1 := by
  rw [rotation_eq]
  apply su2_unitary
  rw [← Complex.normSq_eq_norm_sq, ← Complex.normSq_eq_norm_sq, Complex.normSq_mk, Complex.normSq_mk]
  have hc := Real.cos_sq_add_sin_sq (phase / 2)
  linear_combination hc + Real.sin (phase / 2) ^ 2 * h

theorem r2_quarter : ((Real.cos (Real.pi / 2 / 2) : ℝ) : ℂ) = r2 ∧
    ((Real.sin (Real.pi / 2 / 2) : ℝ) : ℂ) = r2 := by
  have e : Real.pi / 2 / 2 = Real.pi / 4 := by ring
  have h : Real.sqrt 2 / 2 = 1 / Real.sqrt 2 := by
    rw [div_eq_div_iff (by norm_num) (by positivity), Real.mul_self_sqrt (by norm_num), one_mul]
  rw [e, Real.cos_pi_div_four, Real.sin_pi_div_four, h]
  exact ⟨rfl, rfl⟩

/-- C56: the table holds the rotations their names say: quarter and half turns about the three
axes, in the positive (`p`) or negative (`m`) direction. -/
theorem C56_named_rotations :
    x90p = rotation (Real.pi / 2) 1 0 0 ∧ x90m = rotation (-(Real.pi / 2)) 1 0 0 ∧
    y90p = rotation (Real.pi / 2) 0 1 0 ∧ y90m = rotation (-(Real.pi / 2)) 0 1 0 ∧
    z90p = rotation (Real.pi / 2) 0 0 1 ∧ z90m = rotation (-(Real.pi / 2)) 0 0 1 ∧
    Gate.rxp.mat = rotation Real.pi 1 0 0 ∧ Gate.ryp.mat = rotation Real.pi 0 1 0 ∧
    Gate.rzp.mat = rotation Real.pi 0 0 1 := by
  have hz : z90p = r2 • !![1 - I, 0; 0, 1 + I] := rfl
  have hz' : z90m = r2 • !![1 + I, 0; 0, 1 - I] := rfl
  have e : -(Real.pi / 2) / 2 = -(Real.pi / 2 / 2) := by ring
  obtain ⟨hc, hs⟩ := r2_quarter
  refine ⟨?_, ?_, ?_, ?_, ?_, ?_, ?_, ?_, ?_⟩
  · rw [x90p_eq]; unfold rotation; rw [hc, hs]
    ext i j
    fin_cases i <;> fin_cases j <;> simp [mul_comm]
  · rw [x90m_eq]; unfold rotation; rw [e, Real.cos_neg, Real.sin_neg, Complex.ofReal_neg, hc, hs]
    ext i j
    fin_cases i <;> fin_cases j <;> simp [mul_comm]
  · rw [y90p_eq]; unfold rotation; rw [hc, hs]
    ext i j
    have hI : I * (I * r2) = -r2 := by rw [← mul_assoc, Complex.I_mul_I]; ring
    fin_cases i <;> fin_cases j <;> simp [mul_comm, hI]
  · rw [y90m_eq]; unfold rotation; rw [e, Real.cos_neg, Real.sin_neg, Complex.ofReal_neg, hc, hs]
    ext i j
    have hI : I * (I * r2) = -r2 := by rw [← mul_assoc, Complex.I_mul_I]; ring
    fin_cases i <;> fin_cases j <;> simp [mul_comm, hI]
  · rw [hz]; unfold rotation; rw [hc, hs]
    ext i j
    fin_cases i <;> fin_cases j <;> simp <;> ring
  · rw [hz']; unfold rotation; rw [e, Real.cos_neg, Real.sin_neg, Complex.ofReal_neg, hc, hs]
    ext i j
    fin_cases i <;> fin_cases j <;> simp <;> ring
  · change (!![0, -I; -I, 0] : Matrix (Fin 2) (Fin 2) ℂ) = _
    unfold rotation; rw [Real.cos_pi_div_two, Real.sin_pi_div_two]
    ext i j
    fin_cases i <;> fin_cases j <;> simp
  · change (!![0, -1; 1, 0] : Matrix (Fin 2) (Fin 2) ℂ) = _
    unfold rotation; rw [Real.cos_pi_div_two, Real.sin_pi_div_two]
    ext i j
    fin_cases i <;> fin_cases j <;> simp
  · change (!![-I, 0; 0, I] : Matrix (Fin 2) (Fin 2) ℂ) = _
    unfold rotation; rw [Real.cos_pi_div_two, Real.sin_pi_div_two]
    ext i j
    fin_cases i <;> fin_cases j <;> simp

example : (0.6 : ℝ) ^ 2 + 0 ^ 2 + 0.8 ^ 2 = 1 := by norm_num

end C3.Gates
