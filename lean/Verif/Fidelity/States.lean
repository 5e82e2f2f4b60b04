import Verif.Fidelity.Haar
import Verif.Fidelity.Chi

/-!
# C208: basis states and the six states on the axes

`basis`, `xy_basis` and `expand_dims` (c3/utils/qt_utils.py:47-55, 120-175).
-/

namespace C3.Fidelity.States

open Matrix MeasureTheory C3.Fidelity.Haar

noncomputable section

/-! ## Model -/

/-- c3/utils/qt_utils.py:47-55 `expand_dims`: `none` if the operator does not fit, because numpy refuses the
assignment. A single entry assigned to an empty matrix is no error. -/
def expandDims {d : ℕ} (op : Matrix (Fin d) (Fin d) ℂ) (dim : ℕ) : Option (Matrix (Fin dim) (Fin dim) ℂ) :=
  if d ≤ dim ∨ d = 1 then
    some fun i j => if h : (i : ℕ) < d ∧ (j : ℕ) < d then op ⟨i, h.1⟩ ⟨j, h.2⟩ else 0
  else none

/-- c3/utils/qt_utils.py:120-138 `basis`: zeros with a one at the entry; `none` is the `IndexError`. Negative
entries are left out, and the state is a function of the level in place of a matrix with one column. -/
def basis (lvls pop : ℕ) : Option (Fin lvls → ℂ) :=
  if pop < lvls then some fun i => if (i : ℕ) = pop then 1 else 0 else none

/-- The answers of `xy_basis`: an exception, a message with `None` as result, or a state. -/
inductive Answer (lvls : ℕ) where
  | error
  | nothing
  | state (psi : Fin lvls → ℂ)

/-- c3/utils/qt_utils.py:141-175 `xy_basis`. The table of all six states is built before the lookup. -/
def xyBasis (lvls : ℕ) (vect : String) : Answer lvls :=
  match basis lvls 0, basis lvls 1 with
  | some g, some e =>
    let s : ℂ := (Real.sqrt 2 : ℝ)
    if vect = "zm" then .state g
    else if vect = "zp" then .state e
    else if vect = "xp" then .state fun i => (g i + e i) / s
    else if vect = "xm" then .state fun i => (g i - e i) / s
    else if vect = "yp" then .state fun i => (g i + Complex.I * e i) / s
    else if vect = "ym" then .state fun i => (g i - Complex.I * e i) / s
    else .nothing
  | _, _ => .error

/-! ## Specification -/

/-- A pure state of `lvls` levels with amplitudes `a` and `b` on the lowest two and none elsewhere. -/
def two (lvls : ℕ) (a b : ℂ) : Fin lvls → ℂ := fun i => if (i : ℕ) = 0 then a else if (i : ℕ) = 1 then b else 0

/-- The state that is called `v`; zero if there is none. -/
def named (lvls : ℕ) (v : String) : Fin lvls → ℂ :=
  match xyBasis lvls v with
  | .state psi => psi
  | _ => 0

/-- The Pauli matrices of c3/libraries/constants.py:24-26. -/
def sx : Matrix (Fin 2) (Fin 2) ℂ := !![0, 1; 1, 0]
def sy : Matrix (Fin 2) (Fin 2) ℂ := !![0, -Complex.I; Complex.I, 0]
def sz : Matrix (Fin 2) (Fin 2) ℂ := !![1, 0; 0, -1]

/-- `psi` is an eigenvector of `P`, padded with zeros to all levels, with eigenvalue `c`. -/
def Eigen {lvls : ℕ} (P : Matrix (Fin 2) (Fin 2) ℂ) (c : ℂ) (psi : Fin lvls → ℂ) : Prop :=
  ∃ M, expandDims P lvls = some M ∧ M *ᵥ psi = c • psi

/-- C208: `expand_dims` pads with zeros, and refuses to cut; only a single entry goes into an empty matrix. -/
theorem C208_expand {d : ℕ} (op : Matrix (Fin d) (Fin d) ℂ) (dim : ℕ) :
    (d ≤ dim → ∃ M, expandDims op dim = some M ∧
      (∀ i j : Fin dim, (hi : (i : ℕ) < d) → (hj : (j : ℕ) < d) → M i j = op ⟨i, hi⟩ ⟨j, hj⟩) ∧
      ∀ i j : Fin dim, d ≤ (i : ℕ) ∨ d ≤ (j : ℕ) → M i j = 0) ∧
    (dim < d → d ≠ 1 → expandDims op dim = none) ∧ (d = 1 → ∃ M, expandDims op dim = some M) := by
  refine ⟨fun h => ⟨_, if_pos (Or.inl h), ?_, ?_⟩, fun h h1 => if_neg (by omega), fun h => ⟨_, if_pos (Or.inr h)⟩⟩
  · intro i j hi hj
    exact dif_pos ⟨hi, hj⟩
  · intro i j hij
    exact dif_neg (by omega)

/-- C208: `basis` gives the unit vector of the level, if there is such a level. -/
theorem C208_basis (lvls pop : ℕ) : (∀ h : pop < lvls, basis lvls pop = some (Pi.single ⟨pop, h⟩ 1)) ∧
    (lvls ≤ pop → basis lvls pop = none) := by
  constructor
  · intro h
    rw [basis, if_pos h]
    congr 1
    funext i
    simp [Pi.single_apply, Fin.ext_iff]
  · intro h
    exact if_neg (by omega)

/-- The amplitudes of the six states. -/
def amps : List (String × ℂ × ℂ) :=
  let r : ℂ := 1 / (Real.sqrt 2 : ℝ)
  [("zm", 1, 0), ("zp", 0, 1), ("xp", r, r), ("xm", r, -r), ("yp", r, Complex.I * r), ("ym", r, -(Complex.I * r))]

/-- C208: the six states for any number of levels, and what is returned for other names and for fewer levels. -/
theorem C208_states (lvls : ℕ) : (2 ≤ lvls → (∀ x ∈ amps, xyBasis lvls x.1 = .state (two lvls x.2.1 x.2.2)) ∧
      ∀ v, v ∉ amps.map Prod.fst → xyBasis lvls v = .nothing) ∧
    (lvls < 2 → ∀ v, xyBasis lvls v = .error) := by
  constructor
  · intro h
    have h0 : basis lvls 0 = some fun i : Fin lvls => if (i : ℕ) = 0 then 1 else 0 := if_pos (by omega)
    have h1 : basis lvls 1 = some fun i : Fin lvls => if (i : ℕ) = 1 then 1 else 0 := if_pos (by omega)
    constructor
    · intro x hx
      simp only [amps, List.mem_cons, List.not_mem_nil, or_false] at hx
      rcases hx with rfl | rfl | rfl | rfl | rfl | rfl <;> simp only [xyBasis, h0, h1] <;>
        simp <;> funext i <;> unfold two <;> by_cases hi : (i : ℕ) = 0 <;> by_cases hj : (i : ℕ) = 1 <;>
        simp [hi, hj] <;> first | omega | (simp only [div_eq_mul_inv] <;> ring)
    · intro v hv
      simp only [amps, List.map_cons, List.map_nil, List.mem_cons, List.not_mem_nil, or_false, not_or] at hv
      simp [xyBasis, h0, h1, hv]
  · intro h v
    have h1 : basis lvls 1 = none := if_neg (by omega)
    unfold xyBasis
    rw [h1]
    cases basis lvls 0 <;> rfl

theorem two_dot {m : ℕ} (a b c d : ℂ) : star (two (m + 2) a b) ⬝ᵥ two (m + 2) c d = star a * c + star b * d := by
  simp only [dotProduct, Fin.sum_univ_succ, two, Pi.star_apply]
  simp

theorem two_eigen {m : ℕ} (P : Matrix (Fin 2) (Fin 2) ℂ) (a b c : ℂ) (h0 : P 0 0 * a + P 0 1 * b = c * a)
    (h1 : P 1 0 * a + P 1 1 * b = c * b) : Eigen P c (two (m + 2) a b) := by
  obtain ⟨M, hM, hin, hout⟩ := (C208_expand P (m + 2)).1 (by omega)
  refine ⟨M, hM, ?_⟩
  funext i
  simp only [mulVec, dotProduct, Fin.sum_univ_succ, two, Pi.smul_apply, smul_eq_mul]
  have e0 : ((0 : Fin (m + 2)) : ℕ) = 0 := rfl
  have e1 : ((Fin.succ (0 : Fin (m + 1)) : Fin (m + 2)) : ℕ) = 1 := rfl
  simp only [e0, e1, Fin.val_succ]
  simp only [if_true, one_ne_zero, if_false, Nat.add_eq_zero_iff, and_false, Nat.add_eq_right, mul_zero,
    Finset.sum_const_zero, add_zero]
  by_cases hi : (i : ℕ) < 2
  · rw [hin i 0 hi (by simp), hin i (Fin.succ 0) hi (by simp)]
    have : (i : ℕ) = 0 ∨ (i : ℕ) = 1 := by omega
    rcases this with h | h
    · have hi0 : (⟨i, hi⟩ : Fin 2) = 0 := Fin.ext h
      rw [hi0, if_pos h]
      exact h0
    · have hi1 : (⟨i, hi⟩ : Fin 2) = 1 := Fin.ext h
      rw [hi1, if_neg (by omega), if_pos h]
      exact h1
  · rw [hout i 0 (Or.inl (by omega)), hout i (Fin.succ 0) (Or.inl (by omega)), if_neg (by omega), if_neg (by omega)]
    simp

theorem named_eq {lvls : ℕ} (h : 2 ≤ lvls) {x : String × ℂ × ℂ} (hx : x ∈ amps) :
    named lvls x.1 = two lvls x.2.1 x.2.2 := by
  unfold named
  rw [((C208_states lvls).1 h).1 x hx]

/-- C208: the states on the x- and y-axis are eigenstates of the Pauli matrix of the axis, with the sign of their
name. Missing: the states on the z-axis, whose names are swapped, see `C208_false_z`. -/
theorem C208_axes_partial (lvls : ℕ) (h : 2 ≤ lvls) :
    Eigen sx 1 (named lvls "xp") ∧ Eigen sx (-1) (named lvls "xm") ∧
    Eigen sy 1 (named lvls "yp") ∧ Eigen sy (-1) (named lvls "ym") := by
  obtain ⟨m, rfl⟩ : ∃ m, lvls = m + 2 := ⟨lvls - 2, by omega⟩
  have e : ∀ x ∈ amps, named (m + 2) x.1 = two (m + 2) x.2.1 x.2.2 := fun x hx => named_eq h hx
  simp only [amps, List.mem_cons, List.not_mem_nil, or_false, forall_eq_or_imp, forall_eq] at e
  obtain ⟨-, -, exp, exm, eyp, eym⟩ := e
  rw [exp, exm, eyp, eym]
  refine ⟨two_eigen _ _ _ _ ?_ ?_, two_eigen _ _ _ _ ?_ ?_, two_eigen _ _ _ _ ?_ ?_, two_eigen _ _ _ _ ?_ ?_⟩ <;>
    simp [sx, sy, ← mul_assoc]

/-- C208: the state called "zp" is the eigenstate of the Pauli matrix Z with eigenvalue minus one, and is no
eigenstate with eigenvalue plus one; "zm" is the one with plus one. -/
theorem C208_false_z (lvls : ℕ) (h : 2 ≤ lvls) : Eigen sz (-1) (named lvls "zp") ∧ Eigen sz 1 (named lvls "zm") ∧
    ¬ Eigen sz 1 (named lvls "zp") := by
  obtain ⟨m, rfl⟩ : ∃ m, lvls = m + 2 := ⟨lvls - 2, by omega⟩
  have e : ∀ x ∈ amps, named (m + 2) x.1 = two (m + 2) x.2.1 x.2.2 := fun x hx => named_eq h hx
  simp only [amps, List.mem_cons, List.not_mem_nil, or_false, forall_eq_or_imp, forall_eq] at e
  obtain ⟨ezm, ezp, -⟩ := e
  rw [ezm, ezp]
  have hp : Eigen sz (-1) (two (m + 2) 0 1) := two_eigen _ _ _ _ (by simp [sz]) (by simp [sz])
  refine ⟨hp, two_eigen _ _ _ _ (by simp [sz]) (by simp [sz]), ?_⟩
  rintro ⟨M, hM, h1⟩
  obtain ⟨M', hM', h2⟩ := hp
  obtain rfl : M = M' := Option.some.inj (hM.symm.trans hM')
  have := congrFun (h1.symm.trans h2) 1
  simp [two] at this
  norm_num at this

theorem r_sq : ((1 : ℂ) / (Real.sqrt 2 : ℝ)) * (1 / (Real.sqrt 2 : ℝ)) = 1 / 2 := by
  rw [div_mul_div_comm, ← Complex.ofReal_mul, Real.mul_self_sqrt (by norm_num)]
  norm_num

/-- C208: the six states are normalised, the two states of an axis are orthogonal, and states of different axes
have overlap one half. -/
theorem C208_unbiased (lvls : ℕ) (h : 2 ≤ lvls) (x y : String × ℂ × ℂ) (hx : x ∈ amps) (hy : y ∈ amps) :
    Complex.normSq (star (named lvls x.1) ⬝ᵥ named lvls y.1) =
      if x.1 = y.1 then 1 else if x.1.toList.head? = y.1.toList.head? then 0 else 1 / 2 := by
  obtain ⟨m, rfl⟩ : ∃ m, lvls = m + 2 := ⟨lvls - 2, by omega⟩
  rw [named_eq h hx, named_eq h hy, two_dot]
  have hr : (Real.sqrt 2)⁻¹ * (Real.sqrt 2)⁻¹ = 1 / 2 := by
    rw [← mul_inv, Real.mul_self_sqrt (by norm_num)]; norm_num
  generalize hrr : (Real.sqrt 2)⁻¹ = r at hr
  simp only [amps, List.mem_cons, List.not_mem_nil, or_false, one_div] at hx hy
  rw [← Complex.ofReal_inv, hrr] at hx hy
  rcases hx with rfl | rfl | rfl | rfl | rfl | rfl <;> rcases hy with rfl | rfl | rfl | rfl | rfl | rfl <;>
    simp [Complex.normSq_apply] <;> nlinarith [hr]

/-- C208: the mean over the six states of a qubit of the probability to find `ψ` after `M` equals the mean over all
states. -/
theorem C208_design (M : Matrix (Fin 2) (Fin 2) ℂ) (μ : Measure (Fin 2 → ℂ)) (hμ : IsUniform μ) :
    (amps.map fun x => ‖star (named 2 x.1) ⬝ᵥ (M *ᵥ named 2 x.1)‖ ^ 2).sum / 6 = meanFid μ M := by
  have e : ∀ x ∈ amps, named 2 x.1 = two 2 x.2.1 x.2.2 := fun x hx => named_eq le_rfl hx
  rw [meanFid_value hμ]
  have hv : ∀ a b : ℂ, star (two 2 a b) ⬝ᵥ (M *ᵥ two 2 a b) =
      star a * (M 0 0 * a + M 0 1 * b) + star b * (M 1 0 * a + M 1 1 * b) := by
    intro a b
    simp [dotProduct, mulVec, Fin.sum_univ_two, two]
  have hl : (amps.map fun x => ‖star (named 2 x.1) ⬝ᵥ (M *ᵥ named 2 x.1)‖ ^ 2) = amps.map fun x =>
      ‖star x.2.1 * (M 0 0 * x.2.1 + M 0 1 * x.2.2) + star x.2.2 * (M 1 0 * x.2.1 + M 1 1 * x.2.2)‖ ^ 2 :=
    List.map_congr_left fun x hx => by rw [e x hx, hv]
  rw [hl]
  have hr : (Real.sqrt 2)⁻¹ * (Real.sqrt 2)⁻¹ = 1 / 2 := by
    rw [← mul_inv, Real.mul_self_sqrt (by norm_num)]; norm_num
  generalize hrr : (Real.sqrt 2)⁻¹ = r at hr
  simp only [amps, one_div, List.map_cons, List.map_nil, List.sum_cons, List.sum_nil]
  rw [← Complex.ofReal_inv, hrr]
  simp only [← Complex.normSq_eq_norm_sq, Matrix.trace, Fin.sum_univ_two, diag_apply, Fintype.card_fin]
  generalize M 0 0 = a; generalize M 0 1 = b; generalize M 1 0 = c; generalize M 1 1 = d
  have h2 : r ^ 2 = 1 / 2 := by rw [pow_two]; exact hr
  have h4 : r ^ 4 = 1 / 4 := by rw [show r ^ 4 = (r ^ 2) ^ 2 by ring, h2]; norm_num
  simp [Complex.normSq_apply]
  ring_nf
  rw [h4]
  ring

/-- The claims are not empty: a state on the x-axis of a qutrit, and the mean of the identity. -/
example : named 3 "xp" = two 3 (1 / (Real.sqrt 2 : ℝ)) (1 / (Real.sqrt 2 : ℝ)) :=
  named_eq (x := ("xp", 1 / (Real.sqrt 2 : ℝ), 1 / (Real.sqrt 2 : ℝ))) (by norm_num) (by simp [amps])

example : ∃ μ : Measure (Fin 2 → ℂ), IsUniform μ := C206_exists 2 (by norm_num)

end
end C3.Fidelity.States
