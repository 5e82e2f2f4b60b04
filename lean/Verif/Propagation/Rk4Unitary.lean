import Verif.Propagation.RungeKutta
import Mathlib.Tactic.NoncommRing
import Mathlib.LinearAlgebra.Matrix.Notation

/-!
# The propagation method `rk4_unitary` (C136)

c3/libraries/propagation.py:71-101, 222-256. The Hamiltonians `hs` of the samples are the input
(`get_hs_of_t_ts`), `dt` is the distance of every other time stamp.
-/

namespace C3.Propagation

open Matrix

variable {n : Type*} [Fintype n] [DecidableEq n]

/-! ## Model -/

/-- c3/libraries/propagation.py:35-36 `step_vonNeumann_psi`. -/
noncomputable def stepPsi (psi : n → ℂ) (h : Matrix n n ℂ) (dt : ℂ) : n → ℂ :=
  (-Complex.I * dt) • (h *ᵥ psi)

/-- c3/libraries/propagation.py:95-101 `rk4_step`. -/
noncomputable def rk4StepPsi (h : ℕ → Matrix n n ℂ) (psi : n → ℂ) (dt : ℂ) : n → ℂ :=
  let k1 := stepPsi psi (h 0) dt
  let k2 := stepPsi (psi + (2 : ℂ)⁻¹ • k1) (h 1) dt
  let k3 := stepPsi (psi + (2 : ℂ)⁻¹ • k2) (h 1) dt
  let k4 := stepPsi (psi + k3) (h 2) dt
  psi + (6 : ℂ)⁻¹ • (k1 + (2 : ℂ) • k2 + (2 : ℂ) • k3 + k4)

/-- `range(0, stop, 2)`. -/
def range2 (stop : ℕ) : List ℕ := (List.range ((stop + 1) / 2)).map (2 * ·)

/-- The slice `h[jj : jj + 3]`, read at an index. -/
def slice3 (hs : List (Matrix n n ℂ)) (jj : ℕ) : ℕ → Matrix n n ℂ := fun i => hs.getD (jj + i) 0

/-- c3/libraries/propagation.py:85-92 `gen_du_rk4`: the propagated basis vectors are stacked, so they
are the *rows*. -/
noncomputable def genDuRk4 (h : ℕ → Matrix n n ℂ) (dt : ℂ) : Matrix n n ℂ :=
  Matrix.of fun ii => rk4StepPsi h (Pi.single ii 1) dt

/-- c3/libraries/propagation.py:71-82 `gen_dus_rk4`. -/
noncomputable def genDusRk4 (hs : List (Matrix n n ℂ)) (dt : ℂ) : List (Matrix n n ℂ) :=
  (range2 (hs.length - 2)).map fun jj => genDuRk4 (slice3 hs jj) dt

/-- c3/libraries/propagation.py:246-256 `gen_u_rk4`: as above for the whole gate, transposed at the
end. -/
noncomputable def genURk4 (hs : List (Matrix n n ℂ)) (dt : ℂ) : Matrix n n ℂ :=
  (Matrix.of fun ii => (range2 (hs.length - 2)).foldl
    (fun psi jj => rk4StepPsi (slice3 hs jj) psi dt) (Pi.single ii 1))ᵀ

/-! ## Specification -/

/-- The classical Runge-Kutta step of fourth order for `ψ' = A(t) ψ` with the generator (times the
step size) `a` at the beginning, `b` in the middle and `c` at the end, multiplied out. -/
noncomputable def classicStep (a b c : Matrix n n ℂ) : Matrix n n ℂ :=
  1 + (6 : ℂ)⁻¹ • (a + (4 : ℂ) • b + c) + (6 : ℂ)⁻¹ • (b * a + b * b + c * b)
    + (12 : ℂ)⁻¹ • (b * b * a + c * b * b) + (24 : ℂ)⁻¹ • (c * b * b * a)

/-- The generator of the Schrödinger equation times the step size. -/
noncomputable def genAt (h : Matrix n n ℂ) (dt : ℂ) : Matrix n n ℂ := (-Complex.I * dt) • h

/-- The step of the `j`-th pair of samples. -/
noncomputable def stepOf (hs : List (Matrix n n ℂ)) (dt : ℂ) (j : ℕ) : Matrix n n ℂ :=
  classicStep (genAt (hs.getD (2 * j) 0) dt) (genAt (hs.getD (2 * j + 1) 0) dt)
    (genAt (hs.getD (2 * j + 2) 0) dt)

/-! ## C136 -/

theorem rk4StepPsi_eq (h : ℕ → Matrix n n ℂ) (psi : n → ℂ) (dt : ℂ) :
    rk4StepPsi h psi dt =
      classicStep (genAt (h 0) dt) (genAt (h 1) dt) (genAt (h 2) dt) *ᵥ psi := by
  have hs : ∀ (psi : n → ℂ) (h : Matrix n n ℂ), stepPsi psi h dt = genAt h dt *ᵥ psi := by
    intro psi h
    rw [stepPsi, genAt, smul_mulVec]
  simp only [rk4StepPsi, hs, classicStep]
  generalize genAt (h 0) dt = a
  generalize genAt (h 1) dt = b
  generalize genAt (h 2) dt = c
  simp only [mulVec_add, mulVec_smul, add_mulVec, smul_mulVec, mulVec_mulVec, one_mulVec, mul_assoc]
  module

theorem range2_eq (N : ℕ) : range2 (N - 2) = (List.range ((N - 1) / 2)).map (2 * ·) := by
  unfold range2
  congr 2
  rcases N with _ | _ | N
  · rfl
  · rfl
  · simp

theorem foldl_mulVec (f : ℕ → Matrix n n ℂ) (l : List ℕ) (v : n → ℂ) :
    l.foldl (fun psi j => f j *ᵥ psi) v = Fold.timeOrdered (l.map f) *ᵥ v := by
  induction l generalizing v with
  | nil => simp [Fold.timeOrdered]
  | cons j l ih =>
    rw [List.foldl_cons, ih]
    simp [Fold.timeOrdered, mulVec_mulVec]

/-- **C136**, what holds: the gate is the time-ordered product of the classical Runge-Kutta steps, one
for each pair of samples. Missing: the partial propagators and the time covered, see the negations. -/
theorem C136_gate_partial (hs : List (Matrix n n ℂ)) (dt : ℂ) :
    genURk4 hs dt =
      Fold.timeOrdered ((List.range ((hs.length - 1) / 2)).map (stepOf hs dt)) := by
  ext i j
  rw [genURk4, transpose_apply, of_apply, range2_eq, List.foldl_map]
  simp only [rk4StepPsi_eq]
  have := foldl_mulVec (stepOf hs dt) (List.range ((hs.length - 1) / 2)) (Pi.single j 1)
  simp only [stepOf] at this
  simp only [slice3, Nat.add_zero]
  rw [this]
  simp [mulVec_single]

/-- C136 for a constant Hamiltonian: every step is the Taylor polynomial of degree four of
`exp(-i H dt)`. -/
theorem C136_constant_partial (H : Matrix n n ℂ) (N : ℕ) (dt : ℂ) :
    genURk4 (List.replicate N H) dt =
      (∑ k ∈ Finset.range 5, ((k.factorial : ℂ)⁻¹) • (genAt H dt) ^ k) ^ ((N - 1) / 2) := by
  rw [C136_gate_partial, List.length_replicate]
  have h1 : (List.range ((N - 1) / 2)).map (stepOf (List.replicate N H) dt) =
      List.replicate ((N - 1) / 2) (∑ k ∈ Finset.range 5, ((k.factorial : ℂ)⁻¹) • (genAt H dt) ^ k) := by
    rw [List.eq_replicate_iff]
    refine ⟨by simp, ?_⟩
    intro b hb
    obtain ⟨j, hj, rfl⟩ := List.mem_map.1 hb
    rw [List.mem_range] at hj
    have e : ∀ i, i < N → (List.replicate N H).getD i 0 = H := by
      intro i hi
      simp [List.getD_eq_getElem?_getD, hi]
    rw [stepOf, e _ (by omega), e _ (by omega), e _ (by omega)]
    generalize genAt H dt = a
    simp only [classicStep, Finset.sum_range_succ, Finset.sum_range_zero, Nat.factorial, pow_succ,
      pow_zero, one_mul]
    push_cast
    module
  rw [h1, Fold.timeOrdered, List.reverse_replicate, List.prod_replicate]

/-- The partial propagators are the transposed steps. -/
theorem genDusRk4_eq (hs : List (Matrix n n ℂ)) (dt : ℂ) :
    genDusRk4 hs dt = (List.range ((hs.length - 1) / 2)).map fun j => (stepOf hs dt j)ᵀ := by
  rw [genDusRk4, range2_eq, List.map_map]
  apply List.map_congr_left
  intro j _
  ext a b
  simp only [Function.comp_apply, genDuRk4, of_apply, rk4StepPsi_eq, slice3, Nat.add_zero,
    transpose_apply, stepOf]
  simp [mulVec_single]

/-- **C136**, what holds for the partial propagators: the gate is the *transposed* product in the
*opposite* order. -/
theorem C136_transposed (hs : List (Matrix n n ℂ)) (dt : ℂ) :
    genURk4 hs dt = (genDusRk4 hs dt).prodᵀ := by
  rw [C136_gate_partial, genDusRk4_eq, Fold.timeOrdered, ← List.map_reverse]
  generalize List.range ((hs.length - 1) / 2) = l
  induction l with
  | nil => simp
  | cons j l ih =>
    rw [List.map_cons, List.prod_cons, transpose_mul, transpose_transpose, ← ih]
    simp

/-- **C136 is false** for the partial propagators: their time-ordered product is not the gate. Three
samples of the Hamiltonian `σ_y`. -/
theorem C136_false_dus : ∃ (hs : List (Matrix (Fin 2) (Fin 2) ℂ)),
    (∀ h ∈ hs, h.IsHermitian) ∧ genURk4 hs 1 ≠ Fold.timeOrdered (genDusRk4 hs 1) := by
  refine ⟨List.replicate 3 !![0, -Complex.I; Complex.I, 0], ?_, ?_⟩
  · intro h hh
    rw [List.eq_of_mem_replicate hh]
    ext i j
    fin_cases i <;> fin_cases j <;> simp [conjTranspose_apply]
  · intro h
    rw [C136_transposed] at h
    have hl : genDusRk4 (List.replicate 3 !![0, -Complex.I; Complex.I, 0]) 1 =
        [(stepOf (List.replicate 3 !![0, -Complex.I; Complex.I, 0]) 1 0)ᵀ] := by
      rw [genDusRk4_eq]; simp
    rw [hl] at h
    simp only [List.prod_singleton, transpose_transpose, Fold.timeOrdered, List.reverse_singleton] at h
    have h01 := congrFun (congrFun h 0) 1
    have hg : genAt (!![0, -Complex.I; Complex.I, 0] : Matrix (Fin 2) (Fin 2) ℂ) 1 = !![0, -1; 1, 0] := by
      ext i j
      fin_cases i <;> fin_cases j <;> simp [genAt]
    simp only [stepOf, List.replicate, List.getD_cons_zero, List.getD_cons_succ, Nat.mul_zero, Nat.zero_add,
      hg, classicStep, transpose_apply] at h01
    simp [Matrix.one_fin_two] at h01
    norm_num at h01

/-- **C136 is false** for the time covered: with an even number of samples the last one has no
influence. -/
theorem C136_false_last (hs : List (Matrix n n ℂ)) (x : Matrix n n ℂ) (dt : ℂ)
    (hodd : hs.length % 2 = 1) : genURk4 (hs ++ [x]) dt = genURk4 hs dt := by
  rw [C136_gate_partial, C136_gate_partial]
  have hl : (hs ++ [x]).length = hs.length + 1 := by simp
  rw [hl, show (hs.length + 1 - 1) / 2 = (hs.length - 1) / 2 by omega]
  congr 1
  apply List.map_congr_left
  intro j hj
  rw [List.mem_range] at hj
  have e : ∀ i, i < hs.length → (hs ++ [x]).getD i 0 = hs.getD i 0 := by
    intro i hi
    simp [List.getD_eq_getElem?_getD, List.getElem?_append_left hi]
  rw [stepOf, stepOf, e _ (by omega), e _ (by omega), e _ (by omega)]

/-- **C136 is false** for the time covered, in numbers: with `N` samples at distance `δ` the steps of
size `dt = 2 δ` cover at most `(N - 1) δ`, one sample less than the gate. -/
theorem C136_false_duration (hs : List (Matrix n n ℂ)) (hne : hs ≠ []) (dt : ℂ) (δ : ℝ) (hδ : 0 < δ) :
    ((genDusRk4 hs dt).length : ℝ) * (2 * δ) < hs.length * δ := by
  rw [genDusRk4_eq, List.length_map, List.length_range]
  have h0 : 0 < hs.length := List.length_pos_of_ne_nil hne
  have h1 : (((hs.length - 1) / 2 : ℕ) : ℝ) * 2 ≤ ((hs.length - 1 : ℕ) : ℝ) := by
    exact_mod_cast Nat.div_mul_le_self _ 2
  have h2 : ((hs.length - 1 : ℕ) : ℝ) = hs.length - 1 := by
    rw [Nat.cast_sub h0]; simp
  nlinarith

/-! ## Examples -/

example : genURk4 (List.replicate 5 (0 : Matrix (Fin 2) (Fin 2) ℂ)) 1 = 1 := by
  rw [C136_constant_partial]
  simp [Finset.sum_range_succ, genAt]

example : (genDusRk4 (List.replicate 6 (0 : Matrix (Fin 2) (Fin 2) ℂ)) 1).length = 2 := by
  rw [genDusRk4_eq]; simp

end C3.Propagation
