import Verif.Fidelity.Decay
import Verif.Propagation.Lindblad
import Mathlib.LinearAlgebra.Matrix.PosDef

/-!
# C228: what `leakage_RB` finds for gates that leak
-/

set_option linter.unusedSectionVars false

namespace C3.Fidelity.Leakage

open Matrix C3.Gates C3.Fidelity C3.Fidelity.Twirl C3.Fidelity.Decay C3.Fold C3.Propagation
open scoped ComplexOrder

/-! ## Model -/

/-- The data of c3/libraries/fidelities.py:633-643 (`leakage_RB` with `lindbladian=True`) for one length: `single_length_RB` is
called with its default target 0, the state is the first unit vector (`basis(dim, 0)` for the dimension of the
superoperator), and `populations` (483-493) takes the absolute values of the entries `n * dim + n`, here `(n, n)`. -/
noncomputable def leakageRow {d : ℕ} (propagators : List (String × Matrix (Fin (d + 2) × Fin (d + 2)) (Fin (d + 2) × Fin (d + 2)) ℂ))
    (draws : List (List ℕ)) : Option (List (ℝ × ℝ)) := do
  let seqs ← singleLengthRB draws 0
  match evaluateSequences propagators seqs with
  | .error _ => none
  | .ok Us => some (Us.map fun U => leakagePoint false fun n => ‖(U *ᵥ Pi.single (0, 0) 1) (n, n)‖)

/-- c3/libraries/fidelities.py:645-646 `RB_leakage`. -/
noncomputable def rbLeakage (len : ℕ) (rLeak aLeak bLeak : ℝ) : ℝ := aLeak + bLeak * rLeak ^ len

/-- c3/libraries/fidelities.py:695-696 `RB_surv`, with the `B_leak` and `r_leak` of the first fit. -/
noncomputable def rbSurv (bLeak rLeak : ℝ) (len : ℕ) (r A C : ℝ) : ℝ := A + bLeak * rLeak ^ len + C * r ^ len

/-! ## Specification: gates that leak -/

/-- The computational part of a state of three levels. -/
def part (ρ : Matrix (Fin 3) (Fin 3) ℂ) : Matrix (Fin 2) (Fin 2) ℂ := ρ.submatrix Fin.castSucc Fin.castSucc

/-- The state of three levels with computational part `X` and population `q` of the third level. -/
def put (X : Matrix (Fin 2) (Fin 2) ℂ) (q : ℂ) : Matrix (Fin 3) (Fin 3) ℂ :=
  !![X 0 0, X 0 1, 0; X 1 0, X 1 1, 0; 0, 0, q]

/-- A gate `V` on the computational levels that leaks: with probability `a` the state is lost to the third level, with
probability `b` it comes back from there to a random computational state, the rest is carried out with the Bloch vector
shortened to `l` of its length. -/
noncomputable def channel (V : Matrix (Fin 2) (Fin 2) ℂ) (a b l : ℝ) : Matrix (Fin 3) (Fin 3) ℂ →ₗ[ℂ] Matrix (Fin 3) (Fin 3) ℂ where
  toFun ρ := put ((l : ℂ) • (V * part ρ * Vᴴ) + ((1 - a - l) * (part ρ).trace / 2 + b * ρ 2 2 / 2) • 1)
    (a * (part ρ).trace + (1 - b) * ρ 2 2)
  map_add' ρ σ := by
    have h : part (ρ + σ) = part ρ + part σ := rfl
    rw [h, Matrix.mul_add, Matrix.add_mul, Matrix.trace_add]
    ext i j
    fin_cases i <;> fin_cases j <;> simp [put] <;> ring
  map_smul' c ρ := by
    have h : part (c • ρ) = c • part ρ := rfl
    rw [h, Matrix.mul_smul, Matrix.smul_mul, Matrix.trace_smul]
    ext i j
    fin_cases i <;> fin_cases j <;> simp [put] <;> ring

/-- The superoperator of a linear map of density matrices, which acts on their rows one after the other. -/
noncomputable def superOf (L : Matrix (Fin 3) (Fin 3) ℂ →ₗ[ℂ] Matrix (Fin 3) (Fin 3) ℂ) : Matrix (Fin 3 × Fin 3) (Fin 3 × Fin 3) ℂ :=
  Matrix.of fun p q => L (Matrix.single q.1 q.2 1) p.1 p.2

/-- The propagator of a leaking gate. -/
noncomputable def leaky (V : Matrix (Fin 2) (Fin 2) ℂ) (a b l : ℝ) : Matrix (Fin 3 × Fin 3) (Fin 3 × Fin 3) ℂ :=
  superOf (channel V a b l)

/-- What a superoperator makes of a density matrix. -/
noncomputable def out (S : Matrix (Fin 3 × Fin 3) (Fin 3 × Fin 3) ℂ) (ρ : Matrix (Fin 3) (Fin 3) ℂ) : Matrix (Fin 3) (Fin 3) ℂ :=
  Matrix.of fun i j => (S *ᵥ rowVec ρ) (i, j)

/-- The leakage of an operation: the population of the third level after it, from the completely mixed computational
state. -/
noncomputable def leakOf (S : Matrix (Fin 3 × Fin 3) (Fin 3 × Fin 3) ℂ) : ℝ := (out S (put ((1 / 2 : ℂ) • 1) 0) 2 2).re

/-- The seepage of an operation: the population of the computational levels after it, from the third level. -/
noncomputable def seepOf (S : Matrix (Fin 3 × Fin 3) (Fin 3 × Fin 3) ℂ) : ℝ := (part (out S (put 0 1))).trace.re

/-- The average fidelity of an operation with a gate on the computational levels: the mean overlap over the six states on the
axes. -/
noncomputable def fidOf (W : Matrix (Fin 2) (Fin 2) ℂ) (S : Matrix (Fin 3 × Fin 3) (Fin 3 × Fin 3) ℂ) : ℝ :=
  sumAxes (fun s => (W * (s : Matrix (Fin 2) (Fin 2) ℂ) * Wᴴ * part (out S (put s 0))).trace.re) / 6

/-- The operation of a Clifford: those of its gates, one after the other. -/
noncomputable def cliffSuper (op : G4 → Matrix (Fin 3 × Fin 3) (Fin 3 × Fin 3) ℂ) (c : Cl) : Matrix (Fin 3 × Fin 3) (Fin 3 × Fin 3) ℂ :=
  timeOrdered (c.word.map op)

/-! ## Sequences of leaking gates -/

theorem part_put (X : Matrix (Fin 2) (Fin 2) ℂ) (q : ℂ) : part (put X q) = X := by
  ext i j
  fin_cases i <;> fin_cases j <;> rfl

theorem superOf_mulVec (L : Matrix (Fin 3) (Fin 3) ℂ →ₗ[ℂ] Matrix (Fin 3) (Fin 3) ℂ) (ρ : Matrix (Fin 3) (Fin 3) ℂ) :
    superOf L *ᵥ rowVec ρ = rowVec (L ρ) := by
  funext p
  have h : L ρ = ∑ i, ∑ j, ρ i j • L (Matrix.single i j 1) := by
    conv_lhs => rw [Matrix.matrix_eq_sum_single ρ]
    simp only [map_sum]
    refine Finset.sum_congr rfl fun i _ => Finset.sum_congr rfl fun j _ => ?_
    rw [← map_smul, Matrix.smul_single, smul_eq_mul, mul_one]
  unfold rowVec
  rw [h]
  simp only [Matrix.mulVec, dotProduct, Fintype.sum_prod_type, superOf, Matrix.of_apply, Matrix.sum_apply, Matrix.smul_apply, smul_eq_mul]
  exact Finset.sum_congr rfl fun i _ => Finset.sum_congr rfl fun j _ => mul_comm _ _

/-- The weight of the computational levels after `n` gates, from `t` there and `q` in the third level. -/
noncomputable def weight (a b : ℝ) (n : ℕ) (t q : ℂ) : ℂ :=
  (b / (a + b) : ℝ) * (t + q) + (t - (b / (a + b) : ℝ) * (t + q)) * ((1 - a - b : ℝ) : ℂ) ^ n

theorem weight_zero (a b : ℝ) (t q : ℂ) : weight a b 0 t q = t := by
  unfold weight
  ring

theorem weight_succ (a b : ℝ) (h : a + b ≠ 0) (n : ℕ) (t q : ℂ) :
    weight a b (n + 1) t q = (1 - a) * weight a b n t q + b * (t + q - weight a b n t q) := by
  unfold weight
  have hc : (a + b : ℂ) ≠ 0 := by exact_mod_cast h
  push_cast
  rw [pow_succ]
  field_simp
  ring

theorem run_words (a b l : ℝ) (h : a + b ≠ 0) (gates : List G4) (X : Matrix (Fin 2) (Fin 2) ℂ) (q : ℂ) :
    timeOrdered (gates.map fun g => leaky g.mat a b l) *ᵥ rowVec (put X q) =
      rowVec (put ((l : ℂ) ^ gates.length • (timeOrdered (gates.map G4.mat) * X * (timeOrdered (gates.map G4.mat))ᴴ) +
        ((weight a b gates.length X.trace q - (l : ℂ) ^ gates.length * X.trace) / 2) • 1)
        (X.trace + q - weight a b gates.length X.trace q)) := by
  induction gates using List.reverseRecOn with
  | nil =>
    simp only [List.map_nil, timeOrdered_nil, List.length_nil, weight_zero, pow_zero, Matrix.one_mulVec, one_smul, one_mul, Matrix.mul_one,
      Matrix.conjTranspose_one, sub_self, zero_div, zero_smul, add_zero, add_sub_cancel_left]
  | append_singleton gates g ih =>
    simp only [List.map_append, List.map_singleton, timeOrdered_concat, timeOrdered_one, List.length_append, List.length_singleton]
    rw [← Matrix.mulVec_mulVec, ih]
    unfold leaky
    rw [superOf_mulVec]
    congr 1
    generalize hW : timeOrdered (gates.map G4.mat) = W
    have hWu : Wᴴ * W = 1 := by
      rw [← hW]
      clear ih hW
      induction gates with
      | nil => simp [timeOrdered_nil]
      | cons c gates ih' =>
        rw [List.map_cons, ← List.singleton_append, timeOrdered_concat, timeOrdered_one, Matrix.conjTranspose_mul, Matrix.mul_assoc,
          ← Matrix.mul_assoc _ _ c.mat, ih', Matrix.one_mul, mat_unitary]
    have hg : g.mat * g.matᴴ = 1 := mul_eq_one_comm.1 (mat_unitary g)
    have ht : (W * X * Wᴴ).trace = X.trace := by
      rw [Matrix.trace_mul_comm, ← Matrix.mul_assoc, hWu, Matrix.one_mul]
    change put _ _ = put _ _
    rw [part_put]
    have htr : ((l : ℂ) ^ gates.length • (W * X * Wᴴ) +
        ((weight a b gates.length X.trace q - (l : ℂ) ^ gates.length * X.trace) / 2) • (1 : Matrix (Fin 2) (Fin 2) ℂ)).trace =
        weight a b gates.length X.trace q := by
      rw [Matrix.trace_add, Matrix.trace_smul, Matrix.trace_smul, ht, Matrix.trace_one, smul_eq_mul, smul_eq_mul]
      simp only [Fintype.card_fin]
      push_cast
      ring
    rw [htr]
    have hlast : put ((l : ℂ) ^ gates.length • (W * X * Wᴴ) +
        ((weight a b gates.length X.trace q - (l : ℂ) ^ gates.length * X.trace) / 2) • 1)
        (X.trace + q - weight a b gates.length X.trace q) 2 2 = X.trace + q - weight a b gates.length X.trace q := rfl
    rw [hlast, weight_succ a b h]
    congr 1
    · rw [Matrix.mul_add, Matrix.add_mul, Matrix.mul_smul, Matrix.smul_mul, Matrix.mul_smul, Matrix.smul_mul, Matrix.mul_one, hg, smul_add, smul_smul,
        smul_smul, add_assoc, ← add_smul, Matrix.conjTranspose_mul, pow_succ']
      simp only [Matrix.mul_assoc]
      congr 2
      ring
    · ring

/-- The channel keeps states: positive matrices stay positive, and the trace stays. -/
theorem put_pos {X : Matrix (Fin 2) (Fin 2) ℂ} (hX : X.PosSemidef) {q : ℝ} (hq : 0 ≤ q) : (put X q).PosSemidef := by
  let E : Matrix (Fin 2) (Fin 3) ℂ := !![1, 0, 0; 0, 1, 0]
  let F : Matrix (Fin 1) (Fin 3) ℂ := !![0, 0, (Real.sqrt q : ℂ)]
  have h : put X q = Eᴴ * X * E + Fᴴ * F := by
    have hs : (Real.sqrt q : ℂ) * (Real.sqrt q : ℂ) = q := by
      rw [← Complex.ofReal_mul, Real.mul_self_sqrt hq]
    ext i j
    fin_cases i <;> fin_cases j <;>
      simp [put, E, F, Matrix.mul_apply, Fin.sum_univ_two, hs, Complex.conj_ofReal]
  rw [h]
  exact (hX.conjTranspose_mul_mul_same E).add (Matrix.posSemidef_conjTranspose_mul_self F)

/-! ## The data -/

/-- The weight of the computational levels after `n` leaking gates, from the ground state. -/
noncomputable def curve (a b : ℝ) (n : ℕ) : ℝ := b / (a + b) + (1 - b / (a + b)) * (1 - a - b) ^ n

theorem weight_curve (a b : ℝ) (n : ℕ) : weight a b n 1 0 = (curve a b n : ℂ) := by
  unfold weight curve
  push_cast
  ring

theorem curve_ge (a b : ℝ) (ha : 0 ≤ a) (hb : 0 ≤ b) (hab : 0 < a + b) (h1 : a + b ≤ 1) (n : ℕ) :
    (1 - a) ^ n ≤ curve a b n ∧ curve a b n ≤ 1 := by
  have hs : ∀ n, curve a b (n + 1) = (1 - a) * curve a b n + b * (1 - curve a b n) := by
    intro n
    unfold curve
    rw [pow_succ]
    field_simp
    ring
  have h0 : curve a b 0 = 1 := by
    unfold curve
    ring
  induction n with
  | zero => simp [h0]
  | succ n ih =>
    obtain ⟨i1, i2⟩ := ih
    rw [hs, pow_succ']
    have h2 : 0 ≤ (1 - a) ^ n := pow_nonneg (by linarith) n
    have h3 := mul_le_mul_of_nonneg_left i1 (by linarith : (0 : ℝ) ≤ 1 - a)
    have h4 := mul_nonneg hb (by linarith : (0 : ℝ) ≤ 1 - curve a b n)
    have h5 := mul_nonneg ha (by linarith : (0 : ℝ) ≤ curve a b n)
    have h6 := mul_nonneg (by linarith : (0 : ℝ) ≤ 1 - b) (by linarith : (0 : ℝ) ≤ 1 - curve a b n)
    constructor
    · linarith
    · linarith

/-- The rates of a leaking gate, all probabilities. -/
structure Rates (a b l : ℝ) : Prop where
  ha : 0 ≤ a
  hb : 0 ≤ b
  hab : 0 < a + b
  hab1 : a + b ≤ 1
  hl : 0 ≤ l
  hl1 : l ≤ 1 - a

/-- **C228, the gates are physical**: density matrices (without coherences to the third level) stay density matrices. -/
theorem C228_channel (V : Matrix (Fin 2) (Fin 2) ℂ) (hV : Vᴴ * V = 1) {a b l : ℝ} (h : Rates a b l) (X : Matrix (Fin 2) (Fin 2) ℂ) (q : ℝ)
    (hX : X.PosSemidef) (hq : 0 ≤ q) :
    (channel V a b l (put X q)).PosSemidef ∧ (channel V a b l (put X q)).trace = (put X q).trace := by
  obtain ⟨ha, hb, -, hab1, hl, hl1⟩ := h
  have htr : (0 : ℝ) ≤ X.trace.re ∧ X.trace = (X.trace.re : ℂ) := by
    have := hX.trace_nonneg
    rw [Complex.le_def] at this
    refine ⟨this.1, ?_⟩
    apply Complex.ext
    · simp
    · simpa using this.2.symm
  have ht : (V * X * Vᴴ).trace = X.trace := by
    rw [Matrix.trace_mul_comm, ← Matrix.mul_assoc, hV, Matrix.one_mul]
  have e : channel V a b l (put X q) = put ((l : ℂ) • (V * X * Vᴴ) + ((1 - a - l) * X.trace / 2 + b * q / 2) • 1)
      (a * X.trace + (1 - b) * q) := by
    change put _ _ = _
    rw [part_put]
    rfl
  rw [e]
  constructor
  · rw [htr.2]
    have e2 : (a : ℂ) * (X.trace.re : ℂ) + (1 - b) * q = ((a * X.trace.re + (1 - b) * q : ℝ) : ℂ) := by push_cast; ring
    have e3 : (1 - a - l : ℂ) * (X.trace.re : ℂ) / 2 + b * q / 2 = (((1 - a - l) * X.trace.re / 2 + b * q / 2 : ℝ) : ℂ) := by push_cast; ring
    rw [e2, e3]
    refine put_pos (Matrix.PosSemidef.add ?_ ?_) ?_
    · exact (hX.mul_mul_conjTranspose_same V).smul (by exact_mod_cast hl)
    · refine Matrix.PosSemidef.one.smul ?_
      have h1 : 0 ≤ (1 - a - l) * X.trace.re := mul_nonneg (by linarith) htr.1
      have h2 : 0 ≤ b * q := mul_nonneg hb hq
      exact_mod_cast (by linarith : 0 ≤ (1 - a - l) * X.trace.re / 2 + b * q / 2)
    · exact add_nonneg (mul_nonneg ha htr.1) (mul_nonneg (by linarith) hq)
  · have hp : ∀ Y : Matrix (Fin 2) (Fin 2) ℂ, ∀ r : ℂ, (put Y r).trace = Y.trace + r := by
      intro Y r
      simp [put, Matrix.trace, Fin.sum_univ_three]
    rw [hp, hp, Matrix.trace_add, Matrix.trace_smul, Matrix.trace_smul, ht, Matrix.trace_one]
    simp only [Fintype.card_fin, smul_eq_mul]
    push_cast
    ring

theorem leakage_pops (a b l : ℝ) (h : Rates a b l) (gates : List G4) (hph : PhaseEq (runGates gates) 1) :
    (leakagePoint (d := 1) false fun n =>
      ‖(timeOrdered (gates.map fun g => leaky g.mat a b l) *ᵥ Pi.single ((0 : Fin 3), (0 : Fin 3)) 1) (n, n)‖) =
      ((curve a b gates.length + l ^ gates.length) / 2, curve a b gates.length) := by
  obtain ⟨ha, hb, hab, hab1, hl, hl1⟩ := h
  have e0 : (Pi.single ((0 : Fin 3), (0 : Fin 3)) 1 : Fin 3 × Fin 3 → ℂ) = rowVec (put !![1, 0; 0, 0] 0) := by
    funext p
    obtain ⟨i, j⟩ := p
    fin_cases i <;> fin_cases j <;> simp [rowVec, put]
  have hW : timeOrdered (gates.map G4.mat) = runGates gates := by
    rw [runGates_eq]
    unfold matmul timeOrdered
    rw [List.map_reverse]
  have ht : (!![1, 0; 0, 0] : Matrix (Fin 2) (Fin 2) ℂ).trace = 1 := by simp [Matrix.trace, Fin.sum_univ_two]
  have hconj : runGates gates * !![1, 0; 0, 0] * (runGates gates)ᴴ = !![1, 0; 0, 0] := by
    obtain ⟨c, hc, he⟩ := hph
    rw [he, Matrix.smul_mul, Matrix.one_mul, Matrix.conjTranspose_smul, Matrix.conjTranspose_one, Matrix.mul_smul, Matrix.mul_one, smul_smul]
    have : star c * c = 1 := by
      rw [Complex.star_def, ← Complex.normSq_eq_conj_mul_self, Complex.normSq_eq_norm_sq, hc]
      norm_num
    rw [this, one_smul]
  rw [e0, run_words a b l hab.ne', hW, hconj, ht, weight_curve]
  have hge := curve_ge a b ha hb hab hab1 gates.length
  have hle : l ^ gates.length ≤ (1 - a) ^ gates.length := pow_le_pow_left₀ hl hl1 _
  have hl0 : 0 ≤ l ^ gates.length := pow_nonneg hl _
  have p0 : ‖rowVec (put ((l : ℂ) ^ gates.length • !![1, 0; 0, 0] +
      (((curve a b gates.length : ℂ) - (l : ℂ) ^ gates.length * 1) / 2) • 1) (1 + 0 - (curve a b gates.length : ℂ))) ((0 : Fin 3), (0 : Fin 3))‖ =
      (curve a b gates.length + l ^ gates.length) / 2 := by
    have : rowVec (put ((l : ℂ) ^ gates.length • !![1, 0; 0, 0] +
      (((curve a b gates.length : ℂ) - (l : ℂ) ^ gates.length * 1) / 2) • 1) (1 + 0 - (curve a b gates.length : ℂ))) ((0 : Fin 3), (0 : Fin 3)) =
        (((curve a b gates.length + l ^ gates.length) / 2 : ℝ) : ℂ) := by
      simp [rowVec, put]
      ring
    rw [this, Complex.norm_of_nonneg (by linarith)]
  have p1 : ‖rowVec (put ((l : ℂ) ^ gates.length • !![1, 0; 0, 0] +
      (((curve a b gates.length : ℂ) - (l : ℂ) ^ gates.length * 1) / 2) • 1) (1 + 0 - (curve a b gates.length : ℂ))) ((1 : Fin 3), (1 : Fin 3))‖ =
      (curve a b gates.length - l ^ gates.length) / 2 := by
    have : rowVec (put ((l : ℂ) ^ gates.length • !![1, 0; 0, 0] +
      (((curve a b gates.length : ℂ) - (l : ℂ) ^ gates.length * 1) / 2) • 1) (1 + 0 - (curve a b gates.length : ℂ))) ((1 : Fin 3), (1 : Fin 3)) =
        (((curve a b gates.length - l ^ gates.length) / 2 : ℝ) : ℂ) := by
      simp [rowVec, put]
    rw [this, Complex.norm_of_nonneg (by linarith)]
  unfold leakagePoint
  rw [if_neg (by simp)]
  refine Prod.ext p0 ?_
  change ‖_‖ + ‖_‖ = _
  refine (congrArg₂ (· + ·) p0 p1).trans ?_
  dsimp only
  ring

/-- **C228: the data of `leakage_RB`**: with gates that leak the point of a sequence depends on its number of gates
only. -/
theorem C228_points {a b l : ℝ} (h : Rates a b l) (propagators : List (String × Matrix (Fin 3 × Fin 3) (Fin 3 × Fin 3) ℂ))
    (hlook : ∀ c : G4, propagators.lookup (onTarget c.name 0) = some (leaky c.mat a b l)) (draws : List (List ℕ))
    (hd : ∀ d ∈ draws, ∀ c ∈ d, c < 24) :
    leakageRow (d := 1) propagators draws = some (draws.map fun d => let n := ((singleRB d).getD []).length
      ((curve a b n + l ^ n) / 2, curve a b n)) := by
  have hp : propagators ≠ [] := by
    rintro rfl
    have := hlook .x90p
    simp at this
  unfold leakageRow
  rw [singleLengthRB_map draws 0 hd]
  simp only [Option.bind_eq_bind, Option.bind_some]
  rw [C3.Fold.C21_sequences propagators hp _ (by
    intro s hs g hg
    obtain ⟨d, -, rfl⟩ := List.mem_map.1 hs
    obtain ⟨c, -, rfl⟩ := List.mem_map.1 hg
    exact ⟨_, hlook c⟩)]
  simp only [List.map_map]
  congr 1
  refine List.map_congr_left fun d hdm => ?_
  obtain ⟨gates, hg, hph, -⟩ := C59_rb d (hd d hdm)
  simp only [Function.comp_apply, hg, Option.getD_some]
  have e : (fun g => (propagators.lookup g).getD 1) ∘ (fun c : G4 => onTarget c.name 0) = fun c => leaky c.mat a b l := by
    funext c
    simp only [Function.comp_apply, hlook, Option.getD_some]
  unfold seqProp
  rw [List.map_map, e]
  exact leakage_pops a b l h gates hph

/-! ## Means over the draws -/

theorem rbMean_pow_close (l : ℝ) (h0 : 0 ≤ l) (h1 : l ≤ 1) (k : ℕ) :
    |rbMean (fun gates => l ^ gates.length) k - depolDecay l ^ (k + 1)| ≤ (l - l ^ 4) ^ (k + 1) := by
  have h := (C212_depolarizing l h0 h1).2.2 k
  have hs : rbMean (survival fun g => depol l * ad g.mat) k = 1 / 2 + 1 / 2 * rbMean (fun gates => l ^ gates.length) k := by
    refine rbMean_affine _ _ k _ _ fun d => ?_
    obtain ⟨gates, hg, hph, -⟩ := C59_rb (List.ofFn fun i => (d i : ℕ)) (by
      intro c hc
      obtain ⟨j, rfl⟩ := (List.mem_ofFn' _ _).1 hc
      exact (d j).2)
    rw [hg, Option.getD_some]
    unfold survival ground
    rw [depol_words, timeOrdered_ad]
    have e : timeOrdered (gates.map fun g : G4 => g.mat) = runGates gates := by
      rw [runGates_eq]
      unfold matmul timeOrdered
      rw [List.map_reverse]
    rw [e, ad_phase hph, ad_one, one_apply_eq_self, depol_bloch, pop_bloch]
    ring
  rw [hs] at h
  have e : (1 / 2 + 1 / 2 * rbMean (fun gates => l ^ gates.length) k - (1 / 2 * depolDecay l ^ (k + 1) + 1 / 2) : ℝ) =
      1 / 2 * (rbMean (fun gates => l ^ gates.length) k - depolDecay l ^ (k + 1)) := by ring
  rw [e, abs_mul, abs_of_pos (by norm_num : (0 : ℝ) < 1 / 2)] at h
  linarith

/-- The mean of a row. -/
noncomputable def rowMean (row : List ℝ) : ℝ := row.sum / row.length

/-- The expected mean, over `m + 1` sequences of length `k + 1` drawn independently, of a quantity of the data of
`leakage_RB`. -/
noncomputable def expected (propagators : List (String × Matrix (Fin 3 × Fin 3) (Fin 3 × Fin 3) ℂ)) (f : ℝ × ℝ → ℝ) (m k : ℕ) : ℝ :=
  (((24 : ℝ) ^ k) ^ (m + 1))⁻¹ * ∑ D : Fin (m + 1) → Fin k → Fin 24,
    rowMean (((leakageRow (d := 1) propagators (List.ofFn fun i => List.ofFn fun j => ((D i j : Fin 24) : ℕ))).getD []).map f)

theorem expected_eq {a b l : ℝ} (h : Rates a b l) (propagators : List (String × Matrix (Fin 3 × Fin 3) (Fin 3 × Fin 3) ℂ))
    (hlook : ∀ c : G4, propagators.lookup (onTarget c.name 0) = some (leaky c.mat a b l)) (f : ℝ × ℝ → ℝ) (m k : ℕ) :
    expected propagators f m k =
      rbMean (fun gates => f ((curve a b gates.length + l ^ gates.length) / 2, curve a b gates.length)) k := by
  let F : (Fin k → Fin 24) → ℝ := fun d => let n := ((singleRB (List.ofFn fun j => (d j : ℕ))).getD []).length
    f ((curve a b n + l ^ n) / 2, curve a b n)
  have hm := mean_of_means F m
  have hc : (Fintype.card (Fin k → Fin 24) : ℝ) = 24 ^ k := by simp
  rw [hc] at hm
  unfold expected rbMean
  refine Eq.trans ?_ hm
  congr 1
  refine Finset.sum_congr rfl fun D _ => ?_
  rw [C228_points h propagators hlook _ (by
    intro d hd c hc
    obtain ⟨i, rfl⟩ := (List.mem_ofFn' _ _).1 hd
    obtain ⟨j, rfl⟩ := (List.mem_ofFn' _ _).1 hc
    exact (D i j).2), Option.getD_some]
  unfold rowMean
  rw [List.map_map, List.map_ofFn, List.sum_ofFn, List.length_ofFn]
  rfl

/-- **C228: leakage.** With gates that leak the expected computational population of `leakage_RB` is its fit function
`RB_leakage` with `r_leak` the mean of `(1 - a - b)` to the number of gates of a Clifford, `A_leak = b / (a + b)` and
`B_leak = a / (a + b)`, up to an error that falls faster with the length. -/
theorem C228_leakage {a b l : ℝ} (h : Rates a b l) (propagators : List (String × Matrix (Fin 3 × Fin 3) (Fin 3 × Fin 3) ℂ))
    (hlook : ∀ c : G4, propagators.lookup (onTarget c.name 0) = some (leaky c.mat a b l)) (m k : ℕ) :
    |expected propagators (·.2) m k - rbLeakage (k + 1) (depolDecay (1 - a - b)) (b / (a + b)) (a / (a + b))| ≤
      a / (a + b) * ((1 - a - b) - (1 - a - b) ^ 4) ^ (k + 1) := by
  rw [expected_eq h propagators hlook]
  obtain ⟨ha, hb, hab, hab1, hl, hl1⟩ := h
  have hA : 1 - b / (a + b) = a / (a + b) := by
    field_simp
    ring
  have e : rbMean (fun gates => curve a b gates.length) k = b / (a + b) + a / (a + b) * rbMean (fun gates => (1 - a - b) ^ gates.length) k := by
    refine rbMean_affine _ _ k _ _ fun d => ?_
    rw [curve, hA]
  have hc := rbMean_pow_close (1 - a - b) (by linarith) (by linarith) k
  have hA0 : 0 ≤ a / (a + b) := by positivity
  change |rbMean (fun gates => curve a b gates.length) k - _| ≤ _
  rw [e, rbLeakage]
  rw [show b / (a + b) + a / (a + b) * rbMean (fun gates => (1 - a - b) ^ gates.length) k -
    (b / (a + b) + a / (a + b) * depolDecay (1 - a - b) ^ (k + 1)) =
    a / (a + b) * (rbMean (fun gates => (1 - a - b) ^ gates.length) k - depolDecay (1 - a - b) ^ (k + 1)) by ring, abs_mul, abs_of_nonneg hA0]
  exact mul_le_mul_of_nonneg_left hc hA0

theorem rbMean_add (v w : List G4 → ℝ) (k : ℕ) (s t : ℝ) :
    rbMean (fun g => s * v g + t * w g) k = s * rbMean v k + t * rbMean w k := by
  unfold rbMean
  rw [Finset.sum_add_distrib, ← Finset.mul_sum, ← Finset.mul_sum]
  ring

/-- **C228: survival.** The expected population of the ground state has half of `B_leak` as the weight of the leakage decay, not
`B_leak`, and the decay constant `r` of the rest is the mean of `l` to the number of gates of a Clifford. -/
theorem C228_survival_partial {a b l : ℝ} (h : Rates a b l) (propagators : List (String × Matrix (Fin 3 × Fin 3) (Fin 3 × Fin 3) ℂ))
    (hlook : ∀ c : G4, propagators.lookup (onTarget c.name 0) = some (leaky c.mat a b l)) (m k : ℕ) :
    |expected propagators (·.1) m k -
      rbSurv (a / (a + b) / 2) (depolDecay (1 - a - b)) (k + 1) (depolDecay l) (b / (a + b) / 2) (1 / 2)| ≤
      a / (a + b) / 2 * ((1 - a - b) - (1 - a - b) ^ 4) ^ (k + 1) + (l - l ^ 4) ^ (k + 1) / 2 := by
  have hL := C228_leakage h propagators hlook m k
  rw [expected_eq h propagators hlook] at hL ⊢
  obtain ⟨ha, hb, hab, hab1, hl, hl1⟩ := h
  have hc := rbMean_pow_close l hl (by linarith) k
  have e : rbMean (fun gates => (curve a b gates.length + l ^ gates.length) / 2) k =
      1 / 2 * rbMean (fun gates => curve a b gates.length) k + 1 / 2 * rbMean (fun gates => l ^ gates.length) k := by
    rw [← rbMean_add]
    congr 1
    funext g
    ring
  change |rbMean (fun gates => curve a b gates.length) k - _| ≤ _ at hL
  change |rbMean (fun gates => (curve a b gates.length + l ^ gates.length) / 2) k - _| ≤ _
  rw [e]
  rw [abs_le] at hL hc ⊢
  unfold rbSurv
  unfold rbLeakage at hL
  constructor <;> linarith [hL.1, hL.2, hc.1, hc.2]

theorem word_mat (c : Cl) : timeOrdered (c.word.map G4.mat) = c.mat := by
  have h1 := (C60_decomposition c.num c.num_range.1 c.num_range.2).2
  unfold cliffords at h1
  rw [if_pos c.num_range, Option.some.injEq] at h1
  have h2 := runGates_eq c.word
  unfold matmul at h2
  unfold timeOrdered
  rw [← List.map_reverse, ← h2]
  exact h1.symm

/-- **C228: the rates.** For the decay constants of the data, leakage, seepage and error per Clifford of `leakage_RB` are exactly
the mean leakage, seepage and infidelity of the 24 Cliffords. -/
theorem C228_rates {a b l : ℝ} (h : Rates a b l) :
    leakageRates (depolDecay (1 - a - b)) (b / (a + b)) (depolDecay l) =
      (1 - avg (fun c : Cl => fidOf c.mat (cliffSuper (fun g => leaky g.mat a b l) c)),
        avg (fun c : Cl => leakOf (cliffSuper (fun g => leaky g.mat a b l) c)),
        avg (fun c : Cl => seepOf (cliffSuper (fun g => leaky g.mat a b l) c))) := by
  obtain ⟨ha, hb, hab, hab1, hl, hl1⟩ := h
  have hout : ∀ (c : Cl) X q, out (cliffSuper (fun g => leaky g.mat a b l) c) (put X q) = put ((l : ℂ) ^ c.word.length •
      (timeOrdered (c.word.map G4.mat) * X * (timeOrdered (c.word.map G4.mat))ᴴ) +
        ((weight a b c.word.length X.trace q - (l : ℂ) ^ c.word.length * X.trace) / 2) • 1)
        (X.trace + q - weight a b c.word.length X.trace q) := by
    intro c X q
    have := run_words a b l hab.ne' c.word X q
    unfold out cliffSuper
    rw [this]
    rfl
  have hA : 1 - b / (a + b) = a / (a + b) := by
    field_simp
    ring
  have hleak : ∀ c : Cl, leakOf (cliffSuper (fun g => leaky g.mat a b l) c) =
      a / (a + b) + (-(a / (a + b)) : ℝ) • (1 - a - b) ^ c.word.length := by
    intro c
    unfold leakOf
    rw [hout]
    have ht : ((1 / 2 : ℂ) • (1 : Matrix (Fin 2) (Fin 2) ℂ)).trace = 1 := by
      rw [Matrix.trace_smul, Matrix.trace_one]
      norm_num
    rw [ht, weight_curve]
    change (1 + 0 - (curve a b c.word.length : ℂ)).re = _
    rw [add_zero, Complex.sub_re, Complex.one_re, Complex.ofReal_re, curve, hA, smul_eq_mul]
    rw [← hA]
    ring
  have hseep : ∀ c : Cl, seepOf (cliffSuper (fun g => leaky g.mat a b l) c) =
      b / (a + b) + (-(b / (a + b)) : ℝ) • (1 - a - b) ^ c.word.length := by
    intro c
    unfold seepOf
    rw [hout, part_put, Matrix.trace_add, Matrix.trace_smul, Matrix.trace_smul]
    have hw : weight a b c.word.length 0 1 = ((b / (a + b) + (-(b / (a + b)) : ℝ) * (1 - a - b) ^ c.word.length : ℝ) : ℂ) := by
      unfold weight
      push_cast
      ring
    rw [Matrix.trace_zero, hw]
    simp only [Matrix.zero_mul, Matrix.trace_zero, zero_add, Matrix.trace_one, Fintype.card_fin, smul_eq_mul, mul_zero,
      sub_zero]
    rw [show ((b / (a + b) + (-(b / (a + b)) : ℝ) * (1 - a - b) ^ c.word.length : ℝ) : ℂ) / 2 * ((2 : ℕ) : ℂ) =
      ((b / (a + b) + (-(b / (a + b)) : ℝ) * (1 - a - b) ^ c.word.length : ℝ) : ℂ) by push_cast; ring, Complex.ofReal_re]
  have hfid : ∀ c : Cl, fidOf c.mat (cliffSuper (fun g => leaky g.mat a b l) c) =
      (b / (a + b) / 2 + (a / (a + b) / 2 : ℝ) • (1 - a - b) ^ c.word.length) + (1 / 2 : ℝ) • l ^ c.word.length := by
    intro c
    have hstate : ∀ s : Herm, (s : Matrix (Fin 2) (Fin 2) ℂ).trace = 1 → ((s : Matrix (Fin 2) (Fin 2) ℂ) * s).trace = 1 →
        (c.mat * (s : Matrix (Fin 2) (Fin 2) ℂ) * c.matᴴ * part (out (cliffSuper (fun g => leaky g.mat a b l) c) (put s 0))).trace.re =
          (curve a b c.word.length + l ^ c.word.length) / 2 := by
      intro s h1 h2
      have hU := c.unitary
      rw [hout, part_put, word_mat, h1, weight_curve, Matrix.mul_add, Matrix.trace_add, Matrix.mul_smul, Matrix.mul_smul, Matrix.trace_smul,
        Matrix.trace_smul, Matrix.mul_one]
      have e1 : (c.mat * (s : Matrix (Fin 2) (Fin 2) ℂ) * c.matᴴ).trace = 1 := by
        rw [Matrix.trace_mul_comm, ← Matrix.mul_assoc, hU, Matrix.one_mul, h1]
      have e2 : (c.mat * (s : Matrix (Fin 2) (Fin 2) ℂ) * c.matᴴ * (c.mat * (s : Matrix (Fin 2) (Fin 2) ℂ) * c.matᴴ)).trace = 1 := by
        have : c.mat * (s : Matrix (Fin 2) (Fin 2) ℂ) * c.matᴴ * (c.mat * (s : Matrix (Fin 2) (Fin 2) ℂ) * c.matᴴ) =
            c.mat * ((s : Matrix (Fin 2) (Fin 2) ℂ) * s) * c.matᴴ := by
          calc _ = c.mat * (s : Matrix (Fin 2) (Fin 2) ℂ) * (c.matᴴ * c.mat) * (s : Matrix (Fin 2) (Fin 2) ℂ) * c.matᴴ := by
                simp only [Matrix.mul_assoc]
            _ = _ := by rw [hU, Matrix.mul_one]; simp only [Matrix.mul_assoc]
        rw [this, Matrix.trace_mul_comm, ← Matrix.mul_assoc, hU, Matrix.one_mul, h2]
      rw [e1, e2]
      have : ((l : ℂ) ^ c.word.length • (1 : ℂ) + (((curve a b c.word.length : ℂ) - (l : ℂ) ^ c.word.length * 1) / 2) • (1 : ℂ)) =
          (((curve a b c.word.length + l ^ c.word.length) / 2 : ℝ) : ℂ) := by
        simp only [smul_eq_mul, mul_one]
        push_cast
        ring
      rw [this, Complex.ofReal_re]
    have hb1 : ∀ t x y z : ℝ, t = 1 / 2 → ((bloch t x y z : Herm) : Matrix (Fin 2) (Fin 2) ℂ).trace = 1 := by
      intro t x y z ht
      unfold bloch
      rw [Matrix.trace_fin_two_of, ht]
      push_cast
      ring
    have hb2 : ∀ t x y z : ℝ, t = 1 / 2 → x ^ 2 + y ^ 2 + z ^ 2 = 1 / 4 →
        (((bloch t x y z : Herm) : Matrix (Fin 2) (Fin 2) ℂ) * (bloch t x y z : Herm)).trace = 1 := by
      intro t x y z ht hr
      have hr' : (x : ℂ) ^ 2 + (y : ℂ) ^ 2 + (z : ℂ) ^ 2 = 1 / 4 := by
        have := congrArg (fun r : ℝ => (r : ℂ)) hr
        push_cast at this
        exact this
      unfold bloch
      rw [Matrix.mul_fin_two, Matrix.trace_fin_two_of, ht]
      push_cast
      linear_combination 2 * hr' - 2 * (y : ℂ) ^ 2 * Complex.I_sq
    unfold fidOf sumAxes
    dsimp only
    rw [hstate _ (hb1 _ _ _ _ rfl) (hb2 _ _ _ _ rfl (by norm_num)), hstate _ (hb1 _ _ _ _ rfl) (hb2 _ _ _ _ rfl (by norm_num)),
      hstate _ (hb1 _ _ _ _ rfl) (hb2 _ _ _ _ rfl (by norm_num)), hstate _ (hb1 _ _ _ _ rfl) (hb2 _ _ _ _ rfl (by norm_num)),
      hstate _ (hb1 _ _ _ _ rfl) (hb2 _ _ _ _ rfl (by norm_num)), hstate _ (hb1 _ _ _ _ rfl) (hb2 _ _ _ _ rfl (by norm_num)), curve, hA,
      smul_eq_mul, smul_eq_mul]
    ring
  unfold leakageRates
  simp only [hleak, hseep, hfid, avg_add, avg_const, avg_smul, avg_words]
  simp only [smul_eq_mul]
  refine Prod.ext ?_ (Prod.ext ?_ ?_)
  · dsimp only
    rw [← hA]
    ring
  · dsimp only
    rw [hA]
    ring
  · dsimp only
    ring

/-- **C228: the fit is determined by the data**: exact data at three consecutive lengths leave one choice of the parameters of
`RB_leakage`. -/
theorem C228_unique (n : ℕ) (r A B r' A' B' : ℝ) (hr0 : r ≠ 0) (hr1 : r ≠ 1) (hB : B ≠ 0)
    (h : ∀ i < 3, rbLeakage (n + i) r' A' B' = rbLeakage (n + i) r A B) : r' = r ∧ A' = A ∧ B' = B := by
  have h0 := h 0 (by norm_num)
  have h1 := h 1 (by norm_num)
  have h2 := h 2 (by norm_num)
  simp only [rbLeakage, add_zero, pow_add, pow_one] at h0 h1 h2
  have hn : r ^ n ≠ 0 := pow_ne_zero n hr0
  have d1 : B' * r' ^ n * (r' - 1) = B * r ^ n * (r - 1) := by linear_combination h1 - h0
  have d2 : B' * r' ^ n * (r' - 1) * r' = B * r ^ n * (r - 1) * r := by linear_combination h2 - h1
  have hne : B * r ^ n * (r - 1) ≠ 0 := mul_ne_zero (mul_ne_zero hB hn) (sub_ne_zero.2 hr1)
  have hr : r' = r := by
    rw [d1] at d2
    exact mul_left_cancel₀ hne d2
  subst hr
  have hBB : B' = B := by
    have : (B' - B) * (r' ^ n * (r' - 1)) = 0 := by linear_combination d1
    have h3 := (mul_eq_zero.1 this).resolve_right (mul_ne_zero hn (sub_ne_zero.2 hr1))
    linarith
  subst hBB
  exact ⟨rfl, by linarith, rfl⟩

/-- A sum of two exponentials that is as small as a faster decay vanishes. -/
theorem two_decays (x y δ K c d : ℝ) (hδ : 0 ≤ δ) (hx : δ < x) (hxy : x ≠ y) (h : ∀ n : ℕ, |c * x ^ n + d * y ^ n| ≤ K * δ ^ n) : c = 0 := by
  have hx0 : 0 < x := hδ.trans_lt hx
  have hstep : ∀ n : ℕ, |c * (x - y)| * x ^ n ≤ K * (δ + |y|) * δ ^ n := by
    intro n
    have e : c * (x - y) * x ^ n = (c * x ^ (n + 1) + d * y ^ (n + 1)) - y * (c * x ^ n + d * y ^ n) := by ring
    have h1 := h (n + 1)
    have h2 := h n
    calc |c * (x - y)| * x ^ n = |c * (x - y) * x ^ n| := by rw [abs_mul _ (x ^ n), abs_of_pos (pow_pos hx0 n)]
      _ ≤ |c * x ^ (n + 1) + d * y ^ (n + 1)| + |y * (c * x ^ n + d * y ^ n)| := by rw [e]; exact abs_sub _ _
      _ ≤ K * δ ^ (n + 1) + |y| * (K * δ ^ n) := by
        rw [abs_mul]
        exact add_le_add h1 (mul_le_mul_of_nonneg_left h2 (abs_nonneg _))
      _ = K * (δ + |y|) * δ ^ n := by ring
  by_contra hc
  have hpos : 0 < |c * (x - y)| := abs_pos.2 (mul_ne_zero hc (sub_ne_zero.2 hxy))
  have hq : δ / x < 1 := (div_lt_one hx0).2 hx
  have hlim := (tendsto_pow_atTop_nhds_zero_of_lt_one (div_nonneg hδ hx0.le) hq).const_mul (K * (δ + |y|))
  rw [mul_zero] at hlim
  have hle : ∀ n : ℕ, |c * (x - y)| ≤ K * (δ + |y|) * (δ / x) ^ n := by
    intro n
    rw [div_pow, ← mul_div_assoc, le_div_iff₀ (pow_pos hx0 n)]
    exact hstep n
  have := ge_of_tendsto' hlim hle
  linarith

/-- **C228, the fit of the survival cannot match**: with gates that leak and otherwise hardly err there are no parameters `r`, `A`, `C`
for which `RB_surv`, with the `B_leak` and `r_leak` of the leakage, is the expected survival at all lengths: the ground state has
only half of the computational population. -/
theorem C228_false_survival {a b l : ℝ} (h : Rates a b l) (ha : 0 < a) (hab : a + b ≤ 1 / 10) (hl : 9 / 10 ≤ l) (hne : l ≠ 1 - a - b)
    (propagators : List (String × Matrix (Fin 3 × Fin 3) (Fin 3 × Fin 3) ℂ))
    (hlook : ∀ c : G4, propagators.lookup (onTarget c.name 0) = some (leaky c.mat a b l)) (m : ℕ) :
    ¬ ∃ r A C : ℝ, ∀ k, expected propagators (·.1) m k = rbSurv (a / (a + b)) (depolDecay (1 - a - b)) (k + 1) r A C := by
  rintro ⟨r, A, C, hfit⟩
  have hs := C228_survival_partial h propagators hlook m
  obtain ⟨-, hb, hab0, hab1, -, hl1⟩ := h
  set x := depolDecay (1 - a - b) with hx
  set y := depolDecay l with hy
  set B := a / (a + b) with hB
  have hB0 : 0 < B := by positivity
  have hB1 : B ≤ 1 := by
    rw [hB, div_le_one hab0]
    linarith
  have small : ∀ z : ℝ, 9 / 10 ≤ z → z ≤ 1 → z - z ^ 4 ≤ 1 / 2 ∧ 0 ≤ z - z ^ 4 ∧ 6 / 10 < depolDecay z := by
    intro z h1 h2
    have h3 := depol_range z (by linarith) h2
    have h4 : (9 / 10 : ℝ) ^ 4 ≤ z ^ 4 := pow_le_pow_left₀ (by norm_num) h1 4
    have h5 : z ^ 4 ≤ z := h3.1.trans h3.2
    refine ⟨by norm_num at h4; linarith, by linarith, ?_⟩
    refine lt_of_lt_of_le ?_ (h4.trans h3.1)
    norm_num
  have mono : ∀ z w : ℝ, 0 ≤ z → z < w → depolDecay z < depolDecay w := by
    intro z w h1 h2
    unfold depolDecay
    have e2 : z ^ 2 < w ^ 2 := pow_lt_pow_left₀ h2 h1 (by norm_num)
    have e3 : z ^ 3 < w ^ 3 := pow_lt_pow_left₀ h2 h1 (by norm_num)
    have e4 : z ^ 4 < w ^ 4 := pow_lt_pow_left₀ h2 h1 (by norm_num)
    linarith
  have one : depolDecay 1 = 1 := by norm_num [depolDecay]
  obtain ⟨s1, s2, s3⟩ := small (1 - a - b) (by linarith) (by linarith)
  obtain ⟨t1, t2, t3⟩ := small l hl (by linarith)
  have hx1 : x < 1 := by
    rw [← one]
    exact mono _ _ (by linarith) (by linarith)
  have hy1 : y < 1 := by
    rw [← one]
    exact mono _ _ (by linarith) (by linarith)
  have hxy : x ≠ y := by
    intro e
    rcases lt_trichotomy l (1 - a - b) with h1 | h1 | h1
    · exact absurd e (mono _ _ (by linarith) h1).ne'
    · exact hne h1
    · exact absurd e (mono _ _ (by linarith) h1).ne
  -- the difference of the two
  let f : ℕ → ℝ := fun k => (b / (a + b) / 2 - A) + (-(B / 2)) * x ^ (k + 1) + 1 / 2 * y ^ (k + 1) - C * r ^ (k + 1)
  have hf : ∀ k, |f k| ≤ (1 / 2) ^ k := by
    intro k
    have h1 := hs k
    rw [hfit k, abs_sub_comm] at h1
    have e : rbSurv (B / 2) x (k + 1) y (b / (a + b) / 2) (1 / 2) - rbSurv B x (k + 1) r A C = f k := by
      simp only [rbSurv, f]
      ring
    rw [e] at h1
    refine h1.trans ?_
    have p1 : ((1 - a - b) - (1 - a - b) ^ 4) ^ (k + 1) ≤ (1 / 2) ^ (k + 1) := pow_le_pow_left₀ s2 s1 _
    have p2 : (l - l ^ 4) ^ (k + 1) ≤ (1 / 2) ^ (k + 1) := pow_le_pow_left₀ t2 t1 _
    have p3 : (0 : ℝ) < (1 / 2) ^ k := by positivity
    have p4 : B / 2 * ((1 - a - b) - (1 - a - b) ^ 4) ^ (k + 1) ≤ 1 / 2 * (1 / 2) ^ (k + 1) :=
      mul_le_mul (by linarith) p1 (pow_nonneg s2 _) (by norm_num)
    rw [pow_succ (1 / 2 : ℝ) k] at p2 p4
    linarith
  have hg : ∀ k, |(-(B / 2) * x * (x - 1) * (x - r)) * x ^ k + (1 / 2 * y * (y - 1) * (y - r)) * y ^ k| ≤ (3 + 3 * |r|) * (1 / 2) ^ k := by
    intro k
    have e : (-(B / 2) * x * (x - 1) * (x - r)) * x ^ k + (1 / 2 * y * (y - 1) * (y - r)) * y ^ k =
        (f (k + 2) - f (k + 1)) - r * (f (k + 1) - f k) := by
      simp only [f]
      ring
    rw [e]
    have h0 := hf k
    have h1 := hf (k + 1)
    have h2 := hf (k + 2)
    have p3 : (0 : ℝ) < (1 / 2) ^ k := by positivity
    have q1 : (1 / 2 : ℝ) ^ (k + 1) = 1 / 2 * (1 / 2) ^ k := by ring
    have q2 : (1 / 2 : ℝ) ^ (k + 2) = 1 / 4 * (1 / 2) ^ k := by ring
    rw [q1] at h1
    rw [q2] at h2
    have a1 : |f (k + 2) - f (k + 1)| ≤ 3 / 4 * (1 / 2) ^ k := (abs_sub _ _).trans (by linarith)
    have a2 : |f (k + 1) - f k| ≤ 3 / 2 * (1 / 2) ^ k := (abs_sub _ _).trans (by linarith)
    calc |f (k + 2) - f (k + 1) - r * (f (k + 1) - f k)| ≤ |f (k + 2) - f (k + 1)| + |r * (f (k + 1) - f k)| := abs_sub _ _
      _ ≤ 3 / 4 * (1 / 2) ^ k + |r| * (3 / 2 * (1 / 2) ^ k) := by
        rw [abs_mul]
        exact add_le_add a1 (mul_le_mul_of_nonneg_left a2 (abs_nonneg _))
      _ ≤ (3 + 3 * |r|) * (1 / 2) ^ k := by nlinarith [mul_nonneg (abs_nonneg r) p3.le]
  have c1 := two_decays x y (1 / 2) _ _ _ (by norm_num) (by linarith) hxy hg
  have c2 := two_decays y x (1 / 2) _ _ _ (by norm_num) (by linarith) hxy.symm fun k => by
    rw [add_comm]
    exact hg k
  have r1 : x - r = 0 := (mul_eq_zero.1 c1).resolve_left (mul_ne_zero (mul_ne_zero (by linarith) (by linarith)) (by linarith))
  have r2 : y - r = 0 := (mul_eq_zero.1 c2).resolve_left (mul_ne_zero (mul_ne_zero (by norm_num) (by linarith)) (by linarith))
  exact hxy (by linarith)

/-! ## Examples -/

/-- A table of leaking gates, one percent leakage, two percent seepage. -/
noncomputable def exTable : List (String × Matrix (Fin 3 × Fin 3) (Fin 3 × Fin 3) ℂ) :=
  [("rx90p[0]", leaky G4.x90p.mat 0.01 0.02 0.98), ("ry90p[0]", leaky G4.y90p.mat 0.01 0.02 0.98),
    ("rx90m[0]", leaky G4.x90m.mat 0.01 0.02 0.98), ("ry90m[0]", leaky G4.y90m.mat 0.01 0.02 0.98)]

theorem ex_rates : Rates 0.01 0.02 0.98 := ⟨by norm_num, by norm_num, by norm_num, by norm_num, by norm_num, by norm_num⟩

theorem ex_lookup : ∀ c : G4, exTable.lookup (onTarget c.name 0) = some (leaky c.mat 0.01 0.02 0.98) := by
  intro c
  cases c <;> rfl

example (m k : ℕ) := C228_leakage ex_rates exTable ex_lookup m k

example (m : ℕ) := C228_false_survival ex_rates (by norm_num) (by norm_num) (by norm_num) (by norm_num) exTable ex_lookup m

example : (leakageRates (depolDecay (1 - 0.01 - 0.02)) (0.02 / (0.01 + 0.02)) (depolDecay 0.98)).2.1 =
    (1 - 2 / 3) * (1 - depolDecay 0.97) := by
  unfold leakageRates
  norm_num

end C3.Fidelity.Leakage
