import Verif.Fidelity.CliffordTwirl
import Verif.Fidelity.Benchmark
import Verif.Propagation.Converge
import Mathlib.Logic.Equiv.Fin.Basic

/-!
# The mean over the draws of randomized benchmarking (C212)

What the data of `RB` and `orbit_infid` (c3/libraries/fidelities.py:514-590, 753-790) look like on average over the draws
of `single_length_RB` (c3/utils/qt_utils.py:448-477). The operations of the four gates are arguments: conjugations
with the propagators for a closed system, arbitrary trace preserving maps otherwise.
-/

set_option linter.unusedSectionVars false

namespace C3.Fidelity.Decay

open Matrix C3.Gates C3.Fidelity.Twirl C3.Fold
open scoped Matrix.Norms.L2Operator

/-! ## Specification -/

/-- The ground state. -/
noncomputable def ground : Herm := bloch (1 / 2) 0 0 (1 / 2)

/-- The population of the ground state. -/
noncomputable def pop : Herm →ₗ[ℝ] ℝ where
  toFun X := ((X : Matrix (Fin 2) (Fin 2) ℂ) 0 0).re
  map_add' X Y := by simp
  map_smul' r X := by simp

/-- The trace. -/
noncomputable def tr : Herm →ₗ[ℝ] ℝ where
  toFun X := ((X : Matrix (Fin 2) (Fin 2) ℂ)).trace.re
  map_add' X Y := by simp [Matrix.trace]; ring
  map_smul' r X := by simp [Matrix.trace]; ring

/-- The population of the ground state after a sequence of gates with the operations `op`, the first gate first. -/
noncomputable def survival (op : G4 → Op) (gates : List G4) : ℝ := pop (timeOrdered (gates.map op) ground)

/-- The mean of a quantity over all outcomes of the draws of `single_length_RB` for one sequence of length `k + 1`: `k`
numbers below 24, all equally likely. -/
noncomputable def rbMean (v : List G4 → ℝ) (k : ℕ) : ℝ :=
  ((24 : ℝ) ^ k)⁻¹ * ∑ d : Fin k → Fin 24, v ((singleRB (List.ofFn fun i => (d i : ℕ))).getD [])

/-! ## Sequences of the group -/

theorem timeOrdered_concat {M : Type*} [Monoid M] (l m : List M) : timeOrdered (l ++ m) = timeOrdered m * timeOrdered l := by
  simp [timeOrdered]

theorem timeOrdered_nil {M : Type*} [Monoid M] : timeOrdered ([] : List M) = 1 := rfl

theorem timeOrdered_one {M : Type*} [Monoid M] (x : M) : timeOrdered [x] = x := by
  simp [timeOrdered]

theorem seqMean_draws {G R : Type*} [Group G] [Fintype G] [Ring R] [Algebra ℝ R] (C : G → R) (k : ℕ) (j : G) :
    seqMean C k j = (((Fintype.card G : ℝ)) ^ (k + 1))⁻¹ •
      ∑ d : Fin k → G, C (j * (timeOrdered (List.ofFn d))⁻¹) * timeOrdered ((List.ofFn d).map C) := by
  induction k generalizing j with
  | zero => simp [seqMean, timeOrdered_nil]
  | succ k ih =>
    simp only [seqMean]
    unfold avg
    simp only [ih, mul_smul_comm, ← Finset.smul_sum, smul_smul]
    have hc : ((Fintype.card G : ℝ))⁻¹ * ((Fintype.card G : ℝ) ^ (k + 1))⁻¹ = ((Fintype.card G : ℝ) ^ (k + 1 + 1))⁻¹ := by
      rw [← mul_inv, ← pow_succ']
    rw [hc]
    congr 1
    rw [← (Fin.snocEquiv fun _ : Fin (k + 1) => G).sum_comp, Fintype.sum_prod_type]
    simp only [Finset.mul_sum]
    rw [Finset.sum_comm]
    refine Eq.trans ?_ Finset.sum_comm
    refine Finset.sum_congr rfl fun d _ => ?_
    let e : G ≃ G := ((Equiv.inv G).trans (Equiv.mulRight j)).trans (Equiv.mulRight (timeOrdered (List.ofFn d))⁻¹)
    refine (Finset.sum_congr rfl fun c _ => ?_).trans (e.sum_comp (fun c => C (j * (timeOrdered
      (List.ofFn ((Fin.snocEquiv fun _ : Fin (k + 1) => G) (c, d))))⁻¹) *
        timeOrdered ((List.ofFn ((Fin.snocEquiv fun _ : Fin (k + 1) => G) (c, d))).map C)))
    have hl : ∀ c, List.ofFn ((Fin.snocEquiv fun _ : Fin (k + 1) => G) (c, d)) = List.ofFn d ++ [c] := by
      intro c
      rw [List.ofFn_succ', List.concat_eq_append]
      simp [Fin.snocEquiv]
    simp only [hl, timeOrdered_concat, timeOrdered_one, List.map_append, List.map_cons, List.map_nil]
    have he : e c = c⁻¹ * j * (timeOrdered (List.ofFn d))⁻¹ := rfl
    rw [he]
    congr 2
    group

/-! ## The sequences of the code -/

/-- The gates of a Clifford. -/
def Cl.word (c : Cl) : List G4 := cliffordsDecomp.getD (c.num - 1) []

theorem runCliffs_cl (l : List Cl) : PhaseEq (runCliffs (l.map Cl.num)) (timeOrdered l).mat := by
  induction l using List.reverseRecOn with
  | nil =>
    rw [timeOrdered_nil, Cl.mat_one]
    exact ⟨1, by simp, by simp [runCliffs]⟩
  | append_singleton l c ih =>
    rw [timeOrdered_concat, timeOrdered_one]
    have h1 : runCliffs ((l ++ [c]).map Cl.num) = c.mat * runCliffs (l.map Cl.num) := by
      unfold runCliffs
      rw [List.map_append, List.foldl_append]
      rfl
    rw [h1]
    exact (ih.mul_left c.mat).trans (Cl.mat_mul c (timeOrdered l))

theorem singleRB_cl (l : List Cl) :
    singleRB (l.map fun c => (c.n : ℕ)) = some ((l ++ [(timeOrdered l)⁻¹]).flatMap Cl.word) := by
  have hs : ∀ c ∈ l.map Cl.num, 1 ≤ c ∧ c ≤ 24 := by
    intro c hc
    obtain ⟨d, -, rfl⟩ := List.mem_map.1 hc
    exact d.num_range
  obtain ⟨i, hi, -, -, -, hu⟩ := C59_inverse _ hs
  have hinv : ((timeOrdered l)⁻¹).num = i := by
    refine hu _ (Cl.num_range _).1 (Cl.num_range _).2 ?_
    have := runCliffs_cl (l ++ [(timeOrdered l)⁻¹])
    rw [timeOrdered_concat, timeOrdered_one, inv_mul_cancel, Cl.mat_one, List.map_append] at this
    exact this
  unfold singleRB
  have hm : (l.map fun c => (c.n : ℕ)).map (· + 1) = l.map Cl.num := by
    rw [List.map_map]
    rfl
  simp only [hm, hi]
  rw [← hinv, ← List.map_singleton (f := Cl.num), ← List.map_append, List.flatMap_map]
  rfl

/-- The operation of a Clifford: those of its gates, one after the other. -/
noncomputable def cliffOp (op : G4 → Op) (c : Cl) : Op := timeOrdered (c.word.map op)

theorem timeOrdered_flatMap (op : G4 → Op) (l : List Cl) :
    timeOrdered ((l.flatMap Cl.word).map op) = timeOrdered (l.map (cliffOp op)) := by
  induction l with
  | nil => rfl
  | cons c l ih =>
    rw [List.flatMap_cons, List.map_append, timeOrdered_concat, ih, List.map_cons, ← List.singleton_append,
      timeOrdered_concat, timeOrdered_one]
    rfl

def clEquiv : Fin 24 ≃ Cl := ⟨fun n => ⟨n⟩, fun c => c.n, fun _ => rfl, fun _ => rfl⟩

theorem rbMean_eq (v : List G4 → ℝ) (k : ℕ) :
    rbMean v k = ((24 : ℝ) ^ k)⁻¹ * ∑ d : Fin k → Cl, v ((List.ofFn d ++ [(timeOrdered (List.ofFn d))⁻¹]).flatMap Cl.word) := by
  unfold rbMean
  congr 1
  rw [← (Equiv.arrowCongr (Equiv.refl (Fin k)) clEquiv).sum_comp]
  refine Finset.sum_congr rfl fun d _ => ?_
  have h := singleRB_cl (List.ofFn ((Equiv.arrowCongr (Equiv.refl (Fin k)) clEquiv) d))
  rw [List.map_ofFn] at h
  have e : (fun i => (d i : ℕ)) = (fun c : Cl => (c.n : ℕ)) ∘ (Equiv.arrowCongr (Equiv.refl (Fin k)) clEquiv) d := rfl
  rw [e, h, Option.getD_some]

/-- The mean over the draws is the mean over the sequences of the group that multiply to the identity. -/
theorem rbMean_survival (op : G4 → Op) (k : ℕ) :
    rbMean (survival op) k = pop (((Fintype.card Cl : ℝ) • seqMean (cliffOp op) k 1) ground) := by
  rw [rbMean_eq, seqMean_draws, smul_smul]
  have h24 : (Fintype.card Cl : ℝ) = 24 := by
    rw [Cl.card]
    norm_num
  have h1 : (24 : ℝ) * ((24 : ℝ) ^ (k + 1))⁻¹ = ((24 : ℝ) ^ k)⁻¹ := by
    rw [pow_succ']
    field_simp
  rw [h24, h1, _root_.smul_apply, map_smul, smul_eq_mul, _root_.sum_apply, map_sum]
  congr 1
  refine Finset.sum_congr rfl fun d _ => ?_
  unfold survival
  rw [timeOrdered_flatMap, List.map_append, timeOrdered_concat, List.map_singleton, timeOrdered_one, one_mul]

/-! ## Estimates -/

theorem pop_bloch (t x y z : ℝ) : pop (bloch t x y z) = t + z := by
  change ((!![(t + z : ℂ), x - y * Complex.I; x + y * Complex.I, t - z] : Matrix (Fin 2) (Fin 2) ℂ) 0 0).re = _
  simp

theorem tr_bloch (t x y z : ℝ) : tr (bloch t x y z) = 2 * t := by
  simp [tr, bloch, Matrix.trace]
  ring

theorem pop_le (X : Herm) : |pop X| ≤ ‖X‖ :=
  (Complex.abs_re_le_norm _).trans (C3.Propagation.Converge.entry_le _ 0 0)

theorem tr_le (X : Herm) : |tr X| ≤ 2 * ‖X‖ := by
  have h0 := (Complex.abs_re_le_norm _).trans (C3.Propagation.Converge.entry_le (X : Matrix (Fin 2) (Fin 2) ℂ) 0 0)
  have h1 := (Complex.abs_re_le_norm _).trans (C3.Propagation.Converge.entry_le (X : Matrix (Fin 2) (Fin 2) ℂ) 1 1)
  have e : tr X = ((X : Matrix (Fin 2) (Fin 2) ℂ) 0 0).re + ((X : Matrix (Fin 2) (Fin 2) ℂ) 1 1).re := by
    simp [tr, Matrix.trace]
  have hn : ‖X‖ = ‖(X : Matrix (Fin 2) (Fin 2) ℂ)‖ := rfl
  rw [e, hn]
  exact (abs_add_le _ _).trans (by linarith)

/-- The norm of a diagonal matrix with two real entries. -/
theorem bloch_norm (t z b : ℝ) (h0 : |t + z| ≤ b) (h1 : |t - z| ≤ b) : ‖bloch t 0 0 z‖ ≤ b := by
  change ‖(!![(t + z : ℂ), (0 : ℝ) - (0 : ℝ) * Complex.I; (0 : ℝ) + (0 : ℝ) * Complex.I, t - z])‖ ≤ b
  have e : !![(t + z : ℂ), (0 : ℝ) - (0 : ℝ) * Complex.I; (0 : ℝ) + (0 : ℝ) * Complex.I, t - z] =
      Matrix.diagonal ![((t + z : ℝ) : ℂ), ((t - z : ℝ) : ℂ)] := by
    ext i j
    fin_cases i <;> fin_cases j <;> simp
  rw [e, Matrix.l2_opNorm_diagonal, pi_norm_le_iff_of_nonneg ((abs_nonneg _).trans h0)]
  intro i
  fin_cases i
  · change ‖((t + z : ℝ) : ℂ)‖ ≤ b
    rwa [Complex.norm_real]
  · change ‖((t - z : ℝ) : ℂ)‖ ≤ b
    rwa [Complex.norm_real]

theorem ground_norm : ‖ground‖ ≤ 1 := bloch_norm _ _ _ (by norm_num) (by norm_num)

theorem close_words {A : Type*} [NormedRing A] [NormOneClass A] (op a : G4 → A) (η : ℝ) (hη0 : 0 ≤ η) (h : ∀ g, ‖op g - a g‖ ≤ η)
    (ha : ∀ g, ‖a g‖ ≤ 1) (l : List G4) :
    ‖timeOrdered (l.map op) - timeOrdered (l.map a)‖ ≤ (1 + η) ^ l.length - 1 ∧ ‖timeOrdered (l.map a)‖ ≤ 1 := by
  induction l using List.reverseRecOn with
  | nil => simp [timeOrdered_nil]
  | append_singleton l g ih =>
    simp only [List.map_append, List.map_singleton, timeOrdered_concat, timeOrdered_one, List.length_append, List.length_singleton]
    obtain ⟨h1, h2⟩ := ih
    have hb : (0 : ℝ) ≤ (1 + η) ^ l.length - 1 := (norm_nonneg _).trans h1
    refine ⟨?_, (norm_mul_le _ _).trans (mul_le_one₀ (ha g) (norm_nonneg _) h2)⟩
    have e : op g * timeOrdered (l.map op) - a g * timeOrdered (l.map a) =
        (op g - a g) * (timeOrdered (l.map op) - timeOrdered (l.map a)) + (op g - a g) * timeOrdered (l.map a) +
          a g * (timeOrdered (l.map op) - timeOrdered (l.map a)) := by noncomm_ring
    rw [e]
    calc _ ≤ ‖op g - a g‖ * ‖timeOrdered (l.map op) - timeOrdered (l.map a)‖ + ‖op g - a g‖ * ‖timeOrdered (l.map a)‖ +
          ‖a g‖ * ‖timeOrdered (l.map op) - timeOrdered (l.map a)‖ :=
        (norm_add_le _ _).trans (add_le_add ((norm_add_le _ _).trans (add_le_add (norm_mul_le _ _) (norm_mul_le _ _)))
          (norm_mul_le _ _))
      _ ≤ η * ((1 + η) ^ l.length - 1) + η * 1 + 1 * ((1 + η) ^ l.length - 1) := by
        gcongr
        · exact h g
        · exact h g
        · exact ha g
      _ = (1 + η) ^ (l.length + 1) - 1 := by ring

theorem word_length (c : Cl) : c.word.length ≤ 4 := by
  have : ∀ n : Fin 24, (Cl.word ⟨n⟩).length ≤ 4 := by decide
  exact this c.n

theorem timeOrdered_ad (U : G4 → Matrix (Fin 2) (Fin 2) ℂ) (l : List G4) :
    timeOrdered (l.map fun g => ad (U g)) = ad (timeOrdered (l.map U)) := by
  induction l using List.reverseRecOn with
  | nil => exact ad_one.symm
  | append_singleton l g ih =>
    simp only [List.map_append, List.map_singleton, timeOrdered_concat, timeOrdered_one, ad_mul, ih]

/-- With the ideal gates every Clifford acts as it should. -/
theorem cliffOp_ideal (c : Cl) : cliffOp (fun g => ad g.mat) c = rep c := by
  unfold cliffOp
  rw [timeOrdered_ad]
  have h : timeOrdered (c.word.map G4.mat) = c.mat := by
    have h1 := (C60_decomposition c.num c.num_range.1 c.num_range.2).2
    unfold cliffords at h1
    rw [if_pos c.num_range, Option.some.injEq] at h1
    have h2 := runGates_eq c.word
    unfold matmul at h2
    unfold timeOrdered
    rw [← List.map_reverse, ← h2]
    exact h1.symm
  rw [h]
  rfl

theorem mat_unitary (g : G4) : g.matᴴ * g.mat = 1 := by
  have := matmul_unitary [g]
  simpa [matmul] using this

theorem cliffOp_close (op : G4 → Op) (η : ℝ) (hη : η ≤ 1 / 250) (hop : ∀ g, ‖op g - ad g.mat‖ ≤ η) (c : Cl) :
    ‖cliffOp op c - rep c‖ ≤ 5 * η := by
  have hη0 : 0 ≤ η := (norm_nonneg (op .x90p - ad G4.x90p.mat)).trans (hop .x90p)
  rw [← cliffOp_ideal]
  refine (close_words op (fun g => ad g.mat) η hη0 hop (fun g => ad_norm _ (mat_unitary g)) c.word).1.trans ?_
  have h4 : (1 + η) ^ c.word.length ≤ (1 + η) ^ 4 := pow_le_pow_right₀ (by linarith) (word_length c)
  nlinarith [mul_nonneg hη0 hη0, mul_nonneg (mul_nonneg hη0 hη0) hη0, mul_nonneg (mul_nonneg hη0 hη0) (mul_nonneg hη0 hη0)]

theorem cliffOp_tr (op : G4 → Op) (htr : ∀ g X, tr (op g X) = tr X) (c : Cl) (X : Herm) : tr (cliffOp op c X) = tr X := by
  unfold cliffOp
  induction c.word using List.reverseRecOn with
  | nil => simp [timeOrdered_nil]
  | append_singleton l g ih =>
    simp only [List.map_append, List.map_singleton, timeOrdered_concat, timeOrdered_one, mul_apply_eq_comp, htr, ih]

end C3.Fidelity.Decay
