import Verif.Fidelity.Average
import Mathlib.MeasureTheory.Integral.Bochner.ContinuousLinearMap
import Mathlib.MeasureTheory.Constructions.BorelSpace.Complex
import Mathlib.MeasureTheory.Measure.Lebesgue.EqHaar
import Mathlib.MeasureTheory.Measure.Haar.Basic
import Mathlib.Topology.Instances.Matrix
import Mathlib.Tactic.NormNum
import Mathlib.Tactic.Ring
import Mathlib.Tactic.Linarith
import Mathlib.Tactic.FieldSimp

/-!
# C206: the average fidelity as a mean over all input states

`average_infid` (c3/libraries/fidelities.py:290-311) is a closed formula in the trace of the error. Here its value is
compared with what it is named after: the mean, over all pure input states, of the probability to find the wanted
output state. The states are distributed by a measure that no unitary changes; its moments are derived below.
-/

namespace C3.Fidelity.Haar

open MeasureTheory Matrix C3.Hilbert C3.Gates C3.Fidelity

noncomputable section

variable {n : Type*} [Fintype n] [DecidableEq n]

/-- A uniformly random pure state: a probability measure on unit vectors that no unitary changes. -/
structure IsUniform (μ : Measure (n → ℂ)) : Prop where
  prob : IsProbabilityMeasure μ
  unit : ∀ᵐ ψ ∂μ, ∑ i, ‖ψ i‖ ^ 2 = 1
  inv : ∀ U : Matrix n n ℂ, Uᴴ * U = 1 → μ.map (fun ψ => U *ᵥ ψ) = μ

/-- The mean over all states of the probability to find `U ψ` in the wanted state `V ψ`, with `M = Vᴴ U`. -/
def meanFid (μ : Measure (n → ℂ)) (M : Matrix n n ℂ) : ℝ := ∫ ψ, ‖star ψ ⬝ᵥ (M *ᵥ ψ)‖ ^ 2 ∂μ

def mom (μ : Measure (n → ℂ)) (i j k l : n) : ℂ := ∫ ψ, ψ i * ψ j * (star (ψ k) * star (ψ l)) ∂μ

variable {μ : Measure (n → ℂ)}

omit [DecidableEq n] in
theorem comp_le {ψ : n → ℂ} (h : ∑ i, ‖ψ i‖ ^ 2 = 1) (i : n) : ‖ψ i‖ ≤ 1 := by
  have : ‖ψ i‖ ^ 2 ≤ 1 := by
    rw [← h]
    exact Finset.single_le_sum (f := fun i => ‖ψ i‖ ^ 2) (fun _ _ => by positivity) (Finset.mem_univ i)
  nlinarith [norm_nonneg (ψ i)]

theorem mom_int (h : IsUniform μ) (i j k l : n) :
    Integrable (fun ψ : n → ℂ => ψ i * ψ j * (star (ψ k) * star (ψ l))) μ := by
  have := h.prob
  refine Integrable.mono' (integrable_const (1 : ℝ)) ?_ ?_
  · have : Continuous fun ψ : n → ℂ => ψ i * ψ j * (star (ψ k) * star (ψ l)) := by fun_prop
    exact this.aestronglyMeasurable
  · filter_upwards [h.unit] with ψ hψ
    rw [norm_mul, norm_mul, norm_mul, norm_star, norm_star]
    have hi := comp_le hψ i
    have hj := comp_le hψ j
    have hk := comp_le hψ k
    have hl := comp_le hψ l
    have h1 : ‖ψ i‖ * ‖ψ j‖ ≤ 1 := mul_le_one₀ hi (norm_nonneg _) hj
    have h2 : ‖ψ k‖ * ‖ψ l‖ ≤ 1 := mul_le_one₀ hk (norm_nonneg _) hl
    exact mul_le_one₀ h1 (by positivity) h2

theorem mom_inv (h : IsUniform μ) (U : Matrix n n ℂ) (hU : Uᴴ * U = 1) (i j k l : n) :
    mom μ i j k l = ∫ ψ, (U *ᵥ ψ) i * (U *ᵥ ψ) j * (star ((U *ᵥ ψ) k) * star ((U *ᵥ ψ) l)) ∂μ := by
  conv_lhs => rw [mom, ← h.inv U hU]
  rw [integral_map]
  · have : Continuous fun ψ : n → ℂ => U *ᵥ ψ := continuous_const.matrix_mulVec continuous_id
    exact this.aemeasurable
  · have : Continuous fun ψ : n → ℂ => ψ i * ψ j * (star (ψ k) * star (ψ l)) := by fun_prop
    exact this.aestronglyMeasurable

theorem mom_phase (h : IsUniform μ) (a i j k l : n) : mom μ i j k l =
    (if i = a then Complex.I else 1) * (if j = a then Complex.I else 1) *
      ((if k = a then -Complex.I else 1) * (if l = a then -Complex.I else 1)) * mom μ i j k l := by
  have hU : (diagonal fun b => if b = a then Complex.I else 1)ᴴ * (diagonal fun b => if b = a then Complex.I else 1)
      = (1 : Matrix n n ℂ) := by
    rw [diagonal_conjTranspose, diagonal_mul_diagonal, ← diagonal_one]
    congr 1
    funext b
    by_cases hb : b = a <;> simp [hb]
  conv_lhs => rw [mom_inv h _ hU]
  rw [mom, ← integral_const_mul]
  congr 1
  funext ψ
  simp only [mulVec_diagonal]
  have e : ∀ b, star ((if b = a then Complex.I else 1) * ψ b) = (if b = a then -Complex.I else 1) * star (ψ b) := by
    intro b
    by_cases hb : b = a <;> simp [hb]
  rw [e, e]
  ring

theorem mom_zero (h : IsUniform μ) (i j k l : n) (h1 : ¬(i = k ∧ j = l)) (h2 : ¬(i = l ∧ j = k)) :
    mom μ i j k l = 0 := by
  have key : ∀ c : ℂ, c ≠ 1 → mom μ i j k l = c * mom μ i j k l → mom μ i j k l = 0 := by
    intro c hc e
    have : (1 - c) * mom μ i j k l = 0 := by linear_combination e
    rcases mul_eq_zero.mp this with h | h
    · exact absurd (by linear_combination -h) hc
    · exact h
  have hI : Complex.I ≠ 1 := by
    intro e
    have := congrArg Complex.re e
    simp at this
  have hI2 : Complex.I * Complex.I ≠ 1 := by
    rw [Complex.I_mul_I]; norm_num
  by_cases hik : i = k
  · have hjl : j ≠ l := fun e => h1 ⟨hik, e⟩
    subst hik
    refine key _ ?_ (mom_phase h j i j i l)
    by_cases hij : i = j
    · simp [hij, hjl.symm, hI]
    · simp [hij, hjl.symm, hI]
  · by_cases hil : i = l
    · have hjk : j ≠ k := fun e => h2 ⟨hil, e⟩
      subst hil
      refine key _ ?_ (mom_phase h j i j k i)
      by_cases hij : i = j
      · simp [hij, hjk.symm, hI]
      · simp [hij, hjk.symm, hI]
    · refine key _ ?_ (mom_phase h i i j k l)
      by_cases hij : j = i
      · simp [hij, Ne.symm hik, Ne.symm hil]
        norm_num
      · simp [hij, Ne.symm hik, Ne.symm hil, hI]

/-- The reflection at the vector with entries `3/5` and `4/5`. -/
def refl (i j : n) : Matrix n n ℂ :=
  1 - (2 : ℂ) • vecMulVec (Pi.single i (3 / 5) + Pi.single j (4 / 5)) (Pi.single i (3 / 5) + Pi.single j (4 / 5))

theorem refl_unitary {i j : n} (hij : i ≠ j) : (refl i j)ᴴ * refl i j = 1 := by
  set v : n → ℂ := Pi.single i (3 / 5) + Pi.single j (4 / 5) with hv
  have hs : star v = v := by
    funext b
    simp only [hv, Pi.star_apply, Pi.add_apply, Pi.single_apply]
    split_ifs <;> simp
  have hd : v ⬝ᵥ v = 1 := by
    simp [hv, dotProduct_add, hij, hij.symm]
    norm_num
  have hh : (refl i j)ᴴ = refl i j := by
    unfold refl
    rw [conjTranspose_sub, conjTranspose_one, conjTranspose_smul, conjTranspose_vecMulVec, ← hv, hs]
    simp
  rw [hh]
  unfold refl
  rw [← hv]
  have hp : vecMulVec v v * vecMulVec v v = vecMulVec v v := by
    rw [vecMulVec_mul_vecMulVec, hd, one_smul]
  rw [mul_sub, sub_mul, sub_mul, mul_one, one_mul, mul_one, Matrix.mul_smul, Matrix.smul_mul, hp, smul_smul]
  module

theorem refl_apply {i j : n} (hij : i ≠ j) (ψ : n → ℂ) :
    (refl i j *ᵥ ψ) i = 7 / 25 * ψ i - 24 / 25 * ψ j ∧ (refl i j *ᵥ ψ) j = -24 / 25 * ψ i - 7 / 25 * ψ j := by
  unfold refl
  rw [sub_mulVec, one_mulVec, smul_mulVec, vecMulVec_mulVec]
  constructor
  · simp [dotProduct, add_mul, Finset.sum_add_distrib, Pi.single_apply, hij, ite_mul]
    ring
  · simp [dotProduct, add_mul, Finset.sum_add_distrib, Pi.single_apply, hij.symm, ite_mul]
    ring

theorem quartic (h : IsUniform μ) {i j : n} (hij : i ≠ j) (p q : ℂ) (hp : star p = p) (hq : star q = q) :
    ∫ ψ : n → ℂ, (p * ψ i + q * ψ j) * (p * ψ i + q * ψ j) * (star (p * ψ i + q * ψ j) * star (p * ψ i + q * ψ j)) ∂μ
      = p ^ 4 * mom μ i i i i + q ^ 4 * mom μ j j j j + 4 * (p ^ 2 * q ^ 2) * mom μ i j i j := by
  let f : Fin 2 → n := ![i, j]
  let c : Fin 2 → ℂ := ![p, q]
  have e : ∀ ψ : n → ℂ, (p * ψ i + q * ψ j) * (p * ψ i + q * ψ j) * (star (p * ψ i + q * ψ j) * star (p * ψ i + q * ψ j))
      = ∑ x : Fin 2 × Fin 2 × Fin 2 × Fin 2, (c x.1 * c x.2.1 * c x.2.2.1 * c x.2.2.2) *
          (ψ (f x.1) * ψ (f x.2.1) * (star (ψ (f x.2.2.1)) * star (ψ (f x.2.2.2)))) := by
    intro ψ
    simp only [Fintype.sum_prod_type, Fin.sum_univ_two, f, c, Matrix.cons_val_zero, Matrix.cons_val_one, star_add,
      star_mul', hp, hq]
    ring
  simp only [e]
  rw [integral_finsetSum _ fun x _ => (mom_int h _ _ _ _).const_mul _]
  simp only [integral_const_mul]
  change ∑ x : Fin 2 × Fin 2 × Fin 2 × Fin 2, _ * mom μ (f x.1) (f x.2.1) (f x.2.2.1) (f x.2.2.2) = _
  simp only [Fintype.sum_prod_type, Fin.sum_univ_two, f, c, Matrix.cons_val_zero, Matrix.cons_val_one]
  have c1 : mom μ i j j i = mom μ i j i j := by
    unfold mom; congr 1; funext ψ; ring
  have c2 : mom μ j i i j = mom μ i j i j := by
    unfold mom; congr 1; funext ψ; ring
  have c3 : mom μ j i j i = mom μ i j i j := by
    unfold mom; congr 1; funext ψ; ring
  have z : ∀ a b c d : n, ¬(a = c ∧ b = d) → ¬(a = d ∧ b = c) → mom μ a b c d = 0 := mom_zero h
  rw [c1, c2, c3, z i i i j (by simp [hij]) (by simp [hij]), z i i j i (by simp [hij]) (by simp [hij]),
    z i i j j (by simp [hij]) (by simp [hij]), z i j i i (by simp [hij.symm]) (by simp [hij.symm]),
    z i j j j (by simp [hij]) (by simp [hij]),
    z j i i i (by simp [hij.symm]) (by simp [hij.symm]), z j i j j (by simp [hij]) (by simp [hij]),
    z j j i i (by simp [hij.symm]) (by simp [hij.symm]), z j j i j (by simp [hij.symm]) (by simp [hij.symm]),
    z j j j i (by simp [hij.symm]) (by simp [hij.symm])]
  ring

theorem mom_rel (h : IsUniform μ) {i j : n} (hij : i ≠ j) :
    mom μ i i i i = mom μ j j j j ∧ mom μ i i i i = 2 * mom μ i j i j := by
  have e1 := mom_inv h _ (refl_unitary hij) i i i i
  have e2 := mom_inv h _ (refl_unitary hij) j j j j
  simp only [(refl_apply hij _).1] at e1
  simp only [(refl_apply hij _).2] at e2
  have q1 := quartic h hij (7 / 25) (-24 / 25) (by simp) (by simp)
  have q2 := quartic h hij (-24 / 25) (-7 / 25) (by simp) (by simp)
  have f1 : ∀ ψ : n → ℂ, 7 / 25 * ψ i - 24 / 25 * ψ j = 7 / 25 * ψ i + -24 / 25 * ψ j := fun ψ => by ring
  have f2 : ∀ ψ : n → ℂ, -24 / 25 * ψ i - 7 / 25 * ψ j = -24 / 25 * ψ i + -7 / 25 * ψ j := fun ψ => by ring
  simp only [f1] at e1
  simp only [f2] at e2
  rw [q1] at e1
  rw [q2] at e2
  have d1 : mom μ i i i i = mom μ j j j j := by
    have : (1 - ((7 / 25) ^ 4 - (-24 / 25) ^ 4)) * (mom μ i i i i - mom μ j j j j) = 0 := by
      linear_combination e1 - e2
    rcases mul_eq_zero.mp this with h | h
    · norm_num at h
    · linear_combination h
  refine ⟨d1, ?_⟩
  rw [← d1] at e1
  linear_combination (390625 / 56448 : ℂ) * e1

theorem mom_total (h : IsUniform μ) : ∑ i, ∑ j, mom μ i j i j = 1 := by
  have := h.prob
  unfold mom
  have e : ∀ i : n, ∑ j, ∫ ψ : n → ℂ, ψ i * ψ j * (star (ψ i) * star (ψ j)) ∂μ =
      ∫ ψ : n → ℂ, ∑ j, ψ i * ψ j * (star (ψ i) * star (ψ j)) ∂μ :=
    fun i => (integral_finsetSum _ fun j _ => mom_int h _ _ _ _).symm
  simp only [e]
  rw [← integral_finsetSum _ fun i _ => integrable_finsetSum _ fun j _ => mom_int h _ _ _ _]
  have e2 : (fun ψ : n → ℂ => ∑ i, ∑ j, ψ i * ψ j * (star (ψ i) * star (ψ j))) =ᵐ[μ] fun _ => 1 := by
    filter_upwards [h.unit] with ψ hψ
    have : ∑ i, ∑ j, ψ i * ψ j * (star (ψ i) * star (ψ j)) = (∑ i, ψ i * star (ψ i)) * ∑ j, ψ j * star (ψ j) := by
      rw [Finset.sum_mul_sum]
      exact Finset.sum_congr rfl fun i _ => Finset.sum_congr rfl fun j _ => by ring
    rw [this]
    have e3 : ∑ i, ψ i * star (ψ i) = 1 := by
      have : ∀ i, ψ i * star (ψ i) = ((‖ψ i‖ ^ 2 : ℝ) : ℂ) := fun i => by
        push_cast
        exact Complex.mul_conj' _
      rw [Finset.sum_congr rfl fun i _ => this i, ← Complex.ofReal_sum, hψ, Complex.ofReal_one]
    rw [e3, one_mul]
  rw [integral_congr_ae e2]
  simp

theorem mom_value (h : IsUniform μ) (i j k l : n) : mom μ i j k l =
    ((if i = k ∧ j = l then 1 else 0) + (if i = l ∧ j = k then 1 else 0)) /
      (Fintype.card n * (Fintype.card n + 1)) := by
  have hne : (Fintype.card n : ℂ) ≠ 0 := by
    have : Nonempty n := ⟨i⟩
    exact_mod_cast Fintype.card_ne_zero
  have hne1 : (Fintype.card n : ℂ) + 1 ≠ 0 := by exact_mod_cast Nat.succ_ne_zero (Fintype.card n)
  have hB : ∀ a b : n, mom μ a b a b = (if a = b then 1 else 1 / 2) * mom μ i i i i := by
    intro a b
    have hA : ∀ a, mom μ a a a a = mom μ i i i i := fun a => by
      by_cases ha : a = i
      · rw [ha]
      · exact (mom_rel h ha).1
    by_cases hab : a = b
    · subst hab; simp [hA]
    · rw [if_neg hab, ← hA a, (mom_rel h hab).2]; ring
  have hA : mom μ i i i i = 2 / (Fintype.card n * (Fintype.card n + 1)) := by
    have ht : ∑ a : n, ∑ b, (1 / 2 + if a = b then 1 / 2 else 0) * mom μ i i i i = 1 := by
      refine Eq.trans ?_ (mom_total h)
      refine Finset.sum_congr rfl fun a _ => Finset.sum_congr rfl fun b _ => ?_
      rw [hB a b]; split_ifs <;> ring
    generalize mom μ i i i i = X at ht ⊢
    simp only [← Finset.sum_mul, Finset.sum_add_distrib, Finset.sum_ite_eq, Finset.mem_univ, if_true,
      Finset.sum_const, Finset.card_univ, nsmul_eq_mul] at ht
    rw [eq_div_iff (mul_ne_zero hne hne1)]
    linear_combination 2 * ht
  by_cases h1 : i = k ∧ j = l
  · obtain ⟨rfl, rfl⟩ := h1
    rw [hB, hA]
    by_cases hij : i = j
    · subst hij; simp; ring
    · simp only [hij, false_and, if_false, and_self, if_true]
      field_simp
      norm_num
  · by_cases h2 : i = l ∧ j = k
    · obtain ⟨rfl, rfl⟩ := h2
      have : mom μ i j j i = mom μ i j i j := by
        unfold mom; congr 1; funext ψ; ring
      have hij : i ≠ j := fun e => h1 ⟨e, e.symm⟩
      rw [this, hB, hA]
      simp only [hij, false_and, if_false, and_self, if_true]
      field_simp
      norm_num
    · rw [mom_zero h i j k l h1 h2, if_neg h1, if_neg h2]; simp

theorem integral_complex_ofReal' {α : Type*} [MeasurableSpace α] {ν : Measure α} {f : α → ℝ} :
    ∫ a, (f a : ℂ) ∂ν = ((∫ a, f a ∂ν : ℝ) : ℂ) := integral_ofReal

theorem meanFid_value (h : IsUniform μ) (M : Matrix n n ℂ) :
    meanFid μ M = (‖M.trace‖ ^ 2 + ∑ a, ∑ b, ‖M a b‖ ^ 2) / (Fintype.card n * (Fintype.card n + 1)) := by
  have e : ∀ ψ : n → ℂ, ((‖star ψ ⬝ᵥ (M *ᵥ ψ)‖ ^ 2 : ℝ) : ℂ) = ∑ x : n × n × n × n,
      (M x.1 x.2.1 * star (M x.2.2.1 x.2.2.2)) *
        (ψ x.2.1 * ψ x.2.2.1 * (star (ψ x.1) * star (ψ x.2.2.2))) := by
    intro ψ
    have e1 : star ψ ⬝ᵥ (M *ᵥ ψ) = ∑ x : n × n, M x.1 x.2 * (ψ x.2 * star (ψ x.1)) := by
      rw [Fintype.sum_prod_type]
      simp only [dotProduct, mulVec, Finset.mul_sum, Pi.star_apply]
      exact Finset.sum_congr rfl fun a _ => Finset.sum_congr rfl fun b _ => by ring
    have e2 : ((‖star ψ ⬝ᵥ (M *ᵥ ψ)‖ ^ 2 : ℝ) : ℂ) = (star ψ ⬝ᵥ (M *ᵥ ψ)) * star (star ψ ⬝ᵥ (M *ᵥ ψ)) := by
      push_cast
      exact (Complex.mul_conj' _).symm
    rw [e2, e1, star_sum, Finset.sum_mul_sum]
    rw [← Fintype.sum_prod_type']
    rw [← (Equiv.prodAssoc n n (n × n)).symm.sum_comp]
    refine Finset.sum_congr rfl fun x _ => ?_
    simp only [Equiv.prodAssoc_symm_apply, star_mul', star_star]
    ring
  have hv : ((meanFid μ M : ℝ) : ℂ) = ∑ x : n × n × n × n, (M x.1 x.2.1 * star (M x.2.2.1 x.2.2.2)) *
      mom μ x.2.1 x.2.2.1 x.1 x.2.2.2 := by
    unfold meanFid
    rw [← integral_complex_ofReal']
    simp only [e]
    rw [integral_finsetSum _ fun x _ => (mom_int h _ _ _ _).const_mul _]
    simp only [integral_const_mul]
    rfl
  have hs : ∀ a b c d : n, (M a b * star (M c d)) * mom μ b c a d =
      ((if a = b ∧ c = d then M a b * star (M c d) else 0) + (if b = d ∧ c = a then M a b * star (M c d) else 0)) /
        (Fintype.card n * (Fintype.card n + 1)) := by
    intro a b c d
    rw [mom_value h, mul_div_assoc']
    congr 1
    simp only [eq_comm (a := b) (b := a)]
    split_ifs <;> ring
  apply Complex.ofReal_injective
  rw [hv]
  simp only [hs, ← Finset.sum_div, Fintype.sum_prod_type]
  push_cast
  congr 1
  simp only [Finset.sum_add_distrib]
  congr 1
  · simp only [ite_and, Finset.sum_ite_eq, Finset.mem_univ, if_true, Finset.sum_ite_irrel, Finset.sum_const_zero]
    rw [← Complex.mul_conj', Matrix.trace, map_sum, Finset.sum_mul_sum]
    rfl
  · refine Finset.sum_congr rfl fun a _ => Finset.sum_congr rfl fun b _ => ?_
    rw [← Complex.mul_conj', Finset.sum_eq_single a, Finset.sum_eq_single b]
    · simp
    · intro d _ hd
      simp [hd.symm]
    · simp
    · intro c _ hc
      simp [hc]
    · simp

/-! ## A uniform measure exists -/

theorem sum_norm_inv (U : Matrix n n ℂ) (hU : Uᴴ * U = 1) (ψ : n → ℂ) :
    ∑ i, ‖(U *ᵥ ψ) i‖ ^ 2 = ∑ i, ‖ψ i‖ ^ 2 := by
  have e : ∀ φ : n → ℂ, ((∑ i, ‖φ i‖ ^ 2 : ℝ) : ℂ) = star φ ⬝ᵥ φ := by
    intro φ
    push_cast
    exact Finset.sum_congr rfl fun i _ => by rw [← Complex.conj_mul']; rfl
  apply Complex.ofReal_injective
  rw [e, e, star_mulVec, ← dotProduct_mulVec, mulVec_mulVec, hU, one_mulVec]

def ball : Set (n → ℂ) := {ψ | ∑ i, ‖ψ i‖ ^ 2 ≤ 1}

def unitize (ψ : n → ℂ) : n → ℂ := (((∑ i, ‖ψ i‖ ^ 2 : ℝ).sqrt : ℂ))⁻¹ • ψ

omit [DecidableEq n] in
theorem ball_compact : IsCompact (ball (n := n)) := by
  refine Metric.isCompact_of_isClosed_isBounded ?_ ?_
  · exact isClosed_le (by fun_prop) continuous_const
  · refine (Metric.isBounded_closedBall (x := (0 : n → ℂ)) (r := 1)).subset ?_
    intro ψ hψ
    rw [mem_closedBall_zero_iff, pi_norm_le_iff_of_nonneg zero_le_one]
    intro i
    have : ‖ψ i‖ ^ 2 ≤ 1 := le_trans (Finset.single_le_sum (f := fun i => ‖ψ i‖ ^ 2)
      (fun _ _ => by positivity) (Finset.mem_univ i)) hψ
    nlinarith [norm_nonneg (ψ i)]

omit [DecidableEq n] in
theorem ball_pos (ν : Measure (n → ℂ)) [ν.IsAddHaarMeasure] : ν ball ≠ 0 := by
  have ho : IsOpen {ψ : n → ℂ | ∑ i, ‖ψ i‖ ^ 2 < 1} := isOpen_lt (by fun_prop) continuous_const
  have h1 : 0 < ν {ψ : n → ℂ | ∑ i, ‖ψ i‖ ^ 2 < 1} := ho.measure_pos ν ⟨0, by simp⟩
  have h2 : ν {ψ : n → ℂ | ∑ i, ‖ψ i‖ ^ 2 < 1} ≤ ν ball := measure_mono fun ψ hψ => by
    simp only [ball, Set.mem_ofPred_eq] at hψ ⊢
    exact hψ.le
  exact (h1.trans_le h2).ne'

theorem haar_unitary (ν : Measure (n → ℂ)) [ν.IsAddHaarMeasure] (U : Matrix n n ℂ) (hU : Uᴴ * U = 1) :
    ν.map (fun ψ => U *ᵥ ψ) = ν := by
  let f : (n → ℂ) →ₗ[ℝ] (n → ℂ) := (Matrix.mulVecLin U).restrictScalars ℝ
  have hinj : Function.Injective f := by
    intro a b hab
    have : Uᴴ *ᵥ (U *ᵥ a) = Uᴴ *ᵥ (U *ᵥ b) := congrArg _ hab
    simpa [mulVec_mulVec, hU] using this
  have hdet : LinearMap.det f ≠ 0 := by
    have := (LinearEquiv.ofInjectiveEndo f hinj).isUnit_det'
    exact this.ne_zero
  have hm := Measure.map_linearMap_addHaar_eq_smul_addHaar (μ := ν) hdet
  have hf : (f : (n → ℂ) → (n → ℂ)) = fun ψ => U *ᵥ ψ := rfl
  rw [hf] at hm
  have hc : Continuous fun ψ : n → ℂ => U *ᵥ ψ := continuous_const.matrix_mulVec continuous_id
  have hb := congrArg (fun ν => ν (ball (n := n))) hm
  simp only [Measure.smul_apply, smul_eq_mul] at hb
  rw [Measure.map_apply hc.measurable ball_compact.isClosed.measurableSet] at hb
  have hpre : (fun ψ : n → ℂ => U *ᵥ ψ) ⁻¹' ball = ball := by
    ext ψ
    simp only [ball, Set.mem_preimage, Set.mem_ofPred_eq, sum_norm_inv U hU]
  rw [hpre] at hb
  have hpos := ball_pos ν
  have hk := (ENNReal.mul_eq_right hpos ball_compact.measure_ne_top).mp hb.symm
  rw [hm, hk, one_smul]

omit [DecidableEq n] in
theorem unitize_meas : Measurable (unitize (n := n)) := by
  unfold unitize
  have h1 : Measurable fun ψ : n → ℂ => ((((∑ i, ‖ψ i‖ ^ 2 : ℝ).sqrt : ℝ) : ℂ))⁻¹ := by
    have : Continuous fun ψ : n → ℂ => (((∑ i, ‖ψ i‖ ^ 2 : ℝ).sqrt : ℝ) : ℂ) := by fun_prop
    exact this.measurable.inv
  exact h1.smul measurable_id

theorem uniform_of_haar [Nonempty n] (ν : Measure (n → ℂ)) [ν.IsAddHaarMeasure] :
    IsUniform ((ν ball)⁻¹ • (ν.restrict ball).map unitize) := by
  have hpos := ball_pos ν
  refine ⟨⟨?_⟩, ?_, ?_⟩
  · rw [Measure.smul_apply, Measure.map_apply unitize_meas MeasurableSet.univ, Set.preimage_univ,
      Measure.restrict_apply MeasurableSet.univ, Set.univ_inter, smul_eq_mul,
      ENNReal.inv_mul_cancel hpos ball_compact.measure_ne_top]
  · refine Measure.ae_smul_measure ?_ _
    rw [ae_map_iff unitize_meas.aemeasurable (by
      have : IsClosed {ψ : n → ℂ | ∑ i, ‖ψ i‖ ^ 2 = 1} := isClosed_eq (by fun_prop) continuous_const
      exact this.measurableSet)]
    refine ae_restrict_of_ae ?_
    have : ∀ᵐ ψ : n → ℂ ∂ν, ψ ≠ 0 := by
      rw [ae_iff]
      simp
    filter_upwards [this] with ψ hψ
    have hs : 0 < ∑ i, ‖ψ i‖ ^ 2 := by
      obtain ⟨i, hi⟩ := Function.ne_iff.mp hψ
      exact Finset.sum_pos' (fun _ _ => by positivity) ⟨i, Finset.mem_univ i, by
        have := norm_pos_iff.mpr hi
        positivity⟩
    simp only [unitize, Pi.smul_apply, smul_eq_mul, norm_mul, norm_inv, mul_pow, Complex.norm_real, inv_pow]
    rw [← Finset.mul_sum, Real.norm_eq_abs, sq_abs, Real.sq_sqrt hs.le, inv_mul_cancel₀ hs.ne']
  · intro U hU
    have hc : Continuous fun ψ : n → ℂ => U *ᵥ ψ := continuous_const.matrix_mulVec continuous_id
    rw [Measure.map_smul, Measure.map_map hc.measurable unitize_meas]
    have : (fun ψ : n → ℂ => U *ᵥ ψ) ∘ unitize = unitize ∘ fun ψ => U *ᵥ ψ := by
      funext ψ
      simp only [Function.comp, unitize, sum_norm_inv U hU, mulVec_smul]
    rw [this, ← Measure.map_map unitize_meas hc.measurable]
    congr 2
    have hpre : (fun ψ : n → ℂ => U *ᵥ ψ) ⁻¹' ball = ball := by
      ext ψ
      simp only [ball, Set.mem_preimage, Set.mem_ofPred_eq, sum_norm_inv U hU]
    change (ν.restrict ball).map _ = ν.restrict ball
    conv_lhs => rw [← hpre]
    rw [← Measure.restrict_map hc.measurable ball_compact.isClosed.measurableSet, haar_unitary ν U hU]
theorem exists_uniform [Nonempty n] : ∃ μ : Measure (n → ℂ), IsUniform μ :=
  ⟨_, uniform_of_haar Measure.addHaar⟩

/-! ## Comparison with the code -/

/-- Second moments of a uniform state. -/
theorem second (h : IsUniform μ) (i k : n) : ∫ ψ : n → ℂ, ψ i * star (ψ k) ∂μ =
    (if i = k then 1 else 0) / (Fintype.card n : ℂ) := by
  have hne : (Fintype.card n : ℂ) ≠ 0 := by
    have : Nonempty n := ⟨i⟩
    exact_mod_cast Fintype.card_ne_zero
  have hne1 : (Fintype.card n : ℂ) + 1 ≠ 0 := by exact_mod_cast Nat.succ_ne_zero (Fintype.card n)
  have e : (fun ψ : n → ℂ => ψ i * star (ψ k)) =ᵐ[μ] fun ψ => ∑ j, ψ i * ψ j * (star (ψ k) * star (ψ j)) := by
    filter_upwards [h.unit] with ψ hψ
    have e3 : ∑ j, ψ j * star (ψ j) = 1 := by
      have : ∀ i, ψ i * star (ψ i) = ((‖ψ i‖ ^ 2 : ℝ) : ℂ) := fun i => by
        push_cast
        exact Complex.mul_conj' _
      rw [Finset.sum_congr rfl fun i _ => this i, ← Complex.ofReal_sum, hψ, Complex.ofReal_one]
    have : ∑ j, ψ i * ψ j * (star (ψ k) * star (ψ j)) = ψ i * star (ψ k) * ∑ j, ψ j * star (ψ j) := by
      rw [Finset.mul_sum]
      exact Finset.sum_congr rfl fun j _ => by ring
    rw [this, e3, mul_one]
  rw [integral_congr_ae e, integral_finsetSum _ fun j _ => mom_int h _ _ _ _]
  change ∑ j, mom μ i j k j = _
  simp only [mom_value h, ← Finset.sum_div]
  have : ∀ j : n, ((if i = k ∧ True then 1 else 0) + (if i = j ∧ j = k then 1 else 0) : ℂ) =
      (if i = k then 1 else 0) * (1 + if i = j then 1 else 0) := by
    intro j
    by_cases hik : i = k
    · subst hik
      simp [eq_comm]
    · have : ¬(i = j ∧ j = k) := fun h => hik (h.1.trans h.2)
      simp [hik, this]
  rw [Finset.sum_congr rfl fun j _ => this j, ← Finset.mul_sum, Finset.sum_add_distrib, Finset.sum_ite_eq]
  simp only [Finset.mem_univ, if_true, Finset.sum_const, Finset.card_univ, nsmul_eq_mul, mul_one]
  field_simp

/-- The mean probability to leave the space: one minus the mean squared length of the block's output. -/
def meanLeak (μ : Measure (n → ℂ)) (C : Matrix n n ℂ) : ℝ := 1 - ∫ ψ, ∑ i, ‖(C *ᵥ ψ) i‖ ^ 2 ∂μ

theorem two_int (h : IsUniform μ) (i k : n) : Integrable (fun ψ : n → ℂ => ψ i * star (ψ k)) μ := by
  have := h.prob
  refine Integrable.mono' (integrable_const (1 : ℝ)) ?_ ?_
  · have : Continuous fun ψ : n → ℂ => ψ i * star (ψ k) := by fun_prop
    exact this.aestronglyMeasurable
  · filter_upwards [h.unit] with ψ hψ
    rw [norm_mul, norm_star]
    exact mul_le_one₀ (comp_le hψ i) (norm_nonneg _) (comp_le hψ k)

theorem meanLeak_value (h : IsUniform μ) (C : Matrix n n ℂ) :
    meanLeak μ C = 1 - (∑ a, ∑ b, ‖C a b‖ ^ 2) / Fintype.card n := by
  unfold meanLeak
  congr 1
  apply Complex.ofReal_injective
  rw [← integral_complex_ofReal']
  have e : ∀ ψ : n → ℂ, ((∑ i, ‖(C *ᵥ ψ) i‖ ^ 2 : ℝ) : ℂ) = ∑ x : n × n × n, (C x.1 x.2.1 * star (C x.1 x.2.2)) *
      (ψ x.2.1 * star (ψ x.2.2)) := by
    intro ψ
    push_cast
    rw [Fintype.sum_prod_type]
    refine Finset.sum_congr rfl fun i _ => ?_
    rw [← Complex.mul_conj', Fintype.sum_prod_type]
    change (∑ b, C i b * ψ b) * star (∑ b, C i b * ψ b) = _
    rw [star_sum, Finset.sum_mul_sum]
    refine Finset.sum_congr rfl fun b _ => Finset.sum_congr rfl fun c _ => ?_
    rw [star_mul']
    ring
  simp only [e]
  rw [integral_finsetSum _ fun x _ => (two_int h _ _).const_mul _]
  simp only [integral_const_mul, second h, Fintype.sum_prod_type]
  push_cast
  rw [Finset.sum_div]
  refine Finset.sum_congr rfl fun a _ => ?_
  rw [Finset.sum_div]
  refine Finset.sum_congr rfl fun b _ => ?_
  rw [Finset.sum_eq_single b, if_pos rfl, ← Complex.mul_conj', mul_one_div]
  · rfl
  · intro c _ hc
    simp [hc.symm]
  · simp

/-- C206: what `average_infid` returns for a propagator and a unitary ideal gate on the chosen qubits. With `C` the
computational block, `1 - y` is the mean over all input states of the probability to find the wanted state, plus the
mean leakage divided by `d + 1`. -/
theorem C206_exact (ideal actual : Arr ℂ) (dims index : List ℕ) (hd : ∀ d ∈ dims, 2 ≤ d)
    (hne : index ≠ []) (hnd : index.Nodup) (hlt : ∀ i ∈ index, i < dims.length)
    (hr : actual.rows = dims.prod) (hc : actual.cols = dims.prod)
    (hir : ideal.rows = 2 ^ index.length) (hic : ideal.cols = 2 ^ index.length)
    (hV : (ideal.mat (outDims dims index).prod (outDims dims index).prod)ᴴ *
      ideal.mat (outDims dims index).prod (outDims dims index).prod = 1)
    (μ : Measure (Fin (outDims dims index).prod → ℂ)) (hμ : IsUniform μ) :
    let C := (actual.mat dims.prod dims.prod).submatrix (compEmb dims index hd) (compEmb dims index hd)
    let V := ideal.mat (outDims dims index).prod (outDims dims index).prod
    ∃ y, averageInfid ideal actual index dims = some y ∧
      1 - y = meanFid μ (Vᴴ * C) + meanLeak μ C / (2 ^ index.length + 1) := by
  intro C V
  obtain ⟨x, y, hx, hy, hxy⟩ := C63_value ideal actual dims index hd hne hnd hlt hr hc hir hic
  have hx' := C61_value ideal actual dims index hd hne hnd hlt hr hc hir hic
  have hxv := Option.some.inj (hx.symm.trans hx')
  refine ⟨y, hy, ?_⟩
  have hp := outDims_prod dims index hnd hlt
  have hcard : (Fintype.card (Fin (outDims dims index).prod) : ℝ) = 2 ^ index.length := by
    rw [Fintype.card_fin, hp]
    push_cast
    rfl
  rw [meanFid_value hμ, meanLeak_value hμ, hcard, hxy, hxv]
  have hF : ∑ a, ∑ b, ‖(Vᴴ * C) a b‖ ^ 2 = ∑ a, ∑ b, ‖C a b‖ ^ 2 := by
    rw [Finset.sum_comm, Finset.sum_comm (f := fun a b => ‖C a b‖ ^ 2)]
    refine Finset.sum_congr rfl fun b _ => ?_
    have hV' : Vᴴᴴ * Vᴴ = 1 := by rw [conjTranspose_conjTranspose]; exact mul_eq_one_comm.mp hV
    exact sum_norm_inv Vᴴ hV' fun a => C a b
  have hT : ‖(Vᴴ * C).trace‖ = ‖(C * Vᴴ).trace‖ := by rw [trace_mul_comm]
  rw [hF, hT]
  have h1 : (0 : ℝ) < 2 ^ index.length := by positivity
  have h2 : (2 : ℝ) ^ index.length + 1 ≠ 0 := by positivity
  generalize (2 : ℝ) ^ index.length = d at h1 h2 ⊢
  change 1 - d / (d + 1) * (1 - (‖(C * Vᴴ).trace‖ / d) ^ 2) = _
  generalize ‖(C * Vᴴ).trace‖ = t
  generalize ∑ a, ∑ b, ‖C a b‖ ^ 2 = q
  field_simp
  ring

/-- C206: a uniform distribution of states exists in every dimension, so the comparison is not empty. -/
theorem C206_exists (d : ℕ) (hd : 0 < d) : ∃ μ : Measure (Fin d → ℂ), IsUniform μ := by
  have : Nonempty (Fin d) := ⟨⟨0, hd⟩⟩
  exact exists_uniform

/-- C206: if the propagator keeps the computational space (its block `C` is unitary) `average_infid` is one minus
the mean probability, over all input states, to find the wanted state. Missing: blocks with leakage, for which the
claim is false, see `C206_exact` and `C206_false_leakage`. -/
theorem C206_mean_partial (ideal actual : Arr ℂ) (dims index : List ℕ) (hd : ∀ d ∈ dims, 2 ≤ d)
    (hne : index ≠ []) (hnd : index.Nodup) (hlt : ∀ i ∈ index, i < dims.length)
    (hr : actual.rows = dims.prod) (hc : actual.cols = dims.prod)
    (hir : ideal.rows = 2 ^ index.length) (hic : ideal.cols = 2 ^ index.length)
    (hV : (ideal.mat (outDims dims index).prod (outDims dims index).prod)ᴴ *
      ideal.mat (outDims dims index).prod (outDims dims index).prod = 1)
    (hC : ((actual.mat dims.prod dims.prod).submatrix (compEmb dims index hd) (compEmb dims index hd))ᴴ *
      (actual.mat dims.prod dims.prod).submatrix (compEmb dims index hd) (compEmb dims index hd) = 1)
    (μ : Measure (Fin (outDims dims index).prod → ℂ)) (hμ : IsUniform μ) :
    averageInfid ideal actual index dims = some (1 - ∫ ψ,
      ‖star (ideal.mat (outDims dims index).prod (outDims dims index).prod *ᵥ ψ) ⬝ᵥ
        ((actual.mat dims.prod dims.prod).submatrix (compEmb dims index hd) (compEmb dims index hd) *ᵥ ψ)‖ ^ 2 ∂μ) := by
  obtain ⟨y, hy, he⟩ := C206_exact ideal actual dims index hd hne hnd hlt hr hc hir hic hV μ hμ
  have hl : meanLeak μ ((actual.mat dims.prod dims.prod).submatrix (compEmb dims index hd)
      (compEmb dims index hd)) = 0 := by
    have := hμ.prob
    unfold meanLeak
    simp only [sum_norm_inv _ hC]
    rw [integral_congr_ae hμ.unit]
    simp
  rw [hl, zero_div, add_zero] at he
  rw [hy]
  congr 1
  have : ∀ ψ : Fin (outDims dims index).prod → ℂ,
      star (ideal.mat (outDims dims index).prod (outDims dims index).prod *ᵥ ψ) ⬝ᵥ
        ((actual.mat dims.prod dims.prod).submatrix (compEmb dims index hd) (compEmb dims index hd) *ᵥ ψ) =
      star ψ ⬝ᵥ (((ideal.mat (outDims dims index).prod (outDims dims index).prod)ᴴ *
        (actual.mat dims.prod dims.prod).submatrix (compEmb dims index hd) (compEmb dims index hd)) *ᵥ ψ) := by
    intro ψ
    rw [star_mulVec, ← dotProduct_mulVec, mulVec_mulVec]
  simp only [this]
  unfold meanFid at he
  linarith

/-- A qutrit whose propagator exchanges the upper two levels. -/
def leaky : Arr ℂ := ⟨3, 3, fun i j => if (i, j) ∈ [(0, 0), (1, 2), (2, 1)] then 1 else 0⟩

/-- C206: with leakage the claim is false. For the unitary that exchanges the upper levels of a qutrit and the
identity as ideal gate the code reports an infidelity of one half, but the mean over all input states is two thirds. -/
theorem C206_false_leakage : (leaky.mat 3 3)ᴴ * leaky.mat 3 3 = 1 ∧
    averageInfid (eye 2 2) leaky [0] [3] = some (1 / 2) ∧
    (leaky.mat 3 3).submatrix ![0, 1] ![0, 1] = !![1, 0; 0, 0] ∧
    ∀ μ : Measure (Fin 2 → ℂ), IsUniform μ → 1 - meanFid μ !![1, 0; 0, 0] = 2 / 3 := by
  refine ⟨?_, ?_, ?_, ?_⟩
  · ext i j
    fin_cases i <;> fin_cases j <;> simp [leaky, Arr.mat, Matrix.mul_apply, Fin.sum_univ_three]
  · obtain ⟨x, y, hx, hy, hxy⟩ := C63_value (eye 2 2) leaky [3] [0] (by simp) (by simp) (by simp) (by simp)
      rfl rfl rfl rfl
    have hx' := C61_value (eye 2 2) leaky [3] [0] (by simp) (by simp) (by simp) (by simp) rfl rfl rfl rfl
    have hxv := Option.some.inj (hx.symm.trans hx')
    rw [hy, hxy, hxv]
    have he : ∀ N, (eye 2 2 : Arr ℂ).mat N N = 1 := by
      intro N
      ext i j
      simp [Arr.mat, eye, Matrix.one_apply, Fin.ext_iff]
    rw [he, conjTranspose_one, Matrix.mul_one]
    have ht : ((leaky.mat [3].prod [3].prod).submatrix (compEmb [3] [0] (by simp)) (compEmb [3] [0] (by simp))).trace
        = 1 := by
      change ∑ i : Fin 2, leaky.e (compEmb [3] [0] (by simp) i) (compEmb [3] [0] (by simp) i) = 1
      rw [Fin.sum_univ_two]
      have c0 : (compEmb [3] [0] (by simp) (0 : Fin 2)).val = 0 := by decide
      have c1 : (compEmb [3] [0] (by simp) (1 : Fin 2)).val = 1 := by decide
      rw [c0, c1]
      simp [leaky]
    rw [ht]
    norm_num
  · ext i j
    fin_cases i <;> fin_cases j <;> simp [leaky, Arr.mat]
  · intro μ hμ
    rw [meanFid_value hμ]
    simp [Matrix.trace, Fin.sum_univ_two]
    norm_num

end
end C3.Fidelity.Haar
