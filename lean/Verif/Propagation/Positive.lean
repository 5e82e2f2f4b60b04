import Verif.Propagation.Lindblad
import Mathlib.LinearAlgebra.Matrix.PosDef
import Mathlib.Analysis.SpecificLimits.Normed

/-!
# C89: open-system propagation maps density matrices to density matrices

The proof approximates `exp(t G)` by powers of manifestly positive maps
`rho ↦ (1 + eps K) rho (1 + eps K)† + eps Σ L rho L†`.
-/

set_option linter.unusedSectionVars false

namespace C3.Propagation

open Matrix Kronecker NormedSpace Filter Topology
open scoped ComplexOrder

section Banach

variable {A : Type*} [NormedRing A] [NormOneClass A] [NormedAlgebra ℝ A] [CompleteSpace A]

theorem norm_exp_le' (x : A) : ‖exp x‖ ≤ Real.exp ‖x‖ := by
  have h1 : HasSum (fun k : ℕ => ((k.factorial : ℝ)⁻¹) • x ^ k) (exp x) := exp_series_hasSum_exp' x
  have h2 : HasSum (fun k : ℕ => ((k.factorial : ℝ)⁻¹) • ‖x‖ ^ k) (exp ‖x‖) :=
    exp_series_hasSum_exp' ‖x‖
  rw [Real.exp_eq_exp_ℝ]
  refine h1.norm_le_of_bounded h2 fun k => ?_
  rw [norm_smul, smul_eq_mul]
  apply mul_le_mul _ (norm_pow_le x k) (norm_nonneg _) (by positivity)
  simp

theorem norm_pow_sub_pow_le' (a b : A) (c : ℝ) (hc : 1 ≤ c) (ha : ‖a‖ ≤ c) (hb : ‖b‖ ≤ c) (k : ℕ) :
    ‖a ^ k - b ^ k‖ ≤ k * c ^ k * ‖a - b‖ := by
  induction k with
  | zero => simp
  | succ k ih =>
    have e : a ^ (k + 1) - b ^ (k + 1) = a ^ k * (a - b) + (a ^ k - b ^ k) * b := by
      rw [pow_succ, pow_succ, mul_sub, sub_mul]; abel
    have hck : ‖a ^ k‖ ≤ c ^ k := (norm_pow_le a k).trans (pow_le_pow_left₀ (norm_nonneg _) ha k)
    have hcp : 0 ≤ c ^ k := by positivity
    have h1 : ‖a ^ k * (a - b)‖ ≤ c ^ (k + 1) * ‖a - b‖ := by
      refine (norm_mul_le _ _).trans (mul_le_mul_of_nonneg_right ?_ (norm_nonneg _))
      rw [pow_succ]
      nlinarith
    have h2 : ‖(a ^ k - b ^ k) * b‖ ≤ k * c ^ (k + 1) * ‖a - b‖ := by
      refine (norm_mul_le _ _).trans ?_
      have := mul_le_mul ih hb (norm_nonneg _) (by positivity)
      refine this.trans (le_of_eq ?_)
      rw [pow_succ]; ring
    rw [e]
    refine (norm_add_le _ _).trans ?_
    push_cast
    linarith

/-- `(1 + x/k + q/k²)^k → exp x`. -/
theorem tendsto_pow_exp (x q : A) :
    Tendsto (fun k : ℕ => (1 + (1 / (k : ℝ)) • x + (1 / (k : ℝ)) ^ 2 • q) ^ k) atTop
      (𝓝 (exp x)) := by
  set R : ℝ := ‖x‖ + ‖q‖ with hR
  have hR0 : 0 ≤ R := by positivity
  -- difference of one step
  have hd : HasDerivAt (fun s : ℝ => exp (s • x)) (x * exp ((0 : ℝ) • x)) 0 :=
    hasDerivAt_exp_smul_const' x (0 : ℝ)
  rw [zero_smul, exp_zero, mul_one] at hd
  have hlo := hd.isLittleO
  have hseq : Tendsto (fun k : ℕ => 1 / (k : ℝ)) atTop (𝓝 0) := tendsto_one_div_atTop_nhds_zero_nat
  have hlo2 := hlo.comp_tendsto hseq
  have hdiff : Tendsto (fun k : ℕ => (k : ℝ) *
      ‖(1 + (1 / (k : ℝ)) • x + (1 / (k : ℝ)) ^ 2 • q) - exp ((1 / (k : ℝ)) • x)‖) atTop (𝓝 0) := by
    have h1 : Tendsto (fun k : ℕ => (k : ℝ) * ‖exp ((1 / (k : ℝ)) • x) - 1 - (1 / (k : ℝ)) • x‖) atTop
        (𝓝 0) := by
      have := hlo2.norm_left.tendsto_div_nhds_zero
      refine this.congr fun k => ?_
      simp only [Function.comp, zero_smul, exp_zero, sub_zero]
      rw [one_div, div_inv_eq_mul, mul_comm]
    have h2 : Tendsto (fun k : ℕ => (1 / (k : ℝ)) * ‖q‖) atTop (𝓝 0) := by
      simpa using hseq.mul_const ‖q‖
    have h3 := h1.add h2
    rw [add_zero] at h3
    refine squeeze_zero' (Eventually.of_forall fun k => by positivity) ?_ h3
    filter_upwards [eventually_gt_atTop 0] with k hk
    have hk' : (0 : ℝ) < k := by exact_mod_cast hk
    have e : (1 + (1 / (k : ℝ)) • x + (1 / (k : ℝ)) ^ 2 • q) - exp ((1 / (k : ℝ)) • x) =
        -(exp ((1 / (k : ℝ)) • x) - 1 - (1 / (k : ℝ)) • x) + (1 / (k : ℝ)) ^ 2 • q := by abel
    rw [e]
    calc (k : ℝ) * ‖-(exp ((1 / (k : ℝ)) • x) - 1 - (1 / (k : ℝ)) • x) + (1 / (k : ℝ)) ^ 2 • q‖
        ≤ k * (‖exp ((1 / (k : ℝ)) • x) - 1 - (1 / (k : ℝ)) • x‖ + (1 / (k : ℝ)) ^ 2 * ‖q‖) := by
          apply mul_le_mul_of_nonneg_left _ hk'.le
          refine (norm_add_le _ _).trans ?_
          rw [norm_neg, norm_smul, Real.norm_of_nonneg (by positivity)]
      _ = _ := by
          field_simp
  -- bounds of one step
  have key : ∀ᶠ k : ℕ in atTop,
      ‖(1 + (1 / (k : ℝ)) • x + (1 / (k : ℝ)) ^ 2 • q) ^ k - exp x‖ ≤
        Real.exp R * ((k : ℝ) *
      ‖(1 + (1 / (k : ℝ)) • x + (1 / (k : ℝ)) ^ 2 • q) - exp ((1 / (k : ℝ)) • x)‖) := by
    filter_upwards [eventually_gt_atTop 0] with k hk
    have hk' : (0 : ℝ) < k := by exact_mod_cast hk
    have hk1 : (1 : ℝ) ≤ k := by exact_mod_cast hk
    have hinv : 1 / (k : ℝ) ≤ 1 := by rw [div_le_one hk']; exact hk1
    have hinv0 : 0 ≤ 1 / (k : ℝ) := by positivity
    have hc : 1 ≤ Real.exp (R / k) := Real.one_le_exp (by positivity)
    have ha : ‖1 + (1 / (k : ℝ)) • x + (1 / (k : ℝ)) ^ 2 • q‖ ≤ Real.exp (R / k) := by
      have h1 : ‖1 + (1 / (k : ℝ)) • x + (1 / (k : ℝ)) ^ 2 • q‖ ≤
          1 + (1 / (k : ℝ)) * ‖x‖ + (1 / (k : ℝ)) ^ 2 * ‖q‖ := by
        refine (norm_add_le _ _).trans ?_
        refine add_le_add ((norm_add_le _ _).trans ?_) ?_
        · rw [norm_one, norm_smul, Real.norm_of_nonneg hinv0]
        · rw [norm_smul, Real.norm_of_nonneg (by positivity)]
      have h2 : (1 / (k : ℝ)) ^ 2 * ‖q‖ ≤ 1 / (k : ℝ) * ‖q‖ := by
        apply mul_le_mul_of_nonneg_right _ (norm_nonneg _)
        nlinarith
      have h3 : R / k + 1 ≤ Real.exp (R / k) := Real.add_one_le_exp _
      have h4 : R / k = 1 / (k : ℝ) * ‖x‖ + 1 / (k : ℝ) * ‖q‖ := by rw [hR]; ring
      linarith
    have hb : ‖exp ((1 / (k : ℝ)) • x)‖ ≤ Real.exp (R / k) := by
      refine (norm_exp_le' _).trans (Real.exp_le_exp.2 ?_)
      rw [norm_smul, Real.norm_of_nonneg hinv0, hR, one_div, div_eq_inv_mul]
      apply mul_le_mul_of_nonneg_left _ (by positivity)
      linarith [norm_nonneg q]
    have h := norm_pow_sub_pow_le' _ _ _ hc ha hb k
    have e1 : exp ((1 / (k : ℝ)) • x) ^ k = exp x := by
      let _ : NormedAlgebra ℚ A := NormedAlgebra.restrictScalars ℚ ℝ A
      rw [← NormedSpace.exp_nsmul, ← Nat.cast_smul_eq_nsmul ℝ, smul_smul]
      have : (k : ℝ) * (1 / k) = 1 := by field_simp
      rw [this, one_smul]
    have e2 : Real.exp (R / k) ^ k = Real.exp R := by
      rw [← Real.exp_nat_mul]
      congr 1
      field_simp
    rw [e1, e2] at h
    calc _ ≤ _ := h
      _ = _ := by ring
  rw [tendsto_iff_norm_sub_tendsto_zero]
  refine squeeze_zero' (Eventually.of_forall fun k => norm_nonneg _) key ?_
  simpa using hdiff.const_mul (Real.exp R)

end Banach

variable {n : Type*} [Fintype n] [DecidableEq n]

/-- The superoperators mapping positive semidefinite matrices to such. -/
def positiveMaps (n : Type*) [Fintype n] [DecidableEq n] :
    Submonoid (Matrix (n × n) (n × n) ℂ) where
  carrier := {S | ∀ rho : Matrix n n ℂ, rho.PosSemidef → (unRow (S *ᵥ rowVec rho)).PosSemidef}
  one_mem' := by intro rho h; simpa using h
  mul_mem' := by
    intro a b ha hb rho h
    have := ha _ (hb rho h)
    rwa [rowVec_unRow, mulVec_mulVec] at this

/-- The non-Hermitian effective Hamiltonian part of the generator. -/
noncomputable def effK (h : Matrix n n ℂ) (cols : List (Matrix n n ℂ)) : Matrix n n ℂ :=
  (-Complex.I) • h - (1 / 2 : ℂ) • (cols.map fun L => Lᴴ * L).sum

theorem masterRHS_eq_effK (h : Matrix n n ℂ) (hh : h.IsHermitian) (cols : List (Matrix n n ℂ))
    (rho : Matrix n n ℂ) :
    masterRHS h cols rho = effK h cols * rho + rho * (effK h cols)ᴴ +
      (cols.map fun L => L * rho * Lᴴ).sum := by
  unfold masterRHS effK
  have hs : ((cols.map fun L => Lᴴ * L).sum)ᴴ = (cols.map fun L => Lᴴ * L).sum := by
    induction cols with
    | nil => simp
    | cons L ls ih =>
      rw [List.map_cons, List.sum_cons, conjTranspose_add, ih]
      simp [conjTranspose_mul]
  have e : (cols.map fun L => L * rho * Lᴴ - (1 / 2 : ℂ) • (Lᴴ * L * rho + rho * (Lᴴ * L))).sum =
      (cols.map fun L => L * rho * Lᴴ).sum - (1 / 2 : ℂ) • ((cols.map fun L => Lᴴ * L).sum * rho
        + rho * (cols.map fun L => Lᴴ * L).sum) := by
    clear hs
    induction cols with
    | nil => simp
    | cons L ls ih =>
      rw [List.map_cons, List.sum_cons, ih]
      simp only [List.map_cons, List.sum_cons, add_mul, mul_add, smul_add]
      abel
  rw [e, conjTranspose_sub, conjTranspose_smul, conjTranspose_smul, hs, hh]
  simp only [sub_mul, mul_sub, smul_sub, smul_add, smul_mul_assoc, mul_smul_comm, star_neg,
    Complex.star_def, Complex.conj_I, neg_neg, neg_smul, neg_mul]
  have : (starRingEnd ℂ) (1 / 2 : ℂ) = 1 / 2 := by
    rw [map_div₀, map_one, map_ofNat]
  rw [this]
  abel

theorem posSemidef_list_sum {m : Type*} (l : List (Matrix m m ℂ)) (h : ∀ M ∈ l, M.PosSemidef) :
    l.sum.PosSemidef := by
  induction l with
  | nil => simpa using PosSemidef.zero
  | cons M l ih =>
    rw [List.sum_cons]
    exact (h M List.mem_cons_self).add (ih fun N hN => h N (List.mem_cons_of_mem _ hN))

/-- The approximating maps are positive. -/
theorem approx_mem (h : Matrix n n ℂ) (hh : h.IsHermitian) (cols : List (Matrix n n ℂ)) (e : ℝ)
    (he : 0 ≤ e) :
    1 + (e : ℂ) • lindOp h cols + ((e : ℂ) ^ 2) • tfSuper (effK h cols) ∈ positiveMaps n := by
  intro rho hrho
  have : unRow ((1 + (e : ℂ) • lindOp h cols + ((e : ℂ) ^ 2) • tfSuper (effK h cols)) *ᵥ rowVec rho) =
      (1 + (e : ℂ) • effK h cols) * rho * (1 + (e : ℂ) • effK h cols)ᴴ +
        (e : ℂ) • (cols.map fun L => L * rho * Lᴴ).sum := by
    rw [add_mulVec, add_mulVec, one_mulVec, smul_mulVec, smul_mulVec, lindOp_mulVec, C26_super_row,
      ← rowVec_smul, ← rowVec_smul, ← rowVec_add, ← rowVec_add, unRow_rowVec,
      masterRHS_eq_effK h hh, conjTranspose_add, conjTranspose_one, conjTranspose_smul]
    simp only [Complex.star_def, Complex.conj_ofReal, add_mul, mul_add, one_mul, mul_one,
      smul_mul_assoc, mul_smul_comm, smul_add, smul_smul]
    rw [pow_two]
    abel
  rw [this]
  apply PosSemidef.add
  · exact hrho.mul_mul_conjTranspose_same _
  · apply PosSemidef.smul
    · apply posSemidef_list_sum
      intro M hM
      obtain ⟨L, _, rfl⟩ := List.mem_map.1 hM
      exact hrho.mul_mul_conjTranspose_same _
    · exact_mod_cast he

open scoped Norms.Operator in
/-- Positive maps are closed under limits. -/
theorem positiveMaps_closed (S : ℕ → Matrix (n × n) (n × n) ℂ) (T : Matrix (n × n) (n × n) ℂ)
    (hS : Tendsto S atTop (𝓝 T)) (h : ∀ᶠ k in atTop, S k ∈ positiveMaps n) : T ∈ positiveMaps n := by
  intro rho hrho
  have hent : ∀ p q, Tendsto (fun k => S k p q) atTop (𝓝 (T p q)) := by
    intro p q
    have hc : Continuous fun M : Matrix (n × n) (n × n) ℂ => M p q := continuous_id.matrix_elem p q
    exact (hc.tendsto T).comp hS
  have hR : ∀ i j, Tendsto (fun k => unRow (S k *ᵥ rowVec rho) i j) atTop
      (𝓝 (unRow (T *ᵥ rowVec rho) i j)) := by
    intro i j
    simp only [unRow, of_apply, mulVec, dotProduct]
    exact tendsto_finsetSum _ fun q _ => (hent _ q).mul_const _
  rw [posSemidef_iff_dotProduct_mulVec]
  constructor
  · ext i j
    rw [conjTranspose_apply]
    have h1 := (hR i j)
    have h2 := (Complex.continuous_conj.tendsto _).comp (hR j i)
    refine tendsto_nhds_unique (f := fun k => unRow (S k *ᵥ rowVec rho) i j) (h2.congr' ?_) h1
    filter_upwards [h] with k hk
    exact (hk rho hrho).1.apply i j
  · intro x
    have hq : Tendsto (fun k => star x ⬝ᵥ (unRow (S k *ᵥ rowVec rho) *ᵥ x)) atTop
        (𝓝 (star x ⬝ᵥ (unRow (T *ᵥ rowVec rho) *ᵥ x))) := by
      simp only [dotProduct, mulVec]
      refine tendsto_finsetSum _ fun i _ => Tendsto.const_mul _ ?_
      exact tendsto_finsetSum _ fun j _ => (hR i j).mul_const _
    refine ge_of_tendsto hq ?_
    filter_upwards [h] with k hk
    exact (hk rho hrho).dotProduct_mulVec_nonneg x

open scoped Norms.Operator in
theorem exp_mem_positiveMaps (h : Matrix n n ℂ) (hh : h.IsHermitian) (cols : List (Matrix n n ℂ))
    (t : ℝ) (ht : 0 ≤ t) : exp ((t : ℂ) • lindOp h cols) ∈ positiveMaps n := by
  rcases isEmpty_or_nonempty n with hn | hn
  · intro rho hrho
    have : unRow (exp ((t : ℂ) • lindOp h cols) *ᵥ rowVec rho) = rho := by
      ext i; exact hn.elim i
    rwa [this]
  · have hlim := tendsto_pow_exp ((t : ℂ) • lindOp h cols)
      (((t : ℂ) ^ 2) • tfSuper (effK h cols))
    refine positiveMaps_closed _ _ hlim (Eventually.of_forall fun k => ?_)
    apply Submonoid.pow_mem
    have := approx_mem h hh cols (t / k) (by positivity)
    convert this using 2
    · congr 1
      ext p q
      simp
      ring
    · ext p q
      simp
      ring

/-- A density matrix: positive semidefinite with trace one. -/
def IsDensity (rho : Matrix n n ℂ) : Prop := rho.PosSemidef ∧ rho.trace = 1

/-- **C89** (slice): for a Hermitian Hamiltonian and a step `dt ≥ 0` every open-system slice
propagator maps density matrices to density matrices. -/
theorem C89_slice (h0 : Matrix n n ℂ) (hks cols : List (Matrix n n ℂ)) (h : h0.IsHermitian)
    (hk : ∀ H ∈ hks, H.IsHermitian) (dt : ℝ) (hdt : 0 ≤ dt) (c : List ℝ) (rho : Matrix n n ℂ)
    (hrho : IsDensity rho) : IsDensity (unRow (dUOfTLind h0 hks cols dt c *ᵥ rowVec rho)) := by
  constructor
  · exact exp_mem_positiveMaps _ (isHermitian_hamAt _ _ h fun p hp => hk _ (List.of_mem_zip hp).2)
      cols dt hdt rho hrho.1
  · have := C25_slice_trace h0 hks cols dt c (rowVec rho)
    rw [vecTrace_rowVec, hrho.2] at this
    exact this

/-- **C89** (gate): the whole open-system gate maps density matrices to density matrices, also when
the state is vectorised by the code's own `tf_dm_to_vec` and read back by `tf_vec_to_dm`. -/
theorem C89_gate (h0 : Matrix n n ℂ) (hks cols : List (Matrix n n ℂ)) (h : h0.IsHermitian)
    (hk : ∀ H ∈ hks, H.IsHermitian) (dt : ℝ) (hdt : 0 ≤ dt) (cs : List (List ℝ)) (hcs : cs ≠ [])
    (bs : ℕ) (hbs : 1 ≤ bs) :
    ∃ S, pwcLind h0 hks cols dt cs bs (Fold.stackFor cs.length) = some S ∧
      ∀ rho, IsDensity rho → IsDensity (vecToDm (S *ᵥ dmToVec rho)) := by
  obtain ⟨S, hS, htr⟩ := C25_gate_trace h0 hks cols dt cs hcs bs hbs
  refine ⟨S, hS, fun rho hrho => ⟨?_, by rw [htr, hrho.2]⟩⟩
  rw [pwcLind_eq h0 hks cols dt cs hcs bs hbs] at hS
  have hmem : S ∈ positiveMaps n := by
    rw [← Option.some.inj hS]
    apply timeOrdered_mem
    intro x hx
    obtain ⟨c, _, rfl⟩ := List.mem_map.1 hx
    exact exp_mem_positiveMaps _
      (isHermitian_hamAt _ _ h fun p hp => hk _ (List.of_mem_zip hp).2) cols dt hdt
  exact (hmem rhoᵀ hrho.1.transpose).transpose

/-- Non-vacuity: a decaying, driven qubit started in the excited state. -/
example : ∃ S, pwcLind (!![1, 0; 0, -1] : Matrix (Fin 2) (Fin 2) ℂ) [!![0, 1; 1, 0]]
      [!![0, 1; 0, 0]] 0.1 [[1], [2], [3]] 2 (Fold.stackFor 3) = some S ∧
      ∀ rho, IsDensity rho → IsDensity (vecToDm (S *ᵥ dmToVec rho)) :=
  C89_gate _ _ _ (by ext i j; fin_cases i <;> fin_cases j <;> simp [conjTranspose_apply])
    (by
      intro H hH
      rw [List.mem_singleton.1 hH]
      ext i j; fin_cases i <;> fin_cases j <;> simp [conjTranspose_apply])
    0.1 (by norm_num) [[1], [2], [3]] (by simp) 2 (by norm_num)

end C3.Propagation
