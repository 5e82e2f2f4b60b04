import Verif.Propagation.Unitary
import Mathlib.Analysis.SpecialFunctions.Exponential
import Mathlib.Analysis.Matrix.Normed
import Mathlib.Analysis.Calculus.Deriv.Comp

/-!
# C24 - C26: open-system propagation
-/

set_option linter.unusedSectionVars false

namespace C3.Propagation

open Matrix Kronecker NormedSpace

variable {n : Type*} [Fintype n] [DecidableEq n]

/-! ## Specification -/

/-- The right hand side of the Lindblad master equation. -/
noncomputable def masterRHS (h : Matrix n n ℂ) (cols : List (Matrix n n ℂ)) (rho : Matrix n n ℂ) :
    Matrix n n ℂ :=
  (-Complex.I) • (h * rho - rho * h) +
    (cols.map fun L => L * rho * Lᴴ - (1 / 2 : ℂ) • (Lᴴ * L * rho + rho * (Lᴴ * L))).sum

/-- Row stacking of a matrix. -/
def rowVec (rho : Matrix n n ℂ) : n × n → ℂ := fun p => rho p.1 p.2

/-- Inverse of row stacking. -/
def unRow (v : n × n → ℂ) : Matrix n n ℂ := Matrix.of fun i j => v (i, j)

@[simp] theorem unRow_rowVec (rho : Matrix n n ℂ) : unRow (rowVec rho) = rho := rfl
@[simp] theorem rowVec_unRow (v : n × n → ℂ) : rowVec (unRow v) = v := rfl

/-! ## Superoperators on row-stacked states -/

theorem kron_mulVec_rowVec (A B rho : Matrix n n ℂ) :
    (A ⊗ₖ B) *ᵥ rowVec rho = rowVec (A * rho * Bᵀ) := by
  funext p
  simp only [mulVec, dotProduct, rowVec, Matrix.mul_apply, transpose_apply, kroneckerMap_apply,
    Fintype.sum_prod_type, Finset.sum_mul]
  rw [Finset.sum_comm]
  apply Finset.sum_congr rfl
  intro l _
  apply Finset.sum_congr rfl
  intro j _
  ring

theorem spre_mulVec (A rho : Matrix n n ℂ) : spre A *ᵥ rowVec rho = rowVec (A * rho) := by
  rw [spre, kron_mulVec_rowVec]; simp

theorem spost_mulVec (A rho : Matrix n n ℂ) : spost A *ᵥ rowVec rho = rowVec (rho * A) := by
  rw [spost, kron_mulVec_rowVec]; simp

theorem rowVec_add (a b : Matrix n n ℂ) : rowVec (a + b) = rowVec a + rowVec b := rfl
theorem rowVec_sub (a b : Matrix n n ℂ) : rowVec (a - b) = rowVec a - rowVec b := rfl
theorem rowVec_smul (c : ℂ) (a : Matrix n n ℂ) : rowVec (c • a) = c • rowVec a := rfl
theorem rowVec_zero : rowVec (0 : Matrix n n ℂ) = 0 := rfl

/-- Both implementations build the same generator. -/
theorem lindOpVec_eq (h : Matrix n n ℂ) (cols : List (Matrix n n ℂ)) :
    lindOpVec h cols = lindOp h cols := by
  have key : ∀ (op : Matrix (n × n) (n × n) ℂ) (cols : List (Matrix n n ℂ)),
      cols.foldl (fun op L => op + spre L * spost Lᴴ - (1 / 2 : ℂ) • (spre Lᴴ * spre L)
        - (1 / 2 : ℂ) • (spost L * spost Lᴴ)) op =
      op + (cols.map fun L => spre L * spost Lᴴ - (1 / 2 : ℂ) • (spre Lᴴ * spre L)
        - (1 / 2 : ℂ) • (spost L * spost Lᴴ)).sum := by
    intro op cols
    induction cols generalizing op with
    | nil => simp
    | cons L ls ih =>
      rw [List.foldl_cons, ih, List.map_cons, List.sum_cons]
      abel
  unfold lindOp
  rw [key]
  unfold lindOpVec
  have e1 : ∀ L : Matrix n n ℂ, (L ⊗ₖ (1 : Matrix n n ℂ))ᴴ = spre Lᴴ := by
    intro L; rw [conjTranspose_kronecker]; simp [spre]
  have e2 : ∀ L : Matrix n n ℂ, ((1 : Matrix n n ℂ) ⊗ₖ Lᵀ)ᴴ = spost Lᴴ := by
    intro L; rw [conjTranspose_kronecker]; simp [spost]; rfl
  simp only [e1, e2]
  rfl

theorem lindOp_mulVec (h : Matrix n n ℂ) (cols : List (Matrix n n ℂ)) (rho : Matrix n n ℂ) :
    lindOp h cols *ᵥ rowVec rho = rowVec (masterRHS h cols rho) := by
  rw [← lindOpVec_eq]
  unfold lindOpVec masterRHS
  rw [add_mulVec, rowVec_add]
  congr 1
  · rw [smul_mulVec, sub_mulVec, rowVec_smul, rowVec_sub]
    congr 2
    · exact spre_mulVec h rho
    · exact spost_mulVec h rho
  · induction cols with
    | nil => simp [rowVec_zero]
    | cons L ls ih =>
      rw [List.map_cons, List.sum_cons, List.map_cons, List.sum_cons, add_mulVec, ih, rowVec_add]
      congr 1
      have e1 : (L ⊗ₖ (1 : Matrix n n ℂ))ᴴ = spre Lᴴ := by
        rw [conjTranspose_kronecker]; simp [spre]
      have e2 : ((1 : Matrix n n ℂ) ⊗ₖ Lᵀ)ᴴ = spost Lᴴ := by
        rw [conjTranspose_kronecker]; simp [spost]; rfl
      have e3 : L ⊗ₖ (1 : Matrix n n ℂ) = spre L := rfl
      have e4 : (1 : Matrix n n ℂ) ⊗ₖ Lᵀ = spost L := rfl
      simp only [e1, e2]
      simp only [e3, e4, sub_mulVec, smul_mulVec, ← mulVec_mulVec, spre_mulVec,
        spost_mulVec, rowVec_sub, rowVec_smul, rowVec_add, smul_add, Matrix.mul_assoc]
      abel

/-! ## C24 -/

/-- **C24** (row stacking): the generator of both implementations, applied to the row-stacked
density matrix, is the row-stacked right hand side of the master equation. -/
theorem C24_generator_row (h : Matrix n n ℂ) (cols : List (Matrix n n ℂ)) (rho : Matrix n n ℂ) :
    lindOp h cols *ᵥ rowVec rho = rowVec (masterRHS h cols rho) ∧
      lindOpVec h cols *ᵥ rowVec rho = rowVec (masterRHS h cols rho) := by
  rw [lindOpVec_eq]
  exact ⟨lindOp_mulVec h cols rho, lindOp_mulVec h cols rho⟩

/-- The code's own `tf_dm_to_vec` stacks columns: the row stacking of the transpose. -/
theorem dmToVec_eq (rho : Matrix n n ℂ) : dmToVec rho = rowVec rhoᵀ := rfl

/-- `tf_vec_to_dm` inverts `tf_dm_to_vec`. -/
theorem vecToDm_dmToVec (rho : Matrix n n ℂ) : vecToDm (dmToVec rho) = rho := rfl

/-- **C24** (what the code computes with its own vectorisation): the transpose of the master
equation's right hand side at the transposed state. Missing for the full claim: the transposes do
not cancel, see `C24_false_for_own_vectorisation`. -/
theorem C24_generator_own_vec_partial (h : Matrix n n ℂ) (cols : List (Matrix n n ℂ))
    (rho : Matrix n n ℂ) :
    vecToDm (lindOp h cols *ᵥ dmToVec rho) = (masterRHS h cols rhoᵀ)ᵀ := by
  rw [dmToVec_eq, lindOp_mulVec]
  rfl

/-- **C24 is false for the vectorisation of the code**: with `H = diag(1, 0)` the coherence of a
superposition rotates in the wrong direction. -/
theorem C24_false_for_own_vectorisation :
    ∃ (h rho : Matrix (Fin 2) (Fin 2) ℂ), h.IsHermitian ∧ rho.IsHermitian ∧
      lindOp h [] *ᵥ dmToVec rho ≠ dmToVec (masterRHS h [] rho) := by
  refine ⟨!![1, 0; 0, 0], !![1/2, 1/2; 1/2, 1/2], ?_, ?_, ?_⟩
  · ext i j; fin_cases i <;> fin_cases j <;> simp [conjTranspose_apply]
  · ext i j; fin_cases i <;> fin_cases j <;> simp [conjTranspose_apply]
  · intro h
    have h2 := congrArg (fun M => vecToDm M 0 1) h
    simp only [C24_generator_own_vec_partial, vecToDm_dmToVec] at h2
    simp [masterRHS, Matrix.mul_apply, Fin.sum_univ_two, vecMul, dotProduct] at h2
    have := congrArg Complex.im h2
    norm_num at this

example : lindOp (!![0, 1; 1, 0] : Matrix (Fin 2) (Fin 2) ℂ) [!![0, 1; 0, 0]] *ᵥ
      rowVec !![0, 0; 0, 1] =
    rowVec (masterRHS (!![0, 1; 1, 0] : Matrix (Fin 2) (Fin 2) ℂ) [!![0, 1; 0, 0]] !![0, 0; 0, 1]) :=
  (C24_generator_row _ _ _).1

/-- The evolution computed by one slice on a row-stacked state. -/
noncomputable def evolve (h : Matrix n n ℂ) (cols : List (Matrix n n ℂ)) (t : ℝ)
    (rho : Matrix n n ℂ) : Matrix n n ℂ :=
  unRow (exp ((t : ℂ) • lindOp h cols) *ᵥ rowVec rho)

open scoped Norms.Operator in
/-- **C24** (solution): the slice propagator as a function of the slice length solves the master
equation with the given state at time 0. -/
theorem C24_solves_master_equation (h : Matrix n n ℂ) (cols : List (Matrix n n ℂ))
    (rho : Matrix n n ℂ) :
    evolve h cols 0 rho = rho ∧
    ∀ (t : ℝ) (i j : n), HasDerivAt (fun s : ℝ => evolve h cols s rho i j)
      (masterRHS h cols (evolve h cols t rho) i j) t := by
  constructor
  · simp [evolve]
  · intro t i j
    have h1 : HasDerivAt (fun s : ℝ => exp (s • lindOp h cols))
        (lindOp h cols * exp (t • lindOp h cols)) t := hasDerivAt_exp_smul_const' (lindOp h cols) t
    have h3 : ∀ s : ℝ, (s : ℂ) • lindOp h cols = s • lindOp h cols := fun s => by
      ext; simp
    have h2 : masterRHS h cols (evolve h cols t rho) i j =
        ((lindOp h cols * exp (t • lindOp h cols)) *ᵥ rowVec rho) (i, j) := by
      rw [← mulVec_mulVec]
      have := congrFun (lindOp_mulVec h cols (evolve h cols t rho)) (i, j)
      rw [← h3]
      exact this.symm
    rw [h2]
    have h4 : (fun s : ℝ => evolve h cols s rho i j) =
        fun s : ℝ => (exp (s • lindOp h cols) *ᵥ rowVec rho) (i, j) := by
      funext s; rw [← h3]; rfl
    rw [h4]
    let F : Matrix (n × n) (n × n) ℂ →ₗ[ℝ] ℂ :=
      { toFun := fun M => (M *ᵥ rowVec rho) (i, j)
        map_add' := fun a b => by simp [add_mulVec]
        map_smul' := fun c a => by simp [smul_mulVec] }
    exact HasFDerivAt.comp_hasDerivAt t (F.toContinuousLinearMap.hasFDerivAt) h1

/-! ## C25 -/

open scoped Norms.Operator in
/-- `P exp(A) = P` whenever `P A = 0`. -/
theorem mul_exp_of_mul_eq_zero {m : Type*} [Fintype m] [DecidableEq m] (P A : Matrix m m ℂ)
    (h : P * A = 0) : P * exp A = P := by
  have h1 : HasSum (fun k : ℕ => ((k.factorial : ℂ)⁻¹) • A ^ k) (exp A) :=
    exp_series_hasSum_exp' A
  have h2 := h1.mul_left P
  have h3 : HasSum (fun k : ℕ => P * (((k.factorial : ℂ)⁻¹) • A ^ k)) P := by
    have := hasSum_single (f := fun k : ℕ => P * (((k.factorial : ℂ)⁻¹) • A ^ k)) 0 (by
      intro k hk
      obtain ⟨k, rfl⟩ := Nat.exists_eq_succ_of_ne_zero hk
      rw [mul_smul_comm, pow_succ', ← mul_assoc, h, zero_mul, smul_zero])
    simpa using this
  exact h2.unique h3

/-- The trace of a row-stacked state. -/
def vecTrace (v : n × n → ℂ) : ℂ := ∑ i, v (i, i)

theorem vecTrace_rowVec (rho : Matrix n n ℂ) : vecTrace (rowVec rho) = rho.trace := rfl

theorem vecTrace_dmToVec (rho : Matrix n n ℂ) : vecTrace (dmToVec rho) = rho.trace := rfl

theorem masterRHS_trace (h : Matrix n n ℂ) (cols : List (Matrix n n ℂ)) (rho : Matrix n n ℂ) :
    (masterRHS h cols rho).trace = 0 := by
  unfold masterRHS
  rw [trace_add, trace_smul, trace_sub, trace_mul_comm h rho, sub_self, smul_zero, zero_add]
  induction cols with
  | nil => simp
  | cons L ls ih =>
    rw [List.map_cons, List.sum_cons, trace_add, ih, add_zero, trace_sub, trace_smul, trace_add,
      trace_mul_comm rho, trace_mul_cycle]
    simp only [smul_eq_mul]
    ring

/-- Exponentials of trace-free generators preserve the trace. -/
theorem vecTrace_exp (A : Matrix (n × n) (n × n) ℂ) (hA : ∀ v, vecTrace (A *ᵥ v) = 0)
    (v : n × n → ℂ) : vecTrace (exp A *ᵥ v) = vecTrace v := by
  rcases isEmpty_or_nonempty n with hn | ⟨⟨i0⟩⟩
  · simp [vecTrace]
  · let P : Matrix (n × n) (n × n) ℂ := Matrix.of fun _ q => if q.1 = q.2 then 1 else 0
    have hP : ∀ w : n × n → ℂ, (P *ᵥ w) (i0, i0) = vecTrace w := by
      intro w
      simp [P, mulVec, dotProduct, vecTrace, Fintype.sum_prod_type]
    have hP' : ∀ w : n × n → ℂ, P *ᵥ w = fun _ => vecTrace w := by
      intro w; funext p; rw [← hP w]; rfl
    have hPA : P * A = 0 := by
      apply Matrix.ext_of_mulVec_single
      intro p
      rw [← mulVec_mulVec, hP', hA, zero_mulVec]
      rfl
    rw [← hP, mulVec_mulVec, mul_exp_of_mul_eq_zero P A hPA, hP]

/-- **C25** (slice): every open-system slice propagator preserves the trace. -/
theorem C25_slice_trace (h0 : Matrix n n ℂ) (hks cols : List (Matrix n n ℂ)) (dt : ℝ)
    (c : List ℝ) (v : n × n → ℂ) :
    vecTrace (dUOfTLind h0 hks cols dt c *ᵥ v) = vecTrace v := by
  apply vecTrace_exp
  intro w
  rw [smul_mulVec, ← rowVec_unRow w, lindOp_mulVec, ← rowVec_smul, vecTrace_rowVec, trace_smul,
    masterRHS_trace, smul_zero]

/-- The vectorised implementation gives the same slice propagators. -/
theorem propLind_eq (h0 : Matrix n n ℂ) (hks cols : List (Matrix n n ℂ)) (dt : ℝ)
    (cs : List (List ℝ)) : propLind h0 hks cols dt cs = cs.map (dUOfTLind h0 hks cols dt) := by
  unfold propLind dUOfTLind
  simp only [lindOpVec_eq, hamAt_eq_sum]

theorem pwcLind_eq (h0 : Matrix n n ℂ) (hks cols : List (Matrix n n ℂ)) (dt : ℝ)
    (cs : List (List ℝ)) (hcs : cs ≠ []) (bs : ℕ) (hbs : 1 ≤ bs) :
    pwcLind h0 hks cols dt cs bs (Fold.stackFor cs.length) =
      some (Fold.timeOrdered (cs.map (dUOfTLind h0 hks cols dt))) := by
  unfold pwcLind
  have : propLind h0 hks cols dt = List.map (dUOfTLind h0 hks cols dt) := by
    funext cs; exact propLind_eq h0 hks cols dt cs
  rw [this, Fold.C20_batch_independent _ _ bs hbs]
  have h := Fold.C19_folded_product (cs.map (dUOfTLind h0 hks cols dt)) (by simpa using hcs)
  rwa [List.length_map] at h

/-- The trace-preserving superoperators form a monoid. -/
def tracePreserving (n : Type*) [Fintype n] [DecidableEq n] :
    Submonoid (Matrix (n × n) (n × n) ℂ) where
  carrier := {S | ∀ v, vecTrace (S *ᵥ v) = vecTrace v}
  one_mem' := by intro v; simp
  mul_mem' := by
    intro a b ha hb v
    rw [← mulVec_mulVec, ha, hb]

/-- **C25** (gate): the whole open-system gate, for any signals and batch size, returns a
superoperator that preserves the trace of every density matrix vectorised by `tf_dm_to_vec`. -/
theorem C25_gate_trace (h0 : Matrix n n ℂ) (hks cols : List (Matrix n n ℂ)) (dt : ℝ)
    (cs : List (List ℝ)) (hcs : cs ≠ []) (bs : ℕ) (hbs : 1 ≤ bs) :
    ∃ S, pwcLind h0 hks cols dt cs bs (Fold.stackFor cs.length) = some S ∧
      ∀ rho, (vecToDm (S *ᵥ dmToVec rho)).trace = rho.trace := by
  refine ⟨_, pwcLind_eq h0 hks cols dt cs hcs bs hbs, ?_⟩
  have hmem : Fold.timeOrdered (cs.map (dUOfTLind h0 hks cols dt)) ∈ tracePreserving n := by
    apply timeOrdered_mem
    intro x hx
    obtain ⟨c, _, rfl⟩ := List.mem_map.1 hx
    exact fun v => C25_slice_trace h0 hks cols dt c v
  intro rho
  have := hmem (dmToVec rho)
  rw [vecTrace_dmToVec] at this
  exact this

example : ∃ S, pwcLind (!![1, 0; 0, -1] : Matrix (Fin 2) (Fin 2) ℂ) [!![0, 1; 1, 0]]
      [!![0, 1; 0, 0]] 0.1 [[1], [2], [3]] 2 (Fold.stackFor 3) = some S ∧
      ∀ rho, (vecToDm (S *ᵥ dmToVec rho)).trace = rho.trace :=
  C25_gate_trace _ _ _ _ [[1], [2], [3]] (by simp) 2 (by norm_num)

/-! ## C26 -/

/-- **C26** (row stacking): `tf_super(U)` acts by conjugation on row-stacked states. -/
theorem C26_super_row (U rho : Matrix n n ℂ) : tfSuper U *ᵥ rowVec rho = rowVec (U * rho * Uᴴ) := by
  rw [tfSuper, ← mulVec_mulVec, spost_mulVec, spre_mulVec, Matrix.mul_assoc]

/-- **C26** (own vectorisation): with `tf_dm_to_vec` the result is conjugation by the complex
conjugate of `U`. Missing for the full claim: `conj U` in place of `U`, see `C26_false`. -/
theorem C26_super_own_vec_partial (U rho : Matrix n n ℂ) :
    tfSuper U *ᵥ dmToVec rho = dmToVec (U.map star * rho * (U.map star)ᴴ) := by
  rw [dmToVec_eq, C26_super_row, dmToVec_eq]
  congr 1
  rw [transpose_mul, transpose_mul, Matrix.mul_assoc]
  congr 1
  ext i j
  simp [conjTranspose_apply]

/-- **C26** (real unitaries): for a real matrix the claim holds as stated. -/
theorem C26_super_real_partial (U rho : Matrix n n ℂ) (h : ∀ i j, star (U i j) = U i j) :
    tfSuper U *ᵥ dmToVec rho = dmToVec (U * rho * Uᴴ) := by
  rw [C26_super_own_vec_partial]
  have : U.map star = U := by ext i j; exact h i j
  rw [this]

/-- **C26** (symmetric states): for symmetric `rho`, such as diagonal states, the diagonal of the
result is that of `U rho U†`. -/
theorem C26_populations_partial (U rho : Matrix n n ℂ) (h : rhoᵀ = rho) (i : n) :
    vecToDm (tfSuper U *ᵥ dmToVec rho) i i = (U * rho * Uᴴ) i i := by
  rw [dmToVec_eq, h, C26_super_row]
  rfl

/-- **C26 is false**: the phase gate `diag(1, i)` on a superposition. -/
theorem C26_false : ∃ U rho : Matrix (Fin 2) (Fin 2) ℂ, U ∈ unitaryGroup (Fin 2) ℂ ∧
    rho.IsHermitian ∧ tfSuper U *ᵥ dmToVec rho ≠ dmToVec (U * rho * Uᴴ) := by
  refine ⟨!![1, 0; 0, Complex.I], !![1/2, 1/2; 1/2, 1/2], ?_, ?_, ?_⟩
  · rw [mem_unitaryGroup_iff]
    ext i j
    fin_cases i <;> fin_cases j <;>
      simp [Matrix.mul_apply, Fin.sum_univ_two, star_eq_conjTranspose, conjTranspose_apply]
  · ext i j; fin_cases i <;> fin_cases j <;> simp [conjTranspose_apply]
  · intro h
    rw [C26_super_own_vec_partial] at h
    have h2 := congrArg (fun M => vecToDm M 0 1) h
    simp only [vecToDm_dmToVec] at h2
    simp [Matrix.mul_apply, Fin.sum_univ_two, conjTranspose_apply] at h2
    have := congrArg Complex.im h2
    norm_num at this

/-- `tf_super` is multiplicative. -/
theorem C26_super_mul (U V : Matrix n n ℂ) : tfSuper (U * V) = tfSuper U * tfSuper V := by
  unfold tfSuper spre spost
  rw [← mul_kronecker_mul, ← mul_kronecker_mul, ← mul_kronecker_mul, ← mul_kronecker_mul]
  simp [conjTranspose_mul, transpose_mul]

end C3.Propagation
