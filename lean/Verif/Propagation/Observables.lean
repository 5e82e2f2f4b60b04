import Verif.Propagation.RungeKutta
import Verif.Propagation.Unitary
import Mathlib.LinearAlgebra.Matrix.PosDef
import Mathlib.Analysis.Matrix.Order

/-!
# C248: expectation values along the evolution

`tf_measure_operator`, `commutator` and `anticommutator` (c3/utils/tf_utils.py) together with the step
functions, the solvers and the piecewise constant propagators of c3/libraries/propagation.py.
-/

set_option linter.unusedSectionVars false

namespace C3.Propagation

open Matrix NormedSpace
open scoped ComplexOrder

variable {n : Type*} [Fintype n] [DecidableEq n]

/-! ## Model -/

/-- c3/utils/tf_utils.py:99-116 `tf_measure_operator`. -/
def measureOperator (M rho : Matrix n n ℂ) : ℂ := (M * rho).trace

/-- c3/utils/tf_utils.py:562-563 `commutator`. -/
def commutator (A B : Matrix n n ℂ) : Matrix n n ℂ := A * B - B * A

/-- c3/utils/tf_utils.py:566-567 `anticommutator`. -/
def anticommutator (A B : Matrix n n ℂ) : Matrix n n ℂ := A * B + B * A

/-- c3/libraries/propagation.py:886-894 `lindblad`, with the helpers it calls. -/
noncomputable def lindbladCode (cols : List (Matrix n n ℂ)) (dt : ℝ) (rho h : Matrix n n ℂ) :
    Matrix n n ℂ :=
  (dt : ℂ) • cols.foldl (fun d L => d + L * rho * Lᴴ - (1 / 2 : ℂ) • anticommutator (Lᴴ * L) rho)
    ((-Complex.I) • commutator h rho)

/-- c3/libraries/propagation.py:902-904 `von_neumann`, with the helper it calls. -/
noncomputable def vonNeumannCode (dt : ℝ) (rho h : Matrix n n ℂ) : Matrix n n ℂ :=
  (dt : ℂ) • (-Complex.I) • commutator h rho

/-! ## Specification -/

/-- The rate of change of an observable in the Heisenberg picture. -/
noncomputable def heisenberg (h : Matrix n n ℂ) (cols : List (Matrix n n ℂ)) (M : Matrix n n ℂ) :
    Matrix n n ℂ :=
  Complex.I • (h * M - M * h) +
    (cols.map fun L => Lᴴ * M * L - (1 / 2 : ℂ) • (Lᴴ * L * M + M * (Lᴴ * L))).sum

/-! ## The helpers -/

/-- C248: the step functions are the ones of the solvers' theorems. -/
theorem C248_helpers (cols : List (Matrix n n ℂ)) (dt : ℝ) (rho h : Matrix n n ℂ) :
    lindbladCode cols dt rho h = lindbladStep cols dt rho h ∧
      vonNeumannCode dt rho h = vonNeumannStep dt rho h ∧
      lindbladCode [] dt rho h = vonNeumannCode dt rho h :=
  ⟨rfl, rfl, by simp [lindbladCode, vonNeumannCode, commutator]⟩

/-- C248: the algebra of commutators and anticommutators. -/
theorem C248_algebra (A B C : Matrix n n ℂ) :
    commutator A B = -commutator B A ∧ anticommutator A B = anticommutator B A ∧
      commutator A B + anticommutator A B = (2 : ℂ) • (A * B) ∧
      (commutator A B).trace = 0 ∧ (anticommutator A B).trace = 2 * (A * B).trace ∧
      commutator A (B * C) = commutator A B * C + B * commutator A C ∧
      commutator A (commutator B C) + commutator B (commutator C A) +
        commutator C (commutator A B) = 0 := by
  unfold commutator anticommutator
  refine ⟨by abel, add_comm _ _, by rw [two_smul]; abel, ?_, ?_, by noncomm_ring, by noncomm_ring⟩
  · rw [trace_sub, trace_mul_comm A B, sub_self]
  · rw [trace_add, trace_mul_comm B A]; ring

/-- C248: for Hermitian operators the anticommutator and `i` times the commutator are observables. -/
theorem C248_hermitian (A B : Matrix n n ℂ) (hA : A.IsHermitian) (hB : B.IsHermitian) :
    (anticommutator A B).IsHermitian ∧ (Complex.I • commutator A B).IsHermitian := by
  have hA' : Aᴴ = A := hA
  have hB' : Bᴴ = B := hB
  constructor
  · show (anticommutator A B)ᴴ = _
    simp only [anticommutator, conjTranspose_add, conjTranspose_mul, hA', hB', add_comm]
  · show (Complex.I • commutator A B)ᴴ = _
    simp only [commutator, conjTranspose_smul, conjTranspose_sub, conjTranspose_mul, hA', hB',
      Complex.star_def, Complex.conj_I, neg_smul, ← smul_neg, neg_sub]

/-- C248: for a pure state the value is `⟨ψ|M|ψ⟩`. -/
theorem C248_pure (M : Matrix n n ℂ) (psi : n → ℂ) :
    measureOperator M (vecMulVec psi (star psi)) = star psi ⬝ᵥ (M *ᵥ psi) := by
  unfold measureOperator
  rw [mul_vecMulVec, trace_vecMulVec, dotProduct_comm]

/-- C248: the value is real for an observable and a Hermitian state. -/
theorem C248_real (M rho : Matrix n n ℂ) (hM : M.IsHermitian) (hr : rho.IsHermitian) :
    (measureOperator M rho).im = 0 := by
  have h : star (measureOperator M rho) = measureOperator M rho := by
    unfold measureOperator
    rw [← trace_conjTranspose, conjTranspose_mul, hM, hr, trace_mul_comm]
  exact Complex.conj_eq_iff_im.1 h

/-- C248: an observable with values between `a` and `b` has its expectation value between them. -/
theorem C248_range (M rho : Matrix n n ℂ) (a b : ℝ)
    (ha : (M - (a : ℂ) • 1).PosSemidef) (hb : ((b : ℂ) • 1 - M).PosSemidef)
    (hr : rho.PosSemidef) (ht : rho.trace = 1) :
    a ≤ (measureOperator M rho).re ∧ (measureOperator M rho).re ≤ b := by
  have key : ∀ A : Matrix n n ℂ, A.PosSemidef → 0 ≤ ((A * rho).trace).re := by
    intro A hA
    obtain ⟨B, rfl⟩ : ∃ B, rho = Bᴴ * B := by
      open scoped MatrixOrder Norms.L2Operator in
      exact CStarAlgebra.nonneg_iff_eq_star_mul_self.1 hr.nonneg
    rw [← Matrix.mul_assoc, trace_mul_comm, ← Matrix.mul_assoc]
    have := (hA.mul_mul_conjTranspose_same B).trace_nonneg
    exact (Complex.le_def.1 this).1
  have h1 := key _ ha
  have h2 := key _ hb
  rw [Matrix.sub_mul, trace_sub, Matrix.smul_mul, Matrix.one_mul, trace_smul, ht] at h1 h2
  simp only [smul_eq_mul, mul_one, Complex.sub_re, Complex.ofReal_re] at h1 h2
  exact ⟨by unfold measureOperator; linarith, by unfold measureOperator; linarith⟩

/-! ## Rates of change -/

/-- Moving the generator from the state to the observable. -/
theorem trace_masterRHS (h : Matrix n n ℂ) (cols : List (Matrix n n ℂ)) (M rho : Matrix n n ℂ) :
    (M * masterRHS h cols rho).trace = (heisenberg h cols M * rho).trace := by
  unfold masterRHS heisenberg
  rw [Matrix.mul_add, Matrix.add_mul, trace_add, trace_add]
  congr 1
  · rw [Matrix.mul_smul, Matrix.smul_mul, trace_smul, trace_smul, Matrix.mul_sub, Matrix.sub_mul, trace_sub,
      trace_sub, ← Matrix.mul_assoc, trace_mul_comm M (rho * h), Matrix.mul_assoc rho h M,
      trace_mul_comm rho (h * M)]
    simp only [smul_eq_mul]
    ring
  · induction cols with
    | nil => simp
    | cons L ls ih =>
      simp only [List.map_cons, List.sum_cons]
      rw [Matrix.mul_add, Matrix.add_mul, trace_add, trace_add, ih]
      congr 1
      rw [Matrix.mul_sub, Matrix.sub_mul, trace_sub, trace_sub, Matrix.mul_smul, Matrix.smul_mul, trace_smul,
        trace_smul, Matrix.mul_add, Matrix.add_mul, trace_add, trace_add]
      have e1 : (M * (L * rho * Lᴴ)).trace = (Lᴴ * M * L * rho).trace := by
        rw [← Matrix.mul_assoc, trace_mul_comm]
        simp only [Matrix.mul_assoc]
      have e2 : (M * (Lᴴ * L * rho)).trace = (M * (Lᴴ * L) * rho).trace := by
        simp only [Matrix.mul_assoc]
      have e3 : (M * (rho * (Lᴴ * L))).trace = (Lᴴ * L * M * rho).trace := by
        rw [← Matrix.mul_assoc, trace_mul_comm]
        simp only [Matrix.mul_assoc]
      rw [e1, e2, e3]
      congr 2
      ring

/-- C248 (Ehrenfest): the change of an expectation value by a step function is `dt` times the expectation
value of the rate of the observable, for closed systems that of `i [H, M]`. -/
theorem C248_ehrenfest (cols : List (Matrix n n ℂ)) (dt : ℝ) (M rho h : Matrix n n ℂ) :
    measureOperator M (lindbladCode cols dt rho h) =
        dt * measureOperator (heisenberg h cols M) rho ∧
      measureOperator M (vonNeumannCode dt rho h) =
        dt * measureOperator (Complex.I • commutator h M) rho := by
  have key : ∀ cols : List (Matrix n n ℂ), measureOperator M (lindbladCode cols dt rho h) =
      dt * measureOperator (heisenberg h cols M) rho := by
    intro cols
    rw [(C248_helpers cols dt rho h).1, lindbladStep_eq]
    unfold measureOperator
    rw [Matrix.mul_smul, trace_smul, trace_masterRHS, smul_eq_mul]
  refine ⟨key cols, ?_⟩
  rw [← (C248_helpers [] dt rho h).2.2, key []]
  simp [heisenberg, commutator]

theorem eq_zero_of_measure (A : Matrix n n ℂ) (h : ∀ rho, measureOperator A rho = 0) : A = 0 := by
  ext i j
  have := h (Matrix.single j i 1)
  unfold measureOperator at this
  simpa [Matrix.trace_mul_single] using this

/-- C248: a step leaves the expectation values of an observable alone for all states exactly if its rate
vanishes, for closed systems exactly if it commutes with the Hamiltonian. -/
theorem C248_stationary (cols : List (Matrix n n ℂ)) (dt : ℝ) (hdt : dt ≠ 0) (M h : Matrix n n ℂ) :
    ((∀ rho, measureOperator M (lindbladCode cols dt rho h) = 0) ↔ heisenberg h cols M = 0) ∧
      ((∀ rho, measureOperator M (vonNeumannCode dt rho h) = 0) ↔ h * M = M * h) := by
  have hd : (dt : ℂ) ≠ 0 := by exact_mod_cast hdt
  constructor
  · constructor
    · intro H
      apply eq_zero_of_measure
      intro rho
      have := H rho
      rw [(C248_ehrenfest cols dt M rho h).1] at this
      exact (mul_eq_zero.1 this).resolve_left hd
    · intro H rho
      rw [(C248_ehrenfest cols dt M rho h).1, H]
      simp [measureOperator]
  · constructor
    · intro H
      have : Complex.I • commutator h M = 0 := by
        apply eq_zero_of_measure
        intro rho
        have := H rho
        rw [(C248_ehrenfest [] dt M rho h).2] at this
        exact (mul_eq_zero.1 this).resolve_left hd
      rw [smul_eq_zero] at this
      exact sub_eq_zero.1 (this.resolve_left Complex.I_ne_zero)
    · intro H rho
      rw [(C248_ehrenfest [] dt M rho h).2, commutator, sub_eq_zero.2 H]
      simp [measureOperator]

/-- C248: an observable that commutes with the Hamiltonian, the collapse operators and their adjoints has
no rate; the converse fails, see the identity. -/
theorem C248_commuting (h : Matrix n n ℂ) (cols : List (Matrix n n ℂ)) (M : Matrix n n ℂ)
    (hh : h * M = M * h) (hc : ∀ L ∈ cols, L * M = M * L ∧ Lᴴ * M = M * Lᴴ) :
    heisenberg h cols M = 0 := by
  unfold heisenberg
  rw [sub_eq_zero.2 hh, smul_zero, zero_add]
  apply List.sum_eq_zero
  intro x hx
  obtain ⟨L, hL, rfl⟩ := List.mem_map.1 hx
  obtain ⟨h1, h2⟩ := hc L hL
  have e1 : Lᴴ * M * L = M * (Lᴴ * L) := by rw [h2, Matrix.mul_assoc]
  have e2 : Lᴴ * L * M = M * (Lᴴ * L) := by rw [Matrix.mul_assoc, h1, ← Matrix.mul_assoc, h2, Matrix.mul_assoc]
  rw [e1, e2]
  module

theorem heisenberg_one (h : Matrix n n ℂ) (cols : List (Matrix n n ℂ)) : heisenberg h cols 1 = 0 := by
  unfold heisenberg
  rw [Matrix.mul_one, Matrix.one_mul, sub_self, smul_zero, zero_add]
  apply List.sum_eq_zero
  intro x hx
  obtain ⟨L, hL, rfl⟩ := List.mem_map.1 hx
  simp only [Matrix.mul_one, Matrix.one_mul]
  module

/-! ## Conserved quantities -/

/-- Measuring as a linear functional of the state. -/
noncomputable def measureFun (M : Matrix n n ℂ) : Matrix n n ℂ →ₗ[ℂ] ℂ where
  toFun rho := measureOperator M rho
  map_add' a b := by unfold measureOperator; rw [Matrix.mul_add, trace_add]
  map_smul' c a := by unfold measureOperator; rw [Matrix.mul_smul, trace_smul, RingHom.id_apply]

/-- C248 (solvers): an observable without a rate at all sampled Hamiltonians keeps its expectation value
in every state any of the solvers returns. -/
theorem C248_solvers (s : Solver) (cols : List (Matrix n n ℂ)) (dt : ℝ) (Hs : ℕ → Matrix n n ℂ)
    (M : Matrix n n ℂ) (hM : ∀ i, heisenberg (Hs i) cols M = 0) (N : ℕ) (rho : Matrix n n ℂ) :
    measureOperator M (odeSolverFinal s (lindbladCode cols dt) Hs N rho) = measureOperator M rho ∧
      ∀ x ∈ odeSolver s (lindbladCode cols dt) Hs N rho, measureOperator M x = measureOperator M rho := by
  have key : ∀ N, measureOperator M (odeSolverFinal s (lindbladCode cols dt) Hs N rho) =
      measureOperator M rho := by
    intro N
    apply odeSolverFinal_invariant s _ Hs (fun x => measureOperator M x = measureOperator M rho) _ N rho
      rfl
    rintro x h ⟨k, hk⟩ hx
    rw [← hx]
    let f : Matrix n n ℂ → {H : Matrix n n ℂ // heisenberg H cols M = 0} → Matrix n n ℂ :=
      fun x h => lindbladCode cols dt x h.1
    have hh : ∀ i, heisenberg (h i) cols M = 0 := fun i => by rw [hk]; exact hM _
    have e : ∀ (s : Solver) (y : Matrix n n ℂ),
        s.run (lindbladCode cols dt) y h = s.run f y (fun i => ⟨h i, hh i⟩) := by
      intro s y; cases s <;> rfl
    rw [e]
    exact solverRun_functional s f (measureFun M) (by
      intro x h
      show measureOperator M (lindbladCode cols dt x h.1) = 0
      rw [(C248_ehrenfest cols dt M x h.1).1, h.2]
      simp [measureOperator]) x _
  refine ⟨key N, ?_⟩
  intro x hx
  rw [C28_trajectory] at hx
  obtain ⟨k, _, rfl⟩ := List.mem_map.1 hx
  exact key _

/-- C248 (solvers, closed systems): whatever commutes with all sampled Hamiltonians is conserved. -/
theorem C248_solvers_closed (s : Solver) (dt : ℝ) (Hs : ℕ → Matrix n n ℂ)
    (M : Matrix n n ℂ) (hM : ∀ i, Hs i * M = M * Hs i) (N : ℕ) (rho : Matrix n n ℂ) :
    measureOperator M (odeSolverFinal s (vonNeumannCode dt) Hs N rho) = measureOperator M rho := by
  have : (vonNeumannCode dt : Matrix n n ℂ → _) = lindbladCode [] dt := by
    funext x h; exact ((C248_helpers [] dt x h).2.2).symm
  rw [this]
  exact (C248_solvers s [] dt Hs M (fun i => C248_commuting _ _ _ (hM i) (by simp)) N rho).1

/-! ## Piecewise constant propagation -/

theorem commute_hamAt (h0 : Matrix n n ℂ) (ctrl : List (ℝ × Matrix n n ℂ)) (M : Matrix n n ℂ)
    (h : h0 * M = M * h0) (hk : ∀ p ∈ ctrl, p.2 * M = M * p.2) :
    hamAt h0 ctrl * M = M * hamAt h0 ctrl := by
  unfold hamAt
  induction ctrl generalizing h0 with
  | nil => exact h
  | cons p ps ih =>
    apply ih
    · rw [Matrix.add_mul, Matrix.mul_add, h, Matrix.smul_mul, Matrix.mul_smul, hk p (by simp)]
    · exact fun q hq => hk q (by simp [hq])

/-- C248 (propagators): what commutes with the drift and the controls commutes with the propagator of
every pulse, and its expectation value is the same after the pulse as before. -/
theorem C248_pwc (h0 : Matrix n n ℂ) (hks : List (Matrix n n ℂ)) (dt : ℝ) (cs : List (List ℝ))
    (hcs : cs ≠ []) (bs : ℕ) (hbs : 1 ≤ bs) (h : h0.IsHermitian) (hk : ∀ H ∈ hks, H.IsHermitian)
    (M : Matrix n n ℂ) (h0M : h0 * M = M * h0) (hkM : ∀ H ∈ hks, H * M = M * H) :
    ∃ U, pwc h0 hks dt cs bs (Fold.stackFor cs.length) = some U ∧ U * M = M * U ∧
      ∀ rho, measureOperator M (U * rho * Uᴴ) = measureOperator M rho := by
  obtain ⟨U, hU, e⟩ := C22_gate_unitary h0 hks dt h hk cs hcs bs hbs
  have hc : U * M = M * U := by
    rw [pwc_eq h0 hks dt cs hcs bs hbs, Option.some.injEq] at e
    rw [← e]
    have hm : Fold.timeOrdered (cs.map (dUOfT h0 hks dt)) ∈ Submonoid.centralizer {M} := by
      apply timeOrdered_mem
      intro x hx
      obtain ⟨c, _, rfl⟩ := List.mem_map.1 hx
      rw [Submonoid.mem_centralizer_iff]
      intro M' hM'
      rw [Set.mem_singleton_iff.1 hM']
      have h1 : Commute M ((dt : ℂ) • (-Complex.I) • hamAt h0 (c.zip hks)) :=
        Commute.smul_right (Commute.smul_right
          (commute_hamAt h0 _ M h0M fun p hp => hkM _ (List.of_mem_zip hp).2).symm _) _
      exact h1.exp_right
    exact ((Submonoid.mem_centralizer_iff.1 hm) M rfl).symm
  refine ⟨U, e, hc, ?_⟩
  intro rho
  have hu : Uᴴ * U = 1 := by
    have := mem_unitaryGroup_iff'.1 hU
    rwa [star_eq_conjTranspose] at this
  unfold measureOperator
  rw [← Matrix.mul_assoc, trace_mul_comm, ← Matrix.mul_assoc, ← Matrix.mul_assoc, Matrix.mul_assoc Uᴴ M U,
    ← hc, ← Matrix.mul_assoc, hu, Matrix.one_mul]

/-- Exponentials of generators that keep a functional of the vector keep it too. -/
theorem functional_exp {m : Type*} [Fintype m] [DecidableEq m] (w : m → ℂ) (A : Matrix m m ℂ)
    (hA : ∀ v, w ⬝ᵥ (A *ᵥ v) = 0) (v : m → ℂ) : w ⬝ᵥ (exp A *ᵥ v) = w ⬝ᵥ v := by
  rcases isEmpty_or_nonempty m with hn | ⟨⟨i0⟩⟩
  · simp [dotProduct]
  · let P : Matrix m m ℂ := Matrix.of fun _ q => w q
    have hP : ∀ u : m → ℂ, P *ᵥ u = fun _ => w ⬝ᵥ u := by
      intro u; funext p; rfl
    have hPA : P * A = 0 := by
      apply Matrix.ext_of_mulVec_single
      intro p
      rw [← mulVec_mulVec, hP, hA, zero_mulVec]
      rfl
    have h := congrFun (hP (exp A *ᵥ v)) i0
    rw [mulVec_mulVec, mul_exp_of_mul_eq_zero P A hPA, hP] at h
    exact h.symm

theorem measure_dot (M : Matrix n n ℂ) (v : n × n → ℂ) :
    measureOperator M (unRow v) = (fun p : n × n => M p.2 p.1) ⬝ᵥ v := by
  unfold measureOperator unRow
  simp only [Matrix.trace, Matrix.diag, Matrix.mul_apply, Matrix.of_apply, dotProduct]
  rw [Fintype.sum_prod_type, Finset.sum_comm]

/-- C248 (open propagators): what has no rate under the drift and the controls keeps its expectation value
under the superoperator of every pulse; in particular (`M = 1`) the trace is kept. -/
theorem C248_pwc_open (h0 : Matrix n n ℂ) (hks cols : List (Matrix n n ℂ)) (dt : ℝ) (cs : List (List ℝ))
    (hcs : cs ≠ []) (bs : ℕ) (hbs : 1 ≤ bs) (M : Matrix n n ℂ)
    (hM : ∀ c ∈ cs, heisenberg (hamAt h0 (c.zip hks)) cols M = 0) :
    ∃ S, pwcLind h0 hks cols dt cs bs (Fold.stackFor cs.length) = some S ∧
      ∀ rho, measureOperator M (unRow (S *ᵥ rowVec rho)) = measureOperator M rho := by
  refine ⟨_, pwcLind_eq h0 hks cols dt cs hcs bs hbs, ?_⟩
  let keep : Submonoid (Matrix (n × n) (n × n) ℂ) :=
    { carrier := {S | ∀ v, measureOperator M (unRow (S *ᵥ v)) = measureOperator M (unRow v)}
      one_mem' := by intro v; simp
      mul_mem' := by
        intro a b ha hb v
        rw [← mulVec_mulVec, ha, hb] }
  have hmem : Fold.timeOrdered (cs.map (dUOfTLind h0 hks cols dt)) ∈ keep := by
    apply timeOrdered_mem
    intro x hx
    obtain ⟨c, hc, rfl⟩ := List.mem_map.1 hx
    intro v
    rw [measure_dot, measure_dot]
    apply functional_exp
    intro w
    rw [← measure_dot, smul_mulVec, ← rowVec_unRow w, lindOp_mulVec, ← rowVec_smul, unRow_rowVec]
    unfold measureOperator
    rw [Matrix.mul_smul, trace_smul, trace_masterRHS, hM c hc, Matrix.zero_mul, trace_zero, smul_zero]
  intro rho
  exact hmem (rowVec rho)

/-! ## Example: an excitation exchanged between two qubits -/

/-- Two qubits with frequencies `a`, `b` exchanging excitations at any rates: the number of excitations is
conserved by all solvers. -/
example (s : Solver) (a b : ℝ) (dt : ℝ) (g : ℕ → ℝ) (N : ℕ) (rho : Matrix (Fin 4) (Fin 4) ℂ) :
    measureOperator (diagonal ![0, 1, 1, 2])
      (odeSolverFinal s (vonNeumannCode dt)
        (fun i => diagonal ![0, (b : ℂ), a, a + b] +
          (g i : ℂ) • !![0, 0, 0, 0; 0, 0, 1, 0; 0, 1, 0, 0; 0, 0, 0, 0]) N rho) =
      measureOperator (diagonal ![0, 1, 1, 2]) rho := by
  apply C248_solvers_closed
  intro i
  ext j k
  rw [Matrix.mul_diagonal, Matrix.diagonal_mul, Matrix.add_apply, Matrix.smul_apply, diagonal_apply]
  fin_cases j <;> fin_cases k <;> simp [mul_comm]

/-- Dephasing keeps the populations, relaxation does not. -/
example : heisenberg (diagonal ![0, 1]) [diagonal ![0, 1]] (diagonal ![0, 1] : Matrix (Fin 2) (Fin 2) ℂ) = 0 ∧
    heisenberg (diagonal ![0, 1]) [!![0, 1; 0, 0]] (diagonal ![0, 1] : Matrix (Fin 2) (Fin 2) ℂ) ≠ 0 := by
  constructor
  · apply C248_commuting
    · rfl
    · intro L hL
      rw [List.mem_singleton.1 hL]
      constructor
      · rfl
      · rw [diagonal_conjTranspose, diagonal_mul_diagonal, diagonal_mul_diagonal]
        congr 1
        funext i
        exact mul_comm _ _
  · intro h
    have := congrFun (congrFun h 1) 1
    simp [heisenberg, Matrix.mul_apply, Fin.sum_univ_two, diagonal, conjTranspose_apply] at this

end C3.Propagation
