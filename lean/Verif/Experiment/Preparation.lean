import Verif.Experiment.EndToEnd
import Mathlib.Algebra.QuadraticDiscriminant

/-!
# C259: errors in the preparation of the state do not grow

The whole chain of C199 for two initial states. However well the two states can be told apart by a measurement at the
beginning, the populations found after any sequence of gates do not tell them apart any better.
-/

set_option linter.unusedSectionVars false

noncomputable section

namespace C3.Experiment.Preparation

open Matrix Finset C3.Propagation C3.Hilbert C3.Experiment C3.Experiment.Compute C3.Experiment.EndToEnd
open scoped ComplexOrder

/-! ## Specification -/

section
variable {n : Type*} [Fintype n] [DecidableEq n]

/-- A measurement with two outcomes: a linear function that gives the probability of one of them in every state. -/
def IsTest (f : Matrix n n ℂ →ₗ[ℂ] ℂ) : Prop := ∀ rho, IsDensity rho → ∃ x : ℝ, 0 ≤ x ∧ x ≤ 1 ∧ f rho = x

/-- In no measurement the probabilities for the two states differ by more than `ε`. -/
def Alike (ε : ℝ) (rho sigma : Matrix n n ℂ) : Prop := ∀ f, IsTest f → |(f rho).re - (f sigma).re| ≤ ε

/-- The probabilities of all sets of outcomes differ by `ε` at most. -/
def Near (ε : ℝ) (p q : n → ℝ) : Prop := ∀ T : Finset n, |∑ i ∈ T, p i - ∑ i ∈ T, q i| ≤ ε

/-- The density matrix of a state vector. -/
def pure (psi : n → ℂ) : Matrix n n ℂ := vecMulVec psi (star psi)

/-- The overlap of two state vectors. -/
def overlap (psi phi : n → ℂ) : ℂ := ∑ i, star (psi i) * phi i

/-! ## States -/

theorem pure_density (psi : n → ℂ) (h : ∑ i, ‖psi i‖ ^ 2 = 1) : IsDensity (pure psi) := by
  refine ⟨posSemidef_vecMulVec_self_star psi, ?_⟩
  unfold pure
  rw [trace_vecMulVec, dotProduct]
  have : ∀ i, psi i * star psi i = ((‖psi i‖ ^ 2 : ℝ) : ℂ) := by
    intro i
    push_cast
    rw [← Complex.mul_conj']
    rfl
  rw [sum_congr rfl fun i _ => this i, ← Complex.ofReal_sum, h, Complex.ofReal_one]

theorem alike_comp {m : Type*} [Fintype m] [DecidableEq m] (ε : ℝ) (rho sigma : Matrix n n ℂ) (h : Alike ε rho sigma)
    (E : Matrix n n ℂ →ₗ[ℂ] Matrix m m ℂ) (hE : ∀ r, IsDensity r → IsDensity (E r)) : Alike ε (E rho) (E sigma) := by
  intro f hf
  exact h (f ∘ₗ E) fun r hr => hf (E r) (hE r hr)

/-- The probability of a set of outcomes is a test. -/
def outcome (T : Finset n) : Matrix n n ℂ →ₗ[ℂ] ℂ where
  toFun rho := ∑ i ∈ T, rho i i
  map_add' a b := by simp [sum_add_distrib]
  map_smul' a b := by simp [mul_sum]

theorem outcome_test (T : Finset n) : IsTest (outcome T) := by
  intro rho h
  have hd : ∀ i, 0 ≤ (rho i i).re ∧ rho i i = ((rho i i).re : ℂ) := by
    intro i
    have h0 := h.1.diag_nonneg (i := i)
    have hre := (Complex.le_def.1 h0).1
    have him := (Complex.le_def.1 h0).2
    simp only [Complex.zero_re, Complex.zero_im] at hre him
    exact ⟨hre, Complex.ext (by simp) (by simp [← him])⟩
  refine ⟨∑ i ∈ T, (rho i i).re, sum_nonneg fun i _ => (hd i).1, ?_, ?_⟩
  · have ht := congrArg Complex.re h.2
    rw [Matrix.trace, Complex.re_sum, Complex.one_re] at ht
    calc _ ≤ ∑ i, (rho i i).re := sum_le_sum_of_subset_of_nonneg (subset_univ T) fun i _ _ => (hd i).1
      _ = 1 := ht
  · show ∑ i ∈ T, rho i i = _
    rw [Complex.ofReal_sum]
    exact sum_congr rfl fun i _ => (hd i).2

theorem near_of_alike (ε : ℝ) (rho sigma : Matrix n n ℂ) (h : Alike ε rho sigma) :
    Near ε (fun i => (rho i i).re) fun i => (sigma i i).re := by
  intro T
  have := h (outcome T) (outcome_test T)
  simpa only [outcome, LinearMap.coe_mk, AddHom.coe_mk, Complex.re_sum] using this

/-- C259: with a state that is replaced by another one with probability `ε`, no measurement changes by more than `ε`. -/
theorem C259_mixture (ε : ℝ) (h0 : 0 ≤ ε) (rho tau : Matrix n n ℂ) (hr : IsDensity rho) (ht : IsDensity tau) :
    Alike ε rho (((1 - ε : ℝ) : ℂ) • rho + (ε : ℂ) • tau) := by
  intro f hf
  obtain ⟨x, x0, x1, hx⟩ := hf rho hr
  obtain ⟨y, y0, y1, hy⟩ := hf tau ht
  rw [map_add, map_smul, map_smul, hx, hy]
  have : ((((1 - ε : ℝ) : ℂ) • (x : ℂ) + (ε : ℂ) • (y : ℂ))).re = (1 - ε) * x + ε * y := by
    simp [smul_eq_mul]
  rw [this, Complex.ofReal_re, abs_le]
  constructor <;> nlinarith

theorem test_ket (f : Matrix n n ℂ →ₗ[ℂ] ℂ) (hf : IsTest f) (v : n → ℂ) :
    0 ≤ (f (pure v)).re ∧ (f (pure v)).re ≤ ∑ i, ‖v i‖ ^ 2 := by
  set N := ∑ i, ‖v i‖ ^ 2 with hN
  have hN0 : 0 ≤ N := sum_nonneg fun i _ => sq_nonneg _
  rcases hN0.eq_or_lt with h | h
  · have hv : v = 0 := by
      funext i
      have := (sum_eq_zero_iff_of_nonneg fun i _ => sq_nonneg ‖v i‖).1 h.symm i (mem_univ i)
      simpa using this
    have : pure v = 0 := by rw [hv]; simp [pure]
    rw [this, map_zero, Complex.zero_re, ← h]
    exact ⟨le_rfl, le_rfl⟩
  · set r := Real.sqrt N with hr
    have hr2 : r ^ 2 = N := Real.sq_sqrt hN0
    have hr0 : r ≠ 0 := (Real.sqrt_pos.2 h).ne'
    have hd : IsDensity (pure fun i => ((r⁻¹ : ℝ) : ℂ) * v i) := by
      refine pure_density _ ?_
      have : ∀ i, ‖((r⁻¹ : ℝ) : ℂ) * v i‖ ^ 2 = (r ^ 2)⁻¹ * ‖v i‖ ^ 2 := by
        intro i
        rw [norm_mul, mul_pow, Complex.norm_real, Real.norm_eq_abs, sq_abs, inv_pow]
      rw [sum_congr rfl fun i _ => this i, ← mul_sum, hr2, ← hN, inv_mul_cancel₀ h.ne']
    obtain ⟨x, x0, x1, hx⟩ := hf _ hd
    have e : pure v = ((r ^ 2 : ℝ) : ℂ) • pure fun i => ((r⁻¹ : ℝ) : ℂ) * v i := by
      ext i j
      simp only [pure, vecMulVec_apply, Pi.star_apply, Matrix.smul_apply, smul_eq_mul, star_mul', Complex.star_def, Complex.conj_ofReal]
      have : (r : ℂ) ≠ 0 := by exact_mod_cast hr0
      push_cast
      field_simp
    rw [e, map_smul, hx, hr2]
    have : (((N : ℝ) : ℂ) • (x : ℂ)).re = N * x := by simp [smul_eq_mul]
    rw [this]
    constructor <;> nlinarith

/-- C259: state vectors whose overlap is close to one are alike. -/
theorem C259_kets (psi phi : n → ℂ) (h1 : ∑ i, ‖psi i‖ ^ 2 = 1) (h2 : ∑ i, ‖phi i‖ ^ 2 = 1) :
    Alike (Real.sqrt (1 - (overlap psi phi).re ^ 2)) (pure psi) (pure phi) := by
  intro f hf
  set a := (f (pure psi)).re
  set b := (f (pure phi)).re
  set c := (overlap psi phi).re with hc
  have key : ∀ u : ℝ, 0 ≤ (2 - 2 * c) * (u * u) + (-(4 * (a - b))) * u + (2 + 2 * c) := by
    intro u
    let v : n → ℂ := fun i => (u + 1 : ℂ) * psi i + (1 - u : ℂ) * phi i
    let w : n → ℂ := fun i => (u - 1 : ℂ) * psi i - (u + 1 : ℂ) * phi i
    have e : pure v - pure w = ((4 * u : ℝ) : ℂ) • (pure psi - pure phi) := by
      ext i j
      simp only [pure, v, w, vecMulVec_apply, Pi.star_apply, Matrix.smul_apply, Matrix.sub_apply, smul_eq_mul, star_add, star_sub, star_mul',
        Complex.star_def, Complex.conj_ofReal, map_one]
      push_cast
      ring
    have e' := congrArg (fun A => (f A).re) e
    simp only [map_sub, map_smul, Complex.sub_re] at e'
    have e2 : (((4 * u : ℝ) : ℂ) • (f (pure psi) - f (pure phi))).re = 4 * u * (a - b) := by
      rw [smul_eq_mul, Complex.re_ofReal_mul, Complex.sub_re]
    rw [e2] at e'
    have hv := (test_ket f hf v).2
    have hw := (test_ket f hf w).1
    have hn : ∑ i, ‖v i‖ ^ 2 = (2 - 2 * c) * (u * u) + (2 + 2 * c) := by
      have : ∀ i, ‖v i‖ ^ 2 = (u + 1) ^ 2 * ‖psi i‖ ^ 2 + (1 - u) ^ 2 * ‖phi i‖ ^ 2 +
          2 * (u + 1) * (1 - u) * (star (psi i) * phi i).re := by
        intro i
        simp only [v]
        rw [← Complex.normSq_eq_norm_sq, ← Complex.normSq_eq_norm_sq, ← Complex.normSq_eq_norm_sq]
        simp only [Complex.normSq_apply, Complex.add_re, Complex.add_im, Complex.mul_re, Complex.mul_im, Complex.ofReal_re,
          Complex.ofReal_im, Complex.one_re, Complex.one_im, Complex.sub_re, Complex.sub_im, Complex.star_def,
          Complex.conj_re, Complex.conj_im]
        ring
      rw [sum_congr rfl fun i _ => this i, sum_add_distrib, sum_add_distrib, ← mul_sum, ← mul_sum, ← mul_sum, h1, h2,
        ← Complex.re_sum]
      change _ + 2 * (u + 1) * (1 - u) * c = _
      ring
    rw [hn] at hv
    linarith
  have hd := discrim_le_zero key
  unfold discrim at hd
  refine Real.abs_le_sqrt ?_
  nlinarith

/-! ## Gates -/

/-- What an open-system gate does to density matrices. -/
def act (S : Matrix (n × n) (n × n) ℂ) : Matrix n n ℂ →ₗ[ℂ] Matrix n n ℂ where
  toFun rho := vecToDm (S *ᵥ dmToVec rho)
  map_add' a b := by
    have : dmToVec (a + b) = dmToVec a + dmToVec b := rfl
    rw [this, mulVec_add]
    rfl
  map_smul' r a := by
    have : dmToVec (r • a) = r • dmToVec a := rfl
    rw [this, mulVec_smul]
    rfl

theorem act_density (S : Matrix (n × n) (n × n) ℂ) (ht : S ∈ tracePreserving n) (hp : S ∈ positiveMaps n) (rho : Matrix n n ℂ)
    (h : IsDensity rho) : IsDensity (act S rho) := by
  have e : act S rho = (unRow (S *ᵥ rowVec rhoᵀ))ᵀ := rfl
  constructor
  · rw [e]
    exact (hp _ h.1.transpose).transpose
  · have := ht (dmToVec rho)
    rw [vecTrace_dmToVec, h.2] at this
    exact this

theorem act_vec (S : Matrix (n × n) (n × n) ℂ) (rho : Matrix n n ℂ) : S *ᵥ dmToVec rho = dmToVec (act S rho) := rfl

/-- What a closed-system gate does to density matrices. -/
def actU (U : Matrix n n ℂ) : Matrix n n ℂ →ₗ[ℂ] Matrix n n ℂ where
  toFun rho := U * rho * Uᴴ
  map_add' a b := by rw [Matrix.mul_add, Matrix.add_mul]
  map_smul' r a := by
    rw [Matrix.mul_smul, Matrix.smul_mul]
    rfl

theorem actU_density (U : Matrix n n ℂ) (h : Uᴴ * U = 1) (rho : Matrix n n ℂ) (hr : IsDensity rho) :
    IsDensity (actU U rho) := by
  refine ⟨hr.1.mul_mul_conjTranspose_same U, ?_⟩
  show (U * rho * Uᴴ).trace = 1
  rw [Matrix.mul_assoc, trace_mul_comm, Matrix.mul_assoc, h, Matrix.mul_one, hr.2]

theorem actU_pure (U : Matrix n n ℂ) (psi : n → ℂ) : actU U (pure psi) = pure (U *ᵥ psi) := by
  show U * vecMulVec psi (star psi) * Uᴴ = vecMulVec (U *ᵥ psi) (star (U *ᵥ psi))
  rw [mul_vecMulVec, vecMulVec_mul, star_mulVec]

theorem pops_pure (psi : n → ℂ) : popsClosed psi = fun i => (pure psi i i).re := by
  funext i
  unfold popsClosed pure
  rw [vecMulVec_apply, Pi.star_apply, Complex.star_def, Complex.mul_conj, Complex.ofReal_re, Complex.normSq_eq_norm_sq]

theorem run_open (props : String → Option (Matrix (n × n) (n × n) ℂ)) (s : List String)
    (hk : ∀ g ∈ s, ∃ S, props g = some S ∧ S ∈ tracePreserving n ∧ S ∈ positiveMaps n) (ε : ℝ) (rho sigma : Matrix n n ℂ)
    (h : Alike ε rho sigma) : ∃ r t, runSeq props s (dmToVec rho) = some (dmToVec r) ∧
      runSeq props s (dmToVec sigma) = some (dmToVec t) ∧ Alike ε r t := by
  induction s generalizing rho sigma with
  | nil => exact ⟨rho, sigma, rfl, rfl, h⟩
  | cons g s ih =>
    obtain ⟨S, hS, ht, hp⟩ := hk g List.mem_cons_self
    obtain ⟨r, t, a, b, c⟩ := ih (fun g hg => hk g (List.mem_cons_of_mem _ hg)) (act S rho) (act S sigma)
      (alike_comp ε rho sigma h (act S) (act_density S ht hp))
    refine ⟨r, t, ?_, ?_, c⟩
    · simp only [runSeq, hS]
      rw [act_vec, a]
    · simp only [runSeq, hS]
      rw [act_vec, b]

theorem run_closed (props : String → Option (Matrix n n ℂ)) (s : List String)
    (hk : ∀ g ∈ s, ∃ U, props g = some U ∧ Uᴴ * U = 1) (ε : ℝ) (psi phi : n → ℂ) (h : Alike ε (pure psi) (pure phi)) :
    ∃ r t, runSeq props s psi = some r ∧ runSeq props s phi = some t ∧ Alike ε (pure r) (pure t) := by
  induction s generalizing psi phi with
  | nil => exact ⟨psi, phi, rfl, rfl, h⟩
  | cons g s ih =>
    obtain ⟨U, hU, hu⟩ := hk g List.mem_cons_self
    obtain ⟨r, t, a, b, c⟩ := ih (fun g hg => hk g (List.mem_cons_of_mem _ hg)) (U *ᵥ psi) (U *ᵥ phi) (by
      rw [← actU_pure, ← actU_pure]
      exact alike_comp ε _ _ h (actU U) (actU_density U hu))
    refine ⟨r, t, ?_, ?_, c⟩
    · simp only [runSeq, hU, a]
    · simp only [runSeq, hU, b]

theorem mapM_pairs {α β : Type*} (f g : α → Option β) (R : β → β → Prop) (l : List α)
    (h : ∀ a ∈ l, ∃ x y, f a = some x ∧ g a = some y ∧ R x y) :
    ∃ xs ys, l.mapM f = some xs ∧ l.mapM g = some ys ∧ List.Forall₂ R xs ys := by
  induction l with
  | nil => exact ⟨[], [], rfl, rfl, .nil⟩
  | cons a l ih =>
    obtain ⟨x, y, h1, h2, h3⟩ := h a List.mem_cons_self
    obtain ⟨xs, ys, i1, i2, i3⟩ := ih fun a ha => h a (List.mem_cons_of_mem _ ha)
    refine ⟨x :: xs, y :: ys, ?_, ?_, .cons h3 i3⟩
    · rw [List.mapM_cons, h1, i1]; rfl
    · rw [List.mapM_cons, h2, i2]; rfl

end

/-! ## Experiments -/

variable {dims : List ℕ}

/-- C259 (open systems): whatever chips and pulses the gates were computed with, the populations after any sequence differ
for two initial states by no more than the best measurement of the initial states. -/
theorem C259_open (s : Exp (SOp dims)) (hm : s.propMethod = none) (hp : ∀ g, s.propagators g = none)
    (es : List (Event (SOp dims))) (he : ∀ e ∈ es, ∃ c : Chip dims, c.WF ∧ ∃ ps : List (String × Pulse),
      (∀ g p, ps.lookup g = some p → 0 ≤ p.dt) ∧ e.w = opened c ps)
    (seqs : List (List String)) (ha : Available (runEvents s es).propagators seqs) (ε : ℝ) (rho sigma : Op dims)
    (h : Alike ε rho sigma) :
    ∃ ps qs, evaluateOpen (runEvents s es).propagators seqs (dmToVec rho) = some ps ∧
      evaluateOpen (runEvents s es).propagators seqs (dmToVec sigma) = some qs ∧ List.Forall₂ (Near ε) ps qs := by
  unfold evaluateOpen
  refine mapM_pairs _ _ _ _ fun q hq => ?_
  obtain ⟨r, t, a, b, c⟩ := run_open (runEvents s es).propagators q (fun g hg => by
    obtain ⟨U, hU⟩ := ha q hq g hg
    have hw : ∀ e ∈ es, e.w.WF := fun e hm => by
      obtain ⟨c, _, ps, _, h⟩ := he e hm
      rw [h]
      exact opened_wf c ps
    obtain ⟨pre, e, post, rfl, -, -, h1, -⟩ := (C68_history s hm hp es hw g U).1 hU
    obtain ⟨c, hc, ps, hdt, h2⟩ := he e (by simp)
    rw [h2] at h1
    exact ⟨U, hU, C199_channel c hc ps hdt g U h1⟩) ε rho sigma h
  refine ⟨_, _, by rw [a]; rfl, by rw [b]; rfl, ?_⟩
  exact near_of_alike ε r t c

/-- C259 (closed systems). -/
theorem C259_closed (s : Exp (Op dims)) (hm : s.propMethod = none) (hp : ∀ g, s.propagators g = none)
    (es : List (Event (Op dims))) (he : ∀ e ∈ es, ∃ c : Chip dims, c.WF ∧ ∃ ps, e.w = closed c ps)
    (seqs : List (List String)) (ha : Available (runEvents s es).propagators seqs) (ε : ℝ) (psi phi : Fin dims.prod → ℂ)
    (h : Alike ε (pure psi) (pure phi)) :
    ∃ ps qs, evaluateClosed (runEvents s es).propagators seqs psi = some ps ∧
      evaluateClosed (runEvents s es).propagators seqs phi = some qs ∧ List.Forall₂ (Near ε) ps qs := by
  unfold evaluateClosed
  refine mapM_pairs _ _ _ _ fun q hq => ?_
  obtain ⟨r, t, a, b, c⟩ := run_closed (runEvents s es).propagators q (fun g hg => by
    obtain ⟨U, hU⟩ := ha q hq g hg
    have hw : ∀ e ∈ es, e.w.WF := fun e hm => by
      obtain ⟨c, _, ps, h⟩ := he e hm
      rw [h]
      exact closed_wf c ps
    obtain ⟨pre, e, post, rfl, -, -, h1, -⟩ := (C68_history s hm hp es hw g U).1 hU
    obtain ⟨c, hc, ps, h2⟩ := he e (by simp)
    rw [h2] at h1
    exact ⟨U, hU, C199_unitary c hc ps g U h1⟩) ε psi phi h
  refine ⟨_, _, by rw [a]; rfl, by rw [b]; rfl, ?_⟩
  rw [pops_pure, pops_pure]
  exact near_of_alike ε _ _ c

/-- C259: if with probability `ε` any other state is prepared, the populations of all sets of states change by `ε` at
most, after every sequence. -/
theorem C259_faulty_preparation (s : Exp (SOp dims)) (hm : s.propMethod = none) (hp : ∀ g, s.propagators g = none)
    (es : List (Event (SOp dims))) (he : ∀ e ∈ es, ∃ c : Chip dims, c.WF ∧ ∃ ps : List (String × Pulse),
      (∀ g p, ps.lookup g = some p → 0 ≤ p.dt) ∧ e.w = opened c ps)
    (seqs : List (List String)) (ha : Available (runEvents s es).propagators seqs) (ε : ℝ) (h0 : 0 ≤ ε)
    (rho tau : Op dims) (hr : IsDensity rho) (ht : IsDensity tau) :
    ∃ ps qs, evaluateOpen (runEvents s es).propagators seqs (dmToVec rho) = some ps ∧
      evaluateOpen (runEvents s es).propagators seqs (dmToVec (((1 - ε : ℝ) : ℂ) • rho + (ε : ℂ) • tau)) = some qs ∧
      List.Forall₂ (Near ε) ps qs :=
  C259_open s hm hp es he seqs ha ε _ _ (C259_mixture ε h0 rho tau hr ht)

/-- C259: if another state vector is prepared, the populations change by no more than the overlap allows. -/
theorem C259_rotated_preparation (s : Exp (Op dims)) (hm : s.propMethod = none) (hp : ∀ g, s.propagators g = none)
    (es : List (Event (Op dims))) (he : ∀ e ∈ es, ∃ c : Chip dims, c.WF ∧ ∃ ps, e.w = closed c ps)
    (seqs : List (List String)) (ha : Available (runEvents s es).propagators seqs) (psi phi : Fin dims.prod → ℂ)
    (h1 : ∑ i, ‖psi i‖ ^ 2 = 1) (h2 : ∑ i, ‖phi i‖ ^ 2 = 1) :
    ∃ ps qs, evaluateClosed (runEvents s es).propagators seqs psi = some ps ∧
      evaluateClosed (runEvents s es).propagators seqs phi = some qs ∧
      List.Forall₂ (Near (Real.sqrt (1 - (overlap psi phi).re ^ 2))) ps qs :=
  C259_closed s hm hp es he seqs ha _ _ _ (C259_kets psi phi h1 h2)

/-! ## Examples -/

/-- The bound for state vectors is reached: orthogonal basis states are told apart with certainty. -/
example : ¬ Alike (1 / 2 : ℝ) (pure (Pi.single 0 1 : Fin 2 → ℂ)) (pure (Pi.single 1 1)) := by
  intro h
  have := h (outcome {0}) (outcome_test _)
  norm_num [outcome, pure, vecMulVec_apply] at this

/-- A state prepared wrongly with probability one tenth. -/
example : Alike (1 / 10 : ℝ) (pure (Pi.single 0 1 : Fin 2 → ℂ))
    (((1 - 1 / 10 : ℝ) : ℂ) • pure (Pi.single 0 1) + ((1 / 10 : ℝ) : ℂ) • pure (Pi.single 1 1)) :=
  C259_mixture _ (by norm_num) _ _ (pure_density _ (by simp [Fin.sum_univ_two])) (pure_density _ (by simp [Fin.sum_univ_two]))

/-- The hypotheses on experiments hold for gates of a driven qubit. -/
example (psi phi : Fin [2].prod → ℂ) (h1 : ∑ i, ‖psi i‖ ^ 2 = 1) (h2 : ∑ i, ‖phi i‖ ^ 2 = 1) (s : Exp (Op [2]))
    (hm : s.propMethod = none) (hp : ∀ g, s.propagators g = none) (e : Event (Op [2]))
    (he : e.w = closed exChip [("rx", ⟨["d"], [[1], [2]], 1, [("d", 5)], fun _ => some 0, 2⟩)]) (seqs : List (List String))
    (ha : Available (runEvents s [e]).propagators seqs) :
    ∃ ps qs, evaluateClosed (runEvents s [e]).propagators seqs psi = some ps ∧
      evaluateClosed (runEvents s [e]).propagators seqs phi = some qs ∧
      List.Forall₂ (Near (Real.sqrt (1 - (overlap psi phi).re ^ 2))) ps qs :=
  C259_rotated_preparation s hm hp [e] (by
    intro e' h
    rw [List.mem_singleton.1 h]
    exact ⟨exChip, exChip_wf, _, he⟩) seqs ha psi phi h1 h2

end C3.Experiment.Preparation
