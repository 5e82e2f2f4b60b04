import Verif.Experiment.Repetition
import Mathlib.LinearAlgebra.Eigenspace.Triangularizable
import Mathlib.Analysis.Complex.Polynomial.Basic
import Mathlib.Analysis.Matrix.Order

/-!
# C269: every sequence of gates has a state that it leaves unchanged

The whole chain of C199 for sequences that are repeated. Whatever the chip, its decoherence and the pulses, there is an
initial state for which any number of repetitions of a sequence cannot be noticed, neither in the populations nor by gates
that are played afterwards.
-/

set_option linter.unusedSectionVars false

noncomputable section

namespace C3.Experiment.Stationary

open Matrix Finset Filter Topology C3.Propagation C3.Hilbert C3.Experiment C3.Experiment.Compute C3.Experiment.EndToEnd
open C3.Experiment.Recurrence (repeated)
open scoped ComplexOrder

/-! ## Density matrices -/

section
variable {n : Type} [Fintype n] [DecidableEq n]

open scoped MatrixOrder Matrix.Norms.L2Operator in
theorem factor (rho : Matrix n n ℂ) (h : rho.PosSemidef) : ∃ B : Matrix n n ℂ, rho = Bᴴ * B :=
  CStarAlgebra.nonneg_iff_eq_star_mul_self.mp h.nonneg

theorem entry_le (rho : Matrix n n ℂ) (h : IsDensity rho) (i j : n) : ‖rho i j‖ ≤ 1 := by
  obtain ⟨B, hB⟩ := factor rho h.1
  have e : ∀ i j, rho i j = ∑ k, star (B k i) * B k j := fun i j => by
    rw [hB, mul_apply]
    rfl
  have d : ∀ i, rho i i = ((∑ k, ‖B k i‖ ^ 2 : ℝ) : ℂ) := fun i => by
    rw [e, Complex.ofReal_sum]
    refine sum_congr rfl fun k _ => ?_
    rw [Complex.star_def, Complex.conj_mul']
    norm_cast
  have t : ∑ i, ∑ k, ‖B k i‖ ^ 2 = 1 := by
    have := h.2
    rw [Matrix.trace] at this
    simp only [diag_apply, d] at this
    rw [← Complex.ofReal_sum] at this
    exact_mod_cast this
  have one : ∀ i, ∑ k, ‖B k i‖ ^ 2 ≤ 1 := fun i => by
    rw [← t]
    exact single_le_sum (f := fun i => ∑ k, ‖B k i‖ ^ 2) (fun i _ => sum_nonneg fun k _ => sq_nonneg _) (mem_univ i)
  calc ‖rho i j‖ ≤ ∑ k, ‖star (B k i) * B k j‖ := by rw [e]; exact norm_sum_le _ _
    _ ≤ ∑ k, (‖B k i‖ ^ 2 + ‖B k j‖ ^ 2) / 2 := by
      refine sum_le_sum fun k _ => ?_
      rw [norm_mul, norm_star]
      nlinarith [sq_nonneg (‖B k i‖ - ‖B k j‖)]
    _ = (∑ k, ‖B k i‖ ^ 2 + ∑ k, ‖B k j‖ ^ 2) / 2 := by rw [← sum_div, sum_add_distrib]
    _ ≤ 1 := by linarith [one i, one j]

theorem density_limit (f : ℕ → n × n → ℂ) (v : n × n → ℂ) (hf : ∀ k, IsDensity (vecToDm (f k)))
    (h : Tendsto f atTop (𝓝 v)) : IsDensity (vecToDm v) := by
  have hc : Continuous fun v : n × n → ℂ => vecToDm v := by
    refine continuous_matrix fun i j => ?_
    exact continuous_apply (j, i)
  have hl := (hc.tendsto v).comp h
  constructor
  · rw [Matrix.posSemidef_iff_dotProduct_mulVec]
    constructor
    · have h1 : Tendsto (fun k => (vecToDm (f k))ᴴ) atTop (𝓝 (vecToDm v)ᴴ) :=
        ((continuous_id.matrix_conjTranspose).tendsto _).comp hl
      refine tendsto_nhds_unique h1 ?_
      refine hl.congr fun k => ?_
      exact (hf k).1.1.symm
    · intro x
      have h2 : Continuous fun M : Matrix n n ℂ => star x ⬝ᵥ (M *ᵥ x) :=
        continuous_const.dotProduct (continuous_id.matrix_mulVec continuous_const)
      exact ge_of_tendsto' ((h2.tendsto _).comp hl) fun k =>
        ((Matrix.posSemidef_iff_dotProduct_mulVec.1 (hf k).1).2 x)
  · have h3 := (continuous_id.matrix_trace.tendsto (vecToDm v)).comp hl
    refine tendsto_nhds_unique h3 ?_
    refine tendsto_const_nhds.congr fun k => ?_
    exact (hf k).2.symm

/-- The mean of the states after the first repetitions. -/
def mean (S : Matrix (n × n) (n × n) ℂ) (v : n × n → ℂ) (N : ℕ) : n × n → ℂ :=
  ((N + 1 : ℂ)⁻¹) • ∑ k ∈ range (N + 1), S ^ k *ᵥ v

theorem mean_step (S : Matrix (n × n) (n × n) ℂ) (v : n × n → ℂ) (N : ℕ) :
    S *ᵥ mean S v N - mean S v N = ((N + 1 : ℂ)⁻¹) • (S ^ (N + 1) *ᵥ v - v) := by
  unfold mean
  have e : S *ᵥ ∑ k ∈ range (N + 1), S ^ k *ᵥ v = ∑ k ∈ range (N + 1), S ^ (k + 1) *ᵥ v := by
    rw [mulVec_sum]
    refine sum_congr rfl fun k _ => ?_
    rw [mulVec_mulVec, ← pow_succ']
  rw [mulVec_smul, e, ← smul_sub, ← sum_sub_distrib, sum_range_sub (fun k => S ^ k *ᵥ v), pow_zero, one_mulVec]

theorem mean_density (S : Matrix (n × n) (n × n) ℂ) (v : n × n → ℂ) (h : ∀ k, IsDensity (vecToDm (S ^ k *ᵥ v))) (N : ℕ) :
    IsDensity (vecToDm (mean S v N)) := by
  have e : vecToDm (mean S v N) = ((N + 1 : ℂ)⁻¹) • ∑ k ∈ range (N + 1), vecToDm (S ^ k *ᵥ v) := by
    ext i j
    simp [mean, vecToDm, Matrix.sum_apply]
  have hN : (N + 1 : ℂ) ≠ 0 := by exact_mod_cast Nat.succ_ne_zero N
  rw [e]
  constructor
  · refine PosSemidef.smul (Matrix.posSemidef_sum _ fun k _ => (h k).1) ?_
    have : (0 : ℝ) ≤ ((N : ℝ) + 1)⁻¹ := by positivity
    have h2 : ((N + 1 : ℂ)⁻¹) = ((((N : ℝ) + 1)⁻¹ : ℝ) : ℂ) := by push_cast; rfl
    rw [h2]
    exact_mod_cast this
  · rw [trace_smul, trace_sum, sum_congr rfl fun k _ => (h k).2, sum_const, card_range, nsmul_eq_mul, smul_eq_mul, mul_one]
    push_cast
    exact inv_mul_cancel₀ hN

/-- Every channel has a state that it leaves unchanged. -/
theorem fixed [Nonempty n] (S : Matrix (n × n) (n × n) ℂ) (ht : S ∈ tracePreserving n) (hp : S ∈ positiveMaps n) :
    ∃ rho, IsDensity rho ∧ S *ᵥ dmToVec rho = dmToVec rho := by
  obtain ⟨x⟩ := ‹Nonempty n›
  have h0 : IsDensity (Preparation.pure (Pi.single x (1 : ℂ) : n → ℂ)) := Preparation.pure_density _ (by
    rw [sum_eq_single x (fun i _ hi => by simp [hi]) (by simp)]
    simp)
  set v := dmToVec (Preparation.pure (Pi.single x (1 : ℂ) : n → ℂ)) with hv
  have hk : ∀ k, IsDensity (vecToDm (S ^ k *ᵥ v)) := fun k =>
    Preparation.act_density (S ^ k) (pow_mem ht k) (pow_mem hp k) _ h0
  have bound : ∀ w : n × n → ℂ, IsDensity (vecToDm w) → w ∈ Metric.closedBall (0 : n × n → ℂ) 1 := fun w hw => by
    rw [mem_closedBall_zero_iff, pi_norm_le_iff_of_nonneg zero_le_one]
    exact fun p => entry_le _ hw p.2 p.1
  obtain ⟨u, -, f, hf, hlim⟩ := (isCompact_closedBall (0 : n × n → ℂ) 1).tendsto_subseq fun N =>
    bound _ (mean_density S v hk N)
  have hu : IsDensity (vecToDm u) := density_limit _ u (fun k => mean_density S v hk (f k)) hlim
  refine ⟨vecToDm u, hu, ?_⟩
  have e : dmToVec (vecToDm u) = u := rfl
  rw [e, ← sub_eq_zero]
  have hc : Continuous fun w : n × n → ℂ => S *ᵥ w - w :=
    (continuous_const.matrix_mulVec continuous_id).sub continuous_id
  refine tendsto_nhds_unique ((hc.tendsto u).comp hlim) ?_
  have hz : Tendsto (fun N : ℕ => ((N : ℝ) + 1)⁻¹ * 2) atTop (𝓝 0) := by
    have := (tendsto_one_div_add_atTop_nhds_zero_nat (𝕜 := ℝ)).mul_const 2
    simpa using this
  refine squeeze_zero_norm (fun k => ?_) (hz.comp hf.tendsto_atTop)
  simp only [Function.comp_apply]
  rw [mean_step, norm_smul]
  have h1 := mem_closedBall_zero_iff.1 (bound _ (hk (f k + 1)))
  have h2 := mem_closedBall_zero_iff.1 (bound _ (hk 0))
  rw [pow_zero, one_mulVec] at h2
  have h3 : ‖((f k : ℂ) + 1)⁻¹‖ = ((f k : ℝ) + 1)⁻¹ := by
    rw [norm_inv]
    congr 1
    have : ((f k : ℂ) + 1) = (((f k : ℝ) + 1 : ℝ) : ℂ) := by push_cast; rfl
    rw [this, Complex.norm_real, Real.norm_of_nonneg (by positivity)]
  rw [h3]
  refine mul_le_mul_of_nonneg_left ?_ (by positivity)
  exact (norm_sub_le _ _).trans (by linarith)

theorem run_append {m : Type} [Fintype m] [DecidableEq m] (props : String → Option (Matrix m m ℂ)) (s t : List String)
    (v w : m → ℂ) (h : runSeq props s v = some w) : runSeq props (s ++ t) v = runSeq props t w := by
  induction s generalizing v with
  | nil =>
    cases h
    rfl
  | cons g s ih =>
    simp only [List.cons_append, runSeq] at h ⊢
    cases hg : props g with
    | none => rw [hg] at h; cases h
    | some U =>
      rw [hg] at h
      exact ih _ h

/-- C269 for any set of channels. -/
theorem C269_gates_open [Nonempty n] (props : String → Option (Matrix (n × n) (n × n) ℂ))
    (hu : ∀ g S, props g = some S → S ∈ tracePreserving n ∧ S ∈ positiveMaps n) (q : List String)
    (hq : Available props [q]) :
    ∃ rho : Matrix n n ℂ, IsDensity rho ∧ ∀ k b,
      evaluateOpen props [repeated k q ++ b] (dmToVec rho) = evaluateOpen props [b] (dmToVec rho) := by
  have hq' : ∀ g ∈ q, ∃ U, props g = some U := hq q (by simp)
  have hS : C3.Fold.seqProp (fun g => (props g).getD 1) q ∈ tracePreserving n ∧
      C3.Fold.seqProp (fun g => (props g).getD 1) q ∈ positiveMaps n := by
    constructor <;> refine Repetition.sequence_mem _ _ _ fun g hg => ?_ <;> obtain ⟨U, hU⟩ := hq' g hg <;>
      simp only [hU, Option.getD_some]
    · exact (hu g U hU).1
    · exact (hu g U hU).2
  obtain ⟨rho, hr, hfix⟩ := fixed _ hS.1 hS.2
  refine ⟨rho, hr, fun k b => ?_⟩
  have hrun : runSeq props (repeated k q) (dmToVec rho) = some (dmToVec rho) := by
    induction k with
    | zero => rfl
    | succ k ih =>
      have e : repeated (k + 1) q = q ++ repeated k q := by simp [repeated, List.replicate_succ]
      rw [e, run_append props q _ _ (dmToVec rho) (by rw [runSeq_eq _ q _ hq', hfix]), ih]
  unfold evaluateOpen
  rw [List.mapM_cons, List.mapM_cons, run_append props _ b _ _ hrun]

/-- C269 for any set of unitary gates. -/
theorem C269_gates_closed [Nonempty n] (props : String → Option (Matrix n n ℂ))
    (hu : ∀ g U, props g = some U → Uᴴ * U = 1) (q : List String) (hq : Available props [q]) :
    ∃ psi : n → ℂ, ∑ i, ‖psi i‖ ^ 2 = 1 ∧ ∀ k b, Available props [b] →
      evaluateClosed props [repeated k q ++ b] psi = evaluateClosed props [b] psi := by
  have hq' : ∀ g ∈ q, ∃ U, props g = some U := hq q (by simp)
  set W := C3.Fold.seqProp (fun g => (props g).getD 1) q with hW
  have hWu : Wᴴ * W = 1 := by
    refine C3.Fidelity.seqProp_unitary _ q fun g hg => ?_
    obtain ⟨U, hU⟩ := hq' g hg
    simp only [hU, Option.getD_some]
    exact hu g U hU
  obtain ⟨z, hz⟩ := Module.End.exists_eigenvalue (Matrix.toLin' W)
  obtain ⟨v, hv⟩ := hz.exists_hasEigenvector
  have hv1 : W *ᵥ v = z • v := by
    have := hv.apply_eq_smul
    rwa [toLin'_apply] at this
  have hv0 : v ≠ 0 := hv.2
  set r := ∑ i, ‖v i‖ ^ 2 with hr
  have hr0 : 0 < r := by
    obtain ⟨i, hi⟩ := Function.ne_iff.1 hv0
    exact sum_pos' (fun i _ => sq_nonneg _) ⟨i, mem_univ i, by have := norm_pos_iff.2 hi; positivity⟩
  have hz1 : ‖z‖ = 1 := by
    have h1 := C3.Fidelity.sum_norm_mulVec W hWu v
    rw [hv1] at h1
    simp only [Pi.smul_apply, smul_eq_mul, norm_mul, mul_pow, ← mul_sum] at h1
    have h2 : ‖z‖ ^ 2 = 1 := by
      have : ‖z‖ ^ 2 * r = 1 * r := by rw [one_mul]; exact h1
      exact mul_right_cancel₀ hr0.ne' this
    exact (pow_eq_one_iff_of_nonneg (norm_nonneg z) two_ne_zero).1 h2
  set psi : n → ℂ := ((Real.sqrt r)⁻¹ : ℂ) • v with hpsi
  have hp1 : W *ᵥ psi = z • psi := by rw [hpsi, mulVec_smul, hv1, smul_comm]
  refine ⟨psi, ?_, fun k b hb => ?_⟩
  · have : ∀ i, ‖psi i‖ ^ 2 = r⁻¹ * ‖v i‖ ^ 2 := fun i => by
      rw [hpsi, Pi.smul_apply, smul_eq_mul, norm_mul, mul_pow, norm_inv, Complex.norm_real,
        Real.norm_of_nonneg (Real.sqrt_nonneg _), inv_pow, Real.sq_sqrt hr0.le]
    rw [sum_congr rfl fun i _ => this i, ← mul_sum, ← hr, inv_mul_cancel₀ hr0.ne']
  · have hrun : ∀ w : ℂ, runSeq props (repeated k q) (w • psi) = some ((z ^ k * w) • psi) := by
      induction k with
      | zero => intro w; simp [repeated, runSeq]
      | succ k ih =>
        intro w
        have e : repeated (k + 1) q = q ++ repeated k q := by simp [repeated, List.replicate_succ]
        have h1 : runSeq props q (w • psi) = some ((z * w) • psi) := by
          rw [runSeq_eq _ q _ hq', ← hW, mulVec_smul, hp1, smul_smul, mul_comm]
        rw [e, run_append props q _ _ _ h1, ih, ← mul_assoc, ← pow_succ]
    have h1 := hrun 1
    rw [one_smul, mul_one] at h1
    have hb' : ∀ g ∈ b, ∃ U, props g = some U := hb b (by simp)
    unfold evaluateClosed
    rw [List.mapM_cons, List.mapM_cons, run_append props _ b _ _ h1, runSeq_eq _ b _ hb', runSeq_eq _ b _ hb']
    have h2 : popsClosed (C3.Fold.seqProp (fun g => (props g).getD 1) b *ᵥ (z ^ k • psi)) =
        popsClosed (C3.Fold.seqProp (fun g => (props g).getD 1) b *ᵥ psi) := by
      funext i
      simp only [popsClosed]
      rw [mulVec_smul, Pi.smul_apply, smul_eq_mul, norm_mul, norm_pow, hz1, one_pow, one_mul]
    simp only [Option.map_some, h2]

end

/-! ## Experiments -/

variable {dims : List ℕ}

/-- C269: on a closed chip every sequence has a state for which its repetitions cannot be noticed. -/
theorem C269_closed (hd : 0 < dims.prod) (s : Exp (Op dims)) (hm : s.propMethod = none) (hp : ∀ g, s.propagators g = none)
    (es : List (Event (Op dims))) (he : ∀ e ∈ es, ∃ c : Chip dims, c.WF ∧ ∃ ps, e.w = closed c ps) (q : List String)
    (hq : Available (runEvents s es).propagators [q]) :
    ∃ psi : Fin dims.prod → ℂ, ∑ i, ‖psi i‖ ^ 2 = 1 ∧ ∀ k b, Available (runEvents s es).propagators [b] →
      evaluateClosed (runEvents s es).propagators [repeated k q ++ b] psi =
        evaluateClosed (runEvents s es).propagators [b] psi :=
  haveI : Nonempty (Fin dims.prod) := ⟨⟨0, hd⟩⟩
  C269_gates_closed _ (Recurrence.unitary_gates s hm hp es he) q hq

/-- C269 (open systems): with any decoherence there is such a density matrix. -/
theorem C269_open (hd : 0 < dims.prod) (s : Exp (SOp dims)) (hm : s.propMethod = none) (hp : ∀ g, s.propagators g = none)
    (es : List (Event (SOp dims))) (he : ∀ e ∈ es, ∃ c : Chip dims, c.WF ∧ ∃ ps : List (String × Pulse),
      (∀ g p, ps.lookup g = some p → 0 ≤ p.dt) ∧ e.w = opened c ps) (q : List String)
    (hq : Available (runEvents s es).propagators [q]) :
    ∃ rho : Op dims, IsDensity rho ∧ ∀ k b,
      evaluateOpen (runEvents s es).propagators [repeated k q ++ b] (dmToVec rho) =
        evaluateOpen (runEvents s es).propagators [b] (dmToVec rho) := by
  have : Nonempty (Fin dims.prod) := ⟨⟨0, hd⟩⟩
  refine C269_gates_open _ (fun g S hS => ?_) q hq
  have hw : ∀ e ∈ es, e.w.WF := fun e hm => by
    obtain ⟨c, _, ps, _, h⟩ := he e hm
    rw [h]
    exact opened_wf c ps
  obtain ⟨pre, e, post, rfl, -, -, h1, -⟩ := (C68_history s hm hp es hw g S).1 hS
  obtain ⟨c, hc, ps, hdt, h2⟩ := he e (by simp)
  rw [h2] at h1
  exact C199_channel c hc ps hdt g S h1

/-! ## Examples -/

/-- A flip leaves the state with equal amplitudes unchanged, but not the ground state. -/
example : (!![0, 1; 1, 0] : Matrix (Fin 2) (Fin 2) ℂ) *ᵥ ![1, 1] = ![1, 1] ∧
    (!![0, 1; 1, 0] : Matrix (Fin 2) (Fin 2) ℂ) *ᵥ ![1, 0] ≠ ![1, 0] := by
  constructor
  · ext i
    fin_cases i <;> simp
  · intro h
    have := congrFun h 0
    simp at this

end C3.Experiment.Stationary
