import Verif.Experiment.Settle

/-!
# C271: averaged over the number of repetitions, populations always converge

The whole chain of C199 for sequences that are repeated. Whatever the chip, its decoherence and the pulses, the populations
averaged over the number of repetitions of a sequence converge, and the limits are the populations of a density matrix that
the sequence leaves unchanged. In closed systems the averages converge, too.
-/

set_option linter.unusedSectionVars false

noncomputable section

namespace C3.Experiment.Ergodic

open Matrix Finset Filter Topology C3.Propagation C3.Hilbert C3.Experiment C3.Experiment.Compute C3.Experiment.EndToEnd
open C3.Experiment.Recurrence (repeated)
open C3.Experiment.Stationary (mean)
open C3.Experiment.Settle (Unchanged Settles)
open scoped ComplexOrder

section
variable {n : Type} [Fintype n] [DecidableEq n]

/-! ## Repetitions stay bounded -/

theorem entry_le_trace (rho : Matrix n n ℂ) (h : rho.PosSemidef) (i j : n) : ‖rho i j‖ ≤ rho.trace.re := by
  obtain ⟨B, hB⟩ := Stationary.factor rho h
  have e : ∀ i j, rho i j = ∑ k, star (B k i) * B k j := fun i j => by
    rw [hB, mul_apply]
    rfl
  have d : ∀ i, rho i i = ((∑ k, ‖B k i‖ ^ 2 : ℝ) : ℂ) := fun i => by
    rw [e, Complex.ofReal_sum]
    refine sum_congr rfl fun k _ => ?_
    rw [Complex.star_def, Complex.conj_mul']
    norm_cast
  have t : ∑ i, ∑ k, ‖B k i‖ ^ 2 = rho.trace.re := by
    rw [Matrix.trace]
    simp only [diag_apply, d]
    rw [← Complex.ofReal_sum, Complex.ofReal_re]
  have one : ∀ i, ∑ k, ‖B k i‖ ^ 2 ≤ rho.trace.re := fun i => by
    rw [← t]
    exact single_le_sum (f := fun i => ∑ k, ‖B k i‖ ^ 2) (fun i _ => sum_nonneg fun k _ => sq_nonneg _) (mem_univ i)
  calc ‖rho i j‖ ≤ ∑ k, ‖star (B k i) * B k j‖ := by rw [e]; exact norm_sum_le _ _
    _ ≤ ∑ k, (‖B k i‖ ^ 2 + ‖B k j‖ ^ 2) / 2 := by
      refine sum_le_sum fun k _ => ?_
      rw [norm_mul, norm_star]
      nlinarith [sq_nonneg (‖B k i‖ - ‖B k j‖)]
    _ = (∑ k, ‖B k i‖ ^ 2 + ∑ k, ‖B k j‖ ^ 2) / 2 := by rw [← sum_div, sum_add_distrib]
    _ ≤ rho.trace.re := by linarith [one i, one j]

/-- The matrices whose repetitions stay bounded. -/
def boundedUnder (S : Matrix (n × n) (n × n) ℂ) : Submodule ℂ (n × n → ℂ) where
  carrier := {w | ∃ C, ∀ k, ‖S ^ k *ᵥ w‖ ≤ C}
  zero_mem' := ⟨0, fun k => by simp⟩
  add_mem' := by
    rintro a b ⟨C, hC⟩ ⟨D, hD⟩
    refine ⟨C + D, fun k => ?_⟩
    rw [mulVec_add]
    exact (norm_add_le _ _).trans (add_le_add (hC k) (hD k))
  smul_mem' := by
    rintro x a ⟨C, hC⟩
    refine ⟨‖x‖ * C, fun k => ?_⟩
    rw [mulVec_smul, norm_smul]
    exact mul_le_mul_of_nonneg_left (hC k) (norm_nonneg _)

theorem psd_bounded (S : Matrix (n × n) (n × n) ℂ) (ht : S ∈ tracePreserving n) (hp : S ∈ positiveMaps n)
    (rho : Matrix n n ℂ) (h : rho.PosSemidef) : rowVec rho ∈ boundedUnder S := by
  refine ⟨rho.trace.re, fun k => ?_⟩
  have h1 := (pow_mem hp k : S ^ k ∈ positiveMaps n) rho h
  have h2 := (pow_mem ht k : S ^ k ∈ tracePreserving n) (rowVec rho)
  have h3 : (unRow (S ^ k *ᵥ rowVec rho)).trace = rho.trace := h2
  have h0 : 0 ≤ rho.trace.re := (Complex.le_def.1 h.trace_nonneg).1
  rw [pi_norm_le_iff_of_nonneg h0]
  intro p
  have := entry_le_trace _ h1 p.1 p.2
  rw [h3] at this
  exact this

theorem polarization (x y : n → ℂ) : (4 : ℂ) • vecMulVec x (star y) =
    vecMulVec (x + y) (star (x + y)) + Complex.I • vecMulVec (x + Complex.I • y) (star (x + Complex.I • y)) -
      vecMulVec (x - y) (star (x - y)) - Complex.I • vecMulVec (x - Complex.I • y) (star (x - Complex.I • y)) := by
  ext a b
  simp only [Matrix.smul_apply, Matrix.add_apply, Matrix.sub_apply, vecMulVec_apply, Pi.star_apply, Pi.add_apply, Pi.sub_apply,
    Pi.smul_apply, smul_eq_mul, star_add, star_sub, star_mul', Complex.star_def, Complex.conj_I]
  ring_nf
  simp only [Complex.I_sq]
  ring

theorem all_bounded (S : Matrix (n × n) (n × n) ℂ) (ht : S ∈ tracePreserving n) (hp : S ∈ positiveMaps n)
    (w : n × n → ℂ) : w ∈ boundedUnder S := by
  have hpure : ∀ x : n → ℂ, rowVec (vecMulVec x (star x)) ∈ boundedUnder S := fun x =>
    psd_bounded S ht hp _ (posSemidef_vecMulVec_self_star x)
  have hxy : ∀ x y : n → ℂ, rowVec (vecMulVec x (star y)) ∈ boundedUnder S := by
    intro x y
    have e : rowVec (vecMulVec x (star y)) = (4 : ℂ)⁻¹ • (rowVec (vecMulVec (x + y) (star (x + y))) +
        Complex.I • rowVec (vecMulVec (x + Complex.I • y) (star (x + Complex.I • y))) -
        rowVec (vecMulVec (x - y) (star (x - y))) -
        Complex.I • rowVec (vecMulVec (x - Complex.I • y) (star (x - Complex.I • y)))) := by
      have h4 : rowVec ((4 : ℂ) • vecMulVec x (star y)) = (4 : ℂ) • rowVec (vecMulVec x (star y)) := rfl
      rw [eq_inv_smul_iff₀ (by norm_num), ← h4, polarization]
      rfl
    rw [e]
    exact Submodule.smul_mem _ _ (Submodule.sub_mem _ (Submodule.sub_mem _ (Submodule.add_mem _ (hpure _)
      (Submodule.smul_mem _ _ (hpure _))) (hpure _)) (Submodule.smul_mem _ _ (hpure _)))
  have e : w = ∑ p : n × n, w p • rowVec (vecMulVec (Pi.single p.1 1) (star (Pi.single p.2 (1 : ℂ)))) := by
    funext r
    rw [Finset.sum_apply, sum_eq_single r]
    · simp [rowVec, vecMulVec_apply]
    · intro p _ hp
      have : r.1 ≠ p.1 ∨ r.2 ≠ p.2 := by
        by_contra hc
        push Not at hc
        exact hp (Prod.ext hc.1.symm hc.2.symm)
      rcases this with h | h <;> simp [rowVec, vecMulVec_apply, h]
    · simp
  rw [e]
  exact Submodule.sum_mem _ fun p _ => Submodule.smul_mem _ _ (hxy _ _)

/-! ## Averages converge -/

theorem mean_linear (S : Matrix (n × n) (n × n) ℂ) (v w : n × n → ℂ) (N : ℕ) : mean S (v + w) N = mean S v N + mean S w N := by
  unfold mean
  simp only [mulVec_add, sum_add_distrib, smul_add]

theorem mean_fixed (S : Matrix (n × n) (n × n) ℂ) (u : n × n → ℂ) (h : S *ᵥ u = u) (N : ℕ) : mean S u N = u := by
  have hk : ∀ k, S ^ k *ᵥ u = u := by
    intro k
    induction k with
    | zero => simp
    | succ k ih => rw [pow_succ, ← mulVec_mulVec, h, ih]
  have hN : (N + 1 : ℂ) ≠ 0 := by exact_mod_cast Nat.succ_ne_zero N
  unfold mean
  rw [sum_congr rfl fun k _ => hk k, sum_const, card_range, ← Nat.cast_smul_eq_nsmul ℂ, smul_smul]
  push_cast
  rw [inv_mul_cancel₀ hN, one_smul]

/-- The states that are a difference between a state before and after a step. -/
def differences (S : Matrix (n × n) (n × n) ℂ) : Submodule ℂ (n × n → ℂ) := LinearMap.range (1 - S).mulVecLin

theorem pow_difference (S : Matrix (n × n) (n × n) ℂ) (v : n × n → ℂ) (k : ℕ) : v - S ^ k *ᵥ v ∈ differences S := by
  induction k with
  | zero => simp
  | succ k ih =>
    have e : v - S ^ (k + 1) *ᵥ v = (v - S ^ k *ᵥ v) + (1 - S) *ᵥ (S ^ k *ᵥ v) := by
      rw [sub_mulVec, one_mulVec, mulVec_mulVec, ← pow_succ']
      abel
    rw [e]
    exact Submodule.add_mem _ ih ⟨S ^ k *ᵥ v, rfl⟩

theorem mean_difference (S : Matrix (n × n) (n × n) ℂ) (v : n × n → ℂ) (N : ℕ) : v - mean S v N ∈ differences S := by
  have hN : (N + 1 : ℂ) ≠ 0 := by exact_mod_cast Nat.succ_ne_zero N
  have e : v - mean S v N = ((N + 1 : ℂ)⁻¹) • ∑ k ∈ range (N + 1), (v - S ^ k *ᵥ v) := by
    unfold mean
    rw [sum_sub_distrib, smul_sub, sum_const, card_range, ← Nat.cast_smul_eq_nsmul ℂ, smul_smul]
    push_cast
    rw [inv_mul_cancel₀ hN, one_smul]
  rw [e]
  exact Submodule.smul_mem _ _ (Submodule.sum_mem _ fun k _ => pow_difference S v k)

theorem mean_converges (S : Matrix (n × n) (n × n) ℂ) (ht : S ∈ tracePreserving n) (hp : S ∈ positiveMaps n)
    (rho : Matrix n n ℂ) (hr : IsDensity rho) :
    ∃ sigma, IsDensity sigma ∧ S *ᵥ dmToVec sigma = dmToVec sigma ∧
      Tendsto (mean S (dmToVec rho)) atTop (𝓝 (dmToVec sigma)) := by
  set v := dmToVec rho with hv
  have hk : ∀ k, IsDensity (vecToDm (S ^ k *ᵥ v)) := fun k =>
    Preparation.act_density (S ^ k) (pow_mem ht k) (pow_mem hp k) _ hr
  obtain ⟨u, -, f, hf, hlim⟩ := (isCompact_closedBall (0 : n × n → ℂ) 1).tendsto_subseq (x := fun k => mean S v k) fun N =>
    Settle.bound _ (Stationary.mean_density S v hk N)
  obtain ⟨h1, h2⟩ := Settle.limit_fixed S v hk f hf.tendsto_atTop u hlim
  refine ⟨vecToDm u, h1, h2, ?_⟩
  have hmem : v - u ∈ differences S :=
    (differences S).closed_of_finiteDimensional.mem_of_tendsto (tendsto_const_nhds.sub hlim)
      (Eventually.of_forall fun k => mean_difference S v (f k))
  obtain ⟨w, hw⟩ := hmem
  have hw' : v = u + (w - S *ᵥ w) := by
    have : w - S *ᵥ w = v - u := by
      rw [← hw, mulVecLin_apply, sub_mulVec, one_mulVec]
    rw [this]
    abel
  obtain ⟨C, hC⟩ := all_bounded S ht hp w
  have hstep : ∀ N : ℕ, mean S v N - u = ((N + 1 : ℂ)⁻¹) • (w - S ^ (N + 1) *ᵥ w) := by
    intro N
    rw [hw', mean_linear, mean_fixed S u h2, add_sub_cancel_left]
    unfold mean
    congr 1
    have : ∀ k, S ^ k *ᵥ (w - S *ᵥ w) = S ^ k *ᵥ w - S ^ (k + 1) *ᵥ w := fun k => by
      rw [mulVec_sub, mulVec_mulVec, ← pow_succ]
    rw [sum_congr rfl fun k _ => this k, sum_range_sub' (fun k => S ^ k *ᵥ w), pow_zero, one_mulVec]
  show Tendsto (mean S v) atTop (𝓝 u)
  rw [tendsto_iff_norm_sub_tendsto_zero]
  have hz : Tendsto (fun N : ℕ => 1 / ((N : ℝ) + 1) * (‖w‖ + C)) atTop (𝓝 0) := by
    have := (tendsto_one_div_add_atTop_nhds_zero_nat (𝕜 := ℝ)).mul_const (‖w‖ + C)
    rwa [zero_mul] at this
  refine squeeze_zero (fun N => norm_nonneg _) (fun N => ?_) hz
  rw [hstep, norm_smul]
  have h3 : ‖((N : ℂ) + 1)⁻¹‖ = 1 / ((N : ℝ) + 1) := by
    rw [norm_inv, one_div]
    congr 1
    have : ((N : ℂ) + 1) = (((N : ℝ) + 1 : ℝ) : ℂ) := by push_cast; rfl
    rw [this, Complex.norm_real, Real.norm_of_nonneg (by positivity)]
  rw [h3]
  refine mul_le_mul_of_nonneg_left ?_ (by positivity)
  exact (norm_sub_le _ _).trans (add_le_add le_rfl (hC _))

/-- C271 for any set of channels. -/
theorem C271_gates (props : String → Option (Matrix (n × n) (n × n) ℂ))
    (hu : ∀ g S, props g = some S → S ∈ tracePreserving n ∧ S ∈ positiveMaps n) (q : List String)
    (hq : Available props [q]) (rho : Matrix n n ℂ) (hr : IsDensity rho) :
    ∃ sigma, IsDensity sigma ∧ Unchanged props q sigma ∧ ∀ b, Available props [b] →
      ∃ p r, (∀ k, evaluateOpen props [repeated k q ++ b] (dmToVec rho) = some [p k]) ∧
        evaluateOpen props [b] (dmToVec sigma) = some [r] ∧ Settles p r := by
  set val : String → Matrix (n × n) (n × n) ℂ := fun g => (props g).getD 1 with hval
  set S := C3.Fold.seqProp val q with hS
  have hq' : ∀ g ∈ q, ∃ U, props g = some U := hq q (by simp)
  have hch : S ∈ tracePreserving n ∧ S ∈ positiveMaps n := by
    constructor <;> refine Repetition.sequence_mem _ _ _ fun g hg => ?_ <;> obtain ⟨U, hU⟩ := hq' g hg <;>
      simp only [hval, hU, Option.getD_some]
    · exact (hu g U hU).1
    · exact (hu g U hU).2
  obtain ⟨sigma, hs, hfix, hlim⟩ := mean_converges S hch.1 hch.2 rho hr
  refine ⟨sigma, hs, ?_, fun b hb => ?_⟩
  · unfold Unchanged
    rw [runSeq_eq _ q _ hq', ← hval, ← hS, hfix]
  have hb' : ∀ g ∈ b, ∃ U, props g = some U := hb b (by simp)
  have hall : ∀ k, ∀ g ∈ repeated k q ++ b, ∃ U, props g = some U := by
    intro k g hg
    rcases List.mem_append.1 hg with h | h
    · exact hq' g (Recurrence.mem_repeated k q g h)
    · exact hb' g h
  refine ⟨fun k => popsOpen (C3.Fold.seqProp val (repeated k q ++ b) *ᵥ dmToVec rho),
    popsOpen (C3.Fold.seqProp val b *ᵥ dmToVec sigma), fun k => ?_, ?_, fun i => ?_⟩
  · exact Waiting.evaluate_all props [repeated k q ++ b] (dmToVec rho) (fun s => C3.Fold.seqProp val s *ᵥ dmToVec rho)
      fun s hs => by
        rw [List.mem_singleton.1 hs]
        exact runSeq_eq _ _ _ (hall k)
  · exact Waiting.evaluate_all props [b] (dmToVec sigma) (fun s => C3.Fold.seqProp val s *ᵥ dmToVec sigma)
      fun s hs => by
        rw [List.mem_singleton.1 hs]
        exact runSeq_eq _ _ _ hb'
  · have hc : Continuous fun w : n × n → ℂ => popsOpen (C3.Fold.seqProp val b *ᵥ w) i := by
      have h1 : Continuous fun w : n × n → ℂ => C3.Fold.seqProp val b *ᵥ w := continuous_const.matrix_mulVec continuous_id
      exact Complex.continuous_re.comp ((continuous_apply (i, i)).comp h1)
    refine ((hc.tendsto _).comp hlim).congr fun N => ?_
    simp only [Function.comp_apply]
    rw [Settle.pops_mean]
    congr 1
    refine sum_congr rfl fun k _ => ?_
    rw [C3.Fold.C21_concat, Recurrence.repeated_prop, mulVec_mulVec]

/-- C271 for any set of unitary gates. -/
theorem C271_gates_closed (props : String → Option (Matrix n n ℂ)) (hu : ∀ g U, props g = some U → Uᴴ * U = 1)
    (q b : List String) (hq : Available props [q, b]) (psi : n → ℂ) (hpsi : ∑ i, ‖psi i‖ ^ 2 = 1) :
    ∃ p r, (∀ k, evaluateClosed props [repeated k q ++ b] psi = some [p k]) ∧ Settles p r := by
  set sprops : String → Option (Matrix (n × n) (n × n) ℂ) := fun g => (props g).map tfSuper with hsp
  have hq' : ∀ g ∈ q, ∃ U, props g = some U := hq q (by simp)
  have hb : ∀ g ∈ b, ∃ U, props g = some U := hq b (by simp)
  have hs : ∀ s, (∀ g ∈ s, ∃ U, props g = some U) → Available sprops [s] := by
    intro s h t ht g hg
    rw [List.mem_singleton.1 ht] at hg
    obtain ⟨U, hU⟩ := h g hg
    exact ⟨tfSuper U, by simp [hsp, hU]⟩
  have hch : ∀ g S, sprops g = some S → S ∈ tracePreserving n ∧ S ∈ positiveMaps n := by
    intro g S h
    obtain ⟨U, hU, rfl⟩ := Option.map_eq_some_iff.1 h
    have hU1 := hu g U hU
    constructor
    · intro v
      rw [← rowVec_unRow v, C26_super_row]
      show (U * unRow v * Uᴴ).trace = (unRow v).trace
      rw [Matrix.mul_assoc, trace_mul_comm, Matrix.mul_assoc, hU1, Matrix.mul_one]
    · intro rho h
      rw [C26_super_row, unRow_rowVec]
      exact h.mul_mul_conjTranspose_same U
  have hd : IsDensity (vecMulVec (star psi) psi) := by
    have := Preparation.pure_density (star psi) (by simpa using hpsi)
    unfold Preparation.pure at this
    rwa [star_star] at this
  obtain ⟨sigma, -, -, h⟩ := C271_gates sprops hch q (hs q hq') _ hd
  obtain ⟨p, r, h1, -, h3⟩ := h b (hs b hb)
  refine ⟨p, r, fun k => ?_, h3⟩
  have hall : ∀ g ∈ repeated k q ++ b, ∃ U, props g = some U := by
    intro g hg
    rcases List.mem_append.1 hg with h | h
    · exact hq' g (Recurrence.mem_repeated k q g h)
    · exact hb g h
  obtain ⟨U, e1, e2⟩ := Mixture.run_super props sprops (repeated k q ++ b) fun g hg => by
    obtain ⟨U, hU⟩ := hall g hg
    exact ⟨U, hU, by simp [hsp, hU]⟩
  rw [← h1 k, Mixture.evaluate_closed_all props [repeated k q ++ b] psi (fun _ => U *ᵥ psi) fun s hs => by
      rw [List.mem_singleton.1 hs]
      exact e1 psi,
    Waiting.evaluate_all sprops [repeated k q ++ b] _ (fun _ => tfSuper U *ᵥ dmToVec (vecMulVec (star psi) psi)) fun s hs => by
      rw [List.mem_singleton.1 hs]
      exact e2 _]
  simp only [Mixture.pops_super]

end

/-! ## Experiments -/

variable {dims : List ℕ}

/-- C271: whatever chips, decoherence and pulses the gates were computed with, the average populations under the repetition of
a sequence converge to those of a density matrix that the sequence leaves unchanged. -/
theorem C271_open (s : Exp (SOp dims)) (hm : s.propMethod = none) (hp : ∀ g, s.propagators g = none)
    (es : List (Event (SOp dims))) (he : ∀ e ∈ es, ∃ c : Chip dims, c.WF ∧ ∃ ps : List (String × Pulse),
      (∀ g p, ps.lookup g = some p → 0 ≤ p.dt) ∧ e.w = opened c ps) (q : List String)
    (hq : Available (runEvents s es).propagators [q]) (rho : Op dims) (hr : IsDensity rho) :
    ∃ sigma, IsDensity sigma ∧ Unchanged (runEvents s es).propagators q sigma ∧
      ∀ b, Available (runEvents s es).propagators [b] →
        ∃ p r, (∀ k, evaluateOpen (runEvents s es).propagators [repeated k q ++ b] (dmToVec rho) = some [p k]) ∧
          evaluateOpen (runEvents s es).propagators [b] (dmToVec sigma) = some [r] ∧ Settles p r := by
  refine C271_gates _ (fun g S hS => ?_) q hq rho hr
  have hw : ∀ e ∈ es, e.w.WF := fun e hm => by
    obtain ⟨c, _, ps, _, h⟩ := he e hm
    rw [h]
    exact opened_wf c ps
  obtain ⟨pre, e, post, rfl, -, -, h1, -⟩ := (C68_history s hm hp es hw g S).1 hS
  obtain ⟨c, hc, ps, hdt, h2⟩ := he e (by simp)
  rw [h2] at h1
  exact C199_channel c hc ps hdt g S h1

/-- C271 (closed systems): the average populations under the repetition of a sequence converge. -/
theorem C271_closed (s : Exp (Op dims)) (hm : s.propMethod = none) (hp : ∀ g, s.propagators g = none)
    (es : List (Event (Op dims))) (he : ∀ e ∈ es, ∃ c : Chip dims, c.WF ∧ ∃ ps, e.w = closed c ps) (q b : List String)
    (hq : Available (runEvents s es).propagators [q, b]) (psi : Fin dims.prod → ℂ) (hpsi : ∑ i, ‖psi i‖ ^ 2 = 1) :
    ∃ p r, (∀ k, evaluateClosed (runEvents s es).propagators [repeated k q ++ b] psi = some [p k]) ∧ Settles p r :=
  C271_gates_closed _ (Recurrence.unitary_gates s hm hp es he) q b hq psi hpsi

/-! ## Examples -/

/-- Without decoherence the populations need not converge themselves: a flipped qubit goes on alternating. -/
example (k : ℕ) : (!![0, 1; 1, 0] : Matrix (Fin 2) (Fin 2) ℂ) ^ (2 * k) *ᵥ ![1, 0] = ![1, 0] ∧
    (!![0, 1; 1, 0] : Matrix (Fin 2) (Fin 2) ℂ) ^ (2 * k + 1) *ᵥ ![1, 0] = ![0, 1] := by
  have h : (!![0, 1; 1, 0] : Matrix (Fin 2) (Fin 2) ℂ) ^ 2 = 1 := by
    rw [pow_two]
    ext i j
    fin_cases i <;> fin_cases j <;> simp
  constructor
  · rw [pow_mul, h, one_pow, one_mulVec]
  · rw [pow_succ, pow_mul, h, one_pow, one_mul]
    ext i
    fin_cases i <;> simp

/-- A flip of density matrices leaves the even mixture unchanged. -/
example : Unchanged (fun _ => some (tfSuper !![0, 1; 1, 0])) ["x"] (!![1 / 2, 0; 0, 1 / 2] : Matrix (Fin 2) (Fin 2) ℂ) := by
  have e : dmToVec (!![1 / 2, 0; 0, 1 / 2] : Matrix (Fin 2) (Fin 2) ℂ) = rowVec !![1 / 2, 0; 0, 1 / 2] := by
    funext p
    obtain ⟨i, j⟩ := p
    fin_cases i <;> fin_cases j <;> simp [dmToVec, rowVec]
  unfold Unchanged
  rw [e]
  simp only [runSeq]
  rw [C26_super_row]
  congr 2
  ext i j
  fin_cases i <;> fin_cases j <;> simp [Matrix.mul_apply, Fin.sum_univ_two, conjTranspose_apply]

end C3.Experiment.Ergodic
