import Verif.Experiment.Stationary

/-!
# C270: on average the populations settle at those of the state that is left unchanged

The whole chain of C199 for sequences that are repeated on a chip with decoherence. If a sequence leaves only one density
matrix unchanged, the populations averaged over the number of repetitions converge to those of that density matrix, whatever
the initial state and whatever is played at the end.
-/

set_option linter.unusedSectionVars false

noncomputable section

namespace C3.Experiment.Settle

open Matrix Finset Filter Topology C3.Propagation C3.Hilbert C3.Experiment C3.Experiment.Compute C3.Experiment.EndToEnd
open C3.Experiment.Recurrence (repeated)
open C3.Experiment.Stationary (mean)
open scoped ComplexOrder

/-! ## Specification -/

section
variable {n : Type} [Fintype n] [DecidableEq n]

/-- A sequence of gates leaves a density matrix unchanged. -/
def Unchanged (props : String → Option (Matrix (n × n) (n × n) ℂ)) (q : List String) (rho : Matrix n n ℂ) : Prop :=
  runSeq props q (dmToVec rho) = some (dmToVec rho)

/-- The averages over the first members of a series of populations converge to given populations. -/
def Settles (p : ℕ → n → ℝ) (r : n → ℝ) : Prop :=
  ∀ i, Tendsto (fun N : ℕ => (∑ k ∈ range (N + 1), p k i) / (N + 1)) atTop (𝓝 (r i))

/-! ## Lemmas -/

theorem bound (w : n × n → ℂ) (hw : IsDensity (vecToDm w)) : w ∈ Metric.closedBall (0 : n × n → ℂ) 1 := by
  rw [mem_closedBall_zero_iff, pi_norm_le_iff_of_nonneg zero_le_one]
  exact fun p => Stationary.entry_le _ hw p.2 p.1

theorem limit_fixed (S : Matrix (n × n) (n × n) ℂ) (v : n × n → ℂ) (hk : ∀ k, IsDensity (vecToDm (S ^ k *ᵥ v)))
    (f : ℕ → ℕ) (hf : Tendsto f atTop atTop) (u : n × n → ℂ) (hlim : Tendsto (fun k => mean S v (f k)) atTop (𝓝 u)) :
    IsDensity (vecToDm u) ∧ S *ᵥ u = u := by
  refine ⟨Stationary.density_limit _ u (fun k => Stationary.mean_density S v hk (f k)) hlim, ?_⟩
  rw [← sub_eq_zero]
  have hc : Continuous fun w : n × n → ℂ => S *ᵥ w - w :=
    (continuous_const.matrix_mulVec continuous_id).sub continuous_id
  refine tendsto_nhds_unique ((hc.tendsto u).comp hlim) ?_
  have hz : Tendsto (fun N : ℕ => ((N : ℝ) + 1)⁻¹ * 2) atTop (𝓝 0) := by
    have := (tendsto_one_div_add_atTop_nhds_zero_nat (𝕜 := ℝ)).mul_const 2
    simpa using this
  refine squeeze_zero_norm (fun k => ?_) (hz.comp hf)
  simp only [Function.comp_apply]
  rw [Stationary.mean_step, norm_smul]
  have h1 := mem_closedBall_zero_iff.1 (bound _ (hk (f k + 1)))
  have h2 := mem_closedBall_zero_iff.1 (bound _ (hk 0))
  rw [pow_zero, one_mulVec] at h2
  have h3 : ‖((f k : ℂ) + 1)⁻¹‖ = ((f k : ℝ) + 1)⁻¹ := by
    rw [norm_inv]
    congr 1
    have : ((f k : ℂ) + 1) = (((f k : ℝ) + 1 : ℝ) : ℂ) := by push_cast; rfl
    rw [this, Complex.norm_real, Real.norm_of_nonneg (by positivity)]
  rw [h3]
  refine mul_le_mul_of_nonneg_left ?_ (by positivity)
  exact (norm_sub_le _ _).trans (by linarith)

theorem mean_tendsto (S : Matrix (n × n) (n × n) ℂ) (v : n × n → ℂ) (hk : ∀ k, IsDensity (vecToDm (S ^ k *ᵥ v)))
    (sigma : Matrix n n ℂ) (hu : ∀ rho, IsDensity rho → S *ᵥ dmToVec rho = dmToVec rho → rho = sigma) :
    Tendsto (mean S v) atTop (𝓝 (dmToVec sigma)) := by
  refine tendsto_of_subseq_tendsto fun g hg => ?_
  obtain ⟨u, -, f, hf, hlim⟩ := (isCompact_closedBall (0 : n × n → ℂ) 1).tendsto_subseq (x := fun k => mean S v (g k)) fun N =>
    bound _ (Stationary.mean_density S v hk (g N))
  obtain ⟨h1, h2⟩ := limit_fixed S v hk (fun k => g (f k)) (hg.comp hf.tendsto_atTop) u hlim
  refine ⟨f, ?_⟩
  rw [← hu (vecToDm u) h1 h2]
  exact hlim

theorem pops_mean (S B : Matrix (n × n) (n × n) ℂ) (v : n × n → ℂ) (N : ℕ) (i : n) :
    popsOpen (B *ᵥ mean S v N) i = (∑ k ∈ range (N + 1), popsOpen (B *ᵥ (S ^ k *ᵥ v)) i) / (N + 1) := by
  have e : B *ᵥ mean S v N = (((N + 1 : ℝ)⁻¹ : ℝ) : ℂ) • ∑ k ∈ range (N + 1), B *ᵥ (S ^ k *ᵥ v) := by
    unfold mean
    rw [mulVec_smul, mulVec_sum]
    push_cast
    rfl
  rw [e]
  simp only [popsOpen, vecToDm, transpose_apply, of_apply, Pi.smul_apply, Finset.sum_apply, smul_eq_mul]
  rw [Complex.re_ofReal_mul, Complex.re_sum, div_eq_inv_mul]

/-- C270 for any set of channels. -/
theorem C270_gates (props : String → Option (Matrix (n × n) (n × n) ℂ))
    (hu : ∀ g S, props g = some S → S ∈ tracePreserving n ∧ S ∈ positiveMaps n) (q b : List String)
    (hq : Available props [q, b]) (sigma : Matrix n n ℂ)
    (huniq : ∀ rho, IsDensity rho → Unchanged props q rho → rho = sigma) (rho : Matrix n n ℂ) (hr : IsDensity rho) :
    ∃ p r, (∀ k, evaluateOpen props [repeated k q ++ b] (dmToVec rho) = some [p k]) ∧
      evaluateOpen props [b] (dmToVec sigma) = some [r] ∧ Settles p r := by
  set val : String → Matrix (n × n) (n × n) ℂ := fun g => (props g).getD 1 with hval
  set S := C3.Fold.seqProp val q with hS
  have hq' : ∀ g ∈ q, ∃ U, props g = some U := hq q (by simp)
  have hb : ∀ g ∈ b, ∃ U, props g = some U := hq b (by simp)
  have hall : ∀ k, ∀ g ∈ repeated k q ++ b, ∃ U, props g = some U := by
    intro k g hg
    rcases List.mem_append.1 hg with h | h
    · exact hq' g (Recurrence.mem_repeated k q g h)
    · exact hb g h
  have hch : S ∈ tracePreserving n ∧ S ∈ positiveMaps n := by
    constructor <;> refine Repetition.sequence_mem _ _ _ fun g hg => ?_ <;> obtain ⟨U, hU⟩ := hq' g hg <;>
      simp only [hval, hU, Option.getD_some]
    · exact (hu g U hU).1
    · exact (hu g U hU).2
  have hk : ∀ k, IsDensity (vecToDm (S ^ k *ᵥ dmToVec rho)) := fun k =>
    Preparation.act_density (S ^ k) (pow_mem hch.1 k) (pow_mem hch.2 k) _ hr
  have hlim := mean_tendsto S (dmToVec rho) hk sigma fun r hr h => huniq r hr (by
    unfold Unchanged
    rw [runSeq_eq _ q _ hq', ← hval, ← hS, h])
  refine ⟨fun k => popsOpen (C3.Fold.seqProp val (repeated k q ++ b) *ᵥ dmToVec rho),
    popsOpen (C3.Fold.seqProp val b *ᵥ dmToVec sigma), fun k => ?_, ?_, fun i => ?_⟩
  · exact Waiting.evaluate_all props [repeated k q ++ b] (dmToVec rho) (fun s => C3.Fold.seqProp val s *ᵥ dmToVec rho)
      fun s hs => by
        rw [List.mem_singleton.1 hs]
        exact runSeq_eq _ _ _ (hall k)
  · exact Waiting.evaluate_all props [b] (dmToVec sigma) (fun s => C3.Fold.seqProp val s *ᵥ dmToVec sigma)
      fun s hs => by
        rw [List.mem_singleton.1 hs]
        exact runSeq_eq _ _ _ hb
  · have hc : Continuous fun w : n × n → ℂ => popsOpen (C3.Fold.seqProp val b *ᵥ w) i := by
      have h1 : Continuous fun w : n × n → ℂ => C3.Fold.seqProp val b *ᵥ w := continuous_const.matrix_mulVec continuous_id
      exact Complex.continuous_re.comp ((continuous_apply (i, i)).comp h1)
    refine ((hc.tendsto _).comp hlim).congr fun N => ?_
    simp only [Function.comp_apply]
    rw [pops_mean]
    congr 1
    refine sum_congr rfl fun k _ => ?_
    rw [C3.Fold.C21_concat, Recurrence.repeated_prop, mulVec_mulVec]

end

/-! ## Experiments -/

variable {dims : List ℕ}

/-- C270: whatever chips, decoherence and pulses the gates were computed with, if a sequence leaves at most one density matrix
unchanged, the average populations under its repetition settle at those of that density matrix. -/
theorem C270_open (s : Exp (SOp dims)) (hm : s.propMethod = none) (hp : ∀ g, s.propagators g = none)
    (es : List (Event (SOp dims))) (he : ∀ e ∈ es, ∃ c : Chip dims, c.WF ∧ ∃ ps : List (String × Pulse),
      (∀ g p, ps.lookup g = some p → 0 ≤ p.dt) ∧ e.w = opened c ps) (q b : List String)
    (hq : Available (runEvents s es).propagators [q, b]) (sigma : Op dims)
    (huniq : ∀ rho, IsDensity rho → Unchanged (runEvents s es).propagators q rho → rho = sigma) (rho : Op dims)
    (hr : IsDensity rho) :
    ∃ p r, (∀ k, evaluateOpen (runEvents s es).propagators [repeated k q ++ b] (dmToVec rho) = some [p k]) ∧
      evaluateOpen (runEvents s es).propagators [b] (dmToVec sigma) = some [r] ∧ Settles p r := by
  refine C270_gates _ (fun g S hS => ?_) q b hq sigma huniq rho hr
  have hw : ∀ e ∈ es, e.w.WF := fun e hm => by
    obtain ⟨c, _, ps, _, h⟩ := he e hm
    rw [h]
    exact opened_wf c ps
  obtain ⟨pre, e, post, rfl, -, -, h1, -⟩ := (C68_history s hm hp es hw g S).1 hS
  obtain ⟨c, hc, ps, hdt, h2⟩ := he e (by simp)
  rw [h2] at h1
  exact C199_channel c hc ps hdt g S h1

/-! ## Examples -/

/-- A gate that resets a qubit leaves only the ground state unchanged. -/
example (rho : Matrix (Fin 2) (Fin 2) ℂ) (h : IsDensity rho)
    (hu : Unchanged (fun _ => some (Matrix.of fun p r => if p = (0, 0) ∧ r.1 = r.2 then 1 else 0)) ["reset"] rho) :
    rho = !![1, 0; 0, 0] := by
  have e := Option.some.inj hu
  have e1 : ∀ i j, rho i j = if (j, i) = ((0, 0) : Fin 2 × Fin 2) then rho.trace else 0 := by
    intro i j
    have := congrFun e (j, i)
    rw [show dmToVec rho (j, i) = rho i j from rfl] at this
    rw [← this]
    simp only [mulVec, dotProduct, of_apply, Fintype.sum_prod_type, Fin.sum_univ_two, dmToVec, transpose_apply, Matrix.trace, diag_apply]
    by_cases hij : (j, i) = ((0, 0) : Fin 2 × Fin 2) <;> simp [hij]
  ext i j
  rw [e1, h.2]
  fin_cases i <;> fin_cases j <;> simp

/-- Alternating populations settle at one half. -/
example : Settles (fun k (_ : Unit) => (1 + (-1 : ℝ) ^ k) / 2) (fun _ => 1 / 2) := by
  intro i
  have h : ∀ N : ℕ, |(∑ k ∈ range (N + 1), (1 + (-1 : ℝ) ^ k) / 2) / (N + 1) - 1 / 2| ≤ 1 / ((N : ℝ) + 1) := by
    intro N
    have hs : ∀ N : ℕ, |∑ k ∈ range N, (-1 : ℝ) ^ k| ≤ 1 := by
      intro N
      rw [neg_one_geom_sum]
      split <;> simp
    have hN : (0 : ℝ) < N + 1 := by positivity
    have e : (∑ k ∈ range (N + 1), (1 + (-1 : ℝ) ^ k) / 2) / (N + 1) - 1 / 2 =
        (∑ k ∈ range (N + 1), (-1 : ℝ) ^ k) / 2 / (N + 1) := by
      rw [← sum_div, sum_add_distrib]
      simp only [sum_const, card_range, nsmul_eq_mul, mul_one]
      push_cast
      field_simp
      ring
    rw [e, abs_div, abs_of_pos hN, abs_div, abs_two]
    gcongr
    linarith [hs (N + 1)]
  rw [tendsto_iff_norm_sub_tendsto_zero]
  exact squeeze_zero (fun N => norm_nonneg _) h tendsto_one_div_add_atTop_nhds_zero_nat

end C3.Experiment.Settle
