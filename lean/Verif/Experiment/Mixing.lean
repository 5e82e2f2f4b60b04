import Verif.Experiment.Preparation
import Verif.Experiment.Waiting
import Mathlib.Analysis.SpecialFunctions.Log.NegMulLog

/-!
# C261: without relaxation nothing can be cooled

The whole chain of C199 for chips whose collapse operators only dephase. The populations after any sequence are a mixture
of the initial ones, with weights that add up to one for every initial and for every final state.
-/

set_option linter.unusedSectionVars false

noncomputable section

namespace C3.Experiment.Mixing

open Matrix Finset C3.Propagation C3.Hilbert C3.Experiment C3.Experiment.Compute C3.Experiment.EndToEnd
  C3.Experiment.Preparation
open scoped ComplexOrder

/-! ## Specification -/

section
variable {n : Type*} [Fintype n] [DecidableEq n]

/-- Transition probabilities (to the row, from the column) that add up to one for every initial and for every final state. -/
structure Mixes (D : Matrix n n ℝ) : Prop where
  nonneg : ∀ i j, 0 ≤ D i j
  from_one : ∀ j, ∑ i, D i j = 1
  to_one : ∀ i, ∑ j, D i j = 1

/-- No state has a probability above `m` in `rho`. -/
def Below (m : ℝ) (rho : Matrix n n ℂ) : Prop := ((m : ℂ) • (1 : Matrix n n ℂ) - rho).PosSemidef

/-- The entropy of populations. -/
def entropy (p : n → ℝ) : ℝ := ∑ i, Real.negMulLog (p i)

/-- Collapse operators that do not move excitations in one direction. -/
def Balanced (cols : List (Matrix n n ℂ)) : Prop := ∀ L ∈ cols, L * Lᴴ = Lᴴ * L

/-! ## Mixtures -/

/-- C261: mixing does not exceed a bound on the probabilities. -/
theorem C261_bound (D : Matrix n n ℝ) (h : Mixes D) (p : n → ℝ) (m : ℝ) (hp : ∀ j, p j ≤ m) (i : n) : (D *ᵥ p) i ≤ m := by
  calc (D *ᵥ p) i = ∑ j, D i j * p j := rfl
    _ ≤ ∑ j, D i j * m := sum_le_sum fun j _ => mul_le_mul_of_nonneg_left (hp j) (h.nonneg i j)
    _ = m := by rw [← sum_mul, h.to_one, one_mul]

/-- C261: sums of convex functions of the populations do not grow. -/
theorem C261_convex (D : Matrix n n ℝ) (h : Mixes D) (s : Set ℝ) (f : ℝ → ℝ) (hf : ConvexOn ℝ s f) (p : n → ℝ)
    (hp : ∀ j, p j ∈ s) : ∑ i, f ((D *ᵥ p) i) ≤ ∑ j, f (p j) := by
  have h1 : ∀ i, f ((D *ᵥ p) i) ≤ ∑ j, D i j * f (p j) := by
    intro i
    have := hf.map_sum_le (t := univ) (w := fun j => D i j) (p := p) (fun j _ => h.nonneg i j) (h.to_one i) fun j _ => hp j
    simp only [smul_eq_mul] at this
    exact this
  calc _ ≤ ∑ i, ∑ j, D i j * f (p j) := sum_le_sum fun i _ => h1 i
    _ = ∑ j, (∑ i, D i j) * f (p j) := by
      rw [sum_comm]
      exact sum_congr rfl fun j _ => by rw [sum_mul]
    _ = ∑ j, f (p j) := sum_congr rfl fun j _ => by rw [h.from_one, one_mul]

/-- C261: the entropy does not fall. -/
theorem C261_entropy (D : Matrix n n ℝ) (h : Mixes D) (p : n → ℝ) (hp : ∀ j, 0 ≤ p j) : entropy p ≤ entropy (D *ᵥ p) := by
  have := C261_convex D h (Set.Ici 0) (fun x => -Real.negMulLog x) Real.concaveOn_negMulLog.neg p hp
  simp only [sum_neg_distrib] at this
  unfold entropy
  linarith

/-! ## Gates that keep the completely mixed state -/

open scoped Matrix.Norms.Operator in
theorem exp_fixed {m : Type*} [Fintype m] [DecidableEq m] (A : Matrix m m ℂ) (v : m → ℂ) (h : A *ᵥ v = 0) :
    NormedSpace.exp A *ᵥ v = v := by
  let P : Matrix m m ℂ := Matrix.of fun p _ => v p
  have hP : A * P = 0 := by
    ext i j
    exact congrFun h i
  have h1 : HasSum (fun k : ℕ => ((k.factorial : ℂ)⁻¹) • A ^ k) (NormedSpace.exp A) := NormedSpace.exp_series_hasSum_exp' A
  have h2 := h1.mul_right P
  have h3 : HasSum (fun k : ℕ => (((k.factorial : ℂ)⁻¹) • A ^ k) * P) P := by
    have := hasSum_single (f := fun k : ℕ => (((k.factorial : ℂ)⁻¹) • A ^ k) * P) 0 (by
      intro k hk
      obtain ⟨k, rfl⟩ := Nat.exists_eq_succ_of_ne_zero hk
      rw [smul_mul_assoc, pow_succ, mul_assoc, hP, mul_zero, smul_zero])
    simpa using this
  have h4 := h2.unique h3
  funext i
  have := congrFun (congrFun h4 i) i
  exact this

/-- The superoperators that keep the completely mixed state. -/
def unital (n : Type*) [Fintype n] [DecidableEq n] : Submonoid (Matrix (n × n) (n × n) ℂ) where
  carrier := {S | S *ᵥ rowVec 1 = rowVec 1}
  one_mem' := by simp
  mul_mem' := by
    intro a b ha hb
    have ha' : a *ᵥ rowVec 1 = rowVec 1 := ha
    have hb' : b *ᵥ rowVec 1 = rowVec 1 := hb
    show (a * b) *ᵥ rowVec 1 = rowVec 1
    rw [← mulVec_mulVec, hb', ha']

theorem master_one (h : Matrix n n ℂ) (cols : List (Matrix n n ℂ)) (hb : Balanced cols) : masterRHS h cols 1 = 0 := by
  unfold masterRHS
  rw [Matrix.mul_one, Matrix.one_mul, sub_self, smul_zero, zero_add]
  refine List.sum_eq_zero fun x hx => ?_
  obtain ⟨L, hL, rfl⟩ := List.mem_map.1 hx
  rw [Matrix.mul_one, Matrix.mul_one, Matrix.one_mul, hb L hL, ← two_smul ℂ, smul_smul]
  norm_num

theorem slice_unital (h0 : Matrix n n ℂ) (hks cols : List (Matrix n n ℂ)) (hb : Balanced cols) (dt : ℝ) (c : List ℝ) :
    dUOfTLind h0 hks cols dt c ∈ unital n := by
  show _ *ᵥ rowVec 1 = rowVec 1
  unfold dUOfTLind
  refine exp_fixed _ _ ?_
  rw [smul_mulVec, lindOp_mulVec, master_one _ _ hb, rowVec_zero, smul_zero]

theorem super_unital (U : Matrix n n ℂ) (hU : Uᴴ * U = 1) : tfSuper U ∈ unital n := by
  show _ *ᵥ rowVec 1 = rowVec 1
  rw [C26_super_row, Matrix.mul_one, mul_eq_one_comm.1 hU]

/-! ## Transition probabilities -/

/-- The probabilities to find `i` after the gate if it starts in `j`. -/
def kernel (S : Matrix (n × n) (n × n) ℂ) : Matrix n n ℝ := Matrix.of fun i j => (act S (Matrix.single j j 1) i i).re

theorem single_density (j : n) : IsDensity (Matrix.single j j (1 : ℂ)) := by
  have e : Matrix.single j j (1 : ℂ) = Preparation.pure (Pi.single j 1) := by
    ext a b
    simp only [Preparation.pure, vecMulVec_apply, Pi.star_apply, Matrix.single_apply, Pi.single_apply]
    by_cases ha : j = a <;> by_cases hb : j = b <;> simp [ha, hb, eq_comm]
  rw [e]
  refine pure_density _ ?_
  simp [Pi.single_apply, apply_ite, ite_pow]

theorem act_positive (S : Matrix (n × n) (n × n) ℂ) (hp : S ∈ positiveMaps n) (rho : Matrix n n ℂ) (h : rho.PosSemidef) :
    (act S rho).PosSemidef := by
  have e : act S rho = (unRow (S *ᵥ rowVec rhoᵀ))ᵀ := rfl
  rw [e]
  exact (hp _ h.transpose).transpose

theorem act_one (S : Matrix (n × n) (n × n) ℂ) (hu : S ∈ unital n) : act S 1 = 1 := by
  have e : act S 1 = (unRow (S *ᵥ rowVec 1ᵀ))ᵀ := rfl
  have hu' : S *ᵥ rowVec 1 = rowVec 1 := hu
  rw [e, transpose_one, hu', unRow_rowVec, transpose_one]

theorem diagonal_sum (p : n → ℝ) : diagonal (fun j => (p j : ℂ)) = ∑ j, (p j : ℂ) • Matrix.single j j (1 : ℂ) := by
  ext a b
  rw [Matrix.sum_apply]
  simp only [Matrix.smul_apply, Matrix.single_apply, smul_eq_mul, diagonal_apply]
  by_cases h : a = b
  · subst h
    simp
  · rw [if_neg h]
    symm
    refine sum_eq_zero fun j _ => ?_
    rw [if_neg, mul_zero]
    rintro ⟨rfl, rfl⟩
    exact h rfl

theorem kernel_pops (S : Matrix (n × n) (n × n) ℂ) (p : n → ℝ) :
    popsOpen (S *ᵥ dmToVec (diagonal fun j => (p j : ℂ))) = kernel S *ᵥ p := by
  funext i
  show (act S (diagonal fun j => (p j : ℂ)) i i).re = ∑ j, kernel S i j * p j
  rw [diagonal_sum, map_sum, Matrix.sum_apply, Complex.re_sum]
  refine sum_congr rfl fun j _ => ?_
  rw [map_smul, Matrix.smul_apply, smul_eq_mul, Complex.re_ofReal_mul, mul_comm]
  rfl

theorem kernel_mixes (S : Matrix (n × n) (n × n) ℂ) (ht : S ∈ tracePreserving n) (hp : S ∈ positiveMaps n)
    (hu : S ∈ unital n) : Mixes (kernel S) := by
  refine ⟨fun i j => ?_, fun j => ?_, fun i => ?_⟩
  · have := (act_density S ht hp _ (single_density j)).1.diag_nonneg (i := i)
    exact (Complex.le_def.1 this).1
  · have := congrArg Complex.re (act_density S ht hp _ (single_density j)).2
    rw [Matrix.trace, Complex.re_sum, Complex.one_re] at this
    exact this
  · have h1 := congrFun (kernel_pops S fun _ => 1) i
    have e : popsOpen (S *ᵥ dmToVec (diagonal fun _ : n => ((1 : ℝ) : ℂ))) i = (act S 1 i i).re := by
      have : (diagonal fun _ : n => ((1 : ℝ) : ℂ)) = (1 : Matrix n n ℂ) := by simp
      rw [this]
      rfl
    rw [e, act_one S hu, Matrix.one_apply_eq, Complex.one_re] at h1
    rw [h1]
    simp [mulVec, dotProduct]

theorem below_act (S : Matrix (n × n) (n × n) ℂ) (hp : S ∈ positiveMaps n) (hu : S ∈ unital n) (m : ℝ) (rho : Matrix n n ℂ)
    (h : Below m rho) : Below m (act S rho) := by
  have := act_positive S hp _ h
  rw [map_sub, map_smul, act_one S hu] at this
  exact this

theorem below_diag (m : ℝ) (rho : Matrix n n ℂ) (h : Below m rho) (i : n) : (rho i i).re ≤ m := by
  have := (Complex.le_def.1 (h.diag_nonneg (i := i))).1
  rw [Matrix.sub_apply, Matrix.smul_apply, Matrix.one_apply_eq, smul_eq_mul, mul_one, Complex.sub_re, Complex.ofReal_re,
    Complex.zero_re] at this
  linarith

end

/-! ## Experiments -/

variable {dims : List ℕ}

/-- Gates of a chip with balanced collapse operators keep the completely mixed state. -/
theorem gate_unital (c : Chip dims) (hc : c.WF) (hb : Balanced c.cols) (ps : List (String × Pulse)) (g : String)
    (V : SOp dims) (h : physical (opened c ps) (.name "pwc") g = .ok V) : V ∈ unital (Fin dims.prod) := by
  obtain ⟨p, hks, S, hp, hk, hU, hF⟩ := physical_opened c ps g V h
  have hS : S ∈ unital (Fin dims.prod) := by
    by_cases hv : p.values = []
    · rw [hv] at hU
      rw [List.length_nil, pwcLind_empty c.h0 hks c.cols p.dt c.batch hc.batch] at hU
      simp at hU
    · rw [pwcLind_eq c.h0 hks c.cols p.dt p.values hv c.batch hc.batch] at hU
      rw [← Option.some.inj hU]
      apply timeOrdered_mem
      intro x hx
      obtain ⟨v, _, rfl⟩ := List.mem_map.1 hx
      exact slice_unital c.h0 hks c.cols hb p.dt v
  rcases hF with ⟨-, F, hF, rfl⟩ | ⟨-, rfl⟩
  · exact mul_mem (super_unital F (frame_unitary c hc p F hF)) hS
  · exact hS

/-- The chips, pulses and settings of a history: all chips without relaxation. -/
def Unrelaxed (es : List (Event (SOp dims))) : Prop :=
  ∀ e ∈ es, ∃ c : Chip dims, c.WF ∧ Balanced c.cols ∧ ∃ ps : List (String × Pulse),
    (∀ g p, ps.lookup g = some p → 0 ≤ p.dt) ∧ e.w = opened c ps

theorem stored (s : Exp (SOp dims)) (hm : s.propMethod = none) (hp : ∀ g, s.propagators g = none)
    (es : List (Event (SOp dims))) (he : Unrelaxed es) (g : String) (U : SOp dims)
    (hU : (runEvents s es).propagators g = some U) :
    U ∈ tracePreserving (Fin dims.prod) ∧ U ∈ positiveMaps (Fin dims.prod) ∧ U ∈ unital (Fin dims.prod) := by
  have hw : ∀ e ∈ es, e.w.WF := fun e hm => by
    obtain ⟨c, _, _, ps, _, h⟩ := he e hm
    rw [h]
    exact opened_wf c ps
  obtain ⟨pre, e, post, rfl, -, -, h1, -⟩ := (C68_history s hm hp es hw g U).1 hU
  obtain ⟨c, hc, hb, ps, hdt, h2⟩ := he e (by simp)
  rw [h2] at h1
  obtain ⟨a, b⟩ := C199_channel c hc ps hdt g U h1
  exact ⟨a, b, gate_unital c hc hb ps g U h1⟩

theorem seq_mem {M : Type*} [Monoid M] (S : Submonoid M) (f : String → M) (s : List String) (h : ∀ g ∈ s, f g ∈ S) :
    Fold.seqProp f s ∈ S := by
  unfold Fold.seqProp
  exact timeOrdered_mem S _ fun x hx => by
    obtain ⟨g, hg, rfl⟩ := List.mem_map.1 hx
    exact h g hg

theorem whole (s : Exp (SOp dims)) (hm : s.propMethod = none) (hp : ∀ g, s.propagators g = none)
    (es : List (Event (SOp dims))) (he : Unrelaxed es) (seqs : List (List String))
    (ha : Available (runEvents s es).propagators seqs) (q : List String) (hq : q ∈ seqs) :
    let S := Fold.seqProp (fun g => ((runEvents s es).propagators g).getD 1) q
    S ∈ tracePreserving (Fin dims.prod) ∧ S ∈ positiveMaps (Fin dims.prod) ∧ S ∈ unital (Fin dims.prod) := by
  have h : ∀ g ∈ q, ((runEvents s es).propagators g).getD 1 ∈
      tracePreserving (Fin dims.prod) ⊓ (positiveMaps (Fin dims.prod) ⊓ unital (Fin dims.prod)) := by
    intro g hg
    obtain ⟨U, hU⟩ := ha q hq g hg
    rw [hU, Option.getD_some]
    exact stored s hm hp es he g U hU
  exact seq_mem _ _ q h

/-- C261: without relaxation the populations after each sequence are mixtures of the initial ones, with transition
probabilities that add up to one for every initial and every final state. -/
theorem C261_open (s : Exp (SOp dims)) (hm : s.propMethod = none) (hp : ∀ g, s.propagators g = none)
    (es : List (Event (SOp dims))) (he : Unrelaxed es) (seqs : List (List String))
    (ha : Available (runEvents s es).propagators seqs) :
    ∃ Ds : List (Matrix (Fin dims.prod) (Fin dims.prod) ℝ), (∀ D ∈ Ds, Mixes D) ∧ ∀ p : Fin dims.prod → ℝ,
      evaluateOpen (runEvents s es).propagators seqs (dmToVec (diagonal fun j => (p j : ℂ))) = some (Ds.map (· *ᵥ p)) := by
  refine ⟨seqs.map fun q => kernel (Fold.seqProp (fun g => ((runEvents s es).propagators g).getD 1) q), ?_, fun p => ?_⟩
  · intro D hD
    obtain ⟨q, hq, rfl⟩ := List.mem_map.1 hD
    obtain ⟨a, b, c⟩ := whole s hm hp es he seqs ha q hq
    exact kernel_mixes _ a b c
  · rw [Waiting.evaluate_all _ seqs _ _ fun q hq => runSeq_eq _ q _ (ha q hq), List.map_map]
    congr 1
    refine List.map_congr_left fun q _ => ?_
    exact kernel_pops _ p

/-- C261: from the completely mixed state nothing changes the populations. -/
theorem C261_mixed (s : Exp (SOp dims)) (hm : s.propMethod = none) (hp : ∀ g, s.propagators g = none)
    (es : List (Event (SOp dims))) (he : Unrelaxed es) (seqs : List (List String))
    (ha : Available (runEvents s es).propagators seqs) (x : ℝ) :
    evaluateOpen (runEvents s es).propagators seqs (dmToVec (diagonal fun _ => (x : ℂ))) =
      some (seqs.map fun _ _ => x) := by
  obtain ⟨Ds, h1, h2⟩ := C261_open s hm hp es he seqs ha
  have h3 := h2 fun _ => x
  have hl : Ds.length = seqs.length := by
    have h4 : evaluateOpen (runEvents s es).propagators seqs (dmToVec (diagonal fun _ => (x : ℂ))) = _ :=
      Waiting.evaluate_all _ seqs _ _ fun q hq => runSeq_eq _ q _ (ha q hq)
    rw [h4] at h3
    have := congrArg List.length (Option.some.inj h3)
    simpa using this.symm
  rw [h3]
  congr 1
  have h5 : ∀ D ∈ Ds, D *ᵥ (fun _ => x) = fun _ => x := by
    intro D hD
    funext i
    show ∑ j, D i j * x = x
    rw [← sum_mul, (h1 D hD).to_one, one_mul]
  rw [List.map_congr_left h5, List.map_const', List.map_const', hl]

/-- C261: if no state has a probability above `m` in the beginning, also in superpositions, no population exceeds `m` after
any sequence. -/
theorem C261_ceiling (s : Exp (SOp dims)) (hm : s.propMethod = none) (hp : ∀ g, s.propagators g = none)
    (es : List (Event (SOp dims))) (he : Unrelaxed es) (seqs : List (List String))
    (ha : Available (runEvents s es).propagators seqs) (m : ℝ) (rho : Op dims) (h : Below m rho) :
    ∃ ps, evaluateOpen (runEvents s es).propagators seqs (dmToVec rho) = some ps ∧ ps.length = seqs.length ∧
      ∀ p ∈ ps, ∀ i, p i ≤ m := by
  refine ⟨_, Waiting.evaluate_all _ seqs _ _ fun q hq => runSeq_eq _ q _ (ha q hq), by simp, ?_⟩
  intro p hp' i
  obtain ⟨q, hq, rfl⟩ := List.mem_map.1 hp'
  obtain ⟨-, b, c⟩ := whole s hm hp es he seqs ha q hq
  exact below_diag m _ (below_act _ b c m rho h) i

/-- C261: components with no other decay than dephasing have balanced collapse operators. -/
theorem C261_components (c : Chip dims) (k : ℕ → Kind) (d : ℕ → Decay) (h : Waiting.FromComponents c k d)
    (ht : ∀ i < dims.length, (d i).t1 = none) : Balanced c.cols := by
  obtain ⟨L, h1, h2⟩ := Waiting.components c k d h
  intro M hM
  rw [h2] at hM
  obtain ⟨i, hi, rfl⟩ := List.mem_map.1 hM
  have hi' := List.mem_range.1 hi
  have h3 := h1 i hi'
  unfold getLindbladian at h3
  split at h3
  · cases h3
  · rw [← Option.some.inj h3]
    unfold collapseList
    rw [ht i hi']
    cases (d i).t2star with
    | none => simp
    | some t2 =>
      have e : (((Real.sqrt (0.5 / t2) : ℝ) : ℂ) • ((2 : ℂ) • ((ann dims i)ᴴ * ann dims i)))ᴴ =
          ((Real.sqrt (0.5 / t2) : ℝ) : ℂ) • ((2 : ℂ) • ((ann dims i)ᴴ * ann dims i)) := by
        rw [conjTranspose_smul, conjTranspose_smul, conjTranspose_mul, conjTranspose_conjTranspose]
        congr 1
        · simp
        · congr 1
          simp
      simp only [List.nil_append, List.sum_cons, List.sum_nil, add_zero]
      rw [e]

/-- C261 (closed systems): the populations from the basis states, added up, are one for every final state. -/
theorem C261_closed (s : Exp (Op dims)) (hm : s.propMethod = none) (hp : ∀ g, s.propagators g = none)
    (es : List (Event (Op dims))) (he : ∀ e ∈ es, ∃ c : Chip dims, c.WF ∧ ∃ ps, e.w = closed c ps)
    (q : List String) (ha : Available (runEvents s es).propagators [q]) :
    ∃ D : Matrix (Fin dims.prod) (Fin dims.prod) ℝ, Mixes D ∧
      ∀ j, evaluateClosed (runEvents s es).propagators [q] (Pi.single j 1) = some [fun i => D i j] := by
  have hu : ∀ g ∈ q, ((runEvents s es).propagators g).getD 1 ∈ unitaryGroup (Fin dims.prod) ℂ := by
    intro g hg
    obtain ⟨U, hU⟩ := ha q (by simp) g hg
    have hw : ∀ e ∈ es, e.w.WF := fun e hm => by
      obtain ⟨c, _, ps, h⟩ := he e hm
      rw [h]
      exact closed_wf c ps
    obtain ⟨pre, e, post, rfl, -, -, h1, -⟩ := (C68_history s hm hp es hw g U).1 hU
    obtain ⟨c, hc, ps, h2⟩ := he e (by simp)
    rw [h2] at h1
    rw [hU, Option.getD_some]
    exact mem_unitaryGroup_iff'.2 (C199_unitary c hc ps g U h1)
  have hV := seq_mem _ _ q hu
  set V := Fold.seqProp (fun g => ((runEvents s es).propagators g).getD 1) q with hVdef
  have n1 : ∀ z : ℂ, ((‖z‖ ^ 2 : ℝ) : ℂ) = z * star z := norm_sq_eq
  refine ⟨Matrix.of fun i j => ‖V i j‖ ^ 2, ⟨fun i j => sq_nonneg _, fun j => ?_, fun i => ?_⟩, fun j => ?_⟩
  · have := congrFun (congrFun (mem_unitaryGroup_iff'.1 hV) j) j
    rw [Matrix.one_apply_eq, Matrix.mul_apply] at this
    have e : ((∑ i, ‖V i j‖ ^ 2 : ℝ) : ℂ) = 1 := by
      rw [← this, Complex.ofReal_sum]
      exact sum_congr rfl fun i _ => by rw [n1, mul_comm]; rfl
    exact_mod_cast e
  · have := congrFun (congrFun (mem_unitaryGroup_iff.1 hV) i) i
    rw [Matrix.one_apply_eq, Matrix.mul_apply] at this
    have e : ((∑ j, ‖V i j‖ ^ 2 : ℝ) : ℂ) = 1 := by
      rw [← this, Complex.ofReal_sum]
      exact sum_congr rfl fun j _ => by rw [n1]; rfl
    exact_mod_cast e
  · unfold evaluateClosed
    rw [List.mapM_cons, runSeq_eq _ q _ (ha q (by simp))]
    simp only [Option.map_some, List.mapM_nil, Option.pure_def, Option.bind_eq_bind, Option.bind_some, Option.some.injEq,
      List.cons.injEq, and_true]
    funext i
    unfold popsClosed
    rw [← hVdef, mulVec_single_one]
    rfl

/-! ## Examples -/

/-- Relaxation does move the completely mixed state. -/
example : masterRHS (0 : Matrix (Fin 2) (Fin 2) ℂ) [!![0, 1; 0, 0]] 1 0 0 = 1 := by
  simp [masterRHS, Matrix.mul_apply, Fin.sum_univ_two, Matrix.vecMul, dotProduct, conjTranspose_apply]

example : Mixes (!![1 / 2, 1 / 2; 1 / 2, 1 / 2] : Matrix (Fin 2) (Fin 2) ℝ) := by
  refine ⟨fun i j => ?_, fun j => ?_, fun i => ?_⟩
  · fin_cases i <;> fin_cases j <;> norm_num
  · fin_cases j <;> norm_num [Fin.sum_univ_two]
  · fin_cases i <;> norm_num [Fin.sum_univ_two]

/-- A qubit that dephases. -/
example : ∃ c : Chip [2], c.cols ≠ [] ∧ Balanced c.cols := by
  refine ⟨{ exChip with cols := [diagonal fun i => (i.1 : ℂ)] }, by simp, ?_⟩
  intro L hL
  rw [List.mem_singleton.1 hL, diagonal_conjTranspose, diagonal_mul_diagonal, diagonal_mul_diagonal]
  congr 1
  funext i
  rw [mul_comm]

end C3.Experiment.Mixing
