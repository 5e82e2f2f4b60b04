import Verif.Experiment.WeakNoise
import Verif.Experiment.Waiting
import Verif.Experiment.Idle

/-!
# C263: weak pulses excite little

The whole chain of C199 for chips whose drift is diagonal (dressed basis, or no couplings). The probability to leave a
basis state is bounded by the area under the pulses.
-/

set_option linter.unusedSectionVars false

noncomputable section

namespace C3.Experiment.WeakDrive

open Matrix Finset C3.Propagation C3.Hilbert C3.Experiment C3.Experiment.Compute C3.Experiment.EndToEnd
open scoped Matrix.Norms.L2Operator

variable {dims : List ℕ}

/-! ## Specification -/

/-- The strength of the controls in one sample: absolute values times norms of the control Hamiltonians. -/
def sampleStrength (ks : List (Op dims)) (v : List ℝ) : ℝ := ((v.zip ks).map fun q => |q.1| * ‖q.2‖).sum

/-- The area under the pulses of an instruction. -/
def area (c : Chip dims) (ps : List (String × Pulse)) (g : String) : ℝ :=
  match ps.lookup g with
  | none => 0
  | some p =>
    match c.hks p with
    | none => 0
    | some ks => p.dt * (p.values.map (sampleStrength ks)).sum

/-! ## Lemmas -/

section
variable {n : Type} [Fintype n] [DecidableEq n]

/-- Up to an error of `a` the operator only multiplies the basis states by phases. -/
def Close (a : ℝ) (U : Matrix n n ℂ) : Prop := ‖U‖ ≤ 1 ∧ ∃ f : n → ℂ, (∀ i, ‖f i‖ = 1) ∧ ‖U - diagonal f‖ ≤ a

theorem phase_norm (f : n → ℂ) (hf : ∀ i, ‖f i‖ = 1) : ‖(diagonal f : Matrix n n ℂ)‖ ≤ 1 := by
  rw [l2_opNorm_diagonal]
  exact (pi_norm_le_iff_of_nonneg zero_le_one).2 fun i => (hf i).le

theorem Close.one : Close 0 (1 : Matrix n n ℂ) := by
  refine ⟨?_, fun _ => 1, by simp, by simp⟩
  rw [← diagonal_one]
  exact phase_norm _ (by simp)

theorem Close.phases (f : n → ℂ) (hf : ∀ i, ‖f i‖ = 1) : Close 0 (diagonal f) := ⟨phase_norm f hf, f, hf, by simp⟩

theorem Close.mul {a b : ℝ} {U V : Matrix n n ℂ} (hU : Close a U) (hV : Close b V) : Close (a + b) (U * V) := by
  obtain ⟨u1, f, hf, u2⟩ := hU
  obtain ⟨v1, g, hg, v2⟩ := hV
  refine ⟨(norm_mul_le _ _).trans (mul_le_one₀ u1 (norm_nonneg _) v1), fun i => f i * g i, fun i => by
    rw [norm_mul, hf, hg, one_mul], ?_⟩
  have e : U * V - diagonal (fun i => f i * g i) = (U - diagonal f) * diagonal g + U * (V - diagonal g) := by
    rw [← diagonal_mul_diagonal, Matrix.sub_mul, Matrix.mul_sub]
    abel
  rw [e]
  refine (norm_add_le _ _).trans (add_le_add ?_ ?_)
  · calc _ ≤ ‖U - diagonal f‖ * ‖(diagonal g : Matrix n n ℂ)‖ := norm_mul_le _ _
      _ ≤ ‖U - diagonal f‖ * 1 := mul_le_mul_of_nonneg_left (phase_norm g hg) (norm_nonneg _)
      _ ≤ a := by rw [mul_one]; exact u2
  · calc _ ≤ ‖U‖ * ‖V - diagonal g‖ := norm_mul_le _ _
      _ ≤ 1 * ‖V - diagonal g‖ := mul_le_mul_of_nonneg_right u1 (norm_nonneg _)
      _ ≤ b := by rw [one_mul]; exact v2

theorem Close.prod {α : Type*} (l : List α) (F : α → Matrix n n ℂ) (a : α → ℝ) (h : ∀ x ∈ l, Close (a x) (F x)) :
    Close (l.map a).sum (Fold.timeOrdered (l.map F)) := by
  induction l with
  | nil => simpa [Fold.timeOrdered] using Close.one
  | cons x l ih =>
    have e : Fold.timeOrdered ((x :: l).map F) = Fold.timeOrdered (l.map F) * F x := by simp [Fold.timeOrdered]
    rw [e, List.map_cons, List.sum_cons, add_comm]
    exact (ih fun y hy => h y (List.mem_cons_of_mem _ hy)).mul (h x List.mem_cons_self)

theorem sum_norm (l : List (ℝ × Matrix n n ℂ)) :
    ‖(l.map fun p => (p.1 : ℂ) • p.2).sum‖ ≤ (l.map fun p => |p.1| * ‖p.2‖).sum := by
  induction l with
  | nil => simp
  | cons p l ih =>
    rw [List.map_cons, List.sum_cons, List.map_cons, List.sum_cons]
    refine (norm_add_le _ _).trans (add_le_add (le_of_eq ?_) ih)
    rw [norm_smul, Complex.norm_real, Real.norm_eq_abs]

theorem exp_phases (e : n → ℝ) (dt : ℝ) :
    NormedSpace.exp ((dt : ℂ) • (-Complex.I) • (diagonal fun j => (e j : ℂ) : Matrix n n ℂ)) =
      diagonal fun j => Complex.exp ((dt : ℂ) * (-Complex.I * (e j : ℂ))) := by
  rw [← diagonal_smul, ← diagonal_smul, Matrix.exp_diagonal]
  congr 1
  funext j
  rw [Pi.coe_exp, ← Complex.exp_eq_exp_ℂ]
  rfl

theorem slice_close (e : n → ℝ) (ks : List (Matrix n n ℂ)) (hk : ∀ k ∈ ks, k.IsHermitian) (dt : ℝ) (hdt : 0 ≤ dt)
    (v : List ℝ) : Close (dt * ((v.zip ks).map fun q => |q.1| * ‖q.2‖).sum)
      (dUOfT (diagonal fun j => (e j : ℂ)) ks dt v) := by
  have hh : (diagonal fun j => (e j : ℂ) : Matrix n n ℂ).IsHermitian := by
    unfold Matrix.IsHermitian
    rw [diagonal_conjTranspose]
    congr 1
    funext i
    simp
  have hH := isHermitian_hamAt (diagonal fun j => (e j : ℂ)) (v.zip ks) hh fun p hp => hk _ (List.of_mem_zip hp).2
  unfold dUOfT
  refine ⟨Fidelity.Sensitive.exp_norm _ hH.eq dt hdt, fun j => Complex.exp ((dt : ℂ) * (-Complex.I * (e j : ℂ))), fun j => ?_, ?_⟩
  · show ‖Complex.exp ((dt : ℂ) * (-Complex.I * (e j : ℂ)))‖ = 1
    rw [show (dt : ℂ) * (-Complex.I * (e j : ℂ)) = ((-(dt * e j) : ℝ) : ℂ) * Complex.I by push_cast; ring,
      Complex.norm_exp_ofReal_mul_I]
  · rw [← exp_phases]
    refine (Fidelity.Sensitive.exp_close _ _ hH.eq hh.eq dt hdt).trans (mul_le_mul_of_nonneg_left ?_ hdt)
    rw [hamAt_eq_sum, add_sub_cancel_left]
    exact sum_norm _

/-- The probability to leave a basis state. -/
theorem leave (a : ℝ) (U : Matrix n n ℂ) (h : Close a U) (k : n) :
    ∑ i ∈ univ.erase k, popsClosed (U *ᵥ Pi.single k 1) i ≤ a ^ 2 := by
  obtain ⟨-, f, -, h2⟩ := h
  have h1 := WeakNoise.len_mulVec (U - diagonal f) (Pi.single k 1)
  have hl : Circuits.len (Pi.single k 1 : n → ℂ) = 1 := by
    rw [Circuits.len, EuclideanSpace.norm_eq]
    simp [Pi.single_apply, apply_ite, ite_pow]
  rw [hl, mul_one] at h1
  have h3 := h1.trans h2
  have h4 : Circuits.len ((U - diagonal f) *ᵥ Pi.single k 1) ^ 2 = ∑ i, ‖((U - diagonal f) *ᵥ Pi.single k 1) i‖ ^ 2 := by
    rw [Circuits.len, EuclideanSpace.norm_sq_eq]
  have h5 : Circuits.len ((U - diagonal f) *ᵥ Pi.single k 1) ^ 2 ≤ a ^ 2 :=
    pow_le_pow_left₀ (norm_nonneg _) h3 2
  rw [h4] at h5
  refine le_trans ?_ h5
  calc ∑ i ∈ univ.erase k, popsClosed (U *ᵥ Pi.single k 1) i
      = ∑ i ∈ univ.erase k, ‖((U - diagonal f) *ᵥ Pi.single k 1) i‖ ^ 2 := by
        refine sum_congr rfl fun i hi => ?_
        unfold popsClosed
        rw [mulVec_single_one, mulVec_single_one]
        have : (U - diagonal f).col k i = U.col k i := by
          show (U - diagonal f) i k = U i k
          rw [Matrix.sub_apply, diagonal_apply_ne _ (ne_of_mem_erase hi), sub_zero]
        rw [this]
    _ ≤ _ := sum_le_sum_of_subset_of_nonneg (erase_subset _ _) fun i _ _ => sq_nonneg _

/-- Changes of populations from any state. -/
theorem change (a : ℝ) (U : Matrix n n ℂ) (h : Close a U) (psi : n → ℂ) (hpsi : ∑ i, ‖psi i‖ ^ 2 = 1) (i : n) :
    |popsClosed (U *ᵥ psi) i - popsClosed psi i| ≤ 2 * a := by
  obtain ⟨h1, f, hf, h2⟩ := h
  have hu := Fidelity.Sensitive.vec_le U psi hpsi i
  have hd := Fidelity.Sensitive.vec_le (U - diagonal f) psi hpsi i
  have hp : ‖psi i‖ ≤ 1 := by
    have : ‖psi i‖ ^ 2 ≤ 1 := by
      rw [← hpsi]
      exact single_le_sum (f := fun i => ‖psi i‖ ^ 2) (fun j _ => sq_nonneg _) (mem_univ i)
    nlinarith [norm_nonneg (psi i)]
  have e : (U - diagonal f) *ᵥ psi = U *ᵥ psi - fun i => f i * psi i := by
    rw [sub_mulVec]
    congr 1
    funext j
    rw [mulVec_diagonal]
  rw [e, Pi.sub_apply] at hd
  have hr := abs_norm_sub_norm_le ((U *ᵥ psi) i) (f i * psi i)
  rw [norm_mul, hf, one_mul] at hr
  have hr2 := hr.trans (hd.trans h2)
  unfold popsClosed
  have hb : ‖(U *ᵥ psi) i‖ ≤ 1 := hu.trans h1
  rw [sq_sub_sq, abs_mul, abs_of_nonneg (add_nonneg (norm_nonneg _) (norm_nonneg _))]
  calc _ ≤ 2 * |‖(U *ᵥ psi) i‖ - ‖psi i‖| := mul_le_mul_of_nonneg_right (by linarith) (abs_nonneg _)
    _ ≤ 2 * a := by linarith

end

/-! ## Gates -/

/-- A gate is close to phases up to the area of its pulses. -/
theorem gate_close (c : Chip dims) (hc : c.WF) (hd : Waiting.Uncoupled c) (ps : List (String × Pulse))
    (hdt : ∀ g p, ps.lookup g = some p → 0 ≤ p.dt) (g : String) (V : Op dims)
    (h : physical (closed c ps) (.name "pwc") g = .ok V) : Close (area c ps g) V := by
  obtain ⟨p, ks, U, hp, hk, hU, hF⟩ := physical_closed c ps g V h
  obtain ⟨e, he⟩ := hd
  have hA : area c ps g = p.dt * (p.values.map (sampleStrength ks)).sum := by
    unfold area
    rw [hp]
    simp only [hk]
  have hUc : Close (area c ps g) U := by
    by_cases hv : p.values = []
    · rw [hv, List.length_nil, pwc_empty c.h0 ks p.dt c.batch hc.batch] at hU
      cases hU
    · rw [pwc_eq c.h0 ks p.dt p.values hv c.batch hc.batch] at hU
      rw [← Option.some.inj hU, hA, he, ← List.sum_map_mul_left]
      exact Close.prod _ _ _ fun v _ => slice_close e ks (hks_herm c hc p ks hk) p.dt (hdt g p hp) v
  rcases hF with ⟨-, F, hF, rfl⟩ | ⟨-, rfl⟩
  · obtain ⟨f, rfl, hf⟩ := Waiting.frame_diagonal c hc p F hF
    have := (Close.phases f fun i => by
      have h1 := congrArg norm (hf i)
      rw [norm_mul, norm_star, norm_one] at h1
      nlinarith [norm_nonneg (f i)]).mul hUc
    rwa [zero_add] at this
  · exact hUc

/-! ## Experiments -/

/-- All chips have a diagonal drift, and the pulses of `g` have the area `A g` at most. -/
def Gentle (A : String → ℝ) (es : List (Event (Op dims))) : Prop :=
  ∀ e ∈ es, ∃ c : Chip dims, c.WF ∧ Waiting.Uncoupled c ∧ ∃ ps : List (String × Pulse),
    (∀ g p, ps.lookup g = some p → 0 ≤ p.dt) ∧ (∀ g, area c ps g ≤ A g) ∧ e.w = closed c ps

theorem stored (s : Exp (Op dims)) (hm : s.propMethod = none) (hp : ∀ g, s.propagators g = none)
    (es : List (Event (Op dims))) (A : String → ℝ) (he : Gentle A es) (g : String) (U : Op dims)
    (hU : (runEvents s es).propagators g = some U) : Close (A g) U := by
  have hw : ∀ e ∈ es, e.w.WF := fun e hm => by
    obtain ⟨c, _, _, ps, _, _, h⟩ := he e hm
    rw [h]
    exact closed_wf c ps
  obtain ⟨pre, e, post, rfl, -, -, h1, -⟩ := (C68_history s hm hp es hw g U).1 hU
  obtain ⟨c, hc, hd, ps, hdt, hA, h2⟩ := he e (by simp)
  rw [h2] at h1
  obtain ⟨a, f, hf, b⟩ := gate_close c hc hd ps hdt g U h1
  exact ⟨a, f, hf, b.trans (hA g)⟩

theorem whole (s : Exp (Op dims)) (hm : s.propMethod = none) (hp : ∀ g, s.propagators g = none)
    (es : List (Event (Op dims))) (A : String → ℝ) (he : Gentle A es) (seqs : List (List String))
    (ha : Available (runEvents s es).propagators seqs) (q : List String) (hq : q ∈ seqs) :
    Close (q.map A).sum (Fold.seqProp (fun g => ((runEvents s es).propagators g).getD 1) q) := by
  refine Close.prod q _ A fun g hg => ?_
  obtain ⟨U, hU⟩ := ha q hq g hg
  rw [hU, Option.getD_some]
  exact stored s hm hp es A he g U hU

theorem evaluate_all (props : String → Option (Op dims)) (seqs : List (List String)) (psi : Fin dims.prod → ℂ)
    (ha : Available props seqs) :
    evaluateClosed props seqs psi = some (seqs.map fun q => popsClosed (Fold.seqProp (fun g => (props g).getD 1) q *ᵥ psi)) := by
  unfold evaluateClosed
  induction seqs with
  | nil => rfl
  | cons q l ih =>
    rw [List.mapM_cons, runSeq_eq props q psi (ha q List.mem_cons_self), ih fun q hq => ha q (List.mem_cons_of_mem _ hq)]
    rfl

/-- C263: from a basis state the probability to be found in other states after a sequence is at most the square of the area
under all pulses of the sequence. -/
theorem C263_leave (s : Exp (Op dims)) (hm : s.propMethod = none) (hp : ∀ g, s.propagators g = none)
    (es : List (Event (Op dims))) (A : String → ℝ) (he : Gentle A es) (seqs : List (List String))
    (ha : Available (runEvents s es).propagators seqs) (k : Fin dims.prod) :
    ∃ ps, evaluateClosed (runEvents s es).propagators seqs (Pi.single k 1) = some ps ∧
      List.Forall₂ (fun q p => ∑ i ∈ univ.erase k, p i ≤ (q.map A).sum ^ 2) seqs ps := by
  refine ⟨_, evaluate_all _ seqs _ ha, ?_⟩
  rw [List.forall₂_map_right_iff, List.forall₂_same]
  intro q hq
  exact leave _ _ (whole s hm hp es A he seqs ha q hq) k

/-- C263: from any state no population changes by more than twice the area under all pulses. -/
theorem C263_change (s : Exp (Op dims)) (hm : s.propMethod = none) (hp : ∀ g, s.propagators g = none)
    (es : List (Event (Op dims))) (A : String → ℝ) (he : Gentle A es) (seqs : List (List String))
    (ha : Available (runEvents s es).propagators seqs) (psi : Fin dims.prod → ℂ) (hpsi : ∑ i, ‖psi i‖ ^ 2 = 1) :
    ∃ ps, evaluateClosed (runEvents s es).propagators seqs psi = some ps ∧
      List.Forall₂ (fun q p => ∀ i, |p i - ‖psi i‖ ^ 2| ≤ 2 * (q.map A).sum) seqs ps := by
  refine ⟨_, evaluate_all _ seqs _ ha, ?_⟩
  rw [List.forall₂_map_right_iff, List.forall₂_same]
  intro q hq i
  exact change _ _ (whole s hm hp es A he seqs ha q hq) psi hpsi i

/-- C263: a sequence that takes a basis state to another one with probability `P` needs pulses of an area of at least the
square root of `P`. -/
theorem C263_area (s : Exp (Op dims)) (hm : s.propMethod = none) (hp : ∀ g, s.propagators g = none)
    (es : List (Event (Op dims))) (A : String → ℝ) (he : Gentle A es) (q : List String)
    (ha : Available (runEvents s es).propagators [q]) (k j : Fin dims.prod) (hj : j ≠ k) (p : Fin dims.prod → ℝ)
    (h : evaluateClosed (runEvents s es).propagators [q] (Pi.single k 1) = some [p]) :
    Real.sqrt (p j) ≤ |(q.map A).sum| := by
  obtain ⟨ps, h1, h2⟩ := C263_leave s hm hp es A he [q] ha k
  rw [h] at h1
  obtain rfl := Option.some.inj h1
  have h3 : ∑ i ∈ univ.erase k, p i ≤ (q.map A).sum ^ 2 := by
    cases h2 with
    | cons h _ => exact h
  have h4 : ∀ i, 0 ≤ p i := by
    rw [evaluate_all _ [q] _ ha, List.map_cons, List.map_nil, Option.some.injEq, List.cons.injEq] at h
    intro i
    rw [← h.1]
    exact sq_nonneg _
  refine Real.sqrt_le_iff.2 ⟨abs_nonneg _, ?_⟩
  rw [sq_abs]
  exact (single_le_sum (fun i _ => h4 i) (mem_erase.2 ⟨hj, mem_univ j⟩)).trans h3

/-- C263: the drift of a chip in its dressed basis is diagonal. -/
theorem C263_dressed (c : Chip dims) (v : Op dims) (e : Fin dims.prod → ℝ) (h : Idle.Dressed c v e) : Waiting.Uncoupled c :=
  ⟨_, (Idle.dressed_drift c v e h).1⟩

/-! ## Examples -/

/-- A history on the register of two qubits of C226 is gentle with the areas of its pulses. -/
example (ps : List (String × Pulse)) (h : ∀ g p, ps.lookup g = some p → 0 ≤ p.dt) :
    Gentle (area Waiting.exPair ps) [⟨closed Waiting.exPair ps, none, false⟩] := by
  intro e he
  rw [List.mem_singleton.1 he]
  exact ⟨_, Waiting.exPair_wf, Waiting.C226_uncoupled _ _ _ _ _ _ _ _, ps, h, fun _ => le_rfl, rfl⟩

/-- The area of a pulse on one line. -/
example (K : Op [2]) : sampleStrength [K] [-2] = 2 * ‖K‖ := by
  simp [sampleStrength]

end C3.Experiment.WeakDrive
