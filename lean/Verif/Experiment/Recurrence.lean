import Verif.Experiment.EndToEnd
import Verif.Fidelity.Sensitive

/-!
# C267: on a closed chip every sequence of gates is undone by repeating it

The whole chain of C199 for sequences that are repeated. Whatever the chip and the pulses, there are arbitrarily large numbers
of repetitions after which nothing seems to have happened, for all initial states at once and whatever is played before and
after. One repetition less undoes the sequence.
-/

set_option linter.unusedSectionVars false

noncomputable section

namespace C3.Experiment.Recurrence

open Matrix Finset Filter Topology C3.Propagation C3.Hilbert C3.Experiment C3.Experiment.Compute C3.Experiment.EndToEnd
open scoped Matrix.Norms.L2Operator

/-! ## Specification -/

/-- The sequence `q` played `n` times. -/
def repeated (n : ℕ) (q : List String) : List String := (List.replicate n q).flatten

/-! ## Lemmas -/

section
variable {n : Type} [Fintype n] [DecidableEq n]

theorem unitary_pow {U : Matrix n n ℂ} (h : Uᴴ * U = 1) (k : ℕ) : (U ^ k)ᴴ * U ^ k = 1 := by
  have h1 : U ∈ unitaryGroup n ℂ := mem_unitaryGroup_iff'.2 h
  exact mem_unitaryGroup_iff'.1 (pow_mem h1 k)

/-- The powers of a unitary matrix return to the identity. -/
theorem returns {U : Matrix n n ℂ} (h : Uᴴ * U = 1) (ε : ℝ) (he : 0 < ε) (N : ℕ) : ∃ k ≥ N, ‖U ^ k - 1‖ < ε := by
  have := FiniteDimensional.proper ℂ (Matrix n n ℂ)
  have hb : ∀ k, U ^ k ∈ Metric.closedBall (0 : Matrix n n ℂ) 1 := fun k => by
    rw [mem_closedBall_zero_iff]
    exact Average.norm_le_one_of_unitary (unitary_pow h k)
  obtain ⟨a, -, f, hf, hlim⟩ := (isCompact_closedBall (0 : Matrix n n ℂ) 1).tendsto_subseq hb
  obtain ⟨K, hK⟩ := Metric.tendsto_atTop.1 hlim (ε / 2) (by positivity)
  have hL : f K + N ≤ f (K + f K + N) := by
    have := hf.le_apply (x := K + f K + N)
    omega
  have h1 := hK K le_rfl
  have h2 := hK (K + f K + N) (by omega)
  have h3 : ‖U ^ f (K + f K + N) - U ^ f K‖ < ε := by
    rw [← dist_eq_norm]
    calc _ ≤ dist (U ^ f (K + f K + N)) a + dist (U ^ f K) a := dist_triangle_right _ _ _
      _ < ε / 2 + ε / 2 := add_lt_add h2 h1
      _ = ε := by ring
  refine ⟨f (K + f K + N) - f K, by omega, ?_⟩
  have e : U ^ (f (K + f K + N) - f K) - 1 = (U ^ f K)ᴴ * (U ^ f (K + f K + N) - U ^ f K) := by
    rw [mul_sub, unitary_pow h]
    congr 1
    conv_rhs => rw [show f (K + f K + N) = f K + (f (K + f K + N) - f K) by omega, pow_add, ← Matrix.mul_assoc,
      unitary_pow h, Matrix.one_mul]
  rw [e]
  calc _ ≤ ‖(U ^ f K)ᴴ‖ * ‖U ^ f (K + f K + N) - U ^ f K‖ := norm_mul_le _ _
    _ ≤ 1 * ‖U ^ f (K + f K + N) - U ^ f K‖ := by
      refine mul_le_mul_of_nonneg_right ?_ (norm_nonneg _)
      rw [l2_opNorm_conjTranspose]
      exact Average.norm_le_one_of_unitary (unitary_pow h _)
    _ < ε := by rw [one_mul]; exact h3

theorem repeated_prop (val : String → Matrix n n ℂ) (k : ℕ) (q : List String) :
    C3.Fold.seqProp val (repeated k q) = C3.Fold.seqProp val q ^ k := by
  induction k with
  | zero => simp [repeated, C3.Fold.seqProp, C3.Fold.timeOrdered]
  | succ k ih =>
    have : repeated (k + 1) q = q ++ repeated k q := by simp [repeated, List.replicate_succ]
    rw [this, C3.Fold.C21_concat, ih, pow_succ]

theorem square_close (x y : ℂ) (hx : ‖x‖ ≤ 1) (hy : ‖y‖ ≤ 1) : |‖x‖ ^ 2 - ‖y‖ ^ 2| ≤ 2 * ‖x - y‖ := by
  have h1 := abs_norm_sub_norm_le x y
  have h2 : ‖x‖ ^ 2 - ‖y‖ ^ 2 = (‖x‖ + ‖y‖) * (‖x‖ - ‖y‖) := by ring
  rw [h2, abs_mul, abs_of_nonneg (by positivity)]
  exact mul_le_mul (by linarith) h1 (abs_nonneg _) (by norm_num)

theorem mem_repeated (k : ℕ) (q : List String) (g : String) (h : g ∈ repeated k q) : g ∈ q := by
  unfold repeated at h
  obtain ⟨l, h1, h2⟩ := List.mem_flatten.1 h
  rwa [List.eq_of_mem_replicate h1] at h2

/-- C267 for any set of unitary gates. -/
theorem C267_gates (props : String → Option (Matrix n n ℂ)) (hu : ∀ g U, props g = some U → Uᴴ * U = 1)
    (q : List String) (hq : Available props [q]) (ε : ℝ) (he : 0 < ε) (N : ℕ) :
    ∃ k ≥ N, ∀ a b, Available props [a, b] → ∀ psi : n → ℂ, ∑ i, ‖psi i‖ ^ 2 = 1 →
      ∃ p p', evaluateClosed props [a ++ repeated k q ++ b, a ++ b] psi = some [p, p'] ∧ ∀ i, |p i - p' i| ≤ ε := by
  set val : String → Matrix n n ℂ := fun g => (props g).getD 1 with hval
  have hv : ∀ s, Available props [s] → (C3.Fold.seqProp val s)ᴴ * C3.Fold.seqProp val s = 1 := by
    intro s hs
    refine C3.Fidelity.seqProp_unitary _ s fun g hg => ?_
    obtain ⟨U, hU⟩ := hs s (by simp) g hg
    rw [hval]
    simp only [hU, Option.getD_some]
    exact hu g U hU
  obtain ⟨k, hk, hr⟩ := returns (hv q hq) (ε / 2) (by positivity) N
  refine ⟨k, hk, fun a b hab psi hpsi => ?_⟩
  have hq' : ∀ g ∈ q, ∃ U, props g = some U := hq q (by simp)
  have ha : ∀ g ∈ a, ∃ U, props g = some U := hab a (by simp)
  have hb : ∀ g ∈ b, ∃ U, props g = some U := hab b (by simp)
  have hall : ∀ s ∈ [a ++ repeated k q ++ b, a ++ b], ∀ g ∈ s, ∃ U, props g = some U := by
    intro s hs g hg
    simp only [List.mem_cons, List.not_mem_nil, or_false] at hs
    rcases hs with rfl | rfl
    · simp only [List.mem_append] at hg
      rcases hg with (h | h) | h
      · exact ha g h
      · exact hq' g (mem_repeated k q g h)
      · exact hb g h
    · rcases List.mem_append.1 hg with h | h
      · exact ha g h
      · exact hb g h
  obtain ⟨e, -⟩ := C65_closed props [a ++ repeated k q ++ b, a ++ b] psi
    (fun s hs g hg => (hall s hs g hg).imp fun U h => ⟨h, hu g U h⟩) hpsi
  refine ⟨_, _, e, fun i => ?_⟩
  have one : ∀ s, (∀ g ∈ s, ∃ U, props g = some U) → ‖(C3.Fold.seqProp val s *ᵥ psi) i‖ ≤ 1 := fun s hs =>
    (C3.Fidelity.Sensitive.vec_le _ psi hpsi i).trans
      (Average.norm_le_one_of_unitary (hv s fun t ht => by rw [List.mem_singleton.1 ht]; exact hs))
  refine (square_close _ _ (one _ (hall _ (by simp))) (one _ (hall _ (by simp)))).trans ?_
  rw [← Pi.sub_apply, ← Matrix.sub_mulVec]
  have hle := C3.Fidelity.Sensitive.vec_le
    (C3.Fold.seqProp val (a ++ repeated k q ++ b) - C3.Fold.seqProp val (a ++ b)) psi hpsi i
  have hd : C3.Fold.seqProp val (a ++ repeated k q ++ b) - C3.Fold.seqProp val (a ++ b) =
      C3.Fold.seqProp val b * ((C3.Fold.seqProp val q ^ k - 1) * C3.Fold.seqProp val a) := by
    rw [C3.Fold.C21_concat, C3.Fold.C21_concat, C3.Fold.C21_concat, repeated_prop, sub_mul, mul_sub, one_mul]
  have nA := Average.norm_le_one_of_unitary (hv a fun t ht => by rw [List.mem_singleton.1 ht]; exact ha)
  have nB := Average.norm_le_one_of_unitary (hv b fun t ht => by rw [List.mem_singleton.1 ht]; exact hb)
  have hn : ‖C3.Fold.seqProp val b * ((C3.Fold.seqProp val q ^ k - 1) * C3.Fold.seqProp val a)‖ ≤ ε / 2 := by
    calc _ ≤ ‖C3.Fold.seqProp val b‖ * (‖C3.Fold.seqProp val q ^ k - 1‖ * ‖C3.Fold.seqProp val a‖) :=
          (norm_mul_le _ _).trans (mul_le_mul_of_nonneg_left (norm_mul_le _ _) (norm_nonneg _))
      _ ≤ 1 * (ε / 2 * 1) := by
          refine mul_le_mul nB (mul_le_mul hr.le nA (norm_nonneg _) (by positivity)) (by positivity) zero_le_one
      _ = ε / 2 := by ring
  rw [hd] at hle
  rw [hd]
  linarith

end

/-! ## Experiments -/

variable {dims : List ℕ}

theorem unitary_gates (s : Exp (Op dims)) (hm : s.propMethod = none) (hp : ∀ g, s.propagators g = none)
    (es : List (Event (Op dims))) (he : ∀ e ∈ es, ∃ c : Chip dims, c.WF ∧ ∃ ps, e.w = closed c ps) (g : String) (U : Op dims)
    (h : (runEvents s es).propagators g = some U) : Uᴴ * U = 1 := by
  have hw : ∀ e ∈ es, e.w.WF := fun e hm => by
    obtain ⟨c, _, ps, h⟩ := he e hm
    rw [h]
    exact closed_wf c ps
  obtain ⟨pre, e, post, rfl, -, -, h1, -⟩ := (C68_history s hm hp es hw g U).1 h
  obtain ⟨c, hc, ps, h2⟩ := he e (by simp)
  rw [h2] at h1
  exact C199_unitary c hc ps g U h1

/-- C267: whatever chips and pulses the gates were computed with, for every sequence there are arbitrarily large numbers of
repetitions that change no population by more than `ε`, for all initial states and all gates before and after. -/
theorem C267_repetitions (s : Exp (Op dims)) (hm : s.propMethod = none) (hp : ∀ g, s.propagators g = none)
    (es : List (Event (Op dims))) (he : ∀ e ∈ es, ∃ c : Chip dims, c.WF ∧ ∃ ps, e.w = closed c ps)
    (q : List String) (hq : Available (runEvents s es).propagators [q]) (ε : ℝ) (hε : 0 < ε) (N : ℕ) :
    ∃ k ≥ N, ∀ a b, Available (runEvents s es).propagators [a, b] → ∀ psi : Fin dims.prod → ℂ, ∑ i, ‖psi i‖ ^ 2 = 1 →
      ∃ p p', evaluateClosed (runEvents s es).propagators [a ++ repeated k q ++ b, a ++ b] psi = some [p, p'] ∧
        ∀ i, |p i - p' i| ≤ ε :=
  C267_gates _ (unitary_gates s hm hp es he) q hq ε hε N

/-- C267: every sequence can be undone by repeating it. -/
theorem C267_undo (s : Exp (Op dims)) (hm : s.propMethod = none) (hp : ∀ g, s.propagators g = none)
    (es : List (Event (Op dims))) (he : ∀ e ∈ es, ∃ c : Chip dims, c.WF ∧ ∃ ps, e.w = closed c ps)
    (q : List String) (hq : Available (runEvents s es).propagators [q]) (ε : ℝ) (hε : 0 < ε) :
    ∃ k, ∀ psi : Fin dims.prod → ℂ, ∑ i, ‖psi i‖ ^ 2 = 1 →
      ∃ p, evaluateClosed (runEvents s es).propagators [q ++ repeated k q] psi = some [p] ∧
        ∀ i, |p i - ‖psi i‖ ^ 2| ≤ ε := by
  obtain ⟨k, hk, h⟩ := C267_repetitions s hm hp es he q hq ε hε 1
  refine ⟨k - 1, fun psi hpsi => ?_⟩
  obtain ⟨p, p', h1, h2⟩ := h [] [] (by intro t ht; simp at ht; simp [ht]) psi hpsi
  have e : q ++ repeated (k - 1) q = repeated k q := by
    obtain ⟨j, rfl⟩ : ∃ j, k = j + 1 := ⟨k - 1, by omega⟩
    simp [repeated, List.replicate_succ]
  rw [e]
  simp only [List.nil_append, List.append_nil] at h1
  unfold evaluateClosed at h1 ⊢
  rw [List.mapM_cons] at h1
  cases hr : runSeq (runEvents s es).propagators (repeated k q) psi with
  | none =>
    rw [hr] at h1
    cases h1
  | some r =>
    rw [hr] at h1
    have h3 : [popsClosed r, popsClosed psi] = [p, p'] := Option.some.inj h1
    rw [List.cons.injEq, List.cons.injEq] at h3
    refine ⟨popsClosed r, ?_, fun i => ?_⟩
    · rw [List.mapM_cons, hr]
      rfl
    · have := h2 i
      rw [← h3.1, ← h3.2.1] at this
      exact this

/-! ## Examples -/

example : repeated 3 ["x", "y"] = ["x", "y", "x", "y", "x", "y"] := rfl

/-- A flip returns after two repetitions and not after one. -/
example : (!![0, 1; 1, 0] : Matrix (Fin 2) (Fin 2) ℂ) ^ 2 = 1 ∧ (!![0, 1; 1, 0] : Matrix (Fin 2) (Fin 2) ℂ) ≠ 1 := by
  constructor
  · rw [pow_two]
    ext i j
    fin_cases i <;> fin_cases j <;> simp
  · intro h
    have := congrFun (congrFun h 0) 0
    simp at this

/-- With relaxation there is no return: a gate that resets a qubit never gives back its excitation. -/
example : ∃ S : Matrix (Fin 2 × Fin 2) (Fin 2 × Fin 2) ℂ, S ∈ tracePreserving (Fin 2) ∧ ∀ k,
    popsOpen (S ^ (k + 1) *ᵥ dmToVec (vecMulVec (Pi.single 1 1) (Pi.single 1 1))) 1 = 0 := by
  refine ⟨Matrix.of fun p r => if p = (0, 0) ∧ r.1 = r.2 then 1 else 0, ?_, fun k => ?_⟩
  · intro v
    simp [vecTrace, Matrix.mulVec, dotProduct, Fin.sum_univ_two, Fintype.sum_prod_type]
  · rw [pow_succ', ← Matrix.mulVec_mulVec]
    simp [popsOpen, vecToDm, Matrix.mulVec, dotProduct]

end C3.Experiment.Recurrence
