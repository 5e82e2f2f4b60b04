import Verif.Experiment.Preparation
import Verif.Experiment.Mixture

/-!
# C272: readout errors do not make experiments easier to tell apart

The chain of C259 continued by the confusion of the readout (c3/libraries/tasks.py:107-129): the probabilities of all sets of
readout results differ by no more than those of all sets of levels, and so by no more than what a measurement of the initial
states can tell. Confusion of averaged populations gives the averages of the confused ones.
-/

set_option linter.unusedSectionVars false

noncomputable section

namespace C3.Experiment.ReadoutNear

open Matrix Finset C3.Propagation C3.Hilbert C3.Experiment C3.Experiment.Compute C3.Experiment.EndToEnd
open C3.Experiment.Preparation (Alike Near)
open scoped ComplexOrder

/-! ## Specification -/

/-- The probabilities of all sets of the first `N` results differ by `ε` at most. -/
def NearCol (N : ℕ) (ε : ℝ) (f g : ℕ → ℝ) : Prop := ∀ T ⊆ range N, |∑ i ∈ T, f i - ∑ i ∈ T, g i| ≤ ε

/-- What the readout with the confusion rows `rows` reports for two distributions over the levels differs by `ε` at most. -/
def ReadNear {dims : List ℕ} (rows : List (List ℝ)) (ε : ℝ) (p q : Fin dims.prod → ℝ) : Prop :=
  ∃ a b, confuse rows (column p) = .ok a ∧ confuse rows (column q) = .ok b ∧ a.rows = 2 ^ dims.length ∧ b.rows = a.rows ∧
    NearCol a.rows ε (fun i => a.e i 0) fun i => b.e i 0

/-! ## Lemmas -/

theorem weighted_le (s : Finset ℕ) (d c : ℕ → ℝ) (ε : ℝ) (hc : ∀ k ∈ s, 0 ≤ c k ∧ c k ≤ 1)
    (h : ∀ T ⊆ s, ∑ k ∈ T, d k ≤ ε) : ∑ k ∈ s, c k * d k ≤ ε := by
  calc ∑ k ∈ s, c k * d k ≤ ∑ k ∈ s, if 0 < d k then d k else 0 := by
        refine sum_le_sum fun k hk => ?_
        obtain ⟨h0, h1⟩ := hc k hk
        split
        · rename_i hd
          nlinarith
        · rename_i hd
          nlinarith
    _ = ∑ k ∈ s.filter fun k => 0 < d k, d k := (sum_filter _ _).symm
    _ ≤ ε := h _ (filter_subset _ _)

theorem weighted_abs (s : Finset ℕ) (d c : ℕ → ℝ) (ε : ℝ) (hc : ∀ k ∈ s, 0 ≤ c k ∧ c k ≤ 1)
    (h : ∀ T ⊆ s, |∑ k ∈ T, d k| ≤ ε) : |∑ k ∈ s, c k * d k| ≤ ε := by
  rw [abs_le]
  constructor
  · have := weighted_le s (fun k => -d k) c ε hc fun T hT => by
      rw [sum_neg_distrib]
      linarith [(abs_le.1 (h T hT)).1]
    simp only [mul_neg, sum_neg_distrib] at this
    linarith
  · exact weighted_le s d c ε hc fun T hT => (abs_le.1 (h T hT)).2

/-- C272: the confusion of two distributions does not make them easier to tell apart. -/
theorem C272_confuse (rows : List (List ℝ)) (h : ∀ r ∈ rows, ∀ x ∈ r, 0 ≤ x ∧ x ≤ 1) (p q : Arr ℝ)
    (hp : p.rows = (rows.map List.length).prod) (hq : q.rows = (rows.map List.length).prod) (j : ℕ) (ε : ℝ)
    (hn : NearCol p.rows ε (fun i => p.e i j) fun i => q.e i j) :
    ∃ a b, confuse rows p = .ok a ∧ confuse rows q = .ok b ∧ a.rows = 2 ^ rows.length ∧ b.rows = a.rows ∧
      NearCol a.rows ε (fun i => a.e i j) fun i => b.e i j := by
  have hs := confMatrix_shape rows
  have hst := colStoch_confMatrix rows h
  unfold confuse
  rw [if_pos (by rw [hs.2, hp]), if_pos (by rw [hs.2, hq])]
  refine ⟨_, _, rfl, rfl, hs.1, rfl, fun T hT => ?_⟩
  simp only at hT ⊢
  have e : ∀ f : ℕ → ℝ, ∑ i ∈ T, ∑ k ∈ range (confMatrix rows).cols, (confMatrix rows).e i k * f k =
      ∑ k ∈ range (confMatrix rows).cols, (∑ i ∈ T, (confMatrix rows).e i k) * f k := by
    intro f
    rw [sum_comm]
    exact sum_congr rfl fun k _ => (sum_mul _ _ _).symm
  rw [e, e, ← sum_sub_distrib]
  simp only [← mul_sub]
  refine weighted_abs _ (fun k => p.e k j - q.e k j) (fun k => ∑ i ∈ T, (confMatrix rows).e i k) ε (fun k hk => ?_)
    fun S hS => ?_
  · have hk' := mem_range.1 hk
    constructor
    · exact sum_nonneg fun i hi => (hst k hk').1 i (mem_range.1 (hT hi))
    · rw [← (hst k hk').2]
      exact sum_le_sum_of_subset_of_nonneg hT fun i hi _ => (hst k hk').1 i (mem_range.1 hi)
  · rw [sum_sub_distrib]
    refine hn S ?_
    rw [hp, ← hs.2]
    exact hS

theorem near_column {dims : List ℕ} (ε : ℝ) (p q : Fin dims.prod → ℝ) (h : Near ε p q) :
    NearCol dims.prod ε (fun i => (column p).e i 0) fun i => (column q).e i 0 := by
  intro T hT
  have e : ∀ f : Fin dims.prod → ℝ, ∑ i ∈ T, (column f).e i 0 = ∑ i ∈ univ.filter fun i : Fin dims.prod => (i : ℕ) ∈ T, f i := by
    intro f
    have hT' : T = (univ.filter fun i : Fin dims.prod => (i : ℕ) ∈ T).map Fin.valEmbedding := by
      ext k
      simp only [mem_map, mem_filter, mem_univ, true_and, Fin.valEmbedding_apply]
      constructor
      · intro hk
        exact ⟨⟨k, mem_range.1 (hT hk)⟩, hk, rfl⟩
      · rintro ⟨i, hi, rfl⟩
        exact hi
    conv_lhs => rw [hT']
    rw [sum_map]
    refine sum_congr rfl fun i _ => ?_
    simp [column]
  rw [e, e]
  exact h _

theorem read_near {dims : List ℕ} (rows : List (List ℝ)) (h : ∀ r ∈ rows, ∀ x ∈ r, 0 ≤ x ∧ x ≤ 1)
    (hd : rows.map List.length = dims) (ε : ℝ) (p q : Fin dims.prod → ℝ) (hn : Near ε p q) : ReadNear rows ε p q := by
  obtain ⟨a, b, h1, h2, h3, h4, h5⟩ := C272_confuse rows h (column p) (column q) (by rw [hd]; rfl) (by rw [hd]; rfl) 0 ε
    (near_column ε p q hn)
  refine ⟨a, b, h1, h2, ?_, h4, h5⟩
  rw [h3, ← hd, List.length_map]

/-- C272: the confusion of averaged populations gives the averages of the confused populations. -/
theorem C272_average {dims : List ℕ} {κ : Type} [Fintype κ] (rows : List (List ℝ)) (hd : rows.map List.length = dims)
    (w : κ → ℝ) (p : κ → Fin dims.prod → ℝ) :
    ∃ (a : Arr ℝ) (b : κ → Arr ℝ), confuse rows (column (Mixture.average w p)) = .ok a ∧
      (∀ k, confuse rows (column (p k)) = .ok (b k)) ∧ ∀ i, a.e i 0 = ∑ k, w k * (b k).e i 0 := by
  have hs := confMatrix_shape rows
  have hc : ∀ f : Fin dims.prod → ℝ, (confMatrix rows).cols = (column f).rows := fun f => by
    rw [hs.2, hd]
    rfl
  unfold confuse
  refine ⟨_, fun k => _, if_pos (hc _), fun k => if_pos (hc _), fun i => ?_⟩
  simp only
  have e : ∀ m, (column (Mixture.average w p)).e m 0 = ∑ k, w k * (column (p k)).e m 0 := by
    intro m
    simp only [column, Mixture.average]
    split
    · rfl
    · simp
  simp only [e, mul_sum]
  rw [sum_comm]
  refine sum_congr rfl fun k _ => sum_congr rfl fun m _ => ?_
  ring

/-! ## Experiments -/

variable {dims : List ℕ}

/-- C272 (open systems): whatever chips and pulses the gates were computed with, the readout after any sequence tells two
initial states apart no better than the best measurement of the initial states. -/
theorem C272_open (s : Exp (SOp dims)) (hm : s.propMethod = none) (hp : ∀ g, s.propagators g = none)
    (es : List (Event (SOp dims))) (he : ∀ e ∈ es, ∃ c : Chip dims, c.WF ∧ ∃ ps : List (String × Pulse),
      (∀ g p, ps.lookup g = some p → 0 ≤ p.dt) ∧ e.w = opened c ps)
    (seqs : List (List String)) (ha : Available (runEvents s es).propagators seqs) (rows : List (List ℝ))
    (hr : ∀ r ∈ rows, ∀ x ∈ r, 0 ≤ x ∧ x ≤ 1) (hd : rows.map List.length = dims) (ε : ℝ) (rho sigma : Op dims)
    (h : Alike ε rho sigma) :
    ∃ ps qs, evaluateOpen (runEvents s es).propagators seqs (dmToVec rho) = some ps ∧
      evaluateOpen (runEvents s es).propagators seqs (dmToVec sigma) = some qs ∧ List.Forall₂ (ReadNear rows ε) ps qs := by
  obtain ⟨ps, qs, h1, h2, h3⟩ := Preparation.C259_open s hm hp es he seqs ha ε rho sigma h
  exact ⟨ps, qs, h1, h2, h3.imp fun p q => read_near rows hr hd ε p q⟩

/-- C272 (closed systems): the same for state vectors. -/
theorem C272_closed (s : Exp (Op dims)) (hm : s.propMethod = none) (hp : ∀ g, s.propagators g = none)
    (es : List (Event (Op dims))) (he : ∀ e ∈ es, ∃ c : Chip dims, c.WF ∧ ∃ ps, e.w = closed c ps)
    (seqs : List (List String)) (ha : Available (runEvents s es).propagators seqs) (rows : List (List ℝ))
    (hr : ∀ r ∈ rows, ∀ x ∈ r, 0 ≤ x ∧ x ≤ 1) (hd : rows.map List.length = dims) (ε : ℝ) (psi phi : Fin dims.prod → ℂ)
    (h : Alike ε (Preparation.pure psi) (Preparation.pure phi)) :
    ∃ ps qs, evaluateClosed (runEvents s es).propagators seqs psi = some ps ∧
      evaluateClosed (runEvents s es).propagators seqs phi = some qs ∧ List.Forall₂ (ReadNear rows ε) ps qs := by
  obtain ⟨ps, qs, h1, h2, h3⟩ := Preparation.C259_closed s hm hp es he seqs ha ε psi phi h
  exact ⟨ps, qs, h1, h2, h3.imp fun p q => read_near rows hr hd ε p q⟩

/-! ## Examples -/

/-- Ground and excited state of a qubit, told apart with certainty before the readout. -/
example : ∃ a b, confuse [[0.9, 0.2]] ⟨2, 1, fun i _ => if i = 0 then 1 else 0⟩ = .ok a ∧
    confuse [[0.9, 0.2]] ⟨2, 1, fun i _ => if i = 1 then 1 else 0⟩ = .ok b ∧
    NearCol a.rows 1 (fun i => a.e i 0) fun i => b.e i 0 := by
  obtain ⟨a, b, h1, h2, -, -, h3⟩ := C272_confuse [[0.9, 0.2]] (by
      intro r hr x hx
      simp only [List.mem_singleton] at hr
      subst hr
      simp only [List.mem_cons, List.not_mem_nil, or_false] at hx
      rcases hx with rfl | rfl <;> norm_num)
    ⟨2, 1, fun i _ => if i = 0 then 1 else 0⟩ ⟨2, 1, fun i _ => if i = 1 then 1 else 0⟩ rfl rfl 0 1 (by
      intro T hT
      simp only [sum_ite_eq']
      split <;> split <;> simp)
  exact ⟨a, b, h1, h2, h3⟩

/-- Distributions that can be told apart are not near. -/
example : ¬ NearCol 2 (1 / 2) (fun i => if i = 0 then 1 else 0) fun i => if i = 1 then 1 else 0 := by
  intro h
  have := h {0} (by simp)
  norm_num at this

end C3.Experiment.ReadoutNear
