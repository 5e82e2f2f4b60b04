import Mathlib.Analysis.Normed.Ring.Units
import Mathlib.Analysis.Normed.Module.Basic
import Mathlib.Analysis.Normed.Algebra.Basic
import Mathlib.Topology.MetricSpace.Contracting
import Mathlib.Algebra.BigOperators.Group.Finset.Basic
import Mathlib.Data.Fintype.BigOperators
import Mathlib.Tactic.NoncommRing
import Mathlib.Tactic.Linarith
import Mathlib.Tactic.LinearCombination

/-!
# Averages over sequences of group elements that multiply to the identity

The mathematics behind randomized benchmarking (C212): `a` is the ideal representation of the group of gates and `C` the
operation that is actually carried out for each of them.
-/

set_option linter.unusedSectionVars false

namespace C3.Fidelity.Twirl

variable {G R : Type*} [Group G] [Fintype G] [Ring R] [Algebra ℝ R]

/-- Mean over the group. -/
noncomputable def avg {M : Type*} [AddCommGroup M] [Module ℝ M] (f : G → M) : M := ((Fintype.card G : ℝ)⁻¹) • ∑ g, f g

/-- The twirl: the mean of the conjugates. -/
noncomputable def twirl (a : G →* R) (X : R) : R := avg fun g => a g * X * a g⁻¹

/-- The mean product of all sequences of `k + 1` operations whose group elements multiply to `j`, times the probability
of this: the first operation acts first (on the right). -/
noncomputable def seqMean (C : G → R) : ℕ → G → R
  | 0, j => ((Fintype.card G : ℝ)⁻¹) • C j
  | k + 1, j => avg fun c => C c * seqMean C k (c⁻¹ * j)

/-- The mean of what the operations do in excess of the ideal ones. -/
noncomputable def chan (a : G →* R) (C : G → R) : R := avg fun g => C g * a g⁻¹

section algebra

theorem avg_add {M : Type*} [AddCommGroup M] [Module ℝ M] (f g : G → M) : avg (fun x => f x + g x) = avg f + avg g := by
  simp [avg, Finset.sum_add_distrib, smul_add]

theorem avg_mul_left (X : R) (f : G → R) : avg (fun x => X * f x) = X * avg f := by
  simp [avg, Finset.mul_sum]

theorem avg_mul_right (X : R) (f : G → R) : avg (fun x => f x * X) = avg f * X := by
  simp [avg, Finset.sum_mul]

theorem avg_const {M : Type*} [AddCommGroup M] [Module ℝ M] (X : M) : avg (fun _ : G => X) = X := by
  simp only [avg, Finset.sum_const, Finset.card_univ]
  rw [← Nat.cast_smul_eq_nsmul ℝ, smul_smul, inv_mul_cancel₀, one_smul]
  exact_mod_cast Fintype.card_ne_zero

theorem avg_equiv {M : Type*} [AddCommGroup M] [Module ℝ M] (e : G ≃ G) (f : G → M) : avg (fun x => f (e x)) = avg f := by
  simp only [avg]
  rw [e.sum_comp]

theorem avg_comm {M : Type*} [AddCommGroup M] [Module ℝ M] (f : G → G → M) :
    avg (fun x => avg fun y => f x y) = avg fun y => avg fun x => f x y := by
  simp only [avg, Finset.smul_sum]
  rw [Finset.sum_comm]

theorem avg_smul {M : Type*} [AddCommGroup M] [Module ℝ M] (t : ℝ) (f : G → M) : avg (fun x => t • f x) = t • avg f := by
  simp only [avg, ← Finset.smul_sum]
  rw [smul_comm]

theorem avg_map {M N : Type*} [AddCommGroup M] [Module ℝ M] [AddCommGroup N] [Module ℝ N] (φ : M →ₗ[ℝ] N) (f : G → M) :
    φ (avg f) = avg fun x => φ (f x) := by
  simp [avg]

/-- `D` commutes with the ideal gates. -/
def Commutes (a : G →* R) (D : R) : Prop := ∀ g, a g * D = D * a g

theorem a_inv (a : G →* R) (g : G) : a g * a g⁻¹ = 1 ∧ a g⁻¹ * a g = 1 := by
  rw [← map_mul, ← map_mul]
  simp

theorem twirl_commutes (a : G →* R) (X : R) : Commutes a (twirl a X) := by
  intro h
  unfold twirl
  rw [← avg_mul_left, ← avg_mul_right, ← avg_equiv (Equiv.mulLeft h) fun g => a g * X * a g⁻¹ * a h]
  refine congrArg avg ?_
  funext g
  simp only [Equiv.coe_mulLeft, map_mul, mul_inv_rev, mul_assoc, (a_inv a h).2, mul_one]

theorem twirl_of_commutes (a : G →* R) {D : R} (hD : Commutes a D) : twirl a D = D := by
  unfold twirl
  simp only [hD _, mul_assoc, (a_inv a _).1, mul_one]
  exact avg_const D

theorem twirl_mul_right (a : G →* R) (X : R) {D : R} (hD : Commutes a D) : twirl a (X * D) = twirl a X * D := by
  unfold twirl
  rw [← avg_mul_right]
  refine congrArg avg ?_
  funext g
  rw [mul_assoc, mul_assoc, ← hD, ← mul_assoc, ← mul_assoc]

theorem twirl_mul_left (a : G →* R) (X : R) {D : R} (hD : Commutes a D) : twirl a (D * X) = D * twirl a X := by
  unfold twirl
  rw [← avg_mul_left]
  refine congrArg avg ?_
  funext g
  rw [← mul_assoc, hD, mul_assoc, mul_assoc, mul_assoc]

theorem twirl_inv (a : G →* R) (X : R) : avg (fun g => a g⁻¹ * X * a g) = twirl a X := by
  unfold twirl
  rw [← avg_equiv (Equiv.inv G)]
  simp

/-- **The decay of sequences**: if the operations split into `L a R` and a rest that averages out against the ideal gates,
the mean over all sequences that multiply to the identity is `L D ^ k R` up to the product of the rests. -/
theorem decay (a : G →* R) (C Δ : G → R) (L Rr D : R) (hC : ∀ g, C g = L * a g * Rr + Δ g)
    (h1 : avg (fun g => Δ g * L * a g⁻¹) = 0) (h2 : avg (fun g => a g⁻¹ * Rr * Δ g) = 0)
    (h3 : twirl a (Rr * L) = D) (k : ℕ) :
    (∀ j, seqMean C k j = ((Fintype.card G : ℝ)⁻¹) • (L * D ^ k * a j * Rr) + seqMean Δ k j) ∧
      ∑ j, a j⁻¹ * Rr * seqMean Δ k j = 0 := by
  have hD : Commutes a D := h3 ▸ twirl_commutes a _
  have hDk : ∀ k, Commutes a (D ^ k) := by
    intro k g
    exact (Commute.pow_right (hD g) k)
  have hN : (Fintype.card G : ℝ) ≠ 0 := by exact_mod_cast Fintype.card_ne_zero
  have hsum : ∀ f : G → R, ∑ g, f g = (Fintype.card G : ℝ) • avg f := by
    intro f
    simp only [avg, smul_smul, mul_inv_cancel₀ hN, one_smul]
  induction k with
  | zero =>
    constructor
    · intro j
      simp only [seqMean, hC, smul_add, pow_zero, mul_one]
    · simp only [seqMean, mul_smul_comm, ← Finset.smul_sum]
      exact h2
  | succ k ih =>
    obtain ⟨ih1, ih2⟩ := ih
    constructor
    · intro j
      have key : ∀ c, C c * seqMean C k (c⁻¹ * j) =
          ((Fintype.card G : ℝ)⁻¹) • (L * (a c * (Rr * L) * a c⁻¹) * (D ^ k * a j * Rr)) +
          ((Fintype.card G : ℝ)⁻¹) • (Δ c * L * a c⁻¹ * (D ^ k * a j * Rr)) +
          L * a j * (a (c⁻¹ * j)⁻¹ * Rr * seqMean Δ k (c⁻¹ * j)) + Δ c * seqMean Δ k (c⁻¹ * j) := by
        intro c
        have e1 : L * D ^ k * a (c⁻¹ * j) * Rr = L * a c⁻¹ * (D ^ k * a j * Rr) := by
          rw [map_mul, mul_assoc L, ← mul_assoc (D ^ k), ← hDk k, ]
          simp only [mul_assoc]
        have e2 : a j * a (c⁻¹ * j)⁻¹ = a c := by
          rw [← map_mul]
          simp
        have e3 : L * a j * (a (c⁻¹ * j)⁻¹ * Rr * seqMean Δ k (c⁻¹ * j)) = L * a c * Rr * seqMean Δ k (c⁻¹ * j) := by
          rw [← e2]
          simp only [mul_assoc]
        rw [ih1, hC, e3, e1, mul_add, mul_smul_comm, add_mul, smul_add, add_mul]
        simp only [mul_assoc]
        abel
      simp only [seqMean, key, avg_add, avg_smul, avg_mul_left, avg_mul_right]
      have t3 : avg (fun c => a (c⁻¹ * j)⁻¹ * Rr * seqMean Δ k (c⁻¹ * j)) = 0 := by
        refine (avg_equiv ((Equiv.inv G).trans (Equiv.mulRight j)) fun i => a i⁻¹ * Rr * seqMean Δ k i).trans ?_
        simp only [avg, ih2, smul_zero]
      have t1 : avg (fun c => a c * (Rr * L) * a c⁻¹) = D := h3
      rw [t3, h1, t1, zero_mul, smul_zero, add_zero, mul_zero, add_zero, pow_succ']
      simp only [mul_assoc]
    · rw [hsum]
      simp only [seqMean, ← avg_mul_left]
      rw [avg_comm]
      have : ∀ c : G, avg (fun j => a j⁻¹ * Rr * (Δ c * seqMean Δ k (c⁻¹ * j))) =
          avg fun i => a i⁻¹ * (a c⁻¹ * Rr * Δ c) * seqMean Δ k i := by
        intro c
        rw [← avg_equiv (Equiv.mulLeft c)]
        refine congrArg avg ?_
        funext i
        simp only [Equiv.coe_mulLeft, mul_inv_rev, map_mul, inv_mul_cancel_left, mul_assoc]
      simp only [this]
      rw [avg_comm]
      simp only [avg_mul_right, avg_mul_left, h2, mul_zero, zero_mul]
      simp [avg]

end algebra

section norms

variable {A : Type*} [NormedRing A] [NormedAlgebra ℝ A]

theorem avg_norm {M : Type*} [NormedAddCommGroup M] [NormedSpace ℝ M] (f : G → M) (b : ℝ) (h : ∀ g, ‖f g‖ ≤ b) :
    ‖avg f‖ ≤ b := by
  have hN : (0 : ℝ) < Fintype.card G := by exact_mod_cast Fintype.card_pos
  unfold avg
  rw [norm_smul, norm_inv, Real.norm_of_nonneg hN.le, inv_mul_le_iff₀ hN]
  refine (norm_sum_le _ _).trans ?_
  refine (Finset.sum_le_sum fun g _ => h g).trans ?_
  simp

/-- The rests of a sequence are small if each of them is. -/
theorem seqMean_norm (Δ : G → A) (δ : ℝ) (hδ : 0 ≤ δ) (h : ∀ g, ‖Δ g‖ ≤ δ) (k : ℕ) (j : G) :
    ‖seqMean Δ k j‖ ≤ (Fintype.card G : ℝ)⁻¹ * δ ^ (k + 1) := by
  have hN : (0 : ℝ) < Fintype.card G := by exact_mod_cast Fintype.card_pos
  induction k generalizing j with
  | zero =>
    simp only [seqMean]
    rw [norm_smul, norm_inv, Real.norm_of_nonneg hN.le, zero_add, pow_one]
    exact mul_le_mul_of_nonneg_left (h j) (by positivity)
  | succ k ih =>
    simp only [seqMean]
    refine avg_norm _ _ fun c => ?_
    refine (norm_mul_le _ _).trans ?_
    calc ‖Δ c‖ * ‖seqMean Δ k (c⁻¹ * j)‖ ≤ δ * ((Fintype.card G : ℝ)⁻¹ * δ ^ (k + 1)) :=
          mul_le_mul (h c) (ih _) (norm_nonneg _) hδ
      _ = _ := by ring

variable [CompleteSpace A] [NormOneClass A]

/-- A small perturbation `X = 1 + N X - b (X, F X)` of the identity. -/
theorem fixed_point (N F : A →ₗ[ℝ] A) (b : A →ₗ[ℝ] A →ₗ[ℝ] A) (ε : ℝ) (hε0 : 0 ≤ ε) (hε : ε ≤ 1 / 6)
    (hN : ∀ X, ‖N X‖ ≤ ε * ‖X‖) (hF : ∀ X, ‖F X‖ ≤ ε * ‖X‖) (hb : ∀ X Y, ‖b X Y‖ ≤ ‖X‖ * ‖Y‖) :
    ∃ X, X = 1 + N X - b X (F X) ∧ ‖X - 1‖ ≤ 6 * ε := by
  let f : A → A := fun X => 1 + N X - b X (F X)
  have hball : ∀ X : A, ‖X - 1‖ ≤ 1 → ‖X‖ ≤ 2 := by
    intro X hX
    calc ‖X‖ = ‖(X - 1) + 1‖ := by simp
      _ ≤ ‖X - 1‖ + ‖(1 : A)‖ := norm_add_le _ _
      _ ≤ 2 := by rw [norm_one]; linarith
  have hstep : ∀ X : A, ‖X - 1‖ ≤ 1 → ‖f X - 1‖ ≤ 6 * ε := by
    intro X hX
    have h2 := hball X hX
    have e : f X - 1 = N X - b X (F X) := by simp [f]; abel
    rw [e]
    refine (norm_sub_le _ _).trans ?_
    have h3 := hN X
    have h4 := (hb X (F X)).trans (mul_le_mul_of_nonneg_left (hF X) (norm_nonneg _))
    nlinarith [norm_nonneg X, mul_le_mul_of_nonneg_left h2 hε0, mul_le_mul h2 h2 (norm_nonneg _) (by norm_num)]
  have hlip : ∀ X Y : A, ‖X - 1‖ ≤ 1 → ‖Y - 1‖ ≤ 1 → ‖f X - f Y‖ ≤ 5 * ε * ‖X - Y‖ := by
    intro X Y hX hY
    have e : f X - f Y = N (X - Y) - (b (X - Y) (F X) + b Y (F (X - Y))) := by
      simp only [f, map_sub, LinearMap.sub_apply]
      abel
    rw [e]
    refine (norm_sub_le _ _).trans ?_
    have h1 := hN (X - Y)
    have h2 := (hb (X - Y) (F X)).trans (mul_le_mul_of_nonneg_left (hF X) (norm_nonneg _))
    have h3 := (hb Y (F (X - Y))).trans (mul_le_mul_of_nonneg_left (hF (X - Y)) (norm_nonneg _))
    have h4 := norm_add_le (b (X - Y) (F X)) (b Y (F (X - Y)))
    have hx := hball X hX
    have hy := hball Y hY
    have hd := norm_nonneg (X - Y)
    have p1 : ‖X - Y‖ * (ε * ‖X‖) ≤ ‖X - Y‖ * (ε * 2) := by gcongr
    have p2 : ‖Y‖ * (ε * ‖X - Y‖) ≤ 2 * (ε * ‖X - Y‖) := by gcongr
    linarith
  let s : Set A := Metric.closedBall 1 1
  have hs : ∀ X, X ∈ s ↔ ‖X - 1‖ ≤ 1 := by
    intro X
    rw [Metric.mem_closedBall, dist_eq_norm]
  have hmaps : Set.MapsTo f s s := by
    intro X hX
    rw [hs] at hX ⊢
    have := hstep X hX
    linarith
  have hcontr : ContractingWith (5 / 6) (hmaps.restrict f s s) := by
    refine ⟨?_, ?_⟩
    · rw [← NNReal.coe_lt_coe]
      norm_num
    · refine LipschitzWith.of_dist_le_mul ?_
      rintro ⟨X, hX⟩ ⟨Y, hY⟩
      rw [hs] at hX hY
      change dist (f X) (f Y) ≤ _
      rw [dist_eq_norm]
      change _ ≤ ((5 / 6 : NNReal) : ℝ) * dist X Y
      rw [dist_eq_norm]
      refine (hlip X Y hX hY).trans ?_
      have : ((5 / 6 : NNReal) : ℝ) = 5 / 6 := by norm_num
      rw [this]
      exact mul_le_mul_of_nonneg_right (by linarith) (norm_nonneg _)
  obtain ⟨X, hX, hfix, -⟩ := hcontr.exists_fixedPoint' (Metric.isClosed_closedBall.isComplete) hmaps (x := 1)
    (by rw [hs]; simp) (edist_ne_top _ _)
  rw [hs] at hX
  refine ⟨X, hfix.symm, ?_⟩
  have := hstep X hX
  rwa [hfix] at this

/-- `X ↦` mean of `P X Q`. -/
noncomputable def sandwich (P Q : G → A) : A →ₗ[ℝ] A where
  toFun X := avg fun g => P g * X * Q g
  map_add' X Y := by simp only [mul_add, add_mul, avg_add]
  map_smul' t X := by simp only [mul_smul_comm, smul_mul_assoc, avg_smul, RingHom.id_apply]

theorem sandwich_norm (P Q : G → A) (p q : ℝ) (hp : ∀ g, ‖P g‖ ≤ p) (hq : ∀ g, ‖Q g‖ ≤ q) (X : A) :
    ‖sandwich P Q X‖ ≤ p * q * ‖X‖ := by
  have hp0 : 0 ≤ p := (norm_nonneg _).trans (hp 1)
  refine avg_norm _ _ fun g => ?_
  calc ‖P g * X * Q g‖ ≤ ‖P g * X‖ * ‖Q g‖ := norm_mul_le _ _
    _ ≤ (‖P g‖ * ‖X‖) * ‖Q g‖ := by gcongr; exact norm_mul_le _ _
    _ ≤ (p * ‖X‖) * q := by
        gcongr
        · exact hp g
        · exact hq g
    _ = p * q * ‖X‖ := by ring

theorem twirl_cyclic (a : G →* A) (X : A) (h : G) : twirl a (a h * X) = twirl a (X * a h) := by
  unfold twirl
  rw [← avg_equiv (Equiv.mulRight h) fun g => a g * (X * a h) * a g⁻¹]
  refine congrArg avg ?_
  funext g
  have : a h * a (g * h)⁻¹ = a g⁻¹ := by
    rw [← map_mul]
    simp
  simp only [Equiv.coe_mulRight]
  rw [mul_assoc (a (g * h)), mul_assoc X, this, map_mul]
  simp only [mul_assoc]

theorem norm_mul_sub_one (X Y : A) (x y : ℝ) (hx : ‖X - 1‖ ≤ x) (hy : ‖Y - 1‖ ≤ y) : ‖X * Y - 1‖ ≤ x + y + x * y := by
  have e : X * Y - 1 = (X - 1) + (Y - 1) + (X - 1) * (Y - 1) := by noncomm_ring
  rw [e]
  have hx0 := (norm_nonneg _).trans hx
  calc ‖(X - 1) + (Y - 1) + (X - 1) * (Y - 1)‖ ≤ ‖X - 1‖ + ‖Y - 1‖ + ‖X - 1‖ * ‖Y - 1‖ :=
        (norm_add_le _ _).trans (add_le_add (norm_add_le _ _) (norm_mul_le _ _))
    _ ≤ x + y + x * y := by gcongr

/-- **Gates close to the ideal ones**: the mean over all sequences that multiply to the identity decays with one operator
`D` that commutes with the ideal gates, up to a rest that falls like a power of the error. -/
theorem near_ideal (a : G →* A) (ha : ∀ g, ‖a g‖ ≤ 1) (C : G → A) (ε : ℝ) (hε : ε ≤ 1 / 50)
    (hC : ∀ g, ‖C g - a g‖ ≤ ε)
    (hcomm : ∀ D D', Commutes a D → Commutes a D' → D * D' = D' * D) :
    ∃ L Rr D, Commutes a D ∧ avg (fun g => C g * L * a g⁻¹) = L * D ∧ ‖L - 1‖ ≤ 6 * ε ∧ ‖Rr - 1‖ ≤ 27 * ε ∧
      ‖D - 1‖ ≤ 2 * ε ∧ ∀ k, ‖(Fintype.card G : ℝ) • seqMean C k 1 - L * D ^ k * Rr‖ ≤ (38 * ε) ^ (k + 1) := by
  have hε0 : 0 ≤ ε := (norm_nonneg _).trans (hC 1)
  have hN0 : (Fintype.card G : ℝ) ≠ 0 := by exact_mod_cast Fintype.card_ne_zero
  let ai : G → A := fun g => a g⁻¹
  have hai : ∀ g, ‖ai g‖ ≤ 1 := fun g => ha _
  let E : A →ₗ[ℝ] A := sandwich (fun g => a g) ai
  have hE : ∀ X, E X = twirl a X := fun X => rfl
  have hEn : ∀ X, ‖E X‖ ≤ ‖X‖ := by
    intro X
    have := sandwich_norm (fun g => a g) ai 1 1 ha hai X
    rwa [one_mul, one_mul] at this
  have hE1 : twirl a (1 : A) = 1 := twirl_of_commutes a fun g => by rw [mul_one, one_mul]
  -- the left vector
  let N : A →ₗ[ℝ] A := sandwich (fun g => C g - a g) ai
  have hNn : ∀ X, ‖N X‖ ≤ ε * ‖X‖ := by
    intro X
    have := sandwich_norm (fun g => C g - a g) ai ε 1 hC hai X
    rwa [mul_one] at this
  obtain ⟨L, hL, hLn⟩ := fixed_point N (E ∘ₗ N) (LinearMap.mul ℝ A) ε hε0 (by linarith) hNn
    (fun X => (hEn _).trans (hNn X)) (fun X Y => norm_mul_le X Y)
  have hLn' : ‖L‖ ≤ 1.12 := by
    calc ‖L‖ = ‖(L - 1) + 1‖ := by simp
      _ ≤ ‖L - 1‖ + ‖(1 : A)‖ := norm_add_le _ _
      _ ≤ 1.12 := by rw [norm_one]; linarith
  simp only [LinearMap.mul_apply', LinearMap.comp_apply, hE] at hL
  set K : A := twirl a (N L) with hK
  have hKc : Commutes a K := twirl_commutes a _
  have hKn : ‖K‖ ≤ 1.12 * ε := by
    refine (hEn (N L)).trans ((hNn L).trans ?_)
    nlinarith
  have hunit : IsUnit (1 + K) := by
    have := isUnit_one_sub_of_norm_lt_one (x := -K) (by rw [norm_neg]; linarith)
    rwa [sub_neg_eq_add] at this
  have hEL : twirl a L = 1 := by
    have h1 : twirl a L = 1 + K - twirl a L * K := by
      conv_lhs => rw [hL]
      rw [← hE, map_sub, map_add, hE, hE, hE, hE1, twirl_mul_right a L hKc]
    have h2 : (twirl a L - 1) * (1 + K) = 0 := by
      rw [sub_mul, mul_add, mul_one, one_mul]
      nth_rewrite 1 [h1]
      abel
    have := hunit.mul_left_eq_zero.1 h2
    exact sub_eq_zero.1 this
  set D : A := 1 + K with hD
  have hDc : Commutes a D := fun g => by rw [hD, mul_add, add_mul, mul_one, one_mul, hKc g]
  have hDn : ‖D - 1‖ ≤ 1.12 * ε := by rw [hD, add_sub_cancel_left]; exact hKn
  have hTL : avg (fun g => C g * L * a g⁻¹) = L * D := by
    have h1 : avg (fun g => C g * L * a g⁻¹) = N L + twirl a L := by
      have : (fun g => C g * L * a g⁻¹) = fun g => (C g - a g) * L * a g⁻¹ + a g * L * a g⁻¹ := by
        funext g
        rw [sub_mul, sub_mul, sub_add_cancel]
      rw [this, avg_add]
      rfl
    have h2 : L + L * K = 1 + N L := by
      nth_rewrite 1 [hL]
      abel
    rw [h1, hEL, hD, mul_add, mul_one, h2, add_comm]
  -- the right vector
  let N' : A →ₗ[ℝ] A := sandwich ai (fun g => C g - a g)
  have hNn' : ∀ X, ‖N' X‖ ≤ ε * ‖X‖ := by
    intro X
    have := sandwich_norm ai (fun g => C g - a g) 1 ε hai hC X
    rwa [one_mul] at this
  obtain ⟨R0, hR, hRn⟩ := fixed_point N' (E ∘ₗ N') (LinearMap.mul ℝ A).flip ε hε0 (by linarith) hNn'
    (fun X => (hEn _).trans (hNn' X)) (fun X Y => by
      rw [LinearMap.flip_apply, LinearMap.mul_apply', mul_comm ‖X‖]
      exact norm_mul_le Y X)
  have hRn' : ‖R0‖ ≤ 1.12 := by
    calc ‖R0‖ = ‖(R0 - 1) + 1‖ := by simp
      _ ≤ ‖R0 - 1‖ + ‖(1 : A)‖ := norm_add_le _ _
      _ ≤ 1.12 := by rw [norm_one]; linarith
  simp only [LinearMap.flip_apply, LinearMap.mul_apply', LinearMap.comp_apply, hE] at hR
  set K' : A := twirl a (N' R0) with hK'
  have hKc' : Commutes a K' := twirl_commutes a _
  have hKn' : ‖K'‖ ≤ 1.12 * ε := by
    refine (hEn (N' R0)).trans ((hNn' R0).trans ?_)
    nlinarith
  have hunit' : IsUnit (1 + K') := by
    have := isUnit_one_sub_of_norm_lt_one (x := -K') (by rw [norm_neg]; linarith)
    rwa [sub_neg_eq_add] at this
  have hER : twirl a R0 = 1 := by
    have h1 : twirl a R0 = 1 + K' - K' * twirl a R0 := by
      conv_lhs => rw [hR]
      rw [← hE, map_sub, map_add, hE, hE, hE, hE1, twirl_mul_left a R0 hKc']
    have h2 : (1 + K') * (twirl a R0 - 1) = 0 := by
      rw [mul_sub, add_mul, mul_one, one_mul]
      nth_rewrite 1 [h1]
      abel
    have := hunit'.mul_right_eq_zero.1 h2
    exact sub_eq_zero.1 this
  set D' : A := 1 + K' with hD'
  have hDc' : Commutes a D' := fun g => by rw [hD', mul_add, add_mul, mul_one, one_mul, hKc' g]
  have hTR : avg (fun g => a g⁻¹ * R0 * C g) = D' * R0 := by
    have h1 : avg (fun g => a g⁻¹ * R0 * C g) = N' R0 + twirl a R0 := by
      have : (fun g => a g⁻¹ * R0 * C g) = fun g => a g⁻¹ * R0 * (C g - a g) + a g⁻¹ * R0 * a g := by
        funext g
        rw [mul_sub, sub_add_cancel]
      rw [this, avg_add, twirl_inv]
      rfl
    have h2 : R0 + K' * R0 = 1 + N' R0 := by
      nth_rewrite 1 [hR]
      abel
    rw [h1, hER, hD', add_mul, one_mul, h2, add_comm]
  -- both belong to the same operator
  set S : A := twirl a (R0 * L) with hS
  have hSc : Commutes a S := twirl_commutes a _
  have hSn : ‖S - 1‖ ≤ 12.72 * ε := by
    have h1 : S - 1 = E (R0 * L - 1) := by rw [map_sub, hE, hE, hE1]
    rw [h1]
    refine (hEn _).trans ((norm_mul_sub_one R0 L _ _ hRn hLn).trans ?_)
    nlinarith
  have hSD : S * D = D' * S := by
    rw [hS, ← twirl_mul_right a _ hDc, ← twirl_mul_left a _ hDc', mul_assoc, ← hTL, ← mul_assoc, ← hTR,
      ← avg_mul_left, ← avg_mul_right, ← hE, ← hE, avg_map, avg_map]
    refine congrArg avg ?_
    funext g
    rw [hE, hE, ← mul_assoc, ← twirl_cyclic]
    simp only [mul_assoc]
  have hSu : IsUnit S := by
    have := isUnit_one_sub_of_norm_lt_one (x := 1 - S) (by rw [← norm_neg, neg_sub]; linarith)
    rwa [sub_sub_cancel] at this
  obtain ⟨u, hu⟩ := hSu
  have hDD : D = D' := by
    have h1 : S * (D - D') = 0 := by rw [mul_sub, hSD, hcomm D' S hDc' hSc, sub_self]
    rw [← hu] at h1
    exact sub_eq_zero.1 ((Units.mul_right_eq_zero u).1 h1)
  set Si : A := ((u⁻¹ : Aˣ) : A) with hSi
  have hSiS : Si * S = 1 := by rw [hSi, ← hu]; exact u.inv_mul
  have hSSi : S * Si = 1 := by rw [hSi, ← hu]; exact u.mul_inv
  have hSic : Commutes a Si := by
    intro g
    calc a g * Si = Si * S * (a g * Si) := by rw [hSiS, one_mul]
      _ = Si * (S * a g) * Si := by simp only [mul_assoc]
      _ = Si * (a g * S) * Si := by rw [hSc g]
      _ = Si * a g * (S * Si) := by simp only [mul_assoc]
      _ = Si * a g := by rw [hSSi, mul_one]
  have hSin : ‖Si - 1‖ ≤ 17.1 * ε := by
    have h1 : Si - 1 = Si * (1 - S) := by rw [mul_sub, mul_one, hSiS]
    have h2 : ‖1 - S‖ ≤ 12.72 * ε := by rw [← norm_neg, neg_sub]; exact hSn
    have h3 : ‖Si‖ ≤ ‖Si‖ * (12.72 * ε) + 1 := by
      calc ‖Si‖ = ‖(Si - 1) + 1‖ := by simp
        _ ≤ ‖Si - 1‖ + ‖(1 : A)‖ := norm_add_le _ _
        _ ≤ ‖Si‖ * (12.72 * ε) + 1 := by
          rw [norm_one, h1]
          gcongr
          exact (norm_mul_le _ _).trans (mul_le_mul_of_nonneg_left h2 (norm_nonneg _))
    have h4 : ‖Si‖ ≤ 1.3413 := by
      have : ‖Si‖ * (12.72 * ε) ≤ ‖Si‖ * 0.2544 := mul_le_mul_of_nonneg_left (by linarith) (norm_nonneg _)
      linarith
    rw [h1]
    calc ‖Si * (1 - S)‖ ≤ ‖Si‖ * ‖1 - S‖ := norm_mul_le _ _
      _ ≤ 1.3413 * (12.72 * ε) := mul_le_mul h4 h2 (norm_nonneg _) (by norm_num)
      _ ≤ 17.1 * ε := by linarith
  set Q : A := D * Si with hQ
  have hQc : Commutes a Q := fun g => by rw [hQ, ← mul_assoc, hDc g, mul_assoc, hSic g, mul_assoc]
  have hQn : ‖Q - 1‖ ≤ 18.7 * ε := by
    refine (norm_mul_sub_one D Si _ _ hDn hSin).trans ?_
    nlinarith
  have hRrn : ‖Q * R0 - 1‖ ≤ 27 * ε := by
    refine (norm_mul_sub_one Q R0 _ _ hQn hRn).trans ?_
    nlinarith
  have h3 : twirl a (Q * R0 * L) = D := by
    rw [mul_assoc, twirl_mul_left a _ hQc, ← hS, hQ, mul_assoc, hSiS, mul_one]
  have hTR' : avg (fun g => a g⁻¹ * (Q * R0) * C g) = D * (Q * R0) := by
    have : (fun g => a g⁻¹ * (Q * R0) * C g) = fun g => Q * (a g⁻¹ * R0 * C g) := by
      funext g
      rw [← mul_assoc, hQc]
      simp only [mul_assoc]
    rw [this, avg_mul_left, hTR, ← hDD, ← mul_assoc, ← mul_assoc, hcomm D Q hDc hQc]
  let Δ : G → A := fun g => C g - L * a g * (Q * R0)
  have hneg : ∀ f f' : G → A, avg (fun g => f g - f' g) = avg f - avg f' := by
    intro f f'
    simp [avg, smul_sub]
  have d1 : avg (fun g => Δ g * L * a g⁻¹) = 0 := by
    have : (fun g => Δ g * L * a g⁻¹) = fun g => C g * L * a g⁻¹ - L * (a g * (Q * R0 * L) * a g⁻¹) := by
      funext g
      simp only [Δ, sub_mul, mul_assoc]
    rw [this, hneg, hTL, avg_mul_left]
    change L * D - L * twirl a (Q * R0 * L) = 0
    rw [h3, sub_self]
  have d2 : avg (fun g => a g⁻¹ * (Q * R0) * Δ g) = 0 := by
    have : (fun g => a g⁻¹ * (Q * R0) * Δ g) = fun g => a g⁻¹ * (Q * R0) * C g -
        (a g⁻¹ * (Q * R0 * L) * a g) * (Q * R0) := by
      funext g
      simp only [Δ, mul_sub, mul_assoc]
    rw [this, hneg, hTR', avg_mul_right, twirl_inv, h3, sub_self]
  have hΔn : ∀ g, ‖Δ g‖ ≤ 38 * ε := by
    intro g
    have e : Δ g = (C g - a g) - ((L - 1) * a g * (Q * R0) + a g * (Q * R0 - 1)) := by
      simp only [Δ]
      noncomm_ring
    have hRr : ‖Q * R0‖ ≤ 1.54 := by
      calc ‖Q * R0‖ = ‖(Q * R0 - 1) + 1‖ := by simp
        _ ≤ ‖Q * R0 - 1‖ + ‖(1 : A)‖ := norm_add_le _ _
        _ ≤ 1.54 := by rw [norm_one]; linarith
    have n1 : ‖(L - 1) * a g * (Q * R0)‖ ≤ 6 * ε * 1 * 1.54 := by
      refine (norm_mul_le _ _).trans ?_
      refine mul_le_mul ((norm_mul_le _ _).trans ?_) hRr (norm_nonneg _) (by linarith)
      exact mul_le_mul hLn (ha g) (norm_nonneg _) (by linarith)
    have n2 : ‖a g * (Q * R0 - 1)‖ ≤ 1 * (27 * ε) :=
      (norm_mul_le _ _).trans (mul_le_mul (ha g) hRrn (norm_nonneg _) (by norm_num))
    rw [e]
    refine (norm_sub_le _ _).trans ?_
    have := norm_add_le ((L - 1) * a g * (Q * R0)) (a g * (Q * R0 - 1))
    have := hC g
    linarith
  refine ⟨L, Q * R0, D, hDc, hTL, hLn, hRrn, by linarith, fun k => ?_⟩
  have hdec := (decay a C Δ L (Q * R0) D (fun g => by simp [Δ]) d1 d2 h3 k).1 1
  rw [hdec, smul_add, smul_smul, mul_inv_cancel₀ hN0, one_smul, map_one, mul_one, add_sub_cancel_left, norm_smul,
    Real.norm_of_nonneg (Nat.cast_nonneg _)]
  have hb := seqMean_norm Δ (38 * ε) (by linarith) hΔn k 1
  calc (Fintype.card G : ℝ) * ‖seqMean Δ k 1‖ ≤ (Fintype.card G : ℝ) * ((Fintype.card G : ℝ)⁻¹ * (38 * ε) ^ (k + 1)) :=
        mul_le_mul_of_nonneg_left hb (Nat.cast_nonneg _)
    _ = (38 * ε) ^ (k + 1) := by rw [← mul_assoc, mul_inv_cancel₀ hN0, one_mul]

theorem twirl_add (a : G →* A) (X Y : A) : twirl a (X + Y) = twirl a X + twirl a Y := by
  unfold twirl
  rw [← avg_add]
  refine congrArg avg ?_
  funext g
  rw [mul_add, add_mul]

theorem twirl_sub (a : G →* A) (X Y : A) : twirl a (X - Y) = twirl a X - twirl a Y := by
  rw [eq_sub_iff_add_eq, ← twirl_add, sub_add_cancel]

theorem twirl_one (a : G →* A) : twirl a 1 = 1 := twirl_of_commutes a fun g => by rw [mul_one, one_mul]

theorem twirl_norm (a : G →* A) (ha : ∀ g, ‖a g‖ ≤ 1) (X : A) : ‖twirl a X‖ ≤ ‖X‖ := by
  refine avg_norm _ _ fun g => ?_
  calc ‖a g * X * a g⁻¹‖ ≤ ‖a g * X‖ * ‖a g⁻¹‖ := norm_mul_le _ _
    _ ≤ (1 * ‖X‖) * 1 := by
      gcongr
      · exact (norm_mul_le _ _).trans (mul_le_mul_of_nonneg_right (ha g) (norm_nonneg X))
      · exact ha _
    _ = ‖X‖ := by ring

/-- To first order the decay is the twirled mean error. -/
theorem first_order (a : G →* A) (ha : ∀ g, ‖a g‖ ≤ 1) (C : G → A) (ε : ℝ) (hC : ∀ g, ‖C g - a g‖ ≤ ε) (L D : A)
    (hD : Commutes a D) (hLD : avg (fun g => C g * L * a g⁻¹) = L * D) (hL : ‖L - 1‖ ≤ 6 * ε) (hD1 : ‖D - 1‖ ≤ 2 * ε) :
    ‖D - twirl a (chan a C)‖ ≤ 18 * ε ^ 2 := by
  have hε0 : 0 ≤ ε := (norm_nonneg _).trans (hC 1)
  have hM : ‖avg fun g => (C g - a g) * (L - 1) * a g⁻¹‖ ≤ 6 * ε ^ 2 := by
    refine avg_norm _ _ fun c => ?_
    calc ‖(C c - a c) * (L - 1) * a c⁻¹‖ ≤ ‖(C c - a c) * (L - 1)‖ * ‖a c⁻¹‖ := norm_mul_le _ _
      _ ≤ (‖C c - a c‖ * ‖L - 1‖) * 1 := by
        gcongr
        · exact norm_mul_le _ _
        · exact ha _
      _ ≤ (ε * (6 * ε)) * 1 := by
        gcongr
        exact hC c
      _ = 6 * ε ^ 2 := by ring
  set M := avg fun g => (C g - a g) * (L - 1) * a g⁻¹ with hMdef
  set N := chan a C with hNdef
  have hs : L * D + 1 = twirl a L + N + M := by
    rw [← hLD, ← avg_const (G := G) (1 : A), hMdef, hNdef]
    unfold twirl chan
    rw [← avg_add, ← avg_add, ← avg_add]
    refine congrArg avg ?_
    funext c
    rw [show (C c - a c) * (L - 1) * a c⁻¹ = C c * L * a c⁻¹ - a c * L * a c⁻¹ - C c * a c⁻¹ + a c * a c⁻¹ by noncomm_ring,
      (a_inv a c).1]
    abel
  have htw : twirl a L * D + 1 = twirl a L + twirl a N + twirl a M := by
    have h := congrArg (twirl a) hs
    rw [twirl_add, twirl_add, twirl_add, twirl_mul_right a L hD, twirl_one,
      twirl_of_commutes a (twirl_commutes a L)] at h
    exact h
  have he : D - twirl a N = twirl a M - twirl a (L - 1) * (D - 1) := by
    rw [twirl_sub, twirl_one]
    have : twirl a M = twirl a L * D + 1 - twirl a L - twirl a N := by rw [htw]; abel
    rw [this]
    noncomm_ring
  rw [he]
  calc _ ≤ ‖twirl a M‖ + ‖twirl a (L - 1) * (D - 1)‖ := norm_sub_le _ _
    _ ≤ 6 * ε ^ 2 + (6 * ε) * (2 * ε) := by
      gcongr
      · exact (twirl_norm a ha M).trans hM
      · refine (norm_mul_le _ _).trans ?_
        gcongr
        exact (twirl_norm a ha _).trans hL
    _ = 18 * ε ^ 2 := by ring

/-- `near_ideal` with the value of the decay. -/
theorem near_ideal_value (a : G →* A) (ha : ∀ g, ‖a g‖ ≤ 1) (C : G → A) (ε : ℝ) (hε : ε ≤ 1 / 50)
    (hC : ∀ g, ‖C g - a g‖ ≤ ε)
    (hcomm : ∀ D D', Commutes a D → Commutes a D' → D * D' = D' * D) :
    ∃ L Rr D, Commutes a D ∧ avg (fun g => C g * L * a g⁻¹) = L * D ∧ ‖L - 1‖ ≤ 6 * ε ∧ ‖Rr - 1‖ ≤ 27 * ε ∧
      ‖D - 1‖ ≤ 2 * ε ∧ ‖D - twirl a (chan a C)‖ ≤ 18 * ε ^ 2 ∧
      ∀ k, ‖(Fintype.card G : ℝ) • seqMean C k 1 - L * D ^ k * Rr‖ ≤ (38 * ε) ^ (k + 1) := by
  obtain ⟨L, Rr, D, h1, h2, h3, h4, h5, h6⟩ := near_ideal a ha C ε hε hC hcomm
  exact ⟨L, Rr, D, h1, h2, h3, h4, h5, first_order a ha C ε hC L D h1 h2 h3 h5, h6⟩

end norms

end C3.Fidelity.Twirl
