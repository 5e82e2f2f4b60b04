import Verif.Experiment.Circuits
import Verif.Fidelity.Sensitive
import Mathlib.Analysis.ODE.Gronwall
import Mathlib.Analysis.CStarAlgebra.Spectrum

/-!
# C225: weak decoherence changes gates and populations little

The gates of an open system (`pwc` with collapse operators, c3/libraries/propagation.py:259-341, 545-581, with the frame
rotation of c3/experiment.py:482-509) are compared with those of the closed system with the same Hamiltonians, as `tf_super`
(c3/utils/tf_utils.py) makes operators on density vectors of them. The models are those of C24, C26, C65 and C151.
-/

set_option linter.unusedSectionVars false

noncomputable section

namespace C3.Experiment.WeakNoise

open Set Matrix NormedSpace C3.Propagation C3.Hilbert C3.Gates C3.Fidelity C3.Experiment C3.Experiment.Compute
  C3.Experiment.EndToEnd C3.Experiment.Circuits
open scoped Matrix.Norms.L2Operator Kronecker

variable {n : Type} [Fintype n] [DecidableEq n]

/-! ## Specification -/

/-- The strength of the decoherence: twice the sum of the squares of the norms of the collapse operators. -/
def strength (cols : List (Matrix n n ℂ)) : ℝ := 2 * (cols.map fun L => ‖L‖ ^ 2).sum

/-! ## Lemmas -/

/-- Operators on the rows of a density matrix. -/
def spreHom (n : Type) [Fintype n] [DecidableEq n] : Matrix n n ℂ →⋆ₐ[ℂ] Matrix (n × n) (n × n) ℂ where
  toFun A := A ⊗ₖ 1
  map_one' := one_kronecker_one
  map_mul' A B := by rw [← mul_kronecker_mul, mul_one]
  map_zero' := zero_kronecker _
  map_add' A B := add_kronecker _ _ _
  commutes' r := by
    rw [Algebra.algebraMap_eq_smul_one, Algebra.algebraMap_eq_smul_one, smul_kronecker, one_kronecker_one]
  map_star' A := by
    rw [star_eq_conjTranspose, star_eq_conjTranspose, conjTranspose_kronecker, conjTranspose_one]

/-- Operators on the columns of a density matrix. -/
def scolHom (n : Type) [Fintype n] [DecidableEq n] : Matrix n n ℂ →⋆ₐ[ℂ] Matrix (n × n) (n × n) ℂ where
  toFun A := 1 ⊗ₖ A
  map_one' := one_kronecker_one
  map_mul' A B := by rw [← mul_kronecker_mul, mul_one]
  map_zero' := kronecker_zero _
  map_add' A B := kronecker_add _ _ _
  commutes' r := by
    rw [Algebra.algebraMap_eq_smul_one, Algebra.algebraMap_eq_smul_one, kronecker_smul, one_kronecker_one]
  map_star' A := by
    rw [star_eq_conjTranspose, star_eq_conjTranspose, conjTranspose_kronecker, conjTranspose_one]

theorem norm_spre (A : Matrix n n ℂ) : ‖spre A‖ ≤ ‖A‖ := NonUnitalStarAlgHom.norm_apply_le (spreHom n) A

theorem len_mulVec (A : Matrix n n ℂ) (v : n → ℂ) : len (A *ᵥ v) ≤ ‖A‖ * len v :=
  l2_opNorm_mulVec A (WithLp.toLp 2 v)

theorem norm_le_of_len (A : Matrix n n ℂ) (C : ℝ) (hC : 0 ≤ C) (h : ∀ v : n → ℂ, len (A *ᵥ v) ≤ C * len v) : ‖A‖ ≤ C := by
  rw [l2_opNorm_def]
  exact ContinuousLinearMap.opNorm_le_bound _ hC fun v => h v.ofLp

theorem len_star (v : n → ℂ) : len (star v) = len v := by
  have h : len (star v) ^ 2 = len v ^ 2 := by
    rw [len_sq, len_sq]
    exact Finset.sum_congr rfl fun i _ => by rw [Pi.star_apply, norm_star]
  exact (pow_left_inj₀ (len_nonneg _) (len_nonneg _) two_ne_zero).1 h

theorem norm_transpose_le (A : Matrix n n ℂ) : ‖Aᵀ‖ ≤ ‖A‖ := by
  refine norm_le_of_len _ _ (norm_nonneg _) fun v => ?_
  have h : Aᵀ *ᵥ v = star (Aᴴ *ᵥ star v) := by
    rw [star_mulVec, star_star, conjTranspose_conjTranspose, mulVec_transpose]
  rw [h, len_star, ← l2_opNorm_conjTranspose A, ← len_star v]
  exact len_mulVec _ _

theorem norm_spost (A : Matrix n n ℂ) : ‖spost A‖ ≤ ‖A‖ :=
  (NonUnitalStarAlgHom.norm_apply_le (scolHom n) Aᵀ).trans (norm_transpose_le A)

/-- The part of the generator that collapse operators add. -/
def noise (cols : List (Matrix n n ℂ)) : Matrix (n × n) (n × n) ℂ :=
  (cols.map fun L => spre L * spost Lᴴ - (1 / 2 : ℂ) • (spre Lᴴ * spre L) - (1 / 2 : ℂ) • (spost L * spost Lᴴ)).sum

theorem lindOp_split (h : Matrix n n ℂ) (cols : List (Matrix n n ℂ)) :
    lindOp h cols = (-Complex.I) • (spre h - spost h) + noise cols := by
  have key : ∀ (op : Matrix (n × n) (n × n) ℂ) (cols : List (Matrix n n ℂ)),
      cols.foldl (fun op L => op + spre L * spost Lᴴ - (1 / 2 : ℂ) • (spre Lᴴ * spre L)
        - (1 / 2 : ℂ) • (spost L * spost Lᴴ)) op = op + noise cols := by
    intro op cols
    unfold noise
    induction cols generalizing op with
    | nil => simp
    | cons L ls ih =>
      rw [List.foldl_cons, ih, List.map_cons, List.sum_cons]
      abel
  exact key _ _

theorem norm_term (L : Matrix n n ℂ) :
    ‖spre L * spost Lᴴ - (1 / 2 : ℂ) • (spre Lᴴ * spre L) - (1 / 2 : ℂ) • (spost L * spost Lᴴ)‖ ≤ 2 * ‖L‖ ^ 2 := by
  have hs : ‖Lᴴ‖ = ‖L‖ := l2_opNorm_conjTranspose L
  have h1 : ∀ A B : Matrix (n × n) (n × n) ℂ, ‖A‖ ≤ ‖L‖ → ‖B‖ ≤ ‖L‖ → ‖A * B‖ ≤ ‖L‖ ^ 2 := by
    intro A B hA hB
    rw [sq]
    exact (norm_mul_le _ _).trans (mul_le_mul hA hB (norm_nonneg _) (norm_nonneg _))
  have h2 := h1 _ _ (norm_spre L) ((norm_spost Lᴴ).trans hs.le)
  have h3 := h1 _ _ ((norm_spre Lᴴ).trans hs.le) (norm_spre L)
  have h4 := h1 _ _ (norm_spost L) ((norm_spost Lᴴ).trans hs.le)
  have hh : ‖(1 / 2 : ℂ)‖ = 1 / 2 := by norm_num
  refine (norm_sub_le _ _).trans ?_
  refine (add_le_add (norm_sub_le _ _) le_rfl).trans ?_
  rw [norm_smul, norm_smul, hh]
  linarith

theorem norm_noise (cols : List (Matrix n n ℂ)) : ‖noise cols‖ ≤ strength cols := by
  unfold noise strength
  induction cols with
  | nil => simp
  | cons L ls ih =>
    rw [List.map_cons, List.sum_cons, List.map_cons, List.sum_cons, mul_add]
    exact (norm_add_le _ _).trans (add_le_add (norm_term L) ih)

theorem spre_exp (A : Matrix n n ℂ) : spre (exp A) = exp (spre A) :=
  map_exp_of_mem_ball (𝕂 := ℂ) (spreHom n)
    (AddMonoidHomClass.continuous_of_bound (spreHom n) 1 fun A => by rw [one_mul]; exact norm_spre A) A
    ((expSeries_radius_eq_top ℂ (Matrix n n ℂ)).symm ▸ edist_lt_top _ _)

theorem spost_exp (A : Matrix n n ℂ) : spost (exp A) = exp (spost A) := by
  have h := map_exp_of_mem_ball (𝕂 := ℂ) (scolHom n)
    (AddMonoidHomClass.continuous_of_bound (scolHom n) 1 fun A => by
      rw [one_mul]; exact NonUnitalStarAlgHom.norm_apply_le (scolHom n) A) Aᵀ
    ((expSeries_radius_eq_top ℂ (Matrix n n ℂ)).symm ▸ edist_lt_top _ _)
  rw [Matrix.exp_transpose] at h
  exact h

/-- Without collapse operators a slice of the open system is the slice of the closed one. -/
theorem exp_super (h : Matrix n n ℂ) (hh : h.IsHermitian) (dt : ℝ) :
    exp ((dt : ℂ) • (-Complex.I) • (spre h - spost h)) = tfSuper (exp ((dt : ℂ) • (-Complex.I) • h)) := by
  have e1 : (exp ((dt : ℂ) • (-Complex.I) • h))ᴴ = exp ((dt : ℂ) • Complex.I • h) := by
    rw [← Matrix.exp_conjTranspose, conjTranspose_smul, conjTranspose_smul, hh.eq]
    simp
  have hs : ∀ (c : ℂ) (A : Matrix n n ℂ), spre (c • A) = c • spre A := fun c A => smul_kronecker _ _ _
  have hp : ∀ (c : ℂ) (A : Matrix n n ℂ), spost (c • A) = c • spost A := fun c A => by
    unfold spost
    rw [transpose_smul, kronecker_smul]
  unfold tfSuper
  rw [e1, spre_exp, spost_exp, ← Matrix.exp_add_of_commute]
  · rw [hs, hs, hp, hp, smul_sub, smul_sub, sub_eq_add_neg, neg_smul (Complex.I) (spost h), smul_neg, neg_neg]
  · rw [hs, hs, hp, hp]
    refine Commute.smul_left (Commute.smul_left (Commute.smul_right (Commute.smul_right ?_ _) _) _) _
    unfold Commute SemiconjBy spre spost
    rw [← mul_kronecker_mul, ← mul_kronecker_mul, one_mul, mul_one, one_mul, mul_one]

/-- Adding a small part to a generator of a unitary evolution. -/
theorem exp_perturb (K D : Matrix n n ℂ) (hK : Kᴴ = K) (dt : ℝ) (hdt : 0 ≤ dt) :
    ‖exp ((dt : ℂ) • ((-Complex.I) • K + D)) - exp ((dt : ℂ) • (-Complex.I) • K)‖ ≤ Real.exp (dt * ‖D‖) - 1 := by
  set A : Matrix n n ℂ := (-Complex.I) • K with hA
  have ec : ∀ (t : ℝ) (X : Matrix n n ℂ), (t : ℂ) • X = t • X := fun t X => Complex.coe_smul t X
  have hn : ∀ t : ℝ, 0 ≤ t → ‖exp (t • A)‖ ≤ 1 := by
    intro t ht
    have := Sensitive.exp_norm K hK t ht
    rwa [ec] at this
  have hm : ∀ t : ℝ, 0 ≤ t → ‖exp (t • (-A))‖ ≤ 1 := by
    intro t ht
    have := Sensitive.exp_norm (-K) (by rw [conjTranspose_neg, hK]) t ht
    rwa [ec, smul_neg] at this
  have hinv : ∀ t : ℝ, exp (t • A) * exp (t • (-A)) = 1 := by
    intro t
    rw [← Matrix.exp_add_of_commute]
    · simp
    · rw [smul_neg]
      exact (Commute.refl _).neg_right
  set f : ℝ → Matrix n n ℂ := fun t => exp (t • (-A)) * exp (t • (A + D)) - 1 with hf
  have hd : ∀ t : ℝ, HasDerivAt f (exp (t • (-A)) * D * exp (t • (A + D))) t := by
    intro t
    have h1 := hasDerivAt_exp_smul_const (𝕂 := ℝ) (-A) t
    have h2 := hasDerivAt_exp_smul_const' (𝕂 := ℝ) (A + D) t
    have h3 := (h1.mul h2).sub_const 1
    refine h3.congr_deriv ?_
    noncomm_ring
  have hE : ∀ t : ℝ, exp (t • (A + D)) = exp (t • A) * (f t + 1) := by
    intro t
    simp only [hf, sub_add_cancel]
    rw [← Matrix.mul_assoc, hinv, Matrix.one_mul]
  have hb : ∀ t ∈ Ico 0 dt, ‖exp (t • (-A)) * D * exp (t • (A + D))‖ ≤ ‖D‖ * ‖f t‖ + ‖D‖ := by
    intro t ht
    rw [hE]
    have h1 : ‖f t + 1‖ ≤ ‖f t‖ + 1 := (norm_add_le _ _).trans (add_le_add le_rfl C3.Propagation.Converge.norm_one_le)
    calc _ ≤ ‖exp (t • (-A))‖ * ‖D‖ * (‖exp (t • A)‖ * ‖f t + 1‖) :=
          (norm_mul_le _ _).trans (mul_le_mul (norm_mul_le _ _) (norm_mul_le _ _) (norm_nonneg _)
            (mul_nonneg (norm_nonneg _) (norm_nonneg _)))
      _ ≤ 1 * ‖D‖ * (1 * (‖f t‖ + 1)) :=
          mul_le_mul (mul_le_mul_of_nonneg_right (hm t ht.1) (norm_nonneg _))
            (mul_le_mul (hn t ht.1) h1 (norm_nonneg _) zero_le_one) (mul_nonneg (norm_nonneg _) (norm_nonneg _))
            (mul_nonneg zero_le_one (norm_nonneg _))
      _ = _ := by ring
  have hg := norm_le_gronwallBound_of_norm_deriv_right_le (f := f)
    (f' := fun t => exp (t • (-A)) * D * exp (t • (A + D))) (δ := 0) (K := ‖D‖) (ε := ‖D‖) (a := 0) (b := dt)
    (fun t _ => (hd t).continuousAt.continuousWithinAt) (fun t _ => (hd t).hasDerivWithinAt)
    (by simp [hf]) hb dt ⟨hdt, le_rfl⟩
  have hgb : gronwallBound 0 ‖D‖ ‖D‖ (dt - 0) = Real.exp (dt * ‖D‖) - 1 := by
    by_cases hD : ‖D‖ = 0
    · rw [hD, gronwallBound_K0]; simp
    · rw [gronwallBound_of_K_ne_0 hD, div_self hD, sub_zero, mul_comm dt]; simp
  rw [hgb] at hg
  rw [ec, ec, hE, mul_add, mul_one, add_sub_cancel_right]
  calc _ ≤ ‖exp (dt • A)‖ * ‖f dt‖ := norm_mul_le _ _
    _ ≤ 1 * (Real.exp (dt * ‖D‖) - 1) := mul_le_mul (hn dt hdt) hg (norm_nonneg _) zero_le_one
    _ = _ := one_mul _

/-- Deviations of factors from factors of norm one. -/
theorem mul_close (S S' R R' : Matrix n n ℂ) (x x' : ℝ) (hR : ‖R‖ ≤ 1) (hR' : ‖R'‖ ≤ 1) (h : ‖S - R‖ ≤ Real.exp x - 1)
    (h' : ‖S' - R'‖ ≤ Real.exp x' - 1) : ‖S * S' - R * R'‖ ≤ Real.exp (x + x') - 1 := by
  have e : S * S' - R * R' = (S - R) * S' + R * (S' - R') := by noncomm_ring
  have hS' : ‖S'‖ ≤ Real.exp x' := by
    have : S' = (S' - R') + R' := by abel
    rw [this]
    exact (norm_add_le _ _).trans (by linarith)
  have h0 : 0 ≤ Real.exp x - 1 := (norm_nonneg _).trans h
  rw [e, Real.exp_add]
  calc _ ≤ ‖S - R‖ * ‖S'‖ + ‖R‖ * ‖S' - R'‖ := (norm_add_le _ _).trans (add_le_add (norm_mul_le _ _) (norm_mul_le _ _))
    _ ≤ (Real.exp x - 1) * Real.exp x' + 1 * (Real.exp x' - 1) :=
        add_le_add (mul_le_mul h hS' (norm_nonneg _) h0) (mul_le_mul hR h' (norm_nonneg _) zero_le_one)
    _ = _ := by ring

theorem tfSuper_unitary (U : Matrix n n ℂ) (hU : Uᴴ * U = 1) : (tfSuper U)ᴴ * tfSuper U = 1 := by
  unfold tfSuper spre spost
  rw [← mul_kronecker_mul, conjTranspose_kronecker, ← mul_kronecker_mul, mul_one, one_mul, hU]
  have h : ((Uᴴ)ᵀ)ᴴ * (Uᴴ)ᵀ = 1 := by
    have e : ((Uᴴ)ᵀ)ᴴ = Uᵀ := by
      ext i j
      simp [conjTranspose_apply]
    rw [e, ← transpose_mul, hU, transpose_one]
  rw [h, one_kronecker_one]

theorem tfSuper_one : tfSuper (1 : Matrix n n ℂ) = 1 := by
  unfold tfSuper spre spost
  rw [← mul_kronecker_mul]
  simp

/-- One slice. -/
theorem slice_close (h0 : Matrix n n ℂ) (hks cols : List (Matrix n n ℂ)) (dt : ℝ) (hdt : 0 ≤ dt) (h : h0.IsHermitian)
    (hk : ∀ H ∈ hks, H.IsHermitian) (c : List ℝ) :
    ‖dUOfTLind h0 hks cols dt c - tfSuper (dUOfT h0 hks dt c)‖ ≤ Real.exp (dt * strength cols) - 1 := by
  unfold dUOfTLind dUOfT
  have hh := isHermitian_hamAt h0 (c.zip hks) h fun q hq => hk _ (List.of_mem_zip hq).2
  rw [lindOp_split, ← exp_super _ hh]
  have hK : (spre (hamAt h0 (c.zip hks)) - spost (hamAt h0 (c.zip hks)))ᴴ =
      spre (hamAt h0 (c.zip hks)) - spost (hamAt h0 (c.zip hks)) := by
    unfold spre spost
    rw [conjTranspose_sub, conjTranspose_kronecker, conjTranspose_kronecker, conjTranspose_one, hh.eq,
      hh.transpose.eq]
  refine (exp_perturb _ _ hK dt hdt).trans (sub_le_sub_right (Real.exp_le_exp.2 ?_) _)
  exact mul_le_mul_of_nonneg_left (norm_noise cols) hdt

/-- All slices of a gate. -/
theorem gate_close (h0 : Matrix n n ℂ) (hks cols : List (Matrix n n ℂ)) (dt : ℝ) (hdt : 0 ≤ dt) (h : h0.IsHermitian)
    (hk : ∀ H ∈ hks, H.IsHermitian) (cs : List (List ℝ)) :
    ‖Fold.timeOrdered (cs.map (dUOfTLind h0 hks cols dt)) - tfSuper (Fold.timeOrdered (cs.map (dUOfT h0 hks dt)))‖ ≤
      Real.exp (strength cols * (dt * cs.length)) - 1 := by
  induction cs with
  | nil => simp [Fold.timeOrdered, tfSuper_one]
  | cons c cs ih =>
    have e : ∀ {m : Type} [Fintype m] [DecidableEq m] (f : List ℝ → Matrix m m ℂ),
        Fold.timeOrdered ((c :: cs).map f) = Fold.timeOrdered (cs.map f) * f c := by
      intro m _ _ f
      simp [Fold.timeOrdered]
    rw [e, e, C26_super_mul]
    have hu : ∀ U ∈ unitaryGroup n ℂ, ‖tfSuper U‖ ≤ 1 := fun U hU =>
      Average.norm_le_one_of_unitary (tfSuper_unitary U (mem_unitaryGroup_iff'.1 hU))
    have h1 := mul_close _ _ _ _ _ _ (hu _ (timeOrdered_mem (unitaryGroup n ℂ) (cs.map (dUOfT h0 hks dt)) fun x hx => by
      obtain ⟨v, _, rfl⟩ := List.mem_map.1 hx
      exact C22_slice_unitary h0 hks dt h hk v)) (hu _ (C22_slice_unitary h0 hks dt h hk c)) ih
      (slice_close h0 hks cols dt hdt h hk c)
    refine h1.trans (le_of_eq ?_)
    congr 2
    rw [List.length_cons]
    push_cast
    ring

/-- How long a gate plays. -/
def playTime (ps : List (String × Pulse)) (g : String) : ℝ :=
  match ps.lookup g with
  | none => 0
  | some p => p.dt * p.values.length

theorem entry_le_len (v : n → ℂ) (i : n) : ‖v i‖ ≤ len v := by
  have h := len_sq v
  have h1 : ‖v i‖ ^ 2 ≤ len v ^ 2 := by
    rw [h]
    exact Finset.single_le_sum (f := fun i => ‖v i‖ ^ 2) (fun i _ => sq_nonneg _) (Finset.mem_univ i)
  exact (pow_le_pow_iff_left₀ (norm_nonneg _) (len_nonneg _) two_ne_zero).1 h1

variable {dims : List ℕ}

/-! ## Theorems -/

/-- **C225** (gates): whenever the propagator of a gate of the closed system can be computed, so can that of the open
system, and they differ by at most `exp(strength * time) - 1` in the operator norm. -/
theorem C225_gates (c : Chip dims) (hc : c.WF) (ps : List (String × Pulse)) (g : String)
    (hdt : ∀ p, ps.lookup g = some p → 0 ≤ p.dt) (V : Op dims) (h : physical (closed c ps) (.name "pwc") g = .ok V) :
    ∃ S, physical (opened c ps) (.name "pwc") g = .ok S ∧
      ‖S - tfSuper V‖ ≤ Real.exp (strength c.cols * playTime ps g) - 1 := by
  obtain ⟨p, hks, U, hp, hk, hU, hF⟩ := physical_closed c ps g V h
  have hv : p.values ≠ [] := by
    intro hv
    rw [hv, List.length_nil, pwc_empty c.h0 hks p.dt c.batch hc.batch] at hU
    simp at hU
  have hT : playTime ps g = p.dt * p.values.length := by unfold playTime; rw [hp]
  rw [pwc_eq c.h0 hks p.dt p.values hv c.batch hc.batch] at hU
  have hS := pwcLind_eq c.h0 hks c.cols p.dt p.values hv c.batch hc.batch
  have hcl := gate_close c.h0 hks c.cols p.dt (hdt p hp) (h0_herm c hc) (hks_herm c hc p hks hk) p.values
  rw [Option.some.inj hU, ← hT] at hcl
  set S := Fold.timeOrdered (p.values.map (dUOfTLind c.h0 hks c.cols p.dt)) with hSd
  rcases hF with ⟨hfr, F, hF, rfl⟩ | ⟨hfr, rfl⟩
  · refine ⟨tfSuper F * S, ?_, ?_⟩
    · unfold physical opened
      simp [hp, hk, hS, hfr, hF]
    · rw [C26_super_mul, ← Matrix.mul_sub]
      calc _ ≤ ‖tfSuper F‖ * ‖S - tfSuper U‖ := norm_mul_le _ _
        _ ≤ 1 * (Real.exp (strength c.cols * playTime ps g) - 1) :=
            mul_le_mul (Average.norm_le_one_of_unitary (tfSuper_unitary F (frame_unitary c hc p F hF))) hcl (norm_nonneg _)
              zero_le_one
        _ = _ := one_mul _
  · refine ⟨S, ?_, hcl⟩
    unfold physical opened
    simp [hp, hk, hS, hfr]

/-- Sequences. -/
theorem seq_close (c : Chip dims) (ps : List (String × Pulse)) (P : String → Op dims) (Q : String → SOp dims)
    (seq : List String) (hP : ∀ g ∈ seq, (P g)ᴴ * P g = 1)
    (hQ : ∀ g ∈ seq, ‖Q g - tfSuper (P g)‖ ≤ Real.exp (strength c.cols * playTime ps g) - 1) :
    (Fold.seqProp P seq)ᴴ * Fold.seqProp P seq = 1 ∧ ‖Fold.seqProp Q seq - tfSuper (Fold.seqProp P seq)‖ ≤
      Real.exp (strength c.cols * (seq.map (playTime ps)).sum) - 1 := by
  induction seq with
  | nil => simp [Fold.seqProp, Fold.timeOrdered, tfSuper_one]
  | cons g seq ih =>
    obtain ⟨h1, h2⟩ := ih (fun g hg => hP g (List.mem_cons_of_mem _ hg)) fun g hg => hQ g (List.mem_cons_of_mem _ hg)
    have e : ∀ {m : Type} [Fintype m] [DecidableEq m] (f : String → Matrix m m ℂ),
        Fold.seqProp f (g :: seq) = Fold.seqProp f seq * f g := by
      intro m _ _ f
      simp [Fold.seqProp, Fold.timeOrdered]
    have hg := hP g List.mem_cons_self
    rw [e, e]
    refine ⟨?_, ?_⟩
    · rw [conjTranspose_mul, Matrix.mul_assoc, ← Matrix.mul_assoc (Fold.seqProp P seq)ᴴ, h1, Matrix.one_mul, hg]
    · rw [C26_super_mul]
      have h3 := mul_close _ _ _ _ _ _ (Average.norm_le_one_of_unitary (tfSuper_unitary _ h1))
        (Average.norm_le_one_of_unitary (tfSuper_unitary _ hg)) h2 (hQ g List.mem_cons_self)
      refine h3.trans (le_of_eq ?_)
      congr 2
      rw [List.map_cons, List.sum_cons]
      ring

/-- **C225** (populations): whenever the propagators of the closed system can be computed, so can those of the open system.
The populations after a sequence of gates, starting in a basis state, differ by at most `exp(strength * time) - 1`, where
the time is that of all gates of the sequence. -/
theorem C225_populations (c : Chip dims) (hc : c.WF) (ps : List (String × Pulse))
    (hdt : ∀ g p, ps.lookup g = some p → 0 ≤ p.dt) (s : Exp (Op dims)) (t : Exp (SOp dims)) (hs : s.propMethod = none)
    (ht : t.propMethod = none) (hst : s.optGates = none ∧ t.optGates = none) (table : String → Option (Op dims))
    (s' : Exp (Op dims)) (h : compute (closed c ps) s = (.ok table, s')) :
    ∃ table' t', compute (opened c ps) t = (.ok table', t') ∧
      ∀ (seqs : List (List String)) (k : Fin dims.prod), (∀ seq ∈ seqs, ∀ g ∈ seq, g ∈ ps.map Prod.fst) →
        ∃ pops pops', evaluateClosed s'.propagators seqs (Pi.single k 1) = some pops ∧
          evaluateOpen t'.propagators seqs (dmToVec (diagonal (Pi.single k 1))) = some pops' ∧
          pops.length = seqs.length ∧ pops'.length = seqs.length ∧
          ∀ (i : ℕ) (seq : List String) (p p' : Fin dims.prod → ℝ), seqs[i]? = some seq → pops[i]? = some p →
            pops'[i]? = some p' → ∀ j, |p' j - p j| ≤ Real.exp (strength c.cols * (seq.map (playTime ps)).sum) - 1 := by
  have hgs : ∀ g ∈ ps.map Prod.fst, ∃ V S, physical (closed c ps) (.name "pwc") g = .ok V ∧
      physical (opened c ps) (.name "pwc") g = .ok S ∧ s'.propagators g = some V ∧
      ‖S - tfSuper V‖ ≤ Real.exp (strength c.cols * playTime ps g) - 1 := by
    intro g hg
    have hg' : g ∈ s.optGates.getD (closed c ps).keys := by rw [hst.1]; exact hg
    obtain ⟨V, h1, h2⟩ := (C68_selected (closed c ps) (closed_wf c ps) s hs table s' h g).1 hg'
    obtain ⟨S, h3, h4⟩ := C225_gates c hc ps g (hdt g) V h1
    refine ⟨V, S, h1, h3, ?_, h4⟩
    rw [(C68_stored _ s hs table s' h g).1, if_pos hg', h2]
  obtain ⟨table', t', ht'⟩ := (C68_succeeds_iff (opened c ps) (opened_wf c ps) t ht).2 (by
    rw [hst.2]
    exact fun g hg => let ⟨_, S, _, h, _⟩ := hgs g hg; ⟨S, h⟩)
  refine ⟨table', t', ht', fun seqs k hseqs => ?_⟩
  have hprops : ∀ g ∈ ps.map Prod.fst, ∃ V S, s'.propagators g = some V ∧ t'.propagators g = some S ∧ Vᴴ * V = 1 ∧
      ‖S - tfSuper V‖ ≤ Real.exp (strength c.cols * playTime ps g) - 1 := by
    intro g hg
    obtain ⟨V, S, h1, h2, h3, h4⟩ := hgs g hg
    have hg' : g ∈ t.optGates.getD (opened c ps).keys := by rw [hst.2]; exact hg
    obtain ⟨S', h5, h6⟩ := (C68_selected (opened c ps) (opened_wf c ps) t ht table' t' ht' g).1 hg'
    rw [h2] at h5
    cases h5
    refine ⟨V, S, h3, ?_, C199_unitary c hc ps g V h1, h4⟩
    rw [(C68_stored _ t ht table' t' ht' g).1, if_pos hg', h6]
  have hm : ∀ {α β : Type} (l : List α) (f : α → Option β) (f' : α → β), (∀ a ∈ l, f a = some (f' a)) →
      l.mapM f = some (l.map f') := by
    intro α β l f f' hf
    induction l with
    | nil => rfl
    | cons a l ih =>
      rw [List.mapM_cons, hf a List.mem_cons_self, ih fun a ha => hf a (List.mem_cons_of_mem _ ha)]
      rfl
  refine ⟨_, _, hm seqs _ (fun seq => popsClosed (Fold.seqProp (fun g => (s'.propagators g).getD 1) seq *ᵥ Pi.single k 1))
      fun seq hq => ?_, hm seqs _ (fun seq => popsOpen (Fold.seqProp (fun g => (t'.propagators g).getD 1) seq *ᵥ
        dmToVec (diagonal (Pi.single k 1)))) fun seq hq => ?_, by simp, by simp, ?_⟩
  · rw [runSeq_eq _ _ _ fun g hg => let ⟨V, _, h, _⟩ := hprops g (hseqs seq hq g hg); ⟨V, h⟩]
    rfl
  · rw [runSeq_eq _ _ _ fun g hg => let ⟨_, S, _, h, _⟩ := hprops g (hseqs seq hq g hg); ⟨S, h⟩]
    rfl
  · intro i seq p p' hi hp hp' j
    rw [List.getElem?_map, hi, Option.map_some, Option.some.injEq] at hp hp'
    subst hp hp'
    have hin := hseqs seq (List.mem_of_getElem? hi)
    obtain ⟨-, hcl⟩ := seq_close c ps (fun g => (s'.propagators g).getD 1) (fun g => (t'.propagators g).getD 1) seq
      (fun g hg => by
        obtain ⟨V, S, h1, h2, h3, h4⟩ := hprops g (hin g hg)
        rw [h1]; exact h3)
      (fun g hg => by
        obtain ⟨V, S, h1, h2, h3, h4⟩ := hprops g (hin g hg)
        rw [h1, h2]; exact h4)
    set U := Fold.seqProp (fun g => (s'.propagators g).getD 1) seq
    set S := Fold.seqProp (fun g => (t'.propagators g).getD 1) seq
    set r : Fin dims.prod × Fin dims.prod → ℂ := dmToVec (diagonal (Pi.single k 1)) with hr
    have hd : (Pi.single k 1 : Fin dims.prod → ℂ) = fun q => (((Pi.single k 1 : Fin dims.prod → ℝ) q : ℝ) : ℂ) := by
      funext q
      by_cases hq : q = k
      · subst hq; simp
      · simp [hq]
    have hpc : popsClosed (U *ᵥ Pi.single k 1) j = popsOpen (tfSuper U *ᵥ r) j := by
      rw [hr, hd, C65_open_closed, Finset.sum_eq_single k]
      · rw [Pi.single_eq_same, one_mul]
        congr 3
        rw [← hd]
      · intro q _ hq
        rw [Pi.single_eq_of_ne hq, zero_mul]
      · simp
    have hlr : len r = 1 := by
      have h1 := len_sq r
      rw [Finset.sum_eq_single (k, k)] at h1
      · have h2 : r (k, k) = 1 := by simp [hr, dmToVec_eq, rowVec]
        rw [h2, norm_one, one_pow] at h1
        exact (pow_eq_one_iff_of_nonneg (len_nonneg _) two_ne_zero).1 h1
      · rintro ⟨a, b⟩ _ hab
        have : r (a, b) = 0 := by
          rw [hr, dmToVec_eq]
          by_cases e : a = b
          · subst e
            have : a ≠ k := fun e => hab (by rw [e])
            simp [rowVec, this]
          · simp [rowVec, diagonal_apply_ne _ (Ne.symm e)]
        rw [this]; simp
      · simp
    have hfin : popsOpen (S *ᵥ r) j - popsClosed (U *ᵥ Pi.single k 1) j = (((S - tfSuper U) *ᵥ r) (j, j)).re := by
      rw [hpc, sub_mulVec]
      unfold popsOpen
      rw [← Complex.sub_re]
      rfl
    change |popsOpen (S *ᵥ r) j - popsClosed (U *ᵥ Pi.single k 1) j| ≤ _
    rw [hfin]
    calc _ ≤ ‖((S - tfSuper U) *ᵥ r) (j, j)‖ := Complex.abs_re_le_norm _
      _ ≤ len ((S - tfSuper U) *ᵥ r) := entry_le_len _ _
      _ ≤ ‖S - tfSuper U‖ * len r := len_mulVec _ _
      _ ≤ _ := by rw [hlr, mul_one]; exact hcl

theorem strength_nonneg (cols : List (Matrix n n ℂ)) : 0 ≤ strength cols :=
  mul_nonneg zero_le_two (List.sum_nonneg fun x hx => by
    obtain ⟨L, _, rfl⟩ := List.mem_map.1 hx
    exact sq_nonneg _)

/-- **C225** (weak decoherence): if the strength times the time is at most one, the gates differ by at most twice that. -/
theorem C225_weak (c : Chip dims) (hc : c.WF) (ps : List (String × Pulse)) (g : String) (p : Pulse)
    (hp : ps.lookup g = some p) (hdt : 0 ≤ p.dt) (hx : strength c.cols * (p.dt * p.values.length) ≤ 1) (V : Op dims)
    (h : physical (closed c ps) (.name "pwc") g = .ok V) :
    ∃ S, physical (opened c ps) (.name "pwc") g = .ok S ∧
      ‖S - tfSuper V‖ ≤ 2 * (strength c.cols * (p.dt * p.values.length)) := by
  obtain ⟨S, h1, h2⟩ := C225_gates c hc ps g (fun q hq => by rw [hp] at hq; cases hq; exact hdt) V h
  have hT : playTime ps g = p.dt * p.values.length := by unfold playTime; rw [hp]
  rw [hT] at h2
  have h0 : 0 ≤ strength c.cols * (p.dt * p.values.length) :=
    mul_nonneg (strength_nonneg _) (mul_nonneg hdt (Nat.cast_nonneg _))
  have h3 := Real.abs_exp_sub_one_le (x := strength c.cols * (p.dt * p.values.length)) (by rwa [abs_of_nonneg h0])
  rw [abs_of_nonneg h0] at h3
  exact ⟨S, h1, h2.trans ((le_abs_self _).trans h3)⟩

/-- **C225** (no decoherence): without collapse operators the gates of the open system are those of the closed one. -/
theorem C225_none (c : Chip dims) (hc : c.WF) (ps : List (String × Pulse)) (g : String)
    (hdt : ∀ p, ps.lookup g = some p → 0 ≤ p.dt) (hcols : c.cols = []) (V : Op dims)
    (h : physical (closed c ps) (.name "pwc") g = .ok V) : physical (opened c ps) (.name "pwc") g = .ok (tfSuper V) := by
  obtain ⟨S, h1, h2⟩ := C225_gates c hc ps g hdt V h
  rw [hcols] at h2
  simp only [strength, List.map_nil, List.sum_nil, mul_zero, zero_mul, Real.exp_zero, sub_self] at h2
  rw [h1, sub_eq_zero.1 (norm_eq_zero.1 (le_antisymm h2 (norm_nonneg _)))]

/-- A driven qubit that loses its excitations. -/
def exChip' : Chip [2] := { exChip with cols := [(1 / 10 : ℂ) • ann [2] 0] }

example : ∃ V S, physical (closed exChip' [("rx", ⟨["d"], [[1], [2]], 1, [("d", 5)], fun _ => some 0, 2⟩)])
      (.name "pwc") "rx" = .ok V ∧
    physical (opened exChip' [("rx", ⟨["d"], [[1], [2]], 1, [("d", 5)], fun _ => some 0, 2⟩)])
      (.name "pwc") "rx" = .ok S ∧ ‖S - tfSuper V‖ ≤ Real.exp (strength exChip'.cols * (1 * (2 : ℕ))) - 1 := by
  have hw : exChip'.WF := ⟨exChip_wf.lines, exChip_wf.target, exChip_wf.batch⟩
  obtain ⟨V, h⟩ := C199_computed exChip' hw
    [("rx", ⟨["d"], [[1], [2]], 1, [("d", 5)], fun _ => some 0, 2⟩)] "rx" _ rfl (by simp)
    (by
      intro k hk
      rw [List.mem_singleton.1 hk]
      exact ⟨_, rfl⟩)
    (fun l _ => ⟨⟨0, rfl⟩, 0, by simp, rfl⟩)
  obtain ⟨S, h1, h2⟩ := C225_gates exChip' hw _ "rx" (by
    intro p hp
    cases hp
    norm_num) V h
  exact ⟨V, S, h, h1, h2⟩

end C3.Experiment.WeakNoise
