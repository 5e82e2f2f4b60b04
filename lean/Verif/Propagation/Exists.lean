import Verif.Propagation.SolverConverge
import Mathlib.Analysis.ODE.ExistUnique

/-!
# The differential equations behind C202, C204 and C205 have exactly one solution

The convergence theorems compare what `pwc` (c3/libraries/propagation.py:259-341) and the solvers
(c3/libraries/propagation.py:258-627, c3/utils/tf_utils.py) return with a solution of the Schrödinger or master
equation. Here such a solution is shown to exist and to be unique for every choice of signals, so that the statements
need no assumption on it.
-/

namespace C3.Propagation.Exists

open Set Converge _root_.C3.Propagation.Order HsOfT Times SolverConverge
open scoped NNReal

section Linear

variable {E : Type*} [NormedAddCommGroup E] [NormedSpace ℝ E] [CompleteSpace E]

/-- A linear equation has a solution on an interval short against its rate. -/
theorem short (L : ℝ → E →L[ℝ] E) (c d : ℝ) (hcd : c ≤ d) (M : ℝ) (hM : 0 ≤ M) (hL : ContinuousOn L (Icc c d))
    (hb : ∀ t ∈ Icc c d, ‖L t‖ ≤ M) (hs : M * (d - c) ≤ 1 / 2) (x : E) :
    ∃ u : ℝ → E, u c = x ∧ ∀ t ∈ Icc c d, HasDerivWithinAt u (L t (u t)) (Icc c d) t := by
  set r : ℝ := ‖x‖ + 1 with hr
  have hr0 : 0 ≤ r := by positivity
  have hp : IsPicardLindelof (fun t y => L t y) (⟨c, le_rfl, hcd⟩ : Icc c d) x ⟨r, hr0⟩ 0
      ⟨M * (2 * r), by positivity⟩ ⟨M, hM⟩ := by
    refine ⟨fun t ht => ?_, fun y _ => hL.clm_apply continuousOn_const, fun t ht y hy => ?_, ?_⟩
    · refine LipschitzOnWith.of_dist_le_mul fun y _ z _ => ?_
      rw [dist_eq_norm, dist_eq_norm, ← map_sub]
      exact (L t).le_of_opNorm_le (hb t ht) _
    · refine ((L t).le_of_opNorm_le (hb t ht) y).trans ?_
      have h1 : ‖y - x‖ ≤ r := by
        rw [← dist_eq_norm]
        exact hy
      have h2 : ‖y‖ ≤ ‖x‖ + ‖y - x‖ := by simpa using norm_add_le x (y - x)
      show M * ‖y‖ ≤ M * (2 * r)
      gcongr
      linarith
    · show M * (2 * r) * max (d - c) (c - c) ≤ r - 0
      rw [sub_self, max_eq_left (by linarith)]
      nlinarith
  exact hp.exists_eq_forall_mem_Icc_hasDerivWithinAt₀

omit [CompleteSpace E] in
/-- Two solutions on adjacent intervals, joined. -/
theorem glue (f : ℝ → E → E) (a c d : ℝ) (hac : a ≤ c) (hcd : c ≤ d) (u v : ℝ → E) (he : v c = u c)
    (hu : ∀ t ∈ Icc a c, HasDerivWithinAt u (f t (u t)) (Icc a c) t)
    (hv : ∀ t ∈ Icc c d, HasDerivWithinAt v (f t (v t)) (Icc c d) t) :
    ∃ w : ℝ → E, w a = u a ∧ ∀ t ∈ Icc a d, HasDerivWithinAt w (f t (w t)) (Icc a d) t := by
  have hl : ∀ t ≤ c, (if t ≤ c then u t else v t) = u t := fun t h => if_pos h
  have hr : ∀ t, c ≤ t → (if t ≤ c then u t else v t) = v t := by
    intro t h
    rcases h.eq_or_lt with h' | h'
    · rw [← h', if_pos le_rfl, he]
    · rw [if_neg (not_le.2 h')]
  refine ⟨fun t => if t ≤ c then u t else v t, hl a hac, fun t ht => ?_⟩
  rw [← Icc_union_Icc_eq_Icc hac hcd]
  have h1 : t ≤ c → HasDerivWithinAt (fun t => if t ≤ c then u t else v t)
      (f t (if t ≤ c then u t else v t)) (Icc a c) t := by
    intro h
    rw [hl t h]
    exact (hu t ⟨ht.1, h⟩).congr (fun s hs => hl s hs.2) (hl t h)
  have h2 : c ≤ t → HasDerivWithinAt (fun t => if t ≤ c then u t else v t)
      (f t (if t ≤ c then u t else v t)) (Icc c d) t := by
    intro h
    rw [hr t h]
    exact (hv t ⟨h, ht.2⟩).congr (fun s hs => hr s hs.1) (hr t h)
  rcases lt_trichotomy t c with h | h | h
  · refine (h1 h.le).union (HasFDerivWithinAt.of_notMem_closure ?_)
    rw [isClosed_Icc.closure_eq]
    exact fun hh => absurd hh.1 (not_le.2 h)
  · exact (h1 h.le).union (h2 h.ge)
  · refine HasDerivWithinAt.union (HasFDerivWithinAt.of_notMem_closure ?_) (h2 h.le)
    rw [isClosed_Icc.closure_eq]
    exact fun hh => absurd hh.2 (not_le.2 h)

/-- A linear equation with continuous coefficients has a solution from every starting point. -/
theorem linear (L : ℝ → E →L[ℝ] E) (a b : ℝ) (hab : a ≤ b) (hL : ContinuousOn L (Icc a b)) (x : E) :
    ∃ u : ℝ → E, u a = x ∧ ∀ t ∈ Icc a b, HasDerivWithinAt u (L t (u t)) (Icc a b) t := by
  obtain ⟨M, hM⟩ := isCompact_Icc.exists_bound_of_continuousOn hL
  have hM0 : 0 ≤ M := (norm_nonneg _).trans (hM a ⟨le_rfl, hab⟩)
  obtain ⟨N, hN⟩ := exists_nat_gt (2 * M * (b - a))
  have hN' : (0 : ℝ) < N + 1 := by positivity
  set τ := (b - a) / (N + 1) with hτ
  have hτ0 : 0 ≤ τ := div_nonneg (by linarith) hN'.le
  have hMτ : M * τ ≤ 1 / 2 := by
    rw [hτ, ← mul_div_assoc, div_le_iff₀ hN']
    linarith
  have hend : a + (N + 1 : ℕ) * τ = b := by
    rw [hτ]
    push_cast
    field_simp
    ring
  have key : ∀ k : ℕ, k ≤ N + 1 → ∃ u : ℝ → E, u a = x ∧
      ∀ t ∈ Icc a (a + k * τ), HasDerivWithinAt u (L t (u t)) (Icc a (a + k * τ)) t := by
    intro k
    induction k with
    | zero =>
      intro _
      refine ⟨fun _ => x, rfl, fun t ht => ?_⟩
      have : Icc a (a + (0 : ℕ) * τ) = {a} := by simp
      rw [this]
      rw [this] at ht
      rw [mem_singleton_iff.1 ht]
      exact HasFDerivWithinAt.of_subsingleton subsingleton_singleton
    | succ k ih =>
      intro hk
      obtain ⟨u, hu0, hu⟩ := ih (by omega)
      have h1 : a + ((k + 1 : ℕ) : ℝ) * τ ≤ b := by
        rw [← hend]
        have : ((k + 1 : ℕ) : ℝ) ≤ (N + 1 : ℕ) := by exact_mod_cast hk
        nlinarith
      have h2 : a ≤ a + k * τ := by
        have : (0 : ℝ) ≤ k * τ := by positivity
        linarith
      have h3 : a + k * τ ≤ a + ((k + 1 : ℕ) : ℝ) * τ := by
        push_cast
        nlinarith
      have hsub : Icc (a + k * τ) (a + ((k + 1 : ℕ) : ℝ) * τ) ⊆ Icc a b := Icc_subset_Icc h2 h1
      obtain ⟨v, hv0, hv⟩ := short L (a + k * τ) (a + ((k + 1 : ℕ) : ℝ) * τ) h3 M hM0 (hL.mono hsub)
        (fun t ht => hM t (hsub ht)) (by push_cast; ring_nf; ring_nf at hMτ; linarith) (u (a + k * τ))
      obtain ⟨w, hw0, hw⟩ := glue (fun t y => L t y) a (a + k * τ) (a + ((k + 1 : ℕ) : ℝ) * τ) h2 h3 u v hv0 hu hv
      exact ⟨w, hw0.trans hu0, hw⟩
  have := key (N + 1) le_rfl
  rwa [hend] at this

omit [CompleteSpace E] in
/-- … and only one. -/
theorem linear_unique (L : ℝ → E →L[ℝ] E) (a b : ℝ) (hL : ContinuousOn L (Icc a b)) (u v : ℝ → E)
    (hu : ∀ t ∈ Icc a b, HasDerivWithinAt u (L t (u t)) (Icc a b) t)
    (hv : ∀ t ∈ Icc a b, HasDerivWithinAt v (L t (v t)) (Icc a b) t) (h : u a = v a) :
    ∀ t ∈ Icc a b, u t = v t := by
  obtain ⟨M, hM⟩ := isCompact_Icc.exists_bound_of_continuousOn hL
  refine ODE_solution_unique_of_mem_Icc_right (v := fun t y => L t y) (s := fun _ => univ) (K := Real.toNNReal M)
    (fun t ht => ?_) (fun t ht => (hu t ht).continuousWithinAt)
    (fun t ht => (hu t ⟨ht.1, ht.2.le⟩).mono_of_mem_nhdsWithin (Icc_mem_nhdsGE_of_mem ht)) (fun _ _ => trivial)
    (fun t ht => (hv t ht).continuousWithinAt)
    (fun t ht => (hv t ⟨ht.1, ht.2.le⟩).mono_of_mem_nhdsWithin (Icc_mem_nhdsGE_of_mem ht)) (fun _ _ => trivial) h
  refine LipschitzOnWith.of_dist_le_mul fun y _ z _ => ?_
  rw [dist_eq_norm, dist_eq_norm, ← map_sub]
  exact (L t).le_of_opNorm_le ((hM t ⟨ht.1, ht.2.le⟩).trans (Real.le_coe_toNNReal M)) _

end Linear

open scoped Matrix.Norms.L2Operator

variable {n : Type} [Fintype n] [DecidableEq n]

omit [DecidableEq n] in
/-- Likewise for an equation whose generator is linear in a Hamiltonian varying continuously. -/
theorem generated {V : Type*} [NormedAddCommGroup V] [NormedSpace ℂ V] [FiniteDimensional ℂ V]
    (Λ : Matrix n n ℂ →ₗ[ℂ] V →ₗ[ℂ] V) (D : V →ₗ[ℂ] V) (H : ℝ → Matrix n n ℂ) (a b : ℝ) (hab : a ≤ b)
    (hH : ContinuousOn H (Icc a b)) (x : V) :
    ∃ u : ℝ → V, (u a = x ∧ ∀ t ∈ Icc a b, HasDerivWithinAt u (Λ (H t) (u t) + D (u t)) (Icc a b) t) ∧
      ∀ v : ℝ → V, (v a = x ∧ ∀ t ∈ Icc a b, HasDerivWithinAt v (Λ (H t) (v t) + D (v t)) (Icc a b) t) →
        ∀ t ∈ Icc a b, v t = u t := by
  have : CompleteSpace V := FiniteDimensional.complete ℂ V
  set Γ : Matrix n n ℂ →ₗ[ℂ] V →L[ℂ] V :=
    ((LinearMap.toContinuousLinearMap : (V →ₗ[ℂ] V) ≃ₗ[ℂ] V →L[ℂ] V) : (V →ₗ[ℂ] V) →ₗ[ℂ] V →L[ℂ] V) ∘ₗ Λ with hΓ
  have hc : Continuous Γ := LinearMap.continuous_of_finiteDimensional Γ
  have hL : ContinuousOn (fun t => ((Γ (H t) + LinearMap.toContinuousLinearMap D).restrictScalars ℝ : V →L[ℝ] V))
      (Icc a b) :=
    (ContinuousLinearMap.restrictScalarsL ℂ V V ℝ ℝ).continuous.comp_continuousOn
      ((hc.comp_continuousOn hH).add continuousOn_const)
  obtain ⟨u, h1, h2⟩ := linear _ a b hab hL x
  refine ⟨u, ⟨h1, h2⟩, fun v hv => ?_⟩
  exact linear_unique _ a b hL v u hv.2 h2 (hv.1.trans h1.symm)

/-- A Hamiltonian with continuous entries is continuous. -/
theorem continuousOn_entries {H : ℝ → Matrix n n ℂ} {s : Set ℝ} (h : ∀ i j, ContinuousOn (fun t => H t i j) s) :
    ContinuousOn H s := by
  have e : H = fun t => ∑ i, ∑ j, H t i j • Matrix.single i j (1 : ℂ) := by
    funext t
    conv_lhs => rw [Matrix.matrix_eq_sum_single (H t)]
    simp [Matrix.smul_single]
  rw [e]
  exact continuousOn_finsetSum _ fun i _ => continuousOn_finsetSum _ fun j _ => (h i j).smul continuousOn_const

theorem entries {U : ℝ → Matrix n n ℂ} {U' : Matrix n n ℂ} {s : Set ℝ} {t : ℝ} (h : HasDerivWithinAt U U' s t)
    (i j : n) : HasDerivWithinAt (fun t => U t i j) (U' i j) s t :=
  ((LinearMap.toContinuousLinearMap
    (Matrix.entryLinearMap ℂ ℂ i j : Matrix n n ℂ →ₗ[ℂ] ℂ)).restrictScalars ℝ).hasFDerivAt.comp_hasDerivWithinAt t h

/-- **C202, C204, C205** (closed system): the Schrödinger equation of a continuous Hamiltonian has exactly one
solution. -/
theorem C202_solution (H : ℝ → Matrix n n ℂ) (a b : ℝ) (hab : a ≤ b)
    (hH : ∀ i j, ContinuousOn (fun t => H t i j) (Icc a b)) :
    ∃ U, Schrodinger H a b U ∧ ∀ V, Schrodinger H a b V → ∀ t ∈ Icc a b, V t = U t := by
  set Λ : Matrix n n ℂ →ₗ[ℂ] Matrix n n ℂ →ₗ[ℂ] Matrix n n ℂ :=
    LinearMap.mk₂ ℂ (fun h x => (-Complex.I) • (h * x)) (fun h h' x => by rw [add_mul, smul_add])
      (fun c h x => by rw [smul_mul_assoc, smul_comm]) (fun h x y => by rw [mul_add, smul_add])
      (fun c h x => by rw [mul_smul_comm, smul_comm]) with hΛ
  obtain ⟨U, ⟨h1, h2⟩, h3⟩ := generated Λ 0 H a b hab (continuousOn_entries hH) 1
  refine ⟨U, ⟨h1, fun t ht i j => ?_⟩, fun V hV => h3 V ⟨hV.1, fun t ht => ?_⟩⟩
  · have := entries (h2 t ht) i j
    simpa [hΛ] using this
  · refine hasDeriv_of_entries V _ _ t fun i j => ?_
    have := hV.2 t ht i j
    simpa [hΛ] using this

/-- **C204, C205**: likewise for a single state. -/
theorem C204_solution (H : ℝ → Matrix n n ℂ) (a b : ℝ) (hab : a ≤ b)
    (hH : ∀ i j, ContinuousOn (fun t => H t i j) (Icc a b)) (psi0 : n → ℂ) :
    ∃ psi, (psi a = psi0 ∧ Ket H a b psi) ∧ ∀ phi, phi a = psi0 ∧ Ket H a b phi → ∀ t ∈ Icc a b, phi t = psi t := by
  obtain ⟨u, ⟨h1, h2⟩, h3⟩ := generated ketMap 0 H a b hab (continuousOn_entries hH) psi0
  refine ⟨u, ⟨h1, fun t ht i => ?_⟩, fun v hv => h3 v ⟨hv.1, fun t ht => ?_⟩⟩
  · have := hasDerivWithinAt_pi.1 (h2 t ht) i
    simpa [ketMap] using this
  · refine hasDerivWithinAt_pi.2 fun i => ?_
    have := hv.2 t ht i
    simpa [ketMap] using this

/-- **C202, C204, C205** (open system): the master equation has exactly one solution from every initial state. -/
theorem C202_solution_open (H : ℝ → Matrix n n ℂ) (cols : List (Matrix n n ℂ)) (a b : ℝ) (hab : a ≤ b)
    (hH : ∀ i j, ContinuousOn (fun t => H t i j) (Icc a b)) (rho0 : Matrix n n ℂ) :
    ∃ rho, (rho a = rho0 ∧ Master H cols a b rho) ∧
      ∀ sigma, sigma a = rho0 ∧ Master H cols a b sigma → ∀ t ∈ Icc a b, sigma t = rho t := by
  obtain ⟨u, ⟨h1, h2⟩, h3⟩ := generated comMap (disMap cols) H a b hab (continuousOn_entries hH) rho0
  refine ⟨u, ⟨h1, fun t ht i j => ?_⟩, fun v hv => h3 v ⟨hv.1, fun t ht => master_deriv hv.2 t ht⟩⟩
  have := entries (h2 t ht) i j
  rwa [← masterRHS_eq] at this

omit [Fintype n] [DecidableEq n] in
/-- The Hamiltonian driven by continuous signals is continuous. -/
theorem drive_continuous (h0 : Matrix n n ℂ) (hks : List (Matrix n n ℂ)) (fs : List (ℝ → ℝ)) (s : Set ℝ)
    (hf : ∀ f ∈ fs, ContinuousOn f s) (i j : n) : ContinuousOn (fun t => drive h0 hks fs t i j) s := by
  have h : ∀ l : List ((ℝ → ℝ) × Matrix n n ℂ), (∀ p ∈ l, ContinuousOn p.1 s) →
      ContinuousOn (fun t => (l.map fun p => (p.1 t : ℂ) • p.2).sum i j) s := by
    intro l
    induction l with
    | nil =>
      intro _
      exact continuousOn_const
    | cons p l ih =>
      intro hl
      simp only [List.map_cons, List.sum_cons, Matrix.add_apply, Matrix.smul_apply]
      exact ((Complex.continuous_ofReal.comp_continuousOn (hl p (by simp))).smul continuousOn_const).add
        (ih fun q hq => hl q (by simp [hq]))
  unfold drive
  simp only [Matrix.add_apply]
  exact continuousOn_const.add (h _ fun p hp => hf p.1 (List.of_mem_zip hp).1)

omit [Fintype n] [DecidableEq n] in
theorem driveBy_continuous (h0 : Matrix n n ℂ) (hc : String → Matrix n n ℂ) (sigs : List (String × (ℝ → ℝ)))
    (s : Set ℝ) (hf : ∀ p ∈ sigs, ContinuousOn p.2 s) (i j : n) :
    ContinuousOn (fun t => driveBy h0 hc sigs t i j) s := by
  unfold driveBy
  simp only [Matrix.add_apply]
  refine continuousOn_const.add ?_
  induction sigs with
  | nil => exact continuousOn_const
  | cons p l ih =>
    simp only [List.map_cons, List.sum_cons, Matrix.add_apply, Matrix.smul_apply]
    exact ((Complex.continuous_ofReal.comp_continuousOn (hf p (by simp))).smul continuousOn_const).add
      (ih fun q hq => hf q (by simp [hq]))

theorem smooth_continuous {a b : ℝ} {f : ℝ → ℝ} (h : SmoothOn a b f) : ContinuousOn f (Icc a b) := by
  obtain ⟨f', L, h1, _⟩ := h
  exact fun t ht => (h1 t ht).continuousWithinAt

theorem lip_continuous {a b : ℝ} {f : ℝ → ℝ} (h : LipOn a b f) : ContinuousOn f (Icc a b) := by
  obtain ⟨L, hL⟩ := h
  have : LipschitzOnWith (Real.toNNReal L) f (Icc a b) := by
    refine LipschitzOnWith.of_dist_le_mul fun x hx y hy => ?_
    rw [Real.dist_eq, Real.dist_eq]
    exact (hL x hx y hy).trans (mul_le_mul_of_nonneg_right (Real.le_coe_toNNReal L) (abs_nonneg _))
  exact this.continuousOn

/-- **C202**, without assuming a solution: for smooth signals the Schrödinger equation has exactly one solution and the
gates computed from `N` samples approach it with the square of `N`. -/
theorem C202_converges (h0 : Matrix n n ℂ) (hks : List (Matrix n n ℂ)) (fs : List (ℝ → ℝ)) (a T : ℝ) (hT : 0 < T)
    (hf : ∀ f ∈ fs, SmoothOn a (a + T) f) :
    ∃ U, Schrodinger (drive h0 hks fs) a (a + T) U ∧
      (∀ V, Schrodinger (drive h0 hks fs) a (a + T) V → ∀ t ∈ Icc a (a + T), V t = U t) ∧
      ∃ C : ℝ, ∀ N : ℕ, 1 ≤ N → ∀ bs : ℕ, 1 ≤ bs →
        ∃ ts P, Devices.createTs (N / T) a (a + T) true = some ts ∧
          pwc h0 hks (T / N) (ts.map fun t => fs.map fun f => f t) bs (Fold.stackFor ts.length) = some P ∧
          ∀ i j, ‖P i j - U (a + T) i j‖ ≤ C / N ^ 2 := by
  obtain ⟨U, h1, h2⟩ := C202_solution (drive h0 hks fs) a (a + T) (by linarith)
    (drive_continuous h0 hks fs _ fun f hf' => smooth_continuous (hf f hf'))
  exact ⟨U, h1, h2, C202_closed h0 hks fs a T hT hf U h1⟩

/-- **C202**, without assuming a solution (open system). -/
theorem C202_converges_open (h0 : Matrix n n ℂ) (hks cols : List (Matrix n n ℂ)) (fs : List (ℝ → ℝ)) (a T : ℝ)
    (hT : 0 < T) (hf : ∀ f ∈ fs, SmoothOn a (a + T) f) (rho0 : Matrix n n ℂ) :
    ∃ rho, (rho a = rho0 ∧ Master (drive h0 hks fs) cols a (a + T) rho) ∧
      (∀ sigma, sigma a = rho0 ∧ Master (drive h0 hks fs) cols a (a + T) sigma →
        ∀ t ∈ Icc a (a + T), sigma t = rho t) ∧
      ∃ C : ℝ, ∀ N : ℕ, 1 ≤ N → ∀ bs : ℕ, 1 ≤ bs →
        ∃ ts P, Devices.createTs (N / T) a (a + T) true = some ts ∧
          pwcLind h0 hks cols (T / N) (ts.map fun t => fs.map fun f => f t) bs (Fold.stackFor ts.length) = some P ∧
          ∀ i j, ‖(P.mulVec (rowVec rho0)) (i, j) - rho (a + T) i j‖ ≤ C / N ^ 2 := by
  obtain ⟨rho, ⟨h1, h2⟩, h3⟩ := C202_solution_open (drive h0 hks fs) cols a (a + T) (by linarith)
    (drive_continuous h0 hks fs _ fun f hf' => smooth_continuous (hf f hf')) rho0
  refine ⟨rho, ⟨h1, h2⟩, h3, ?_⟩
  rw [← h1]
  exact C202_open h0 hks cols fs a T hT hf rho h2

/-- **C204**, without assuming a solution. -/
theorem C204_converges_partial (s : Solver) (hs : s ≠ .tsit5) (a T : ℝ) (hT : 0 < T) (h0 : Matrix n n ℂ)
    (hc : String → Matrix n n ℂ) (cols : List (Matrix n n ℂ)) (sigs : List (String × (ℝ → ℝ))) (hne : sigs ≠ [])
    (hf : ∀ p ∈ sigs, LipOn a (a + T) p.2) (psi0 : n → ℂ) (rho0 : Matrix n n ℂ) :
    (∃ psi, psi a = psi0 ∧ Ket (driveBy h0 hc sigs) a (a + T) psi ∧
      ∃ C : ℝ, ∀ N : ℕ, 2 ≤ N → ∃ ts out, Devices.createTs (N / T) a (a + T) true = some ts ∧
        finalState schrodingerStep h0 (fun k => some (hc k)) s (channels sigs ts) psi0 = .ok (out, ts) ∧
        ∀ i, ‖out i - psi (a + T) i‖ ≤ C / N) ∧
    ∃ rho, rho a = rho0 ∧ Master (driveBy h0 hc sigs) cols a (a + T) rho ∧
      ∃ C : ℝ, ∀ N : ℕ, 2 ≤ N → ∃ ts out, Devices.createTs (N / T) a (a + T) true = some ts ∧
        finalState (lindbladStep cols) h0 (fun k => some (hc k)) s (channels sigs ts) rho0 = .ok (out, ts) ∧
        ∀ i j, ‖out i j - rho (a + T) i j‖ ≤ C / N := by
  have hcont := driveBy_continuous h0 hc sigs (Icc a (a + T)) fun p hp => lip_continuous (hf p hp)
  constructor
  · obtain ⟨psi, ⟨h1, h2⟩, _⟩ := C204_solution (driveBy h0 hc sigs) a (a + T) (by linarith) hcont psi0
    refine ⟨psi, h1, h2, ?_⟩
    rw [← h1]
    exact C204_schrodinger_partial s hs a T hT h0 hc sigs hne hf psi h2
  · obtain ⟨rho, ⟨h1, h2⟩, _⟩ := C202_solution_open (driveBy h0 hc sigs) cols a (a + T) (by linarith) hcont rho0
    refine ⟨rho, h1, h2, ?_⟩
    rw [← h1]
    obtain ⟨C, hC⟩ := C204_lindblad_partial s hs a T hT h0 hc cols sigs hne hf rho h2
    refine ⟨C, fun N hN => ?_⟩
    obtain ⟨ts, out, g1, g2, _, g3⟩ := hC N hN
    exact ⟨ts, out, g1, g2, g3⟩

/-- **C205**, without assuming a solution: fourth order on the Hamiltonians at the nodes of the tableau. -/
theorem C205_converges (s : Solver) (hs : s ≠ .tsit5) (a T : ℝ) (hT : 0 < T) (h0 : Matrix n n ℂ)
    (hc : String → Matrix n n ℂ) (cols : List (Matrix n n ℂ)) (sigs : List (String × (ℝ → ℝ)))
    (hf : ∀ p ∈ sigs, ContDiffOn ℝ 4 p.2 (Icc a (a + T))) (psi0 : n → ℂ) (rho0 : Matrix n n ℂ) :
    (∃ psi, psi a = psi0 ∧ Ket (driveBy h0 hc sigs) a (a + T) psi ∧
      ∃ C : ℝ, ∀ N : ℕ, 1 ≤ N → ∀ Hs : ℕ → Matrix n n ℂ,
        (∀ i < N, ∀ j < (nodes s).length,
          Hs (s.start * i + j) = driveBy h0 hc sigs (a + (i + (nodes s).getD j 0) * (T / N))) →
        ∀ i, ‖odeSolverFinal s (schrodingerStep (T / N)) Hs N psi0 i - psi (a + T) i‖ ≤ C / N ^ 4) ∧
    ∃ rho, rho a = rho0 ∧ Master (driveBy h0 hc sigs) cols a (a + T) rho ∧
      ∃ C : ℝ, ∀ N : ℕ, 1 ≤ N → ∀ Hs : ℕ → Matrix n n ℂ,
        (∀ i < N, ∀ j < (nodes s).length,
          Hs (s.start * i + j) = driveBy h0 hc sigs (a + (i + (nodes s).getD j 0) * (T / N))) →
        ∀ i j, ‖odeSolverFinal s (lindbladStep cols (T / N)) Hs N rho0 i j - rho (a + T) i j‖ ≤ C / N ^ 4 := by
  have hcont := driveBy_continuous h0 hc sigs (Icc a (a + T)) fun p hp => (hf p hp).continuousOn
  constructor
  · obtain ⟨psi, ⟨h1, h2⟩, _⟩ := C204_solution (driveBy h0 hc sigs) a (a + T) (by linarith) hcont psi0
    refine ⟨psi, h1, h2, ?_⟩
    rw [← h1]
    exact C205_schrodinger s hs a T hT h0 hc sigs hf psi h2
  · obtain ⟨rho, ⟨h1, h2⟩, _⟩ := C202_solution_open (driveBy h0 hc sigs) cols a (a + T) (by linarith) hcont rho0
    refine ⟨rho, h1, h2, ?_⟩
    rw [← h1]
    obtain ⟨C, hC⟩ := C205_lindblad s hs a T hT h0 hc cols sigs hf rho h2
    exact ⟨C, fun N hN Hs hHs i j => (hC N hN Hs hHs i j).1⟩

/-- A drive growing linearly has an evolution, here one level with quadratic phase, and no other. -/
example : ∃ U, Schrodinger (drive (0 : Matrix Unit Unit ℂ) [1] [fun t => t]) 0 (0 + 1) U ∧
    U 1 () () = Complex.exp (-Complex.I * ((1 ^ 2 / 2 : ℝ) : ℂ)) := by
  obtain ⟨U, h1, h2⟩ := C202_solution (drive (0 : Matrix Unit Unit ℂ) [1] [fun t => t]) 0 (0 + 1) (by norm_num)
    (drive_continuous _ _ _ _ (by
      intro f hf
      rw [List.mem_singleton.1 hf]
      exact continuousOn_id))
  refine ⟨U, h1, ?_⟩
  rw [← h2 _ linear_phase 1 (by norm_num)]
  simp

end C3.Propagation.Exists
