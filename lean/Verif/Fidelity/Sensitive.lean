import Verif.Fidelity.Overlap
import Verif.Propagation.Average
import Verif.Experiment.Evaluate

/-!
# C213: small errors of signals and parameters cause small errors of gates

The gates of `pwc` (c3/libraries/propagation.py:259-341) for two settings of a model (c3/model.py, drift and control
Hamiltonians) and two sets of signals (c3/generator/generator.py) are compared, and their `unitary_infid`
(c3/libraries/fidelities.py:152-183) to the same ideal gate. The models are those of C22 and C61.

Also: the final state of `tsit5` (c3/libraries/propagation.py:826-883), see C204.
-/

noncomputable section

namespace C3.Fidelity.Sensitive

open Set Matrix Propagation NormedSpace C3.Hilbert C3.Gates
open scoped Matrix.Norms.L2Operator

variable {n : Type} [Fintype n] [DecidableEq n]

/-! ## Two evolutions -/

/-- Two evolutions with Hermitian generators differ by at most the time times the difference of the generators. -/
theorem close (K K' W V : ℝ → Matrix n n ℂ) (T : ℝ) (hT : 0 ≤ T) (hW0 : W 0 = 1) (hV0 : V 0 = 1)
    (hW : ∀ t ∈ Icc 0 T, HasDerivWithinAt W ((-Complex.I) • (K t * W t)) (Icc 0 T) t)
    (hV : ∀ t ∈ Icc 0 T, HasDerivWithinAt V ((-Complex.I) • (K' t * V t)) (Icc 0 T) t)
    (hK : ∀ t ∈ Icc 0 T, (K t)ᴴ = K t) (hK' : ∀ t ∈ Icc 0 T, (K' t)ᴴ = K' t) (q : ℝ)
    (hq : ∀ t ∈ Icc 0 T, ‖K t - K' t‖ ≤ q) : ‖W T - V T‖ ≤ T * q := by
  have uW := Average.unitary_of_hermitian K W T hK hW0 hW
  have uV := Average.unitary_of_hermitian K' V T hK' hV0 hV
  have m0 : (0 : ℝ) ∈ Icc 0 T := ⟨le_rfl, hT⟩
  have mT : T ∈ Icc 0 T := ⟨hT, le_rfl⟩
  have nW : ∀ t ∈ Icc 0 T, ‖W t‖ ≤ 1 := fun t ht => Average.norm_le_one_of_unitary (uW t ht)
  have nV : ∀ t ∈ Icc 0 T, ‖V t‖ ≤ 1 := fun t ht => Average.norm_le_one_of_unitary (uV t ht)
  have hd : ∀ t ∈ Icc 0 T, HasDerivWithinAt (fun t => (V t)ᴴ * W t)
      ((V t)ᴴ * ((-Complex.I) • (K t - K' t)) * W t) (Icc 0 T) t := by
    intro t ht
    have h := (Average.hasDeriv_conjTranspose (hV t ht)).mul (hW t ht)
    refine h.congr_deriv ?_
    rw [conjTranspose_smul, conjTranspose_mul, hK' t ht]
    simp only [star_neg, Complex.star_def, Complex.conj_I, neg_neg, neg_smul, smul_mul_assoc, mul_smul_comm, mul_neg,
      neg_mul, mul_sub, sub_mul, smul_sub, mul_assoc]
    abel
  have hb : ∀ t ∈ Icc 0 T, ‖(V t)ᴴ * ((-Complex.I) • (K t - K' t)) * W t‖ ≤ q := by
    intro t ht
    have e : ‖(-Complex.I) • (K t - K' t)‖ ≤ q := by
      rw [norm_smul, norm_neg, Complex.norm_I, one_mul]
      exact hq t ht
    have e' : ‖(V t)ᴴ‖ ≤ 1 := by
      rw [l2_opNorm_conjTranspose]
      exact nV t ht
    calc _ ≤ ‖(V t)ᴴ‖ * ‖(-Complex.I) • (K t - K' t)‖ * ‖W t‖ :=
          (norm_mul_le _ _).trans (mul_le_mul_of_nonneg_right (norm_mul_le _ _) (norm_nonneg _))
      _ ≤ 1 * q * 1 := mul_le_mul (mul_le_mul e' e (norm_nonneg _) zero_le_one) (nW t ht) (norm_nonneg _)
            (by have := (norm_nonneg _).trans e; linarith)
      _ = q := by ring
  have h := (convex_Icc (0 : ℝ) T).norm_image_sub_le_of_norm_hasDerivWithin_le hd hb m0 mT
  rw [hV0, hW0, conjTranspose_one, one_mul, Real.norm_eq_abs, sub_zero, abs_of_nonneg hT] at h
  have hVV : V T * (V T)ᴴ = 1 := mul_eq_one_comm.1 (uV T mT)
  have e : W T - V T = V T * ((V T)ᴴ * W T - 1) := by
    rw [mul_sub, ← mul_assoc, hVV, one_mul, mul_one]
  rw [e]
  refine (norm_mul_le _ _).trans ((mul_le_of_le_one_left (norm_nonneg _) (nV T mT)).trans ?_)
  linarith

theorem exp_deriv (H : Matrix n n ℂ) (S : Set ℝ) (t : ℝ) :
    HasDerivWithinAt (fun t : ℝ => exp (t • (-Complex.I) • H)) ((-Complex.I) • (H * exp (t • (-Complex.I) • H))) S t := by
  have h := hasDerivAt_exp_smul_const' (𝕂 := ℝ) ((-Complex.I) • H) t
  rw [smul_mul_assoc] at h
  exact h.hasDerivWithinAt

theorem exp_close (H H' : Matrix n n ℂ) (hH : Hᴴ = H) (hH' : H'ᴴ = H') (dt : ℝ) (hdt : 0 ≤ dt) :
    ‖exp ((dt : ℂ) • (-Complex.I) • H) - exp ((dt : ℂ) • (-Complex.I) • H')‖ ≤ dt * ‖H - H'‖ := by
  have e : ∀ X : Matrix n n ℂ, (dt : ℂ) • X = dt • X := fun X => Complex.coe_smul dt X
  rw [e, e]
  exact close (fun _ => H) (fun _ => H') (fun t => exp (t • (-Complex.I) • H)) (fun t => exp (t • (-Complex.I) • H')) dt hdt
    (by simp) (by simp) (fun t _ => exp_deriv H _ t) (fun t _ => exp_deriv H' _ t) (fun _ _ => hH) (fun _ _ => hH') _
    (fun _ _ => le_rfl)

theorem exp_norm (H : Matrix n n ℂ) (hH : Hᴴ = H) (dt : ℝ) (hdt : 0 ≤ dt) :
    ‖exp ((dt : ℂ) • (-Complex.I) • H)‖ ≤ 1 := by
  have e : (dt : ℂ) • (-Complex.I) • H = dt • (-Complex.I) • H := Complex.coe_smul dt _
  rw [e]
  exact Average.norm_le_one_of_unitary (Average.unitary_of_hermitian (fun _ => H) (fun t => exp (t • (-Complex.I) • H)) dt
    (fun _ _ => hH) (by simp) (fun t _ => exp_deriv H _ t) dt ⟨hdt, le_rfl⟩)

/-- The differences of the factors of two products add up. -/
theorem product_close (l : List (Matrix n n ℂ × Matrix n n ℂ)) (h : ∀ p ∈ l, ‖p.1‖ ≤ 1 ∧ ‖p.2‖ ≤ 1) :
    ‖Fold.timeOrdered (l.map Prod.fst)‖ ≤ 1 ∧
    ‖Fold.timeOrdered (l.map Prod.fst) - Fold.timeOrdered (l.map Prod.snd)‖ ≤ (l.map fun p => ‖p.1 - p.2‖).sum := by
  induction l using List.reverseRecOn with
  | nil => simpa [Fold.timeOrdered] using Converge.norm_one_le
  | append_singleton l p ih =>
    obtain ⟨ih1, ih2⟩ := ih fun q hq => h q (by simp [hq])
    obtain ⟨h1, h2⟩ := h p (by simp)
    have e : ∀ (l : List (Matrix n n ℂ)) (x : Matrix n n ℂ), Fold.timeOrdered (l ++ [x]) = x * Fold.timeOrdered l :=
      fun l x => by simp [Fold.timeOrdered]
    simp only [List.map_append, List.map_cons, List.map_nil, e, List.sum_append, List.sum_cons, List.sum_nil, add_zero]
    constructor
    · exact (norm_mul_le _ _).trans (mul_le_one₀ h1 (norm_nonneg _) ih1)
    · have e2 : p.1 * Fold.timeOrdered (l.map Prod.fst) - p.2 * Fold.timeOrdered (l.map Prod.snd) =
          (p.1 - p.2) * Fold.timeOrdered (l.map Prod.fst) +
            p.2 * (Fold.timeOrdered (l.map Prod.fst) - Fold.timeOrdered (l.map Prod.snd)) := by
        rw [sub_mul, mul_sub]
        abel
      rw [e2]
      refine (norm_add_le _ _).trans ?_
      have f1 : ‖(p.1 - p.2) * Fold.timeOrdered (l.map Prod.fst)‖ ≤ ‖p.1 - p.2‖ :=
        (norm_mul_le _ _).trans (mul_le_of_le_one_right (norm_nonneg _) ih1)
      have f2 : ‖p.2 * (Fold.timeOrdered (l.map Prod.fst) - Fold.timeOrdered (l.map Prod.snd))‖ ≤
          (l.map fun p => ‖p.1 - p.2‖).sum :=
        (norm_mul_le _ _).trans ((mul_le_of_le_one_left (norm_nonneg _) h2).trans ih2)
      linarith

/-! ## Specification -/

/-- The Hamiltonian of a slice: drift plus controls times control values. -/
def ham (h0 : Matrix n n ℂ) (hks : List (Matrix n n ℂ)) (c : List ℝ) : Matrix n n ℂ :=
  h0 + ((c.zip hks).map fun p => (p.1 : ℂ) • p.2).sum

omit [Fintype n] [DecidableEq n] in
theorem hamAt_eq (h0 : Matrix n n ℂ) (hks : List (Matrix n n ℂ)) (c : List ℝ) : hamAt h0 (c.zip hks) = ham h0 hks c := by
  unfold hamAt ham
  generalize c.zip hks = l
  induction l generalizing h0 with
  | nil => simp
  | cons p l ih => rw [List.foldl_cons, ih, List.map_cons, List.sum_cons, add_assoc]

omit [Fintype n] [DecidableEq n] in
theorem ham_hermitian (h0 : Matrix n n ℂ) (hks : List (Matrix n n ℂ)) (c : List ℝ) (h : h0.IsHermitian)
    (hk : ∀ k ∈ hks, k.IsHermitian) : (ham h0 hks c)ᴴ = ham h0 hks c := by
  unfold ham
  rw [conjTranspose_add, h.eq]
  congr 1
  have hz : ∀ p ∈ c.zip hks, p.2.IsHermitian := fun p hp => hk p.2 (List.of_mem_zip hp).2
  generalize c.zip hks = l at hz
  induction l with
  | nil => simp
  | cons p l ih =>
    rw [List.map_cons, List.sum_cons, conjTranspose_add, ih fun q hq => hz q (by simp [hq]), conjTranspose_smul,
      (hz p (by simp)).eq]
    congr 2
    exact Complex.conj_ofReal _

/-! ## Theorems -/

/-- **C213**: the gates of two settings differ by at most the length of a slice times the sum of the differences of their
Hamiltonians, whatever the sizes of the batches. -/
theorem C213_gates (h0 h0' : Matrix n n ℂ) (hks hks' : List (Matrix n n ℂ)) (hh : h0.IsHermitian) (hh' : h0'.IsHermitian)
    (hk : ∀ k ∈ hks, k.IsHermitian) (hk' : ∀ k ∈ hks', k.IsHermitian) (dt : ℝ) (hdt : 0 ≤ dt) (cs cs' : List (List ℝ))
    (hcs : cs ≠ []) (hl : cs.length = cs'.length) (bs bs' : ℕ) (hbs : 1 ≤ bs) (hbs' : 1 ≤ bs') :
    ∃ P P', pwc h0 hks dt cs bs (Fold.stackFor cs.length) = some P ∧
      pwc h0' hks' dt cs' bs' (Fold.stackFor cs'.length) = some P' ∧ Pᴴ * P = 1 ∧ P'ᴴ * P' = 1 ∧
      ‖P - P'‖ ≤ dt * ((cs.zip cs').map fun c => ‖ham h0 hks c.1 - ham h0' hks' c.2‖).sum := by
  have hcs' : cs' ≠ [] := by
    rintro rfl
    simp at hl
    exact hcs hl
  obtain ⟨P, h2, h1⟩ := C22_gate_unitary h0 hks dt hh hk cs hcs bs hbs
  obtain ⟨P', h2', h1'⟩ := C22_gate_unitary h0' hks' dt hh' hk' cs' hcs' bs' hbs'
  refine ⟨P, P', h1, h1', (mem_unitaryGroup_iff'.1 h2), (mem_unitaryGroup_iff'.1 h2'), ?_⟩
  rw [pwc_eq h0 hks dt cs hcs bs hbs] at h1
  rw [pwc_eq h0' hks' dt cs' hcs' bs' hbs'] at h1'
  obtain rfl := Option.some.inj h1
  obtain rfl := Option.some.inj h1'
  have hf : ∀ c, dUOfT h0 hks dt c = exp ((dt : ℂ) • (-Complex.I) • ham h0 hks c) := fun c => by
    rw [dUOfT, hamAt_eq]
  have hf' : ∀ c, dUOfT h0' hks' dt c = exp ((dt : ℂ) • (-Complex.I) • ham h0' hks' c) := fun c => by
    rw [dUOfT, hamAt_eq]
  have h := (product_close ((cs.zip cs').map fun c => (dUOfT h0 hks dt c.1, dUOfT h0' hks' dt c.2)) (by
    intro p hp
    obtain ⟨c, -, rfl⟩ := List.mem_map.1 hp
    exact ⟨by rw [hf]; exact exp_norm _ (ham_hermitian _ _ _ hh hk) dt hdt,
      by rw [hf']; exact exp_norm _ (ham_hermitian _ _ _ hh' hk') dt hdt⟩)).2
  simp only [List.map_map, Function.comp_def] at h
  have e1 : ((cs.zip cs').map fun c => dUOfT h0 hks dt c.1) = cs.map (dUOfT h0 hks dt) := by
    have := congrArg (List.map (dUOfT h0 hks dt)) (List.map_fst_zip (l₁ := cs) (l₂ := cs') hl.le)
    rwa [List.map_map] at this
  have e2 : ((cs.zip cs').map fun c => dUOfT h0' hks' dt c.2) = cs'.map (dUOfT h0' hks' dt) := by
    have := congrArg (List.map (dUOfT h0' hks' dt)) (List.map_snd_zip (l₁ := cs) (l₂ := cs') hl.ge)
    rwa [List.map_map] at this
  rw [e1, e2] at h
  refine h.trans ?_
  rw [← List.sum_map_mul_left]
  refine List.sum_le_sum fun c _ => ?_
  rw [hf, hf']
  exact exp_close _ _ (ham_hermitian _ _ _ hh hk) (ham_hermitian _ _ _ hh' hk') dt hdt

theorem ham_sub_norm (h0 : Matrix n n ℂ) (hks : List (Matrix n n ℂ)) (c c' : List ℝ) (hc : c.length = hks.length)
    (hc' : c'.length = hks.length) :
    ‖ham h0 hks c - ham h0 hks c'‖ ≤ (((c.zip c').zip hks).map fun p => |p.1.1 - p.1.2| * ‖p.2‖).sum := by
  unfold ham
  rw [add_sub_add_left_eq_sub]
  induction hks generalizing c c' with
  | nil => simp
  | cons k l ih =>
    obtain ⟨x, c, rfl⟩ : ∃ x t, c = x :: t := List.exists_cons_of_length_pos (by simp [hc])
    obtain ⟨x', c', rfl⟩ : ∃ x t, c' = x :: t := List.exists_cons_of_length_pos (by simp [hc'])
    have h := ih c c' (by simpa using hc) (by simpa using hc')
    simp only [List.zip_cons_cons, List.map_cons, List.sum_cons]
    rw [add_sub_add_comm]
    refine (norm_add_le _ _).trans (add_le_add (le_of_eq ?_) h)
    rw [← sub_smul, norm_smul, ← Complex.ofReal_sub, Complex.norm_real, Real.norm_eq_abs]

/-- **C213** (signals): errors of the control values change every entry of a gate by at most the slice times the sum, over
slices and channels, of the errors times the norms of the control Hamiltonians. -/
theorem C213_signals (h0 : Matrix n n ℂ) (hks : List (Matrix n n ℂ)) (hh : h0.IsHermitian)
    (hk : ∀ k ∈ hks, k.IsHermitian) (dt : ℝ) (hdt : 0 ≤ dt) (cs cs' : List (List ℝ)) (hcs : cs ≠ [])
    (hl : cs.length = cs'.length) (hw : ∀ c ∈ cs, c.length = hks.length) (hw' : ∀ c ∈ cs', c.length = hks.length)
    (bs : ℕ) (hbs : 1 ≤ bs) :
    ∃ P P', pwc h0 hks dt cs bs (Fold.stackFor cs.length) = some P ∧
      pwc h0 hks dt cs' bs (Fold.stackFor cs'.length) = some P' ∧
      ∀ i j, ‖P i j - P' i j‖ ≤
        dt * ((cs.zip cs').map fun c => (((c.1.zip c.2).zip hks).map fun p => |p.1.1 - p.1.2| * ‖p.2‖).sum).sum := by
  obtain ⟨P, P', h1, h2, -, -, h3⟩ := C213_gates h0 h0 hks hks hh hh hk hk dt hdt cs cs' hcs hl bs bs hbs hbs
  refine ⟨P, P', h1, h2, fun i j => ?_⟩
  refine (Converge.entry_le (P - P') i j).trans (h3.trans (mul_le_mul_of_nonneg_left ?_ hdt))
  refine List.sum_le_sum fun c hc => ?_
  exact ham_sub_norm h0 hks c.1 c.2 (hw _ (List.of_mem_zip hc).1) (hw' _ (List.of_mem_zip hc).2)

/-- **C213** (parameters): if the drift Hamiltonian has an error `X`, such as a detuning times a number operator, the gate
changes by at most the duration of the gate times its norm. -/
theorem C213_drift (h0 X : Matrix n n ℂ) (hks : List (Matrix n n ℂ)) (hh : h0.IsHermitian) (hX : X.IsHermitian)
    (hk : ∀ k ∈ hks, k.IsHermitian) (dt : ℝ) (hdt : 0 ≤ dt) (cs : List (List ℝ)) (hcs : cs ≠ []) (bs : ℕ) (hbs : 1 ≤ bs) :
    ∃ P P', pwc h0 hks dt cs bs (Fold.stackFor cs.length) = some P ∧
      pwc (h0 + X) hks dt cs bs (Fold.stackFor cs.length) = some P' ∧
      ∀ i j, ‖P i j - P' i j‖ ≤ cs.length * dt * ‖X‖ := by
  obtain ⟨P, P', h1, h2, -, -, h3⟩ := C213_gates h0 (h0 + X) hks hks hh (hh.add hX) hk hk dt hdt cs cs hcs rfl bs bs hbs hbs
  refine ⟨P, P', h1, h2, fun i j => ?_⟩
  refine (Converge.entry_le (P - P') i j).trans (h3.trans (le_of_eq ?_))
  have e : ∀ l : List (List ℝ), ((l.zip l).map fun c => ‖ham h0 hks c.1 - ham (h0 + X) hks c.2‖).sum = l.length * ‖X‖ := by
    intro l
    induction l with
    | nil => simp
    | cons c l ih =>
      have e2 : ham h0 hks c - ham (h0 + X) hks c = -X := by
        unfold ham
        abel
      rw [List.zip_cons_cons, List.map_cons, List.sum_cons, ih, e2, norm_neg, List.length_cons]
      push_cast
      ring
  rw [e]
  ring

/-! ## Figures of merit -/

theorem submatrix_norm {m : Type} [Fintype m] [DecidableEq m] (A : Matrix n n ℂ) (f : m → n) (hf : Function.Injective f) :
    ‖A.submatrix f f‖ ≤ ‖A‖ := by
  set E : Matrix n m ℂ := (1 : Matrix n n ℂ).submatrix id f with hE
  have h1 : Eᴴ * E = 1 := by
    ext i j
    simp [hE, Matrix.mul_apply, Matrix.one_apply, hf.eq_iff]
  have h2 : ‖E‖ ≤ 1 := by
    have : ‖E‖ * ‖E‖ ≤ 1 := by
      rw [← l2_opNorm_conjTranspose_mul_self, h1]
      exact Converge.norm_one_le
    nlinarith [norm_nonneg E]
  have h3 : A.submatrix f f = Eᴴ * (A * E) := by
    ext i j
    simp [hE, Matrix.mul_apply, Matrix.one_apply]
  have h4 : ‖Eᴴ‖ ≤ 1 := by
    rw [l2_opNorm_conjTranspose]
    exact h2
  rw [h3]
  refine (l2_opNorm_mul _ _).trans ((mul_le_of_le_one_left (norm_nonneg _) h4).trans ?_)
  exact (l2_opNorm_mul _ _).trans (mul_le_of_le_one_right (norm_nonneg _) h2)

theorem trace_norm {m : Type} [Fintype m] [DecidableEq m] (A : Matrix m m ℂ) : ‖A.trace‖ ≤ Fintype.card m * ‖A‖ := by
  unfold Matrix.trace
  refine (norm_sum_le _ _).trans ?_
  refine (Finset.sum_le_sum fun i _ => Converge.entry_le A i i).trans ?_
  simp

/-- **C213** (infidelity): the infidelities of two gates differ by at most twice the distance of the gates. -/
theorem C213_infid (ideal actual actual' : Arr ℂ) (dims index : List ℕ) (hd : ∀ d ∈ dims, 2 ≤ d)
    (hne : index ≠ []) (hnd : index.Nodup) (hlt : ∀ i ∈ index, i < dims.length)
    (hr : actual.rows = dims.prod) (hc : actual.cols = dims.prod) (hr' : actual'.rows = dims.prod)
    (hc' : actual'.cols = dims.prod) (hir : ideal.rows = 2 ^ index.length) (hic : ideal.cols = 2 ^ index.length)
    (hU : (actual.mat dims.prod dims.prod)ᴴ * actual.mat dims.prod dims.prod = 1)
    (hU' : (actual'.mat dims.prod dims.prod)ᴴ * actual'.mat dims.prod dims.prod = 1)
    (hV : (ideal.mat (outDims dims index).prod (outDims dims index).prod)ᴴ *
      ideal.mat (outDims dims index).prod (outDims dims index).prod = 1) :
    ∃ x x', unitaryInfid ideal actual (some index) dims = some x ∧ unitaryInfid ideal actual' (some index) dims = some x' ∧
      |x - x'| ≤ 2 * ‖actual.mat dims.prod dims.prod - actual'.mat dims.prod dims.prod‖ := by
  have hp := outDims_prod dims index hnd hlt
  have : Nonempty (Fin (outDims dims index).prod) := ⟨⟨0, by rw [hp]; positivity⟩⟩
  have hcard : (Fintype.card (Fin (outDims dims index).prod) : ℝ) = 2 ^ index.length := by
    rw [Fintype.card_fin, hp]
    push_cast
    rfl
  refine ⟨_, _, C61_value ideal actual dims index hd hne hnd hlt hr hc hir hic,
    C61_value ideal actual' dims index hd hne hnd hlt hr' hc' hir hic, ?_⟩
  have h1 := (block_overlap _ hU _ (compEmb_injective dims index hd) _ hV).1
  have h1' := (block_overlap _ hU' _ (compEmb_injective dims index hd) _ hV).1
  set A := actual.mat dims.prod dims.prod
  set A' := actual'.mat dims.prod dims.prod
  set V := ideal.mat (outDims dims index).prod (outDims dims index).prod
  set f := compEmb dims index hd
  rw [hcard] at h1 h1'
  set D : ℝ := 2 ^ index.length with hD
  have hpos : 0 < D := by positivity
  have h2 : |‖(A.submatrix f f * Vᴴ).trace‖ - ‖(A'.submatrix f f * Vᴴ).trace‖| ≤ D * ‖A - A'‖ := by
    refine (abs_norm_sub_norm_le _ _).trans ?_
    rw [← Matrix.trace_sub, ← sub_mul]
    have e : A.submatrix f f - A'.submatrix f f = (A - A').submatrix f f := rfl
    rw [e]
    refine (trace_norm _).trans ?_
    rw [hcard]
    refine mul_le_mul_of_nonneg_left ?_ hpos.le
    have hVn : ‖Vᴴ‖ ≤ 1 := by
      rw [l2_opNorm_conjTranspose]
      exact Average.norm_le_one_of_unitary hV
    refine (norm_mul_le _ _).trans ((mul_le_of_le_one_right (norm_nonneg _) hVn).trans ?_)
    exact submatrix_norm _ f (compEmb_injective dims index hd)
  set t := ‖(A.submatrix f f * Vᴴ).trace‖
  set t' := ‖(A'.submatrix f f * Vᴴ).trace‖
  have q1 : t / D ≤ 1 := (div_le_one hpos).2 h1
  have q1' : t' / D ≤ 1 := (div_le_one hpos).2 h1'
  have q0 : 0 ≤ t / D := div_nonneg (norm_nonneg _) hpos.le
  have q0' : 0 ≤ t' / D := div_nonneg (norm_nonneg _) hpos.le
  have q2 : |t / D - t' / D| ≤ ‖A - A'‖ := by
    rw [← sub_div, abs_div, abs_of_pos hpos, div_le_iff₀ hpos, mul_comm]
    exact h2
  have e : 1 - (t / D) ^ 2 - (1 - (t' / D) ^ 2) = -((t / D - t' / D) * (t / D + t' / D)) := by ring
  rw [e, abs_neg, abs_mul, abs_of_nonneg (add_nonneg q0 q0')]
  calc _ ≤ ‖A - A'‖ * 2 := mul_le_mul q2 (by linarith) (by positivity) (norm_nonneg _)
    _ = _ := by ring

/-! ## Populations -/

theorem vec_le (A : Matrix n n ℂ) (psi : n → ℂ) (h : ∑ i, ‖psi i‖ ^ 2 = 1) (i : n) : ‖(A *ᵥ psi) i‖ ≤ ‖A‖ := by
  have h1 := l2_opNorm_mulVec A (WithLp.toLp 2 psi : EuclideanSpace ℂ n)
  have h2 : ‖(WithLp.toLp 2 psi : EuclideanSpace ℂ n)‖ = 1 := by
    rw [EuclideanSpace.norm_eq]
    simp [h]
  rw [h2, mul_one] at h1
  have h3 := PiLp.norm_apply_le (p := 2) (WithLp.toLp 2 (A *ᵥ psi) : EuclideanSpace ℂ n) i
  exact h3.trans h1

/-- **C213** (populations): if every gate of a sequence is within `ε` of another one, the populations after the sequence
differ by at most twice the sum of the `ε` of its gates. -/
theorem C213_populations (props props' : String → Option (Matrix n n ℂ)) (seqs : List (List String)) (psi : n → ℂ)
    (hpsi : ∑ i, ‖psi i‖ ^ 2 = 1) (ε : String → ℝ)
    (h : ∀ s ∈ seqs, ∀ g ∈ s, ∃ U U', props g = some U ∧ props' g = some U' ∧ Uᴴ * U = 1 ∧ U'ᴴ * U' = 1 ∧ ‖U - U'‖ ≤ ε g) :
    ∃ ps ps', Experiment.evaluateClosed props seqs psi = some ps ∧ Experiment.evaluateClosed props' seqs psi = some ps' ∧
      ps.length = seqs.length ∧ ps'.length = seqs.length ∧
      ∀ (k : ℕ) (p p' : n → ℝ) (s : List String), ps[k]? = some p → ps'[k]? = some p' → seqs[k]? = some s → ∀ i, |p i - p' i| ≤ 2 * (s.map ε).sum := by
  obtain ⟨h1, -⟩ := Experiment.C65_closed props seqs psi
    (fun s hs g hg => let ⟨U, _, e, _, u, _⟩ := h s hs g hg; ⟨U, e, u⟩) hpsi
  obtain ⟨h2, -⟩ := Experiment.C65_closed props' seqs psi
    (fun s hs g hg => let ⟨_, U', _, e, _, u, _⟩ := h s hs g hg; ⟨U', e, u⟩) hpsi
  refine ⟨_, _, h1, h2, by simp, by simp, fun k p p' s hp hp' hs i => ?_⟩
  rw [List.getElem?_map, hs, Option.map_some, Option.some.injEq] at hp hp'
  have hmem : s ∈ seqs := List.mem_of_getElem? hs
  subst hp hp'
  beta_reduce
  set W := Fold.seqProp (fun g => (props g).getD 1) s with hW
  set W' := Fold.seqProp (fun g => (props' g).getD 1) s with hW'
  have hc := product_close (s.map fun g => ((props g).getD 1, (props' g).getD 1)) (by
    intro q hq
    obtain ⟨g, hg, rfl⟩ := List.mem_map.1 hq
    obtain ⟨U, U', e, e', u, u', -⟩ := h s hmem g hg
    rw [e, e']
    exact ⟨Average.norm_le_one_of_unitary u, Average.norm_le_one_of_unitary u'⟩)
  have hc' := product_close (s.map fun g => ((props' g).getD 1, (props g).getD 1)) (by
    intro q hq
    obtain ⟨g, hg, rfl⟩ := List.mem_map.1 hq
    obtain ⟨U, U', e, e', u, u', -⟩ := h s hmem g hg
    rw [e, e']
    exact ⟨Average.norm_le_one_of_unitary u', Average.norm_le_one_of_unitary u⟩)
  simp only [List.map_map, Function.comp_def] at hc hc'
  have hd : ‖W - W'‖ ≤ (s.map ε).sum := by
    refine hc.2.trans (List.sum_le_sum fun g hg => ?_)
    obtain ⟨U, U', e, e', -, -, hε⟩ := h s hmem g hg
    rw [e, e']
    exact hε
  have a1 : ‖(W *ᵥ psi) i‖ ≤ 1 := (vec_le W psi hpsi i).trans hc.1
  have a2 : ‖(W' *ᵥ psi) i‖ ≤ 1 := (vec_le W' psi hpsi i).trans hc'.1
  have a3 : |‖(W *ᵥ psi) i‖ - ‖(W' *ᵥ psi) i‖| ≤ (s.map ε).sum := by
    refine (abs_norm_sub_norm_le _ _).trans (le_trans ?_ hd)
    have := vec_le (W - W') psi hpsi i
    rwa [sub_mulVec] at this
  have e : ‖(W *ᵥ psi) i‖ ^ 2 - ‖(W' *ᵥ psi) i‖ ^ 2 =
      (‖(W *ᵥ psi) i‖ - ‖(W' *ᵥ psi) i‖) * (‖(W *ᵥ psi) i‖ + ‖(W' *ᵥ psi) i‖) := by ring
  rw [e, abs_mul, abs_of_nonneg (add_nonneg (norm_nonneg _) (norm_nonneg _))]
  calc _ ≤ (s.map ε).sum * 2 := mul_le_mul a3 (by linarith) (by positivity) ((abs_nonneg _).trans a3)
    _ = _ := by ring

/-! The hypotheses are satisfiable. -/

example : ∃ P P', pwc (1 : Matrix (Fin 2) (Fin 2) ℂ) [!![0, 1; 1, 0]] 1 [[1], [2]] 1 (Fold.stackFor 2) = some P ∧
    pwc (1 : Matrix (Fin 2) (Fin 2) ℂ) [!![0, 1; 1, 0]] 1 [[1], [3]] 1 (Fold.stackFor 2) = some P' ∧
    ∀ i j, ‖P i j - P' i j‖ ≤ ‖(!![0, 1; 1, 0] : Matrix (Fin 2) (Fin 2) ℂ)‖ := by
  have hx : (!![0, 1; 1, 0] : Matrix (Fin 2) (Fin 2) ℂ).IsHermitian := by
    ext i j
    fin_cases i <;> fin_cases j <;> simp
  obtain ⟨P, P', h1, h2, h3⟩ := C213_signals (1 : Matrix (Fin 2) (Fin 2) ℂ) [!![0, 1; 1, 0]] (isHermitian_one) (by simpa using hx)
    1 zero_le_one [[1], [2]] [[1], [3]] (by simp) rfl (by simp) (by simp) 1 le_rfl
  refine ⟨P, P', h1, h2, fun i j => (h3 i j).trans (le_of_eq ?_)⟩
  norm_num

example : ∃ x x', unitaryInfid ⟨2, 2, fun i j => if i = j then 1 else 0⟩ ⟨2, 2, fun i j => if i = j then 1 else 0⟩
      (some [0]) [2] = some x ∧
    unitaryInfid ⟨2, 2, fun i j => if i = j then 1 else 0⟩ ⟨2, 2, fun i j => if i = j then Complex.I else 0⟩
      (some [0]) [2] = some x' ∧ |x - x'| ≤ 2 * ‖(1 : Matrix (Fin 2) (Fin 2) ℂ) - Complex.I • 1‖ := by
  have e1 : ∀ z : ℂ, (⟨2, 2, fun i j => if i = j then z else 0⟩ : Arr ℂ).mat 2 2 = z • 1 := by
    intro z
    ext i j
    simp [Arr.mat, Matrix.one_apply, Fin.ext_iff]
  have e2 : ∀ z : ℂ, star z * z = 1 → ((⟨2, 2, fun i j => if i = j then z else 0⟩ : Arr ℂ).mat 2 2)ᴴ *
      (⟨2, 2, fun i j => if i = j then z else 0⟩ : Arr ℂ).mat 2 2 = 1 := by
    intro z hz
    rw [e1, conjTranspose_smul, conjTranspose_one, smul_mul_smul_comm, hz, one_smul, mul_one]
  obtain ⟨x, x', h1, h2, h3⟩ := C213_infid ⟨2, 2, fun i j => if i = j then 1 else 0⟩
    ⟨2, 2, fun i j => if i = j then 1 else 0⟩ ⟨2, 2, fun i j => if i = j then Complex.I else 0⟩ [2] [0] (by simp) (by simp)
    (by simp) (by simp) rfl rfl rfl rfl rfl rfl
    (e2 1 (by simp)) (e2 Complex.I (by simp)) (e2 1 (by simp))
  refine ⟨x, x', h1, h2, h3.trans (le_of_eq ?_)⟩
  change 2 * ‖Arr.mat _ 2 2 - Arr.mat _ 2 2‖ = _
  rw [e1, e1, one_smul]
  rfl

example : ∃ ps ps', Experiment.evaluateClosed (fun _ => some (1 : Matrix (Fin 2) (Fin 2) ℂ)) [["g"]] (Pi.single 0 1) = some ps ∧
    Experiment.evaluateClosed (fun _ => some (1 : Matrix (Fin 2) (Fin 2) ℂ)) [["g"]] (Pi.single 0 1) = some ps' := by
  obtain ⟨ps, ps', h1, h2, -⟩ := C213_populations (fun _ => some (1 : Matrix (Fin 2) (Fin 2) ℂ)) (fun _ => some 1) [["g"]]
    (Pi.single 0 1) (by simp [Fin.sum_univ_two]) (fun _ => 0) (by
      intro s _ g _
      exact ⟨1, 1, rfl, rfl, by simp, by simp, by simp⟩)
  exact ⟨ps, ps', h1, h2⟩

/-! ## `tsit5` -/

omit [DecidableEq n] in
theorem ket_lift (G W : ℝ → Matrix n n ℂ) (a b : ℝ) (v : n → ℂ) (hW : ∀ t ∈ Icc a b, ∀ i j,
    HasDerivWithinAt (fun t => W t i j) (((-Complex.I) • (G t * W t)) i j) (Icc a b) t) :
    SolverConverge.Ket G a b fun t => W t *ᵥ v := by
  intro t ht i
  have h1 : HasDerivWithinAt (fun t => ∑ j, W t i j * v j)
      (∑ j, ((-Complex.I) • (G t * W t)) i j * v j) (Icc a b) t :=
    HasDerivWithinAt.fun_sum fun j _ => (hW t ht i j).mul_const _
  refine h1.congr_deriv ?_
  rw [mulVec_mulVec]
  simp only [Matrix.smul_apply, smul_eq_mul, mulVec, dotProduct, Finset.mul_sum, mul_assoc]

theorem shifted (G W : ℝ → Matrix n n ℂ) (a T : ℝ) (hW : ∀ t ∈ Icc a (a + T), ∀ i j,
    HasDerivWithinAt (fun t => W t i j) (((-Complex.I) • (G t * W t)) i j) (Icc a (a + T)) t) :
    ∀ t ∈ Icc 0 T, HasDerivWithinAt (fun t => W (a + t)) ((-Complex.I) • (G (a + t) * W (a + t))) (Icc 0 T) t := by
  intro t ht
  have h1 := Converge.hasDeriv_of_entries W _ _ (a + t) (hW (a + t) ⟨by linarith [ht.1], by linarith [ht.2]⟩)
  have h2 : HasDerivWithinAt (fun t => a + t) 1 (Icc 0 T) t := ((hasDerivAt_id t).const_add a).hasDerivWithinAt
  have h3 := h1.scomp t h2 (fun τ hτ => ⟨by linarith [hτ.1], by linarith [hτ.2]⟩)
  rwa [one_smul] at h3

theorem scaled_unitary (H U V : ℝ → Matrix n n ℂ) (κ a T : ℝ) (hT : 0 ≤ T) (M : ℝ)
    (hH : ∀ t ∈ Icc a (a + T), (H t)ᴴ = H t ∧ ‖H t‖ ≤ M) (hU0 : U a = 1) (hV0 : V a = 1)
    (hU1 : ∀ t ∈ Icc a (a + T), ∀ i j,
      HasDerivWithinAt (fun t => U t i j) (((-Complex.I) • (H t * U t)) i j) (Icc a (a + T)) t)
    (hV1 : ∀ t ∈ Icc a (a + T), ∀ i j,
      HasDerivWithinAt (fun t => V t i j) (((-Complex.I) • (((κ : ℂ) • H t) * V t)) i j) (Icc a (a + T)) t) :
    ‖V (a + T) - U (a + T)‖ ≤ T * (|κ - 1| * M) := by
  have hmem : ∀ t ∈ Icc 0 T, a + t ∈ Icc a (a + T) := fun t ht => ⟨by linarith [ht.1], by linarith [ht.2]⟩
  have hb1 : ∀ t ∈ Icc 0 T, ((κ : ℂ) • H (a + t))ᴴ = (κ : ℂ) • H (a + t) := fun t ht => by
    rw [conjTranspose_smul, (hH _ (hmem t ht)).1]
    congr 1
    exact Complex.conj_ofReal _
  have hb2 : ∀ t ∈ Icc 0 T, ‖(κ : ℂ) • H (a + t) - H (a + t)‖ ≤ |κ - 1| * M := fun t ht => by
    have e : (κ : ℂ) • H (a + t) - H (a + t) = ((κ - 1 : ℝ) : ℂ) • H (a + t) := by
      rw [Complex.ofReal_sub, Complex.ofReal_one, sub_smul, one_smul]
    rw [e, norm_smul, Complex.norm_real, Real.norm_eq_abs]
    exact mul_le_mul_of_nonneg_left (hH _ (hmem t ht)).2 (abs_nonneg _)
  have s1 := shifted (fun t => (κ : ℂ) • H t) V a T hV1
  have s2 := shifted H U a T hU1
  exact close (fun t => (κ : ℂ) • H (a + t)) (fun t => H (a + t)) (fun t => V (a + t)) (fun t => U (a + t)) T hT
    (by rw [add_zero]; exact hV0) (by rw [add_zero]; exact hU0) s1 s2 hb1
    (fun t ht => (hH _ (hmem t ht)).1) _ hb2

/-- The evolution with the energies multiplied by `κ`. -/
theorem scaled_close (H : ℝ → Matrix n n ℂ) (κ a T : ℝ) (hT : 0 ≤ T)
    (hcont : ∀ i j, ContinuousOn (fun t => H t i j) (Icc a (a + T))) (M : ℝ)
    (hH : ∀ t ∈ Icc a (a + T), (H t)ᴴ = H t ∧ ‖H t‖ ≤ M)
    (psi : ℝ → n → ℂ) (hpsi : ∑ i, ‖psi a i‖ ^ 2 = 1) (hU : SolverConverge.Ket H a (a + T) psi) :
    ∃ phi, phi a = psi a ∧ SolverConverge.Ket (fun t => (κ : ℂ) • H t) a (a + T) phi ∧
      ∀ i, ‖phi (a + T) i - psi (a + T) i‖ ≤ T * (|κ - 1| * M) := by
  have hcont' : ∀ i j, ContinuousOn (fun t => ((κ : ℂ) • H t) i j) (Icc a (a + T)) := fun i j =>
    continuousOn_const.mul (hcont i j)
  obtain ⟨U, ⟨hU0, hU1⟩, -⟩ := Exists.C202_solution H a (a + T) (by linarith) hcont
  obtain ⟨V, ⟨hV0, hV1⟩, -⟩ := Exists.C202_solution (fun t => (κ : ℂ) • H t) a (a + T) (by linarith) hcont'
  obtain ⟨phi, -, huniq⟩ := Exists.C204_solution H a (a + T) (by linarith) hcont (psi a)
  have hTm : a + T ∈ Icc a (a + T) := ⟨by linarith, le_rfl⟩
  have hpsiT : psi (a + T) = U (a + T) *ᵥ psi a := by
    rw [huniq psi ⟨rfl, hU⟩ _ hTm]
    exact (huniq (fun t => U t *ᵥ psi a) ⟨by rw [hU0, one_mulVec], ket_lift _ U _ _ _ hU1⟩ _ hTm).symm
  have hclose := scaled_unitary H U V κ a T hT M hH hU0 hV0 hU1 hV1
  refine ⟨fun t => V t *ᵥ psi a, by beta_reduce; rw [hV0, one_mulVec], ket_lift _ V _ _ _ hV1, fun i => ?_⟩
  have h2 := (vec_le (V (a + T) - U (a + T)) (psi a) hpsi i).trans hclose
  rw [hpsiT]
  rwa [sub_mulVec] at h2

/-- C204 (`tsit5`): for Hermitian Hamiltonians of norm at most `M` the final state differs from the solution of the
Schrödinger equation by at most `1.5e-16 M T`, from the rounding of the weights, plus a constant over `N`. -/
theorem C204_tsit5_bound (a T : ℝ) (hT : 0 < T) (h0 : Matrix n n ℂ) (hc : String → Matrix n n ℂ)
    (sigs : List (String × (ℝ → ℝ))) (hne : sigs ≠ []) (hf : ∀ p ∈ sigs, SolverConverge.LipOn a (a + T) p.2) (M : ℝ)
    (hH : ∀ t ∈ Icc a (a + T), (SolverConverge.driveBy h0 hc sigs t)ᴴ = SolverConverge.driveBy h0 hc sigs t ∧
      ‖SolverConverge.driveBy h0 hc sigs t‖ ≤ M)
    (psi : ℝ → n → ℂ) (hpsi : ∑ i, ‖psi a i‖ ^ 2 = 1)
    (hU : SolverConverge.Ket (SolverConverge.driveBy h0 hc sigs) a (a + T) psi) :
    ∃ C : ℝ, ∀ N : ℕ, 2 ≤ N → ∃ ts out, Devices.createTs (N / T) a (a + T) true = some ts ∧
      HsOfT.finalState schrodingerStep h0 (fun k => some (hc k)) .tsit5 (SolverConverge.channels sigs ts) (psi a) =
        .ok (out, ts) ∧ ∀ i, ‖out i - psi (a + T) i‖ ≤ 1.5e-16 * M * T + C / N := by
  obtain ⟨phi, p1, p2, p3⟩ := scaled_close (SolverConverge.driveBy h0 hc sigs) Order.tsitScale a T hT.le
    (Exists.driveBy_continuous h0 hc sigs (Icc a (a + T)) fun p hp => Exists.lip_continuous (hf p hp)) M hH psi hpsi hU
  obtain ⟨hk, hket, -⟩ := SolverConverge.C204_tsit5 a T hT h0 hc [] sigs hne hf
  obtain ⟨C, hC⟩ := hket phi p2
  have hM : 0 ≤ M := (norm_nonneg _).trans (hH a ⟨le_rfl, by linarith⟩).2
  have hb : T * (|Order.tsitScale - 1| * M) ≤ 1.5e-16 * M * T := by
    have := mul_le_mul_of_nonneg_right hk hM
    nlinarith
  refine ⟨C, fun N hN => ?_⟩
  obtain ⟨ts, out, g1, g2, g3⟩ := hC N hN
  rw [p1] at g2
  refine ⟨ts, out, g1, g2, fun i => ?_⟩
  have e : out i - psi (a + T) i = (out i - phi (a + T) i) + (phi (a + T) i - psi (a + T) i) := by ring
  rw [e]
  refine (norm_add_le _ _).trans ?_
  have h1 := g3 i
  have h2 := p3 i
  linarith

end C3.Fidelity.Sensitive
