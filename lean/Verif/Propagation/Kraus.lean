import Verif.Propagation.Positive
import Verif.Fold.Model
import Mathlib.LinearAlgebra.Matrix.PosDef
import Mathlib.Analysis.Matrix.Order

/-!
# C232: open-system gates are quantum channels

The gates of the open system, `tf_propagation_lind` and `pwc` (c3/libraries/propagation.py), `tf_super` (c3/utils/tf_utils.py)
for the frame rotation, and products of gates have Kraus operators.
-/

set_option linter.unusedSectionVars false

namespace C3.Propagation.Kraus

open Matrix Kronecker NormedSpace Filter Topology C3.Propagation
open scoped ComplexOrder

variable {n : Type*} [Fintype n] [DecidableEq n]

/-! ## Specification -/

/-- The map of density matrices with these Kraus operators. -/
def channel (Ks : List (Matrix n n ℂ)) (rho : Matrix n n ℂ) : Matrix n n ℂ := (Ks.map fun K => K * rho * Kᴴ).sum

/-- The operator on row-stacked density matrices is a channel: it has Kraus operators, whose squares add up to one. -/
def HasKraus (S : Matrix (n × n) (n × n) ℂ) : Prop :=
  ∃ Ks : List (Matrix n n ℂ), (Ks.map fun K => Kᴴ * K).sum = 1 ∧ ∀ rho, unRow (S *ᵥ rowVec rho) = channel Ks rho

/-- The operator acts on the first of two systems, nothing happens to the second. -/
def onFirst {k : Type*} (S : Matrix (n × n) (n × n) ℂ) (rho : Matrix (n × k) (n × k) ℂ) : Matrix (n × k) (n × k) ℂ :=
  of fun p q => ∑ c, ∑ d, S (p.1, q.1) (c, d) * rho (c, p.2) (d, q.2)

/-! ## The Choi matrix -/

/-- The entries of the operator in another order. -/
def choi (S : Matrix (n × n) (n × n) ℂ) : Matrix (n × n) (n × n) ℂ := of fun p q => S (p.1, q.1) (p.2, q.2)

theorem eq_of_rowVec (S T : Matrix (n × n) (n × n) ℂ) (h : ∀ rho : Matrix n n ℂ, S *ᵥ rowVec rho = T *ᵥ rowVec rho) :
    S = T := by
  ext p q
  have := congrFun (h (unRow (Pi.single q 1))) p
  simpa using this

theorem tfSuper_apply (K : Matrix n n ℂ) (a b c d : n) : tfSuper K (a, b) (c, d) = K a c * star (K b d) := by
  rw [tfSuper, spre, spost, ← mul_kronecker_mul]
  simp

theorem sum_tfSuper_mulVec (Ks : List (Matrix n n ℂ)) (rho : Matrix n n ℂ) :
    (Ks.map tfSuper).sum *ᵥ rowVec rho = rowVec (channel Ks rho) := by
  unfold channel
  induction Ks with
  | nil => simp [rowVec_zero]
  | cons K Ks ih => rw [List.map_cons, List.sum_cons, add_mulVec, ih, C26_super_row, List.map_cons, List.sum_cons, rowVec_add]

theorem eq_sum_iff (S : Matrix (n × n) (n × n) ℂ) (Ks : List (Matrix n n ℂ)) :
    S = (Ks.map tfSuper).sum ↔ ∀ rho, unRow (S *ᵥ rowVec rho) = channel Ks rho := by
  constructor
  · rintro rfl rho
    rw [sum_tfSuper_mulVec, unRow_rowVec]
  · intro h
    apply eq_of_rowVec
    intro rho
    rw [sum_tfSuper_mulVec, ← h rho, rowVec_unRow]

theorem choi_super_pos (K : Matrix n n ℂ) : (choi (tfSuper K)).PosSemidef := by
  have : choi (tfSuper K) = vecMulVec (fun p : n × n => K p.1 p.2) (star fun p : n × n => K p.1 p.2) := by
    ext p q
    simp [choi, tfSuper_apply, vecMulVec_apply]
  rw [this]
  exact posSemidef_vecMulVec_self_star _

theorem choi_sum (l : List (Matrix (n × n) (n × n) ℂ)) : choi l.sum = (l.map choi).sum := by
  induction l with
  | nil => rfl
  | cons S l ih =>
    rw [List.sum_cons, List.map_cons, List.sum_cons, ← ih]
    rfl

open scoped MatrixOrder Norms.L2Operator in
theorem exists_root {m : Type*} [Fintype m] [DecidableEq m] {M : Matrix m m ℂ} (h : M.PosSemidef) :
    ∃ B : Matrix m m ℂ, M = Bᴴ * B :=
  CStarAlgebra.nonneg_iff_eq_star_mul_self.1 h.nonneg

theorem choi_pos_iff (S : Matrix (n × n) (n × n) ℂ) :
    (choi S).PosSemidef ↔ ∃ Ks : List (Matrix n n ℂ), S = (Ks.map tfSuper).sum := by
  constructor
  · intro h
    obtain ⟨B, hB⟩ : ∃ B : Matrix (n × n) (n × n) ℂ, choi S = Bᴴ * B := exists_root h
    refine ⟨(Finset.univ : Finset (n × n)).toList.map fun x => of fun a c => star (B x (a, c)), ?_⟩
    ext ⟨a, b⟩ ⟨c, d⟩
    have h1 : S (a, b) (c, d) = choi S (a, c) (b, d) := rfl
    rw [h1, hB, Matrix.mul_apply, List.map_map, Finset.sum_map_toList, Matrix.sum_apply]
    refine Finset.sum_congr rfl fun x _ => ?_
    simp [tfSuper_apply]
  · rintro ⟨Ks, rfl⟩
    rw [choi_sum]
    apply posSemidef_list_sum
    intro M hM
    obtain ⟨N, hN, rfl⟩ := List.mem_map.1 hM
    obtain ⟨K, _, rfl⟩ := List.mem_map.1 hN
    exact choi_super_pos K

theorem sum_super_mul (Ks Ls : List (Matrix n n ℂ)) :
    (Ks.map tfSuper).sum * (Ls.map tfSuper).sum = ((Ks.flatMap fun K => Ls.map fun L => K * L).map tfSuper).sum := by
  have h : ∀ K : Matrix n n ℂ, tfSuper K * (Ls.map tfSuper).sum = ((Ls.map fun L => K * L).map tfSuper).sum := by
    intro K
    induction Ls with
    | nil => simp
    | cons L Ls ih => rw [List.map_cons, List.sum_cons, mul_add, ih, List.map_cons, List.map_cons, List.sum_cons, C26_super_mul]
  induction Ks with
  | nil => simp
  | cons K Ks ih =>
    rw [List.map_cons, List.sum_cons, add_mul, ih, List.flatMap_cons, List.map_append, List.sum_append, h]

/-- The operators with Kraus operators, whatever these add up to. -/
def krausMaps (n : Type*) [Fintype n] [DecidableEq n] : Submonoid (Matrix (n × n) (n × n) ℂ) where
  carrier := {S | (choi S).PosSemidef}
  one_mem' := (choi_pos_iff 1).2 ⟨[1], eq_of_rowVec _ _ fun rho => by
    rw [sum_tfSuper_mulVec, one_mulVec]
    simp [channel]⟩
  mul_mem' := by
    intro a b ha hb
    obtain ⟨Ks, rfl⟩ := (choi_pos_iff a).1 ha
    obtain ⟨Ls, rfl⟩ := (choi_pos_iff b).1 hb
    exact (choi_pos_iff _).2 ⟨_, sum_super_mul Ks Ls⟩

theorem super_smul (c : ℂ) (K : Matrix n n ℂ) : tfSuper (c • K) = (c * star c) • tfSuper K := by
  ext ⟨a, b⟩ ⟨d, e⟩
  simp only [tfSuper_apply, Matrix.smul_apply, smul_eq_mul, star_mul]
  ring

theorem approx_mem (h : Matrix n n ℂ) (hh : h.IsHermitian) (cols : List (Matrix n n ℂ)) (e : ℝ) (he : 0 ≤ e) :
    1 + (e : ℂ) • lindOp h cols + ((e : ℂ) ^ 2) • tfSuper (effK h cols) ∈ krausMaps n := by
  refine (choi_pos_iff _).2 ⟨(1 + (e : ℂ) • effK h cols) :: cols.map fun L => ((Real.sqrt e : ℝ) : ℂ) • L, ?_⟩
  apply eq_of_rowVec
  intro rho
  have hs : ((Real.sqrt e : ℝ) : ℂ) * star ((Real.sqrt e : ℝ) : ℂ) = (e : ℂ) := by
    rw [Complex.star_def, Complex.conj_ofReal, ← Complex.ofReal_mul, Real.mul_self_sqrt he]
  have hc : (cols.map fun L => (((Real.sqrt e : ℝ) : ℂ) • L) * rho * (((Real.sqrt e : ℝ) : ℂ) • L)ᴴ).sum =
      (e : ℂ) • (cols.map fun L => L * rho * Lᴴ).sum := by
    rw [List.smul_sum, List.map_map]
    congr 1
    refine List.map_congr_left fun L _ => ?_
    rw [conjTranspose_smul, smul_mul_assoc, smul_mul_assoc, mul_smul_comm, smul_smul, hs]
    rfl
  rw [sum_tfSuper_mulVec]
  unfold channel
  rw [List.map_cons, List.sum_cons, List.map_map]
  simp only [Function.comp_def]
  rw [hc, add_mulVec, add_mulVec, one_mulVec, smul_mulVec, smul_mulVec, lindOp_mulVec, C26_super_row,
    ← rowVec_smul, ← rowVec_smul, ← rowVec_add, ← rowVec_add, masterRHS_eq_effK h hh, conjTranspose_add, conjTranspose_one,
    conjTranspose_smul]
  congr 1
  simp only [Complex.star_def, Complex.conj_ofReal, add_mul, mul_add, one_mul, mul_one,
    smul_mul_assoc, mul_smul_comm, smul_add, smul_smul]
  rw [pow_two]
  abel

open scoped Norms.Operator in
theorem krausMaps_closed (S : ℕ → Matrix (n × n) (n × n) ℂ) (T : Matrix (n × n) (n × n) ℂ)
    (hS : Tendsto S atTop (𝓝 T)) (h : ∀ k, S k ∈ krausMaps n) : T ∈ krausMaps n := by
  have hent : ∀ p q, Tendsto (fun k => choi (S k) p q) atTop (𝓝 (choi T p q)) := by
    intro p q
    have hc : Continuous fun M : Matrix (n × n) (n × n) ℂ => M (p.1, q.1) (p.2, q.2) := continuous_id.matrix_elem _ _
    exact (hc.tendsto T).comp hS
  change (choi T).PosSemidef
  rw [posSemidef_iff_dotProduct_mulVec]
  constructor
  · ext i j
    rw [conjTranspose_apply]
    have h1 := hent i j
    have h2 := (Complex.continuous_conj.tendsto _).comp (hent j i)
    refine tendsto_nhds_unique (f := fun k => choi (S k) i j) (h2.congr ?_) h1
    intro k
    exact (h k).1.apply i j
  · intro x
    have hq : Tendsto (fun k => star x ⬝ᵥ (choi (S k) *ᵥ x)) atTop (𝓝 (star x ⬝ᵥ (choi T *ᵥ x))) := by
      simp only [dotProduct, mulVec]
      refine tendsto_finsetSum _ fun i _ => Tendsto.const_mul _ ?_
      exact tendsto_finsetSum _ fun j _ => (hent i j).mul_const _
    exact ge_of_tendsto hq (Eventually.of_forall fun k => (h k).dotProduct_mulVec_nonneg x)

open scoped Norms.Operator in
theorem exp_mem (h : Matrix n n ℂ) (hh : h.IsHermitian) (cols : List (Matrix n n ℂ))
    (t : ℝ) (ht : 0 ≤ t) : exp ((t : ℂ) • lindOp h cols) ∈ krausMaps n := by
  rcases isEmpty_or_nonempty n with hn | hn
  · have : exp ((t : ℂ) • lindOp h cols) = 1 := by
      ext i; exact hn.elim i.1
    rw [this]
    exact one_mem _
  · have hlim := tendsto_pow_exp ((t : ℂ) • lindOp h cols)
      (((t : ℂ) ^ 2) • tfSuper (effK h cols))
    refine krausMaps_closed _ _ hlim fun k => ?_
    apply Submonoid.pow_mem
    have := approx_mem h hh cols (t / k) (by positivity)
    convert this using 2
    · congr 1
      ext p q
      simp
      ring
    · ext p q
      simp
      ring

/-! ## Channels -/

theorem trace_channel (Ks : List (Matrix n n ℂ)) (rho : Matrix n n ℂ) :
    (channel Ks rho).trace = ((Ks.map fun K => Kᴴ * K).sum * rho).trace := by
  unfold channel
  induction Ks with
  | nil => simp
  | cons K Ks ih =>
    rw [List.map_cons, List.sum_cons, List.map_cons, List.sum_cons, trace_add, add_mul, trace_add, ih, Matrix.trace_mul_cycle]

/-- Channels are the maps with Kraus operators that keep the trace. -/
theorem hasKraus_iff (S : Matrix (n × n) (n × n) ℂ) :
    HasKraus S ↔ S ∈ krausMaps n ∧ ∀ v, vecTrace (S *ᵥ v) = vecTrace v := by
  constructor
  · rintro ⟨Ks, h1, h2⟩
    refine ⟨(choi_pos_iff S).2 ⟨Ks, (eq_sum_iff S Ks).2 h2⟩, fun v => ?_⟩
    have h3 := trace_channel Ks (unRow v)
    rw [h1, one_mul, ← h2, rowVec_unRow] at h3
    exact h3
  · rintro ⟨h1, h2⟩
    obtain ⟨Ks, rfl⟩ := (choi_pos_iff S).1 h1
    refine ⟨Ks, ?_, (eq_sum_iff _ Ks).1 rfl⟩
    have h3 : ∀ rho : Matrix n n ℂ, ((Ks.map fun K => Kᴴ * K).sum * rho).trace = rho.trace := by
      intro rho
      rw [← trace_channel, ← vecTrace_rowVec rho, ← h2 (rowVec rho), sum_tfSuper_mulVec, vecTrace_rowVec]
    ext i j
    have h4 := h3 (Matrix.single j i 1)
    have h5 : ((Ks.map fun K => Kᴴ * K).sum * Matrix.single j i (1 : ℂ)).trace = (Ks.map fun K => Kᴴ * K).sum i j := by
      generalize (Ks.map fun K => Kᴴ * K).sum = M
      simp [Matrix.trace_mul_single]
    rw [← h5, h4, Matrix.one_apply]
    by_cases hij : i = j
    · subst hij; simp
    · rw [if_neg hij, Matrix.trace_single_eq_of_ne _ _ _ (fun e => hij e.symm)]

/-- **C232** (slice): a slice of the open system is a channel. -/
theorem C232_slice (h0 : Matrix n n ℂ) (hks cols : List (Matrix n n ℂ)) (h : h0.IsHermitian)
    (hk : ∀ H ∈ hks, H.IsHermitian) (dt : ℝ) (hdt : 0 ≤ dt) (c : List ℝ) : HasKraus (dUOfTLind h0 hks cols dt c) :=
  (hasKraus_iff _).2 ⟨exp_mem _ (isHermitian_hamAt _ _ h fun _ hp => hk _ (List.of_mem_zip hp).2) cols dt hdt,
    fun v => C25_slice_trace h0 hks cols dt c v⟩

/-- The channels. -/
def channels (n : Type*) [Fintype n] [DecidableEq n] : Submonoid (Matrix (n × n) (n × n) ℂ) where
  carrier := {S | HasKraus S}
  one_mem' := (hasKraus_iff 1).2 ⟨one_mem _, fun v => by rw [one_mulVec]⟩
  mul_mem' := by
    intro a b ha hb
    obtain ⟨a1, a2⟩ := (hasKraus_iff a).1 ha
    obtain ⟨b1, b2⟩ := (hasKraus_iff b).1 hb
    exact (hasKraus_iff _).2 ⟨mul_mem a1 b1, fun v => by rw [← mulVec_mulVec, a2, b2]⟩

/-- **C232** (gate): the gate that `pwc` computes for an open system is a channel. -/
theorem C232_gate (h0 : Matrix n n ℂ) (hks cols : List (Matrix n n ℂ)) (h : h0.IsHermitian)
    (hk : ∀ H ∈ hks, H.IsHermitian) (dt : ℝ) (hdt : 0 ≤ dt) (cs : List (List ℝ)) (hcs : cs ≠ [])
    (bs : ℕ) (hbs : 1 ≤ bs) :
    ∃ S, pwcLind h0 hks cols dt cs bs (Fold.stackFor cs.length) = some S ∧ HasKraus S := by
  refine ⟨_, pwcLind_eq h0 hks cols dt cs hcs bs hbs, ?_⟩
  refine timeOrdered_mem (channels n) _ fun x hx => ?_
  obtain ⟨c, _, rfl⟩ := List.mem_map.1 hx
  exact C232_slice h0 hks cols h hk dt hdt c

/-- **C232** (frame): the superoperator of a frame rotation, or of any unitary, is a channel with one Kraus operator. -/
theorem C232_unitary (U : Matrix n n ℂ) (hU : Uᴴ * U = 1) : HasKraus (tfSuper U) :=
  ⟨[U], by simpa using hU, fun rho => by rw [C26_super_row, unRow_rowVec]; simp [channel]⟩

/-- **C232** (sequence): products of channels, in particular gates with frame rotation and sequences of gates, are
channels. -/
theorem C232_product (l : List (Matrix (n × n) (n × n) ℂ)) (h : ∀ S ∈ l, HasKraus S) : HasKraus (Fold.timeOrdered l) :=
  timeOrdered_mem (channels n) l h

/-- **C232** (own vectorisation): with the way the code stacks density matrices, the conjugated Kraus operators act. -/
theorem C232_own (S : Matrix (n × n) (n × n) ℂ) (h : HasKraus S) : ∃ Ks : List (Matrix n n ℂ),
    (Ks.map fun K => Kᴴ * K).sum = 1 ∧ ∀ rho, vecToDm (S *ᵥ dmToVec rho) = channel Ks rho := by
  obtain ⟨Ks, h1, h2⟩ := h
  have hct : ∀ K : Matrix n n ℂ, Kᴴᵀᴴ = Kᵀ := by
    intro K
    ext i j
    simp
  refine ⟨Ks.map fun K => Kᴴᵀ, ?_, fun rho => ?_⟩
  · have e : ∀ l : List (Matrix n n ℂ), ((l.map fun K => Kᴴᵀ).map fun K => Kᴴ * K).sum = ((l.map fun K => Kᴴ * K).sum)ᵀ := by
      intro l
      induction l with
      | nil => simp
      | cons K l ih =>
        simp only [List.map_cons, List.sum_cons, transpose_add, ih, transpose_mul, hct]
    rw [e, h1, transpose_one]
  · have e : ∀ l : List (Matrix n n ℂ), channel (l.map fun K => Kᴴᵀ) rho = (channel l rhoᵀ)ᵀ := by
      intro l
      unfold channel
      induction l with
      | nil => simp
      | cons K l ih =>
        rw [List.map_cons, List.map_cons, List.sum_cons, ih, List.map_cons, List.sum_cons, transpose_add, transpose_mul,
          transpose_mul, transpose_transpose, hct, Matrix.mul_assoc]
    rw [e, ← h2]
    rfl

theorem onFirst_kraus {k : Type*} [Fintype k] [DecidableEq k] (S : Matrix (n × n) (n × n) ℂ) (Ks : List (Matrix n n ℂ))
    (h : S = (Ks.map tfSuper).sum) (rho : Matrix (n × k) (n × k) ℂ) :
    onFirst S rho = channel (Ks.map fun K => K ⊗ₖ (1 : Matrix k k ℂ)) rho := by
  subst h
  induction Ks with
  | nil => ext p q; simp [onFirst, channel]
  | cons K Ks ih =>
    have h1 : onFirst ((K :: Ks).map tfSuper).sum rho = onFirst (tfSuper K) rho + onFirst (Ks.map tfSuper).sum rho := by
      ext p q
      simp [onFirst, add_mul, Finset.sum_add_distrib]
    have h2 : onFirst (tfSuper K) rho = (K ⊗ₖ (1 : Matrix k k ℂ)) * rho * (K ⊗ₖ (1 : Matrix k k ℂ))ᴴ := by
      ext ⟨a, x⟩ ⟨b, y⟩
      simp only [onFirst, of_apply, tfSuper_apply, Matrix.mul_apply, conjTranspose_apply, kroneckerMap_apply,
        Fintype.sum_prod_type, Matrix.one_apply, mul_ite, mul_one, mul_zero, ite_mul, zero_mul, Finset.sum_ite_eq,
        Finset.mem_univ, if_true, apply_ite star, star_zero]
      rw [Finset.sum_comm]
      refine Finset.sum_congr rfl fun d _ => ?_
      rw [Finset.sum_mul]
      refine Finset.sum_congr rfl fun c _ => ?_
      ring
    rw [h1, ih, h2]
    simp [channel]

/-- **C232** (complete positivity): a channel may act on a part of any larger system; density matrices are mapped to density
matrices also when the part is entangled with the rest. -/
theorem C232_entangled {k : Type*} [Fintype k] [DecidableEq k] (S : Matrix (n × n) (n × n) ℂ) (h : HasKraus S)
    (rho : Matrix (n × k) (n × k) ℂ) (hrho : IsDensity rho) : IsDensity (onFirst S rho) := by
  obtain ⟨Ks, h1, h2⟩ := h
  rw [onFirst_kraus S Ks ((eq_sum_iff S Ks).2 h2)]
  constructor
  · apply posSemidef_list_sum
    intro M hM
    obtain ⟨K, _, rfl⟩ := List.mem_map.1 hM
    exact hrho.1.mul_mul_conjTranspose_same K
  · rw [trace_channel]
    have e : ((Ks.map fun K => K ⊗ₖ (1 : Matrix k k ℂ)).map fun K => Kᴴ * K).sum =
        (Ks.map fun K => Kᴴ * K).sum ⊗ₖ (1 : Matrix k k ℂ) := by
      clear h1 h2
      induction Ks with
      | nil => simp
      | cons K Ks ih =>
        simp only [List.map_cons, List.sum_cons, ih, add_kronecker, conjTranspose_kronecker, ← mul_kronecker_mul,
          conjTranspose_one, mul_one]
    rw [e, h1, one_kronecker_one, one_mul, hrho.2]

/-- A decaying, driven qubit. -/
example : ∃ S, pwcLind (!![1, 0; 0, -1] : Matrix (Fin 2) (Fin 2) ℂ) [!![0, 1; 1, 0]]
      [!![0, 1; 0, 0]] 0.1 [[1], [2], [3]] 2 (Fold.stackFor 3) = some S ∧ HasKraus S :=
  C232_gate _ _ _ (by ext i j; fin_cases i <;> fin_cases j <;> simp [conjTranspose_apply])
    (by
      intro H hH
      rw [List.mem_singleton.1 hH]
      ext i j; fin_cases i <;> fin_cases j <;> simp [conjTranspose_apply])
    0.1 (by norm_num) [[1], [2], [3]] (by simp) 2 (by norm_num)

/-- Transposition is positive and keeps the trace, but has no Kraus operators: it makes an entangled state negative. -/
example : ¬ HasKraus (of fun p q => if p = q.swap then 1 else 0 : Matrix (Fin 2 × Fin 2) (Fin 2 × Fin 2) ℂ) := by
  intro h
  have h1 := ((hasKraus_iff _).1 h).1
  have h2 := PosSemidef.dotProduct_mulVec_nonneg h1 (fun p => if p = (0, 1) then 1 else if p = (1, 0) then -1 else 0)
  simp [choi, dotProduct, mulVec, Fintype.sum_prod_type, Fin.sum_univ_two] at h2
  norm_num at h2

end C3.Propagation.Kraus
