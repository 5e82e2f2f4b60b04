import Verif.Experiment.Mixing
import Verif.Experiment.Separate

/-!
# C264: uncoupled elements are measured independently

The whole chain of C199 for chips on which no line connects a group of elements with the others. Started without
correlations between the group and the others, the probability of every state is the probability of its levels in the
group times the probability of its levels outside, after any sequence of gates that drive both at the same time. Also
with relaxation and dephasing of the elements. Nothing is approximated.

Simplified: not in the dressed basis.
-/

set_option linter.unusedSectionVars false

noncomputable section

namespace C3.Experiment.Independent

open Matrix NormedSpace C3.Propagation C3.Hilbert C3.Experiment C3.Experiment.Compute C3.Experiment.EndToEnd
  C3.Experiment.Separate
open scoped ComplexOrder

variable {dims : List ℕ}

/-! ## Specification -/

/-- The elements outside the group. -/
def rest (dims : List ℕ) (S : Finset ℕ) : Finset ℕ := Finset.range dims.length \ S

/-- The levels of the group and of the other elements are independent. -/
def Unlinked (S : Finset ℕ) (p : Fin dims.prod → ℝ) : Prop :=
  ∀ i, p i = marginal S p (fun q => levelAt dims q i) * marginal (rest dims S) p (fun q => levelAt dims q i)

/-- A density matrix without correlations between the group and the other elements. -/
def Uncorrelated (S : Finset ℕ) (rho : Op dims) : Prop :=
  ∀ A ∈ opsOf dims (· ∈ S), ∀ B ∈ opsOf dims (· ∉ S),
    measureOperator (A * B) rho = measureOperator A rho * measureOperator B rho

/-- Every collapse operator acts on the group or on the other elements. -/
def Apart (S : Finset ℕ) (c : Chip dims) : Prop :=
  ∀ L ∈ c.cols, L ∈ opsOf dims (· ∈ S) ∨ L ∈ opsOf dims (· ∉ S)

/-! ## Superoperators that factorise -/

/-- The superoperators that change observables of the group and of the others separately. -/
def factors (dims : List ℕ) (S : Finset ℕ) : Submonoid (SOp dims) where
  carrier := {T | ∃ α β : Op dims → Op dims, α 1 = 1 ∧ β 1 = 1 ∧ (∀ A ∈ opsOf dims (· ∈ S), α A ∈ opsOf dims (· ∈ S)) ∧
    (∀ B ∈ opsOf dims (· ∉ S), β B ∈ opsOf dims (· ∉ S)) ∧ ∀ A ∈ opsOf dims (· ∈ S), ∀ B ∈ opsOf dims (· ∉ S), ∀ rho,
      measureOperator (A * B) (act T rho) = measureOperator (α A * β B) rho}
  one_mem' := ⟨id, id, rfl, rfl, fun _ h => h, fun _ h => h, fun A _ B _ rho => by simp [act]⟩
  mul_mem' := by
    rintro T T' ⟨α, β, a1, b1, ha, hb, h⟩ ⟨α', β', a1', b1', ha', hb', h'⟩
    refine ⟨α' ∘ α, β' ∘ β, by simp [a1, a1'], by simp [b1, b1'], fun A hA => ha' _ (ha A hA), fun B hB => hb' _ (hb B hB), ?_⟩
    intro A hA B hB rho
    rw [act_mul, h A hA B hB, h' _ (ha A hA) _ (hb B hB)]
    rfl

theorem factors_uncorrelated (S : Finset ℕ) (T : SOp dims) (hT : T ∈ factors dims S) (rho : Op dims)
    (h : Uncorrelated S rho) : Uncorrelated S (act T rho) := by
  obtain ⟨α, β, a1, b1, ha, hb, hf⟩ := hT
  intro A hA B hB
  have e1 := hf A hA 1 (opsOf dims (· ∉ S)).one_mem rho
  have e2 := hf 1 (opsOf dims (· ∈ S)).one_mem B hB rho
  rw [Matrix.mul_one, b1, Matrix.mul_one] at e1
  rw [Matrix.one_mul, a1, Matrix.one_mul] at e2
  rw [hf A hA B hB, e1, e2, h _ (ha A hA) _ (hb B hB)]

/-- Products of a unitary of the group and one of the others. -/
theorem factors_unitary (S : Finset ℕ) (D R : Op dims) (hD : D ∈ opsOf dims (· ∈ S)) (hR : R ∈ opsOf dims (· ∉ S))
    (hu : Dᴴ * D = 1) (hv : Rᴴ * R = 1) : tfSuper (D * R) ∈ factors dims S := by
  let U := opsOf dims (· ∈ S)
  let W := opsOf dims (· ∉ S)
  refine ⟨fun A => Dᴴ * A * D, fun B => Rᴴ * B * R, by simp [hu], by simp [hv],
    fun A hA => U.mul_mem (U.mul_mem (opsOf_conj hD) hA) hD, fun B hB => W.mul_mem (W.mul_mem (opsOf_conj hR) hB) hR, ?_⟩
  intro A hA B hB rho
  rw [act_super]
  unfold measureOperator
  have e3 : (A * B * (D * R * rho * (D * R)ᴴ)).trace = ((D * R)ᴴ * (A * B) * (D * R) * rho).trace := by
    rw [← Matrix.mul_assoc, trace_mul_comm]
    simp only [Matrix.mul_assoc]
  have c1 : B * D = D * B := (opsOf_commute hD hB).symm
  have hX : Dᴴ * A * D ∈ U := U.mul_mem (U.mul_mem (opsOf_conj hD) hA) hD
  have c2 : Rᴴ * (Dᴴ * A * D) = Dᴴ * A * D * Rᴴ := (opsOf_commute hX (opsOf_conj hR)).symm
  have e : (D * R)ᴴ * (A * B) * (D * R) = Dᴴ * A * D * (Rᴴ * B * R) := by
    calc (D * R)ᴴ * (A * B) * (D * R) = Rᴴ * (Dᴴ * A * (B * D)) * R := by
          rw [conjTranspose_mul]
          simp only [Matrix.mul_assoc]
      _ = Rᴴ * (Dᴴ * A * D) * (B * R) := by
          rw [c1]
          simp only [Matrix.mul_assoc]
      _ = _ := by
          rw [c2]
          simp only [Matrix.mul_assoc]
  rw [e3, e]

/-! ## One sample -/

theorem ext_rows (M N : SOp dims) (h : ∀ rho : Op dims, M *ᵥ rowVec rho = N *ᵥ rowVec rho) : M = N := by
  apply Matrix.toLin'.injective
  apply LinearMap.ext
  intro v
  rw [toLin'_apply, toLin'_apply, ← rowVec_unRow v]
  exact h _

theorem lindOp_split (A r : Op dims) (cols own other : List (Op dims)) (hp : cols.Perm (own ++ other)) :
    lindOp (A + r) cols = lindOp A own + lindOp r other := by
  apply ext_rows
  intro rho
  rw [add_mulVec, lindOp_mulVec, lindOp_mulVec, lindOp_mulVec, ← rowVec_add]
  congr 1
  unfold masterRHS
  rw [(hp.map _).sum_eq, List.map_append, List.sum_append]
  rw [Matrix.add_mul, Matrix.mul_add]
  module

theorem lindOp_mem (Z : Subalgebra ℂ (SOp dims)) (h : Op dims) (cols : List (Op dims)) (P : Op dims → Prop)
    (hP : ∀ A, P A → spre A ∈ Z ∧ spost A ∈ Z) (hh : P h) (hc : ∀ L ∈ cols, P L ∧ P Lᴴ) : lindOp h cols ∈ Z := by
  unfold lindOp
  have key : ∀ (cols : List (Op dims)) (x : SOp dims), (∀ L ∈ cols, P L ∧ P Lᴴ) → x ∈ Z →
      cols.foldl (fun op L =>
        op + spre L * spost Lᴴ - (1 / 2 : ℂ) • (spre Lᴴ * spre L) - (1 / 2 : ℂ) • (spost L * spost Lᴴ)) x ∈ Z := by
    intro cols
    induction cols with
    | nil => exact fun x _ hx => hx
    | cons L cols ih =>
      intro x hc hx
      obtain ⟨h1, h2⟩ := hc L List.mem_cons_self
      obtain ⟨p1, p2⟩ := hP _ h1
      obtain ⟨p3, p4⟩ := hP _ h2
      refine ih _ (fun L hL => hc L (List.mem_cons_of_mem _ hL)) ?_
      exact Z.sub_mem (Z.sub_mem (Z.add_mem hx (Z.mul_mem p1 p4)) (Z.smul_mem (Z.mul_mem p3 p1) _))
        (Z.smul_mem (Z.mul_mem p2 p4) _)
  obtain ⟨p1, p2⟩ := hP _ hh
  exact key cols _ hc (Z.smul_mem (Z.sub_mem p1 p2) _)

theorem functional_spre (M A : Op dims) : functional M ᵥ* spre A = functional (M * A) := by
  apply dotProduct_eq
  intro v
  rw [← dotProduct_mulVec]
  have e1 := measure_dot M (spre A *ᵥ v)
  have e2 := measure_dot (M * A) v
  unfold functional
  rw [← e1, ← e2, ← rowVec_unRow v, spre_mulVec, unRow_rowVec, unRow_rowVec]
  unfold measureOperator
  rw [Matrix.mul_assoc]

theorem functional_spost (M A : Op dims) : functional M ᵥ* spost A = functional (A * M) := by
  apply dotProduct_eq
  intro v
  rw [← dotProduct_mulVec]
  have e1 := measure_dot M (spost A *ᵥ v)
  have e2 := measure_dot (A * M) v
  unfold functional
  rw [← e1, ← e2, ← rowVec_unRow v, spost_mulVec, unRow_rowVec, unRow_rowVec]
  unfold measureOperator
  rw [← Matrix.mul_assoc, trace_mul_comm, Matrix.mul_assoc]

theorem pre_pre (A B : Op dims) (h : A * B = B * A) : Commute (spre A) (spre B) := by
  apply ext_rows
  intro rho
  rw [← mulVec_mulVec, ← mulVec_mulVec, spre_mulVec, spre_mulVec, spre_mulVec, spre_mulVec, ← Matrix.mul_assoc, h,
    Matrix.mul_assoc]

theorem post_post (A B : Op dims) (h : A * B = B * A) : Commute (spost A) (spost B) := by
  apply ext_rows
  intro rho
  rw [← mulVec_mulVec, ← mulVec_mulVec, spost_mulVec, spost_mulVec, spost_mulVec, spost_mulVec, Matrix.mul_assoc, ← h,
    Matrix.mul_assoc]

theorem pre_post (A B : Op dims) : Commute (spre A) (spost B) := by
  apply ext_rows
  intro rho
  rw [← mulVec_mulVec, ← mulVec_mulVec, spost_mulVec, spre_mulVec, spre_mulVec, spost_mulVec, Matrix.mul_assoc]

/-- The generator of a group commutes with multiplications by operators of the others. -/
theorem generator_commutes (P : ℕ → Prop) (h : Op dims) (cols : List (Op dims)) (hh : h ∈ opsOf dims P)
    (hc : ∀ L ∈ cols, L ∈ opsOf dims P) (B : Op dims) (hB : B ∈ opsOf dims fun q => ¬ P q) :
    Commute (spre B) (lindOp h cols) ∧ Commute (spost B) (lindOp h cols) := by
  constructor
  · have := lindOp_mem (Subalgebra.centralizer ℂ {spre B}) h cols (· ∈ opsOf dims P) (by
      intro A hA
      rw [Subalgebra.mem_centralizer_iff, Subalgebra.mem_centralizer_iff]
      constructor
      · rintro _ rfl
        exact pre_pre B A (opsOf_commute hA hB).symm
      · rintro _ rfl
        exact pre_post B A) hh fun L hL => ⟨hc L hL, opsOf_conj (hc L hL)⟩
    rw [Subalgebra.mem_centralizer_iff] at this
    exact this _ rfl
  · have := lindOp_mem (Subalgebra.centralizer ℂ {spost B}) h cols (· ∈ opsOf dims P) (by
      intro A hA
      rw [Subalgebra.mem_centralizer_iff, Subalgebra.mem_centralizer_iff]
      constructor
      · rintro _ rfl
        exact (pre_post A B).symm
      · rintro _ rfl
        exact post_post B A (opsOf_commute hA hB).symm) hh fun L hL => ⟨hc L hL, opsOf_conj (hc L hL)⟩
    rw [Subalgebra.mem_centralizer_iff] at this
    exact this _ rfl

theorem generators_commute (P : ℕ → Prop) (A r : Op dims) (own other : List (Op dims)) (hA : A ∈ opsOf dims P)
    (hr : r ∈ opsOf dims fun q => ¬ P q) (ho : ∀ L ∈ own, L ∈ opsOf dims P)
    (hx : ∀ L ∈ other, L ∈ opsOf dims fun q => ¬ P q) : Commute (lindOp A own) (lindOp r other) := by
  have := lindOp_mem (Subalgebra.centralizer ℂ {lindOp A own}) r other (· ∈ opsOf dims fun q => ¬ P q) (by
    intro B hB
    obtain ⟨h1, h2⟩ := generator_commutes P A own hA ho B hB
    rw [Subalgebra.mem_centralizer_iff, Subalgebra.mem_centralizer_iff]
    constructor
    · rintro _ rfl
      exact h1.symm
    · rintro _ rfl
      exact h2.symm) hr fun L hL => ⟨hx L hL, opsOf_conj (hx L hL)⟩
  rw [Subalgebra.mem_centralizer_iff] at this
  exact this _ rfl

theorem heisenberg_mem (P : ℕ → Prop) (A : Op dims) (own : List (Op dims)) (hA : A ∈ opsOf dims P)
    (ho : ∀ L ∈ own, L ∈ opsOf dims P) (O : Op dims) (hO : O ∈ opsOf dims P) : heisenberg A own O ∈ opsOf dims P := by
  unfold heisenberg
  let U := opsOf dims P
  refine U.add_mem (U.smul_mem (U.sub_mem (U.mul_mem hA hO) (U.mul_mem hO hA)) _) ?_
  refine U.toSubring.toAddSubgroup.list_sum_mem ?_
  intro x hx'
  obtain ⟨L, hL, rfl⟩ := List.mem_map.1 hx'
  have h1 := ho L hL
  have h2 := opsOf_conj h1
  exact U.sub_mem (U.mul_mem (U.mul_mem h2 hO) h1)
    (U.smul_mem (U.add_mem (U.mul_mem (U.mul_mem h2 h1) hO) (U.mul_mem hO (U.mul_mem h2 h1))) _)

/-- An observable one sample earlier. -/
def earlier (dt : ℝ) (A : Op dims) (own : List (Op dims)) (O : Op dims) : Op dims :=
  observable dims (functional O ᵥ* exp ((dt : ℂ) • lindOp A own))

theorem functional_earlier (dt : ℝ) (A : Op dims) (own : List (Op dims)) (O : Op dims) :
    functional O ᵥ* exp ((dt : ℂ) • lindOp A own) = functional (earlier dt A own O) := rfl

theorem earlier_mem (P : ℕ → Prop) (dt : ℝ) (A : Op dims) (own : List (Op dims)) (hA : A ∈ opsOf dims P)
    (ho : ∀ L ∈ own, L ∈ opsOf dims P) (O : Op dims) (hO : O ∈ opsOf dims P) : earlier dt A own O ∈ opsOf dims P := by
  let W : Submodule ℂ (Fin dims.prod × Fin dims.prod → ℂ) := (opsOf dims P).toSubmodule.comap (observable dims)
  refine (stable_exp W ((dt : ℂ) • lindOp A own) ((dt : ℂ) • lindOp A own) ?_ (functional O) hO).2
  intro w hw
  refine ⟨rfl, ?_⟩
  have e : w = functional (observable dims w) := rfl
  rw [e, functional_lind]
  exact (opsOf dims P).smul_mem (heisenberg_mem P A own hA ho _ hw) _

theorem earlier_one (dt : ℝ) (A : Op dims) (own : List (Op dims)) : earlier dt A own 1 = 1 := by
  have h0 : functional (1 : Op dims) ᵥ* ((dt : ℂ) • lindOp A own) = 0 := by
    rw [functional_lind, heisenberg_one, smul_zero]
    rfl
  have := (stable_exp (Submodule.span ℂ {functional (1 : Op dims)}) ((dt : ℂ) • lindOp A own) 0 (by
    intro w hw
    obtain ⟨x, rfl⟩ := Submodule.mem_span_singleton.1 hw
    rw [smul_vecMul, h0, smul_zero, vecMul_zero]
    exact ⟨rfl, Submodule.zero_mem _⟩) (functional 1) (Submodule.mem_span_singleton_self _)).1
  unfold earlier
  rw [this, exp_zero, vecMul_one]
  rfl

theorem slice_factors (S : Finset ℕ) (dt : ℝ) (A r : Op dims) (hA : A ∈ opsOf dims (· ∈ S)) (hr : r ∈ opsOf dims (· ∉ S))
    (cols own other : List (Op dims)) (hp : cols.Perm (own ++ other)) (ho : ∀ L ∈ own, L ∈ opsOf dims (· ∈ S))
    (hx : ∀ L ∈ other, L ∈ opsOf dims (· ∉ S)) : exp ((dt : ℂ) • lindOp (A + r) cols) ∈ factors dims S := by
  refine ⟨earlier dt A own, earlier dt r other, earlier_one dt A own, earlier_one dt r other,
    earlier_mem _ dt A own hA ho, earlier_mem _ dt r other hr hx, ?_⟩
  intro X hX Y hY rho
  have hc := generators_commute (· ∈ S) A r own other hA hr ho hx
  have hX' := earlier_mem (· ∈ S) dt A own hA ho X hX
  have c1 : Commute (spre Y) (exp ((dt : ℂ) • lindOp A own)) :=
    (((generator_commutes (· ∈ S) A own hA ho Y hY).1).smul_right _).exp_right
  have hXr : earlier dt A own X ∈ opsOf dims fun q => ¬ (q ∉ S) := by
    simpa only [not_not] using hX'
  have c2 : Commute (spost (earlier dt A own X)) (exp ((dt : ℂ) • lindOp r other)) :=
    (((generator_commutes (· ∉ S) r other hr hx _ hXr).2).smul_right _).exp_right
  have e : functional (X * Y) ᵥ* exp ((dt : ℂ) • lindOp (A + r) cols) =
      functional (earlier dt A own X * earlier dt r other Y) := by
    rw [lindOp_split A r cols own other hp, smul_add,
      Matrix.exp_add_of_commute _ _ ((hc.smul_left _).smul_right _), ← functional_spre, vecMul_vecMul, ← Matrix.mul_assoc,
      c1.eq, Matrix.mul_assoc, ← vecMul_vecMul, functional_earlier, ← vecMul_vecMul, functional_spre, ← functional_spost,
      vecMul_vecMul, c2.eq, ← vecMul_vecMul, functional_earlier, functional_spost]
  unfold act
  rw [measure_dot]
  change functional (X * Y) ⬝ᵥ _ = _
  rw [dotProduct_mulVec, e]
  have := measure_dot (earlier dt A own X * earlier dt r other Y) (rowVec rho)
  rw [unRow_rowVec] at this
  rw [this]
  rfl

/-! ## Gates -/

theorem frame_factors (S : Finset ℕ) (c : Chip dims) (hc : c.WF) (p : Pulse) (F : Op dims) (h : c.frame p = some F) :
    tfSuper F ∈ factors dims S := by
  have hg := groupPhase_mem S c hc p F h
  obtain ⟨r, hr, rfl⟩ := frame_split S c hc p F h
  exact factors_unitary S _ _ (phases_mem _ hg) (phases_mem _ hr) (phases_unitary _) (phases_unitary _)

theorem sample_factors (S : Finset ℕ) (c : Chip dims) (hc : c.WF) (hS : Separated S c) (cols : List (Op dims))
    (hd : ∀ L ∈ cols, L ∈ opsOf dims (· ∈ S) ∨ L ∈ opsOf dims (· ∉ S)) (p : Pulse) (hks : List (Op dims))
    (hk : c.hks p = some hks) (v : List ℝ) : dUOfTLind c.h0 hks cols p.dt v ∈ factors dims S := by
  classical
  obtain ⟨r, hr, e⟩ := ham_split S c hc hS p hks hk v
  unfold dUOfTLind
  rw [e]
  refine slice_factors S p.dt _ r (groupHam_mem S c hc hS p v) hr cols (cols.filter fun L => L ∈ opsOf dims (· ∈ S))
    (cols.filter fun L => ¬ L ∈ opsOf dims (· ∈ S)) ?_ ?_ ?_
  · have := (List.filter_append_perm (fun L => decide (L ∈ opsOf dims (· ∈ S))) cols).symm
    simpa using this
  · intro L hL
    simpa using (List.mem_filter.1 hL).2
  · intro L hL
    obtain ⟨h1, h2⟩ := List.mem_filter.1 hL
    exact (hd L h1).resolve_left (by simpa using h2)

/-- `tfSuper` as a homomorphism. -/
def superHom (dims : List ℕ) : Op dims →* SOp dims where
  toFun U := tfSuper U
  map_one' := by
    apply ext_rows
    intro rho
    rw [C26_super_row, one_mulVec, conjTranspose_one, Matrix.one_mul, Matrix.mul_one]
  map_mul' U V := C26_super_mul U V

/-- The propagators of closed systems whose superoperators factorise. -/
def factorsClosed (dims : List ℕ) (S : Finset ℕ) : Submonoid (Op dims) := (factors dims S).comap (superHom dims)

theorem mem_closed (S : Finset ℕ) (U : Op dims) : U ∈ factorsClosed dims S ↔ tfSuper U ∈ factors dims S := Iff.rfl

theorem closed_factors (S : Finset ℕ) (c : Chip dims) (hc : c.WF) (hS : Separated S c) (p : Pulse) (hks : List (Op dims))
    (hk : c.hks p = some hks) (v : List ℝ) : dUOfT c.h0 hks p.dt v ∈ factorsClosed dims S := by
  have := sample_factors S c hc hS [] (by simp) p hks hk v
  rw [slice_closed _ _ _ _ (h0_herm c hc) (hks_herm c hc p hks hk)] at this
  exact this

/-- C264, gates of closed systems: a gate creates no correlations between the group and the others. -/
theorem C264_gate (S : Finset ℕ) (c : Chip dims) (hc : c.WF) (hS : Separated S c) (ps : List (String × Pulse)) (g : String)
    (V : Op dims) (h : physical (closed c ps) (.name "pwc") g = .ok V) :
    V ∈ factorsClosed dims S ∧ ∀ rho, Uncorrelated S rho → Uncorrelated S (V * rho * Vᴴ) := by
  have key : V ∈ factorsClosed dims S := by
    obtain ⟨p, hks, U, hp1, hk, hU, hF⟩ := physical_closed c ps g V h
    have hUU : U ∈ factorsClosed dims S := by
      by_cases hv : p.values = []
      · rw [hv, List.length_nil, pwc_empty c.h0 hks p.dt c.batch hc.batch] at hU
        simp at hU
      · rw [pwc_eq c.h0 hks p.dt p.values hv c.batch hc.batch, Option.some.injEq] at hU
        rw [← hU]
        apply timeOrdered_mem
        intro x hx
        obtain ⟨v, -, rfl⟩ := List.mem_map.1 hx
        exact closed_factors S c hc hS p hks hk v
    rcases hF with ⟨-, F, hF, rfl⟩ | ⟨-, rfl⟩
    · exact (factorsClosed dims S).mul_mem (frame_factors S c hc p F hF) hUU
    · exact hUU
  refine ⟨key, fun rho hr => ?_⟩
  have := factors_uncorrelated S _ ((mem_closed S V).1 key) rho hr
  rwa [act_super] at this

/-- C264, gates of open systems: nor with decay of the elements. -/
theorem C264_gate_open (S : Finset ℕ) (c : Chip dims) (hc : c.WF) (hS : Separated S c) (hd : Apart S c)
    (ps : List (String × Pulse)) (g : String) (V : SOp dims) (h : physical (opened c ps) (.name "pwc") g = .ok V) :
    V ∈ factors dims S ∧ ∀ rho, Uncorrelated S rho → Uncorrelated S (unRow (V *ᵥ rowVec rho)) := by
  have key : V ∈ factors dims S := by
    obtain ⟨p, hks, U, hp1, hk, hU, hF⟩ := physical_opened c ps g V h
    have hUU : U ∈ factors dims S := by
      by_cases hv : p.values = []
      · rw [hv, List.length_nil, pwcLind_empty c.h0 hks c.cols p.dt c.batch hc.batch] at hU
        simp at hU
      · rw [pwcLind_eq c.h0 hks c.cols p.dt p.values hv c.batch hc.batch, Option.some.injEq] at hU
        rw [← hU]
        apply timeOrdered_mem
        intro x hx
        obtain ⟨v, -, rfl⟩ := List.mem_map.1 hx
        exact sample_factors S c hc hS c.cols hd p hks hk v
    rcases hF with ⟨-, F, hF, rfl⟩ | ⟨-, rfl⟩
    · exact (factors dims S).mul_mem (frame_factors S c hc p F hF) hUU
    · exact hUU
  exact ⟨key, fun rho hr => factors_uncorrelated S _ key rho hr⟩

/-! ## Populations -/

theorem asks_rest (S : Finset ℕ) (f : ℕ → ℕ) : asks dims (rest dims S) f ∈ opsOf dims (· ∉ S) := by
  apply diagonal_mem
  intro p q h
  congr 1
  rw [eq_iff_iff]
  have hm : ∀ t, t ∈ rest dims S → t < dims.length ∧ t ∉ S := fun t ht => by
    unfold rest at ht
    rw [Finset.mem_sdiff, Finset.mem_range] at ht
    exact ht
  constructor
  · intro hp t ht hl
    rw [← h t hl (hm t ht).2, hp t ht hl]
  · intro hp t ht hl
    rw [h t hl (hm t ht).2, hp t ht hl]

theorem asks_both (S : Finset ℕ) (i : Fin dims.prod) (rho : Op dims) :
    measureOperator (asks dims S (fun q => levelAt dims q i) * asks dims (rest dims S) fun q => levelAt dims q i) rho =
      rho i i := by
  unfold measureOperator asks
  rw [diagonal_mul_diagonal]
  simp only [Matrix.trace, Matrix.diag, diagonal_mul]
  rw [Finset.sum_eq_single i]
  · rw [if_pos fun _ _ _ => rfl, if_pos fun _ _ _ => rfl, one_mul, one_mul]
  · intro j _ hj
    by_cases h1 : ∀ q ∈ S, q < dims.length → levelAt dims q j = levelAt dims q i
    · by_cases h2 : ∀ q ∈ rest dims S, q < dims.length → levelAt dims q j = levelAt dims q i
      · exfalso
        apply hj
        refine pos_ext fun t ht => ?_
        by_cases hS : t ∈ S
        · exact h1 t hS ht
        · exact h2 t (by
            unfold rest
            rw [Finset.mem_sdiff, Finset.mem_range]
            exact ⟨ht, hS⟩) ht
      · rw [if_neg h2, mul_zero, zero_mul]
    · rw [if_neg h1, zero_mul, zero_mul]
  · intro h
    exact absurd (Finset.mem_univ i) h

/-- Populations of a state without correlations. -/
theorem unlinked_of (S : Finset ℕ) (rho : Op dims) (h : Uncorrelated S rho) (p : Fin dims.prod → ℝ)
    (hp : ∀ i, rho i i = (p i : ℂ)) : Unlinked S p := by
  intro i
  have e := h _ (asks_mem S fun q => levelAt dims q i) _ (asks_rest S fun q => levelAt dims q i)
  rw [asks_both, measure_asks, measure_asks] at e
  simp only [hp] at e
  unfold marginal
  exact_mod_cast e

/-- C264 (closed systems): on a chip without lines between the group and the others, started without correlations, after
every sequence and any history of calls the levels of the group and of the others are independent. -/
theorem C264_closed (S : Finset ℕ) (s : Exp (Op dims)) (hm : s.propMethod = none) (hp : ∀ g, s.propagators g = none)
    (es : List (Event (Op dims)))
    (he : ∀ e ∈ es, ∃ (c : Chip dims) (ps : List (String × Pulse)), e.w = closed c ps ∧ c.WF ∧ Separated S c)
    (seqs : List (List String)) (ha : Available (runEvents s es).propagators seqs) (psi : Fin dims.prod → ℂ)
    (hpsi : ∑ i, ‖psi i‖ ^ 2 = 1) (hu : Uncorrelated S (vecMulVec psi (star psi))) :
    ∃ P, evaluateClosed (runEvents s es).propagators seqs psi = some P ∧ P.length = seqs.length ∧ ∀ p ∈ P, Unlinked S p := by
  have wf : ∀ e ∈ es, e.w.WF := fun e hm => by
    obtain ⟨c, ps, h, -⟩ := he e hm
    rw [h]
    exact closed_wf c ps
  have st : ∀ g U, (runEvents s es).propagators g = some U → Uᴴ * U = 1 ∧ U ∈ factorsClosed dims S := by
    intro g U h
    obtain ⟨pre, e, post, rfl, -, -, h1, -⟩ := (C68_history s hm hp es wf g U).1 h
    obtain ⟨c, ps, h2, hc, hS⟩ := he e (by simp)
    rw [h2] at h1
    exact ⟨C199_unitary c hc ps g U h1, (C264_gate S c hc hS ps g U h1).1⟩
  obtain ⟨e1, -⟩ := C65_closed (runEvents s es).propagators seqs psi
    (fun q hq g hg => by
      obtain ⟨U, hU⟩ := ha q hq g hg
      exact ⟨U, hU, (st g U hU).1⟩) hpsi
  refine ⟨_, e1, by simp, ?_⟩
  intro p hp'
  obtain ⟨q, hq, rfl⟩ := List.mem_map.1 hp'
  have hmem := Mixing.seq_mem (factorsClosed dims S) (fun g => ((runEvents s es).propagators g).getD 1) q (by
    intro g hg
    obtain ⟨U, hU⟩ := ha q hq g hg
    rw [hU]
    exact (st g U hU).2)
  have hun := factors_uncorrelated S _ ((mem_closed S _).1 hmem) _ hu
  refine unlinked_of S _ hun _ fun i => ?_
  rw [act_super, mul_vecMulVec, vecMulVec_mul, ← star_mulVec, vecMulVec_apply, Pi.star_apply]
  push_cast
  exact Complex.mul_conj' _

/-- C264 (open systems): the same for chips whose elements decay, started in any density matrix without correlations. -/
theorem C264_open (S : Finset ℕ) (s : Exp (SOp dims)) (hm : s.propMethod = none) (hp : ∀ g, s.propagators g = none)
    (es : List (Event (SOp dims)))
    (he : ∀ e ∈ es, ∃ (c : Chip dims) (ps : List (String × Pulse)), e.w = opened c ps ∧ c.WF ∧ Separated S c ∧ Apart S c ∧
      ∀ g p, ps.lookup g = some p → 0 ≤ p.dt)
    (seqs : List (List String)) (ha : Available (runEvents s es).propagators seqs) (rho : Op dims) (hr : rho.PosSemidef)
    (hu : Uncorrelated S rhoᵀ) :
    ∃ P, evaluateOpen (runEvents s es).propagators seqs (dmToVec rho) = some P ∧ P.length = seqs.length ∧
      ∀ p ∈ P, Unlinked S p := by
  have wf : ∀ e ∈ es, e.w.WF := fun e hm => by
    obtain ⟨c, ps, h, -⟩ := he e hm
    rw [h]
    exact opened_wf c ps
  have st : ∀ g U, (runEvents s es).propagators g = some U → U ∈ positiveMaps (Fin dims.prod) ⊓ factors dims S := by
    intro g U h
    obtain ⟨pre, e, post, rfl, -, -, h1, -⟩ := (C68_history s hm hp es wf g U).1 h
    obtain ⟨c, ps, h2, hc, hS, hd, hdt⟩ := he e (by simp)
    rw [h2] at h1
    exact ⟨(C199_channel c hc ps hdt g U h1).2, (C264_gate_open S c hc hS hd ps g U h1).1⟩
  refine ⟨_, Waiting.evaluate_all _ seqs _ _ fun q hq => runSeq_eq _ q _ (ha q hq), by simp, ?_⟩
  intro p hp'
  obtain ⟨q, hq, rfl⟩ := List.mem_map.1 hp'
  obtain ⟨h1, h2⟩ := Mixing.seq_mem (positiveMaps (Fin dims.prod) ⊓ factors dims S)
    (fun g => ((runEvents s es).propagators g).getD 1) q (by
      intro g hg
      obtain ⟨U, hU⟩ := ha q hq g hg
      rw [hU]
      exact st g U hU)
  have hun := factors_uncorrelated S _ h2 _ hu
  have hps : (act (Fold.seqProp (fun g => ((runEvents s es).propagators g).getD 1) q) rhoᵀ).PosSemidef := h1 _ hr.transpose
  refine unlinked_of S _ hun _ fun i => ?_
  have hi := congrFun (congrFun hps.1.eq i) i
  rw [conjTranspose_apply] at hi
  exact (Complex.conj_eq_iff_re.1 hi).symm

/-! ## Initial states -/

/-- C264: basis states have no correlations. -/
theorem C264_basis (S : Finset ℕ) (i : Fin dims.prod) :
    Uncorrelated S (vecMulVec (Pi.single i 1) (star (Pi.single i (1 : ℂ)))) := by
  intro A hA B hB
  rw [C248_pure, C248_pure, C248_pure]
  have e : ∀ O : Op dims, star (Pi.single i (1 : ℂ)) ⬝ᵥ (O *ᵥ Pi.single i 1) = O i i := by
    intro O
    rw [← Pi.single_star, star_one, mulVec_single_one, single_dotProduct, one_mul]
    rfl
  rw [e, e, e, Matrix.mul_apply, Finset.sum_eq_single i]
  · intro q _ hq
    by_contra hne
    apply hq
    refine pos_ext fun t ht => ?_
    by_contra hl
    by_cases hS : t ∈ S
    · rw [opsOf_zero hB q i t ht (by simpa using hS) hl, mul_zero] at hne
      exact hne rfl
    · rw [opsOf_zero hA i q t ht hS (Ne.symm hl), zero_mul] at hne
      exact hne rfl
  · intro h
    exact absurd (Finset.mem_univ i) h

/-- C264: product states have no correlations. -/
theorem C264_product (S : Finset ℕ) (A B : Op dims) (hA : A ∈ opsOf dims (· ∈ S)) (hB : B ∈ opsOf dims (· ∉ S))
    (h : (A * B).trace = 1) : Uncorrelated S (A * B) := by
  intro X hX Y hY
  unfold measureOperator
  have hd : (Fintype.card (Fin dims.prod) : ℂ) ≠ 0 := by
    intro hd
    rw [Nat.cast_eq_zero, Fintype.card_eq_zero_iff] at hd
    simp [Matrix.trace] at h
  have hXA := (opsOf dims (· ∈ S)).mul_mem hX hA
  have hYB := (opsOf dims (· ∉ S)).mul_mem hY hB
  have e1 : X * Y * (A * B) = X * A * (Y * B) := by
    rw [Matrix.mul_assoc, ← Matrix.mul_assoc Y, ← opsOf_commute hA hY]
    simp only [Matrix.mul_assoc]
  have e2 : X * (A * B) = X * A * B := (Matrix.mul_assoc _ _ _).symm
  have e3 : Y * (A * B) = A * (Y * B) := by rw [← Matrix.mul_assoc, ← opsOf_commute hA hY, Matrix.mul_assoc]
  have k0 := trace_product S A B hA hB
  have k1 := trace_product S _ _ hXA hYB
  have k2 := trace_product S _ _ hXA hB
  have k3 := trace_product S _ _ hA hYB
  rw [e1, e2, e3]
  rw [h] at k0
  apply mul_left_cancel₀ hd
  apply mul_left_cancel₀ hd
  calc _ = (Fintype.card (Fin dims.prod) : ℂ) * ((X * A).trace * (Y * B).trace) := by rw [k1]
    _ = (A.trace * B.trace) * ((X * A).trace * (Y * B).trace) := by rw [← k0, mul_one]
    _ = ((X * A).trace * B.trace) * (A.trace * (Y * B).trace) := by ring
    _ = _ := by
      rw [← k2, ← k3]
      ring

/-! ## Examples -/

/-- Two qubits driven at the same time: the gate is computed and leaves basis states without correlations. -/
example : ∃ V, physical (closed exLoud [("rx", exPulses)]) (.name "pwc") "rx" = .ok V ∧
    ∀ i : Fin [2, 2].prod, Uncorrelated {0} (V * vecMulVec (Pi.single i 1) (star (Pi.single i (1 : ℂ))) * Vᴴ) := by
  obtain ⟨V, h⟩ := C199_computed exLoud exLoud_wf [("rx", exPulses)] "rx" exPulses rfl (by simp [exPulses])
    (by
      intro k hk
      simp only [exPulses, List.mem_cons, List.not_mem_nil, or_false] at hk
      rcases hk with rfl | rfl <;> exact ⟨_, rfl⟩)
    (fun l hl => by
      simp only [exPulses, List.mem_cons, List.not_mem_nil, or_false] at hl
      rcases hl with rfl | rfl
      · exact ⟨⟨0, rfl⟩, 0, by simp, rfl⟩
      · exact ⟨⟨0, rfl⟩, 1, by simp, rfl⟩)
  exact ⟨V, h, fun i => (C264_gate {0} exLoud exLoud_wf exSame.2.1 _ "rx" V h).2 _ (C264_basis {0} i)⟩

/-- The basis states of two qubits. -/
def pair (n : ℕ) (h : n < [2, 2].prod) : Fin [2, 2].prod := ⟨n, h⟩

/-- Two qubits that are found both in the ground state or both excited are not independent. -/
example : ¬ Unlinked (dims := [2, 2]) {0} (fun i => if i.1 = 0 ∨ i.1 = 3 then 1 / 2 else 0) := by
  intro h
  have h0 := h (pair 0 (by decide))
  unfold marginal at h0
  have e1 : withLevels [2, 2] {0} (fun q => levelAt [2, 2] q (pair 0 (by decide))) =
      {pair 0 (by decide), pair 1 (by decide)} := by
    unfold withLevels
    decide
  have e2 : withLevels [2, 2] (rest [2, 2] {0}) (fun q => levelAt [2, 2] q (pair 0 (by decide))) =
      {pair 0 (by decide), pair 2 (by decide)} := by
    unfold withLevels
    decide
  rw [e1, e2, Finset.sum_pair (by decide), Finset.sum_pair (by decide)] at h0
  norm_num [pair] at h0

end C3.Experiment.Independent
