import Verif.Experiment.Independent

/-!
# C265: elements without couplings can be left out of the model

The whole chain of C199 for two chips: a large one, and a small one with only some of its elements. If no line connects
these elements with the others, the populations of the small chip are those of the large one, summed over the levels of the
elements that were left out. The Hilbert spaces have different dimensions. Nothing is approximated.

Simplified: not in the dressed basis.
-/

set_option linter.unusedSectionVars false

noncomputable section

namespace C3.Experiment.LeftOut

open Matrix NormedSpace C3.Propagation C3.Hilbert C3.Experiment C3.Experiment.Compute C3.Experiment.EndToEnd
  C3.Experiment.Separate
open scoped ComplexOrder

variable {d D : List ℕ}

/-! ## Specification -/

/-- Where the elements of a small chip are on a large one. -/
structure Places (d D : List ℕ) where
  pos : ℕ → ℕ
  inj : ∀ s < d.length, ∀ t < d.length, pos s = pos t → s = t
  lt : ∀ t < d.length, pos t < D.length
  size : ∀ t < d.length, D.getD (pos t) 0 = d.getD t 0

variable (h : Places d D)

/-- The elements that are kept. -/
def Places.kept : Finset ℕ := (Finset.range d.length).image h.pos

/-- The populations of the elements that are kept. -/
def Places.reduced (p : Fin D.prod → ℝ) (i : Fin d.prod) : ℝ :=
  open scoped Classical in
  ∑ k ∈ Finset.univ.filter fun k => ∀ t < d.length, levelAt D (h.pos t) k = levelAt d t i, p k

/-- A line at its place on the large chip. -/
def Places.line : Line → Line
  | .coupling f s a b => .coupling f s (h.pos a) (h.pos b)
  | .drive f conn => .drive f (conn.map h.pos)
  | .couplingDrive f a b => .couplingDrive f (h.pos a) (h.pos b)

/-- All elements of the small chip. -/
abbrev all (d : List ℕ) : Finset ℕ := Finset.range d.length

/-- The large chip has the elements and couplings of the small one, and others. -/
structure Kept (c : Chip d) (C : Chip D) : Prop where
  elements : (elements h.kept C).Perm ((elements (all d) c).map fun x => (x.1, h.pos x.2))
  couplings : (couplings h.kept C).Perm ((couplings (all d) c).map h.line)
  frame : C.useFR = c.useFR

/-- A pulse on the large chip plays on the elements that are kept what a pulse on the small chip plays, and something on
the others. -/
structure KeptPulse (c : Chip d) (C : Chip D) (p : Pulse) (P : Pulse) : Prop where
  samples : List.Forall₂ (fun V v =>
    (played h.kept C P.chans V).Perm ((played (all d) c p.chans v).map fun x => (h.line x.1, x.2))) P.values p.values
  step : P.dt = p.dt
  length : P.t = p.t
  carriers : (carriers h.kept C P).Perm ((carriers (all d) c p).map fun x => (h.pos x.1, x.2))

/-! ## States -/

theorem exists_proj (p : Fin D.prod) : ∃ i : Fin d.prod, ∀ t < d.length, levelAt d t i = levelAt D (h.pos t) p :=
  exists_pos _ fun t ht => by
    rw [← h.size t ht]
    exact levelAt_lt p _ (h.lt t ht)

/-- The state of the elements that are kept. -/
def Places.proj (p : Fin D.prod) : Fin d.prod := (exists_proj h p).choose

theorem proj_level (p : Fin D.prod) (t : ℕ) (ht : t < d.length) : levelAt d t (h.proj p) = levelAt D (h.pos t) p :=
  (exists_proj h p).choose_spec t ht

theorem mem_kept (t : ℕ) : t ∈ h.kept ↔ ∃ s < d.length, h.pos s = t := by
  unfold Places.kept
  simp

theorem exists_put (p : Fin D.prod) (i : Fin d.prod) : ∃ r : Fin D.prod,
    (∀ t < d.length, levelAt D (h.pos t) r = levelAt d t i) ∧ ∀ t < D.length, t ∉ h.kept → levelAt D t r = levelAt D t p := by
  classical
  obtain ⟨r, hr⟩ := exists_pos (dims := D)
    (fun t => if ht : ∃ s < d.length, h.pos s = t then levelAt d ht.choose i else levelAt D t p) (by
      intro t ht
      split
      · next hs =>
        have := levelAt_lt i hs.choose hs.choose_spec.1
        rw [← h.size _ hs.choose_spec.1, hs.choose_spec.2] at this
        exact this
      · exact levelAt_lt p t ht)
  refine ⟨r, ?_, ?_⟩
  · intro t ht
    have hs : ∃ s < d.length, h.pos s = h.pos t := ⟨t, ht, rfl⟩
    rw [hr _ (h.lt t ht), dif_pos hs, h.inj _ hs.choose_spec.1 t ht hs.choose_spec.2]
  · intro t ht hk
    rw [hr t ht, dif_neg]
    rwa [mem_kept] at hk

/-- The elements that are kept put into another state. -/
def Places.put (p : Fin D.prod) (i : Fin d.prod) : Fin D.prod := (exists_put h p i).choose

theorem put_kept (p : Fin D.prod) (i : Fin d.prod) (t : ℕ) (ht : t < d.length) :
    levelAt D (h.pos t) (h.put p i) = levelAt d t i := (exists_put h p i).choose_spec.1 t ht

theorem put_other (p : Fin D.prod) (i : Fin d.prod) (t : ℕ) (ht : t < D.length) (hk : t ∉ h.kept) :
    levelAt D t (h.put p i) = levelAt D t p := (exists_put h p i).choose_spec.2 t ht hk

theorem proj_put (p : Fin D.prod) (i : Fin d.prod) : h.proj (h.put p i) = i :=
  pos_ext fun t ht => by rw [proj_level h _ t ht, put_kept h p i t ht]

/-- Two states agree on the elements that are left out. -/
def Places.Same (p q : Fin D.prod) : Prop := ∀ t < D.length, t ∉ h.kept → levelAt D t p = levelAt D t q

theorem same_put (p : Fin D.prod) (i : Fin d.prod) : h.Same p (h.put p i) := fun t ht hk => (put_other h p i t ht hk).symm

theorem same_ext (p q : Fin D.prod) (hs : h.Same p q) (hp : h.proj p = h.proj q) : p = q := by
  refine pos_ext fun t ht => ?_
  by_cases hk : t ∈ h.kept
  · obtain ⟨s, hs', rfl⟩ := (mem_kept h t).1 hk
    rw [← proj_level h p s hs', hp, proj_level h q s hs']
  · exact hs t ht hk

theorem put_proj (p q : Fin D.prod) (hs : h.Same p q) : h.put p (h.proj q) = q := by
  refine same_ext h _ _ (fun t ht hk => ?_) (proj_put h p _)
  rw [put_other h _ _ t ht hk, hs t ht hk]

/-! ## Operators -/

open scoped Classical in
/-- An operator of the small chip on the large one. -/
def Places.lift (M : Op d) : Op D := Matrix.of fun p q => if h.Same p q then M (h.proj p) (h.proj q) else 0

theorem lift_apply (M : Op d) (p q : Fin D.prod) (hs : h.Same p q) : h.lift M p q = M (h.proj p) (h.proj q) := if_pos hs

theorem lift_zero' (M : Op d) (p q : Fin D.prod) (hs : ¬ h.Same p q) : h.lift M p q = 0 := if_neg hs

theorem lift_add (M N : Op d) : h.lift (M + N) = h.lift M + h.lift N := by
  ext p q
  by_cases hs : h.Same p q
  · rw [Matrix.add_apply, lift_apply h _ _ _ hs, lift_apply h _ _ _ hs, lift_apply h _ _ _ hs, Matrix.add_apply]
  · rw [Matrix.add_apply, lift_zero' h _ _ _ hs, lift_zero' h _ _ _ hs, lift_zero' h _ _ _ hs, add_zero]

theorem lift_smul (z : ℂ) (M : Op d) : h.lift (z • M) = z • h.lift M := by
  ext p q
  by_cases hs : h.Same p q
  · rw [Matrix.smul_apply, lift_apply h _ _ _ hs, lift_apply h _ _ _ hs, Matrix.smul_apply]
  · rw [Matrix.smul_apply, lift_zero' h _ _ _ hs, lift_zero' h _ _ _ hs, smul_zero]

theorem lift_conj (M : Op d) : h.lift Mᴴ = (h.lift M)ᴴ := by
  ext p q
  rw [conjTranspose_apply]
  by_cases hs : h.Same p q
  · rw [lift_apply h _ _ _ hs, lift_apply h _ q p fun t ht hk => (hs t ht hk).symm, conjTranspose_apply]
  · rw [lift_zero' h _ _ _ hs, lift_zero' h _ q p fun hs' => hs fun t ht hk => (hs' t ht hk).symm, star_zero]

theorem lift_one : h.lift 1 = 1 := by
  ext p q
  by_cases hs : h.Same p q
  · rw [lift_apply h _ _ _ hs]
    by_cases hpq : p = q
    · rw [hpq, one_apply_eq, one_apply_eq]
    · rw [one_apply_ne hpq, one_apply_ne fun e => hpq (same_ext h p q hs e)]
  · rw [lift_zero' h _ _ _ hs, one_apply_ne]
    rintro rfl
    exact hs fun _ _ _ => rfl

theorem lift_mul (M N : Op d) : h.lift (M * N) = h.lift M * h.lift N := by
  classical
  ext p q
  rw [Matrix.mul_apply]
  by_cases hs : h.Same p q
  · rw [lift_apply h _ _ _ hs, Matrix.mul_apply]
    have e : ∑ r, h.lift M p r * h.lift N r q = ∑ r ∈ Finset.univ.filter fun r => h.Same p r, h.lift M p r * h.lift N r q := by
      rw [Finset.sum_filter]
      refine Finset.sum_congr rfl fun r _ => ?_
      split
      · rfl
      · next hn => rw [lift_zero' h _ _ _ hn, zero_mul]
    rw [e]
    refine Finset.sum_bij' (fun i _ => h.put p i) (fun r _ => h.proj r) ?_ ?_ ?_ ?_ ?_
    · intro i _
      exact Finset.mem_filter.2 ⟨Finset.mem_univ _, same_put h p i⟩
    · exact fun _ _ => Finset.mem_univ _
    · exact fun i _ => proj_put h p i
    · intro r hr
      exact put_proj h p r (Finset.mem_filter.1 hr).2
    · intro i _
      rw [lift_apply h _ _ _ (same_put h p i), lift_apply h N (h.put p i) q, proj_put]
      intro t ht hk
      rw [put_other h p i t ht hk, hs t ht hk]
  · rw [lift_zero' h _ _ _ hs]
    refine (Finset.sum_eq_zero fun r _ => ?_).symm
    by_cases h1 : h.Same p r
    · rw [lift_zero' h N r q, mul_zero]
      intro h2
      exact hs fun t ht hk => (h1 t ht hk).trans (h2 t ht hk)
    · rw [lift_zero' h _ _ _ h1, zero_mul]

/-- `lift` as a homomorphism. -/
def Places.hom : Op d →ₐ[ℂ] Op D :=
  AlgHom.ofLinearMap ⟨⟨h.lift, lift_add h⟩, lift_smul h⟩ (lift_one h) (lift_mul h)

theorem hom_apply (M : Op d) : h.hom M = h.lift M := rfl

theorem hom_conj (M : Op d) : h.hom Mᴴ = (h.hom M)ᴴ := lift_conj h M

/-- Lifted operators commute with operators of the elements that are left out. -/
theorem lift_commute (M : Op d) (r : Op D) (hr : r ∈ opsOf D (· ∉ h.kept)) : r * h.lift M = h.lift M * r := by
  classical
  ext p q
  have e1 : (r * h.lift M) p q = r p (h.put q (h.proj p)) * M (h.proj p) (h.proj q) := by
    rw [Matrix.mul_apply, Finset.sum_eq_single (h.put q (h.proj p))]
    · rw [lift_apply h M _ q fun t ht hk => put_other h _ _ t ht hk, proj_put]
    · intro k _ hk
      by_cases hs : h.Same k q
      · by_cases hl : ∃ t < D.length, t ∈ h.kept ∧ levelAt D t p ≠ levelAt D t k
        · obtain ⟨t, ht, htk, hne⟩ := hl
          rw [opsOf_zero hr p k t ht (by simpa using htk) hne, zero_mul]
        · exfalso
          apply hk
          have : h.proj k = h.proj p := pos_ext fun t ht => by
            rw [proj_level h k t ht, proj_level h p t ht]
            by_contra hne
            exact hl ⟨_, h.lt t ht, (mem_kept h _).2 ⟨t, ht, rfl⟩, fun e => hne e.symm⟩
          rw [← this, put_proj h q k fun t ht hk => (hs t ht hk).symm]
      · rw [lift_zero' h _ _ _ hs, mul_zero]
    · intro hn
      exact absurd (Finset.mem_univ _) hn
  have e2 : (h.lift M * r) p q = M (h.proj p) (h.proj q) * r (h.put p (h.proj q)) q := by
    rw [Matrix.mul_apply, Finset.sum_eq_single (h.put p (h.proj q))]
    · rw [lift_apply h M p _ (same_put h _ _), proj_put]
    · intro k _ hk
      by_cases hs : h.Same p k
      · by_cases hl : ∃ t < D.length, t ∈ h.kept ∧ levelAt D t k ≠ levelAt D t q
        · obtain ⟨t, ht, htk, hne⟩ := hl
          rw [opsOf_zero hr k q t ht (by simpa using htk) hne, mul_zero]
        · exfalso
          apply hk
          have : h.proj k = h.proj q := pos_ext fun t ht => by
            rw [proj_level h k t ht, proj_level h q t ht]
            by_contra hne
            exact hl ⟨_, h.lt t ht, (mem_kept h _).2 ⟨t, ht, rfl⟩, hne⟩
          rw [← this, put_proj h p k hs]
      · rw [lift_zero' h _ _ _ hs, zero_mul]
    · intro hn
      exact absurd (Finset.mem_univ _) hn
  have e3 : r p (h.put q (h.proj p)) = r (h.put p (h.proj q)) q := by
    refine opsOf_entry hr _ _ _ _ ?_ ?_ ?_ ?_
    · intro t ht hk
      obtain ⟨s, hs, rfl⟩ := (mem_kept h t).1 (by simpa using hk)
      rw [put_kept h _ _ s hs, proj_level h p s hs]
    · intro t ht hk
      obtain ⟨s, hs, rfl⟩ := (mem_kept h t).1 (by simpa using hk)
      rw [put_kept h _ _ s hs, proj_level h q s hs]
    · intro t ht hk
      rw [put_other h _ _ t ht hk]
    · intro t ht hk
      rw [put_other h _ _ t ht hk]
  rw [e1, e2, e3, mul_comm]

theorem lift_ann (t : ℕ) (ht : t < d.length) : h.hom (ann d t) = ann D (h.pos t) := by
  classical
  ext p q
  rw [hom_apply, ann_apply (h.pos t) (h.lt t ht)]
  by_cases hs : h.Same p q
  · rw [lift_apply h _ _ _ hs, ann_apply t ht, proj_level h p t ht, proj_level h q t ht]
    congr 1
    rw [eq_iff_iff, and_congr_left_iff]
    intro _
    constructor
    · intro h1 u hu hne
      by_cases hk : u ∈ h.kept
      · obtain ⟨s, hs', rfl⟩ := (mem_kept h u).1 hk
        have := h1 s hs' (by
          rintro rfl
          exact hne rfl)
        rwa [proj_level h p s hs', proj_level h q s hs'] at this
      · exact hs u hu hk
    · intro h1 s hs' hne
      rw [proj_level h p s hs', proj_level h q s hs']
      exact h1 _ (h.lt s hs') fun e => hne (h.inj s hs' t ht e)
  · rw [lift_zero' h _ _ _ hs, if_neg]
    rintro ⟨h1, -⟩
    apply hs
    intro u hu hk
    refine h1 u hu ?_
    rintro rfl
    exact hk ((mem_kept h _).2 ⟨t, ht, rfl⟩)

/-! ## Hamiltonians -/

theorem hom_sub (s : Sub) (a : Op d) : h.hom (s.ham none a) = s.ham none (h.hom a) := by
  cases s <;>
  · simp only [Sub.ham, dress, resonator, duffing, thirdOrder]
    try split
    all_goals simp only [map_add, map_smul, map_mul, map_sub, map_one, hom_conj]

theorem hom_int (f : IntFun) (a b : Op d) : h.hom (f.ham a b) = f.ham (h.hom a) (h.hom b) := by
  cases f <;> simp only [IntFun.ham, intXX, intYY, map_add, map_mul, map_sub, map_neg, hom_conj]

theorem hom_drive (f : DriveFun) (a : Op d) : h.hom (f.ham a) = f.ham (h.hom a) := by
  cases f <;> simp only [DriveFun.ham, xDrive, yDrive, zDrive, resonator, duffing, thirdOrder, map_add, map_smul, map_mul,
    map_sub, map_one, hom_conj]

theorem hom_line (l : Line) (hl : Inside (all d) l) :
    h.hom ((l.drift (ann d)).getD 0) = ((h.line l).drift (ann D)).getD 0 ∧
      h.hom ((l.control (ann d)).getD 0) = ((h.line l).control (ann D)).getD 0 := by
  cases l with
  | coupling f s a b =>
    have ha : a < d.length := Finset.mem_range.1 (hl a (by simp [touches]))
    have hb : b < d.length := Finset.mem_range.1 (hl b (by simp [touches]))
    refine ⟨?_, map_zero _⟩
    show h.hom ((s : ℂ) • f.ham (ann d a) (ann d b)) = (s : ℂ) • f.ham (ann D (h.pos a)) (ann D (h.pos b))
    rw [map_smul, hom_int, lift_ann h a ha, lift_ann h b hb]
  | drive f conn =>
    refine ⟨map_zero _, ?_⟩
    show h.hom ((conn.map fun i => f.ham (ann d i)).sum) = ((conn.map h.pos).map fun i => f.ham (ann D i)).sum
    rw [map_list_sum, List.map_map, List.map_map]
    congr 1
    refine List.map_congr_left fun i hi => ?_
    show h.hom (f.ham (ann d i)) = f.ham (ann D (h.pos i))
    rw [hom_drive, lift_ann h i (Finset.mem_range.1 (hl i hi))]
  | couplingDrive f a b =>
    have ha : a < d.length := Finset.mem_range.1 (hl a (by simp [touches]))
    have hb : b < d.length := Finset.mem_range.1 (hl b (by simp [touches]))
    refine ⟨map_zero _, ?_⟩
    show h.hom (f.ham (ann d a) (ann d b)) = f.ham (ann D (h.pos a)) (ann D (h.pos b))
    rw [hom_int, lift_ann h a ha, lift_ann h b hb]

theorem hom_group (subs : List (Sub × ℕ)) (cpl : List Line) (pl : List (Line × ℝ)) (hs : ∀ s ∈ subs, s.2 < d.length)
    (hc : ∀ l ∈ cpl, Inside (all d) l) (hp : ∀ l ∈ pl, Inside (all d) l.1) :
    h.hom (groupHam d subs cpl pl) = groupHam D (subs.map fun s => (s.1, h.pos s.2)) (cpl.map h.line)
      (pl.map fun l => (h.line l.1, l.2)) := by
  unfold groupHam
  rw [map_add, map_add, map_list_sum, map_list_sum, map_list_sum]
  simp only [List.map_map]
  refine congrArg₂ (· + ·) (congrArg₂ (· + ·) (congrArg List.sum (List.map_congr_left fun s hs' => ?_))
    (congrArg List.sum (List.map_congr_left fun l hl => ?_))) (congrArg List.sum (List.map_congr_left fun l hl => ?_))
  · show h.hom (s.1.ham none (ann d s.2)) = s.1.ham none (ann D (h.pos s.2))
    rw [hom_sub, lift_ann h _ (hs s hs')]
  · exact (hom_line h l (hc l hl)).1
  · show h.hom ((l.2 : ℂ) • (l.1.control (ann d)).getD 0) = (l.2 : ℂ) • ((h.line l.1).control (ann D)).getD 0
    rw [map_smul, (hom_line h l.1 (hp l hl)).2]

theorem group_perm {dims : List ℕ} {s s' : List (Sub × ℕ)} {c c' : List Line} {p p' : List (Line × ℝ)} (hs : s.Perm s')
    (hc : c.Perm c') (hp : p.Perm p') : groupHam dims s c p = groupHam dims s' c' p' := by
  unfold groupHam
  rw [(hs.map _).sum_eq, (hc.map _).sum_eq, (hp.map _).sum_eq]

/-! ## States and observables -/

/-- The state of the small chip is the state of the elements that are kept. -/
def Reduces (rho : Op D) (sigma : Op d) : Prop := ∀ o, measureOperator (h.lift o) rho = measureOperator o sigma

/-- The large chip has the collapse operators of the small one, and others of the elements that are left out. -/
def KeptDecay (c : Chip d) (C : Chip D) : Prop :=
  ∃ other : List (Op D), C.cols.Perm (c.cols.map h.lift ++ other) ∧ ∀ L ∈ other, L ∈ opsOf D (· ∉ h.kept)

/-- The superoperators that do the same to the elements that are kept. -/
def pairs : Submonoid (SOp D × SOp d) where
  carrier := {T | ∀ o : Op d, ∃ o' : Op d, (∀ rho, measureOperator (h.lift o) (act T.1 rho) = measureOperator (h.lift o') rho) ∧
    ∀ sigma, measureOperator o (act T.2 sigma) = measureOperator o' sigma}
  one_mem' := fun o => ⟨o, fun rho => by simp [act], fun sigma => by simp [act]⟩
  mul_mem' := by
    intro a b ha hb o
    obtain ⟨o', h1, h2⟩ := ha o
    obtain ⟨o'', h3, h4⟩ := hb o'
    refine ⟨o'', fun rho => ?_, fun sigma => ?_⟩
    · rw [Prod.fst_mul, act_mul, h1, h3]
    · rw [Prod.snd_mul, act_mul, h2, h4]

theorem pairs_reduce (T : SOp D × SOp d) (hT : T ∈ pairs h) (rho : Op D) (sigma : Op d) (hr : Reduces h rho sigma) :
    Reduces h (act T.1 rho) (act T.2 sigma) := by
  intro o
  obtain ⟨o', h1, h2⟩ := hT o
  rw [h1, h2, hr]

/-! ## One sample -/

open scoped Matrix.Norms.L2Operator in
theorem vec_series {m : Type*} [Fintype m] [DecidableEq m] (B : Matrix m m ℂ) (w : m → ℂ) :
    HasSum (fun n : ℕ => ((n.factorial : ℂ)⁻¹) • (w ᵥ* B ^ n)) (w ᵥ* exp B) := by
  have h1 := NormedSpace.exp_series_hasSum_exp' (𝕂 := ℂ) B
  have h2 := h1.map (⟨⟨fun M : Matrix m m ℂ => w ᵥ* M, vecMul_zero w⟩, fun X Y => vecMul_add X Y w⟩ :
    Matrix m m ℂ →+ (m → ℂ)) (Continuous.matrix_vecMul continuous_const continuous_id)
  refine h2.congr_fun ?_
  intro n
  show ((n.factorial : ℂ)⁻¹) • (w ᵥ* B ^ n) = w ᵥ* (((n.factorial : ℂ)⁻¹) • B ^ n)
  rw [vecMul_smul]

/-- Maps between generators are maps between their exponentials. -/
theorem intertwine {m k : Type*} [Fintype m] [DecidableEq m] [Fintype k] [DecidableEq k] (L : (m → ℂ) →ₗ[ℂ] (k → ℂ))
    (A : Matrix m m ℂ) (B : Matrix k k ℂ) (hL : ∀ w, L (w ᵥ* A) = L w ᵥ* B) (w : m → ℂ) :
    L (w ᵥ* exp A) = L w ᵥ* exp B := by
  have hpow : ∀ n : ℕ, L (w ᵥ* A ^ n) = L w ᵥ* B ^ n := by
    intro n
    induction n with
    | zero => simp
    | succ n ih => rw [pow_succ, pow_succ, ← vecMul_vecMul, ← vecMul_vecMul, hL, ih]
  have hA := (vec_series A w).map L L.continuous_of_finiteDimensional
  refine hA.unique ?_
  have hB := vec_series B (L w)
  refine hB.congr_fun ?_
  intro n
  show L (((n.factorial : ℂ)⁻¹) • (w ᵥ* A ^ n)) = _
  rw [map_smul, hpow]

theorem all_mem {P : ℕ → Prop} (hP : ∀ t < d.length, P t) (M : Op d) : M ∈ opsOf d P := by
  rw [mem_opsOf]
  intro q hq hn
  exact absurd (hP q hq) hn

theorem mem_all (M : Op d) : M ∈ opsOf d (· ∈ all d) := all_mem (fun _ ht => Finset.mem_range.2 ht) M

theorem heisenberg_lift (A o : Op d) (r : Op D) (hr : r ∈ opsOf D (· ∉ h.kept)) (own : List (Op d)) (cols other : List (Op D))
    (hp : cols.Perm (own.map h.lift ++ other)) (hx : ∀ L ∈ other, L ∈ opsOf D (· ∉ h.kept)) :
    heisenberg (h.lift A + r) cols (h.lift o) = h.lift (heisenberg A own o) := by
  have hcr := lift_commute h o r hr
  unfold heisenberg
  rw [(hp.map _).sum_eq, List.map_append, List.sum_append]
  have e1 : (h.lift A + r) * h.lift o - h.lift o * (h.lift A + r) = h.lift A * h.lift o - h.lift o * h.lift A := by
    rw [Matrix.add_mul, Matrix.mul_add, hcr]
    abel
  have e2 : (other.map fun L => Lᴴ * h.lift o * L - (1 / 2 : ℂ) • (Lᴴ * L * h.lift o + h.lift o * (Lᴴ * L))).sum = 0 := by
    apply List.sum_eq_zero
    intro x hx'
    obtain ⟨L, hL, rfl⟩ := List.mem_map.1 hx'
    have h1 : L * h.lift o = h.lift o * L := lift_commute h o L (hx L hL)
    have h2 : Lᴴ * h.lift o = h.lift o * Lᴴ := lift_commute h o _ (opsOf_conj (hx L hL))
    have e3 : Lᴴ * h.lift o * L = Lᴴ * L * h.lift o := by rw [Matrix.mul_assoc, ← h1, Matrix.mul_assoc]
    have e4 : h.lift o * (Lᴴ * L) = Lᴴ * L * h.lift o := by rw [← Matrix.mul_assoc, ← h2, e3]
    rw [e3, e4]
    module
  rw [e1, e2, add_zero]
  show _ = h.hom _
  rw [map_add, map_smul, map_sub, map_mul, map_mul, map_list_sum, List.map_map, List.map_map]
  refine congrArg₂ (· + ·) rfl (congrArg List.sum (List.map_congr_left fun L _ => ?_))
  show (h.hom L)ᴴ * h.hom o * h.hom L - (1 / 2 : ℂ) • ((h.hom L)ᴴ * h.hom L * h.hom o + h.hom o * ((h.hom L)ᴴ * h.hom L)) =
    h.hom (Lᴴ * o * L - (1 / 2 : ℂ) • (Lᴴ * L * o + o * (Lᴴ * L)))
  simp only [map_sub, map_mul, map_smul, map_add, hom_conj]

/-- Observables of the small chip on the large one, as functionals. -/
def Places.onLarge : (Fin d.prod × Fin d.prod → ℂ) →ₗ[ℂ] (Fin D.prod × Fin D.prod → ℂ) where
  toFun w := functional (h.lift (observable d w))
  map_add' v w := by
    rw [map_add, lift_add]
    rfl
  map_smul' z w := by
    rw [map_smul, lift_smul]
    rfl

theorem slice_pair (dt : ℝ) (A r' : Op d) (r : Op D) (hr : r ∈ opsOf D (· ∉ h.kept)) (hr' : r' ∈ opsOf d (· ∉ all d))
    (own : List (Op d)) (cols other : List (Op D)) (hp : cols.Perm (own.map h.lift ++ other))
    (hx : ∀ L ∈ other, L ∈ opsOf D (· ∉ h.kept)) :
    (exp ((dt : ℂ) • lindOp (h.lift A + r) cols), exp ((dt : ℂ) • lindOp (A + r') own)) ∈ pairs h := by
  intro o
  refine ⟨Independent.earlier dt A own o, fun rho => ?_, fun sigma => ?_⟩
  · have e := intertwine h.onLarge ((dt : ℂ) • lindOp A own) ((dt : ℂ) • lindOp (h.lift A + r) cols) (by
      intro w
      have ew : w = functional (observable d w) := rfl
      show functional (h.lift (observable d (w ᵥ* ((dt : ℂ) • lindOp A own)))) =
        functional (h.lift (observable d w)) ᵥ* ((dt : ℂ) • lindOp (h.lift A + r) cols)
      rw [functional_lind, heisenberg_lift h A _ r hr own cols other hp hx]
      conv_lhs => rw [ew, functional_lind]
      show functional (h.lift ((dt : ℂ) • heisenberg A own (observable d w))) = _
      rw [lift_smul]) (functional o)
    unfold act
    rw [measure_dot]
    change functional (h.lift o) ⬝ᵥ _ = _
    rw [dotProduct_mulVec]
    have e' : functional (h.lift o) ᵥ* exp ((dt : ℂ) • lindOp (h.lift A + r) cols) =
      functional (h.lift (Independent.earlier dt A own o)) := e.symm
    rw [e']
    have := measure_dot (h.lift (Independent.earlier dt A own o)) (rowVec rho)
    rw [unRow_rowVec] at this
    rw [this]
    rfl
  · have e := (stable_exp ⊤ ((dt : ℂ) • lindOp (A + r') own) ((dt : ℂ) • lindOp A own) (by
      intro w _
      refine ⟨?_, trivial⟩
      have ew : w = functional (observable d w) := rfl
      rw [ew, functional_lind, functional_lind, (heisenberg_split (all d) A r' (mem_all A) hr' own own [] (by simp)
        (fun L _ => mem_all L) (by simp) _ (mem_all _)).1]) (functional o) trivial).1
    unfold act
    rw [measure_dot]
    change functional o ⬝ᵥ _ = _
    rw [dotProduct_mulVec, e, Independent.functional_earlier]
    have := measure_dot (Independent.earlier dt A own o) (rowVec sigma)
    rw [unRow_rowVec] at this
    rw [this]
    rfl

theorem ordered_pairs {M N ι κ : Type*} [Monoid M] [Monoid N] (R : Submonoid (M × N)) (l : List ι) (l' : List κ)
    (f : ι → M) (f' : κ → N) (hl : List.Forall₂ (fun a b => (f a, f' b) ∈ R) l l') :
    (C3.Fold.timeOrdered (l.map f), C3.Fold.timeOrdered (l'.map f')) ∈ R := by
  unfold C3.Fold.timeOrdered
  induction hl with
  | nil => exact R.one_mem
  | cons hab _ ih =>
    rw [List.map_cons, List.map_cons, List.reverse_cons, List.reverse_cons, List.prod_append, List.prod_append,
      List.prod_singleton, List.prod_singleton]
    exact R.mul_mem ih hab

/-! ## Frames -/

theorem lift_diagonal (f : Fin d.prod → ℂ) : h.lift (diagonal f) = diagonal fun p => f (h.proj p) := by
  ext p q
  by_cases hpq : p = q
  · subst hpq
    rw [lift_apply h _ p p fun _ _ _ => rfl, diagonal_apply_eq, diagonal_apply_eq]
  · rw [diagonal_apply_ne _ hpq]
    by_cases hs : h.Same p q
    · rw [lift_apply h _ _ _ hs, diagonal_apply_ne _ fun e => hpq (same_ext h p q hs e)]
    · exact lift_zero' h _ _ _ hs

theorem unitary_pair (U R' : Op d) (R : Op D) (hR : R ∈ opsOf D (· ∉ h.kept)) (hR' : R' ∈ opsOf d (· ∉ all d))
    (hu : Rᴴ * R = 1) (hu' : R'ᴴ * R' = 1) : (tfSuper (h.lift U * R), tfSuper (U * R')) ∈ pairs h := by
  have key : ∀ {dims : List ℕ} (V R X rho : Op dims), (Vᴴ * X * V) * R = R * (Vᴴ * X * V) → Rᴴ * R = 1 →
      measureOperator X (act (tfSuper (V * R)) rho) = measureOperator (Vᴴ * X * V) rho := by
    intro dims V R X rho e1 hu
    rw [act_super]
    unfold measureOperator
    have e2 : (V * R)ᴴ * X * (V * R) = Vᴴ * X * V := by
      calc (V * R)ᴴ * X * (V * R) = Rᴴ * ((Vᴴ * X * V) * R) := by
            rw [conjTranspose_mul]
            simp only [Matrix.mul_assoc]
        _ = Rᴴ * R * (Vᴴ * X * V) := by rw [e1, ← Matrix.mul_assoc]
        _ = Vᴴ * X * V := by rw [hu, Matrix.one_mul]
    have e3 : (X * (V * R * rho * (V * R)ᴴ)).trace = ((V * R)ᴴ * X * (V * R) * rho).trace := by
      rw [← Matrix.mul_assoc, trace_mul_comm]
      simp only [Matrix.mul_assoc]
    rw [e3, e2]
  intro o
  have el : (h.lift U)ᴴ * h.lift o * h.lift U = h.lift (Uᴴ * o * U) := by
    rw [lift_mul, lift_mul, lift_conj]
  refine ⟨Uᴴ * o * U, fun rho => ?_, fun sigma => ?_⟩
  · show measureOperator (h.lift o) (act (tfSuper (h.lift U * R)) rho) = _
    rw [key (h.lift U) R (h.lift o) rho (by rw [el, lift_commute h _ R hR]) hu, el]
  · exact key U R' o sigma (opsOf_commute (mem_all _) hR') hu'

theorem frame_pair (c : Chip d) (C : Chip D) (hc : c.WF) (hC : C.WF) (p P : Pulse) (hp : KeptPulse h c C p P) (f : Op d)
    (F : Op D) (hf : c.frame p = some f) (hF : C.frame P = some F) : (tfSuper F, tfSuper f) ∈ pairs h := by
  obtain ⟨r, hr, rfl⟩ := frame_split (all d) c hc p f hf
  obtain ⟨r', hr', rfl⟩ := frame_split h.kept C hC P F hF
  have e : phases (groupPhase D P.t (carriers h.kept C P)) = h.lift (phases (groupPhase d p.t (carriers (all d) c p))) := by
    unfold phases
    rw [lift_diagonal]
    congr 1
    funext k
    congr 3
    unfold groupPhase
    rw [(hp.carriers.map _).sum_eq, List.map_map, hp.length]
    refine congrArg List.sum (List.map_congr_left fun x hx => ?_)
    obtain ⟨l, -, e⟩ := List.mem_filterMap.1 hx
    split at e
    · next hm =>
      rw [Option.some.injEq] at e
      subst e
      show _ * (levelAt D (h.pos _) k : ℝ) = _ * (levelAt d _ (h.proj k) : ℝ)
      rw [proj_level h k _ (Finset.mem_range.1 hm)]
    · cases e
  rw [e]
  exact unitary_pair h _ _ _ (phases_mem _ hr') (phases_mem _ hr) (phases_unitary _) (phases_unitary _)

/-! ## Gates -/

theorem propagators_pair (c : Chip d) (C : Chip D) (hc : c.WF) (hC : C.WF) (hs : Separated (all d) c)
    (hS : Separated h.kept C) (hk : Kept h c C) (own : List (Op d)) (cols other : List (Op D))
    (hd : cols.Perm (own.map h.lift ++ other)) (hx : ∀ L ∈ other, L ∈ opsOf D (· ∉ h.kept)) (p P : Pulse)
    (hp : KeptPulse h c C p P) (hks : List (Op d)) (Hks : List (Op D)) (h1 : c.hks p = some hks) (h2 : C.hks P = some Hks) :
    List.Forall₂ (fun V v => (dUOfTLind C.h0 Hks cols P.dt V, dUOfTLind c.h0 hks own p.dt v) ∈ pairs h) P.values p.values := by
  refine hp.samples.imp ?_
  intro V v hv
  obtain ⟨r, hr, e⟩ := ham_split h.kept C hC hS P Hks h2 V
  obtain ⟨r', hr', e'⟩ := ham_split (all d) c hc hs p hks h1 v
  unfold dUOfTLind
  have eg : groupHam D (elements h.kept C) (couplings h.kept C) (played h.kept C P.chans V) =
      h.lift (groupHam d (elements (all d) c) (couplings (all d) c) (played (all d) c p.chans v)) := by
    rw [group_perm hk.elements hk.couplings hv]
    refine (hom_group h _ _ _ ?_ ?_ ?_).symm
    · intro s hs'
      obtain ⟨q, -, e⟩ := List.mem_filterMap.1 hs'
      split at e
      · next hm =>
        rw [Option.some.injEq] at e
        subst e
        exact Finset.mem_range.1 hm
      · cases e
    · intro l hl
      obtain ⟨q, -, e⟩ := List.mem_filterMap.1 hl
      split at e
      · split at e
        · next hm =>
          rw [Option.some.injEq] at e
          subst e
          exact hm
        · cases e
      · cases e
    · intro l hl
      obtain ⟨q, -, e⟩ := List.mem_filterMap.1 hl
      split at e
      · cases e
      · split at e
        · next hm =>
          rw [Option.some.injEq] at e
          subst e
          exact hm
        · cases e
  rw [e, e', eg, hp.step]
  exact slice_pair h p.dt _ r' r hr hr' own cols other hd hx

/-- The same for propagators of closed systems. -/
def pairsClosed : Submonoid (Op D × Op d) :=
  (pairs h).comap ((Independent.superHom D).prodMap (Independent.superHom d))

theorem mem_pairsClosed (U : Op D) (u : Op d) : (U, u) ∈ pairsClosed h ↔ (tfSuper U, tfSuper u) ∈ pairs h := Iff.rfl

theorem nonempty_pulse (c : Chip d) (C : Chip D) (p P : Pulse) (hp : KeptPulse h c C p P) : P.values = [] ↔ p.values = [] := by
  rw [← List.length_eq_zero_iff, ← List.length_eq_zero_iff, hp.samples.length_eq]

theorem closed_pair (c : Chip d) (C : Chip D) (hc : c.WF) (hC : C.WF) (p P : Pulse) (hks : List (Op d)) (Hks : List (Op D))
    (h1 : c.hks p = some hks) (h2 : C.hks P = some Hks) (V v : List ℝ)
    (hl : (dUOfTLind C.h0 Hks [] P.dt V, dUOfTLind c.h0 hks [] p.dt v) ∈ pairs h) :
    (dUOfT C.h0 Hks P.dt V, dUOfT c.h0 hks p.dt v) ∈ pairsClosed h := by
  have e1 := slice_closed C.h0 Hks P.dt V (h0_herm C hC) (hks_herm C hC P Hks h2)
  have e2 := slice_closed c.h0 hks p.dt v (h0_herm c hc) (hks_herm c hc p hks h1)
  rw [e1, e2] at hl
  exact (mem_pairsClosed h _ _).2 hl

theorem closed_pairs (c : Chip d) (C : Chip D) (hc : c.WF) (hC : C.WF) (hs : Separated (all d) c)
    (hS : Separated h.kept C) (hk : Kept h c C) (p P : Pulse) (hp : KeptPulse h c C p P) (hks : List (Op d))
    (Hks : List (Op D)) (h1 : c.hks p = some hks) (h2 : C.hks P = some Hks) :
    List.Forall₂ (fun V v => (dUOfT C.h0 Hks P.dt V, dUOfT c.h0 hks p.dt v) ∈ pairsClosed h) P.values p.values :=
  (propagators_pair h c C hc hC hs hS hk [] [] [] (.refl _) (by simp) p P hp hks Hks h1 h2).imp
    fun V v hl => closed_pair h c C hc hC p P hks Hks h1 h2 V v hl

theorem mul_pair {M N : Type*} [Monoid M] [Monoid N] (R : Submonoid (M × N)) (a b : M) (a' b' : N) (ha : (a, a') ∈ R)
    (hb : (b, b') ∈ R) : (a * b, a' * b') ∈ R := R.mul_mem ha hb

/-- C265, gates of closed systems: of states that agree on the elements that are kept the gates of the large and of the
small chip make states that agree on them. -/
theorem C265_gate (c : Chip d) (C : Chip D) (hc : c.WF) (hC : C.WF) (hs : Separated (all d) c) (hS : Separated h.kept C)
    (hk : Kept h c C) (ps Ps : List (String × Pulse)) (g : String)
    (hp : ∀ p P, ps.lookup g = some p → Ps.lookup g = some P → KeptPulse h c C p P) (v : Op d) (V : Op D)
    (h1 : physical (closed c ps) (.name "pwc") g = .ok v) (h2 : physical (closed C Ps) (.name "pwc") g = .ok V) :
    (V, v) ∈ pairsClosed h ∧ ∀ rho sigma, Reduces h rho sigma → Reduces h (V * rho * Vᴴ) (v * sigma * vᴴ) := by
  have key : (V, v) ∈ pairsClosed h := by
    obtain ⟨p, hks, u, hp1, hk1, hu, hf⟩ := physical_closed c ps g v h1
    obtain ⟨P, Hks, U, hP1, hk2, hU, hF⟩ := physical_closed C Ps g V h2
    have hpp := hp p P hp1 hP1
    have hUU : (U, u) ∈ pairsClosed h := by
      by_cases hv : p.values = []
      · rw [hv, List.length_nil, pwc_empty c.h0 hks p.dt c.batch hc.batch] at hu
        simp at hu
      · have hv' : P.values ≠ [] := fun e => hv ((nonempty_pulse h c C p P hpp).1 e)
        rw [pwc_eq c.h0 hks p.dt p.values hv c.batch hc.batch, Option.some.injEq] at hu
        rw [pwc_eq C.h0 Hks P.dt P.values hv' C.batch hC.batch, Option.some.injEq] at hU
        rw [← hu, ← hU]
        exact ordered_pairs (pairsClosed h) _ _ _ _ (closed_pairs h c C hc hC hs hS hk p P hpp hks Hks hk1 hk2)
    rcases hf with ⟨hf, f, hf', rfl⟩ | ⟨hf, rfl⟩
    · rcases hF with ⟨-, F, hF', rfl⟩ | ⟨hF, rfl⟩
      · exact mul_pair (pairsClosed h) F U f u (frame_pair h c C hc hC p P hpp f F hf' hF') hUU
      · rw [← hk.frame, hF] at hf
        cases hf
    · rcases hF with ⟨hF, F, hF', rfl⟩ | ⟨-, rfl⟩
      · rw [← hk.frame, hF] at hf
        cases hf
      · exact hUU
  refine ⟨key, fun rho sigma hr => ?_⟩
  have := pairs_reduce h _ ((mem_pairsClosed h V v).1 key) rho sigma hr
  rwa [act_super, act_super] at this

/-- C265, gates of open systems. -/
theorem C265_gate_open (c : Chip d) (C : Chip D) (hc : c.WF) (hC : C.WF) (hs : Separated (all d) c)
    (hS : Separated h.kept C) (hk : Kept h c C) (hd : KeptDecay h c C) (ps Ps : List (String × Pulse)) (g : String)
    (hp : ∀ p P, ps.lookup g = some p → Ps.lookup g = some P → KeptPulse h c C p P) (v : SOp d) (V : SOp D)
    (h1 : physical (opened c ps) (.name "pwc") g = .ok v) (h2 : physical (opened C Ps) (.name "pwc") g = .ok V) :
    (V, v) ∈ pairs h ∧ ∀ rho sigma, Reduces h rho sigma →
      Reduces h (unRow (V *ᵥ rowVec rho)) (unRow (v *ᵥ rowVec sigma)) := by
  have key : (V, v) ∈ pairs h := by
    obtain ⟨p, hks, u, hp1, hk1, hu, hf⟩ := physical_opened c ps g v h1
    obtain ⟨P, Hks, U, hP1, hk2, hU, hF⟩ := physical_opened C Ps g V h2
    have hpp := hp p P hp1 hP1
    have hUU : (U, u) ∈ pairs h := by
      by_cases hv : p.values = []
      · rw [hv, List.length_nil, pwcLind_empty c.h0 hks c.cols p.dt c.batch hc.batch] at hu
        simp at hu
      · have hv' : P.values ≠ [] := fun e => hv ((nonempty_pulse h c C p P hpp).1 e)
        rw [pwcLind_eq c.h0 hks c.cols p.dt p.values hv c.batch hc.batch, Option.some.injEq] at hu
        rw [pwcLind_eq C.h0 Hks C.cols P.dt P.values hv' C.batch hC.batch, Option.some.injEq] at hU
        rw [← hu, ← hU]
        obtain ⟨other, d1, d2⟩ := hd
        exact ordered_pairs (pairs h) _ _ _ _
          (propagators_pair h c C hc hC hs hS hk c.cols C.cols other d1 d2 p P hpp hks Hks hk1 hk2)
    rcases hf with ⟨hf, f, hf', rfl⟩ | ⟨hf, rfl⟩
    · rcases hF with ⟨-, F, hF', rfl⟩ | ⟨hF, rfl⟩
      · exact mul_pair (pairs h) (tfSuper F) U (tfSuper f) u (frame_pair h c C hc hC p P hpp f F hf' hF') hUU
      · rw [← hk.frame, hF] at hf
        cases hf
    · rcases hF with ⟨hF, F, hF', rfl⟩ | ⟨-, rfl⟩
      · rw [← hk.frame, hF] at hf
        cases hf
      · exact hUU
  exact ⟨key, fun rho sigma hr => pairs_reduce h _ key rho sigma hr⟩

/-! ## Experiments -/

theorem measure_level (i : Fin d.prod) (rho : Op D) : measureOperator (h.lift (diagonal (Pi.single i 1))) rho =
    open scoped Classical in
    ∑ k ∈ Finset.univ.filter fun k => ∀ t < d.length, levelAt D (h.pos t) k = levelAt d t i, rho k k := by
  classical
  rw [lift_diagonal]
  unfold measureOperator
  rw [Finset.sum_filter]
  simp only [Matrix.trace, Matrix.diag, diagonal_mul]
  refine Finset.sum_congr rfl fun k _ => ?_
  by_cases hk : ∀ t < d.length, levelAt D (h.pos t) k = levelAt d t i
  · have e : h.proj k = i := pos_ext fun t ht => by rw [proj_level h k t ht, hk t ht]
    rw [if_pos hk, e, Pi.single_eq_same, one_mul]
  · have e : h.proj k ≠ i := fun e => hk fun t ht => by rw [← proj_level h k t ht, e]
    rw [if_neg hk, Pi.single_eq_of_ne e, zero_mul]

theorem measure_single (i : Fin d.prod) (sigma : Op d) : measureOperator (diagonal (Pi.single i 1)) sigma = sigma i i := by
  unfold measureOperator
  simp only [Matrix.trace, Matrix.diag, diagonal_mul]
  rw [Finset.sum_eq_single i]
  · rw [Pi.single_eq_same, one_mul]
  · intro j _ hj
    rw [Pi.single_eq_of_ne hj, zero_mul]
  · intro hn
    exact absurd (Finset.mem_univ i) hn

theorem pops_reduce (rho : Op D) (sigma : Op d) (hr : Reduces h rho sigma) (i : Fin d.prod) :
    (sigma i i).re = h.reduced (fun k => (rho k k).re) i := by
  have := hr (diagonal (Pi.single i 1))
  rw [measure_level, measure_single] at this
  unfold Places.reduced
  rw [← this, Complex.re_sum]

/-- Two calls of `compute_propagators`, for the small and for the large chip. -/
def Alike (w : World (Op d)) (W : World (Op D)) : Prop :=
  ∃ (c : Chip d) (C : Chip D) (ps Ps : List (String × Pulse)), w = closed c ps ∧ W = closed C Ps ∧ c.WF ∧ C.WF ∧
    Separated (all d) c ∧ Separated h.kept C ∧ Kept h c C ∧
    ∀ g p P, ps.lookup g = some p → Ps.lookup g = some P → KeptPulse h c C p P

/-- The same for open systems. -/
def AlikeOpen (w : World (SOp d)) (W : World (SOp D)) : Prop :=
  ∃ (c : Chip d) (C : Chip D) (ps Ps : List (String × Pulse)), w = opened c ps ∧ W = opened C Ps ∧ c.WF ∧ C.WF ∧
    Separated (all d) c ∧ Separated h.kept C ∧ Kept h c C ∧ KeptDecay h c C ∧
    ∀ g p P, ps.lookup g = some p → Ps.lookup g = some P → KeptPulse h c C p P

theorem sequence_pairs {M N : Type*} [Monoid M] [Monoid N] (R : Submonoid (M × N)) (f : String → M) (f' : String → N)
    (q : List String) (hq : ∀ g ∈ q, (f g, f' g) ∈ R) : (C3.Fold.seqProp f q, C3.Fold.seqProp f' q) ∈ R := by
  unfold C3.Fold.seqProp
  apply ordered_pairs
  rw [List.forall₂_same]
  exact hq

/-- C265 (closed systems): for any histories of calls for the small and the large chip and states that agree on the
elements that are kept, the populations of the small chip after every sequence are those of the large one, summed over
the levels of the elements that were left out. -/
theorem C265_closed (s : Exp (Op d)) (s' : Exp (Op D)) (hm : s.propMethod = none) (hm' : s'.propMethod = none)
    (hp : ∀ g, s.propagators g = none) (hp' : ∀ g, s'.propagators g = none) (es : List (Event (Op d)))
    (es' : List (Event (Op D))) (he : ∀ e ∈ es, ∀ e' ∈ es', Alike h e.w e'.w)
    (hw : ∀ e ∈ es, ∃ c : Chip d, c.WF ∧ ∃ ps, e.w = closed c ps)
    (hw' : ∀ e ∈ es', ∃ c : Chip D, c.WF ∧ ∃ ps, e.w = closed c ps) (seqs : List (List String))
    (ha : Available (runEvents s es).propagators seqs) (ha' : Available (runEvents s' es').propagators seqs)
    (psi : Fin d.prod → ℂ) (psi' : Fin D.prod → ℂ) (hpsi : ∑ i, ‖psi i‖ ^ 2 = 1) (hpsi' : ∑ i, ‖psi' i‖ ^ 2 = 1)
    (hst : Reduces h (vecMulVec psi' (star psi')) (vecMulVec psi (star psi))) :
    ∃ p P, evaluateClosed (runEvents s es).propagators seqs psi = some p ∧
      evaluateClosed (runEvents s' es').propagators seqs psi' = some P ∧ P.length = seqs.length ∧ p = P.map h.reduced := by
  have wf : ∀ {dims : List ℕ} (es : List (Event (Op dims))),
      (∀ e ∈ es, ∃ c : Chip dims, c.WF ∧ ∃ ps, e.w = closed c ps) → ∀ e ∈ es, e.w.WF := fun es h e hm => by
    obtain ⟨c, _, ps, h⟩ := h e hm
    rw [h]
    exact closed_wf c ps
  have un : ∀ {dims : List ℕ} (s : Exp (Op dims)) (es : List (Event (Op dims))), s.propMethod = none →
      (∀ g, s.propagators g = none) → (∀ e ∈ es, ∃ c : Chip dims, c.WF ∧ ∃ ps, e.w = closed c ps) →
      ∀ g U, (runEvents s es).propagators g = some U → Uᴴ * U = 1 := by
    intro dims s es hm hp hw g U h
    obtain ⟨pre, e, post, rfl, -, -, h1, -⟩ := (C68_history s hm hp es (wf es hw) g U).1 h
    obtain ⟨c, hc, ps, h2⟩ := hw e (by simp)
    rw [h2] at h1
    exact C199_unitary c hc ps g U h1
  have tw : ∀ g u U, (runEvents s es).propagators g = some u → (runEvents s' es').propagators g = some U →
      (U, u) ∈ pairsClosed h := by
    intro g u U h0 h0'
    obtain ⟨pre, e, post, rfl, -, -, h1, -⟩ := (C68_history s hm hp es (wf es hw) g u).1 h0
    obtain ⟨pre', e', post', rfl, -, -, h1', -⟩ := (C68_history s' hm' hp' es' (wf es' hw') g U).1 h0'
    obtain ⟨c, C, ps, Ps, h2, h2', hc, hC, hs, hS, hk, hpp⟩ := he e (by simp) e' (by simp)
    rw [h2] at h1
    rw [h2'] at h1'
    exact (C265_gate h c C hc hC hs hS hk ps Ps g (hpp g) u U h1 h1').1
  obtain ⟨e1, -⟩ := C65_closed (runEvents s es).propagators seqs psi
    (fun q hq g hg => by
      obtain ⟨U, hU⟩ := ha q hq g hg
      exact ⟨U, hU, un s es hm hp hw g U hU⟩) hpsi
  obtain ⟨e2, -⟩ := C65_closed (runEvents s' es').propagators seqs psi'
    (fun q hq g hg => by
      obtain ⟨U, hU⟩ := ha' q hq g hg
      exact ⟨U, hU, un s' es' hm' hp' hw' g U hU⟩) hpsi'
  refine ⟨_, _, e1, e2, by simp, ?_⟩
  rw [List.map_map]
  refine List.map_congr_left fun q hq => ?_
  have hmem := sequence_pairs (pairsClosed h) (fun g => ((runEvents s' es').propagators g).getD 1)
    (fun g => ((runEvents s es).propagators g).getD 1) q (by
      intro g hg
      obtain ⟨u, hu⟩ := ha q hq g hg
      obtain ⟨U, hU⟩ := ha' q hq g hg
      rw [hu, hU]
      exact tw g u U hu hU)
  have hr := pairs_reduce h _ ((mem_pairsClosed h _ _).1 hmem) _ _ hst
  have pure : ∀ {dims : List ℕ} (U : Op dims) (psi : Fin dims.prod → ℂ) (i : Fin dims.prod),
      (act (tfSuper U) (vecMulVec psi (star psi)) i i).re = ‖(U *ᵥ psi) i‖ ^ 2 := by
    intro dims U psi i
    rw [act_super, mul_vecMulVec, vecMulVec_mul, ← star_mulVec, vecMulVec_apply, Pi.star_apply, RCLike.star_def,
      Complex.mul_conj']
    norm_cast
  funext i
  have := pops_reduce h _ _ hr i
  simp only [pure] at this
  exact this

/-- C265 (open systems): the same with decay of the elements. -/
theorem C265_open (s : Exp (SOp d)) (s' : Exp (SOp D)) (hm : s.propMethod = none) (hm' : s'.propMethod = none)
    (hp : ∀ g, s.propagators g = none) (hp' : ∀ g, s'.propagators g = none) (es : List (Event (SOp d)))
    (es' : List (Event (SOp D))) (he : ∀ e ∈ es, ∀ e' ∈ es', AlikeOpen h e.w e'.w)
    (hw : ∀ e ∈ es, ∃ c : Chip d, c.WF ∧ ∃ ps, e.w = opened c ps)
    (hw' : ∀ e ∈ es', ∃ c : Chip D, c.WF ∧ ∃ ps, e.w = opened c ps) (seqs : List (List String))
    (ha : Available (runEvents s es).propagators seqs) (ha' : Available (runEvents s' es').propagators seqs)
    (sigma : Op d) (rho : Op D) (hst : Reduces h rhoᵀ sigmaᵀ) :
    ∃ p P, evaluateOpen (runEvents s es).propagators seqs (dmToVec sigma) = some p ∧
      evaluateOpen (runEvents s' es').propagators seqs (dmToVec rho) = some P ∧ P.length = seqs.length ∧
      p = P.map h.reduced := by
  have wf : ∀ {dims : List ℕ} (es : List (Event (SOp dims))),
      (∀ e ∈ es, ∃ c : Chip dims, c.WF ∧ ∃ ps, e.w = opened c ps) → ∀ e ∈ es, e.w.WF := fun es h e hm => by
    obtain ⟨c, _, ps, h⟩ := h e hm
    rw [h]
    exact opened_wf c ps
  have tw : ∀ g u U, (runEvents s es).propagators g = some u → (runEvents s' es').propagators g = some U →
      (U, u) ∈ pairs h := by
    intro g u U h0 h0'
    obtain ⟨pre, e, post, rfl, -, -, h1, -⟩ := (C68_history s hm hp es (wf es hw) g u).1 h0
    obtain ⟨pre', e', post', rfl, -, -, h1', -⟩ := (C68_history s' hm' hp' es' (wf es' hw') g U).1 h0'
    obtain ⟨c, C, ps, Ps, h2, h2', hc, hC, hs, hS, hk, hd, hpp⟩ := he e (by simp) e' (by simp)
    rw [h2] at h1
    rw [h2'] at h1'
    exact (C265_gate_open h c C hc hC hs hS hk hd ps Ps g (hpp g) u U h1 h1').1
  refine ⟨_, _, Waiting.evaluate_all _ seqs _ _ fun q hq => runSeq_eq _ q _ (ha q hq),
    Waiting.evaluate_all _ seqs _ _ fun q hq => runSeq_eq _ q _ (ha' q hq), by simp, ?_⟩
  rw [List.map_map]
  refine List.map_congr_left fun q hq => ?_
  have hmem := sequence_pairs (pairs h) (fun g => ((runEvents s' es').propagators g).getD 1)
    (fun g => ((runEvents s es).propagators g).getD 1) q (by
      intro g hg
      obtain ⟨u, hu⟩ := ha q hq g hg
      obtain ⟨U, hU⟩ := ha' q hq g hg
      rw [hu, hU]
      exact tw g u U hu hU)
  have hr := pairs_reduce h _ hmem _ _ hst
  funext i
  exact pops_reduce h _ _ hr i

/-- C265: basis states with the same levels of the elements that are kept agree. -/
theorem C265_basis (k : Fin D.prod) (i : Fin d.prod) (hi : ∀ t < d.length, levelAt D (h.pos t) k = levelAt d t i) :
    Reduces h (vecMulVec (Pi.single k 1) (star (Pi.single k (1 : ℂ)))) (vecMulVec (Pi.single i 1) (star (Pi.single i (1 : ℂ)))) := by
  intro o
  rw [C248_pure, C248_pure]
  have e : ∀ {dims : List ℕ} (O : Op dims) (i : Fin dims.prod), star (Pi.single i (1 : ℂ)) ⬝ᵥ (O *ᵥ Pi.single i 1) = O i i := by
    intro dims O i
    rw [← Pi.single_star, star_one, mulVec_single_one, single_dotProduct, one_mul]
    rfl
  have e' : h.proj k = i := pos_ext fun t ht => by rw [proj_level h k t ht, hi t ht]
  rw [e, e, lift_apply h _ k k fun _ _ _ => rfl, e']

/-- C265: relaxation, dephasing and thermal excitation of an element on the large chip are those on the small chip. -/
theorem C265_decay (k : Kind) (x : Decay) (i : ℕ) (hi : i < d.length) :
    (collapseList k x d i).map h.lift = collapseList k x D (h.pos i) := by
  have ha : h.lift (ann d i) = ann D (h.pos i) := lift_ann h i hi
  have hb : ∀ T, h.lift (emb (detBalArr (d.getD i 0) x T) i d) = emb (detBalArr (D.getD (h.pos i) 0) x T) (h.pos i) D := by
    intro T
    rw [detBal_diagonal d i hi x T, detBal_diagonal D (h.pos i) (h.lt i hi) x T, lift_diagonal]
    congr 1
    funext k
    rw [proj_level h k i hi, h.size i hi]
  unfold collapseList
  rw [List.map_append]
  congr 1
  · split
    · rfl
    · split
      · simp only [List.map_cons, List.map_nil, lift_smul, ha]
      · simp only [List.map_cons, List.map_nil, lift_smul, lift_mul, lift_conj, ha, hb]
  · split
    · rfl
    · simp only [List.map_cons, List.map_nil, lift_smul, lift_mul, lift_conj, ha]

/-! ## Example: the first qubit of a pair -/

def exPlaces : Places [2] [2, 2] :=
  ⟨id, fun _ _ _ _ e => e, fun t ht => by simp at ht ⊢; omega, fun t ht => by
    simp only [List.length_singleton, Nat.lt_one_iff] at ht
    subst ht
    rfl⟩

theorem exKept : exPlaces.kept = {0} := by
  unfold Places.kept exPlaces
  rfl

def exSmall : Chip [2] :=
  ⟨⟨[("q1", .qubit 2 5 0)], [("d", .drive .x [0])]⟩, none, [], fun _ => some 0, true, 1⟩

theorem exSmall_wf : exSmall.WF := by
  refine ⟨?_, ?_, le_rfl⟩
  · intro l hl
    simp only [exSmall, List.mem_cons, List.not_mem_nil, or_false] at hl
    subst hl
    simp [Line.WF]
  · intro l q h
    simp only [exSmall, Option.some.injEq] at h
    subst h
    decide

theorem exAlike : Separated (all [2]) exSmall ∧ Separated exPlaces.kept exLoud ∧ Kept exPlaces exSmall exLoud ∧
    KeptPulse exPlaces exSmall exLoud exPulse exPulses := by
  have hk := exKept
  refine ⟨⟨le_rfl, ?_, rfl⟩, hk ▸ exSame.2.1, ⟨?_, ?_, rfl⟩, ⟨?_, rfl, rfl, ?_⟩⟩
  · intro l hl
    simp only [exSmall, List.mem_cons, List.not_mem_nil, or_false] at hl
    subst hl
    simp [Inside, touches, all]
  · rw [hk]
    exact .refl _
  · rw [hk]
    simp [couplings, exLoud, exSmall]
  · rw [hk]
    simp [exPulse, exPulses, played, lineOf, exSmall, exLoud, Inside, touches, Places.line, exPlaces, all]
  · rw [hk]
    simp [carriers, exPulse, exPulses, exSmall, exLoud, exPlaces, all]

/-- The gate of the single qubit does what the simultaneous drive of two qubits does to the first. -/
example : ∃ v V, physical (closed exSmall [("rx", exPulse)]) (.name "pwc") "rx" = .ok v ∧
    physical (closed exLoud [("rx", exPulses)]) (.name "pwc") "rx" = .ok V ∧ ∀ rho sigma, Reduces exPlaces rho sigma →
      Reduces exPlaces (V * rho * Vᴴ) (v * sigma * vᴴ) := by
  obtain ⟨v, h⟩ := C199_computed exSmall exSmall_wf [("rx", exPulse)] "rx" exPulse rfl (by simp [exPulse])
    (by
      intro k hk
      simp only [exPulse, List.mem_singleton] at hk
      subst hk
      exact ⟨_, rfl⟩)
    (fun l _ => ⟨⟨0, rfl⟩, 0, by simp, rfl⟩)
  obtain ⟨V, h'⟩ := C199_computed exLoud exLoud_wf [("rx", exPulses)] "rx" exPulses rfl (by simp [exPulses])
    (by
      intro k hk
      simp only [exPulses, List.mem_cons, List.not_mem_nil, or_false] at hk
      rcases hk with rfl | rfl <;> exact ⟨_, rfl⟩)
    (fun l hl => by
      simp only [exPulses, List.mem_cons, List.not_mem_nil, or_false] at hl
      rcases hl with rfl | rfl
      · exact ⟨⟨0, rfl⟩, 0, by simp, rfl⟩
      · exact ⟨⟨0, rfl⟩, 1, by simp, rfl⟩)
  obtain ⟨s1, s2, s3, s4⟩ := exAlike
  refine ⟨v, V, h, h', (C265_gate exPlaces exSmall exLoud exSmall_wf exLoud_wf s1 s2 s3 _ _ "rx" ?_ v V h h').2⟩
  intro p p' hp hp'
  rw [List.lookup_cons_self, Option.some.injEq] at hp hp'
  subst hp
  subst hp'
  exact s4

/-- Not all states agree. -/
example : ¬ Reduces exPlaces 0 1 := by
  intro h
  have := h 1
  unfold measureOperator at this
  rw [Matrix.mul_zero, trace_zero, Matrix.mul_one, trace_one] at this
  simp at this

end C3.Experiment.LeftOut
