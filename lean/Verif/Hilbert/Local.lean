import Verif.Hilbert.Decay
import Mathlib.Algebra.Algebra.Subalgebra.Centralizer

/-!
# Operators of a group of chip elements

An operator belongs to a group of elements if it commutes with the annihilators and creators of all other elements.
Operators of a group and of the other elements commute, and the entries of an operator of the group depend on the levels
of the group only. Used for C250.
-/

set_option linter.unusedSectionVars false

noncomputable section

namespace C3.Hilbert

open Matrix

variable {dims : List ℕ}

/-! ## Positions and levels -/

theorem pos_ext {p q : Fin dims.prod} (h : ∀ t < dims.length, levelAt dims t p = levelAt dims t q) : p = q := by
  obtain ⟨p, hp⟩ := p
  obtain ⟨q, hq⟩ := q
  obtain ⟨l, hl, rfl⟩ := exists_flat dims p hp
  obtain ⟨m, hm, rfl⟩ := exists_flat dims q hq
  have : l = m := by
    apply List.ext_getElem
    · rw [valid_length hl, valid_length hm]
    · intro t h1 h2
      have := h t (by rw [← valid_length hl]; exact h1)
      rw [levelAt_flat hl, levelAt_flat hm, List.getD_eq_getElem _ _ h1, List.getD_eq_getElem _ _ h2] at this
      exact this
  subst this
  rfl

theorem levelAt_lt (p : Fin dims.prod) (t : ℕ) (ht : t < dims.length) : levelAt dims t p < dims.getD t 0 := by
  obtain ⟨p, hp⟩ := p
  obtain ⟨l, hl, rfl⟩ := exists_flat dims p hp
  rw [levelAt_flat hl]
  exact valid_getD hl t ht

theorem exists_pos (f : ℕ → ℕ) (h : ∀ t < dims.length, f t < dims.getD t 0) :
    ∃ p : Fin dims.prod, ∀ t < dims.length, levelAt dims t p = f t := by
  have hv : Valid dims ((List.range dims.length).map f) := by
    unfold Valid
    rw [List.forall₂_iff_get]
    refine ⟨by simp, ?_⟩
    intro i h1 h2
    have := h i h2
    rw [List.getD_eq_getElem _ _ h2] at this
    simpa using this
  refine ⟨⟨_, flat_lt hv⟩, ?_⟩
  intro t ht
  rw [levelAt_flat hv, List.getD_eq_getElem _ _ (by simpa using ht)]
  simp

theorem ann_apply (i : ℕ) (h : i < dims.length) (p q : Fin dims.prod) :
    ann dims i p q =
      open scoped Classical in
      if (∀ t < dims.length, t ≠ i → levelAt dims t p = levelAt dims t q) ∧
        levelAt dims i q = levelAt dims i p + 1 then ((Real.sqrt (levelAt dims i q : ℕ) : ℝ) : ℂ) else 0 := by
  obtain ⟨p, hp⟩ := p
  obtain ⟨q, hq⟩ := q
  obtain ⟨l, hl, rfl⟩ := exists_flat dims p hp
  obtain ⟨m, hm, rfl⟩ := exists_flat dims q hq
  rw [C33_annihilator dims i h l m hl hm]
  simp only [levelAt_flat hl, levelAt_flat hm, AgreeOff]
  congr

/-! ## Operators of a group -/

/-- The annihilators and creators of the elements with a property. -/
def ladders (dims : List ℕ) (P : ℕ → Prop) : Set (Matrix (Fin dims.prod) (Fin dims.prod) ℂ) :=
  {M | ∃ q < dims.length, P q ∧ (M = ann dims q ∨ M = (ann dims q)ᴴ)}

/-- The operators of the elements with a property: those that commute with the ladder operators of all others. -/
def opsOf (dims : List ℕ) (P : ℕ → Prop) : Subalgebra ℂ (Matrix (Fin dims.prod) (Fin dims.prod) ℂ) :=
  Subalgebra.centralizer ℂ (ladders dims fun q => ¬ P q)

theorem mem_opsOf {P : ℕ → Prop} {M : Matrix (Fin dims.prod) (Fin dims.prod) ℂ} :
    M ∈ opsOf dims P ↔ ∀ q < dims.length, ¬ P q →
      ann dims q * M = M * ann dims q ∧ (ann dims q)ᴴ * M = M * (ann dims q)ᴴ := by
  unfold opsOf
  rw [Subalgebra.mem_centralizer_iff]
  constructor
  · intro h q hq hP
    exact ⟨h _ ⟨q, hq, hP, Or.inl rfl⟩, h _ ⟨q, hq, hP, Or.inr rfl⟩⟩
  · rintro h g ⟨q, hq, hP, rfl | rfl⟩
    · exact (h q hq hP).1
    · exact (h q hq hP).2

theorem opsOf_conj {P : ℕ → Prop} {M : Matrix (Fin dims.prod) (Fin dims.prod) ℂ} (h : M ∈ opsOf dims P) :
    Mᴴ ∈ opsOf dims P := by
  rw [mem_opsOf] at *
  intro q hq hP
  obtain ⟨h1, h2⟩ := h q hq hP
  constructor
  · have := congrArg conjTranspose h2
    rw [conjTranspose_mul, conjTranspose_mul, conjTranspose_conjTranspose] at this
    exact this.symm
  · have := congrArg conjTranspose h1
    rw [conjTranspose_mul, conjTranspose_mul] at this
    exact this.symm

theorem ann_mem {P : ℕ → Prop} (i : ℕ) (hi : i < dims.length) (hP : P i) : ann dims i ∈ opsOf dims P := by
  rw [mem_opsOf]
  intro q hq hq'
  have hne : q ≠ i := fun h => hq' (h ▸ hP)
  refine ⟨(ann_commute dims q i hq hi hne).1, ?_⟩
  exact (ann_commute dims i q hi hq hne.symm).2.symm

theorem ann_conj_mem {P : ℕ → Prop} (i : ℕ) (hi : i < dims.length) (hP : P i) : (ann dims i)ᴴ ∈ opsOf dims P :=
  opsOf_conj (ann_mem i hi hP)

/-- The entry of a product with an annihilator from the right. -/
theorem mul_ann_apply (M : Matrix (Fin dims.prod) (Fin dims.prod) ℂ) (i : ℕ) (hi : i < dims.length)
    (p q r : Fin dims.prod) (hr : ∀ t < dims.length, t ≠ i → levelAt dims t r = levelAt dims t q)
    (hr' : levelAt dims i q = levelAt dims i r + 1) :
    (M * ann dims i) p q = M p r * ((Real.sqrt (levelAt dims i q : ℕ) : ℝ) : ℂ) := by
  rw [Matrix.mul_apply, Finset.sum_eq_single r]
  · rw [ann_apply i hi r q, if_pos ⟨hr, hr'⟩]
  · intro k _ hk
    rw [ann_apply i hi k q, if_neg, mul_zero]
    rintro ⟨h1, h2⟩
    apply hk
    apply pos_ext
    intro t ht
    by_cases hti : t = i
    · subst hti
      omega
    · rw [h1 t ht hti, hr t ht hti]
  · simp

theorem ann_mul_apply (M : Matrix (Fin dims.prod) (Fin dims.prod) ℂ) (i : ℕ) (hi : i < dims.length)
    (p q r : Fin dims.prod) (hr : ∀ t < dims.length, t ≠ i → levelAt dims t p = levelAt dims t r)
    (hr' : levelAt dims i r = levelAt dims i p + 1) :
    (ann dims i * M) p q = ((Real.sqrt (levelAt dims i r : ℕ) : ℝ) : ℂ) * M r q := by
  rw [Matrix.mul_apply, Finset.sum_eq_single r]
  · rw [ann_apply i hi p r, if_pos ⟨hr, hr'⟩]
  · intro k _ hk
    rw [ann_apply i hi p k, if_neg, zero_mul]
    rintro ⟨h1, h2⟩
    apply hk
    apply pos_ext
    intro t ht
    by_cases hti : t = i
    · subst hti
      omega
    · rw [← h1 t ht hti, hr t ht hti]
  · simp

/-- An operator of a group does not change the levels of other elements. -/
theorem opsOf_zero {P : ℕ → Prop} {M : Matrix (Fin dims.prod) (Fin dims.prod) ℂ} (h : M ∈ opsOf dims P)
    (p q : Fin dims.prod) (i : ℕ) (hi : i < dims.length) (hP : ¬ P i) (hne : levelAt dims i p ≠ levelAt dims i q) :
    M p q = 0 := by
  obtain ⟨h1, h2⟩ := mem_opsOf.1 h i hi hP
  have hn : ((ann dims i)ᴴ * ann dims i) * M = M * ((ann dims i)ᴴ * ann dims i) := by
    rw [Matrix.mul_assoc, h1, ← Matrix.mul_assoc, h2, Matrix.mul_assoc]
  rw [ann_number dims i hi] at hn
  have := congrFun (congrFun hn p) q
  rw [diagonal_mul, mul_diagonal, mul_comm] at this
  by_contra hM
  have := mul_left_cancel₀ hM this
  exact hne (by exact_mod_cast this)

/-- Raising the level of another element on both sides does not change the entry. -/
theorem opsOf_step {P : ℕ → Prop} {M : Matrix (Fin dims.prod) (Fin dims.prod) ℂ} (h : M ∈ opsOf dims P)
    (i : ℕ) (hi : i < dims.length) (hP : ¬ P i) (p q p' q' : Fin dims.prod)
    (hp : ∀ t < dims.length, t ≠ i → levelAt dims t p = levelAt dims t p')
    (hq : ∀ t < dims.length, t ≠ i → levelAt dims t q = levelAt dims t q')
    (hp' : levelAt dims i p' = levelAt dims i p + 1) (hq' : levelAt dims i q' = levelAt dims i q + 1)
    (hpq : levelAt dims i p = levelAt dims i q) : M p q = M p' q' := by
  have := congrFun (congrFun (mem_opsOf.1 h i hi hP).1 p) q'
  rw [ann_mul_apply M i hi p q' p' hp hp', mul_ann_apply M i hi p q' q hq hq', mul_comm, hp', hq', hpq] at this
  refine (mul_right_cancel₀ ?_ this).symm
  rw [Complex.ofReal_ne_zero]
  exact (Real.sqrt_ne_zero (Nat.cast_nonneg _)).2 (Nat.cast_ne_zero.2 (Nat.succ_ne_zero (levelAt dims i q)))

/-- Changing the level of another element to any value on both sides does not change the entry. -/
theorem opsOf_lower {P : ℕ → Prop} {M : Matrix (Fin dims.prod) (Fin dims.prod) ℂ} (h : M ∈ opsOf dims P)
    (i : ℕ) (hi : i < dims.length) (hP : ¬ P i) (n : ℕ) : ∀ (p q p' q' : Fin dims.prod)
    (_ : ∀ t < dims.length, t ≠ i → levelAt dims t p = levelAt dims t p')
    (_ : ∀ t < dims.length, t ≠ i → levelAt dims t q = levelAt dims t q')
    (_ : levelAt dims i p = n) (_ : levelAt dims i q = n) (_ : levelAt dims i p' = 0) (_ : levelAt dims i q' = 0),
    M p q = M p' q' := by
  induction n with
  | zero =>
    intro p q p' q' hp hq h1 h2 h3 h4
    have e1 : p = p' := pos_ext fun t ht => by
      by_cases hti : t = i
      · subst hti; omega
      · exact hp t ht hti
    have e2 : q = q' := pos_ext fun t ht => by
      by_cases hti : t = i
      · subst hti; omega
      · exact hq t ht hti
    rw [e1, e2]
  | succ n ih =>
    intro p q p' q' hp hq h1 h2 h3 h4
    have low : ∀ p : Fin dims.prod, levelAt dims i p = n + 1 → ∃ r : Fin dims.prod,
        ∀ t < dims.length, levelAt dims t r = if t = i then n else levelAt dims t p := by
      intro p hp
      apply exists_pos
      intro t ht
      have := levelAt_lt p t ht
      split
      · next e => subst e; omega
      · exact this
    obtain ⟨r, hr⟩ := low p h1
    obtain ⟨s, hs⟩ := low q h2
    have er : levelAt dims i r = n := by rw [hr i hi, if_pos rfl]
    have es : levelAt dims i s = n := by rw [hs i hi, if_pos rfl]
    rw [← opsOf_step h i hi hP r s p q (fun t ht hne => by rw [hr t ht, if_neg hne])
      (fun t ht hne => by rw [hs t ht, if_neg hne]) (by omega) (by omega) (by omega)]
    exact ih r s p' q' (fun t ht hne => by rw [hr t ht, if_neg hne, hp t ht hne])
      (fun t ht hne => by rw [hs t ht, if_neg hne, hq t ht hne]) er es h3 h4

/-- The entry is that with all other elements in their ground states. -/
theorem opsOf_ground {P : ℕ → Prop} [DecidablePred P] {M : Matrix (Fin dims.prod) (Fin dims.prod) ℂ} (h : M ∈ opsOf dims P)
    (k : ℕ) (hk : k ≤ dims.length) : ∀ (p q p' q' : Fin dims.prod)
    (_ : ∀ t < dims.length, ¬ P t → levelAt dims t p = levelAt dims t q)
    (_ : ∀ t < dims.length, levelAt dims t p' = if t < k ∧ ¬ P t then 0 else levelAt dims t p)
    (_ : ∀ t < dims.length, levelAt dims t q' = if t < k ∧ ¬ P t then 0 else levelAt dims t q), M p q = M p' q' := by
  induction k with
  | zero =>
    intro p q p' q' _ hp hq
    have e1 : p = p' := pos_ext fun t ht => by rw [hp t ht, if_neg (by omega)]
    have e2 : q = q' := pos_ext fun t ht => by rw [hq t ht, if_neg (by omega)]
    rw [e1, e2]
  | succ k ih =>
    intro p q p' q' hpq hp hq
    have mid : ∀ p : Fin dims.prod, ∃ r : Fin dims.prod,
        ∀ t < dims.length, levelAt dims t r = if t < k ∧ ¬ P t then 0 else levelAt dims t p := by
      intro p
      apply exists_pos
      intro t ht
      have := levelAt_lt p t ht
      split
      · omega
      · exact this
    obtain ⟨r, hr⟩ := mid p
    obtain ⟨s, hs⟩ := mid q
    rw [ih (by omega) p q r s hpq hr hs]
    by_cases hP : P k
    · have e1 : r = p' := pos_ext fun t ht => by
        rw [hr t ht, hp t ht]
        by_cases htk : t = k
        · subst htk; simp [hP]
        · congr 1
          rw [eq_iff_iff, and_congr_left_iff]
          intro _
          omega
      have e2 : s = q' := pos_ext fun t ht => by
        rw [hs t ht, hq t ht]
        by_cases htk : t = k
        · subst htk; simp [hP]
        · congr 1
          rw [eq_iff_iff, and_congr_left_iff]
          intro _
          omega
      rw [e1, e2]
    · refine opsOf_lower h k (by omega) hP (levelAt dims k p) r s p' q' ?_ ?_ ?_ ?_ ?_ ?_
      · intro t ht hne
        rw [hr t ht, hp t ht]
        congr 1
        rw [eq_iff_iff, and_congr_left_iff]
        intro _
        omega
      · intro t ht hne
        rw [hs t ht, hq t ht]
        congr 1
        rw [eq_iff_iff, and_congr_left_iff]
        intro _
        omega
      · rw [hr k (by omega), if_neg (by omega)]
      · rw [hs k (by omega), if_neg (by omega), hpq k (by omega) hP]
      · rw [hp k (by omega), if_pos ⟨by omega, hP⟩]
      · rw [hq k (by omega), if_pos ⟨by omega, hP⟩]

/-- The entries of an operator of a group depend on the levels of the group only. -/
theorem opsOf_entry {P : ℕ → Prop} {M : Matrix (Fin dims.prod) (Fin dims.prod) ℂ} (h : M ∈ opsOf dims P)
    (p q p' q' : Fin dims.prod) (h1 : ∀ t < dims.length, ¬ P t → levelAt dims t p = levelAt dims t q)
    (h2 : ∀ t < dims.length, ¬ P t → levelAt dims t p' = levelAt dims t q')
    (hp : ∀ t < dims.length, P t → levelAt dims t p = levelAt dims t p')
    (hq : ∀ t < dims.length, P t → levelAt dims t q = levelAt dims t q') : M p q = M p' q' := by
  classical
  have gr : ∀ p : Fin dims.prod, ∃ r : Fin dims.prod,
      ∀ t < dims.length, levelAt dims t r = if t < dims.length ∧ ¬ P t then 0 else levelAt dims t p := by
    intro p
    apply exists_pos
    intro t ht
    have := levelAt_lt p t ht
    split
    · omega
    · exact this
  obtain ⟨r, hr⟩ := gr p
  obtain ⟨s, hs⟩ := gr q
  rw [opsOf_ground h dims.length le_rfl p q r s h1 hr hs]
  refine (opsOf_ground h dims.length le_rfl p' q' r s h2 ?_ ?_).symm
  · intro t ht
    rw [hr t ht]
    by_cases hP : P t
    · simp [hP, hp t ht hP]
    · simp [hP, ht]
  · intro t ht
    rw [hs t ht]
    by_cases hP : P t
    · simp [hP, hq t ht hP]
    · simp [hP, ht]

/-- Operators of a group and of the other elements commute. -/
theorem opsOf_commute {P : ℕ → Prop} {A B : Matrix (Fin dims.prod) (Fin dims.prod) ℂ} (hA : A ∈ opsOf dims P)
    (hB : B ∈ opsOf dims fun q => ¬ P q) : A * B = B * A := by
  classical
  have mix : ∀ p q : Fin dims.prod, ∃ r : Fin dims.prod,
      ∀ t < dims.length, levelAt dims t r = if P t then levelAt dims t q else levelAt dims t p := by
    intro p q
    apply exists_pos
    intro t ht
    split
    · exact levelAt_lt q t ht
    · exact levelAt_lt p t ht
  ext p q
  obtain ⟨r, hr⟩ := mix p q
  obtain ⟨s, hs⟩ := mix q p
  have e1 : (A * B) p q = A p r * B r q := by
    rw [Matrix.mul_apply]
    refine Finset.sum_eq_single r ?_ (by simp)
    intro k _ hk
    by_cases hz : A p k = 0
    · rw [hz, zero_mul]
    · by_cases hz' : B k q = 0
      · rw [hz', mul_zero]
      · refine absurd (pos_ext fun t ht => ?_) hk
        rw [hr t ht]
        split
        · next hP =>
          by_contra hne
          exact hz' (opsOf_zero hB k q t ht (not_not.2 hP) hne)
        · next hP =>
          by_contra hne
          exact hz (opsOf_zero hA p k t ht hP fun h => hne h.symm)
  have e2 : (B * A) p q = B p s * A s q := by
    rw [Matrix.mul_apply]
    refine Finset.sum_eq_single s ?_ (by simp)
    intro k _ hk
    by_cases hz : B p k = 0
    · rw [hz, zero_mul]
    · by_cases hz' : A k q = 0
      · rw [hz', mul_zero]
      · refine absurd (pos_ext fun t ht => ?_) hk
        rw [hs t ht]
        split
        · next hP =>
          by_contra hne
          exact hz (opsOf_zero hB p k t ht (not_not.2 hP) fun h => hne h.symm)
        · next hP =>
          by_contra hne
          exact hz' (opsOf_zero hA k q t ht hP hne)
  rw [e1, e2, mul_comm (B p s)]
  congr 1
  · refine opsOf_entry hA p r s q ?_ ?_ ?_ ?_
    · intro t ht hP
      rw [hr t ht, if_neg hP]
    · intro t ht hP
      rw [hs t ht, if_neg hP]
    · intro t ht hP
      rw [hs t ht, if_pos hP]
    · intro t ht hP
      rw [hr t ht, if_pos hP]
  · refine opsOf_entry hB r q p s ?_ ?_ ?_ ?_
    · intro t ht hP
      rw [hr t ht, if_pos (not_not.1 hP)]
    · intro t ht hP
      rw [hs t ht, if_pos (not_not.1 hP)]
    · intro t ht hP
      rw [hr t ht, if_neg hP]
    · intro t ht hP
      rw [hs t ht, if_neg hP]

/-- A diagonal operator whose entries depend on the levels of the group is one of the group. -/
theorem diagonal_mem {P : ℕ → Prop} (d : Fin dims.prod → ℂ)
    (h : ∀ p q, (∀ t < dims.length, P t → levelAt dims t p = levelAt dims t q) → d p = d q) :
    diagonal d ∈ opsOf dims P := by
  rw [mem_opsOf]
  intro i hi hP
  have key : ∀ p q, ann dims i p q ≠ 0 → d p = d q := by
    intro p q hne
    apply h
    intro t ht hPt
    rw [ann_apply i hi] at hne
    split at hne
    · next hc => exact hc.1 t ht fun e => hP (e ▸ hPt)
    · exact absurd rfl hne
  constructor
  · ext p q
    rw [mul_diagonal, diagonal_mul]
    by_cases hz : ann dims i p q = 0
    · rw [hz, zero_mul, mul_zero]
    · rw [key p q hz, mul_comm]
  · ext p q
    rw [mul_diagonal, diagonal_mul, conjTranspose_apply]
    by_cases hz : ann dims i q p = 0
    · rw [hz, star_zero, zero_mul, mul_zero]
    · rw [key q p hz, mul_comm]

/-! ## Hamiltonians of elements and lines -/

variable (U : Subalgebra ℂ (Matrix (Fin dims.prod) (Fin dims.prod) ℂ)) {a b : Matrix (Fin dims.prod) (Fin dims.prod) ℂ}

theorem number_alg (h : a ∈ U) (h' : aᴴ ∈ U) : resonator a ∈ U := U.mul_mem h' h

theorem duffing_alg (h : a ∈ U) (h' : aᴴ ∈ U) : duffing a ∈ U :=
  U.smul_mem (U.mul_mem (U.sub_mem (U.mul_mem h' h) U.one_mem) (U.mul_mem h' h)) _

theorem third_alg (h : a ∈ U) (h' : aᴴ ∈ U) : thirdOrder a ∈ U :=
  U.add_mem (U.mul_mem (U.mul_mem h' h) h) (U.mul_mem h' (U.mul_mem h' h))

theorem drive_alg (f : DriveFun) (h : a ∈ U) (h' : aᴴ ∈ U) : f.ham a ∈ U := by
  cases f with
  | x => exact U.add_mem h' h
  | y => exact U.smul_mem (U.sub_mem h' h) _
  | z => exact number_alg U h h'
  | res => exact number_alg U h h'
  | duff => exact duffing_alg U h h'
  | third => exact third_alg U h h'

theorem int_alg (f : IntFun) (h : a ∈ U) (h' : aᴴ ∈ U) (k : b ∈ U) (k' : bᴴ ∈ U) : f.ham a b ∈ U := by
  cases f with
  | xx => exact U.mul_mem (U.add_mem h' h) (U.add_mem k' k)
  | yy => exact U.neg_mem (U.mul_mem (U.sub_mem h' h) (U.sub_mem k' k))

theorem sub_alg (s : Sub) (h : a ∈ U) (h' : aᴴ ∈ U) : s.ham none a ∈ U := by
  cases s with
  | qubit d w an =>
    simp only [Sub.ham, dress]
    split
    · exact U.add_mem (U.smul_mem (number_alg U h h') _) (U.smul_mem (duffing_alg U h h') _)
    · exact U.smul_mem (number_alg U h h') _
  | res w => exact U.smul_mem (number_alg U h h') _
  | transmon d w an phi phi0 dd =>
    simp only [Sub.ham, dress]
    split
    · exact U.add_mem (U.smul_mem (number_alg U h h') _) (U.smul_mem (duffing_alg U h h') _)
    · exact U.smul_mem (number_alg U h h') _
  | snail d w an be =>
    simp only [Sub.ham, dress]
    split
    · exact U.add_mem (U.add_mem (U.smul_mem (number_alg U h h') _) (U.smul_mem (third_alg U h h') _))
        (U.smul_mem (duffing_alg U h h') _)
    · exact U.add_mem (U.smul_mem (number_alg U h h') _) (U.smul_mem (third_alg U h h') _)

/-- Examples: the annihilator of the first of two elements is an operator of that element, not of the other. -/
example : ann [2, 2] 0 ∈ opsOf [2, 2] (· = 0) := ann_mem 0 (by decide) rfl

example : ann [2, 2] 0 ∉ opsOf [2, 2] (· = 1) := by
  intro h
  have h00 : Valid [2, 2] [0, 0] := by simp [Valid]
  have h10 : Valid [2, 2] [1, 0] := by simp [Valid]
  have := opsOf_zero h ⟨flat [2, 2] [0, 0], flat_lt h00⟩ ⟨flat [2, 2] [1, 0], flat_lt h10⟩ 0 (by decide) (by decide)
    (by rw [levelAt_flat h00, levelAt_flat h10]; decide)
  rw [C33_annihilator [2, 2] 0 (by decide) _ _ h00 h10] at this
  simp [AgreeOff] at this
  obtain ⟨x, hx, h0, hne⟩ := this
  interval_cases x <;> simp_all

end C3.Hilbert
