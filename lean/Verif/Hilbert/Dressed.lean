import Verif.Hilbert.System
import Mathlib.LinearAlgebra.UnitaryGroup
import Mathlib.LinearAlgebra.Matrix.NonsingularInverse
import Mathlib.Data.Real.Sign
import Mathlib.Data.Fin.VecNotation
import Mathlib.Tactic.FinCases

/-!
# C36: the dressed basis

`Model.reorder_frame`, `update_drift_eigen`, `update_dressed` (c3/model.py:453-534). The
eigenvectors `v` and eigenvalues `e` come from `tf.linalg.eigh`: `v` is any unitary matrix with
`H v = v diag(e)`.
-/

set_option linter.unusedSectionVars false

namespace C3.Hilbert

open Matrix Finset

variable {N : ℕ}

/-! ## Model -/

/-- c3/model.py:458: `v_sq`. -/
noncomputable def vSq (v : Matrix (Fin N) (Fin N) ℂ) : Fin N → Fin N → ℝ :=
  fun i j => Complex.normSq (v i j)

/-- c3/model.py:460-461: the largest overlap of every eigenvector exceeds one half. -/
def WellDressed (v : Matrix (Fin N) (Fin N) ℂ) : Prop := ∀ j, ∃ i, 1 / 2 < vSq v i j

open scoped Classical in
/-- c3/model.py:462: `v_sq > 0.5`. -/
noncomputable def thresholdReorder (v : Matrix (Fin N) (Fin N) ℂ) : Fin N → Fin N → ℝ :=
  fun i j => if 1 / 2 < vSq v i j then 1 else 0

section Greedy
variable {α : Type*} [Zero α] [LT α] [DecidableLT α]

/-- All index pairs in row-major order. -/
def pairs (N : ℕ) : List (Fin N × Fin N) :=
  (List.finRange N).flatMap fun i => (List.finRange N).map fun j => (i, j)

/-- c3/model.py:472: `np.unravel_index(np.argmax(vc), vc.shape)`: the first position of the largest
entry. -/
def argmax (vc : Fin N → Fin N → α) : Option (Fin N × Fin N) :=
  (pairs N).foldl (fun best p => match best with
    | none => some p
    | some b => if vc b.1 b.2 < vc p.1 p.2 then some p else some b) none

/-- c3/model.py:471-475: the greedy loop. Returns the picked positions, latest first. -/
def greedy (vc : Fin N → Fin N → α) : ℕ → List (Fin N × Fin N) → List (Fin N × Fin N)
  | 0, acc => acc
  | k + 1, acc =>
    match argmax vc with
    | none => acc
    | some idx => greedy (fun i j => if i = idx.1 ∨ j = idx.2 then 0 else vc i j) k (idx :: acc)

end Greedy

/-- c3/model.py:470-476: the reordering matrix of the fallback branch. -/
noncomputable def greedyReorder (v : Matrix (Fin N) (Fin N) ℂ) : Fin N → Fin N → ℝ :=
  fun i j => if (i, j) ∈ greedy (vSq v) N [] then 1 else 0

open scoped Classical in
/-- c3/model.py:453-491 `reorder_frame`: reordering matrix. -/
noncomputable def reorderMatrix (ordered : Bool) (v : Matrix (Fin N) (Fin N) ℂ) :
    Fin N → Fin N → ℝ :=
  if ordered then if WellDressed v then thresholdReorder v else greedyReorder v
  else fun i j => if i = j then 1 else 0

/-- c3/model.py:477-490: eigenframe. -/
noncomputable def eigenframe (ordered : Bool) (e : Fin N → ℝ) (v : Matrix (Fin N) (Fin N) ℂ) :
    Fin N → ℝ :=
  if ordered then fun i => ∑ j, reorderMatrix true v i j * e j else e

/-- c3/model.py:477-490: transformation. -/
noncomputable def transform (ordered : Bool) (v : Matrix (Fin N) (Fin N) ℂ) :
    Matrix (Fin N) (Fin N) ℂ :=
  if ordered then
    v * (Matrix.of fun i j =>
      ((Real.sign (v i j).re * reorderMatrix true v i j : ℝ) : ℂ) : Matrix (Fin N) (Fin N) ℂ)ᵀ
  else v

/-! ## Specification -/

/-- A 0/1 matrix with exactly one one in each row and column: column `j` is sent to row `σ j`. -/
def IsPerm (P : Fin N → Fin N → ℝ) (σ : Equiv.Perm (Fin N)) : Prop :=
  ∀ i j, P i j = if i = σ j then 1 else 0

/-- `T` is unitary. -/
def IsUnitary (T : Matrix (Fin N) (Fin N) ℂ) : Prop := Tᴴ * T = 1 ∧ T * Tᴴ = 1

/-! ## Proofs -/

theorem col_sum {v : Matrix (Fin N) (Fin N) ℂ} (hv : IsUnitary v) (j : Fin N) :
    ∑ i, vSq v i j = 1 := by
  have h := congrFun (congrFun hv.1 j) j
  rw [Matrix.mul_apply, Matrix.one_apply_eq] at h
  have h2 : ((∑ i, vSq v i j : ℝ) : ℂ) = 1 := by
    rw [← h, Complex.ofReal_sum]
    apply sum_congr rfl
    intro i _
    rw [Matrix.conjTranspose_apply, vSq, Complex.normSq_eq_conj_mul_self]
    rfl
  exact_mod_cast h2

theorem row_sum {v : Matrix (Fin N) (Fin N) ℂ} (hv : IsUnitary v) (i : Fin N) :
    ∑ j, vSq v i j = 1 := by
  have h := congrFun (congrFun hv.2 i) i
  rw [Matrix.mul_apply, Matrix.one_apply_eq] at h
  have h2 : ((∑ j, vSq v i j : ℝ) : ℂ) = 1 := by
    rw [← h, Complex.ofReal_sum]
    apply sum_congr rfl
    intro j _
    rw [Matrix.conjTranspose_apply, vSq, Complex.normSq_eq_conj_mul_self, mul_comm]
    rfl
  exact_mod_cast h2

theorem two_large {f : Fin N → ℝ} (hf : ∀ i, 0 ≤ f i) (hsum : ∑ i, f i = 1) {a b : Fin N}
    (ha : 1 / 2 < f a) (hb : 1 / 2 < f b) : a = b := by
  by_contra hne
  have : f a + f b ≤ ∑ i, f i := by
    rw [← sum_pair hne]
    exact sum_le_sum_of_subset_of_nonneg (subset_univ _) fun i _ _ => hf i
  linarith

/-- With well dressed states the thresholded overlaps are a permutation matrix. -/
theorem threshold_perm {v : Matrix (Fin N) (Fin N) ℂ} (hv : IsUnitary v) (hw : WellDressed v) :
    ∃ σ : Equiv.Perm (Fin N), IsPerm (thresholdReorder v) σ ∧ ∀ j, 1 / 2 < vSq v (σ j) j := by
  choose s hs using hw
  have hinj : Function.Injective s := by
    intro a b hab
    have hb := hs b
    rw [← hab] at hb
    exact two_large (f := fun j => vSq v (s a) j) (fun j => Complex.normSq_nonneg _)
      (row_sum hv (s a)) (hs a) hb
  let σ := Equiv.ofBijective s ⟨hinj, Finite.surjective_of_injective hinj⟩
  refine ⟨σ, fun i j => ?_, hs⟩
  unfold thresholdReorder
  have : (1 / 2 < vSq v i j) ↔ i = σ j := by
    constructor
    · intro h
      exact two_large (f := fun i => vSq v i j) (fun i => Complex.normSq_nonneg _)
        (col_sum hv j) h (hs j)
    · rintro rfl
      exact hs j
  simp only [this]

/-- The transformation built from a permutation: column `σ j` is eigenvector `j` up to sign. -/
theorem transform_apply {v : Matrix (Fin N) (Fin N) ℂ} {σ : Equiv.Perm (Fin N)}
    (hP : IsPerm (reorderMatrix true v) σ) (i j : Fin N) :
    transform true v i (σ j) = v i j * (Real.sign (v (σ j) j).re : ℝ) := by
  simp only [transform, if_true, Matrix.mul_apply, Matrix.transpose_apply, Matrix.of_apply]
  rw [sum_eq_single j]
  · rw [hP, if_pos rfl, mul_one]
  · intro k _ hk
    rw [hP, if_neg]
    · simp
    · intro h
      exact hk (σ.injective h).symm
  · simp

theorem sign_sq {x : ℝ} (h : x ≠ 0) : (Real.sign x : ℂ) * Real.sign x = 1 := by
  rcases lt_or_gt_of_ne h with h | h
  · rw [Real.sign_of_neg h]; norm_num
  · rw [Real.sign_of_pos h]; norm_num

theorem transform_unitary {v : Matrix (Fin N) (Fin N) ℂ} (hv : IsUnitary v)
    {σ : Equiv.Perm (Fin N)} (hP : IsPerm (reorderMatrix true v) σ)
    (hre : ∀ j, (v (σ j) j).re ≠ 0) : IsUnitary (transform true v) := by
  have h1 : (transform true v)ᴴ * transform true v = 1 := by
    ext a b
    obtain ⟨a, rfl⟩ := σ.surjective a
    obtain ⟨b, rfl⟩ := σ.surjective b
    rw [Matrix.mul_apply]
    have : ∀ i, (transform true v)ᴴ (σ a) i * transform true v i (σ b) =
        (star (v i a) * v i b) * ((Real.sign (v (σ a) a).re : ℂ) * Real.sign (v (σ b) b).re) := by
      intro i
      rw [Matrix.conjTranspose_apply, transform_apply hP, transform_apply hP, star_mul']
      simp only [RCLike.star_def, Complex.conj_ofReal]
      ring
    simp only [this]
    rw [← sum_mul]
    have hcol := congrFun (congrFun hv.1 a) b
    rw [Matrix.mul_apply] at hcol
    simp only [Matrix.conjTranspose_apply] at hcol
    rw [hcol, Matrix.one_apply, Matrix.one_apply]
    by_cases hab : a = b
    · subst hab
      rw [if_pos rfl, if_pos rfl, sign_sq (hre a), one_mul]
    · rw [if_neg hab, if_neg (fun h => hab (σ.injective h)), zero_mul]
  exact ⟨h1, mul_eq_one_comm.1 h1⟩

/-- In the dressed basis the drift Hamiltonian is diagonal with the reordered eigenvalues. -/
theorem dressed_diagonal {v : Matrix (Fin N) (Fin N) ℂ} (hv : IsUnitary v)
    {σ : Equiv.Perm (Fin N)} (hP : IsPerm (reorderMatrix true v) σ)
    (hre : ∀ j, (v (σ j) j).re ≠ 0) (H : Matrix (Fin N) (Fin N) ℂ) (e : Fin N → ℝ)
    (hH : H * v = v * Matrix.diagonal fun j => (e j : ℂ)) :
    (transform true v)ᴴ * H * transform true v =
      Matrix.diagonal fun i => ((eigenframe true e v i : ℝ) : ℂ) := by
  have hT : H * transform true v =
      transform true v * Matrix.diagonal fun i => ((eigenframe true e v i : ℝ) : ℂ) := by
    ext i b
    obtain ⟨b, rfl⟩ := σ.surjective b
    have he : eigenframe true e v (σ b) = e b := by
      simp only [eigenframe, if_true]
      rw [sum_eq_single b]
      · rw [hP, if_pos rfl, one_mul]
      · intro k _ hk
        rw [hP, if_neg (fun h => hk (σ.injective h).symm), zero_mul]
      · simp
    rw [Matrix.mul_diagonal, he, transform_apply hP, Matrix.mul_apply]
    simp only [transform_apply hP]
    have := congrFun (congrFun hH i) b
    rw [Matrix.mul_apply, Matrix.mul_diagonal] at this
    simp only [← mul_assoc]
    rw [← sum_mul, this]
    ring
  rw [Matrix.mul_assoc, hT, ← Matrix.mul_assoc, (transform_unitary hv hP hre).1, Matrix.one_mul]

/-- C36: for well dressed states (every eigenvector has an overlap of more than one half with a bare
state) of a drift with real eigenvectors, every bare label is assigned a different eigenvector, the
one it overlaps with most; the transformation is unitary and brings the drift to its reordered
eigenvalues. -/
theorem C36_well_dressed {v : Matrix (Fin N) (Fin N) ℂ} (hv : IsUnitary v) (hw : WellDressed v)
    (hreal : ∀ i j, (v i j).im = 0) (H : Matrix (Fin N) (Fin N) ℂ) (e : Fin N → ℝ)
    (hH : H * v = v * Matrix.diagonal fun j => (e j : ℂ)) :
    (∃ σ : Equiv.Perm (Fin N), IsPerm (reorderMatrix true v) σ ∧ (∀ j, 1 / 2 < vSq v (σ j) j) ∧
      ∀ j, eigenframe true e v (σ j) = e j) ∧ IsUnitary (transform true v) ∧
      (transform true v)ᴴ * H * transform true v =
        Matrix.diagonal fun i => ((eigenframe true e v i : ℝ) : ℂ) := by
  obtain ⟨σ, hP, hlarge⟩ := threshold_perm hv hw
  have hP' : IsPerm (reorderMatrix true v) σ := by
    intro i j
    simp only [reorderMatrix, if_true, if_pos hw]
    exact hP i j
  have hre : ∀ j, (v (σ j) j).re ≠ 0 := by
    intro j h0
    have := hlarge j
    unfold vSq at this
    rw [Complex.normSq_apply, h0, hreal] at this
    norm_num at this
  refine ⟨⟨σ, hP', hlarge, fun j => ?_⟩, transform_unitary hv hP' hre,
    dressed_diagonal hv hP' hre H e hH⟩
  simp only [eigenframe, if_true]
  rw [sum_eq_single j]
  · rw [hP', if_pos rfl, one_mul]
  · intro k _ hk
    rw [hP', if_neg (fun h => hk (σ.injective h).symm), zero_mul]
  · simp

/-- C36: without ordering the transformation is the unitary of eigenvectors and diagonalises the
drift. -/
theorem C36_unordered {v : Matrix (Fin N) (Fin N) ℂ} (hv : IsUnitary v)
    (H : Matrix (Fin N) (Fin N) ℂ) (e : Fin N → ℝ)
    (hH : H * v = v * Matrix.diagonal fun j => (e j : ℂ)) :
    IsUnitary (transform false v) ∧ (transform false v)ᴴ * H * transform false v =
      Matrix.diagonal fun i => ((eigenframe false e v i : ℝ) : ℂ) := by
  refine ⟨hv, ?_⟩
  simp only [transform, eigenframe, Bool.false_eq_true, if_false]
  rw [Matrix.mul_assoc, hH, ← Matrix.mul_assoc, hv.1, Matrix.one_mul]

/-- C36: without ordering the reordering is the identity. -/
theorem C36_unordered_matrix (e : Fin N → ℝ) (v : Matrix (Fin N) (Fin N) ℂ) :
    Matrix.of (reorderMatrix false v) = 1 ∧ eigenframe false e v = e ∧ transform false v = v := by
  refine ⟨?_, by simp [eigenframe], by simp [transform]⟩
  ext i j
  simp [reorderMatrix, Matrix.one_apply]

/-! ### The fallback branch -/

section GreedyProofs

theorem mem_pairs (p : Fin N × Fin N) : p ∈ pairs N := by
  simp [pairs]

theorem argmax_spec {α : Type*} [Zero α] [LinearOrder α] (vc : Fin N → Fin N → α) (hN : 0 < N) :
    ∃ b, argmax vc = some b ∧ ∀ p : Fin N × Fin N, vc p.1 p.2 ≤ vc b.1 b.2 := by
  have key : ∀ (l : List (Fin N × Fin N)) (b : Fin N × Fin N),
      ∃ b', l.foldl (fun best p => match best with
        | none => some p
        | some b => if vc b.1 b.2 < vc p.1 p.2 then some p else some b) (some b) = some b' ∧
      vc b.1 b.2 ≤ vc b'.1 b'.2 ∧ ∀ p ∈ l, vc p.1 p.2 ≤ vc b'.1 b'.2 := by
    intro l
    induction l with
    | nil => intro b; exact ⟨b, rfl, le_refl _, by simp⟩
    | cons q l ih =>
      intro b
      simp only [List.foldl_cons]
      split
      · next h =>
        obtain ⟨b', h1, h2, h3⟩ := ih q
        refine ⟨b', h1, h.le.trans h2, ?_⟩
        intro p hp
        rcases List.mem_cons.1 hp with rfl | hp
        · exact h2
        · exact h3 p hp
      · next h =>
        obtain ⟨b', h1, h2, h3⟩ := ih b
        refine ⟨b', h1, h2, ?_⟩
        intro p hp
        rcases List.mem_cons.1 hp with rfl | hp
        · exact (not_lt.1 h).trans h2
        · exact h3 p hp
  have hne : pairs N ≠ [] := List.ne_nil_of_mem (mem_pairs (⟨0, hN⟩, ⟨0, hN⟩))
  obtain ⟨q, l, hl⟩ := List.exists_cons_of_ne_nil hne
  obtain ⟨b', h1, h2, h3⟩ := key l q
  refine ⟨b', ?_, ?_⟩
  · unfold argmax
    rw [hl]
    exact h1
  · intro p
    have hp : p ∈ q :: l := hl ▸ mem_pairs p
    rcases List.mem_cons.1 hp with rfl | hp
    · exact h2
    · exact h3 p hp

theorem pairs_sorted : (pairs N).Pairwise fun p q => p.1 < q.1 ∨ p.1 = q.1 ∧ p.2 < q.2 := by
  unfold pairs
  rw [List.pairwise_flatMap]
  refine ⟨fun i _ => ?_, ?_⟩
  · rw [List.pairwise_map]
    exact (List.pairwise_lt_finRange N).imp fun h => .inr ⟨rfl, h⟩
  · refine (List.pairwise_lt_finRange N).imp fun h x hx y hy => ?_
    obtain ⟨_, _, rfl⟩ := List.mem_map.1 hx
    obtain ⟨_, _, rfl⟩ := List.mem_map.1 hy
    exact .inl h

/-- C36: of several positions with the largest overlap the greedy loop takes the first in row-major order. -/
theorem C36_first {α : Type*} [Zero α] [LinearOrder α] (vc : Fin N → Fin N → α) (p : Fin N × Fin N)
    (h : argmax vc = some p) :
    (∀ q : Fin N × Fin N, vc q.1 q.2 ≤ vc p.1 p.2) ∧
      ∀ q : Fin N × Fin N, q.1 < p.1 ∨ q.1 = p.1 ∧ q.2 < p.2 → vc q.1 q.2 < vc p.1 p.2 := by
  have key : ∀ (l : List (Fin N × Fin N)) (b r : Fin N × Fin N),
      l.foldl (fun best p => match best with
        | none => some p
        | some b => if vc b.1 b.2 < vc p.1 p.2 then some p else some b) (some b) = some r →
      ∃ l1 l2, b :: l = l1 ++ r :: l2 ∧ (∀ q ∈ l1, vc q.1 q.2 < vc r.1 r.2) ∧ ∀ q ∈ l2, vc q.1 q.2 ≤ vc r.1 r.2 := by
    intro l
    induction l with
    | nil =>
      intro b r hr
      simp only [List.foldl_nil, Option.some.injEq] at hr
      subst hr
      exact ⟨[], [], rfl, by simp, by simp⟩
    | cons x l ih =>
      intro b r hr
      simp only [List.foldl_cons] at hr
      split_ifs at hr with hlt
      · obtain ⟨l1, l2, e, h1, h2⟩ := ih x r hr
        refine ⟨b :: l1, l2, by rw [e]; rfl, fun q hq => ?_, h2⟩
        rcases List.mem_cons.1 hq with rfl | hq
        · have hx : x ∈ l1 ++ r :: l2 := e ▸ List.mem_cons_self
          refine hlt.trans_le ?_
          rcases List.mem_append.1 hx with hx | hx
          · exact (h1 x hx).le
          · rcases List.mem_cons.1 hx with rfl | hx
            · exact le_rfl
            · exact h2 x hx
        · exact h1 q hq
      · obtain ⟨l1, l2, e, h1, h2⟩ := ih b r hr
        cases l1 with
        | nil =>
          obtain ⟨rfl, rfl⟩ := List.cons.inj e
          refine ⟨[], x :: l, rfl, by simp, fun q hq => ?_⟩
          rcases List.mem_cons.1 hq with rfl | hq
          · exact not_lt.1 hlt
          · exact h2 q hq
        | cons y l1 =>
          obtain ⟨rfl, rfl⟩ := List.cons.inj e
          refine ⟨b :: x :: l1, l2, rfl, fun q hq => ?_, h2⟩
          rcases List.mem_cons.1 hq with rfl | hq
          · exact h1 _ List.mem_cons_self
          · rcases List.mem_cons.1 hq with rfl | hq
            · exact (not_lt.1 hlt).trans_lt (h1 _ List.mem_cons_self)
            · exact h1 q (List.mem_cons_of_mem _ hq)
  have hs := pairs_sorted (N := N)
  have hm := mem_pairs (N := N)
  unfold argmax at h
  revert hs hm h
  generalize pairs N = l
  intro h hs hm
  cases l with
  | nil => simp at h
  | cons b l =>
    obtain ⟨l1, l2, e, h1, h2⟩ := key l b p h
    rw [e] at hs hm
    have split : ∀ q, q ∈ l1 ∨ q = p ∨ q ∈ l2 := fun q => by simpa using hm q
    constructor
    · intro q
      rcases split q with hq | rfl | hq
      · exact (h1 q hq).le
      · exact le_rfl
      · exact h2 q hq
    · intro q hq
      rcases split q with hq1 | rfl | hq1
      · exact h1 q hq1
      · omega
      · have h3 := (List.pairwise_cons.1 (List.pairwise_append.1 hs).2.1).1 q hq1
        omega

/-- If all overlaps are positive, the greedy loop picks positions in distinct rows and columns. -/
theorem greedy_distinct (vc0 : Fin N → Fin N → ℝ) (hpos : ∀ i j, 0 < vc0 i j) :
    ∀ (k : ℕ) (acc : List (Fin N × Fin N)) (vc : Fin N → Fin N → ℝ),
      (∀ i j, vc i j = if i ∈ acc.map Prod.fst ∨ j ∈ acc.map Prod.snd then 0 else vc0 i j) →
      (acc.map Prod.fst).Nodup → (acc.map Prod.snd).Nodup → acc.length + k ≤ N →
      ((greedy vc k acc).map Prod.fst).Nodup ∧ ((greedy vc k acc).map Prod.snd).Nodup ∧
        (greedy vc k acc).length = acc.length + k := by
  intro k
  induction k with
  | zero => intro acc vc _ h1 h2 _; exact ⟨h1, h2, rfl⟩
  | succ k ih =>
    intro acc vc hvc h1 h2 hlen
    obtain ⟨b, hb, hmax⟩ := argmax_spec vc (by omega : 0 < N)
    simp only [greedy, hb]
    have hfree : ∀ l : List (Fin N), l.length < N → ∃ i, i ∉ l := by
      intro l hl
      by_contra hcon
      push Not at hcon
      have hc : Finset.univ ⊆ l.toFinset := fun i _ => List.mem_toFinset.2 (hcon i)
      have := card_le_card hc
      rw [card_univ, Fintype.card_fin] at this
      have := List.toFinset_card_le l
      omega
    obtain ⟨i, hi⟩ := hfree (acc.map Prod.fst) (by simp; omega)
    obtain ⟨j, hj⟩ := hfree (acc.map Prod.snd) (by simp; omega)
    have hij := hmax (i, j)
    simp only at hij
    rw [hvc i j, if_neg (by tauto)] at hij
    have hbpos : 0 < vc b.1 b.2 := lt_of_lt_of_le (hpos i j) hij
    have hbf : ¬ (b.1 ∈ acc.map Prod.fst ∨ b.2 ∈ acc.map Prod.snd) := by
      intro h
      rw [hvc, if_pos h] at hbpos
      exact lt_irrefl _ hbpos
    have := ih (b :: acc) (fun i j => if i = b.1 ∨ j = b.2 then 0 else vc i j) ?_ ?_ ?_ ?_
    · obtain ⟨g1, g2, g3⟩ := this
      refine ⟨g1, g2, ?_⟩
      rw [g3, List.length_cons]
      omega
    · intro i j
      rw [hvc]
      simp only [List.map_cons, List.mem_cons]
      by_cases ha : i = b.1 ∨ j = b.2
      · rw [if_pos ha, if_pos (by tauto)]
      · rw [if_neg ha]
        congr 1
        simp only [eq_iff_iff]
        tauto
    · rw [List.map_cons, List.nodup_cons]
      exact ⟨fun h => hbf (Or.inl h), h1⟩
    · rw [List.map_cons, List.nodup_cons]
      exact ⟨fun h => hbf (Or.inr h), h2⟩
    · rw [List.length_cons]
      omega

/-- A list of `N` positions in distinct rows and columns is a permutation. -/
theorem list_perm (l : List (Fin N × Fin N)) (h1 : (l.map Prod.fst).Nodup)
    (h2 : (l.map Prod.snd).Nodup) (hlen : l.length = N) :
    ∃ σ : Equiv.Perm (Fin N), ∀ i j, (i, j) ∈ l ↔ i = σ j := by
  have hall : ∀ j, j ∈ l.map Prod.snd := by
    intro j
    have : (l.map Prod.snd).toFinset = univ := by
      rw [← card_eq_iff_eq_univ, List.toFinset_card_of_nodup h2]
      simp [hlen]
    rw [← List.mem_toFinset, this]
    exact mem_univ j
  have hex : ∀ j, ∃ i, (i, j) ∈ l := by
    intro j
    obtain ⟨p, hp, rfl⟩ := List.mem_map.1 (hall j)
    exact ⟨p.1, hp⟩
  choose s hs using hex
  have hinj1 := List.inj_on_of_nodup_map h1
  have hinj2 := List.inj_on_of_nodup_map h2
  have hinj : Function.Injective s := by
    intro a b hab
    have := hinj1 (hs a) (hs b) hab
    exact (Prod.ext_iff.1 this).2
  refine ⟨Equiv.ofBijective s ⟨hinj, Finite.surjective_of_injective hinj⟩, fun i j => ?_⟩
  constructor
  · intro h
    have := hinj2 h (hs j) rfl
    exact (Prod.ext_iff.1 this).1
  · rintro rfl
    exact hs j

end GreedyProofs

/-- C36 (partial): the fallback for strongly mixed states also gives a unitary transformation if no
eigenvector has a vanishing overlap with a bare state. -/
theorem C36_fallback_partial {v : Matrix (Fin N) (Fin N) ℂ} (hv : IsUnitary v)
    (hw : ¬ WellDressed v) (hreal : ∀ i j, (v i j).im = 0) (hne : ∀ i j, v i j ≠ 0)
    (H : Matrix (Fin N) (Fin N) ℂ) (e : Fin N → ℝ)
    (hH : H * v = v * Matrix.diagonal fun j => (e j : ℂ)) :
    (∃ σ : Equiv.Perm (Fin N), IsPerm (reorderMatrix true v) σ) ∧ IsUnitary (transform true v) ∧
      (transform true v)ᴴ * H * transform true v =
        Matrix.diagonal fun i => ((eigenframe true e v i : ℝ) : ℂ) := by
  have hpos : ∀ i j, 0 < vSq v i j := fun i j => Complex.normSq_pos.2 (hne i j)
  obtain ⟨g1, g2, g3⟩ := greedy_distinct (vSq v) hpos N [] (vSq v) (by simp) (by simp) (by simp)
    (by simp)
  obtain ⟨σ, hσ⟩ := list_perm _ g1 g2 (by simpa using g3)
  have hP : IsPerm (reorderMatrix true v) σ := by
    intro i j
    simp only [reorderMatrix, if_true, if_neg hw, greedyReorder]
    simp only [hσ]
  have hre : ∀ j, (v (σ j) j).re ≠ 0 := by
    intro j h0
    exact hne _ _ (Complex.ext h0 (hreal _ _))
  exact ⟨⟨σ, hP⟩, transform_unitary hv hP hre, dressed_diagonal hv hP hre H e hH⟩

/-- C36: a unitary change of basis preserves hermiticity and products of all operators (so the
spectrum and the algebra of the model). -/
theorem C36_basis_change {T : Matrix (Fin N) (Fin N) ℂ} (hT : IsUnitary T)
    (A B : Matrix (Fin N) (Fin N) ℂ) :
    dress (some T) (A * B) = dress (some T) A * dress (some T) B ∧
      (A.IsHermitian ↔ (dress (some T) A).IsHermitian) ∧ A.trace = (dress (some T) A).trace := by
  simp only [dress]
  refine ⟨?_, ⟨fun h => Matrix.isHermitian_conjTranspose_mul_mul T h, fun h => ?_⟩, ?_⟩
  · calc Tᴴ * (A * B) * T = Tᴴ * A * (1 * B) * T := by simp only [Matrix.mul_assoc, Matrix.one_mul]
      _ = _ := by rw [← hT.2]; simp only [Matrix.mul_assoc]
  · have h2 : A = T * (Tᴴ * A * T) * Tᴴ := by
      calc A = (T * Tᴴ) * A * (T * Tᴴ) := by rw [hT.2, Matrix.one_mul, Matrix.mul_one]
        _ = _ := by simp only [Matrix.mul_assoc]
    rw [h2]
    exact Matrix.isHermitian_mul_mul_conjTranspose T h
  · rw [Matrix.trace_mul_comm, ← Matrix.mul_assoc, hT.2, Matrix.one_mul]

/-! ### Counterexample -/

/-- A real symmetric reflection, used as eigenvector matrix. -/
def reflQ : Fin 4 → Fin 4 → ℚ :=
  ![![4/9, 1/9, 1/9, 1/3], ![1/9, 4/9, 1/9, 1/3], ![1/9, 1/9, 4/9, 1/3], ![1/3, 1/3, 1/3, 0]]

theorem argmax_cast (q : Fin N → Fin N → ℚ) :
    argmax (fun i j => ((q i j : ℚ) : ℝ)) = argmax q := by
  unfold argmax
  congr 1
  funext best p
  cases best <;> simp

theorem greedy_cast (q : Fin N → Fin N → ℚ) (k : ℕ) (acc : List (Fin N × Fin N)) :
    greedy (fun i j => ((q i j : ℚ) : ℝ)) k acc = greedy q k acc := by
  induction k generalizing q acc with
  | zero => rfl
  | succ k ih =>
    simp only [greedy, argmax_cast]
    cases argmax q with
    | none => rfl
    | some idx =>
      simp only
      rw [← ih]
      congr 1
      funext i j
      split <;> simp

/-- The greedy loop picks position `(0,0)` a second time, because the only remaining overlap is
zero. -/
theorem greedy_refl : greedy reflQ 4 [] = [(0, 0), (2, 2), (1, 1), (0, 0)] := by
  decide +kernel

/-- The eigenvector matrix of the counterexample: the reflection `1 - 2uuᵀ` with
`u = (1,1,1,√3)/√6`. -/
noncomputable def refl : Matrix (Fin 4) (Fin 4) ℂ :=
  let s : ℂ := ((Real.sqrt 3 : ℝ) : ℂ)
  !![2/3, -1/3, -1/3, -(s/3); -1/3, 2/3, -1/3, -(s/3); -1/3, -1/3, 2/3, -(s/3);
    -(s/3), -(s/3), -(s/3), 0]

theorem sqrt3_sq : ((Real.sqrt 3 : ℝ) : ℂ) * ((Real.sqrt 3 : ℝ) : ℂ) = 3 := by
  rw [← Complex.ofReal_mul, Real.mul_self_sqrt (by norm_num)]
  norm_num

theorem refl_vSq (i j : Fin 4) : vSq refl i j = ((reflQ i j : ℚ) : ℝ) := by
  have h3 : Real.sqrt 3 * Real.sqrt 3 = 3 := Real.mul_self_sqrt (by norm_num)
  unfold vSq refl reflQ
  fin_cases i <;> fin_cases j <;>
    simp [Complex.normSq_apply, Complex.normSq_ofNat] <;>
    nlinarith [h3]

theorem refl_unitary : IsUnitary refl := by
  have hadj : reflᴴ = refl := by
    ext i j
    unfold refl
    fin_cases i <;> fin_cases j <;> simp [Matrix.conjTranspose_apply]
  have hsq : refl * refl = 1 := by
    have h3 := sqrt3_sq
    ext i j
    unfold refl
    fin_cases i <;> fin_cases j <;>
      simp [Matrix.mul_apply, Fin.sum_univ_four] <;> ring_nf <;>
      simp only [pow_two, h3] <;> norm_num
  exact ⟨by rw [hadj]; exact hsq, by rw [hadj]; exact hsq⟩

/-- C36 is false in the fallback branch: for a drift Hamiltonian with these (real, orthonormal)
eigenvectors, the fourth bare state is assigned no eigenvector, and the transformation is not
unitary: its last column is zero. -/
theorem C36_false_fallback : IsUnitary refl ∧ (∀ i j, (refl i j).im = 0) ∧ ¬ WellDressed refl ∧
    (∀ i, transform true refl i 3 = 0) ∧ ¬ IsUnitary (transform true refl) := by
  have hw : ¬ WellDressed refl := by
    intro h
    obtain ⟨i, hi⟩ := h 0
    rw [refl_vSq] at hi
    revert hi
    unfold reflQ
    fin_cases i <;> norm_num
  have hgr : greedy (vSq refl) 4 [] = [(0, 0), (2, 2), (1, 1), (0, 0)] := by
    rw [← greedy_refl, ← greedy_cast]
    congr 1
    funext i j
    exact refl_vSq i j
  have hzero : ∀ i, transform true refl i 3 = 0 := by
    intro i
    simp only [transform, if_true, Matrix.mul_apply, Matrix.transpose_apply, Matrix.of_apply]
    apply sum_eq_zero
    intro j _
    have : reorderMatrix true refl 3 j = 0 := by
      simp only [reorderMatrix, if_true, if_neg hw, greedyReorder, hgr]
      fin_cases j <;> simp
    rw [this]
    simp
  refine ⟨refl_unitary, ?_, hw, hzero, ?_⟩
  · intro i j
    unfold refl
    fin_cases i <;> fin_cases j <;> simp
  · intro h
    have := congrFun (congrFun h.1 3) 3
    rw [Matrix.mul_apply] at this
    simp [hzero] at this

/-- C36 needs real eigenvectors: the sign of the real part is zero for an imaginary overlap, so an
eigenvector with an imaginary phase is lost. -/
theorem C36_false_imaginary : IsUnitary (!![Complex.I] : Matrix (Fin 1) (Fin 1) ℂ) ∧
    WellDressed (!![Complex.I] : Matrix (Fin 1) (Fin 1) ℂ) ∧
    ¬ IsUnitary (transform true (!![Complex.I] : Matrix (Fin 1) (Fin 1) ℂ)) := by
  refine ⟨⟨?_, ?_⟩, ?_, ?_⟩
  · ext i j
    fin_cases i; fin_cases j
    simp [Matrix.mul_apply, Matrix.conjTranspose_apply]
  · ext i j
    fin_cases i; fin_cases j
    simp [Matrix.mul_apply, Matrix.conjTranspose_apply]
  · intro j
    refine ⟨0, ?_⟩
    fin_cases j
    simp [vSq]
    norm_num
  · intro h
    have := congrFun (congrFun h.1 0) 0
    simp [transform, Matrix.mul_apply, Matrix.conjTranspose_apply, Matrix.vecMul, dotProduct] at this

/-- The hypotheses of `C36_well_dressed` hold for the identity. -/
example : IsUnitary (1 : Matrix (Fin 2) (Fin 2) ℂ) ∧ WellDressed (1 : Matrix (Fin 2) (Fin 2) ℂ) := by
  refine ⟨⟨by simp, by simp⟩, fun j => ⟨j, ?_⟩⟩
  simp [vSq]
  norm_num

end C3.Hilbert
