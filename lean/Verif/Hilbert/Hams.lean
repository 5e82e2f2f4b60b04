import Verif.Hilbert.Embed
import Mathlib.LinearAlgebra.Matrix.Hermitian

/-!
# C33, C34, C35: number operators, excitation cut, hermiticity
-/

set_option linter.unusedSectionVars false

namespace C3.Hilbert

open Matrix Finset

/-- The embedded annihilator of subsystem `i` as a matrix on the full space. -/
noncomputable def ann (dims : List ℕ) (i : ℕ) : Matrix (Fin dims.prod) (Fin dims.prod) ℂ :=
  emb (annih (dims.getD i 0)) i dims

/-- `ann` is what `__create_annihilators` stores. -/
theorem ann_eq (dims : List ℕ) (i : ℕ) (h : i < dims.length) :
    (annOper dims i).map (fun A => A.mat dims.prod dims.prod) = some (ann dims i) :=
  emb_eq _ i dims h

/-- The level of subsystem `i` in the state at position `p`. -/
def levelAt (dims : List ℕ) (i : ℕ) (p : Fin dims.prod) : ℕ :=
  ((stateLabels dims).getD p []).getD i 0

theorem levelAt_flat {dims l : List ℕ} (h : Valid dims l) (i : ℕ) :
    levelAt dims i ⟨flat dims l, flat_lt h⟩ = l.getD i 0 := by
  unfold levelAt
  simp only
  rw [List.getD_eq_getElem?_getD (l := stateLabels dims), stateLabels_flat h]
  rfl

theorem fits_annih (dims : List ℕ) (i : ℕ) (h : i < dims.length) :
    Fits (annih (dims.getD i 0)) i dims := ⟨h, rfl, rfl⟩

theorem agree_eq {dims l m : List ℕ} (i : ℕ) (hl : Valid dims l) (hm : Valid dims m)
    (hag : AgreeOff dims.length i l m) (hi : l.getD i 0 = m.getD i 0) : l = m := by
  apply List.ext_getElem
  · rw [valid_length hl, valid_length hm]
  intro t h1 h2
  have ht : t < dims.length := by rw [← valid_length hl]; exact h1
  have : l.getD t 0 = m.getD t 0 := by
    by_cases hti : t = i
    · rw [hti]; exact hi
    · exact hag t ht hti
  rwa [List.getD_eq_getElem _ _ h1, List.getD_eq_getElem _ _ h2] at this

/-- An embedded diagonal operator is diagonal with the entry of the level. -/
theorem emb_diagonal (op : Arr ℂ) (f : ℕ → ℂ) (i : ℕ) (dims : List ℕ) (h : Fits op i dims)
    (hop : ∀ x < dims.getD i 0, ∀ y < dims.getD i 0, op.e x y = if x = y then f x else 0) :
    emb op i dims = Matrix.diagonal fun p => f (levelAt dims i p) := by
  apply ext_labels
  intro l m hl hm
  rw [emb_apply op i dims h l m hl hm, Matrix.diagonal_apply, levelAt_flat hl,
    hop _ (valid_getD hl i h.1) _ (valid_getD hm i h.1)]
  simp only [Fin.mk.injEq, flat_inj hl hm]
  by_cases hlm : l = m
  · subst hlm
    have hag : AgreeOff dims.length i l l := fun _ _ _ => rfl
    rw [if_pos hag]
    simp
  · rw [if_neg hlm]
    split
    · next hag =>
      rw [if_neg]
      exact fun hi => hlm (agree_eq i hl hm hag hi)
    · rfl

theorem number_e (d x y : ℕ) (hx : x < d) (hy : y < d) :
    (mulA ⟨d, d, fun i j => star ((annih d).e j i)⟩ (annih d)).e x y =
      if x = y then (x : ℂ) else 0 := by
  simp only [mulA, annih]
  rcases Nat.eq_zero_or_pos x with h0 | h0
  · subst h0
    rw [sum_eq_zero]
    · simp
    · intro k _
      simp
  · rw [sum_eq_single (x - 1)]
    · have hx1 : x = x - 1 + 1 := by omega
      rw [if_pos hx1]
      by_cases hxy : x = y
      · subst hxy
        rw [if_pos hx1, if_pos rfl]
        simp only [RCLike.star_def, Complex.conj_ofReal]
        rw [← Complex.ofReal_mul, Real.mul_self_sqrt (Nat.cast_nonneg _)]
        simp
      · rw [if_neg hxy, if_neg (by omega), mul_zero]
    · intro k _ hk
      rw [if_neg (by omega)]
      simp
    · intro h
      rw [mem_range] at h
      omega

theorem ann_number (dims : List ℕ) (i : ℕ) (h : i < dims.length) :
    (ann dims i)ᴴ * ann dims i = Matrix.diagonal fun p => (levelAt dims i p : ℂ) := by
  have hf := fits_annih dims i h
  rw [ann, C32_adjoint _ i dims hf, C32_mul _ _ i dims ⟨h, rfl, rfl⟩ hf]
  exact emb_diagonal _ (fun x => (x : ℂ)) i dims ⟨h, rfl, rfl⟩
    fun x hx y hy => number_e (dims.getD i 0) x y hx hy

/-- C33: the resonator Hamiltonian of subsystem `i` counts its excitations. -/
theorem C33_resonator (dims : List ℕ) (i : ℕ) (h : i < dims.length) :
    resonator (ann dims i) = Matrix.diagonal fun p => (levelAt dims i p : ℂ) :=
  ann_number dims i h

/-- C33: the Duffing term is `n(n-1)/2`. -/
theorem C33_duffing (dims : List ℕ) (i : ℕ) (h : i < dims.length) :
    duffing (ann dims i) = Matrix.diagonal fun p =>
      (levelAt dims i p : ℂ) * ((levelAt dims i p : ℂ) - 1) / 2 := by
  unfold duffing
  rw [ann_number dims i h, ← Matrix.diagonal_one, Matrix.diagonal_sub, Matrix.diagonal_mul_diagonal]
  ext p q
  simp only [Matrix.smul_apply, Matrix.diagonal_apply, smul_eq_mul]
  split
  · ring
  · simp

/-- C33: `z_drive` is the same operator as the resonator. -/
theorem C33_z_drive (dims : List ℕ) (i : ℕ) (h : i < dims.length) :
    zDrive (ann dims i) = Matrix.diagonal fun p => (levelAt dims i p : ℂ) :=
  ann_number dims i h

/-- C33: the annihilator lowers subsystem `i` by one with amplitude `√level` and does not touch the
other subsystems. -/
theorem C33_annihilator (dims : List ℕ) (i : ℕ) (h : i < dims.length) (l m : List ℕ)
    (hl : Valid dims l) (hm : Valid dims m) :
    ann dims i ⟨flat dims l, flat_lt hl⟩ ⟨flat dims m, flat_lt hm⟩ =
      if AgreeOff dims.length i l m ∧ m.getD i 0 = l.getD i 0 + 1 then
        ((Real.sqrt (m.getD i 0 : ℕ) : ℝ) : ℂ) else 0 := by
  rw [ann, emb_apply _ i dims (fits_annih dims i h) l m hl hm]
  simp only [annih]
  by_cases h1 : AgreeOff dims.length i l m
  · by_cases h2 : m.getD i 0 = l.getD i 0 + 1
    · rw [if_pos h1, if_pos h2, if_pos ⟨h1, h2⟩]
    · rw [if_pos h1, if_neg h2, if_neg (fun h => h2 h.2)]
  · rw [if_neg h1, if_neg (fun h => h1 h.1)]

example : levelAt [2, 3] 1 ⟨4, by decide⟩ = 1 := by decide

/-! ## C34 -/

section Cut
variable (dims : List ℕ) (maxEx : ℕ)

theorem kept_nodup : (keptPositions dims maxEx).Nodup :=
  List.nodup_range.filter _

theorem kept_lt (r : Fin (keptPositions dims maxEx).length) :
    (keptPositions dims maxEx)[r] < (stateLabels dims).length := by
  have h := List.getElem_mem (l := keptPositions dims maxEx) r.2
  unfold keptPositions at h
  exact List.mem_range.1 (List.mem_filter.1 h).1

/-- The position of the `r`-th kept state in the full space. -/
def keptPos (r : Fin (keptPositions dims maxEx).length) : Fin (stateLabels dims).length :=
  ⟨(keptPositions dims maxEx)[r], kept_lt dims maxEx r⟩

theorem keptPos_inj : Function.Injective (keptPos dims maxEx) := by
  intro r s h
  simp only [keptPos, Fin.mk.injEq] at h
  exact Fin.ext ((kept_nodup dims maxEx).getElem_inj_iff.1 h)

/-- A state is kept exactly if its label has at most `maxEx` excitations. -/
theorem mem_kept (p : Fin (stateLabels dims).length) :
    (∃ r, keptPos dims maxEx r = p) ↔ ((stateLabels dims)[p]).sum ≤ maxEx := by
  have hmem : (p : ℕ) ∈ keptPositions dims maxEx ↔ ((stateLabels dims)[p]).sum ≤ maxEx := by
    unfold keptPositions
    rw [List.mem_filter]
    simp only [List.mem_range, p.2, true_and, decide_eq_true_eq]
    rw [List.getD_eq_getElem _ _ p.2]
    rfl
  rw [← hmem]
  constructor
  · rintro ⟨r, rfl⟩
    exact List.getElem_mem _
  · intro h
    obtain ⟨k, hk, he⟩ := List.getElem_of_mem h
    exact ⟨⟨k, hk⟩, Fin.ext he⟩

theorem exCutter_apply (r : Fin (keptPositions dims maxEx).length)
    (c : Fin (stateLabels dims).length) :
    exCutter dims maxEx r c = if c = keptPos dims maxEx r then 1 else 0 := by
  simp only [exCutter, keptPos, Fin.ext_iff]

/-- C34: cutting keeps the entries between kept states, in the original order. -/
theorem C34_cut_entries
    (op : Matrix (Fin (stateLabels dims).length) (Fin (stateLabels dims).length) ℂ) :
    cutExcitations dims maxEx op = op.submatrix (keptPos dims maxEx) (keptPos dims maxEx) := by
  ext r s
  simp [cutExcitations, Matrix.mul_apply, exCutter_apply]

/-- C34: the kept states are exactly those with at most `maxEx` excitations. -/
theorem C34_kept_states (l : List ℕ) (hl : Valid dims l) :
    (∃ r, (keptPos dims maxEx r : ℕ) = flat dims l) ↔ l.sum ≤ maxEx := by
  have hlt : flat dims l < (stateLabels dims).length := by
    rw [length_stateLabels]; exact flat_lt hl
  have h := mem_kept dims maxEx ⟨flat dims l, hlt⟩
  have hg : (stateLabels dims)[flat dims l] = l := by
    have := stateLabels_flat hl
    rw [List.getElem?_eq_getElem hlt] at this
    exact Option.some.inj this
  simp only [Fin.ext_iff] at h
  rw [h]
  simp only [Fin.getElem_fin, hg]

/-- C34: kept states stay in the order of the full space. -/
theorem C34_order (r s : Fin (keptPositions dims maxEx).length) (h : r < s) :
    keptPos dims maxEx r < keptPos dims maxEx s := by
  have hp : (keptPositions dims maxEx).Pairwise (· < ·) := List.pairwise_lt_range.filter _
  exact List.pairwise_iff_getElem.1 hp r s r.2 s.2 h

/-- C34: blowing up and cutting again is the identity. -/
theorem C34_cut_blowup (op : Matrix (Fin (keptPositions dims maxEx).length)
    (Fin (keptPositions dims maxEx).length) ℂ) :
    cutExcitations dims maxEx (blowupExcitations dims maxEx op) = op := by
  ext r s
  rw [C34_cut_entries]
  simp only [Matrix.submatrix_apply, blowupExcitations, Matrix.mul_apply, exCutter_apply,
    Matrix.transpose_apply, (keptPos_inj dims maxEx).eq_iff]
  simp

/-- C34: cutting and blowing up again removes all entries that involve a state with too many
excitations and keeps the others. -/
theorem C34_blowup_cut
    (op : Matrix (Fin (stateLabels dims).length) (Fin (stateLabels dims).length) ℂ) (p q) :
    blowupExcitations dims maxEx (cutExcitations dims maxEx op) p q =
      if ((stateLabels dims)[p]).sum ≤ maxEx ∧ ((stateLabels dims)[q]).sum ≤ maxEx then op p q
      else 0 := by
  rw [C34_cut_entries]
  simp only [blowupExcitations, Matrix.mul_apply, exCutter_apply, Matrix.transpose_apply,
    Matrix.submatrix_apply]
  split
  · next h =>
    rw [← mem_kept dims maxEx p, ← mem_kept dims maxEx q] at h
    obtain ⟨⟨r, rfl⟩, s, rfl⟩ := h
    simp [(keptPos_inj dims maxEx).eq_iff]
  · next h =>
    rw [← mem_kept dims maxEx p, ← mem_kept dims maxEx q] at h
    apply sum_eq_zero
    intro s _
    by_cases hs : q = keptPos dims maxEx s
    · rw [sum_eq_zero]
      · simp
      · intro r _
        rw [if_neg]
        · simp
        · rintro rfl
          exact h ⟨⟨r, rfl⟩, s, hs.symm⟩
    · rw [if_neg hs]
      simp

/-- C34: cutting is linear and compatible with adjoints, so it preserves hermiticity; the same for
blowing up. -/
theorem C34_hermitian
    (op op' : Matrix (Fin (stateLabels dims).length) (Fin (stateLabels dims).length) ℂ) (c : ℂ) :
    cutExcitations dims maxEx (op + c • op') =
        cutExcitations dims maxEx op + c • cutExcitations dims maxEx op' ∧
      (cutExcitations dims maxEx op)ᴴ = cutExcitations dims maxEx opᴴ ∧
      (op.IsHermitian → (cutExcitations dims maxEx op).IsHermitian) ∧
      ∀ k : Matrix (Fin (keptPositions dims maxEx).length)
        (Fin (keptPositions dims maxEx).length) ℂ, k.IsHermitian →
        (blowupExcitations dims maxEx k).IsHermitian := by
  have hadj : (cutExcitations dims maxEx op)ᴴ = cutExcitations dims maxEx opᴴ := by
    rw [C34_cut_entries, C34_cut_entries, Matrix.conjTranspose_submatrix]
  have hreal : (exCutter dims maxEx)ᵀ = (exCutter dims maxEx)ᴴ := by
    ext r c
    rw [Matrix.conjTranspose_apply, Matrix.transpose_apply, exCutter_apply]
    split <;> simp
  refine ⟨?_, hadj, ?_, ?_⟩
  · unfold cutExcitations
    rw [Matrix.mul_add, Matrix.add_mul, Matrix.mul_smul, Matrix.smul_mul]
  · intro h
    unfold Matrix.IsHermitian
    rw [hadj, h]
  · intro k hk
    unfold blowupExcitations
    rw [hreal]
    exact Matrix.isHermitian_conjTranspose_mul_mul _ hk

end Cut

example : keptPositions [2, 3] 1 = [0, 1, 3] := by decide

/-! ## C35 -/

section Herm
variable {n : Type*} [Fintype n] [DecidableEq n]

theorem resonator_herm (a : Matrix n n ℂ) : (resonator a).IsHermitian :=
  Matrix.isHermitian_conjTranspose_mul_self a

theorem duffing_herm (a : Matrix n n ℂ) : (duffing a).IsHermitian := by
  unfold duffing Matrix.IsHermitian
  rw [Matrix.conjTranspose_smul, Matrix.conjTranspose_mul, Matrix.conjTranspose_sub,
    Matrix.conjTranspose_one, Matrix.conjTranspose_mul, Matrix.conjTranspose_conjTranspose,
    Matrix.mul_sub, Matrix.sub_mul, Matrix.mul_one, Matrix.one_mul]
  norm_num

theorem thirdOrder_herm (a : Matrix n n ℂ) : (thirdOrder a).IsHermitian := by
  unfold thirdOrder Matrix.IsHermitian
  simp only [Matrix.conjTranspose_add, Matrix.conjTranspose_mul,
    Matrix.conjTranspose_conjTranspose, Matrix.mul_assoc]
  exact add_comm _ _

theorem xDrive_herm (a : Matrix n n ℂ) : (xDrive a).IsHermitian := by
  unfold xDrive Matrix.IsHermitian
  rw [Matrix.conjTranspose_add, Matrix.conjTranspose_conjTranspose, add_comm]

theorem yDrive_herm (a : Matrix n n ℂ) : (yDrive a).IsHermitian := by
  unfold yDrive Matrix.IsHermitian
  rw [Matrix.conjTranspose_smul, Matrix.conjTranspose_sub, Matrix.conjTranspose_conjTranspose]
  simp only [RCLike.star_def, Complex.conj_I]
  rw [neg_smul, ← smul_neg, neg_sub]

theorem intXX_herm (a b : Matrix n n ℂ) (h : a * b = b * a) (h' : a * bᴴ = bᴴ * a) :
    (intXX a b).IsHermitian := by
  have h1 : bᴴ * aᴴ = aᴴ * bᴴ := by
    rw [← Matrix.conjTranspose_mul, ← Matrix.conjTranspose_mul, h]
  have h2 : b * aᴴ = aᴴ * b := by
    have := congrArg Matrix.conjTranspose h'
    rwa [Matrix.conjTranspose_mul, Matrix.conjTranspose_mul, Matrix.conjTranspose_conjTranspose]
      at this
  unfold intXX Matrix.IsHermitian
  simp only [Matrix.conjTranspose_add, Matrix.conjTranspose_mul,
    Matrix.conjTranspose_conjTranspose, Matrix.mul_add, Matrix.add_mul]
  rw [h1, h2, h, h']
  abel

theorem intYY_herm (a b : Matrix n n ℂ) (h : a * b = b * a) (h' : a * bᴴ = bᴴ * a) :
    (intYY a b).IsHermitian := by
  have h1 : bᴴ * aᴴ = aᴴ * bᴴ := by
    rw [← Matrix.conjTranspose_mul, ← Matrix.conjTranspose_mul, h]
  have h2 : b * aᴴ = aᴴ * b := by
    have := congrArg Matrix.conjTranspose h'
    rwa [Matrix.conjTranspose_mul, Matrix.conjTranspose_mul, Matrix.conjTranspose_conjTranspose]
      at this
  unfold intYY Matrix.IsHermitian
  simp only [Matrix.conjTranspose_sub, Matrix.conjTranspose_mul, Matrix.conjTranspose_neg,
    Matrix.conjTranspose_conjTranspose, Matrix.mul_sub, Matrix.sub_mul]
  rw [h1, h2, h, h']
  abel

end Herm

/-- Annihilators of different subsystems commute, also with adjoints. -/
theorem ann_commute (dims : List ℕ) (i j : ℕ) (hi : i < dims.length) (hj : j < dims.length)
    (hij : i ≠ j) : ann dims i * ann dims j = ann dims j * ann dims i ∧
      ann dims i * (ann dims j)ᴴ = (ann dims j)ᴴ * ann dims i := by
  refine ⟨C32_commute _ _ i j dims (fits_annih dims i hi) (fits_annih dims j hj) hij, ?_⟩
  rw [ann, ann, C32_adjoint _ j dims (fits_annih dims j hj)]
  exact C32_commute _ _ i j dims (fits_annih dims i hi) ⟨hj, rfl, rfl⟩ hij

/-- C35: the interaction Hamiltonians of annihilators of any two subsystems are Hermitian (also of a
subsystem with itself). -/
theorem C35_interactions (dims : List ℕ) (i j : ℕ) (hi : i < dims.length) (hj : j < dims.length) :
    (intXX (ann dims i) (ann dims j)).IsHermitian ∧
      (intYY (ann dims i) (ann dims j)).IsHermitian := by
  by_cases hij : i = j
  · subst hij
    constructor
    · unfold intXX Matrix.IsHermitian
      simp [Matrix.conjTranspose_mul, add_comm]
    · unfold intYY Matrix.IsHermitian
      rw [Matrix.conjTranspose_neg, Matrix.conjTranspose_mul, Matrix.conjTranspose_sub,
        Matrix.conjTranspose_conjTranspose, ← neg_sub (ann dims i)ᴴ, Matrix.neg_mul,
        Matrix.mul_neg, neg_neg]
  · obtain ⟨h1, h2⟩ := ann_commute dims i j hi hj hij
    exact ⟨intXX_herm _ _ h1 h2, intYY_herm _ _ h1 h2⟩

/-- C35: the single-operator library functions return Hermitian matrices for every operator. -/
theorem C35_single {n : Type*} [Fintype n] [DecidableEq n] (a : Matrix n n ℂ) :
    (resonator a).IsHermitian ∧ (duffing a).IsHermitian ∧ (thirdOrder a).IsHermitian ∧
      (xDrive a).IsHermitian ∧ (yDrive a).IsHermitian ∧ (zDrive a).IsHermitian :=
  ⟨resonator_herm a, duffing_herm a, thirdOrder_herm a, xDrive_herm a, yDrive_herm a,
    resonator_herm a⟩

/-- Without commuting operators the interaction would not be Hermitian: the hypothesis that the two
annihilators belong to the model is needed. -/
theorem C35_needs_model_operators :
    ∃ a b : Matrix (Fin 2) (Fin 2) ℂ, ¬ (intXX a b).IsHermitian := by
  refine ⟨!![0, 1; 0, 0], !![1, 0; 0, 0], ?_⟩
  intro h
  have := congrFun (congrFun h 0) 1
  simp [intXX, Matrix.conjTranspose_apply, Matrix.mul_apply, Fin.sum_univ_two] at this

end C3.Hilbert
