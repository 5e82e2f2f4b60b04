import Verif.Hilbert.Labels
import Mathlib.Algebra.BigOperators.Group.Finset.Basic
import Mathlib.Algebra.BigOperators.Ring.Finset
import Mathlib.Algebra.BigOperators.Intervals
import Mathlib.Data.Nat.Log

/-!
# C32: Kronecker products and embedded operators
-/

set_option linter.unusedSectionVars false

namespace C3.Hilbert

open Matrix Finset

variable {R : Type*} [CommSemiring R]

/-- Specification of the entry of a Kronecker product of a list of matrices between two labels:
the product of the entries between the levels. -/
def prodE (ms : List (Arr R)) (l m : List ℕ) : R :=
  ∏ t ∈ range ms.length, (ms.getD t (eye 0 0)).e (l.getD t 0) (m.getD t 0)

theorem prodE_cons (a : Arr R) (ms : List (Arr R)) (x y : ℕ) (l m : List ℕ) :
    prodE (a :: ms) (x :: l) (y :: m) = a.e x y * prodE ms l m := by
  unfold prodE
  rw [List.length_cons, prod_range_succ']
  simp [mul_comm]

theorem foldl_kron_shape (ms : List (Arr R)) (a : Arr R) :
    (ms.foldl kron a).rows = a.rows * (ms.map (·.rows)).prod ∧
      (ms.foldl kron a).cols = a.cols * (ms.map (·.cols)).prod := by
  induction ms generalizing a with
  | nil => simp
  | cons b ms ih =>
    simp only [List.foldl_cons, List.map_cons, List.prod_cons]
    rw [(ih _).1, (ih _).2]
    simp [kron, mul_assoc]

theorem foldl_kron_e (ms : List (Arr R)) (a : Arr R) (i j : ℕ) (l m : List ℕ)
    (hl : Valid (ms.map (·.rows)) l) (hm : Valid (ms.map (·.cols)) m) :
    (ms.foldl kron a).e (i * (ms.map (·.rows)).prod + flat (ms.map (·.rows)) l)
      (j * (ms.map (·.cols)).prod + flat (ms.map (·.cols)) m) = a.e i j * prodE ms l m := by
  induction ms generalizing a i j l m with
  | nil => simp [flat, prodE]
  | cons b ms ih =>
    unfold Valid at hl hm
    rw [List.map_cons, List.forall₂_cons_right_iff] at hl hm
    obtain ⟨x, l, hx, hl, rfl⟩ := hl
    obtain ⟨y, m, hy, hm, rfl⟩ := hm
    rw [prodE_cons]
    simp only [List.foldl_cons, List.map_cons, List.prod_cons, flat]
    have e1 : ∀ i r x P f : ℕ, i * (r * P) + (x * P + f) = (i * r + x) * P + f := by
      intros
      ring
    rw [e1, e1, ih _ _ _ _ _ hl hm]
    simp only [kron]
    have hb : 0 < b.rows := by omega
    have hc : 0 < b.cols := by omega
    rw [mul_comm i, Nat.mul_add_div hb, Nat.div_eq_of_lt hx, mul_comm j, Nat.mul_add_div hc,
      Nat.div_eq_of_lt hy, Nat.mul_add_mod, Nat.mul_add_mod, Nat.mod_eq_of_lt hx,
      Nat.mod_eq_of_lt hy, add_zero, add_zero, mul_assoc]

/-- The entries of `np_kron_n`. -/
theorem npKronN_e (ms : List (Arr R)) (l m : List ℕ) (hl : Valid (ms.map (·.rows)) l)
    (hm : Valid (ms.map (·.cols)) m) :
    (npKronN ms).e (flat (ms.map (·.rows)) l) (flat (ms.map (·.cols)) m) = prodE ms l m := by
  have h := foldl_kron_e ms (eye 1 1) 0 0 l m hl hm
  simpa [npKronN, eye] using h

theorem npKronN_shape (ms : List (Arr R)) :
    (npKronN ms).rows = (ms.map (·.rows)).prod ∧ (npKronN ms).cols = (ms.map (·.cols)).prod := by
  have h := foldl_kron_shape ms (eye 1 1)
  simpa [npKronN, eye] using h

/-! ### Sums over labels factor -/

theorem sum_range_mul (d P : ℕ) (F : ℕ → R) :
    ∑ k ∈ range (d * P), F k = ∑ x ∈ range d, ∑ y ∈ range P, F (x * P + y) := by
  induction d with
  | zero => simp
  | succ d ih =>
    rw [sum_range_succ, ← ih, Nat.succ_mul, sum_range_add]

theorem sum_flat (dims : List ℕ) (g : ℕ → ℕ → R) (F : ℕ → R) (c : R)
    (hF : ∀ m, Valid dims m → F (flat dims m) = c * ∏ t ∈ range dims.length, g t (m.getD t 0)) :
    ∑ k ∈ range dims.prod, F k =
      c * ∏ t ∈ range dims.length, ∑ x ∈ range (dims.getD t 0), g t x := by
  induction dims generalizing g F c with
  | nil =>
    have := hF [] List.Forall₂.nil
    simp only [flat, List.length_nil, range_zero, prod_empty] at this
    simp [this]
  | cons d ds ih =>
    rw [List.prod_cons, sum_range_mul, List.length_cons, prod_range_succ']
    simp only [List.getD_cons_succ, List.getD_cons_zero]
    rw [mul_comm (∏ _ ∈ _, _), ← mul_assoc, mul_sum, sum_mul]
    apply sum_congr rfl
    intro x hx
    rw [mem_range] at hx
    rw [ih (fun t => g (t + 1)) (fun y => F (x * ds.prod + y)) (c * g 0 x)]
    intro m hm
    have := hF (x :: m) (List.Forall₂.cons hx hm)
    simp only [flat, List.length_cons, prod_range_succ', List.getD_cons_succ,
      List.getD_cons_zero] at this
    rw [this]
    ring

/-- Every position is the flat position of a valid label. -/
theorem exists_flat (dims : List ℕ) (i : ℕ) (hi : i < dims.prod) :
    ∃ l, Valid dims l ∧ flat dims l = i := by
  rw [← length_stateLabels] at hi
  exact ⟨_, flat_getElem dims i hi⟩

theorem valid_length {dims l : List ℕ} (h : Valid dims l) : l.length = dims.length :=
  List.Forall₂.length_eq h

theorem valid_getD {dims l : List ℕ} (h : Valid dims l) (t : ℕ) (ht : t < dims.length) :
    l.getD t 0 < dims.getD t 0 := by
  have hl := valid_length h
  rw [List.getD_eq_getElem _ _ ht, List.getD_eq_getElem _ _ (by omega)]
  exact List.Forall₂.get h (by omega) ht

/-- Matrix product of two arrays (specification). -/
def mulA (a b : Arr R) : Arr R :=
  ⟨a.rows, b.cols, fun i j => ∑ k ∈ range a.cols, a.e i k * b.e k j⟩

/-- Entries of the product of two Kronecker products. -/
theorem npKronN_mul_e (ms ns : List (Arr R)) (hlen : ms.length = ns.length)
    (hmid : ms.map (·.cols) = ns.map (·.rows)) (l m : List ℕ) (hl : Valid (ms.map (·.rows)) l)
    (hm : Valid (ns.map (·.cols)) m) :
    ∑ k ∈ range (ms.map (·.cols)).prod, (npKronN ms).e (flat (ms.map (·.rows)) l) k *
        (npKronN ns).e k (flat (ns.map (·.cols)) m) =
      ∏ t ∈ range ms.length, ∑ x ∈ range ((ms.map (·.cols)).getD t 0),
        (ms.getD t (eye 0 0)).e (l.getD t 0) x * (ns.getD t (eye 0 0)).e x (m.getD t 0) := by
  have h := sum_flat (ms.map (·.cols))
    (fun t x => (ms.getD t (eye 0 0)).e (l.getD t 0) x * (ns.getD t (eye 0 0)).e x (m.getD t 0))
    (fun k => (npKronN ms).e (flat (ms.map (·.rows)) l) k *
      (npKronN ns).e k (flat (ns.map (·.cols)) m)) 1 ?_
  · rw [h, one_mul, List.length_map]
  · intro v hv
    have hv' := hv
    rw [hmid] at hv'
    rw [npKronN_e ms l v hl hv]
    conv_lhs => rw [hmid]
    rw [npKronN_e ns v m hv' hm, prodE, prodE, ← hlen, ← prod_mul_distrib, one_mul,
      List.length_map]

/-! ### Embedded operators -/

/-- The factors of `hilbert_space_kron`. -/
def embList (op : Arr R) (indx : ℕ) (dims : List ℕ) : List (Arr R) :=
  (List.range dims.length).map fun indy =>
    if indy = indx then op else eye (dims.getD indy 0) (dims.getD indy 0)

theorem embList_length (op : Arr R) (i : ℕ) (dims : List ℕ) :
    (embList op i dims).length = dims.length := by simp [embList]

theorem embList_getD (op : Arr R) (i : ℕ) (dims : List ℕ) (t : ℕ) (ht : t < dims.length) :
    (embList op i dims).getD t (eye 0 0) =
      if t = i then op else eye (dims.getD t 0) (dims.getD t 0) := by
  rw [List.getD_eq_getElem _ _ (by rw [embList_length]; exact ht)]
  simp [embList]

theorem embList_rows (op : Arr R) (i : ℕ) (dims : List ℕ)
    (hop : op.rows = dims.getD i 0) : (embList op i dims).map (·.rows) = dims := by
  apply List.ext_getElem
  · simp [embList]
  intro t h1 h2
  simp only [embList, List.map_map, List.getElem_map, List.getElem_range, Function.comp]
  split
  · next h => rw [hop, ← h, List.getD_eq_getElem _ _ h2]
  · simp only [eye]
    rw [List.getD_eq_getElem _ _ h2]

theorem embList_cols (op : Arr R) (i : ℕ) (dims : List ℕ)
    (hop : op.cols = dims.getD i 0) : (embList op i dims).map (·.cols) = dims := by
  apply List.ext_getElem
  · simp [embList]
  intro t h1 h2
  simp only [embList, List.map_map, List.getElem_map, List.getElem_range, Function.comp]
  split
  · next h => rw [hop, ← h, List.getD_eq_getElem _ _ h2]
  · simp only [eye]
    rw [List.getD_eq_getElem _ _ h2]

/-- Two labels agree on all subsystems except for `i`. -/
def AgreeOff (n i : ℕ) (l m : List ℕ) : Prop := ∀ t < n, t ≠ i → l.getD t 0 = m.getD t 0

instance (n i : ℕ) (l m : List ℕ) : Decidable (AgreeOff n i l m) := by
  unfold AgreeOff; infer_instance

theorem prodE_embList (op : Arr R) (i : ℕ) (dims l m : List ℕ) (h : i < dims.length) :
    prodE (embList op i dims) l m =
      if AgreeOff dims.length i l m then op.e (l.getD i 0) (m.getD i 0) else 0 := by
  unfold prodE
  rw [embList_length]
  split
  · next hag =>
    rw [prod_eq_single i]
    · rw [embList_getD _ _ _ _ h, if_pos rfl]
    · intro t ht hti
      rw [mem_range] at ht
      rw [embList_getD _ _ _ _ ht, if_neg hti]
      simp only [eye]
      rw [if_pos (hag t ht hti)]
    · intro hi
      rw [mem_range] at hi
      omega
  · next hag =>
    unfold AgreeOff at hag
    push Not at hag
    obtain ⟨t, ht, hti, hne⟩ := hag
    apply prod_eq_zero (mem_range.2 ht)
    rw [embList_getD _ _ _ _ ht, if_neg hti]
    simp only [eye]
    rw [if_neg hne]

/-- An operator has the shape of subsystem `i`. -/
def Fits (op : Arr R) (i : ℕ) (dims : List ℕ) : Prop :=
  i < dims.length ∧ op.rows = dims.getD i 0 ∧ op.cols = dims.getD i 0

/-- C32: the embedded operator has the dimension of the full space, and its entry between two labels
is the entry of the operator between their levels of subsystem `i` if all other levels agree, and
zero otherwise. -/
theorem C32_entries (op : Arr R) (i : ℕ) (dims : List ℕ) (h : Fits op i dims) :
    ∃ A, hilbertSpaceKron op i dims = some A ∧ A.rows = dims.prod ∧ A.cols = dims.prod ∧
      ∀ l m, Valid dims l → Valid dims m → A.e (flat dims l) (flat dims m) =
        if AgreeOff dims.length i l m then op.e (l.getD i 0) (m.getD i 0) else 0 := by
  obtain ⟨hi, hr, hc⟩ := h
  have er := embList_rows op i dims hr
  have ec := embList_cols op i dims hc
  refine ⟨npKronN (embList op i dims), ?_, ?_, ?_, ?_⟩
  · unfold hilbertSpaceKron
    rw [if_neg (by omega)]
    rfl
  · rw [(npKronN_shape _).1, er]
  · rw [(npKronN_shape _).2, ec]
  · intro l m hl hm
    have := npKronN_e (embList op i dims) l m (by rw [er]; exact hl) (by rw [ec]; exact hm)
    rw [er, ec] at this
    rw [this, prodE_embList op i dims l m hi]

/-- C32: an index outside of the list of subsystems is refused. -/
theorem C32_refused (op : Arr R) (i : ℕ) (dims : List ℕ) :
    hilbertSpaceKron op i dims = none ↔ dims.length ≤ i := by
  unfold hilbertSpaceKron
  constructor
  · intro h
    by_contra hlt
    rw [if_neg (by omega)] at h
    simp at h
  · intro h
    rw [if_pos (by omega)]

/-- The embedded operator as a matrix on the full space. -/
def emb (op : Arr R) (i : ℕ) (dims : List ℕ) : Matrix (Fin dims.prod) (Fin dims.prod) R :=
  (npKronN (embList op i dims)).mat dims.prod dims.prod

/-- `emb` is what `hilbert_space_kron` returns. -/
theorem emb_eq (op : Arr R) (i : ℕ) (dims : List ℕ) (h : i < dims.length) :
    (hilbertSpaceKron op i dims).map (fun A => A.mat dims.prod dims.prod) = some (emb op i dims) := by
  unfold hilbertSpaceKron
  rw [if_neg (by omega)]
  rfl

theorem emb_apply (op : Arr R) (i : ℕ) (dims : List ℕ) (h : Fits op i dims) (l m : List ℕ)
    (hl : Valid dims l) (hm : Valid dims m) :
    emb op i dims ⟨flat dims l, flat_lt hl⟩ ⟨flat dims m, flat_lt hm⟩ =
      if AgreeOff dims.length i l m then op.e (l.getD i 0) (m.getD i 0) else 0 := by
  obtain ⟨A, hA, -, -, he⟩ := C32_entries op i dims h
  have h2 := emb_eq op i dims h.1
  rw [hA] at h2
  simp only [Option.map_some, Option.some.injEq] at h2
  rw [← h2]
  exact he l m hl hm

/-- Matrices on the full space agree if they agree on labels. -/
theorem ext_labels {S : Type*} {dims dims' : List ℕ}
    {A B : Matrix (Fin dims.prod) (Fin dims'.prod) S}
    (h : ∀ l m, ∀ (hl : Valid dims l) (hm : Valid dims' m),
      A ⟨flat dims l, flat_lt hl⟩ ⟨flat dims' m, flat_lt hm⟩ =
        B ⟨flat dims l, flat_lt hl⟩ ⟨flat dims' m, flat_lt hm⟩) : A = B := by
  ext ⟨i, hi⟩ ⟨j, hj⟩
  obtain ⟨l, hl, rfl⟩ := exists_flat dims i hi
  obtain ⟨m, hm, rfl⟩ := exists_flat dims' j hj
  exact h l m hl hm

theorem emb_mul_apply (op op' : Arr R) (i j : ℕ) (dims : List ℕ) (h : Fits op i dims)
    (h' : Fits op' j dims) (l m : List ℕ) (hl : Valid dims l) (hm : Valid dims m) :
    (emb op i dims * emb op' j dims) ⟨flat dims l, flat_lt hl⟩ ⟨flat dims m, flat_lt hm⟩ =
      ∏ t ∈ range dims.length, ∑ x ∈ range (dims.getD t 0),
        (if t = i then op else eye (dims.getD t 0) (dims.getD t 0)).e (l.getD t 0) x *
        (if t = j then op' else eye (dims.getD t 0) (dims.getD t 0)).e x (m.getD t 0) := by
  obtain ⟨-, hr, hc⟩ := h
  obtain ⟨-, hr', hc'⟩ := h'
  have er := embList_rows op i dims hr
  have ec := embList_cols op i dims hc
  have er' := embList_rows op' j dims hr'
  have ec' := embList_cols op' j dims hc'
  have := npKronN_mul_e (embList op i dims) (embList op' j dims)
    (by rw [embList_length, embList_length]) (by rw [ec, er']) l m (by rw [er]; exact hl)
    (by rw [ec']; exact hm)
  rw [er, ec, ec', embList_length] at this
  rw [Matrix.mul_apply]
  simp only [emb, Arr.mat]
  rw [Fin.sum_univ_eq_sum_range fun k => (npKronN (embList op i dims)).e (flat dims l) k *
    (npKronN (embList op' j dims)).e k (flat dims m), this]
  apply prod_congr rfl
  intro t ht
  rw [mem_range] at ht
  rw [embList_getD _ _ _ _ ht, embList_getD _ _ _ _ ht]

theorem sum_eye_left (d x : ℕ) (f : ℕ → R) (hx : x < d) (r c : ℕ) :
    ∑ k ∈ range d, (eye (R := R) r c).e x k * f k = f x := by
  rw [sum_eq_single x]
  · simp [eye]
  · intro k _ hk
    simp [eye, Ne.symm hk]
  · intro h
    rw [mem_range] at h
    omega

theorem sum_eye_right (d x : ℕ) (f : ℕ → R) (hx : x < d) (r c : ℕ) :
    ∑ k ∈ range d, f k * (eye (R := R) r c).e k x = f x := by
  rw [sum_eq_single x]
  · simp [eye]
  · intro k _ hk
    simp [eye, hk]
  · intro h
    rw [mem_range] at h
    omega

/-- C32: operators on different subsystems commute. -/
theorem C32_commute (op op' : Arr R) (i j : ℕ) (dims : List ℕ) (h : Fits op i dims)
    (h' : Fits op' j dims) (hij : i ≠ j) :
    emb op i dims * emb op' j dims = emb op' j dims * emb op i dims := by
  apply ext_labels
  intro l m hl hm
  rw [emb_mul_apply op op' i j dims h h' l m hl hm, emb_mul_apply op' op j i dims h' h l m hl hm]
  apply prod_congr rfl
  intro t ht
  rw [mem_range] at ht
  have hlt := valid_getD hl t ht
  have hmt := valid_getD hm t ht
  by_cases h1 : t = i
  · have h2 : t ≠ j := fun h => hij (h1.symm.trans h)
    simp only [if_pos h1, if_neg h2]
    rw [sum_eye_right _ _ _ hmt, sum_eye_left _ _ (fun x => op.e x (m.getD t 0)) hlt]
  · by_cases h2 : t = j
    · simp only [if_neg h1, if_pos h2]
      rw [sum_eye_right _ _ _ hmt, sum_eye_left _ _ (fun x => op'.e x (m.getD t 0)) hlt]
    · simp only [if_neg h1, if_neg h2]

/-- C32: the embedding respects products. -/
theorem C32_mul (op op' : Arr R) (i : ℕ) (dims : List ℕ) (h : Fits op i dims)
    (h' : Fits op' i dims) :
    emb op i dims * emb op' i dims = emb (mulA op op') i dims := by
  apply ext_labels
  intro l m hl hm
  rw [emb_mul_apply op op' i i dims h h' l m hl hm,
    emb_apply (mulA op op') i dims ⟨h.1, h.2.1, h'.2.2⟩ l m hl hm,
    ← prodE_embList (mulA op op') i dims l m h.1, prodE, embList_length]
  apply prod_congr rfl
  intro t ht
  rw [mem_range] at ht
  have hlt := valid_getD hl t ht
  rw [embList_getD _ _ _ _ ht]
  split
  · next hti =>
    subst hti
    simp only [mulA, h.2.2]
  · rw [sum_eye_left _ _ (fun x => (eye (dims.getD t 0) (dims.getD t 0)).e x (m.getD t 0)) hlt]

/-- C32: the embedded identity is the identity. -/
theorem C32_one (i : ℕ) (dims : List ℕ) (h : i < dims.length) :
    emb (eye (R := R) (dims.getD i 0) (dims.getD i 0)) i dims = 1 := by
  apply ext_labels
  intro l m hl hm
  rw [emb_apply _ i dims ⟨h, rfl, rfl⟩ l m hl hm, Matrix.one_apply]
  simp only [eye, Fin.mk.injEq]
  by_cases hlm : l = m
  · subst hlm
    have hag : AgreeOff dims.length i l l := fun _ _ _ => rfl
    rw [if_pos hag]
    simp
  · have hne : flat dims l ≠ flat dims m := by
      intro he
      have h1 := stateLabels_flat hl
      rw [he, stateLabels_flat hm] at h1
      exact hlm (Option.some.inj h1).symm
    rw [if_neg hne]
    split
    · next hag =>
      rw [if_neg]
      intro hi
      apply hlm
      apply List.ext_getElem
      · rw [valid_length hl, valid_length hm]
      intro t h1 h2
      have ht : t < dims.length := by rw [← valid_length hl]; exact h1
      have : l.getD t 0 = m.getD t 0 := by
        by_cases hti : t = i
        · rw [hti]; exact hi
        · exact hag t ht hti
      rwa [List.getD_eq_getElem _ _ h1, List.getD_eq_getElem _ _ h2] at this
    · rfl

/-- Distinct valid labels have distinct positions. -/
theorem flat_inj {dims l m : List ℕ} (hl : Valid dims l) (hm : Valid dims m) :
    flat dims l = flat dims m ↔ l = m := by
  constructor
  · intro he
    have h1 := stateLabels_flat hl
    rw [he, stateLabels_flat hm] at h1
    exact (Option.some.inj h1).symm
  · rintro rfl
    rfl

/-- C32: the embedding respects adjoints. -/
theorem C32_adjoint (op : Arr ℂ) (i : ℕ) (dims : List ℕ) (h : Fits op i dims) :
    (emb op i dims)ᴴ = emb ⟨op.cols, op.rows, fun x y => star (op.e y x)⟩ i dims := by
  apply ext_labels
  intro l m hl hm
  rw [Matrix.conjTranspose_apply, emb_apply op i dims h m l hm hl,
    emb_apply _ i dims ⟨h.1, h.2.2, h.2.1⟩ l m hl hm]
  have hag : AgreeOff dims.length i m l ↔ AgreeOff dims.length i l m :=
    ⟨fun h t ht hti => (h t ht hti).symm, fun h t ht hti => (h t ht hti).symm⟩
  by_cases hc : AgreeOff dims.length i l m
  · rw [if_pos (hag.2 hc), if_pos hc]
  · rw [if_neg (fun h => hc (hag.1 h)), if_neg hc, star_zero]

example : Fits (annih 3) 1 [2, 3] := ⟨by decide, rfl, rfl⟩
example : AgreeOff 2 1 [0, 1] [0, 2] ∧ ¬ AgreeOff 2 1 [0, 1] [1, 2] := by decide

end C3.Hilbert
