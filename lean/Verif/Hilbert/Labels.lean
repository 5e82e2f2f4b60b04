import Verif.Hilbert.Model
import Mathlib.Data.List.Nodup
import Mathlib.Data.List.GetD
import Mathlib.Tactic.Ring
import Mathlib.Tactic.Linarith

/-!
# C31: state labels and flat positions
-/

namespace C3.Hilbert

/-- A label of the product space: one level below the dimension for each subsystem. -/
def Valid (dims : List ℕ) (l : List ℕ) : Prop := List.Forall₂ (fun x d => x < d) l dims

/-- Specification of the flat position of a label in Kronecker order (last subsystem fastest). -/
def flat : List ℕ → List ℕ → ℕ
  | _ :: ds, x :: xs => x * ds.prod + flat ds xs
  | _, _ => 0

theorem flat_lt {dims l : List ℕ} (h : Valid dims l) : flat dims l < dims.prod := by
  induction h with
  | nil => simp [flat]
  | @cons x d xs ds hx _ ih =>
    simp only [flat, List.prod_cons]
    calc x * ds.prod + flat ds xs < x * ds.prod + ds.prod := by omega
      _ = (x + 1) * ds.prod := by ring
      _ ≤ d * ds.prod := Nat.mul_le_mul_right _ hx

theorem length_product {α : Type*} (ls : List (List α)) :
    (product ls).length = (ls.map List.length).prod := by
  induction ls with
  | nil => rfl
  | cons l ls ih => simp [product, List.length_flatMap, ih]

theorem mem_product {α : Type*} (ls : List (List α)) (r : List α) :
    r ∈ product ls ↔ List.Forall₂ (fun x l => x ∈ l) r ls := by
  induction ls generalizing r with
  | nil => simp [product]
  | cons l ls ih =>
    simp only [product, List.mem_flatMap, List.mem_map, ih, List.forall₂_cons_right_iff]
    constructor
    · rintro ⟨x, hx, r', hr', rfl⟩
      exact ⟨x, r', hx, hr', rfl⟩
    · rintro ⟨x, r', hx, hr', rfl⟩
      exact ⟨x, hx, r', hr', rfl⟩

theorem nodup_product {α : Type*} (ls : List (List α)) (h : ∀ l ∈ ls, l.Nodup) :
    (product ls).Nodup := by
  induction ls with
  | nil => simp [product]
  | cons l ls ih =>
    simp only [product]
    rw [List.nodup_flatMap]
    refine ⟨fun x _ => ?_, ?_⟩
    · exact (ih fun l' hl' => h l' (List.mem_cons_of_mem _ hl')).map
        (fun _ _ h => (List.cons.inj h).2)
    · refine (h l List.mem_cons_self).imp ?_
      intro a b hab
      simp only [Function.onFun, List.disjoint_left, List.mem_map]
      rintro _ ⟨r, _, rfl⟩ ⟨r', _, h'⟩
      exact hab (List.cons.inj h').1.symm

theorem mem_stateLabels (dims l : List ℕ) : l ∈ stateLabels dims ↔ Valid dims l := by
  unfold stateLabels Valid
  rw [mem_product, List.forall₂_map_right_iff]
  simp

theorem length_stateLabels (dims : List ℕ) : (stateLabels dims).length = dims.prod := by
  unfold stateLabels
  rw [length_product, List.map_map]
  congr 1
  conv_rhs => rw [← List.map_id dims]
  apply List.map_congr_left
  simp

theorem getElem?_flatMap_range (n p : ℕ) {α : Type*} (f : ℕ → List α)
    (hf : ∀ x, (f x).length = p) (x y : ℕ) (hx : x < n) (hy : y < p) :
    ((List.range n).flatMap f)[x * p + y]? = (f x)[y]? := by
  induction n generalizing x with
  | zero => omega
  | succ n ih =>
    rw [List.range_succ, List.flatMap_append]
    have hlen : ((List.range n).flatMap f).length = n * p := by
      simp [List.length_flatMap, hf]
    rcases Nat.lt_or_ge x n with hxn | hxn
    · rw [List.getElem?_append_left, ih x hxn]
      rw [hlen]
      calc x * p + y < x * p + p := by omega
        _ = (x + 1) * p := by ring
        _ ≤ n * p := Nat.mul_le_mul_right _ hxn
    · have : x = n := by omega
      subst this
      rw [List.getElem?_append_right (by rw [hlen]; omega), hlen, Nat.add_sub_cancel_left]
      simp

theorem stateLabels_flat {dims l : List ℕ} (h : Valid dims l) :
    (stateLabels dims)[flat dims l]? = some l := by
  induction h with
  | nil => rfl
  | @cons x d xs ds hx hxs ih =>
    have hl := length_stateLabels ds
    simp only [stateLabels, List.map_cons, product, flat] at ih hl ⊢
    rw [getElem?_flatMap_range d ds.prod _ (fun _ => by rw [List.length_map, hl]) x _ hx
      (flat_lt hxs), List.getElem?_map, ih]
    rfl

theorem nodup_stateLabels (dims : List ℕ) : (stateLabels dims).Nodup := by
  apply nodup_product
  intro l hl
  obtain ⟨d, _, rfl⟩ := List.mem_map.1 hl
  exact List.nodup_range

/-- Every position below the dimension is the flat position of the label stored there. -/
theorem flat_getElem (dims : List ℕ) (i : ℕ) (hi : i < (stateLabels dims).length) :
    Valid dims (stateLabels dims)[i] ∧ flat dims (stateLabels dims)[i] = i := by
  have hv : Valid dims (stateLabels dims)[i] := (mem_stateLabels _ _).1 (List.getElem_mem hi)
  refine ⟨hv, ?_⟩
  have h := stateLabels_flat hv
  have hlt : flat dims (stateLabels dims)[i] < (stateLabels dims).length := by
    rw [length_stateLabels]
    exact flat_lt hv
  rw [List.getElem?_eq_getElem hlt, Option.some.injEq] at h
  exact (nodup_stateLabels dims).getElem_inj_iff.1 h

/-- C31: the labels are all combinations of levels, each exactly once, `tot_dim` many, stored in
Kronecker order. -/
theorem C31_labels (dims : List ℕ) :
    (∀ l, l ∈ stateLabels dims ↔ Valid dims l) ∧ (stateLabels dims).Nodup ∧
      (stateLabels dims).length = dims.prod ∧
      ∀ l, Valid dims l → (stateLabels dims)[flat dims l]? = some l :=
  ⟨mem_stateLabels dims, nodup_stateLabels dims, length_stateLabels dims,
    fun _ h => stateLabels_flat h⟩

/-- C31: `get_state_index` returns the position in Kronecker order for every label and raises for
everything else. -/
theorem C31_index (dims l : List ℕ) :
    (Valid dims l → getStateIndex dims l = some (flat dims l)) ∧
      (¬ Valid dims l → getStateIndex dims l = none) := by
  unfold getStateIndex
  constructor
  · intro h
    have hm := (mem_stateLabels dims l).2 h
    have h1 : (stateLabels dims).findIdx? (· == l) = some ((stateLabels dims).idxOf l) := by
      unfold List.idxOf
      rw [List.findIdx?_eq_some_iff_findIdx_eq]
      exact ⟨List.findIdx_lt_length_of_exists ⟨l, hm, by simp⟩, rfl⟩
    rw [h1]
    have hlt : (stateLabels dims).idxOf l < (stateLabels dims).length := List.idxOf_lt_length_iff.2 hm
    have h2 := flat_getElem dims _ hlt
    rw [List.getElem_idxOf hlt] at h2
    rw [h2.2]
  · intro h
    rw [List.findIdx?_eq_none_iff]
    intro x hx
    simp only [beq_eq_false_iff_ne]
    rintro rfl
    exact h ((mem_stateLabels dims x).1 hx)

/-- C31: index and label are inverse to each other. -/
theorem C31_inverse (dims : List ℕ) (i : ℕ) (hi : i < dims.prod) :
    ∃ l, (stateLabels dims)[i]? = some l ∧ getStateIndex dims l = some i := by
  rw [← length_stateLabels] at hi
  have h := flat_getElem dims i hi
  refine ⟨_, List.getElem?_eq_getElem hi, ?_⟩
  rw [(C31_index dims _).1 h.1, h.2]

/-- C31: the computational labels are the 0/1 strings, `2^n` many, each once. -/
theorem C31_comp_labels (dims : List ℕ) :
    (∀ l, l ∈ compStateLabels dims ↔ l.length = dims.length ∧ ∀ x ∈ l, x < 2) ∧
      (compStateLabels dims).Nodup ∧ (compStateLabels dims).length = 2 ^ dims.length := by
  have h : compStateLabels dims = stateLabels (dims.map fun _ => 2) := by
    simp only [compStateLabels, stateLabels, List.map_map]
    rfl
  rw [h]
  refine ⟨fun l => ?_, nodup_stateLabels _, ?_⟩
  · rw [mem_stateLabels]
    unfold Valid
    rw [List.forall₂_map_right_iff]
    clear h
    induction l generalizing dims with
    | nil => cases dims <;> simp
    | cons x l ih =>
      cases dims with
      | nil => simp
      | cons d dims =>
        simp only [List.forall₂_cons, List.length_cons, List.mem_cons, forall_eq_or_imp]
        rw [ih dims]
        simp only [Nat.add_right_cancel_iff]
        tauto
  · rw [length_stateLabels]
    simp

example : stateLabels [2, 3] = [[0, 0], [0, 1], [0, 2], [1, 0], [1, 1], [1, 2]] := by decide
example : getStateIndex [2, 3] [1, 1] = some 4 := by decide
example : getStateIndex [2, 3] [1, 3] = none := by decide
example : Valid [2, 3] [1, 2] := by unfold Valid; simp

end C3.Hilbert
