import Mathlib.Data.Matrix.Mul
import Mathlib.Data.Complex.Basic
import Mathlib.Analysis.Complex.Norm
import Mathlib.Algebra.BigOperators.Fin
import Mathlib.Algebra.BigOperators.Ring.Finset
import Mathlib.Tactic.Linarith
import Mathlib.Tactic.FinCases

/-!
# C217: Small helpers

`tf_abs_squared`, `tf_abs`, `tf_ave`, `tf_diff` (c3/utils/tf_utils.py:204-233), `ask_yn` (c3/utils/utils.py:109-127) and
`jsonify_list` (c3/c3objs.py:353-377).

Simplified: floats are reals; the values `jsonify_list` converts are trees of the kinds it distinguishes.
-/

noncomputable section

namespace C3.Utils.Small

open Finset

/-! ## Model -/

/-- c3/utils/tf_utils.py:204-206 `tf_abs_squared`: `conj(x) * x`, reshaped to `[1]`, of a tensor given by its entries;
`none` is the exception of `reshape` for another number of entries. -/
def absSquared (x : List ℂ) : Option (List ℝ) :=
  if x.length = 1 then some (x.map fun z => (starRingEnd ℂ z * z).re) else none

/-- c3/utils/tf_utils.py:213-216 `tf_abs`. -/
def tfAbs (x : List ℂ) : Option (List ℝ) := (absSquared x).map fun l => l.map Real.sqrt

/-- c3/utils/tf_utils.py:219-221 `tf_ave` of a list of values; `add_n` raises for an empty list. -/
def ave (x : List ℝ) : Option ℝ := if x = [] then none else some (x.sum / x.length)

/-- c3/utils/tf_utils.py:229-232: the matrix of `tf_diff` for `dim + 1` entries: `-1` on the diagonal except for the last
entry, `1` above it. -/
def proj (dim : ℕ) : Matrix (Fin (dim + 1)) (Fin (dim + 1)) ℝ := fun i j =>
  (if i = j then (if (i : ℕ) < dim then -1 else 0) else 0) + (if (j : ℕ) = i + 1 then 1 else 0)

/-- c3/utils/tf_utils.py:224-233 `tf_diff` of a vector with at least one entry. -/
def diff {dim : ℕ} (l : Fin (dim + 1) → ℝ) : Fin (dim + 1) → ℝ := (proj dim).mulVec l

/-- c3/utils/utils.py:109-127 `ask_yn` on the lines typed so far: the answer, or `none` while still asking. -/
def askYn : List String → Option Bool
  | [] => none
  | t :: ts => if t = "y" then some true else if t = "n" then some false else askYn ts

/-- The values `jsonify_list` distinguishes. Arrays (and tensors) are given by what `tolist` returns; objects by what
`asdict` returns; anything else (numbers, strings, ...) is left alone. -/
inductive Data where
  | none
  | scalar (n : ℕ)
  | list (l : List Data)
  | tuple (l : List Data)
  | dict (l : List (String × Data))
  | array (l : List ℕ)
  | obj (l : List (String × ℕ))

mutual
/-- c3/c3objs.py:353-377 `jsonify_list`. The recursive calls do not pass `transform_arrays` on. -/
def jsonify (transform : Bool) : Data → Data
  | .none => .none
  | .scalar n => .scalar n
  | .dict l => .dict (jsonDict l)
  | .list l => .list (jsonList l)
  | .tuple l => .tuple (jsonList l)
  | .array a => if transform then .list (a.map .scalar) else .array a
  | .obj d => .dict (d.map fun kv => (kv.1, .scalar kv.2))
/-- The items of a list. -/
def jsonList : List Data → List Data
  | [] => []
  | x :: l => jsonify true x :: jsonList l
/-- The items of a dictionary. -/
def jsonDict : List (String × Data) → List (String × Data)
  | [] => []
  | x :: l => (x.1, jsonify true x.2) :: jsonDict l
end

/-! ## Specification -/

mutual
/-- Only lists, tuples, dictionaries, `None` and scalars, at every depth. -/
def Plain : Data → Prop
  | .none => True
  | .scalar _ => True
  | .dict l => PlainDict l
  | .list l => PlainList l
  | .tuple l => PlainList l
  | .array _ => False
  | .obj _ => False
/-- All items are plain. -/
def PlainList : List Data → Prop
  | [] => True
  | x :: l => Plain x ∧ PlainList l
/-- All items are plain. -/
def PlainDict : List (String × Data) → Prop
  | [] => True
  | x :: l => Plain x.2 ∧ PlainDict l
end

/-! ## C217 -/

/-- **C217**, `tf_abs_squared` and `tf_abs`: for one number the squared modulus and the modulus; other tensors raise. -/
theorem C217_abs (x : List ℂ) :
    (∀ z, x = [z] → absSquared x = some [‖z‖ ^ 2] ∧ tfAbs x = some [‖z‖]) ∧
    (x.length ≠ 1 → absSquared x = none ∧ tfAbs x = none) := by
  constructor
  · rintro z rfl
    have h : (starRingEnd ℂ z * z).re = ‖z‖ ^ 2 := by
      rw [mul_comm, Complex.mul_conj, Complex.ofReal_re, Complex.normSq_eq_norm_sq]
    have h1 : absSquared [z] = some [‖z‖ ^ 2] := by
      unfold absSquared
      rw [if_pos (by simp), List.map_cons, List.map_nil, h]
    refine ⟨h1, ?_⟩
    rw [tfAbs, h1, Option.map_some, List.map_cons, List.map_nil, Real.sqrt_sq (norm_nonneg z)]
  · intro h
    simp [absSquared, tfAbs, h]

/-- **C217**, `tf_ave`: the mean; it lies between any bounds of the values. An empty list raises. -/
theorem C217_ave (x : List ℝ) :
    (x = [] → ave x = none) ∧ (x ≠ [] → ∃ a, ave x = some a ∧ a * x.length = x.sum ∧
      ∀ lo hi, (∀ v ∈ x, lo ≤ v ∧ v ≤ hi) → lo ≤ a ∧ a ≤ hi) := by
  refine ⟨fun h => by simp [ave, h], fun h => ⟨x.sum / x.length, by simp [ave, h], ?_, ?_⟩⟩
  · have : (x.length : ℝ) ≠ 0 := by
      simpa using h
    field_simp
  · intro lo hi hb
    have hp : (0 : ℝ) < x.length := by
      have := List.length_pos_of_ne_nil h
      exact_mod_cast this
    have h1 := List.card_nsmul_le_sum x lo fun v hv => (hb v hv).1
    have h2 := List.sum_le_card_nsmul x hi fun v hv => (hb v hv).2
    rw [nsmul_eq_mul] at h1 h2
    constructor
    · rw [le_div_iff₀ hp]; linarith
    · rw [div_le_iff₀ hp]; linarith

/-- **C217**, `tf_diff`: the differences of neighbours and a zero at the end, in the shape of the input. -/
theorem C217_diff {dim : ℕ} (l : Fin (dim + 1) → ℝ) :
    (∀ i : Fin dim, diff l i.castSucc = l i.succ - l i.castSucc) ∧ diff l (Fin.last dim) = 0 := by
  have key : ∀ i, diff l i = (if (i : ℕ) < dim then -1 else 0) * l i +
      ∑ j : Fin (dim + 1), (if (j : ℕ) = i + 1 then 1 else 0) * l j := by
    intro i
    have : ∀ j, proj dim i j * l j = (if i = j then (if (i : ℕ) < dim then -1 else 0) * l i else 0) +
        (if (j : ℕ) = i + 1 then 1 else 0) * l j := by
      intro j
      unfold proj
      by_cases h : i = j
      · subst h
        simp
      · simp [h]
    unfold diff Matrix.mulVec dotProduct
    rw [Finset.sum_congr rfl fun j _ => this j, Finset.sum_add_distrib]
    simp
  constructor
  · intro i
    rw [key, Finset.sum_eq_single i.succ]
    · simp
      ring
    · intro j _ hj
      have : (j : ℕ) ≠ (i.castSucc : ℕ) + 1 := by
        intro e
        apply hj
        ext
        simpa using e
      rw [if_neg this, zero_mul]
    · simp
  · rw [key]
    have : ∀ j : Fin (dim + 1), (j : ℕ) ≠ (Fin.last dim : ℕ) + 1 := by
      intro j e
      have := j.2
      simp at e
      omega
    rw [Finset.sum_eq_zero fun j _ => by rw [if_neg (this j), zero_mul]]
    simp

/-- **C217**, `tf_diff` telescopes: the differences add up to the last entry minus the first one. -/
theorem C217_diff_sum {dim : ℕ} (l : Fin (dim + 1) → ℝ) : ∑ i, diff l i = l (Fin.last dim) - l 0 := by
  obtain ⟨h1, h2⟩ := C217_diff l
  rw [Fin.sum_univ_castSucc, h2, add_zero, Finset.sum_congr rfl fun i _ => h1 i]
  have ha := Fin.sum_univ_succ l
  have hb := Fin.sum_univ_castSucc l
  rw [Finset.sum_sub_distrib]
  linarith

/-- **C217**, `ask_yn`: the answer is the first line that is `y` or `n`; lines before it are ignored and the question is
asked until there is one. -/
theorem C217_ask (ts : List String) (b : Bool) :
    askYn ts = some b ↔ ∃ pre post, ts = pre ++ (if b then "y" else "n") :: post ∧ ∀ t ∈ pre, t ≠ "y" ∧ t ≠ "n" := by
  induction ts with
  | nil => simp [askYn]
  | cons t ts ih =>
    unfold askYn
    by_cases hy : t = "y"
    · rw [if_pos hy]
      constructor
      · intro h
        cases h
        exact ⟨[], ts, by simp [hy], by simp⟩
      · rintro ⟨pre, post, e, hp⟩
        cases pre with
        | nil =>
          cases b with
          | true => rfl
          | false =>
            simp only [List.nil_append, List.cons.injEq] at e
            exact absurd (hy.symm.trans e.1) (by decide)
        | cons p pre =>
          simp only [List.cons_append, List.cons.injEq] at e
          exact absurd (e.1.symm.trans hy) (hp p List.mem_cons_self).1
    · rw [if_neg hy]
      by_cases hn : t = "n"
      · rw [if_pos hn]
        constructor
        · intro h
          cases h
          exact ⟨[], ts, by simp [hn], by simp⟩
        · rintro ⟨pre, post, e, hp⟩
          cases pre with
          | nil =>
            cases b with
            | false => rfl
            | true =>
              simp only [List.nil_append, List.cons.injEq] at e
              exact absurd (hn.symm.trans e.1) (by decide)
          | cons p pre =>
            simp only [List.cons_append, List.cons.injEq] at e
            exact absurd (e.1.symm.trans hn) (hp p List.mem_cons_self).2
      · rw [if_neg hn, ih]
        constructor
        · rintro ⟨pre, post, e, hp⟩
          refine ⟨t :: pre, post, by rw [e]; rfl, ?_⟩
          intro x hx
          rcases List.mem_cons.1 hx with rfl | hx
          · exact ⟨hy, hn⟩
          · exact hp x hx
        · rintro ⟨pre, post, e, hp⟩
          cases pre with
          | nil =>
            simp only [List.nil_append, List.cons.injEq] at e
            cases b with
            | true => exact absurd e.1 hy
            | false => exact absurd e.1 hn
          | cons p pre =>
            simp only [List.cons_append, List.cons.injEq] at e
            exact ⟨pre, post, e.2, fun x hx => hp x (List.mem_cons_of_mem _ hx)⟩

theorem plain_scalars (a : List ℕ) : PlainList (a.map .scalar) := by
  induction a with
  | nil => exact trivial
  | cons x a ih => exact ⟨trivial, ih⟩

theorem plain_obj (d : List (String × ℕ)) : PlainDict (d.map fun kv => (kv.1, .scalar kv.2)) := by
  induction d with
  | nil => exact trivial
  | cons x a ih => exact ⟨trivial, ih⟩

mutual
theorem jsonify_plain : ∀ d : Data, Plain (jsonify true d)
  | .none => trivial
  | .scalar _ => trivial
  | .dict l => jsonDict_plain l
  | .list l => jsonList_plain l
  | .tuple l => jsonList_plain l
  | .array a => by
    rw [jsonify, if_pos rfl]
    exact plain_scalars a
  | .obj d => plain_obj d
theorem jsonList_plain : ∀ l : List Data, PlainList (jsonList l)
  | [] => trivial
  | x :: l => ⟨jsonify_plain x, jsonList_plain l⟩
theorem jsonDict_plain : ∀ l : List (String × Data), PlainDict (jsonDict l)
  | [] => trivial
  | x :: l => ⟨jsonify_plain x.2, jsonDict_plain l⟩
end

mutual
theorem plain_fixed : ∀ (b : Bool) (d : Data), Plain d → jsonify b d = d
  | _, .none, _ => rfl
  | _, .scalar _, _ => rfl
  | _, .dict l, h => by rw [jsonify, plainDict_fixed l h]
  | _, .list l, h => by rw [jsonify, plainList_fixed l h]
  | _, .tuple l, h => by rw [jsonify, plainList_fixed l h]
  | _, .array _, h => h.elim
  | _, .obj _, h => h.elim
theorem plainList_fixed : ∀ l : List Data, PlainList l → jsonList l = l
  | [], _ => rfl
  | x :: l, h => by rw [jsonList, plain_fixed true x h.1, plainList_fixed l h.2]
theorem plainDict_fixed : ∀ l : List (String × Data), PlainDict l → jsonDict l = l
  | [], _ => rfl
  | x :: l, h => by rw [jsonDict, plain_fixed true x.2 h.1, plainDict_fixed l h.2]
end

/-- **C217**, `jsonify_list`: the result has no arrays, tensors or objects at any depth, data that has none is
unchanged, and converting twice is converting once. -/
theorem C217_jsonify (d : Data) :
    Plain (jsonify true d) ∧ (Plain d → jsonify true d = d) ∧ jsonify true (jsonify true d) = jsonify true d :=
  ⟨jsonify_plain d, plain_fixed true d, plain_fixed true _ (jsonify_plain d)⟩

/-- With `transform_arrays=False` an array is left alone if it is the argument itself ... -/
theorem C217_keep_partial (a : List ℕ) : jsonify false (.array a) = .array a := rfl

/-- ... but the claim that it leaves arrays alone is false: inside of lists, tuples and dictionaries they are converted
all the same. -/
theorem C217_false_keep (a : List ℕ) (k : String) :
    jsonify false (.list [.array a]) = .list [.list (a.map .scalar)] ∧
      jsonify false (.dict [(k, .array a)]) = .dict [(k, .list (a.map .scalar))] := by
  constructor <;> simp [jsonify, jsonList, jsonDict]

/-! ## Examples -/

example : diff ![1, 4, 9] 0 = 3 ∧ diff ![1, 4, 9] 1 = 5 ∧ diff ![1, 4, 9] 2 = 0 := by
  obtain ⟨h1, h2⟩ := C217_diff ![1, 4, 9]
  refine ⟨?_, ?_, h2⟩
  · have := h1 0
    norm_num at this
    exact this
  · have h := h1 1
    have e : diff ![1, 4, 9] 1 = 9 - 4 := h
    rw [e]
    norm_num

example : askYn ["maybe", "", "n", "y"] = some false := by decide

example : ave [1, 2, 6] = some 3 := by simp [ave]; norm_num

end C3.Utils.Small
