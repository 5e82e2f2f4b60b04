import Mathlib.Analysis.SpecialFunctions.Log.Base
import Mathlib.Analysis.SpecialFunctions.Pow.Real
import Mathlib.Tactic.Ring
import Mathlib.Tactic.Linarith
import Mathlib.Tactic.NormNum
import Mathlib.Tactic.FieldSimp
import Mathlib.Tactic.Positivity

/-!
# C85, C86: flattening of nested lists and engineering notation

Models c3/utils/utils.py:68-93 (`eng_num`) and 163-190 (`flatten`).

Simplified: numbers are real, so `np.log10` and `10 **` are exact; arrays and NaN are not modelled.
-/

namespace C3.Utils

/-! ## flatten -/

/-- A nested list: anything that is not a list or tuple is a leaf. -/
inductive Tree (α : Type) where
  | leaf : α → Tree α
  | node : List (Tree α) → Tree α

variable {α : Type}

/-- One turn of the loops of c3/utils/utils.py:182-190 on the list and the index. An empty list at the index is
removed (`i -= 1`, `break`, `i += 1` leave the index), another list is spliced in place, a leaf is passed. `none`
when the outer loop ends. -/
def flattenStep (s : List (Tree α) × ℕ) : Option (List (Tree α) × ℕ) :=
  match s.1[s.2]? with
  | none => none
  | some (.leaf _) => some (s.1, s.2 + 1)
  | some (.node []) => some (s.1.take s.2 ++ s.1.drop (s.2 + 1), s.2)
  | some (.node l) => some (s.1.take s.2 ++ l ++ s.1.drop (s.2 + 1), s.2)

/-- The loop with at most `n` turns; `none` if it has not ended by then. -/
def flattenRun : ℕ → List (Tree α) × ℕ → Option (List (Tree α))
  | 0, _ => none
  | n + 1, s => match flattenStep s with
    | none => some s.1
    | some s' => flattenRun n s'

mutual
/-- The leaves from left to right. -/
def leaves : Tree α → List α
  | .leaf a => [a]
  | .node l => leavesL l
def leavesL : List (Tree α) → List α
  | [] => []
  | t :: l => leaves t ++ leavesL l
end

mutual
/-- Number of turns a tree takes. -/
def size : Tree α → ℕ
  | .leaf _ => 1
  | .node l => 1 + sizeL l
def sizeL : List (Tree α) → ℕ
  | [] => 0
  | t :: l => size t + sizeL l
end

theorem leavesL_append (a b : List (Tree α)) : leavesL (a ++ b) = leavesL a ++ leavesL b := by
  induction a with
  | nil => simp [leavesL]
  | cons t a ih => simp [leavesL, ih]

theorem sizeL_append (a b : List (Tree α)) : sizeL (a ++ b) = sizeL a + sizeL b := by
  induction a with
  | nil => simp [sizeL]
  | cons t a ih => simp only [List.cons_append, sizeL, ih]; omega

theorem flattenRun_spec (n : ℕ) : ∀ (pre : List α) (rest : List (Tree α)), sizeL rest < n →
    flattenRun n (pre.map .leaf ++ rest, pre.length) = some ((pre ++ leavesL rest).map .leaf) := by
  induction n with
  | zero => intro pre rest h; omega
  | succ n ih =>
    intro pre rest h
    have hget : (pre.map Tree.leaf ++ rest)[pre.length]? = rest[0]? := by
      rw [List.getElem?_append_right (by simp)]; simp
    have htake : (pre.map (Tree.leaf (α := α)) ++ rest).take pre.length = pre.map .leaf := by
      rw [List.take_append_of_le_length (by simp), List.take_of_length_le (by simp)]
    have hdrop : (pre.map (Tree.leaf (α := α)) ++ rest).drop (pre.length + 1) = rest.drop 1 := by
      rw [List.drop_append]
      simp
    cases rest with
    | nil => simp [flattenRun, flattenStep, leavesL]
    | cons t rest =>
      cases t with
      | leaf a =>
        have h' : sizeL rest < n := by simp only [sizeL, size] at h; omega
        have := ih (pre ++ [a]) rest h'
        simp only [flattenRun, flattenStep, hget]
        simp only [List.map_append, List.map_cons, List.map_nil, List.append_assoc, List.cons_append,
          List.nil_append, List.length_append, List.length_cons, List.length_nil] at this
        simp only [List.getElem?_cons_zero]
        rw [show pre.length + 1 = pre.length + (0 + 1) by rfl, this]
        simp [leavesL, leaves]
      | node l =>
        cases l with
        | nil =>
          have h' : sizeL rest < n := by simp only [sizeL, size] at h; omega
          simp only [flattenRun, flattenStep, hget, List.getElem?_cons_zero, htake, hdrop, List.drop_succ_cons,
            List.drop_zero]
          rw [ih pre rest h']
          simp [leavesL, leaves]
        | cons x l =>
          have h' : sizeL (x :: l ++ rest) < n := by
            rw [sizeL_append]; simp only [sizeL, size] at h ⊢; omega
          simp only [flattenRun, flattenStep, hget, List.getElem?_cons_zero, htake, hdrop, List.drop_succ_cons,
            List.drop_zero, List.append_assoc]
          rw [ih pre (x :: l ++ rest) h', leavesL_append]
          simp [leavesL, leaves]

/-- C85: for every nested list the loop of `flatten` ends, and the list it leaves is the list of the leaves from
left to right. -/
theorem C85_flatten (l : List (Tree α)) :
    ∃ n, ∀ m, n ≤ m → flattenRun m (l, 0) = some ((leavesL l).map .leaf) := by
  refine ⟨sizeL l + 1, fun m hm => ?_⟩
  have := flattenRun_spec m [] l (by omega)
  simpa using this

theorem leavesL_leaf (l : List α) : leavesL (l.map (Tree.leaf (α := α))) = l := by
  induction l with
  | nil => simp [leavesL]
  | cons a l ih => simp only [List.map_cons, leavesL, leaves, List.cons_append, List.nil_append, ih]

/-- The leaves of a list of leaves are its entries, so a flat list is unchanged and flattening twice is flattening
once. -/
theorem C85_idempotent (l : List α) : ∃ n, ∀ m, n ≤ m → flattenRun m (l.map .leaf, 0) = some (l.map .leaf) := by
  obtain ⟨n, h⟩ := C85_flatten (l.map (Tree.leaf (α := α)))
  exact ⟨n, fun m hm => by rw [h m hm, leavesL_leaf]⟩

/-- `[[], [1, [2]], [[]], 3]` flattens to `[1, 2, 3]`. -/
example : flattenRun 20 ([Tree.node [], .node [.leaf 1, .node [.leaf 2]], .node [.node []], .leaf 3], 0) =
    some [Tree.leaf 1, .leaf 2, .leaf 3] := rfl

/-! ## eng_num -/

def bigUnits : List String := ["", "K", "M", "G", "T", "P", "E", "Z"]
def smallUnits : List String := ["m", "µ", "n", "p", "f", "a", "z"]

open scoped Classical in
/-- c3/utils/utils.py:68-93 `eng_num` for a single number. -/
noncomputable def engNum (val : ℝ) : ℝ × String :=
  if val = 0 then (0, "")
  else
    let sign : ℝ := if val < 0 then -1 else 1
    let v := |val|
    let tmp := Real.logb 10 v
    let idx : ℤ := ⌊tmp / 3⌋
    if tmp < 0 then
      if idx.natAbs > smallUnits.length then (v * 10 ^ (3 * smallUnits.length), smallUnits.getLastD "")
      else (sign * (10 : ℝ) ^ (tmp - 3 * (idx : ℝ)), smallUnits.getD (-(idx + 1)).toNat "")
    else
      if idx.natAbs > bigUnits.length - 1 then (v / 10 ^ (3 * (bigUnits.length - 1)), bigUnits.getLastD "")
      else (sign * (10 : ℝ) ^ (tmp - 3 * (idx : ℝ)), bigUnits.getD idx.toNat "")

/-- The power of ten a prefix stands for. -/
def prefixExp : String → Option ℤ
  | "" => some 0
  | "K" => some 3
  | "M" => some 6
  | "G" => some 9
  | "T" => some 12
  | "P" => some 15
  | "E" => some 18
  | "Z" => some 21
  | "m" => some (-3)
  | "µ" => some (-6)
  | "n" => some (-9)
  | "p" => some (-12)
  | "f" => some (-15)
  | "a" => some (-18)
  | "z" => some (-21)
  | _ => none

theorem prefix_big : ∀ n : Fin 8, prefixExp (bigUnits.getD n.1 "") = some (3 * (n.1 : ℤ)) := by decide
theorem prefix_small : ∀ n : Fin 7, prefixExp (smallUnits.getD n.1 "") = some (-3 * ((n.1 : ℤ) + 1)) := by decide

/-- Magnitudes with a prefix of their own. -/
def InTable (val : ℝ) : Prop := (10 : ℝ) ^ (-21 : ℤ) ≤ |val| ∧ |val| < (10 : ℝ) ^ (24 : ℤ)

theorem idx_bounds (v : ℝ) (hv : 0 < v) (k : ℤ) (hk : ⌊Real.logb 10 v / 3⌋ = k) :
    (10 : ℝ) ^ (3 * k) ≤ v ∧ v < (10 : ℝ) ^ (3 * k + 3) ∧
      (10 : ℝ) ^ (Real.logb 10 v - 3 * (k : ℝ)) = v / (10 : ℝ) ^ (3 * k) := by
  have h10 : (1 : ℝ) < 10 := by norm_num
  obtain ⟨h1, h2⟩ := Int.floor_eq_iff.1 hk
  rw [le_div_iff₀ (by norm_num)] at h1
  rw [div_lt_iff₀ (by norm_num)] at h2
  refine ⟨?_, ?_, ?_⟩
  · rw [← Real.rpow_intCast, ← Real.le_logb_iff_rpow_le h10 hv]
    push_cast; linarith
  · rw [← Real.rpow_intCast, ← Real.logb_lt_iff_lt_rpow h10 hv]
    push_cast; linarith
  · rw [Real.rpow_sub (by norm_num), Real.rpow_logb (by norm_num) (by norm_num) hv, ← Real.rpow_intCast]
    push_cast; rfl

/-- C86: for every number the prefix is a known one, and mantissa times prefix is the number, unless the number is
negative and beyond the table; inside the table the mantissa is between 1 and 1000 in magnitude. Missing: the
sign of negative numbers beyond the table, see `C86_sign_false`. -/
theorem C86_engNum_partial (val : ℝ) (h0 : val ≠ 0) :
    ∃ e : ℤ, prefixExp (engNum val).2 = some e ∧
      (0 < val ∨ InTable val → (engNum val).1 * (10 : ℝ) ^ e = val) ∧
      (InTable val → 1 ≤ |(engNum val).1| ∧ |(engNum val).1| < 1000) := by
  have hv : 0 < |val| := abs_pos.2 h0
  have h10 : (1 : ℝ) < 10 := by norm_num
  have hsign : (if val < 0 then (-1 : ℝ) else 1) * |val| = val := by
    split
    · rw [abs_of_neg (by assumption)]; ring
    · rw [abs_of_nonneg (by linarith)]; ring
  have hsabs : |(if val < 0 then (-1 : ℝ) else 1)| = 1 := by split <;> simp
  obtain ⟨b1, b2, b3⟩ := idx_bounds |val| hv _ rfl
  unfold engNum
  rw [if_neg h0]
  simp only
  set k := ⌊Real.logb 10 |val| / 3⌋ with hk
  set sg := (if val < 0 then (-1 : ℝ) else 1) with hsg
  have hp : (0 : ℝ) < (10 : ℝ) ^ (3 * k) := by positivity
  have hmain : sg * (10 : ℝ) ^ (Real.logb 10 |val| - 3 * (k : ℝ)) * (10 : ℝ) ^ (3 * k) = val := by
    rw [b3, mul_assoc, div_mul_cancel₀ _ hp.ne', hsign]
  have hman : 1 ≤ |sg * (10 : ℝ) ^ (Real.logb 10 |val| - 3 * (k : ℝ))| ∧
      |sg * (10 : ℝ) ^ (Real.logb 10 |val| - 3 * (k : ℝ))| < 1000 := by
    rw [abs_mul, hsabs, one_mul, b3, abs_of_pos (by positivity)]
    constructor
    · rw [le_div_iff₀ hp]; linarith
    · rw [div_lt_iff₀ hp]
      rw [zpow_add₀ (by norm_num)] at b2
      norm_num at b2 ⊢
      linarith
  have htab : InTable val → -7 ≤ k ∧ k ≤ 7 := by
    rintro ⟨h1, h2⟩
    constructor
    · have : (10 : ℝ) ^ (-21 : ℤ) < (10 : ℝ) ^ (3 * k + 3) := lt_of_le_of_lt h1 b2
      have := (zpow_lt_zpow_iff_right₀ h10).1 this
      omega
    · have : (10 : ℝ) ^ (3 * k) < (10 : ℝ) ^ (24 : ℤ) := lt_of_le_of_lt b1 h2
      have := (zpow_lt_zpow_iff_right₀ h10).1 this
      omega
  by_cases ht : Real.logb 10 |val| < 0
  · rw [if_pos ht]
    have hk0 : k < 0 := by
      rw [hk, Int.floor_lt]
      push_cast
      exact div_neg_of_neg_of_pos ht (by norm_num)
    by_cases hl : k.natAbs > smallUnits.length
    · rw [if_pos hl]
      have hl' : k.natAbs > 7 := hl
      refine ⟨-21, rfl, ?_, fun h => absurd (htab h).1 (by omega)⟩
      rintro (h | h)
      · simp only [smallUnits, List.length_cons, List.length_nil]
        rw [abs_of_pos h, mul_assoc]
        norm_num
      · exact absurd (htab h).1 (by omega)
    · rw [if_neg hl]
      have hl' : ¬ k.natAbs > 7 := hl
      have hpre := prefix_small ⟨(-(k + 1)).toNat, by omega⟩
      have he : -3 * (((-(k + 1)).toNat : ℤ) + 1) = 3 * k := by omega
      simp only at hpre
      rw [he] at hpre
      exact ⟨3 * k, hpre, fun _ => hmain, fun _ => hman⟩
  · rw [if_neg ht]
    push Not at ht
    have hk0 : 0 ≤ k := by
      rw [hk, Int.floor_nonneg]
      exact div_nonneg ht (by norm_num)
    by_cases hl : k.natAbs > bigUnits.length - 1
    · rw [if_pos hl]
      have hl' : k.natAbs > 7 := hl
      refine ⟨21, rfl, ?_, fun h => absurd (htab h).2 (by omega)⟩
      rintro (h | h)
      · simp only [bigUnits, List.length_cons, List.length_nil]
        rw [abs_of_pos h]
        norm_num
      · exact absurd (htab h).2 (by omega)
    · rw [if_neg hl]
      have hl' : ¬ k.natAbs > 7 := hl
      have hpre := prefix_big ⟨k.toNat, by omega⟩
      have he : 3 * ((k.toNat : ℕ) : ℤ) = 3 * k := by omega
      simp only at hpre
      rw [he] at hpre
      exact ⟨3 * k, hpre, fun _ => hmain, fun _ => hman⟩

example : InTable (-5000) := by
  constructor
  · norm_num
  · norm_num

/-- Zero is printed as zero. -/
theorem C86_zero : engNum 0 = (0, "") := by simp [engNum]

/-- A negative number beyond the table loses its sign. -/
theorem C86_sign_false : engNum (-10 ^ 24) = (10 ^ 3, "Z") := by
  have h1 : |(-10 ^ 24 : ℝ)| = 10 ^ 24 := by norm_num
  have h2 : Real.logb 10 (10 ^ 24 : ℝ) = 24 := by
    rw [Real.logb_pow]; norm_num
  unfold engNum
  rw [if_neg (by norm_num)]
  simp only [h1, h2]
  have h3 : ⌊(24 : ℝ) / 3⌋ = 8 := by norm_num
  rw [h3, if_neg (by norm_num), if_pos (by decide)]
  simp [bigUnits]
  norm_num

end C3.Utils
