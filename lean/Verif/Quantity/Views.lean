import Verif.Quantity.Model
import Mathlib.Tactic.Ring
import Mathlib.Tactic.FieldSimp
import Mathlib.Tactic.NormNum
import Mathlib.Tactic.Positivity
import Mathlib.Analysis.Real.Pi.Bounds

/-!
# Views of a quantity (C172)

Model of `Quantity.tolist` (c3/c3objs.py:123-128), the comparisons (c3/c3objs.py:185-201), `__array__`,
`__len__`, `__getitem__` and `__float__` (c3/c3objs.py:203-217). Other modules only need the flattened
entries of a quantity; here its shape matters, so a quantity is given together with it. Comparisons are
with numbers.
-/

namespace C3.Quantity.Views

open C3.Quantity

noncomputable section

/-! ## Model -/

/-- What `numpy` hands out: a number or a list of such. -/
inductive Py where
  | num (x : ℝ)
  | list (l : List Py)

/-- `n` consecutive blocks of length `k`. -/
def chunks (k : ℕ) : ℕ → List ℝ → List (List ℝ)
  | 0, _ => []
  | n + 1, l => l.take k :: chunks k n (l.drop k)

/-- An array of the given shape with the given entries in row-major order, as nested lists. -/
def nest : List ℕ → List ℝ → Py
  | [], l => .num (l.headD 0)
  | n :: s, l => .list ((chunks s.prod n l).map (nest s))

/-- A quantity with its shape (c3/c3objs.py:82-88). -/
structure Shaped where
  q : Quantity
  shape : List ℕ
  size : q.value.length = shape.prod
  len : q.length = shape.prod

/-- c3/c3objs.py:123-128 `tolist`. -/
def tolist (s : Shaped) : Py :=
  if s.q.length > 1 then nest s.shape s.q.getValue else .list [nest s.shape s.q.getValue]

/-- c3/c3objs.py:203-204 `__array__`. -/
def array (s : Shaped) : Py := nest s.shape s.q.numpy

/-- c3/c3objs.py:206-207 `__len__`. -/
def len (s : Shaped) : ℕ := s.q.length

/-- Indexing of `numpy` with an integer: negative indices count from the end; scalars cannot be indexed. -/
def npItem : Py → ℤ → Option Py
  | .num _, _ => none
  | .list l, i =>
    if 0 ≤ i then l[i.toNat]? else if -(l.length : ℤ) ≤ i then l[(i + l.length).toNat]? else none

/-- c3/c3objs.py:209-212 `__getitem__` with an integer key. -/
def getitem (s : Shaped) (i : ℤ) : Option Py :=
  if s.q.length = 1 ∧ i = 0 then some (array s) else npItem (array s) i

/-- c3/c3objs.py:214-217 `__float__`: `NotImplementedError` for more than one entry; `numpy` turns an array
with one entry into a number, whatever its shape, and refuses an empty one. -/
def float (s : Shaped) : Option ℝ := if s.q.length > 1 then none else s.q.numpy.head?

/-- c3/c3objs.py:185-201: `<`, `<=`, `==`, `!=`, `>=`, `>` with a number, entry by entry. -/
def compare (s : Shaped) (r : ℝ → ℝ → Prop) (x : ℝ) : List Prop := s.q.getValue.map fun v => r v x

/-- Iterating over an object without `__iter__`: keys 0, 1, … until one is refused. -/
def iterate (s : Shaped) : ℕ → ℕ → List Py
  | 0, _ => []
  | fuel + 1, i =>
    match getitem s i with
    | none => []
    | some v => v :: iterate s fuel (i + 1)

/-! ## Specification -/

mutual
/-- All numbers of a nested list in order. -/
def flat : Py → List ℝ
  | .num x => [x]
  | .list l => flats l
/-- All numbers of several nested lists. -/
def flats : List Py → List ℝ
  | [] => []
  | p :: ps => flat p ++ flats ps
end

/-- The entries in the unit of the quantity. -/
def entries (s : Shaped) : List ℝ := s.q.numpy

/-! ## Lemmas -/

theorem flats_map (f : List ℝ → Py) (ls : List (List ℝ)) (h : ∀ l ∈ ls, flat (f l) = l) :
    flats (ls.map f) = ls.flatten := by
  induction ls with
  | nil => simp [flats]
  | cons l ls ih =>
    simp only [List.map_cons, flats, List.flatten_cons]
    rw [h l (by simp), ih fun l hl => h l (by simp [hl])]

theorem chunks_spec (k n : ℕ) (l : List ℝ) (h : l.length = n * k) :
    (chunks k n l).flatten = l ∧ (∀ c ∈ chunks k n l, c.length = k) ∧ (chunks k n l).length = n := by
  induction n generalizing l with
  | zero =>
    have : l = [] := by
      apply List.eq_nil_of_length_eq_zero; simpa using h
    simp [chunks, this]
  | succ n ih =>
    have h1 : (l.drop k).length = n * k := by
      rw [List.length_drop, h, Nat.succ_mul]; omega
    obtain ⟨a, b, c⟩ := ih _ h1
    refine ⟨by simp [chunks, a], ?_, by simp [chunks, c]⟩
    intro x hx
    simp only [chunks, List.mem_cons] at hx
    rcases hx with rfl | hx
    · rw [List.length_take, h, Nat.succ_mul]; omega
    · exact b x hx

/-- Nesting loses nothing. -/
theorem flat_nest (s : List ℕ) (l : List ℝ) (h : l.length = s.prod) : flat (nest s l) = l := by
  induction s generalizing l with
  | nil =>
    obtain ⟨x, rfl⟩ := List.length_eq_one_iff.1 (by simpa using h)
    simp [nest, flat]
  | cons n s ih =>
    obtain ⟨a, b, _⟩ := chunks_spec s.prod n l (by simpa using h)
    simp only [nest, flat]
    rw [flats_map _ _ fun c hc => ih c (b c hc), a]

theorem chunks_one (l : List ℝ) : chunks 1 l.length l = l.map fun x => [x] := by
  induction l with
  | nil => rfl
  | cons x l ih => simp [chunks, ih]

theorem nest_vector (n : ℕ) (l : List ℝ) (h : l.length = n) : nest [n] l = .list (l.map .num) := by
  subst h
  simp [nest, chunks_one, List.map_map, Function.comp_def]

theorem numpy_length (s : Shaped) : s.q.numpy.length = s.shape.prod := by
  simp [numpy, getValue, s.size]

theorem getValue_length (s : Shaped) : s.q.getValue.length = s.shape.prod := by
  simp [getValue, s.size]

/-! ## C172 -/

/-- The array view holds exactly the entries, and its row-major order is that of the quantity; the number of
entries is what `len` reports. -/
theorem C172_array (s : Shaped) : flat (array s) = entries s ∧ (entries s).length = len s :=
  ⟨flat_nest _ _ (numpy_length s), by rw [entries, numpy_length, len, s.len]⟩

/-- `tolist` always is a list; its entries are those of the array view times the factor of the unit. -/
theorem C172_tolist (s : Shaped) (hp : s.q.pref ≠ 0) :
    (∃ l, tolist s = .list l) ∧ flat (tolist s) = (entries s).map fun x => x * s.q.pref := by
  have e : ((entries s).map fun x => x * s.q.pref) = s.q.getValue := by
    simp only [entries, numpy, List.map_map]
    conv_rhs => rw [← List.map_id s.q.getValue]
    apply List.map_congr_left
    intro x _
    simp [hp]
  rw [e]
  unfold tolist
  split
  · rename_i h
    refine ⟨?_, flat_nest _ _ (getValue_length s)⟩
    rw [s.len] at h
    cases hs : s.shape with
    | nil => rw [hs] at h; simp at h
    | cons n t => exact ⟨_, rfl⟩
  · exact ⟨⟨_, rfl⟩, by simp [flat, flats, flat_nest _ _ (getValue_length s)]⟩

/-- A vector with at least two entries is listed as it is, without a further level; a scalar becomes a list of one. -/
theorem C172_tolist_shape (s : Shaped) (hp : s.q.pref ≠ 0)
    (hs : s.shape = [] ∨ ∃ n, s.shape = [n] ∧ n ≠ 0 ∧ n ≠ 1) :
    tolist s = .list ((entries s).map fun x => .num (x * s.q.pref)) := by
  have e : ((entries s).map fun x => Py.num (x * s.q.pref)) = s.q.getValue.map Py.num := by
    simp only [entries, numpy, List.map_map]
    apply List.map_congr_left
    intro x _
    simp [hp]
  have hlen := getValue_length s
  have key : ∀ l : List ℝ, (chunks 1 l.length l).map (nest []) = l.map Py.num := by
    intro l
    induction l with
    | nil => rfl
    | cons a l ih => simp only [List.length_cons, chunks, List.take_succ_cons, List.take_zero, List.drop_succ_cons,
        List.drop_zero, List.map_cons, ih]; rfl
  rw [e, tolist, s.len]
  rcases hs with hs | ⟨n, hs, h0, h1⟩
  · rw [hs] at hlen ⊢
    obtain ⟨x, hx⟩ := List.length_eq_one_iff.1 hlen
    rw [hx]
    rfl
  · rw [hs] at hlen ⊢
    simp only [List.prod_cons, List.prod_nil, mul_one] at hlen ⊢
    rw [if_pos (by omega), nest, List.prod_nil, ← hlen, key]

/-- The claim for units without a factor: list, array and comparisons all show the same numbers. Missing:
units with a factor (`C172_false_pi`). -/
theorem C172_agree_partial (s : Shaped) (hp : s.q.pref = 1) :
    flat (tolist s) = flat (array s) ∧
      ∀ r x, compare s r x = (flat (array s)).map fun v => r v x := by
  have h1 : flat (tolist s) = flat (array s) := by
    rw [(C172_tolist s (by rw [hp]; norm_num)).2, (C172_array s).1]; simp [hp]
  refine ⟨h1, fun r x => ?_⟩
  rw [(C172_array s).1]
  simp [compare, entries, numpy, hp]

/-- For every unit a comparison looks at the entries times the factor. -/
theorem C172_compare (s : Shaped) (hp : s.q.pref ≠ 0) (r : ℝ → ℝ → Prop) (x : ℝ) :
    compare s r x = (entries s).map fun v => r (v * s.q.pref) x := by
  simp only [compare, entries, numpy, List.map_map]
  apply List.map_congr_left
  intro v _
  simp [hp]

/-- A quantity converts to a number exactly if it has one entry; the number is that entry. -/
theorem C172_float (s : Shaped) (x : ℝ) : float s = some x ↔ entries s = [x] := by
  have h := (C172_array s).2
  unfold float
  change _ = s.q.length at h
  unfold entries at *
  split
  · rename_i h1
    constructor
    · simp
    · intro h2; rw [h2] at h; simp at h; omega
  · rename_i h1
    cases hn : s.q.numpy with
    | nil => simp
    | cons y l =>
      have : l = [] := by
        rw [hn] at h
        apply List.eq_nil_of_length_eq_zero
        simp at h; omega
      simp [this]

/-- Entries of a vector (of a length other than one): the key counts from the start or from the end, others
are refused. Missing: vectors of length one (`C172_false_one`). -/
theorem C172_getitem_partial (s : Shaped) (n : ℕ) (hs : s.shape = [n]) (hn : n ≠ 1) (i : ℤ) :
    (0 ≤ i → getitem s i = (entries s)[i.toNat]?.map .num) ∧
      (∀ k : ℕ, i = -(k + 1 : ℤ) → k < n → getitem s i = (entries s)[n - 1 - k]?.map .num) ∧
      ((i < -n ∨ (n : ℤ) ≤ i) → getitem s i = none) := by
  have hl : (entries s).length = n := by rw [(C172_array s).2, len, s.len, hs]; simp
  have ha : array s = .list ((entries s).map .num) := by
    rw [array, hs]; exact nest_vector n _ hl
  have h1 : ¬ (s.q.length = 1 ∧ i = 0) := by rw [s.len, hs]; simp [hn]
  have hg : getitem s i = npItem (.list ((entries s).map .num)) i := by
    rw [getitem, if_neg h1, ha]
  rw [hg]
  refine ⟨fun h0 => by simp [npItem, h0], fun k hk hkn => ?_, fun h => ?_⟩
  · subst hk
    have a : ¬ (0 : ℤ) ≤ -(k + 1 : ℤ) := by omega
    have b : -(((entries s).map Py.num).length : ℤ) ≤ -(k + 1 : ℤ) := by
      rw [List.length_map, hl]; omega
    have c : (-(k + 1 : ℤ) + (((entries s).map Py.num).length : ℤ)).toNat = n - 1 - k := by
      rw [List.length_map, hl]; omega
    simp only [npItem]
    rw [if_neg a, if_pos b, c, List.getElem?_map]
  · simp only [npItem, List.length_map, hl]
    rcases h with h | h
    · rw [if_neg (by omega), if_neg (by omega)]
    · rw [if_pos (by omega), List.getElem?_map, List.getElem?_eq_none (by rw [hl]; omega)]
      rfl

theorem iterate_vector (s : Shaped) (l : List ℝ) (k fuel : ℕ) (hk : k ≤ l.length)
    (hg : ∀ i : ℕ, getitem s i = l[i]?.map .num) (hf : l.length - k < fuel) :
    iterate s fuel k = (l.drop k).map .num := by
  induction fuel generalizing k with
  | zero => omega
  | succ f ih =>
    unfold iterate
    rw [hg k]
    by_cases h : k < l.length
    · rw [List.getElem?_eq_getElem h]
      simp only [Option.map_some]
      rw [ih (k + 1) (by omega) (by omega), List.drop_eq_getElem_cons h, List.map_cons]
    · have : k = l.length := by omega
      subst this
      simp

/-- Iterating over a vector or over a single number visits exactly its entries in order. -/
theorem C172_iterate (s : Shaped) (hs : s.shape = [] ∨ ∃ n, s.shape = [n] ∧ n ≠ 1) (fuel : ℕ)
    (hf : (entries s).length < fuel) : iterate s fuel 0 = (entries s).map .num := by
  have h := iterate_vector s (entries s) 0 fuel (by omega) ?_ (by omega)
  · simpa using h
  · intro i
    rcases hs with hs | ⟨n, hs, hn⟩
    · have hl : (entries s).length = 1 := by rw [(C172_array s).2, len, s.len, hs]; simp
      obtain ⟨x, hx⟩ := List.length_eq_one_iff.1 hl
      have ha : array s = .num x := by
        rw [array, hs]
        change s.q.numpy = [x] at hx
        rw [hx]; rfl
      have h1 : s.q.length = 1 := by rw [s.len, hs]; simp
      rw [getitem, ha, hx]
      cases i with
      | zero => simp [h1]
      | succ i =>
        rw [if_neg (by omega)]
        simp [npItem]
    · have := (C172_getitem_partial s n hs hn i).1 (by omega)
      simpa using this

/-- A quantity of shape `shape` holding `vals` (in its unit), with limits -10 and 10. -/
def mkEx (unit : String) (shape : List ℕ) (vals : List ℝ) (h : vals.length = shape.prod) : Shaped where
  q := ⟨vals.map fun v => v / 10, -10 * unitPref unit, 20 * unitPref unit, unitPref unit, unit, shape.prod⟩
  shape := shape
  size := by simp [h]
  len := rfl

/-- The fixture really holds the given values. -/
theorem mkEx_entries (unit : String) (shape : List ℕ) (vals : List ℝ) (h : vals.length = shape.prod) :
    entries (mkEx unit shape vals h) = vals := by
  have hp : unitPref unit ≠ 0 := by
    unfold unitPref
    have := Real.pi_pos
    split
    · positivity
    · split
      · positivity
      · norm_num
  simp only [entries, mkEx, numpy, getValue, List.map_map]
  conv_rhs => rw [← List.map_id vals]
  apply List.map_congr_left
  intro x _
  simp only [Function.comp_apply, id]
  field_simp
  ring

/-- For a unit with a factor the views contradict each other: the quantity 1 (in units of pi) is the number
1, but it does not compare equal to 1 and its list holds another number. -/
theorem C172_false_pi :
    ∃ s : Shaped, s.q.unit = "pi" ∧ float s = some 1 ∧ compare s (· = ·) 1 ≠ [True] ∧
      flat (tolist s) ≠ flat (array s) := by
  have hu : unitPref "pi" = Real.pi := by
    have a : hasSub "2pi".toList "pi".toList = false := by decide +kernel
    have b : hasSub "pi".toList "pi".toList = true := by decide +kernel
    unfold unitPref
    rw [a, b]; simp
  let s := mkEx "pi" [] [1] (by simp)
  have he : entries s = [1] := mkEx_entries _ _ _ _
  have hp : s.q.pref = Real.pi := hu
  have h3 := Real.pi_gt_three
  refine ⟨s, rfl, (C172_float s 1).2 he, ?_, ?_⟩
  · rw [C172_compare s (by rw [hp]; positivity), he, hp]
    simp only [List.map_cons, List.map_nil, one_mul, ne_eq, List.cons.injEq, and_true, eq_iff_iff, iff_true]
    linarith
  · rw [(C172_tolist s (by rw [hp]; positivity)).2, (C172_array s).1, he, hp]
    simp only [List.map_cons, List.map_nil, one_mul, ne_eq, List.cons.injEq, and_true]
    linarith

/-- A vector with one entry: `tolist` nests it twice and the first element is again a vector. -/
theorem C172_false_one :
    ∃ s : Shaped, s.shape = [1] ∧ entries s = [1] ∧ (∃ x, tolist s = .list [.list [.num x]]) ∧
      getitem s 0 = some (.list [.num 1]) := by
  let s := mkEx "V" [1] [1] (by simp)
  have he : entries s = [1] := mkEx_entries _ _ _ _
  refine ⟨s, rfl, he, ?_, ?_⟩
  · have hl : s.q.length = 1 := by simp [s, mkEx]
    have hv := getValue_length s
    obtain ⟨x, hx⟩ := List.length_eq_one_iff.1 (hv.trans (by simp [s, mkEx] : s.shape.prod = 1))
    refine ⟨x, ?_⟩
    rw [tolist, if_neg (by omega), hx]
    rfl
  · have hl : s.q.length = 1 := by simp [s, mkEx]
    rw [getitem, if_pos ⟨hl, rfl⟩, array]
    change s.q.numpy = [1] at he
    rw [he]
    rfl

/-- For a matrix `len` is the number of entries, not the number of rows: a key below the length is refused. -/
theorem C172_false_len :
    ∃ (s : Shaped) (i : ℕ), i < len s ∧ getitem s i = none := by
  let s := mkEx "V" [2, 2] [1, 2, 3, 4] (by simp)
  have hl : s.q.length = 4 := by simp [s, mkEx]
  refine ⟨s, 2, by rw [len, hl]; norm_num, ?_⟩
  have ha : ∃ a b, array s = .list [a, b] := ⟨_, _, rfl⟩
  obtain ⟨a, b, h⟩ := ha
  rw [getitem, if_neg (by rw [hl]; omega), h]
  simp [npItem]

/-- The hypotheses of `C172_agree_partial` and `C172_getitem_partial` hold for a vector in volts. -/
example : ∃ s : Shaped, s.q.pref = 1 ∧ s.shape = [3] ∧ entries s = [1, 2, 3] := by
  refine ⟨mkEx "V" [3] [1, 2, 3] (by simp), ?_, rfl, mkEx_entries _ _ _ _⟩
  have a : hasSub "2pi".toList "V".toList = false := by decide +kernel
  have b : hasSub "pi".toList "V".toList = false := by decide +kernel
  change unitPref "V" = 1
  unfold unitPref
  rw [a, b]; simp

/-- Its second and its last element. -/
example : getitem (mkEx "V" [3] [1, 2, 3] (by simp)) 1 = some (.num 2) ∧
    getitem (mkEx "V" [3] [1, 2, 3] (by simp)) (-1) = some (.num 3) := by
  have h := mkEx_entries "V" [3] [1, 2, 3] (by simp)
  have a := C172_getitem_partial (mkEx "V" [3] [1, 2, 3] (by simp)) 3 rfl (by norm_num)
  constructor
  · rw [(a 1).1 (by norm_num), h]; simp
  · rw [(a (-1)).2.1 0 (by norm_num) (by norm_num), h]; simp

end

end C3.Quantity.Views
