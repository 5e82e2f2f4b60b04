import Mathlib.Data.Complex.Basic
import Mathlib.LinearAlgebra.Matrix.Kronecker
import Mathlib.Logic.Equiv.Fin.Basic
import Mathlib.Tactic.Ring
import Mathlib.Tactic.Linarith

/-!
# C211: Kronecker products and superoperators computed by reshaping tensors

Models c3/utils/tf_utils.py:240-280 (`Id_like`, `tf_kron`, `tf_spre`, `tf_spost`). Tensors are tables over lists of indices;
`tf.reshape` keeps the entries in row-major order and raises if the number of entries differs.
-/

namespace C3.Propagation.TfKron

/-! ## Model: tensors -/

/-- A tensor: shape and entries. -/
structure Tensor (R : Type) where
  shape : List ℕ
  data : List ℕ → R

/-- An index is inside a shape. -/
def inside : List ℕ → List ℕ → Prop
  | [], [] => True
  | d :: ds, i :: is => i < d ∧ inside ds is
  | _, _ => False

/-- Position of an index in row-major order. -/
def flat : List ℕ → List ℕ → ℕ
  | _ :: ds, i :: is => i * ds.prod + flat ds is
  | _, _ => 0

/-- Index at a position in row-major order. -/
def unflat : List ℕ → ℕ → List ℕ
  | [], _ => []
  | _ :: ds, n => n / ds.prod :: unflat ds (n % ds.prod)

variable {R : Type}

/-- `tf.expand_dims(x, -a)`: a new axis of length 1, so that it is the `a`-th from the end. -/
def Tensor.expand (x : Tensor R) (a : ℕ) : Tensor R :=
  let k := x.shape.length + 1 - a
  ⟨x.shape.insertIdx k 1, fun is => x.data (is.eraseIdx k)⟩

/-- Fill up a shape with ones on the left. -/
def pad (n : ℕ) (s : List ℕ) : List ℕ := List.replicate (n - s.length) 1 ++ s

/-- Two lengths of an axis fit if they are equal or one of them is 1. -/
def fit (a b : ℕ) : Option ℕ := if a = b then some a else if a = 1 then some b else if b = 1 then some a else none

/-- Shape of an elementwise operation. -/
def shapes : List ℕ → List ℕ → Option (List ℕ)
  | [], [] => some []
  | a :: as, b :: bs => match fit a b, shapes as bs with
    | some c, some cs => some (c :: cs)
    | _, _ => none
  | _, _ => none

/-- Entry of a broadcast tensor: drop the axes filled up, and use 0 along axes of length 1. -/
def pick (s : List ℕ) (is : List ℕ) : List ℕ :=
  List.zipWith (fun d i => if d = 1 then 0 else i) s (is.drop (is.length - s.length))

/-- `x * y` with broadcasting; `none` if the shapes do not fit. -/
def Tensor.mul [Mul R] (x y : Tensor R) : Option (Tensor R) :=
  let n := max x.shape.length y.shape.length
  (shapes (pad n x.shape) (pad n y.shape)).map fun s => ⟨s, fun is => x.data (pick x.shape is) * y.data (pick y.shape is)⟩

/-- `tf.reshape`; `none` if the number of entries differs. -/
def Tensor.reshape (x : Tensor R) (s : List ℕ) : Option (Tensor R) :=
  if x.shape.prod = s.prod then some ⟨s, fun is => x.data (unflat x.shape (flat s is))⟩ else none

/-! ## Model: the functions -/

/-- `tf.shape(x)[-a]` -/
def Tensor.dim (x : Tensor R) (a : ℕ) : ℕ := x.shape.getD (x.shape.length - a) 0

/-- c3/utils/tf_utils.py:257-268 `tf_kron`. -/
def tfKron [Mul R] (A B : Tensor R) : Option (Tensor R) :=
  match Tensor.mul ((A.expand 1).expand 3) ((B.expand 2).expand 4) with
  | none => none
  | some res =>
    let dims := [A.dim 2 * B.dim 2, A.dim 1 * B.dim 1]
    let dims := if 4 < res.shape.length then res.shape.headD 0 :: dims else dims
    res.reshape dims

/-- c3/utils/tf_utils.py:240-245 `Id_like`. -/
def idLike [Zero R] [One R] (A : Tensor R) : Tensor R :=
  ⟨A.shape.take (A.shape.length - 2) ++ [A.dim 1, A.dim 1],
    fun is => if is.getD (is.length - 2) 0 = is.getD (is.length - 1) 0 then 1 else 0⟩

/-- `tf.linalg.matrix_transpose` -/
def Tensor.transpose (A : Tensor R) : Tensor R :=
  let sw := fun l : List ℕ => l.take (l.length - 2) ++ [l.getD (l.length - 1) 0, l.getD (l.length - 2) 0]
  ⟨sw A.shape, fun is => A.data (sw is)⟩

/-- c3/utils/tf_utils.py:271-274 `tf_spre`. -/
def tfSpre [Mul R] [Zero R] [One R] (A : Tensor R) : Option (Tensor R) := tfKron A (idLike A)

/-- c3/utils/tf_utils.py:277-280 `tf_spost`. -/
def tfSpost [Mul R] [Zero R] [One R] (A : Tensor R) : Option (Tensor R) := tfKron (idLike A) A.transpose

/-! ## C211 -/

theorem unflat_flat (s is : List ℕ) (h : inside s is) : unflat s (flat s is) = is ∧ flat s is < s.prod := by
  induction s generalizing is with
  | nil =>
    cases is with
    | nil => simp [unflat, flat]
    | cons i is => exact absurd h (by simp [inside])
  | cons d ds ih =>
    cases is with
    | nil => exact absurd h (by simp [inside])
    | cons i is =>
      obtain ⟨hi, hr⟩ := h
      obtain ⟨h1, h2⟩ := ih is hr
      have hp : 0 < ds.prod := by omega
      constructor
      · rw [unflat, flat]
        congr 1
        · rw [Nat.add_comm, Nat.add_mul_div_right _ _ hp, Nat.div_eq_of_lt h2, Nat.zero_add]
        · rw [Nat.add_comm, Nat.add_mul_mod_self_right, Nat.mod_eq_of_lt h2]
          exact h1
      · rw [flat, List.prod_cons]
        calc i * ds.prod + flat ds is < i * ds.prod + ds.prod := by omega
          _ = (i + 1) * ds.prod := by ring
          _ ≤ d * ds.prod := Nat.mul_le_mul_right _ hi

theorem fit_self (a : ℕ) : fit a a = some a := by simp [fit]
theorem fit_one_right (a : ℕ) : fit a 1 = some a := by
  unfold fit
  split_ifs <;> simp_all
theorem fit_one_left (a : ℕ) : fit 1 a = some a := by
  unfold fit
  split_ifs with h <;> simp_all

theorem clip (d i : ℕ) (h : i < d) : (if d = 1 then 0 else i) = i := by
  split_ifs with h1
  · omega
  · rfl

/-- The position of an entry of the product. -/
theorem flat_two (m n p q i j k l : ℕ) :
    flat [m * p, n * q] [i * p + k, j * q + l] = flat [m, p, n, q] [i, k, j, l] := by
  simp only [flat, List.prod_cons, List.prod_nil]
  ring

theorem flat_three (c m n p q b i j k l : ℕ) :
    flat [c, m * p, n * q] [b, i * p + k, j * q + l] = flat [c, m, p, n, q] [b, i, k, j, l] := by
  simp only [flat, List.prod_cons, List.prod_nil]
  ring

/-- **C211**: the product of two matrices. -/
theorem C211_matrices [Mul R] (m n p q : ℕ) (a b : List ℕ → R) :
    ∃ K, tfKron ⟨[m, n], a⟩ ⟨[p, q], b⟩ = some K ∧ K.shape = [m * p, n * q] ∧
      ∀ i j k l, i < m → j < n → k < p → l < q →
        K.data [i * p + k, j * q + l] = a [i, j] * b [k, l] := by
  have hs : shapes [m, 1, n, 1] [1, p, 1, q] = some [m, p, n, q] := by
    simp [shapes, fit_one_left, fit_one_right]
  have hp : [m, p, n, q].prod = [m * p, n * q].prod := by
    simp only [List.prod_cons, List.prod_nil]
    ring
  have hk : tfKron ⟨[m, n], a⟩ ⟨[p, q], b⟩ = some ⟨[m * p, n * q], fun is =>
      let js := unflat [m, p, n, q] (flat [m * p, n * q] is)
      a (((pick [m, 1, n, 1] js).eraseIdx 1).eraseIdx 2) * b (((pick [1, p, 1, q] js).eraseIdx 0).eraseIdx 1)⟩ := by
    simp only [tfKron, Tensor.mul, Tensor.expand, pad, List.length_cons, List.length_nil, Nat.reduceAdd, Nat.reduceSub,
      List.insertIdx_succ_cons, List.insertIdx_zero, max_self, List.replicate_zero, List.nil_append, hs, Option.map_some,
      Tensor.dim, List.getD_cons_zero, List.getD_cons_succ, lt_irrefl, if_false, Tensor.reshape, hp, if_true]
  refine ⟨_, hk, rfl, ?_⟩
  intro i j k l hi hj hk hl
  simp only [flat_two, (unflat_flat [m, p, n, q] [i, k, j, l] ⟨hi, hk, hj, hl, trivial⟩).1]
  simp [pick, clip _ _ hi, clip _ _ hj, clip _ _ hk, clip _ _ hl]

/-- **C211**: stacks of matrices are multiplied one by one; a stack of one is used for all. -/
theorem C211_stacks [Mul R] (c d e m n p q : ℕ) (a b : List ℕ → R) (h : fit c d = some e) :
    ∃ K, tfKron ⟨[c, m, n], a⟩ ⟨[d, p, q], b⟩ = some K ∧ K.shape = [e, m * p, n * q] ∧
      ∀ x i j k l, x < e → i < m → j < n → k < p → l < q →
        K.data [x, i * p + k, j * q + l] = a [if c = 1 then 0 else x, i, j] * b [if d = 1 then 0 else x, k, l] := by
  have hs : shapes [c, m, 1, n, 1] [d, 1, p, 1, q] = some [e, m, p, n, q] := by
    simp [shapes, fit_one_left, fit_one_right, h]
  have hp : [e, m, p, n, q].prod = [e, m * p, n * q].prod := by
    simp only [List.prod_cons, List.prod_nil]
    ring
  have hk : tfKron ⟨[c, m, n], a⟩ ⟨[d, p, q], b⟩ = some ⟨[e, m * p, n * q], fun is =>
      let js := unflat [e, m, p, n, q] (flat [e, m * p, n * q] is)
      a (((pick [c, m, 1, n, 1] js).eraseIdx 2).eraseIdx 3) * b (((pick [d, 1, p, 1, q] js).eraseIdx 1).eraseIdx 2)⟩ := by
    simp only [tfKron, Tensor.mul, Tensor.expand, pad, List.length_cons, List.length_nil, Nat.reduceAdd, Nat.reduceSub,
      List.insertIdx_succ_cons, List.insertIdx_zero, max_self, List.replicate_zero, List.nil_append, hs, Option.map_some,
      Tensor.dim, List.getD_cons_zero, List.getD_cons_succ, Nat.reduceLT, if_true, List.headD_cons, Tensor.reshape, hp]
  refine ⟨_, hk, rfl, ?_⟩
  intro x i j k l hx hi hj hk hl
  simp only [flat_three, (unflat_flat [e, m, p, n, q] [x, i, k, j, l] ⟨hx, hi, hk, hj, hl, trivial⟩).1]
  simp [pick, clip _ _ hi, clip _ _ hj, clip _ _ hk, clip _ _ hl]

/-- **C211**: a stack and a matrix. -/
theorem C211_stack_matrix [Mul R] (c m n p q : ℕ) (a b : List ℕ → R) :
    ∃ K, tfKron ⟨[c, m, n], a⟩ ⟨[p, q], b⟩ = some K ∧ K.shape = [c, m * p, n * q] ∧
      ∀ x i j k l, x < c → i < m → j < n → k < p → l < q →
        K.data [x, i * p + k, j * q + l] = a [x, i, j] * b [k, l] := by
  have hs : shapes [c, m, 1, n, 1] [1, 1, p, 1, q] = some [c, m, p, n, q] := by
    simp [shapes, fit_one_left, fit_one_right]
  have hp : [c, m, p, n, q].prod = [c, m * p, n * q].prod := by
    simp only [List.prod_cons, List.prod_nil]
    ring
  have hk : tfKron ⟨[c, m, n], a⟩ ⟨[p, q], b⟩ = some ⟨[c, m * p, n * q], fun is =>
      let js := unflat [c, m, p, n, q] (flat [c, m * p, n * q] is)
      a (((pick [c, m, 1, n, 1] js).eraseIdx 2).eraseIdx 3) * b (((pick [1, p, 1, q] js).eraseIdx 0).eraseIdx 1)⟩ := by
    simp only [tfKron, Tensor.mul, Tensor.expand, pad, List.length_cons, List.length_nil, Nat.reduceAdd, Nat.reduceSub,
      List.insertIdx_succ_cons, List.insertIdx_zero, Nat.reduceLeDiff, sup_of_le_left,
      List.replicate_zero, List.nil_append, List.replicate_one, List.cons_append, hs, Option.map_some,
      Tensor.dim, List.getD_cons_zero, List.getD_cons_succ, Nat.reduceLT, if_true, List.headD_cons, Tensor.reshape, hp]
  refine ⟨_, hk, rfl, ?_⟩
  intro x i j k l hx hi hj hk hl
  simp only [flat_three, (unflat_flat [c, m, p, n, q] [x, i, k, j, l] ⟨hx, hi, hk, hj, hl, trivial⟩).1]
  simp [pick, clip _ _ hx, clip _ _ hi, clip _ _ hj, clip _ _ hk, clip _ _ hl]

/-- **C211**: a matrix and a stack. -/
theorem C211_matrix_stack [Mul R] (c m n p q : ℕ) (a b : List ℕ → R) :
    ∃ K, tfKron ⟨[m, n], a⟩ ⟨[c, p, q], b⟩ = some K ∧ K.shape = [c, m * p, n * q] ∧
      ∀ x i j k l, x < c → i < m → j < n → k < p → l < q →
        K.data [x, i * p + k, j * q + l] = a [i, j] * b [x, k, l] := by
  have hs : shapes [1, m, 1, n, 1] [c, 1, p, 1, q] = some [c, m, p, n, q] := by
    simp [shapes, fit_one_left, fit_one_right]
  have hp : [c, m, p, n, q].prod = [c, m * p, n * q].prod := by
    simp only [List.prod_cons, List.prod_nil]
    ring
  have hk : tfKron ⟨[m, n], a⟩ ⟨[c, p, q], b⟩ = some ⟨[c, m * p, n * q], fun is =>
      let js := unflat [c, m, p, n, q] (flat [c, m * p, n * q] is)
      a (((pick [m, 1, n, 1] js).eraseIdx 1).eraseIdx 2) * b (((pick [c, 1, p, 1, q] js).eraseIdx 1).eraseIdx 2)⟩ := by
    simp only [tfKron, Tensor.mul, Tensor.expand, pad, List.length_cons, List.length_nil, Nat.reduceAdd, Nat.reduceSub,
      List.insertIdx_succ_cons, List.insertIdx_zero, Nat.reduceLeDiff, sup_of_le_right,
      List.replicate_zero, List.nil_append, List.replicate_one, List.cons_append, hs, Option.map_some,
      Tensor.dim, List.getD_cons_zero, List.getD_cons_succ, Nat.reduceLT, if_true, List.headD_cons, Tensor.reshape, hp]
  refine ⟨_, hk, rfl, ?_⟩
  intro x i j k l hx hi hj hk hl
  simp only [flat_three, (unflat_flat [c, m, p, n, q] [x, i, k, j, l] ⟨hx, hi, hk, hj, hl, trivial⟩).1]
  simp [pick, clip _ _ hx, clip _ _ hi, clip _ _ hj, clip _ _ hk, clip _ _ hl]

/-- **C211**: stacks of different lengths raise. -/
theorem C211_lengths [Mul R] (c d m n p q : ℕ) (a b : List ℕ → R) (h : c ≠ d) (hc : c ≠ 1) (hd : d ≠ 1) :
    tfKron ⟨[c, m, n], a⟩ ⟨[d, p, q], b⟩ = none := by
  have hs : shapes [c, m, 1, n, 1] [d, 1, p, 1, q] = none := by
    simp [shapes, fit, h, hc, hd]
  simp only [tfKron, Tensor.mul, Tensor.expand, pad, List.length_cons, List.length_nil, Nat.reduceAdd, Nat.reduceSub,
      List.insertIdx_succ_cons, List.insertIdx_zero, max_self, List.replicate_zero, List.nil_append, hs, Option.map_none]

/-- **C211 is false** for more than one batch dimension: the product raises although the shapes fit. -/
theorem C211_false_two_batches [Mul R] (c d m n p q : ℕ) (a b : List ℕ → R) (hd : 1 < d) (hc : 0 < c) (hm : 0 < m)
    (hn : 0 < n) (hp : 0 < p) (hq : 0 < q) : tfKron ⟨[c, d, m, n], a⟩ ⟨[c, d, p, q], b⟩ = none := by
  have hs : shapes [c, d, m, 1, n, 1] [c, d, 1, p, 1, q] = some [c, d, m, p, n, q] := by
    simp [shapes, fit_one_left, fit_one_right, fit_self]
  have hne : ¬ [c, d, m, p, n, q].prod = [c, m * p, n * q].prod := by
    simp only [List.prod_cons, List.prod_nil]
    intro h
    have hpos : 0 < c * (m * p) * (n * q) := by positivity
    have h' : d * (c * (m * p) * (n * q)) = c * (m * p) * (n * q) := by
      calc d * (c * (m * p) * (n * q)) = c * (d * (m * (p * (n * (q * 1))))) := by ring
        _ = c * (m * p * (n * q * 1)) := h
        _ = c * (m * p) * (n * q) := by ring
    nlinarith
  simp only [tfKron, Tensor.mul, Tensor.expand, pad, List.length_cons, List.length_nil, Nat.reduceAdd, Nat.reduceSub,
      List.insertIdx_succ_cons, List.insertIdx_zero, max_self, List.replicate_zero, List.nil_append, hs, Option.map_some,
      Tensor.dim, List.getD_cons_zero, List.getD_cons_succ, Nat.reduceLT, if_true, List.headD_cons, Tensor.reshape, hne,
      if_false]

/-! ### Specification: Mathlib's Kronecker product and the matrix as a vector, row by row -/

/-- A matrix as a tensor. -/
def ofMatrix [Zero R] {m n : ℕ} (A : Matrix (Fin m) (Fin n) R) : Tensor R :=
  ⟨[m, n], fun is => match is with
    | [i, j] => if h : i < m ∧ j < n then A ⟨i, h.1⟩ ⟨j, h.2⟩ else 0
    | _ => 0⟩

/-- A tensor is the table of a matrix. -/
def isMatrix {m n : ℕ} (T : Tensor R) (A : Matrix (Fin m) (Fin n) R) : Prop :=
  T.shape = [m, n] ∧ ∀ (i : Fin m) (j : Fin n), T.data [i, j] = A i j

theorem isMatrix_ofMatrix [Zero R] {m n : ℕ} (A : Matrix (Fin m) (Fin n) R) : isMatrix (ofMatrix A) A :=
  ⟨rfl, fun i j => by simp [ofMatrix]⟩

open scoped Kronecker in
/-- **C211**: `tf_kron` is the Kronecker product, with rows and columns numbered row by row. -/
theorem C211_kronecker [Mul R] {m n p q : ℕ} (A : Matrix (Fin m) (Fin n) R) (B : Matrix (Fin p) (Fin q) R)
    (S T : Tensor R) (hA : isMatrix S A) (hB : isMatrix T B) :
    ∃ K, tfKron S T = some K ∧ isMatrix K ((A ⊗ₖ B).reindex finProdFinEquiv finProdFinEquiv) := by
  obtain ⟨s, a⟩ := S
  obtain ⟨t, b⟩ := T
  obtain ⟨rfl, hA⟩ := hA
  obtain ⟨rfl, hB⟩ := hB
  have hA : ∀ (i : Fin m) (j : Fin n), a [i, j] = A i j := hA
  have hB : ∀ (i : Fin p) (j : Fin q), b [i, j] = B i j := hB
  obtain ⟨K, h1, h2, h3⟩ := C211_matrices m n p q a b
  refine ⟨K, h1, h2, ?_⟩
  intro x y
  obtain ⟨⟨i, k⟩, rfl⟩ := finProdFinEquiv.surjective x
  obtain ⟨⟨j, l⟩, rfl⟩ := finProdFinEquiv.surjective y
  have hx : ((finProdFinEquiv (i, k) : Fin (m * p)) : ℕ) = i * p + k := by
    rw [finProdFinEquiv_apply_val]
    ring
  have hy : ((finProdFinEquiv (j, l) : Fin (n * q)) : ℕ) = j * q + l := by
    rw [finProdFinEquiv_apply_val]
    ring
  rw [hx, hy, h3 i j k l i.2 j.2 k.2 l.2, hA i j, hB k l]
  simp [Matrix.kroneckerMap_apply]

/-- A matrix as a vector, row by row. -/
def vec {n : ℕ} (X : Matrix (Fin n) (Fin n) R) : Fin (n * n) → R := fun x =>
  X (finProdFinEquiv.symm x).1 (finProdFinEquiv.symm x).2

/-- **C211**: `tf_spre(A)` multiplies a matrix from the left, `tf_spost(A)` from the right. -/
theorem C211_super [CommRing R] {n : ℕ} (A : Matrix (Fin n) (Fin n) R) :
    (∃ K M, tfSpre (ofMatrix A) = some K ∧ isMatrix K M ∧ ∀ X, M.mulVec (vec X) = vec (A * X)) ∧
    (∃ K M, tfSpost (ofMatrix A) = some K ∧ isMatrix K M ∧ ∀ X, M.mulVec (vec X) = vec (X * A)) := by
  have hid : isMatrix (idLike (ofMatrix A)) (1 : Matrix (Fin n) (Fin n) R) := by
    refine ⟨rfl, fun i j => ?_⟩
    simp only [idLike, List.length_cons, List.length_nil, Nat.reduceAdd, Nat.reduceSub, List.getD_cons_zero,
      List.getD_cons_succ, Matrix.one_apply]
    by_cases h : i = j
    · simp [h]
    · have : (i : ℕ) ≠ j := fun e => h (Fin.ext e)
      simp [h, this]
  have htr : isMatrix (ofMatrix A).transpose A.transpose := by
    refine ⟨rfl, fun i j => ?_⟩
    simp [Tensor.transpose, ofMatrix]
  have hsum : ∀ f : Fin (n * n) → R, ∑ y, f y = ∑ j : Fin n, ∑ l : Fin n, f (finProdFinEquiv (j, l)) := by
    intro f
    rw [← Equiv.sum_comp finProdFinEquiv f, Fintype.sum_prod_type]
  constructor
  · obtain ⟨K, h1, h2⟩ := C211_kronecker A 1 _ _ (isMatrix_ofMatrix A) hid
    refine ⟨K, _, h1, h2, ?_⟩
    intro X
    funext x
    obtain ⟨⟨i, k⟩, rfl⟩ := finProdFinEquiv.surjective x
    simp only [Matrix.mulVec, dotProduct, hsum, vec, Matrix.reindex_apply, Matrix.submatrix_apply,
      Equiv.symm_apply_apply, Matrix.kroneckerMap_apply, Matrix.one_apply, Matrix.mul_apply]
    refine Finset.sum_congr rfl fun j _ => ?_
    simp
  · obtain ⟨K, h1, h2⟩ := C211_kronecker 1 A.transpose _ _ hid htr
    refine ⟨K, _, h1, h2, ?_⟩
    intro X
    funext x
    obtain ⟨⟨i, k⟩, rfl⟩ := finProdFinEquiv.surjective x
    simp only [Matrix.mulVec, dotProduct, hsum, vec, Matrix.reindex_apply, Matrix.submatrix_apply,
      Equiv.symm_apply_apply, Matrix.kroneckerMap_apply, Matrix.one_apply, Matrix.mul_apply, Matrix.transpose_apply]
    rw [Finset.sum_eq_single i]
    · refine Finset.sum_congr rfl fun l _ => ?_
      simp [mul_comm]
    · intro j _ hj
      exact Finset.sum_eq_zero fun l _ => by simp [hj.symm]
    · simp

example : ∃ K, tfKron (ofMatrix !![(1 : ℤ), 2; 3, 4]) (ofMatrix !![(0 : ℤ), 5; 6, 7]) = some K ∧ K.shape = [4, 4] ∧
    K.data [2, 1] = 15 := ⟨_, rfl, rfl, rfl⟩

example : tfKron (R := ℤ) ⟨[2, 2, 1, 1], fun _ => 1⟩ ⟨[2, 2, 1, 1], fun _ => 1⟩ = none :=
  C211_false_two_batches 2 2 1 1 1 1 _ _ (by norm_num) (by norm_num) (by norm_num) (by norm_num) (by norm_num) (by norm_num)

end C3.Propagation.TfKron
