import Verif.Fidelity.Average
import Mathlib.LinearAlgebra.Matrix.PosDef
import Mathlib.LinearAlgebra.Matrix.NonsingularInverse
import Mathlib.Tactic.IntervalCases

/-!
# C207: the chi matrix of a process

`super_to_choi` and `tf_choi_to_chi` (c3/utils/tf_utils.py:404-425) with `pauli_basis` (c3/utils/qt_utils.py:10-45).
-/

namespace C3.Fidelity.Chi

open Matrix Finset C3.Hilbert C3.Gates C3.Fidelity
open scoped ComplexOrder

noncomputable section

/-! ## Model -/

/-- c3/utils/tf_utils.py:404-412 `tf_choi_to_chi` with `n` dimensions given. -/
def choiToChi (U : Arr ℂ) (n : ℕ) : Option (Arr ℂ) := do
  let BU ← arrMul (arrAdj (pauliBasis n)) U
  arrMul BU (pauliBasis n)

/-- `tf_super_to_fid` reads the first entry of this matrix. -/
theorem superToFid_chi (err : Arr ℂ) (s n : ℕ) : superToFid err s n =
    (choiToChi (superToChoi s err) n).map fun chi => ‖(chi.e 0 0 / (2 : ℂ) ^ n + 1) / ((2 : ℂ) ^ n + 1)‖ := by
  unfold superToFid choiToChi
  simp only [Option.bind_eq_bind]
  cases arrMul (arrAdj (pauliBasis n)) (superToChoi s err) with
  | none => rfl
  | some BU =>
    simp only [Option.bind_some]
    cases arrMul BU (pauliBasis n) <;> rfl

/-! ## Specification -/

/-- The digit number `t` of `i` written with `n` digits to the base `b`, most significant first. -/
def dig (b n i t : ℕ) : ℕ := i / b ^ (n - 1 - t) % b

/-- The identity and the Pauli matrices. -/
def sigma : ℕ → Matrix (Fin 2) (Fin 2) ℂ
  | 0 => 1
  | 1 => !![0, 1; 1, 0]
  | 2 => !![0, -Complex.I; Complex.I, 0]
  | _ => !![1, 0; 0, -1]

/-- The Pauli operator number `k` on `n` qubits: one Pauli matrix on each qubit, as the digits of `k` say. -/
def word (n k : ℕ) : Matrix (Fin (2 ^ n)) (Fin (2 ^ n)) ℂ := fun i j =>
  ∏ t ∈ range n, sigma (dig 4 n k t) (Fin.ofNat 2 (dig 2 n i t)) (Fin.ofNat 2 (dig 2 n j t))

/-- The process with Kraus operators `K`, as the superoperator acting on row-stacked density matrices that
`tf_super` builds for one operator. -/
def IsProcess (n : ℕ) {r : ℕ} (K : Fin r → Matrix (Fin (2 ^ n)) (Fin (2 ^ n)) ℂ) (S : Arr ℂ) : Prop :=
  S.rows = 2 ^ n * 2 ^ n ∧ S.cols = 2 ^ n * 2 ^ n ∧ ∀ a b c d : Fin (2 ^ n),
    S.e (a * 2 ^ n + b) (c * 2 ^ n + d) = ∑ x, K x a c * star (K x b d)

/-! ## The Pauli basis -/

theorem dig_flat (b n : ℕ) (l : List ℕ) (hl : Valid (List.replicate n b) l) (t : ℕ) (ht : t < n) :
    l.getD t 0 = dig b n (flat (List.replicate n b) l) t := by
  induction n generalizing l t with
  | zero => omega
  | succ n ih =>
    rw [List.replicate_succ] at hl ⊢
    unfold Valid at hl
    rw [List.forall₂_cons_right_iff] at hl
    obtain ⟨x, l, hx, hl, rfl⟩ := hl
    have hf : flat (List.replicate n b) l < b ^ n := by
      have := flat_lt (dims := List.replicate n b) hl
      simpa using this
    simp only [flat, List.prod_replicate]
    cases t with
    | zero =>
      have hb : 0 < b ^ n := by omega
      simp only [List.getD_cons_zero, dig, Nat.add_sub_cancel, Nat.sub_zero]
      rw [mul_comm, Nat.mul_add_div hb, Nat.div_eq_of_lt hf, add_zero, Nat.mod_eq_of_lt hx]
    | succ t =>
      have ht' : t < n := by omega
      rw [List.getD_cons_succ, ih l hl t ht']
      unfold dig
      have e : n + 1 - 1 - (t + 1) = n - 1 - t := by omega
      rw [e]
      have hpow : b ^ n = b ^ (n - 1 - t) * (b * b ^ t) := by
        rw [← pow_succ', ← pow_add]
        congr 1
        omega
      have hpos : 0 < b ^ (n - 1 - t) := by
        have : 0 < b := by omega
        positivity
      rw [hpow, show x * (b ^ (n - 1 - t) * (b * b ^ t)) = b ^ (n - 1 - t) * (b * (x * b ^ t)) by ring,
        Nat.mul_add_div hpos, Nat.mul_add_mod]

theorem dig_lt (b n i t : ℕ) (hb : 0 < b) : dig b n i t < b := Nat.mod_lt _ hb

theorem dig_inj (b n i j : ℕ) (hi : i < b ^ n) (hj : j < b ^ n) (h : ∀ t < n, dig b n i t = dig b n j t) : i = j := by
  obtain ⟨l, hl, rfl⟩ := exists_flat (List.replicate n b) i (by simpa using hi)
  obtain ⟨m, hm, rfl⟩ := exists_flat (List.replicate n b) j (by simpa using hj)
  congr 1
  apply List.ext_getElem (by rw [valid_length hl, valid_length hm])
  intro t h1 h2
  have ht : t < n := by rw [valid_length hl, List.length_replicate] at h1; exact h1
  have := h t ht
  rw [← dig_flat b n l hl t ht, ← dig_flat b n m hm t ht] at this
  rwa [List.getD_eq_getElem _ _ h1, List.getD_eq_getElem _ _ h2] at this

theorem product_map {α β : Type*} (f : α → β) (ls : List (List α)) :
    product (ls.map (List.map f)) = (product ls).map (List.map f) := by
  induction ls with
  | nil => rfl
  | cons l ls ih =>
    simp only [List.map_cons, product, ih, List.flatMap_map, List.map_flatMap, List.map_map]
    rfl

/-- The list of Pauli matrices by number. -/
def pauli (x : ℕ) : Arr ℂ := paulis.getD x (eye 0 0)

theorem pauli_shape (x : ℕ) (hx : x < 4) : (pauli x).rows = 2 ∧ (pauli x).cols = 2 := by
  interval_cases x <;> exact ⟨rfl, rfl⟩

theorem pauli_e (x u v : ℕ) (hx : x < 4) (hu : u < 2) (hv : v < 2) :
    (pauli x).e u v = sigma x (Fin.ofNat 2 u) (Fin.ofNat 2 v) := by
  interval_cases x <;> interval_cases u <;> interval_cases v <;> simp [pauli, paulis, sigma, eye]

theorem words_list (n : ℕ) : product (List.replicate n paulis) =
    (stateLabels (List.replicate n 4)).map (List.map pauli) := by
  have h : paulis = (List.range 4).map pauli := rfl
  unfold stateLabels
  rw [← product_map]
  congr 1
  rw [List.map_map, List.map_replicate, h]
  rfl

theorem kron_word (n : ℕ) (k : ℕ) (hk : k < 4 ^ n) (i j : Fin (2 ^ n)) :
    (npKronN ((product (List.replicate n paulis)).getD k [])).e i j = word n k i j := by
  obtain ⟨w, hw, rfl⟩ := exists_flat (List.replicate n 4) k (by simpa using hk)
  have hg : (product (List.replicate n paulis)).getD (flat (List.replicate n 4) w) [] = w.map pauli := by
    rw [words_list, List.getD_eq_getElem?_getD, List.getElem?_map, stateLabels_flat hw]
    rfl
  rw [hg]
  have hwl : w.length = n := by rw [valid_length hw, List.length_replicate]
  have hw4 : ∀ x ∈ w, x < 4 := by
    intro x hx
    obtain ⟨t, ht, rfl⟩ := List.getElem_of_mem hx
    have := valid_getD hw t (by rw [List.length_replicate]; omega)
    rw [List.getD_eq_getElem _ _ ht, List.getD_eq_getElem _ _ (by rw [List.length_replicate]; omega),
      List.getElem_replicate] at this
    exact this
  have hmr : (w.map pauli).map (·.rows) = List.replicate n 2 := by
    rw [List.map_map, ← hwl]
    exact List.eq_replicate_iff.mpr ⟨by simp, fun y hy => by
      obtain ⟨x, hx, rfl⟩ := List.mem_map.1 hy
      exact (pauli_shape x (hw4 x hx)).1⟩
  have hmc : (w.map pauli).map (·.cols) = List.replicate n 2 := by
    rw [List.map_map, ← hwl]
    exact List.eq_replicate_iff.mpr ⟨by simp, fun y hy => by
      obtain ⟨x, hx, rfl⟩ := List.mem_map.1 hy
      exact (pauli_shape x (hw4 x hx)).2⟩
  obtain ⟨l, hl, hle⟩ := exists_flat (List.replicate n 2) i (by simp)
  obtain ⟨m, hm, hme⟩ := exists_flat (List.replicate n 2) j (by simp)
  have h := npKronN_e (w.map pauli) l m (by rw [hmr]; exact hl) (by rw [hmc]; exact hm)
  rw [hmr, hmc, hle, hme] at h
  rw [h]
  unfold prodE word
  rw [List.length_map, hwl]
  refine prod_congr rfl fun t ht => ?_
  rw [mem_range] at ht
  rw [← hle, ← hme, ← dig_flat 4 n w hw t ht, ← dig_flat 2 n l hl t ht, ← dig_flat 2 n m hm t ht]
  have h2 : ∀ x, Valid (List.replicate n 2) x → x.getD t 0 < 2 := by
    intro x hx
    rw [dig_flat 2 n x hx t ht]
    exact dig_lt _ _ _ _ (by norm_num)
  rw [← pauli_e _ _ _ (by rw [dig_flat 4 n w hw t ht]; exact dig_lt _ _ _ _ (by norm_num)) (h2 l hl) (h2 m hm)]
  have hgm : (w.map pauli).getD t (eye 0 0) = pauli (w.getD t 0) := by
    rw [List.getD_eq_getElem _ _ (by rw [List.length_map]; omega), List.getElem_map,
      List.getD_eq_getElem _ _ (by omega)]
  rw [hgm]

theorem sigma_orth (x y : ℕ) (hx : x < 4) (hy : y < 4) :
    ∑ v ∈ range 2, ∑ u ∈ range 2, star (sigma x (Fin.ofNat 2 u) (Fin.ofNat 2 v)) * sigma y (Fin.ofNat 2 u) (Fin.ofNat 2 v) =
      if x = y then 2 else 0 := by
  simp only [sum_range_succ, range_zero, sum_empty, zero_add]
  interval_cases x <;> interval_cases y <;> simp [sigma] <;> norm_num

theorem sum_fin_eq (n : ℕ) (F : ℕ → ℂ) : ∑ i : Fin n, F i = ∑ i ∈ range n, F i := Fin.sum_univ_eq_sum_range F n

/-- Different Pauli operators are orthogonal and each has the trace `2 ^ n` with itself. -/
theorem word_orth (n k l : ℕ) (hk : k < 4 ^ n) (hl : l < 4 ^ n) :
    ∑ j, ∑ i, star (word n k i j) * word n l i j = if k = l then 2 ^ n else 0 := by
  let g : ℕ → ℕ → ℕ → ℂ := fun t u v => star (sigma (dig 4 n k t) (Fin.ofNat 2 u) (Fin.ofNat 2 v)) *
    sigma (dig 4 n l t) (Fin.ofNat 2 u) (Fin.ofNat 2 v)
  have hlen : (List.replicate n 2).length = n := List.length_replicate
  have hprod : (List.replicate n 2).prod = 2 ^ n := by simp
  have hget : ∀ t ∈ range n, (List.replicate n 2).getD t 0 = 2 := by
    intro t ht
    rw [mem_range] at ht
    rw [List.getD_eq_getElem _ _ (by simpa using ht), List.getElem_replicate]
  have inner : ∀ j : Fin (2 ^ n), ∑ i, star (word n k i j) * word n l i j =
      ∏ t ∈ range n, ∑ u ∈ range 2, g t u (dig 2 n j t) := by
    intro j
    have h1 : ∀ i : Fin (2 ^ n), star (word n k i j) * word n l i j =
        (fun i : ℕ => ∏ t ∈ range n, g t (dig 2 n i t) (dig 2 n j t)) i := by
      intro i
      simp only [word, star_prod, ← prod_mul_distrib, g]
    rw [Fintype.sum_congr _ _ h1, sum_fin_eq (2 ^ n) fun i : ℕ => ∏ t ∈ range n, g t (dig 2 n i t) (dig 2 n j t)]
    generalize (j : ℕ) = jv
    rw [← hprod, sum_flat (List.replicate n 2) (fun t u => g t u (dig 2 n jv t)) _ 1, one_mul, hlen]
    · exact prod_congr rfl fun t ht => by rw [hget t ht]
    · intro m hm
      rw [one_mul, hlen]
      exact prod_congr rfl fun t ht => by rw [← dig_flat 2 n m hm t (mem_range.1 ht)]
  rw [Fintype.sum_congr _ _ inner]
  rw [sum_fin_eq (2 ^ n) fun j => ∏ t ∈ range n, ∑ u ∈ range 2, g t u (dig 2 n j t), ← hprod,
    sum_flat (List.replicate n 2) (fun t v => ∑ u ∈ range 2, g t u v) _ 1, one_mul, hlen]
  · have : ∀ t ∈ range n, ∑ x ∈ range ((List.replicate n 2).getD t 0), ∑ u ∈ range 2, g t u x =
        if dig 4 n k t = dig 4 n l t then 2 else 0 := by
      intro t ht
      rw [hget t ht]
      exact sigma_orth _ _ (dig_lt _ _ _ _ (by norm_num)) (dig_lt _ _ _ _ (by norm_num))
    rw [prod_congr rfl this]
    by_cases hkl : k = l
    · subst hkl
      simp
    · rw [if_neg hkl]
      have : ∃ t < n, dig 4 n k t ≠ dig 4 n l t := by
        by_contra hcon
        push Not at hcon
        exact hkl (dig_inj 4 n k l hk hl hcon)
      obtain ⟨t, ht, hne⟩ := this
      exact prod_eq_zero (mem_range.2 ht) (if_neg hne)
  · intro m hm
    rw [one_mul, hlen]
    exact prod_congr rfl fun t ht => by rw [← dig_flat 2 n m hm t (mem_range.1 ht)]


/-! ## C207 -/

/-- Position of a pair of indices in a column-stacked matrix. -/
def row (n : ℕ) (p : Fin (2 ^ n * 2 ^ n)) : Fin (2 ^ n) := ⟨p % 2 ^ n, Nat.mod_lt _ (by positivity)⟩

def col (n : ℕ) (p : Fin (2 ^ n * 2 ^ n)) : Fin (2 ^ n) := ⟨p / 2 ^ n, Nat.div_lt_of_lt_mul p.2⟩

theorem four (n : ℕ) : (4 : ℕ) ^ n = 2 ^ n * 2 ^ n := by
  rw [← mul_pow]
  norm_num

theorem sum_pairs (n : ℕ) (F : Fin (2 ^ n) → Fin (2 ^ n) → ℂ) :
    ∑ p : Fin (2 ^ n * 2 ^ n), F (row n p) (col n p) = ∑ j, ∑ i, F i j := by
  rw [← Fintype.sum_prod_type' fun j i => F i j]
  refine Fintype.sum_equiv finProdFinEquiv.symm _ _ fun p => ?_
  simp only [finProdFinEquiv, Equiv.coe_fn_symm_mk]
  rfl

/-- C207: column `k` of `pauli_basis` is the conjugated, column-stacked Pauli operator number `k`. -/
theorem C207_basis (n : ℕ) (p k : Fin (2 ^ n * 2 ^ n)) :
    (pauliBasis n).e p k = star (word n k (row n p) (col n p)) := by
  rw [← kron_word n k (by rw [four]; exact k.2)]
  rfl

/-- C207: the columns of `pauli_basis` are orthogonal, with squared length `2 ^ n`, on any number of qubits. -/
theorem C207_orthogonal (n : ℕ) :
    ((pauliBasis n).mat (2 ^ n * 2 ^ n) (2 ^ n * 2 ^ n))ᴴ * (pauliBasis n).mat (2 ^ n * 2 ^ n) (2 ^ n * 2 ^ n) =
      (2 ^ n : ℂ) • 1 := by
  ext k l
  have h : ∀ p : Fin (2 ^ n * 2 ^ n), star ((pauliBasis n).e p k) * (pauliBasis n).e p l =
      star (star (word n k (row n p) (col n p)) * word n l (row n p) (col n p)) := by
    intro p
    rw [C207_basis, C207_basis, star_mul', star_star]
  change ∑ p : Fin (2 ^ n * 2 ^ n), star ((pauliBasis n).e p k) * (pauliBasis n).e p l = _
  rw [Fintype.sum_congr _ _ h, ← star_sum, sum_pairs n fun i j => star (word n k i j) * word n l i j,
    word_orth n k l (by rw [four]; exact k.2) (by rw [four]; exact l.2)]
  by_cases hkl : k = l
  · simp [hkl]
  · rw [if_neg (fun e => hkl (Fin.ext e))]
    simp [hkl]

variable {n r : ℕ} {K : Fin r → Matrix (Fin (2 ^ n)) (Fin (2 ^ n)) ℂ} {S : Arr ℂ}

/-- The component of an operator along a Pauli operator. -/
def comp (n k : ℕ) (A : Matrix (Fin (2 ^ n)) (Fin (2 ^ n)) ℂ) : ℂ := ((word n k)ᴴ * A).trace

theorem comp_eq (n k : ℕ) (A : Matrix (Fin (2 ^ n)) (Fin (2 ^ n)) ℂ) :
    comp n k A = ∑ p : Fin (2 ^ n * 2 ^ n), star (word n k (row n p) (col n p)) * A (row n p) (col n p) := by
  rw [sum_pairs n fun i j => star (word n k i j) * A i j]
  rfl

/-- C207: the entries of the chi matrix that the code computes for a process with Kraus operators `K`: with the
components `c_k = tr(P_k K)` entry `(k, l)` is the sum of `conj(c_k) c_l` over the Kraus operators. -/
theorem C207_entries (h : IsProcess n K S) : ∃ chi, choiToChi (superToChoi (2 ^ n) S) n = some chi ∧
    chi.rows = 2 ^ n * 2 ^ n ∧ chi.cols = 2 ^ n * 2 ^ n ∧ ∀ k l : Fin (2 ^ n * 2 ^ n),
      chi.e k l = ∑ x, star (comp n k (K x)) * comp n l (K x) := by
  obtain ⟨hr, hc, he⟩ := h
  have hBr : (pauliBasis n).rows = 2 ^ n * 2 ^ n := four n
  have hBc : (pauliBasis n).cols = 2 ^ n * 2 ^ n := four n
  unfold choiToChi arrMul arrAdj superToChoi
  simp only [hBr, hBc, hr, hc, if_true, Option.bind_eq_bind, Option.bind_some]
  refine ⟨_, rfl, rfl, rfl, fun k l => ?_⟩
  have hS : ∀ p q : Fin (2 ^ n * 2 ^ n), S.e ((q : ℕ) % 2 ^ n * 2 ^ n + p % 2 ^ n) ((q : ℕ) / 2 ^ n * 2 ^ n + p / 2 ^ n) =
      ∑ x, K x (row n q) (col n q) * star (K x (row n p) (col n p)) :=
    fun p q => he (row n q) (row n p) (col n q) (col n p)
  simp only [← sum_fin_eq (2 ^ n * 2 ^ n)]
  have h1 : ∀ q : Fin (2 ^ n * 2 ^ n), (∑ p : Fin (2 ^ n * 2 ^ n), star ((pauliBasis n).e p k) *
      S.e (q % 2 ^ n * 2 ^ n + p % 2 ^ n) (q / 2 ^ n * 2 ^ n + p / 2 ^ n)) * (pauliBasis n).e q l =
      ∑ x, star (comp n k (K x)) * (star (word n l (row n q) (col n q)) * K x (row n q) (col n q)) := by
    intro q
    simp only [hS, C207_basis, star_star, mul_sum]
    rw [sum_comm, sum_mul]
    refine Fintype.sum_congr _ _ fun x => ?_
    rw [comp_eq, star_sum, sum_mul, sum_mul]
    refine Fintype.sum_congr _ _ fun p => ?_
    rw [star_mul', star_star]
    ring
  rw [Fintype.sum_congr _ _ h1, sum_comm]
  refine Fintype.sum_congr _ _ fun x => ?_
  rw [← mul_sum, ← comp_eq]

/-- Every operator is the sum of its Pauli components. -/
theorem expand (n : ℕ) (A : Matrix (Fin (2 ^ n)) (Fin (2 ^ n)) ℂ) :
    (2 ^ n : ℂ) • A = ∑ k : Fin (2 ^ n * 2 ^ n), comp n k A • word n k := by
  set B := (pauliBasis n).mat (2 ^ n * 2 ^ n) (2 ^ n * 2 ^ n) with hB
  have h2 : (2 ^ n : ℂ) ≠ 0 := pow_ne_zero _ two_ne_zero
  have hBB : B * Bᴴ = (2 ^ n : ℂ) • 1 := by
    have h := C207_orthogonal n
    rw [← hB] at h
    have h3 : ((2 ^ n : ℂ)⁻¹ • Bᴴ) * B = 1 := by
      rw [Matrix.smul_mul, h, smul_smul, inv_mul_cancel₀ h2, one_smul]
    have h4 := mul_eq_one_comm.mp h3
    rw [Matrix.mul_smul] at h4
    rw [← h4, smul_smul, mul_inv_cancel₀ h2, one_smul]
  have hpq : ∀ p q : Fin (2 ^ n * 2 ^ n), ∑ k : Fin (2 ^ n * 2 ^ n), star (word n k (row n p) (col n p)) *
      word n k (row n q) (col n q) = if p = q then 2 ^ n else 0 := by
    intro p q
    have h := congrFun (congrFun hBB p) q
    rw [Matrix.mul_apply, Matrix.smul_apply, Matrix.one_apply] at h
    have e : ∀ k : Fin (2 ^ n * 2 ^ n), B p k * Bᴴ k q = star (word n k (row n p) (col n p)) *
        word n k (row n q) (col n q) := by
      intro k
      rw [conjTranspose_apply]
      change (pauliBasis n).e p k * star ((pauliBasis n).e q k) = _
      rw [C207_basis, C207_basis, star_star]
    rw [← Fintype.sum_congr _ _ e, h]
    split_ifs <;> simp
  ext i j
  let q : Fin (2 ^ n * 2 ^ n) := finProdFinEquiv (j, i)
  have hq : (col n q, row n q) = (j, i) := by
    have := finProdFinEquiv.symm_apply_apply (j, i)
    exact this
  have hi : row n q = i := (Prod.ext_iff.1 hq).2
  have hj : col n q = j := (Prod.ext_iff.1 hq).1
  rw [Matrix.sum_apply]
  simp only [Matrix.smul_apply, smul_eq_mul, comp_eq, sum_mul]
  rw [sum_comm]
  have e : ∀ p : Fin (2 ^ n * 2 ^ n), ∑ k : Fin (2 ^ n * 2 ^ n), star (word n k (row n p) (col n p)) *
      A (row n p) (col n p) * word n k i j = A (row n p) (col n p) * if p = q then 2 ^ n else 0 := by
    intro p
    rw [← hpq p q, mul_sum, hi, hj]
    exact Fintype.sum_congr _ _ fun k => by ring
  rw [Fintype.sum_congr _ _ e]
  simp only [mul_ite, mul_zero, sum_ite_eq', mem_univ, if_true, hi, hj]
  ring

theorem sigma_herm (x : ℕ) : (sigma x)ᴴ = sigma x := by
  match x with
  | 0 => simp [sigma]
  | 1 => ext i j; fin_cases i <;> fin_cases j <;> simp [sigma]
  | 2 => ext i j; fin_cases i <;> fin_cases j <;> simp [sigma]
  | (_ + 3) => ext i j; fin_cases i <;> fin_cases j <;> simp [sigma]

theorem word_herm (n k : ℕ) : (word n k)ᴴ = word n k := by
  ext i j
  rw [conjTranspose_apply]
  unfold word
  rw [star_prod]
  refine prod_congr rfl fun t _ => ?_
  conv_rhs => rw [← sigma_herm]
  rfl

/-- C207: the chi matrix determines the process. The output for `ρ` is `4 ^ -n` times the sum of
`chi[k, l] P_l ρ P_k`. Missing: the indices stand in the opposite order of the usual representation
`chi[k, l] P_k ρ P_l`, see `C207_false_order`. -/
theorem C207_process_partial (h : IsProcess n K S) (chi : Arr ℂ)
    (hc : choiToChi (superToChoi (2 ^ n) S) n = some chi) (ρ : Matrix (Fin (2 ^ n)) (Fin (2 ^ n)) ℂ) :
    (4 ^ n : ℂ) • ∑ x, K x * ρ * (K x)ᴴ =
      ∑ k : Fin (2 ^ n * 2 ^ n), ∑ l : Fin (2 ^ n * 2 ^ n), chi.e k l • (word n l * ρ * word n k) := by
  obtain ⟨chi', h1, -, -, h4⟩ := C207_entries h
  obtain rfl : chi = chi' := Option.some.inj (hc.symm.trans h1)
  have hx : ∀ x, (4 ^ n : ℂ) • (K x * ρ * (K x)ᴴ) = ∑ k : Fin (2 ^ n * 2 ^ n), ∑ l : Fin (2 ^ n * 2 ^ n),
      (star (comp n k (K x)) * comp n l (K x)) • (word n l * ρ * word n k) := by
    intro x
    have e1 := expand n (K x)
    have e2 : (2 ^ n : ℂ) • (K x)ᴴ = ∑ k : Fin (2 ^ n * 2 ^ n), star (comp n k (K x)) • word n k := by
      have := congrArg conjTranspose e1
      rw [conjTranspose_smul, conjTranspose_sum] at this
      simp only [conjTranspose_smul, word_herm] at this
      rw [← this]
      simp
    have e3 : (4 ^ n : ℂ) • (K x * ρ * (K x)ᴴ) = ((2 ^ n : ℂ) • K x) * ρ * ((2 ^ n : ℂ) • (K x)ᴴ) := by
      rw [Matrix.mul_smul, Matrix.smul_mul, Matrix.smul_mul, smul_smul, ← mul_pow]
      norm_num
    rw [e3, e1, e2, Matrix.mul_sum]
    refine Fintype.sum_congr _ _ fun k => ?_
    rw [Matrix.sum_mul, Matrix.sum_mul]
    refine Fintype.sum_congr _ _ fun l => ?_
    rw [Matrix.mul_smul, Matrix.smul_mul, Matrix.smul_mul, smul_smul]
  rw [smul_sum, Fintype.sum_congr _ _ hx, sum_comm]
  refine Fintype.sum_congr _ _ fun k => ?_
  rw [sum_comm]
  refine Fintype.sum_congr _ _ fun l => ?_
  rw [h4, sum_smul]

/-- C207: the chi matrix of a process is positive semidefinite. -/
theorem C207_positive (h : IsProcess n K S) (chi : Arr ℂ) (hc : choiToChi (superToChoi (2 ^ n) S) n = some chi) :
    (chi.mat (2 ^ n * 2 ^ n) (2 ^ n * 2 ^ n)).PosSemidef := by
  obtain ⟨chi', h1, -, -, h4⟩ := C207_entries h
  obtain rfl : chi = chi' := Option.some.inj (hc.symm.trans h1)
  let V : Matrix (Fin r) (Fin (2 ^ n * 2 ^ n)) ℂ := fun x k => comp n k (K x)
  have : chi.mat (2 ^ n * 2 ^ n) (2 ^ n * 2 ^ n) = Vᴴ * V := by
    ext k l
    exact h4 k l
  rw [this]
  exact posSemidef_conjTranspose_mul_self V

/-- C207: for a process that preserves the trace the diagonal of the chi matrix sums to `4 ^ n`; divided by it, it
is a probability distribution over the Pauli operators (nonnegative by `C207_positive`). -/
theorem C207_trace (h : IsProcess n K S) (hK : ∑ x, (K x)ᴴ * K x = 1) (chi : Arr ℂ)
    (hc : choiToChi (superToChoi (2 ^ n) S) n = some chi) : ∑ k : Fin (2 ^ n * 2 ^ n), chi.e k k = 4 ^ n := by
  obtain ⟨chi', h1, -, -, h4⟩ := C207_entries h
  obtain rfl : chi = chi' := Option.some.inj (hc.symm.trans h1)
  simp only [h4]
  rw [sum_comm]
  have hx : ∀ x, ∑ k : Fin (2 ^ n * 2 ^ n), star (comp n k (K x)) * comp n k (K x) = 2 ^ n * ((K x)ᴴ * K x).trace := by
    intro x
    have e1 := congrArg (fun M => ((K x)ᴴ * M).trace) (expand n (K x))
    simp only [Matrix.mul_smul, trace_smul, smul_eq_mul, Matrix.mul_sum, trace_sum] at e1
    rw [e1]
    refine Fintype.sum_congr _ _ fun k => ?_
    rw [mul_comm]
    congr 1
    unfold comp
    rw [← trace_conjTranspose, conjTranspose_mul, conjTranspose_conjTranspose]
  rw [Fintype.sum_congr _ _ hx, ← mul_sum, ← trace_sum, hK, trace_one, Fintype.card_fin]
  push_cast
  rw [← mul_pow]
  norm_num

/-- C207: a channel that applies Pauli operator `k` with probability `p k` has the chi matrix `4 ^ n p` on the
diagonal and nothing else. -/
theorem C207_pauli (p : Fin (2 ^ n * 2 ^ n) → ℝ) (hp : ∀ k, 0 ≤ p k)
    (h : IsProcess n (fun k => ((Real.sqrt (p k) : ℝ) : ℂ) • word n k) S) (chi : Arr ℂ)
    (hc : choiToChi (superToChoi (2 ^ n) S) n = some chi) (k l : Fin (2 ^ n * 2 ^ n)) :
    chi.e k l = if k = l then 4 ^ n * (p k : ℂ) else 0 := by
  obtain ⟨chi', h1, -, -, h4⟩ := C207_entries h
  obtain rfl : chi = chi' := Option.some.inj (hc.symm.trans h1)
  have hcomp : ∀ a x : Fin (2 ^ n * 2 ^ n), comp n a (((Real.sqrt (p x) : ℝ) : ℂ) • word n x) =
      if a = x then ((Real.sqrt (p x) : ℝ) : ℂ) * 2 ^ n else 0 := by
    intro a x
    have := word_orth n a x (by rw [four]; exact a.2) (by rw [four]; exact x.2)
    unfold comp
    rw [Matrix.mul_smul, trace_smul, smul_eq_mul]
    change _ * (∑ j, ∑ i, star (word n a i j) * word n x i j) = _
    rw [this]
    by_cases hax : a = x
    · simp [hax]
    · rw [if_neg (fun e => hax (Fin.ext e)), if_neg hax, mul_zero]
  rw [h4, sum_eq_single k]
  · rw [hcomp, hcomp, if_pos rfl]
    by_cases hkl : k = l
    · subst hkl
      rw [if_pos rfl, if_pos rfl]
      have hs : ((Real.sqrt (p k) : ℝ) : ℂ) * ((Real.sqrt (p k) : ℝ) : ℂ) = (p k : ℂ) := by
        rw [← Complex.ofReal_mul, Real.mul_self_sqrt (hp k)]
      rw [star_mul']
      have e1 : star ((Real.sqrt (p k) : ℝ) : ℂ) = ((Real.sqrt (p k) : ℝ) : ℂ) := Complex.conj_ofReal _
      have e2 : star ((2 : ℂ) ^ n) = 2 ^ n := by simp
      rw [e1, e2, ← hs, show (4 : ℂ) ^ n = 2 ^ n * 2 ^ n by rw [← mul_pow]; norm_num]
      ring
    · rw [if_neg hkl, if_neg (Ne.symm hkl), mul_zero]
  · intro x _ hx
    rw [hcomp, if_neg (Ne.symm hx)]
    simp
  · simp

/-- The quarter turn about the x axis on one qubit, as Kraus operator and as superoperator. -/
def quarter : Matrix (Fin (2 ^ 1)) (Fin (2 ^ 1)) ℂ := !![1, -Complex.I; -Complex.I, 1]

/-- C207: read in the usual order `chi[k, l] P_k ρ P_l` the chi matrix describes another process. For the quarter
turn about x (times the square root of two) and the ground state the off-diagonal of the output has the opposite
sign. -/
theorem C207_false_order : ∃ S chi, IsProcess 1 (fun _ : Fin 1 => quarter) S ∧
    choiToChi (superToChoi (2 ^ 1) S) 1 = some chi ∧
    (4 : ℂ) • (quarter * !![1, 0; 0, 0] * quarterᴴ) ≠
      ∑ k : Fin (2 ^ 1 * 2 ^ 1), ∑ l : Fin (2 ^ 1 * 2 ^ 1), chi.e k l • (word 1 k * !![1, 0; 0, 0] * word 1 l) := by
  have hS : IsProcess 1 (fun _ : Fin 1 => quarter) (superArr ⟨2, 2, fun i j => if i = j then 1 else -Complex.I⟩) := by
    refine ⟨rfl, rfl, ?_⟩
    intro a b c d
    fin_cases a <;> fin_cases b <;> fin_cases c <;> fin_cases d <;> simp [superArr, kron, quarter]
  obtain ⟨chi, hc, -, -, h4⟩ := C207_entries hS
  refine ⟨_, chi, hS, hc, ?_⟩
  intro h
  have hw : ∀ k : Fin (2 ^ 1 * 2 ^ 1), word 1 k = sigma k := by
    intro k
    ext i j
    fin_cases k <;> fin_cases i <;> fin_cases j <;> simp [word, dig]
  have e2 : ∀ F : Fin (2 ^ 1) → ℂ, ∑ k, F k = F 0 + F 1 := fun F => Fin.sum_univ_two F
  have e4 : ∀ F : Fin (2 ^ 1 * 2 ^ 1) → ℂ, ∑ k, F k = F 0 + F 1 + F 2 + F 3 := fun F => Fin.sum_univ_four F
  have hcm : ∀ k : Fin (2 ^ 1 * 2 ^ 1), comp 1 k quarter = if k = 0 then 2 else if k = 1 then -2 * Complex.I else 0 := by
    intro k
    change ∑ j, ∑ i, star (word 1 k i j) * quarter i j = _
    rw [hw]
    rw [e2]
    simp only [e2]
    fin_cases k <;> simp [sigma, quarter] <;> ring
  have h01 := congrFun (congrFun h 0) 1
  simp only [Matrix.sum_apply, Matrix.smul_apply, h4, Fin.sum_univ_one, hw, hcm] at h01
  rw [e4] at h01
  simp only [e4] at h01
  simp [sigma, quarter, Matrix.mul_apply] at h01
  have := congrArg Complex.im h01
  norm_num at this

end
end C3.Fidelity.Chi
