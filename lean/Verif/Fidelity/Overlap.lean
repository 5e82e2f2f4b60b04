import Verif.Fidelity.Project
import Mathlib.Analysis.SpecialFunctions.Pow.Complex
import Mathlib.Tactic.FieldSimp
import Mathlib.Tactic.Positivity

/-!
# C61, C62, C63: overlaps and average fidelities

Models `tf_unitary_overlap`, `tf_superoper_unitary_overlap`, `tf_average_fidelity`, `tf_super_to_fid`,
`tf_choi_to_chi`, `super_to_choi`, `tf_ketket_fid` (c3/utils/tf_utils.py:311-426), `pauli_basis`
(c3/utils/qt_utils.py:10-45) and the figures of merit of c3/libraries/fidelities.py:84-435.
-/

set_option linter.unusedSectionVars false

namespace C3.Fidelity

open Matrix Finset C3.Hilbert C3.Gates

/-! ## Model -/

/-- `tf.linalg.adjoint`. -/
noncomputable def arrAdj (a : Arr ℂ) : Arr ℂ := ⟨a.cols, a.rows, fun i j => star (a.e j i)⟩

/-- `tf.linalg.trace`. -/
def arrTrace (a : Arr ℂ) : ℂ := ∑ i ∈ range (min a.rows a.cols), a.e i i

/-- c3/utils/tf_utils.py:330-366 `tf_unitary_overlap` with the number of levels given. -/
noncomputable def unitaryOverlap (A B : Arr ℂ) (lvls : ℕ) : Option ℝ :=
  (arrMul A (arrAdj B)).map fun M => ‖arrTrace M / (lvls : ℂ)‖ ^ 2

/-- c3/libraries/fidelities.py:154-183 `unitary_infid`. -/
noncomputable def unitaryInfid (ideal actual : Arr ℂ) (index : Option (List ℕ)) (dims : List ℕ) :
    Option ℝ := do
  let index := index.getD (List.range dims.length)
  let comp ← projectToComp actual dims (.list index) false
  let o ← unitaryOverlap comp ideal (2 ^ index.length)
  some (1 - o)

/-- `tf_super` of an array: the Kronecker product with the conjugate (see `tfSuper_apply`). -/
noncomputable def superArr (L : Arr ℂ) : Arr ℂ :=
  kron L ⟨L.rows, L.cols, fun i j => star (L.e i j)⟩

/-- c3/utils/tf_utils.py:416-426 `super_to_choi` on arrays of `s * s` rows: reshape to four axes,
permute them to (3, 1, 2, 0) and reshape back. -/
def superToChoi (s : ℕ) (S : Arr ℂ) : Arr ℂ :=
  ⟨S.rows, S.cols, fun p q => S.e ((q % s) * s + p % s) ((q / s) * s + p / s)⟩

/-- `(Id, X, Y, Z)` (c3/utils/qt_utils.py:25). -/
noncomputable def paulis : List (Arr ℂ) :=
  [eye 2 2,
    ⟨2, 2, fun i j => if i = j then 0 else 1⟩,
    ⟨2, 2, fun i j => if i = j then 0 else if i = 0 then -Complex.I else Complex.I⟩,
    ⟨2, 2, fun i j => if i = j then (if i = 0 then 1 else -1) else 0⟩]

/-- c3/utils/qt_utils.py:10-45 `pauli_basis([2] * n)`. -/
noncomputable def pauliBasis (n : ℕ) : Arr ℂ :=
  ⟨4 ^ n, 4 ^ n, fun p idx =>
    star ((npKronN ((product (List.replicate n paulis)).getD idx [])).e (p % 2 ^ n) (p / 2 ^ n))⟩

/-- c3/utils/tf_utils.py:396-413 `tf_super_to_fid` with `tf_choi_to_chi` inlined; `n` is
`len(lvls)`. -/
noncomputable def superToFid (err : Arr ℂ) (s n : ℕ) : Option ℝ := do
  let B := pauliBasis n
  let BU ← arrMul (arrAdj B) (superToChoi s err)
  let chi ← arrMul BU B
  let d : ℂ := 2 ^ n
  some ‖(chi.e 0 0 / d + 1) / (d + 1)‖

/-- c3/utils/tf_utils.py:380-386 `tf_average_fidelity` with `lvls` of length `n`. -/
noncomputable def averageFidelity (A B : Arr ℂ) (n : ℕ) : Option ℝ := do
  let L ← arrMul (arrAdj A) B
  superToFid (superArr L) L.rows n

/-- c3/libraries/fidelities.py:290-311 `average_infid`. -/
noncomputable def averageInfid (ideal actual : Arr ℂ) (index : List ℕ) (dims : List ℕ) : Option ℝ := do
  let comp ← projectToComp actual dims (.list index) false
  let f ← averageFidelity comp ideal index.length
  some (1 - f)

/-- c3/libraries/fidelities.py:350-374 `average_infid_seq`: `gates` are the values of the propagators
together with `ideal` and `targets` of their instructions. -/
noncomputable def averageInfidSeq (gates : List (Arr ℂ × Option (Arr ℂ) × Option (List ℕ)))
    (index dims : List ℕ) : Option ℝ := do
  let fid ← gates.foldlM (fun fid g => do
    let perfect ← getIdealGate g.2.1 g.2.2 dims
    let infid ← averageInfid perfect g.1 index dims
    some (fid * (1 - infid))) 1
  some (1 - fid)

/-- c3/utils/tf_utils.py:388-394 `tf_superoper_average_fidelity`: `True` is passed in the position of
`index`. -/
noncomputable def superoperAverageFidelity (A B : Arr ℂ) (lvls : List ℕ) : Option ℝ := do
  let P ← projectToComp A lvls (.bool true) false
  let L ← arrMul (arrAdj P) B
  superToFid L (Nat.sqrt L.rows) lvls.length

/-- c3/libraries/fidelities.py:379-400 `lindbladian_average_infid`. -/
noncomputable def lindAverageInfid (ideal actual : Arr ℂ) (index dims : List ℕ) : Option ℝ := do
  let comp ← projectToComp actual dims (.list index) true
  let f ← superoperAverageFidelity comp (superArr ideal) dims
  some (1 - f)

/-- c3/utils/tf_utils.py:369-377 `tf_superoper_unitary_overlap` with the number of levels given. -/
noncomputable def superoperUnitaryOverlap (A B : Arr ℂ) (lvls : ℕ) : Option ℝ :=
  (arrMul A (arrAdj B)).map fun M => ‖(arrTrace M) ^ (1 / 2 : ℂ) / (lvls : ℂ)‖ ^ 2

/-- c3/libraries/fidelities.py:223-249 `lindbladian_unitary_infid`. -/
noncomputable def lindUnitaryInfid (ideal actual : Arr ℂ) (index dims : List ℕ) : Option ℝ := do
  let comp ← projectToComp actual dims (.list index) true
  let o ← superoperUnitaryOverlap comp (superArr ideal) (2 ^ index.length)
  some (1 - o)

/-- c3/libraries/fidelities.py:120-149 `state_transfer_infid` with `tf_ketket_fid`; `psi0` is a column
vector. -/
noncomputable def stateTransferInfid (ideal actual : Arr ℂ) (index dims : List ℕ) (psi0 : Arr ℂ) :
    Option ℝ := do
  let comp ← projectToComp actual dims (.list index) false
  let psiIdeal ← arrMul ideal psi0
  let psiActual ← arrMul comp psi0
  let o ← arrMul (arrAdj psiIdeal) psiActual
  some (1 - ‖o.e 0 0‖)

/-! ## Overlaps -/

section Overlap

variable {ι : Type*} [Fintype ι]

/-- Distance to the best multiple. -/
theorem sub_smul_sq (x y : ι → ℂ) (N : ℝ) (hN : 0 < N) (hy : ∑ i, ‖y i‖ ^ 2 = N) :
    ∑ i, ‖x i - (∑ j, x j * star (y j)) / (N : ℂ) * y i‖ ^ 2 =
      ∑ i, ‖x i‖ ^ 2 - ‖∑ j, x j * star (y j)‖ ^ 2 / N := by
  set s := ∑ j, x j * star (y j) with hs
  have hterm : ∀ i, ‖x i - s / (N : ℂ) * y i‖ ^ 2 =
      ‖x i‖ ^ 2 + ‖s‖ ^ 2 / N ^ 2 * ‖y i‖ ^ 2 - 2 / N * (star s * (x i * star (y i))).re := by
    intro i
    have h1 : ‖x i - s / (N : ℂ) * y i‖ ^ 2 = ‖x i‖ ^ 2 + ‖s / (N : ℂ) * y i‖ ^ 2 -
        2 * (x i * star (s / (N : ℂ) * y i)).re := by
      rw [← Complex.normSq_eq_norm_sq, ← Complex.normSq_eq_norm_sq, ← Complex.normSq_eq_norm_sq,
        Complex.normSq_sub]
      rfl
    rw [h1, norm_mul, norm_div, Complex.norm_real, mul_pow, div_pow, Real.norm_eq_abs, sq_abs]
    have h2 : x i * star (s / (N : ℂ) * y i) = ((1 / N : ℝ) : ℂ) * (star s * (x i * star (y i))) := by
      rw [star_mul', star_div₀]
      have : star (N : ℂ) = N := Complex.conj_ofReal N
      rw [this]
      push_cast
      ring
    rw [h2, Complex.re_ofReal_mul]
    ring
  simp only [hterm]
  rw [Finset.sum_sub_distrib, Finset.sum_add_distrib, ← Finset.mul_sum, ← Finset.mul_sum, hy,
    ← Complex.re_sum, ← Finset.mul_sum, ← hs]
  have h3 : (star s * s).re = ‖s‖ ^ 2 := by
    rw [← Complex.normSq_eq_norm_sq, mul_comm]
    exact congrArg Complex.re (Complex.mul_conj s)
  rw [h3]
  field_simp
  ring

/-- Cauchy-Schwarz with the equality case. -/
theorem overlap_le (x y : ι → ℂ) (N : ℝ) (hN : 0 < N) (hy : ∑ i, ‖y i‖ ^ 2 = N)
    (hx : ∑ i, ‖x i‖ ^ 2 ≤ N) :
    ‖∑ j, x j * star (y j)‖ ≤ N ∧
      (‖∑ j, x j * star (y j)‖ = N ↔ ∃ c : ℂ, ‖c‖ = 1 ∧ ∀ i, x i = c * y i) := by
  have h := sub_smul_sq x y N hN hy
  set s := ∑ j, x j * star (y j) with hs
  have hnn : 0 ≤ ∑ i, ‖x i - s / (N : ℂ) * y i‖ ^ 2 := sum_nonneg fun _ _ => sq_nonneg _
  have hle : ‖s‖ ≤ N := by
    rw [h] at hnn
    have h2 : ‖s‖ ^ 2 / N ≤ N := by linarith
    rw [div_le_iff₀ hN] at h2
    nlinarith [norm_nonneg s]
  refine ⟨hle, ?_, ?_⟩
  · intro he
    have h0 : ∑ i, ‖x i - s / (N : ℂ) * y i‖ ^ 2 = 0 := by
      apply le_antisymm _ hnn
      rw [h, he, pow_two, mul_div_assoc, div_self hN.ne', mul_one]
      linarith
    rw [sum_eq_zero_iff_of_nonneg fun _ _ => sq_nonneg _] at h0
    refine ⟨s / (N : ℂ), ?_, fun i => ?_⟩
    · rw [norm_div, Complex.norm_real, Real.norm_eq_abs, abs_of_pos hN, he, div_self hN.ne']
    · have := h0 i (mem_univ i)
      rw [sq_eq_zero_iff, norm_eq_zero, sub_eq_zero] at this
      exact this
  · rintro ⟨c, hc, hxy⟩
    have : s = c * (N : ℂ) := by
      rw [hs, ← hy]
      push_cast
      rw [mul_sum]
      apply sum_congr rfl
      intro i _
      rw [hxy, mul_assoc]
      congr 1
      exact Complex.mul_conj' (y i)
    rw [this, norm_mul, hc, one_mul, Complex.norm_real, Real.norm_eq_abs, abs_of_pos hN]

end Overlap

section Matrices

variable {m n : Type*} [Fintype m] [DecidableEq m] [Fintype n] [DecidableEq n]

theorem col_norm (U : Matrix n n ℂ) (hU : Uᴴ * U = 1) (j : n) : ∑ i, ‖U i j‖ ^ 2 = 1 := by
  have h := congrFun (congrFun hU j) j
  rw [Matrix.mul_apply, Matrix.one_apply_eq] at h
  have h2 : ((∑ i, ‖U i j‖ ^ 2 : ℝ) : ℂ) = 1 := by
    rw [← h]
    push_cast
    apply sum_congr rfl
    intro i _
    rw [Matrix.conjTranspose_apply]
    exact (Complex.conj_mul' (U i j)).symm
  exact_mod_cast h2

theorem sum_norm_unitary (U : Matrix n n ℂ) (hU : Uᴴ * U = 1) :
    ∑ p : n × n, ‖U p.1 p.2‖ ^ 2 = Fintype.card n := by
  rw [Fintype.sum_prod_type_right]
  simp only [col_norm U hU]
  simp

theorem sum_norm_block (U : Matrix n n ℂ) (hU : Uᴴ * U = 1) (f : m → n) (hf : Function.Injective f) :
    ∑ p : m × m, ‖U (f p.1) (f p.2)‖ ^ 2 ≤ Fintype.card m := by
  rw [Fintype.sum_prod_type_right]
  have : ∀ j, ∑ i, ‖U (f i) (f j)‖ ^ 2 ≤ 1 := by
    intro j
    rw [← col_norm U hU (f j)]
    have := sum_image (s := univ) (f := fun i => ‖U i (f j)‖ ^ 2) (g := f)
      (fun a _ b _ h => hf h)
    rw [← this]
    exact sum_le_univ_sum_of_nonneg fun _ => sq_nonneg _
  calc ∑ j, ∑ i, ‖U (f i) (f j)‖ ^ 2 ≤ ∑ _j : m, (1 : ℝ) := sum_le_sum fun j _ => this j
    _ = Fintype.card m := by simp

theorem trace_mul_adj (A B : Matrix n n ℂ) :
    (A * Bᴴ).trace = ∑ p : n × n, A p.1 p.2 * star (B p.1 p.2) := by
  rw [Fintype.sum_prod_type]
  rfl

/-- The trace overlap of a block of a unitary with a unitary. -/
theorem block_overlap [Nonempty m] (U : Matrix n n ℂ) (hU : Uᴴ * U = 1) (f : m → n)
    (hf : Function.Injective f) (V : Matrix m m ℂ) (hV : Vᴴ * V = 1) :
    ‖(U.submatrix f f * Vᴴ).trace‖ ≤ Fintype.card m ∧
      (‖(U.submatrix f f * Vᴴ).trace‖ = Fintype.card m ↔
        ∃ c : ℂ, ‖c‖ = 1 ∧ U.submatrix f f = c • V) := by
  rw [trace_mul_adj]
  have hN : (0 : ℝ) < Fintype.card m := by exact_mod_cast Fintype.card_pos
  obtain ⟨h1, h2⟩ := overlap_le (fun p : m × m => U.submatrix f f p.1 p.2) (fun p : m × m => V p.1 p.2)
    (Fintype.card m) hN (sum_norm_unitary V hV) (sum_norm_block U hU f hf)
  refine ⟨h1, h2.trans ?_⟩
  constructor
  · rintro ⟨c, hc, h⟩
    refine ⟨c, hc, ?_⟩
    ext i j
    exact h (i, j)
  · rintro ⟨c, hc, h⟩
    refine ⟨c, hc, fun p => ?_⟩
    rw [h]
    rfl

end Matrices

/-! ## From arrays to matrices -/

theorem arrTrace_mul_adj (A B : Arr ℂ) (q : ℕ) (hA : A.rows = q) (hA' : A.cols = q) (hB : B.rows = q)
    (hB' : B.cols = q) :
    ∃ M, arrMul A (arrAdj B) = some M ∧ arrTrace M = ((A.mat q q) * (B.mat q q)ᴴ).trace := by
  unfold arrMul arrAdj
  simp only [hA, hA', hB, hB', if_true]
  refine ⟨_, rfl, ?_⟩
  unfold arrTrace
  simp only [min_self]
  rw [Finset.sum_range]
  apply sum_congr rfl
  intro i _
  rw [Finset.sum_range]
  rfl

/-- C61: the value of `unitary_infid` is one minus the squared trace overlap of the ideal gate with the
computational block of the propagator. -/
theorem C61_value (ideal actual : Arr ℂ) (dims index : List ℕ) (hd : ∀ d ∈ dims, 2 ≤ d)
    (hne : index ≠ []) (hnd : index.Nodup) (hlt : ∀ i ∈ index, i < dims.length)
    (hr : actual.rows = dims.prod) (hc : actual.cols = dims.prod)
    (hir : ideal.rows = 2 ^ index.length) (hic : ideal.cols = 2 ^ index.length) :
    unitaryInfid ideal actual (some index) dims =
      some (1 - (‖((actual.mat dims.prod dims.prod).submatrix (compEmb dims index hd)
        (compEmb dims index hd) * (ideal.mat (outDims dims index).prod (outDims dims index).prod)ᴴ).trace‖
          / 2 ^ index.length) ^ 2) := by
  have hp := outDims_prod dims index hnd hlt
  obtain ⟨i, l, rfl⟩ := List.exists_cons_of_ne_nil hne
  obtain ⟨C, h1, h2, h3, h4⟩ := C64_submatrix actual dims (.list (i :: l)) (by simp) hd hr hc
  change C.rows = (outDims dims (i :: l)).prod at h2
  change C.cols = (outDims dims (i :: l)).prod at h3
  change C.mat (outDims dims (i :: l)).prod (outDims dims (i :: l)).prod =
    (actual.mat dims.prod dims.prod).submatrix (compEmb dims (i :: l) hd) (compEmb dims (i :: l) hd) at h4
  obtain ⟨M, hM, ht⟩ := arrTrace_mul_adj C ideal (outDims dims (i :: l)).prod h2 h3 (by rw [hir, hp])
    (by rw [hic, hp])
  unfold unitaryInfid
  simp only [Option.getD_some, Option.bind_eq_bind, h1, Option.bind_some]
  unfold unitaryOverlap
  rw [hM]
  simp only [Option.map_some, Option.bind_some]
  rw [ht, h4, norm_div]
  simp

/-- C61: for a unitary propagator and a unitary ideal gate `unitary_infid` lies in [0, 1] (also with
leakage out of the computational space), and it is zero exactly if the computational block equals the
ideal gate up to a global phase. -/
theorem C61_range (ideal actual : Arr ℂ) (dims index : List ℕ) (hd : ∀ d ∈ dims, 2 ≤ d)
    (hne : index ≠ []) (hnd : index.Nodup) (hlt : ∀ i ∈ index, i < dims.length)
    (hr : actual.rows = dims.prod) (hc : actual.cols = dims.prod)
    (hir : ideal.rows = 2 ^ index.length) (hic : ideal.cols = 2 ^ index.length)
    (hU : (actual.mat dims.prod dims.prod)ᴴ * actual.mat dims.prod dims.prod = 1)
    (hV : (ideal.mat (outDims dims index).prod (outDims dims index).prod)ᴴ *
      ideal.mat (outDims dims index).prod (outDims dims index).prod = 1) :
    ∃ x, unitaryInfid ideal actual (some index) dims = some x ∧ 0 ≤ x ∧ x ≤ 1 ∧
      (x = 0 ↔ ∃ c : ℂ, ‖c‖ = 1 ∧
        (actual.mat dims.prod dims.prod).submatrix (compEmb dims index hd) (compEmb dims index hd) =
          c • ideal.mat (outDims dims index).prod (outDims dims index).prod) := by
  have hp := outDims_prod dims index hnd hlt
  have : Nonempty (Fin (outDims dims index).prod) := ⟨⟨0, by rw [hp]; positivity⟩⟩
  obtain ⟨h1, h2⟩ := block_overlap _ hU _ (compEmb_injective dims index hd) _ hV
  refine ⟨_, C61_value ideal actual dims index hd hne hnd hlt hr hc hir hic, ?_⟩
  have hcard : (Fintype.card (Fin (outDims dims index).prod) : ℝ) = 2 ^ index.length := by
    rw [Fintype.card_fin, hp]
    push_cast
    rfl
  rw [hcard] at h1 h2
  rw [← h2]
  set t := ‖((actual.mat dims.prod dims.prod).submatrix (compEmb dims index hd)
        (compEmb dims index hd) * (ideal.mat (outDims dims index).prod
          (outDims dims index).prod)ᴴ).trace‖
  have hpos : (0 : ℝ) < 2 ^ index.length := by positivity
  have ht0 : 0 ≤ t := norm_nonneg _
  have hq : t / 2 ^ index.length ≤ 1 := by rw [div_le_one hpos]; exact h1
  have hq0 : 0 ≤ t / 2 ^ index.length := by positivity
  refine ⟨by nlinarith, by nlinarith, ?_⟩
  rw [← div_eq_one_iff_eq hpos.ne']
  constructor
  · intro h
    nlinarith
  · intro h
    rw [h]
    norm_num

/-- C61: invariant under a global phase of the propagator and of the ideal gate. -/
theorem C61_phase {m n : Type*} [Fintype m] [DecidableEq m] [Fintype n] [DecidableEq n]
    (U : Matrix n n ℂ) (f : m → n) (V : Matrix m m ℂ) (c c' : ℂ) (hc : ‖c‖ = 1) (hc' : ‖c'‖ = 1) :
    ‖((c • U).submatrix f f * (c' • V)ᴴ).trace‖ = ‖(U.submatrix f f * Vᴴ).trace‖ := by
  rw [Matrix.submatrix_smul, Matrix.conjTranspose_smul]
  simp only [Pi.smul_apply, Matrix.smul_mul, Matrix.mul_smul, smul_smul, Matrix.trace_smul]
  rw [norm_smul, norm_mul, norm_star, hc, hc']
  simp

/-- C61: without an index all subsystems are compared. -/
theorem C61_default (ideal actual : Arr ℂ) (dims : List ℕ) :
    unitaryInfid ideal actual none dims = unitaryInfid ideal actual (some (List.range dims.length)) dims :=
  rfl

/-- C61: with an empty index the projection is onto all qubits but the overlap is normalised for
none: the "infidelity" of a perfect qubit gate is -3. -/
theorem C61_false_empty_index : unitaryInfid (eye 2 2) (eye 2 2) (some []) [2] = some (-3) := by
  obtain ⟨C, h1, h2, h3, h4⟩ := C64_submatrix (eye 2 2) [2] (.list []) (by simp) (by simp) rfl rfl
  have hod : outDims [2] (effIndex [2] (.list [])) = [2] := by decide
  have hprod : (outDims [2] (effIndex [2] (.list []))).prod = 2 := by rw [hod]; rfl
  obtain ⟨M, hM, ht⟩ := arrTrace_mul_adj C (eye 2 2) _ h2 h3 hprod.symm hprod.symm
  unfold unitaryInfid
  simp only [Option.getD_some, Option.bind_eq_bind, h1, Option.bind_some]
  unfold unitaryOverlap
  rw [hM]
  simp only [Option.map_some, Option.bind_some]
  rw [ht, h4]
  have he : ∀ N, (eye 2 2 : Arr ℂ).mat N N = 1 := by
    intro N
    ext i j
    simp [Arr.mat, eye, Matrix.one_apply, Fin.ext_iff]
  have e1 : (eye 2 2 : Arr ℂ).mat [2].prod [2].prod = 1 := he _
  have e2 : (eye 2 2 : Arr ℂ).mat (outDims [2] (effIndex [2] (.list []))).prod
      (outDims [2] (effIndex [2] (.list []))).prod = 1 := he _
  rw [e1, e2, Matrix.submatrix_one _ (compEmb_injective _ _ _), Matrix.conjTranspose_one, Matrix.mul_one,
    Matrix.trace_one, Fintype.card_fin, hprod]
  norm_num

/-! ## C62 -/

section State

variable {m n : Type*} [Fintype m] [DecidableEq m] [Fintype n] [DecidableEq n]

theorem sum_norm_mulVec (U : Matrix n n ℂ) (hU : Uᴴ * U = 1) (v : n → ℂ) :
    ∑ i, ‖(U *ᵥ v) i‖ ^ 2 = ∑ i, ‖v i‖ ^ 2 := by
  have h : ∀ w : n → ℂ, ((∑ i, ‖w i‖ ^ 2 : ℝ) : ℂ) = star w ⬝ᵥ w := by
    intro w
    push_cast
    apply sum_congr rfl
    intro i _
    exact (Complex.conj_mul' (w i)).symm
  have h2 : ((∑ i, ‖(U *ᵥ v) i‖ ^ 2 : ℝ) : ℂ) = ((∑ i, ‖v i‖ ^ 2 : ℝ) : ℂ) := by
    rw [h, h, Matrix.star_mulVec, Matrix.dotProduct_mulVec, Matrix.vecMul_vecMul, hU, Matrix.vecMul_one]
  exact_mod_cast h2

/-- A block of a unitary does not increase the norm. -/
theorem sum_norm_block_mulVec (U : Matrix n n ℂ) (hU : Uᴴ * U = 1) (f : m → n)
    (hf : Function.Injective f) (v : m → ℂ) :
    ∑ i, ‖(U.submatrix f f *ᵥ v) i‖ ^ 2 ≤ ∑ i, ‖v i‖ ^ 2 := by
  classical
  -- extend the vector by zeros
  set w : n → ℂ := fun k => ∑ i, if f i = k then v i else 0 with hw
  have hwf : ∀ i, w (f i) = v i := by
    intro i
    simp only [hw]
    rw [sum_eq_single i]
    · simp
    · intro j _ hne
      rw [if_neg fun h => hne (hf h)]
    · simp
  have hw0 : ∀ k, (∀ i, f i ≠ k) → w k = 0 := by
    intro k hk
    simp only [hw]
    apply sum_eq_zero
    intro i _
    rw [if_neg (hk i)]
  have hsum : ∀ g : n → ℂ, ∑ k, g k * w k = ∑ i, g (f i) * v i := by
    intro g
    symm
    refine Fintype.sum_of_injective f hf _ _ ?_ ?_
    · intro k hk
      rw [hw0 k fun i h => hk ⟨i, h⟩, mul_zero]
    · intro i
      rw [hwf]
  have hnorm : ∑ k, ‖w k‖ ^ 2 = ∑ i, ‖v i‖ ^ 2 := by
    symm
    refine Fintype.sum_of_injective f hf _ _ ?_ ?_
    · intro k hk
      rw [hw0 k fun i h => hk ⟨i, h⟩]
      simp
    · intro i
      rw [hwf]
  have hrow : ∀ i, (U.submatrix f f *ᵥ v) i = (U *ᵥ w) (f i) := by
    intro i
    exact (hsum fun k => U (f i) k).symm
  simp only [hrow]
  rw [← hnorm, ← sum_norm_mulVec U hU w]
  have := sum_image (s := univ) (f := fun k => ‖(U *ᵥ w) k‖ ^ 2) (g := f) (fun a _ b _ h => hf h)
  rw [← this]
  exact sum_le_univ_sum_of_nonneg fun _ => sq_nonneg _

/-- Overlap of two states: at most one, and one exactly if they agree up to a phase. -/
theorem ket_overlap (a b : m → ℂ) (ha : ∑ i, ‖a i‖ ^ 2 = 1) (hb : ∑ i, ‖b i‖ ^ 2 ≤ 1) :
    ‖∑ i, star (a i) * b i‖ ≤ 1 ∧
      (‖∑ i, star (a i) * b i‖ = 1 ↔ ∃ c : ℂ, ‖c‖ = 1 ∧ b = c • a) := by
  have h := overlap_le b a 1 one_pos ha hb
  have he : ∑ i, star (a i) * b i = ∑ j, b j * star (a j) := sum_congr rfl fun i _ => mul_comm _ _
  rw [he]
  refine ⟨h.1, h.2.trans ?_⟩
  constructor
  · rintro ⟨c, hc, hx⟩
    exact ⟨c, hc, funext hx⟩
  · rintro ⟨c, hc, rfl⟩
    exact ⟨c, hc, fun i => rfl⟩

end State

/-- Column vector of an array. -/
def colVec (a : Arr ℂ) (q : ℕ) : Fin q → ℂ := fun i => a.e i 0

/-- C62: for a unitary propagator, a unitary ideal gate and a normalised state of the computational
space `state_transfer_infid` lies in [0, 1] and vanishes exactly if the transferred state is the ideal one
up to a phase. -/
theorem C62_state (ideal actual psi0 : Arr ℂ) (dims index : List ℕ) (hd : ∀ d ∈ dims, 2 ≤ d)
    (hne : index ≠ []) (hnd : index.Nodup) (hlt : ∀ i ∈ index, i < dims.length)
    (hr : actual.rows = dims.prod) (hc : actual.cols = dims.prod)
    (hir : ideal.rows = 2 ^ index.length) (hic : ideal.cols = 2 ^ index.length)
    (hpr : psi0.rows = 2 ^ index.length)
    (hU : (actual.mat dims.prod dims.prod)ᴴ * actual.mat dims.prod dims.prod = 1)
    (hV : (ideal.mat (outDims dims index).prod (outDims dims index).prod)ᴴ *
      ideal.mat (outDims dims index).prod (outDims dims index).prod = 1)
    (hn : ∑ i, ‖colVec psi0 (outDims dims index).prod i‖ ^ 2 = 1) :
    ∃ x, stateTransferInfid ideal actual index dims psi0 = some x ∧ 0 ≤ x ∧ x ≤ 1 ∧
      (x = 0 ↔ ∃ c : ℂ, ‖c‖ = 1 ∧
        (actual.mat dims.prod dims.prod).submatrix (compEmb dims index hd) (compEmb dims index hd) *ᵥ
            colVec psi0 (outDims dims index).prod =
          c • (ideal.mat (outDims dims index).prod (outDims dims index).prod *ᵥ
            colVec psi0 (outDims dims index).prod)) := by
  have hp := outDims_prod dims index hnd hlt
  obtain ⟨i, l, rfl⟩ := List.exists_cons_of_ne_nil hne
  obtain ⟨C, h1, h2, h3, h4⟩ := C64_submatrix actual dims (.list (i :: l)) (by simp) hd hr hc
  change C.rows = (outDims dims (i :: l)).prod at h2
  change C.cols = (outDims dims (i :: l)).prod at h3
  change C.mat (outDims dims (i :: l)).prod (outDims dims (i :: l)).prod =
    (actual.mat dims.prod dims.prod).submatrix (compEmb dims (i :: l) hd) (compEmb dims (i :: l) hd) at h4
  rw [← hp] at hir hic hpr
  set q := (outDims dims (i :: l)).prod
  have hval : stateTransferInfid ideal actual (i :: l) dims psi0 =
      some (1 - ‖∑ k, star ((ideal.mat q q *ᵥ colVec psi0 q) k) * (C.mat q q *ᵥ colVec psi0 q) k‖) := by
    unfold stateTransferInfid
    simp only [Option.bind_eq_bind, h1, Option.bind_some]
    unfold arrMul arrAdj
    simp only [hir, hic, hpr, h2, h3, if_true, Option.bind_some]
    rw [Finset.sum_range]
    congr 4
    funext k
    rw [Finset.sum_range, Finset.sum_range]
    rfl
  have hov := ket_overlap (ideal.mat q q *ᵥ colVec psi0 q) (C.mat q q *ᵥ colVec psi0 q)
    (by rw [sum_norm_mulVec _ hV, hn])
    (by rw [h4, ← hn]; exact sum_norm_block_mulVec _ hU _ (compEmb_injective dims _ hd) _)
  refine ⟨_, hval, by linarith [hov.1], by linarith [norm_nonneg (∑ k, star ((ideal.mat q q *ᵥ
    colVec psi0 q) k) * (C.mat q q *ᵥ colVec psi0 q) k)], ?_⟩
  rw [← h4, ← hov.2]
  constructor <;> intro h <;> linarith

end C3.Fidelity
