import Verif.Fidelity.Overlap

/-!
# C63, C100-C103: average fidelities and the open-system figures of merit

Theorems about the models of `Verif/Fidelity/Overlap.lean`.
-/

set_option linter.unusedSectionVars false

namespace C3.Fidelity

open Matrix Finset C3.Hilbert C3.Gates

/-! ## The first element of the chi matrix -/

theorem pauliBasis_zero (n p : ℕ) (hp : p < 2 ^ n * 2 ^ n) :
    (pauliBasis n).e p 0 = if p % 2 ^ n = p / 2 ^ n then 1 else 0 := by
  have hprod : ∀ n, (product (List.replicate n paulis)).getD 0 [] = List.replicate n (eye 2 2) ∧
      0 < (product (List.replicate n paulis)).length := by
    intro n
    induction n with
    | zero => exact ⟨rfl, by decide⟩
    | succ n ih =>
      rw [List.replicate_succ, List.replicate_succ]
      obtain ⟨h1, h2⟩ := ih
      obtain ⟨x, xs, hx⟩ : ∃ x xs, product (List.replicate n paulis) = x :: xs := by
        cases h : product (List.replicate n paulis) with
        | nil => rw [h] at h2; simp at h2
        | cons x xs => exact ⟨x, xs, rfl⟩
      rw [hx] at h1
      simp only [List.getD_cons_zero] at h1
      subst h1
      constructor
      · show (List.flatMap _ (eye 2 2 :: _)).getD 0 [] = _
        rw [List.flatMap_cons, hx]
        rfl
      · show 0 < (List.flatMap _ (eye 2 2 :: _)).length
        rw [List.flatMap_cons, hx]
        simp
  unfold pauliBasis
  simp only
  rw [(hprod n).1]
  have hmr : (List.replicate n (eye 2 2 : Arr ℂ)).map (·.rows) = List.replicate n 2 := by
    simp [eye]
  have hmc : (List.replicate n (eye 2 2 : Arr ℂ)).map (·.cols) = List.replicate n 2 := by
    simp [eye]
  have hpr : (List.replicate n 2).prod = 2 ^ n := by simp
  have hpos : 0 < 2 ^ n := by positivity
  obtain ⟨l, hl, hle⟩ := exists_flat (List.replicate n 2) (p % 2 ^ n) (by rw [hpr]; exact Nat.mod_lt _ hpos)
  obtain ⟨m, hm, hme⟩ := exists_flat (List.replicate n 2) (p / 2 ^ n)
    (by rw [hpr]; exact Nat.div_lt_of_lt_mul hp)
  have h := npKronN_e (List.replicate n (eye 2 2 : Arr ℂ)) l m (by rw [hmr]; exact hl)
    (by rw [hmc]; exact hm)
  rw [hmr, hmc, hle, hme] at h
  rw [h, ← hle, ← hme, if_congr (flat_inj hl hm) rfl rfl]
  have hlen : ∀ x, Valid (List.replicate n 2) x → x.length = n := by
    intro x hx
    rw [valid_length hx, List.length_replicate]
  unfold prodE
  rw [List.length_replicate]
  have hterm : ∀ t ∈ range n, ((List.replicate n (eye 2 2 : Arr ℂ)).getD t (eye 0 0)).e (l.getD t 0)
      (m.getD t 0) = if l.getD t 0 = m.getD t 0 then 1 else 0 := by
    intro t ht
    rw [mem_range] at ht
    rw [List.getD_eq_getElem?_getD, List.getElem?_replicate, if_pos ht]
    rfl
  rw [prod_congr rfl hterm]
  split
  · next he => simp [he]
  · next hne =>
    have : ∃ t ∈ range n, l.getD t 0 ≠ m.getD t 0 := by
      by_contra hcon
      push Not at hcon
      apply hne
      apply List.ext_getElem (by rw [hlen l hl, hlen m hm])
      intro t h1 h2
      have := hcon t (mem_range.2 (by rw [← hlen l hl]; exact h1))
      rwa [List.getD_eq_getElem _ _ h1, List.getD_eq_getElem _ _ h2] at this
    obtain ⟨t, ht, hne⟩ := this
    rw [prod_eq_zero ht (if_neg hne)]
    simp

/-- Selecting the diagonal of a doubled index. -/
theorem sum_diag_sel (s : ℕ) (hs : 0 < s) (G : ℕ → ℕ → ℂ) :
    ∑ p ∈ range (s * s), (if p % s = p / s then 1 else 0) * G (p % s) (p / s) = ∑ i ∈ range s, G i i := by
  rw [sum_range_mul]
  apply sum_congr rfl
  intro x hx
  rw [mem_range] at hx
  have hdm : ∀ y ∈ range s, (x * s + y) % s = y ∧ (x * s + y) / s = x := by
    intro y hy
    rw [mem_range] at hy
    rw [Nat.mul_comm x s, Nat.mul_add_mod, Nat.mod_eq_of_lt hy, Nat.mul_add_div hs, Nat.div_eq_of_lt hy]
    simp
  rw [sum_congr rfl fun y hy => by rw [(hdm y hy).1, (hdm y hy).2]]
  rw [sum_eq_single x]
  · simp
  · intro y _ hne
    rw [if_neg hne, zero_mul]
  · intro h
    exact absurd (mem_range.2 hx) h

/-- The fidelity read off a superoperator: only its trace matters. -/
theorem superToFid_value (S : Arr ℂ) (n : ℕ) (hr : S.rows = 2 ^ n * 2 ^ n) (hc : S.cols = 2 ^ n * 2 ^ n) :
    superToFid S (2 ^ n) n = some ‖(arrTrace S / (2 : ℂ) ^ n + 1) / ((2 : ℂ) ^ n + 1)‖ := by
  have h4 : (4 : ℕ) ^ n = 2 ^ n * 2 ^ n := by
    rw [← mul_pow]
    norm_num
  have hs : 0 < 2 ^ n := by positivity
  unfold superToFid
  have hBr : (pauliBasis n).rows = 2 ^ n * 2 ^ n := h4
  have hBc : (pauliBasis n).cols = 2 ^ n * 2 ^ n := h4
  unfold arrMul arrAdj superToChoi
  simp only [hBr, hBc, hr, hc, if_true, Option.bind_eq_bind, Option.bind_some]
  have h0 : ∀ q ∈ range (2 ^ n * 2 ^ n),
      (∑ k ∈ range (2 ^ n * 2 ^ n), star ((pauliBasis n).e k 0) *
        S.e (q % 2 ^ n * 2 ^ n + k % 2 ^ n) (q / 2 ^ n * 2 ^ n + k / 2 ^ n)) * (pauliBasis n).e q 0 =
      (if q % 2 ^ n = q / 2 ^ n then 1 else 0) * ∑ i ∈ range (2 ^ n),
        S.e (q % 2 ^ n * 2 ^ n + i) (q / 2 ^ n * 2 ^ n + i) := by
    intro q hq
    rw [pauliBasis_zero n q (mem_range.1 hq), mul_comm]
    congr 1
    refine Eq.trans ?_ (sum_diag_sel (2 ^ n) hs (fun i j => S.e (q % 2 ^ n * 2 ^ n + i)
      (q / 2 ^ n * 2 ^ n + j)))
    apply sum_congr rfl
    intro k hk
    rw [pauliBasis_zero n k (mem_range.1 hk)]
    split <;> simp
  rw [sum_congr rfl h0, sum_diag_sel (2 ^ n) hs (fun a b => ∑ i ∈ range (2 ^ n),
    S.e (a * 2 ^ n + i) (b * 2 ^ n + i))]
  unfold arrTrace
  rw [hr, hc, min_self, sum_range_mul]

/-- The trace of the superoperator of `L` is `|tr L|²`. -/
theorem arrTrace_super (L : Arr ℂ) (q : ℕ) (hr : L.rows = q) (hc : L.cols = q) :
    arrTrace (superArr L) = ((‖arrTrace L‖ ^ 2 : ℝ) : ℂ) := by
  have hl : arrTrace L = ∑ i ∈ range q, L.e i i := by
    unfold arrTrace
    rw [hr, hc, min_self]
  have hs : arrTrace (superArr L) = ∑ p ∈ range (q * q), L.e (p / q) (p / q) * star (L.e (p % q) (p % q)) := by
    unfold arrTrace superArr kron
    simp only [hr, hc, min_self]
  rw [hs, sum_range_mul]
  have : ∀ x ∈ range q, ∀ y ∈ range q, L.e ((x * q + y) / q) ((x * q + y) / q) *
      star (L.e ((x * q + y) % q) ((x * q + y) % q)) = L.e x x * star (L.e y y) := by
    intro x hx y hy
    rw [mem_range] at hx hy
    rw [Nat.mul_comm x q, Nat.mul_add_mod, Nat.mod_eq_of_lt hy, Nat.mul_add_div (by omega),
      Nat.div_eq_of_lt hy, add_zero]
  rw [sum_congr rfl fun x hx => sum_congr rfl fun y hy => this x hx y hy]
  simp only [← mul_sum, ← sum_mul]
  rw [hl]
  have h2 : (∑ y ∈ range q, star (L.e y y)) = star (∑ y ∈ range q, L.e y y) := (star_sum _ _).symm
  rw [h2]
  push_cast
  exact Complex.mul_conj' _

/-- `tf_average_fidelity` in terms of the trace overlap. -/
theorem averageFidelity_value (A B : Arr ℂ) (n : ℕ) (hA : A.rows = 2 ^ n) (hA' : A.cols = 2 ^ n)
    (hB : B.rows = 2 ^ n) (hB' : B.cols = 2 ^ n) :
    averageFidelity A B n = some ((‖(A.mat (2 ^ n) (2 ^ n) * (B.mat (2 ^ n) (2 ^ n))ᴴ).trace‖ ^ 2 / 2 ^ n + 1)
      / (2 ^ n + 1)) := by
  unfold averageFidelity
  have hL : arrMul (arrAdj A) B = some ⟨2 ^ n, 2 ^ n, fun i j => ∑ k ∈ range (2 ^ n), star (A.e k i) * B.e k j⟩ := by
    unfold arrMul arrAdj
    simp only [hA, hA', hB, hB', if_true]
  rw [hL]
  simp only [Option.bind_eq_bind, Option.bind_some]
  rw [superToFid_value _ _ (by rfl) (by rfl), arrTrace_super _ (2 ^ n) rfl rfl]
  have ht : ‖arrTrace (⟨2 ^ n, 2 ^ n, fun i j => ∑ k ∈ range (2 ^ n), star (A.e k i) * B.e k j⟩ : Arr ℂ)‖ =
      ‖(A.mat (2 ^ n) (2 ^ n) * (B.mat (2 ^ n) (2 ^ n))ᴴ).trace‖ := by
    rw [trace_mul_adj, Fintype.sum_prod_type_right, ← norm_star]
    congr 1
    unfold arrTrace
    simp only [min_self]
    rw [star_sum, Finset.sum_range]
    apply sum_congr rfl
    intro i _
    rw [star_sum, Finset.sum_range]
    apply sum_congr rfl
    intro j _
    rw [star_mul', star_star]
    rfl
  rw [ht]
  congr 1
  have : (((‖(A.mat (2 ^ n) (2 ^ n) * (B.mat (2 ^ n) (2 ^ n))ᴴ).trace‖ ^ 2 : ℝ) : ℂ) / (2 : ℂ) ^ n + 1) /
      ((2 : ℂ) ^ n + 1) = (((‖(A.mat (2 ^ n) (2 ^ n) * (B.mat (2 ^ n) (2 ^ n))ᴴ).trace‖ ^ 2 / 2 ^ n + 1) /
        (2 ^ n + 1) : ℝ) : ℂ) := by
    push_cast
    rfl
  rw [this, Complex.norm_real, Real.norm_eq_abs, abs_of_nonneg (by positivity)]

/-! ## C63 -/

/-- C63: the four arrays of the Pauli basis are the identity and the Pauli matrices. -/
theorem C63_paulis : paulis.map (fun P => (P.rows, P.cols, P.mat 2 2)) =
    [(2, 2, 1), (2, 2, !![0, 1; 1, 0]), (2, 2, !![0, -Complex.I; Complex.I, 0]), (2, 2, !![1, 0; 0, -1])] := by
  have h : ∀ A B : Matrix (Fin 2) (Fin 2) ℂ, A 0 0 = B 0 0 → A 0 1 = B 0 1 → A 1 0 = B 1 0 → A 1 1 = B 1 1 → A = B := by
    intro A B h1 h2 h3 h4
    ext i j
    fin_cases i <;> fin_cases j <;> assumption
  simp only [paulis, List.map_cons, List.map_nil, List.cons.injEq, Prod.mk.injEq, and_true]
  refine ⟨⟨by trivial, by trivial, h _ _ ?_ ?_ ?_ ?_⟩, ⟨by trivial, by trivial, h _ _ ?_ ?_ ?_ ?_⟩, ⟨by trivial, by trivial, h _ _ ?_ ?_ ?_ ?_⟩, ⟨by trivial, by trivial, h _ _ ?_ ?_ ?_ ?_⟩⟩ <;>
    simp [Arr.mat, eye]

/-- C63: the average fidelity is `(d F + 1) / (d + 1)` with the unitary fidelity `F` and `d = 2 ^ n`:
the two figures of merit determine each other. -/
theorem C63_value (ideal actual : Arr ℂ) (dims index : List ℕ) (hd : ∀ d ∈ dims, 2 ≤ d)
    (hne : index ≠ []) (hnd : index.Nodup) (hlt : ∀ i ∈ index, i < dims.length)
    (hr : actual.rows = dims.prod) (hc : actual.cols = dims.prod)
    (hir : ideal.rows = 2 ^ index.length) (hic : ideal.cols = 2 ^ index.length) :
    ∃ x y, unitaryInfid ideal actual (some index) dims = some x ∧
      averageInfid ideal actual index dims = some y ∧
      y = 2 ^ index.length / (2 ^ index.length + 1) * x := by
  have hp := outDims_prod dims index hnd hlt
  refine ⟨_, _, C61_value ideal actual dims index hd hne hnd hlt hr hc hir hic, ?_, rfl⟩
  obtain ⟨i, l, rfl⟩ := List.exists_cons_of_ne_nil hne
  obtain ⟨C, h1, h2, h3, h4⟩ := C64_submatrix actual dims (.list (i :: l)) (by simp) hd hr hc
  change C.rows = (outDims dims (i :: l)).prod at h2
  change C.cols = (outDims dims (i :: l)).prod at h3
  change C.mat (outDims dims (i :: l)).prod (outDims dims (i :: l)).prod =
    (actual.mat dims.prod dims.prod).submatrix (compEmb dims (i :: l) hd) (compEmb dims (i :: l) hd) at h4
  unfold averageInfid
  simp only [Option.bind_eq_bind, h1, Option.bind_some]
  rw [averageFidelity_value C ideal _ (by rw [h2, hp]) (by rw [h3, hp]) hir hic]
  simp only [Option.bind_some]
  rw [← h4, hp]
  congr 1
  have hpos : (0 : ℝ) < 2 ^ (i :: l).length := by positivity
  have hpos2 : (0 : ℝ) < 2 ^ (i :: l).length + 1 := by positivity
  field_simp
  ring

/-- C63: for a unitary propagator and a unitary ideal gate `average_infid` lies in
`[0, d / (d + 1)]` and is zero exactly if the computational block equals the ideal gate up to a global
phase. -/
theorem C63_range (ideal actual : Arr ℂ) (dims index : List ℕ) (hd : ∀ d ∈ dims, 2 ≤ d)
    (hne : index ≠ []) (hnd : index.Nodup) (hlt : ∀ i ∈ index, i < dims.length)
    (hr : actual.rows = dims.prod) (hc : actual.cols = dims.prod)
    (hir : ideal.rows = 2 ^ index.length) (hic : ideal.cols = 2 ^ index.length)
    (hU : (actual.mat dims.prod dims.prod)ᴴ * actual.mat dims.prod dims.prod = 1)
    (hV : (ideal.mat (outDims dims index).prod (outDims dims index).prod)ᴴ *
      ideal.mat (outDims dims index).prod (outDims dims index).prod = 1) :
    ∃ y, averageInfid ideal actual index dims = some y ∧ 0 ≤ y ∧
      y ≤ 2 ^ index.length / (2 ^ index.length + 1) ∧
      (y = 0 ↔ ∃ c : ℂ, ‖c‖ = 1 ∧
        (actual.mat dims.prod dims.prod).submatrix (compEmb dims index hd) (compEmb dims index hd) =
          c • ideal.mat (outDims dims index).prod (outDims dims index).prod) := by
  obtain ⟨x, y, hx, hy, hxy⟩ := C63_value ideal actual dims index hd hne hnd hlt hr hc hir hic
  obtain ⟨x', hx', h0, h1, hz⟩ := C61_range ideal actual dims index hd hne hnd hlt hr hc hir hic hU hV
  obtain rfl : x = x' := Option.some.inj (hx.symm.trans hx')
  have hpos : (0 : ℝ) < 2 ^ index.length / (2 ^ index.length + 1) := by positivity
  refine ⟨y, hy, ?_, ?_, ?_⟩
  · rw [hxy]
    positivity
  · rw [hxy]
    nlinarith
  · rw [← hz, hxy, mul_eq_zero, or_iff_right hpos.ne']

/-- C63: with full leakage the average infidelity is `d / (d + 1)`, not one: the bound is attained. -/
example : (2 : ℝ) ^ 1 / (2 ^ 1 + 1) = 2 / 3 := by norm_num

/-! ## C100: sets of gates with an index -/

/-- C100: `average_infid_seq` asks for the ideal gate of the full space: with an index that selects fewer
subsystems than there are, the comparison with the projected propagator raises. -/
theorem C100_average_seq (P M : Arr ℂ) (targets : List ℕ) (dims index : List ℕ)
    (rest : List (Arr ℂ × Option (Arr ℂ) × Option (List ℕ))) (hd : ∀ d ∈ dims, 2 ≤ d)
    (hne : index ≠ []) (hnd : index.Nodup) (hlt : ∀ i ∈ index, i < dims.length)
    (hlen : index.length < dims.length)
    (hPr : P.rows = dims.prod) (hPc : P.cols = dims.prod)
    (htn : targets.Nodup) (htl : ∀ t ∈ targets, t < dims.length)
    (hMr : M.rows = 2 ^ targets.length) (hMc : M.cols = 2 ^ targets.length) :
    averageInfidSeq ((P, some M, some targets) :: rest) index dims = none := by
  have hp := outDims_prod dims index hnd hlt
  have htd := tdims_two dims.length targets htl
  obtain ⟨A, hA, hAr, hAc, -⟩ := C57_entries (List.replicate dims.length 2) targets M htn
    (by simpa using htl) (by rw [htd, hMr]; simp) (by rw [htd, hMc]; simp)
  obtain ⟨i, l, rfl⟩ := List.exists_cons_of_ne_nil hne
  obtain ⟨C, h1, h2, h3, h4⟩ := C64_submatrix P dims (.list (i :: l)) (by simp) hd hPr hPc
  change C.rows = (outDims dims (i :: l)).prod at h2
  unfold averageInfidSeq
  have : averageInfid A P (i :: l) dims = none := by
    unfold averageInfid
    simp only [Option.bind_eq_bind, h1, Option.bind_some]
    unfold averageFidelity arrMul arrAdj
    simp only
    rw [if_neg]
    · rfl
    · rw [h2, hp, hAr]
      simp only [List.prod_replicate]
      exact fun h => absurd (Nat.pow_right_injective (le_refl 2) h) (by omega)
  simp only [List.foldlM_cons, getIdealGate, Option.getD_some, hA, Option.bind_eq_bind, Option.bind_some,
    this, Option.bind_none]

/-- c3/libraries/fidelities.py:84-115 `state_transfer_infid_set`; the mean of an empty list is not a
number (`none`). -/
noncomputable def stateTransferInfidSet (gates : List (Arr ℂ × Option (Arr ℂ) × Option (List ℕ)))
    (index dims : List ℕ) (psi0 : Arr ℂ) : Option ℝ := do
  let infids ← gates.mapM fun g => do
    let perfect ← getIdealGate g.2.1 g.2.2 dims
    stateTransferInfid perfect g.1 index dims psi0
  if infids = [] then none else some (infids.sum / infids.length)

/-- C100: the same for `state_transfer_infid_set`, for every initial state. -/
theorem C100_state_set (P M psi0 : Arr ℂ) (targets : List ℕ) (dims index : List ℕ)
    (rest : List (Arr ℂ × Option (Arr ℂ) × Option (List ℕ))) (hd : ∀ d ∈ dims, 2 ≤ d)
    (hne : index ≠ []) (hnd : index.Nodup) (hlt : ∀ i ∈ index, i < dims.length)
    (hlen : index.length < dims.length)
    (hPr : P.rows = dims.prod) (hPc : P.cols = dims.prod)
    (htn : targets.Nodup) (htl : ∀ t ∈ targets, t < dims.length)
    (hMr : M.rows = 2 ^ targets.length) (hMc : M.cols = 2 ^ targets.length) :
    stateTransferInfidSet ((P, some M, some targets) :: rest) index dims psi0 = none := by
  have hp := outDims_prod dims index hnd hlt
  have htd := tdims_two dims.length targets htl
  obtain ⟨A, hA, hAr, hAc, -⟩ := C57_entries (List.replicate dims.length 2) targets M htn
    (by simpa using htl) (by rw [htd, hMr]; simp) (by rw [htd, hMc]; simp)
  obtain ⟨i, l, rfl⟩ := List.exists_cons_of_ne_nil hne
  obtain ⟨C, h1, h2, h3, h4⟩ := C64_submatrix P dims (.list (i :: l)) (by simp) hd hPr hPc
  change C.cols = (outDims dims (i :: l)).prod at h3
  unfold stateTransferInfidSet
  have : stateTransferInfid A P (i :: l) dims psi0 = none := by
    unfold stateTransferInfid
    simp only [Option.bind_eq_bind, h1, Option.bind_some]
    by_cases hpsi : A.cols = psi0.rows
    · have hn : ¬ C.cols = psi0.rows := by
        rw [← hpsi, h3, hp, hAc]
        simp only [List.prod_replicate]
        exact fun h => absurd (Nat.pow_right_injective (le_refl 2) h) (by omega)
      unfold arrMul
      rw [if_pos hpsi, if_neg hn]
      rfl
    · unfold arrMul
      rw [if_neg hpsi]
      rfl
  simp only [List.mapM_cons, getIdealGate, Option.getD_some, hA, Option.bind_eq_bind, Option.bind_some,
    this, Option.bind_none]

/-- c3/libraries/fidelities.py:187-219 `unitary_infid_set`: here the ideal gate is projected too. -/
noncomputable def unitaryInfidSet (gates : List (Arr ℂ × Option (Arr ℂ) × Option (List ℕ)))
    (index dims : List ℕ) : Option ℝ := do
  let infids ← gates.mapM fun g => do
    let perfect ← getIdealGateIndex g.2.1 g.2.2 dims index
    unitaryInfid perfect g.1 (some index) dims
  if infids = [] then none else some (infids.sum / infids.length)

/-! ## C101 -/

/-- C101: `lindbladian_average_infid` never returns: `True` is passed where the list of subsystems is
expected. -/
theorem C101_never_returns (ideal actual : Arr ℂ) (index dims : List ℕ) (hd : dims ≠ []) :
    lindAverageInfid ideal actual index dims = none := by
  unfold lindAverageInfid
  cases projectToComp actual dims (.list index) true with
  | none => rfl
  | some C =>
    have : superoperAverageFidelity C (superArr ideal) dims = none := by
      unfold superoperAverageFidelity projectToComp projectorArg
      simp [IndexArg.falsy, hd]
    simp [this]

/-! ## C102 -/

/-- C102: for the superoperator of a propagator `lindbladian_unitary_infid` returns the same number as
`unitary_infid` for the propagator. -/
theorem C102_agree (ideal actual : Arr ℂ) (dims index : List ℕ) (hd : ∀ d ∈ dims, 2 ≤ d)
    (hne : index ≠ []) (hnd : index.Nodup) (hlt : ∀ i ∈ index, i < dims.length)
    (hr : actual.rows = dims.prod) (hc : actual.cols = dims.prod)
    (hir : ideal.rows = 2 ^ index.length) (hic : ideal.cols = 2 ^ index.length) :
    lindUnitaryInfid ideal (superArr actual) index dims =
      unitaryInfid ideal actual (some index) dims := by
  have hp := outDims_prod dims index hnd hlt
  rw [C61_value ideal actual dims index hd hne hnd hlt hr hc hir hic]
  obtain ⟨i, l, rfl⟩ := List.exists_cons_of_ne_nil hne
  have hsr : (superArr actual).rows = dims.prod * dims.prod := by simp [superArr, kron, hr]
  have hsc : (superArr actual).cols = dims.prod * dims.prod := by simp [superArr, kron, hc]
  obtain ⟨C, h1, h2, h3, h4⟩ := C64_super_entries (superArr actual) dims (.list (i :: l)) (by simp) hd hsr hsc
  change C.rows = (outDims dims (i :: l)).prod * (outDims dims (i :: l)).prod at h2
  change C.cols = (outDims dims (i :: l)).prod * (outDims dims (i :: l)).prod at h3
  change ∀ a b c d : Fin (outDims dims (i :: l)).prod, C.e (a * (outDims dims (i :: l)).prod + b)
    (c * (outDims dims (i :: l)).prod + d) = (superArr actual).e
      (compEmb dims (i :: l) hd a * dims.prod + compEmb dims (i :: l) hd b)
      (compEmb dims (i :: l) hd c * dims.prod + compEmb dims (i :: l) hd d) at h4
  rw [← hp] at hir hic
  have hq : ((2 : ℝ) ^ (i :: l).length) = ((outDims dims (i :: l)).prod : ℝ) := by
    rw [hp]
    push_cast
    rfl
  rw [hq]
  have hq2 : ((2 : ℕ) ^ (i :: l).length) = (outDims dims (i :: l)).prod := hp.symm
  unfold lindUnitaryInfid
  simp only [Option.bind_eq_bind, h1, Option.bind_some]
  rw [hq2]
  have hqpos : 0 < (outDims dims (i :: l)).prod := by
    rw [hp]
    positivity
  generalize compEmb dims (i :: l) hd = E at *
  generalize (outDims dims (i :: l)).prod = q at *
  set t := ((actual.mat dims.prod dims.prod).submatrix E E * (ideal.mat q q)ᴴ).trace with ht
  have hsup : ∀ a b c d : Fin q, C.e (a * q + b) (c * q + d) =
      actual.e (E a) (E c) * star (actual.e (E b) (E d)) := by
    intro a b c d
    rw [h4]
    unfold superArr kron
    simp only [hr, hc]
    have hpos : 0 < dims.prod := lt_of_le_of_lt (Nat.zero_le _) (E a).2
    rw [Nat.mul_comm (E a : ℕ), Nat.mul_comm (E c : ℕ), Nat.mul_add_mod, Nat.mul_add_mod,
      Nat.mod_eq_of_lt (E b).2, Nat.mod_eq_of_lt (E d).2, Nat.mul_add_div hpos, Nat.mul_add_div hpos,
      Nat.div_eq_of_lt (E b).2, Nat.div_eq_of_lt (E d).2]
    simp
  have htr : ∃ M, arrMul C (arrAdj (superArr ideal)) = some M ∧ arrTrace M = ((‖t‖ ^ 2 : ℝ) : ℂ) := by
    unfold arrMul arrAdj superArr kron
    simp only [hir, hic, h2, h3, if_true]
    refine ⟨_, rfl, ?_⟩
    unfold arrTrace
    simp only [min_self]
    have hid : ∀ a b c d : Fin q, (a * q + b : ℕ) % q = b ∧ (a * q + b : ℕ) / q = a := by
      intro a b _ _
      rw [Nat.mul_comm (a : ℕ), Nat.mul_add_mod, Nat.mod_eq_of_lt b.2, Nat.mul_add_div hqpos,
        Nat.div_eq_of_lt b.2]
      simp
    simp only [sum_range_mul q q]
    simp only [Finset.sum_range]
    have hterm : ∀ a b c d : Fin q, C.e (a * q + b) (c * q + d) *
        star (ideal.e ((a * q + b : ℕ) / q) ((c * q + d : ℕ) / q) *
          star (ideal.e ((a * q + b : ℕ) % q) ((c * q + d : ℕ) % q))) =
        (actual.e (E a) (E c) * star (ideal.e a c)) * star (actual.e (E b) (E d) * star (ideal.e b d)) := by
      intro a b c d
      rw [hsup, (hid a b a b).1, (hid a b a b).2, (hid c d a b).1, (hid c d a b).2]
      simp only [star_mul', star_star]
      ring
    simp only [hterm]
    have htt : t = ∑ a, ∑ c, actual.e (E a) (E c) * star (ideal.e (a : Fin q) (c : Fin q)) := by
      rw [ht]
      rfl
    simp only [← mul_sum]
    push_cast
    rw [← Complex.mul_conj' t, ← Complex.star_def]
    conv_rhs => rw [htt]
    simp only [star_sum, sum_mul_sum]
    apply sum_congr rfl
    intro a _
    apply sum_congr rfl
    intro b _
    simp only [mul_sum]
  obtain ⟨M, hM, hMt⟩ := htr
  unfold superoperUnitaryOverlap
  rw [hM]
  simp only [Option.map_some, Option.bind_some]
  rw [hMt]
  have hsq : (((‖t‖ ^ 2 : ℝ) : ℂ)) ^ (1 / 2 : ℂ) = ((‖t‖ : ℝ) : ℂ) := by
    have h := Complex.ofReal_cpow (sq_nonneg ‖t‖) (1 / 2)
    rw [← Real.sqrt_eq_rpow, Real.sqrt_sq (norm_nonneg t)] at h
    refine Eq.trans ?_ h.symm
    congr 1
    push_cast
    rfl
  rw [hsq, norm_div, Complex.norm_real, norm_norm, Complex.norm_natCast]

/-! ## C103 -/

/-- Python keys: `CLIFFORDS` is a dictionary with string keys. -/
inductive Key where
  | int (n : ℕ)
  | str (s : String)
  deriving DecidableEq

/-- Dictionary access. -/
def dictGet {α : Type*} (d : List (Key × α)) (k : Key) : Option α := (d.find? fun p => p.1 = k).map (·.2)

/-- c3/libraries/fidelities.py:436-456 `epc_analytical` and 459-481 `lindbladian_epc_analytical`:
`fid` compares the measured Clifford with the ideal one; the ideal Cliffords are a dictionary. -/
noncomputable def epcAnalytical {α β : Type} (real : ℕ → Option β) (ideal : List (Key × α))
    (fid : β → α → Option ℝ) : Option ℝ := do
  let fids ← (List.range 24).mapM fun c => do
    let r ← real c
    let i ← dictGet ideal (.int c)
    fid r i
  some (1 - fids.sum / fids.length)

/-- C103: the analytical error per Clifford never returns: the dictionary of ideal Cliffords is indexed
with an integer, its keys are the names. -/
theorem C103_never_returns {α β : Type} (real : ℕ → Option β) (ideal : List (Key × α))
    (hk : ∀ p ∈ ideal, ∃ s, p.1 = .str s) (fid : β → α → Option ℝ) :
    epcAnalytical real ideal fid = none := by
  have hg : ∀ n, dictGet ideal (.int n) = none := by
    intro n
    unfold dictGet
    rw [Option.map_eq_none_iff, List.find?_eq_none]
    intro p hp h
    obtain ⟨s, hs⟩ := hk p hp
    rw [hs] at h
    simp at h
  unfold epcAnalytical
  rw [show List.range 24 = 0 :: (List.range 23).map (· + 1) by decide, List.mapM_cons]
  cases real 0 with
  | none => rfl
  | some r => simp [hg]

/-- C103: with a dictionary indexed by integers it would be one minus the mean fidelity of the 24 Cliffords. -/
theorem C103_intended {α β : Type} (real : ℕ → Option β) (ideal : List (Key × α)) (fid : β → α → Option ℝ)
    (r : ℕ → β) (i : ℕ → α) (f : ℕ → ℝ) (hr : ∀ c < 24, real c = some (r c))
    (hi : ∀ c < 24, dictGet ideal (.int c) = some (i c)) (hf : ∀ c < 24, fid (r c) (i c) = some (f c)) :
    epcAnalytical real ideal fid = some (1 - (∑ c ∈ range 24, f c) / 24) := by
  have h : ∀ l : List ℕ, (∀ c ∈ l, c < 24) → (l.mapM fun c => do
      let r ← real c
      let i ← dictGet ideal (.int c)
      fid r i) = some (l.map f) := by
    intro l hl
    induction l with
    | nil => rfl
    | cons a l ih =>
      have ha := hl a List.mem_cons_self
      rw [List.mapM_cons, ih fun c hc => hl c (List.mem_cons_of_mem _ hc)]
      simp [hr a ha, hi a ha, hf a ha]
  unfold epcAnalytical
  rw [h _ fun c hc => List.mem_range.1 hc]
  simp [Finset.sum_range_succ, List.range_succ]
  ring

end C3.Fidelity
