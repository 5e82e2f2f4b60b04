import Verif.Experiment.Reorder
import Verif.Fidelity.Sets

/-!
# C253: figures of merit do not depend on the order of the chip elements

The goal functions of c3/libraries/fidelities.py:120-374 for a chip and for the same chip with its elements in another order
(C252): the operators are renumbered, the positions in `index` and in the targets of the instructions move with the elements.
-/

set_option linter.unusedSectionVars false

noncomputable section

namespace C3.Experiment.Merit

open Matrix C3.Hilbert C3.Fidelity C3.Gates C3.Experiment C3.Experiment.Compute C3.Experiment.EndToEnd
open C3.Experiment.Reorder

variable {dims dims' : List ℕ}

/-! ## Specification -/

/-- `A'` is the operator `A` in another numbering of the states. -/
structure Same {N N' : ℕ} (e : Fin N ≃ Fin N') (A A' : Arr ℂ) : Prop where
  rows : A.rows = N
  cols : A.cols = N
  rows' : A'.rows = N'
  cols' : A'.cols = N'
  entries : ∀ i j : Fin N, A'.e (e i) (e j) = A.e i j

/-- The same for operators on operators: the states are numbered in pairs. -/
structure SameSuper {N N' : ℕ} (e : Fin N ≃ Fin N') (A A' : Arr ℂ) : Prop where
  rows : A.rows = N * N
  cols : A.cols = N * N
  rows' : A'.rows = N' * N'
  cols' : A'.cols = N' * N'
  entries : ∀ i j k l : Fin N, A'.e (e i * N' + e j) (e k * N' + e l) = A.e (i * N + j) (k * N + l)

/-- The same selection of elements. -/
structure SameIndex (σ : Equiv.Perm ℕ) (n : ℕ) (index index' : List ℕ) : Prop where
  length : index'.length = index.length
  members : ∀ t < n, t ∈ index ↔ σ t ∈ index'

/-! ## Lemmas -/

/-- The selection in use: all for an empty list. -/
abbrev eff (dims index : List ℕ) : List ℕ := effIndex dims (.list index)

theorem eff_members (σ : Equiv.Perm ℕ) (hd : SameDims σ dims dims') {index index' : List ℕ}
    (h : SameIndex σ dims.length index index') :
    ∀ t < dims.length, t ∈ eff dims index ↔ σ t ∈ eff dims' index' := by
  intro t ht
  cases index with
  | nil =>
    have : index' = [] := List.length_eq_zero_iff.1 h.length
    subst this
    simp only [eff, effIndex, List.mem_range]
    rw [hd.length]
    exact hd.places t
  | cons i l =>
    cases index' with
    | nil => exact absurd h.length (by simp)
    | cons i' l' => exact h.members t ht

theorem same_out (σ : Equiv.Perm ℕ) (hd : SameDims σ dims dims') {ix ix' : List ℕ}
    (h : ∀ t < dims.length, t ∈ ix ↔ σ t ∈ ix') : SameDims σ (outDims dims ix) (outDims dims' ix') := by
  refine ⟨by rw [outDims_length, outDims_length, hd.length], fun t => ?_, fun t ht => ?_⟩
  · rw [outDims_length]
    exact hd.places t
  · rw [outDims_length] at ht
    rw [outDims_getD _ _ _ ht, outDims_getD _ _ _ (by rw [hd.length]; exact (hd.places t).1 ht)]
    exact if_congr (h t ht).symm rfl rfl

theorem level_comp (ix : List ℕ) (h2 : ∀ d ∈ dims, 2 ≤ d) (p : Fin (outDims dims ix).prod) (t : ℕ) :
    levelAt dims t (compEmb dims ix h2 p) = levelAt (outDims dims ix) t p := by
  obtain ⟨p, hp⟩ := p
  obtain ⟨a, ha, rfl⟩ := exists_flat _ p hp
  rw [compEmb_flat h2 ha, levelAt_flat (valid_out h2 ha), levelAt_flat ha]

/-- Renumbering and picking the states of the qubits can be done in either order. -/
theorem comp_re (σ : Equiv.Perm ℕ) (hd : SameDims σ dims dims') (h2 : ∀ d ∈ dims, 2 ≤ d) (h2' : ∀ d ∈ dims', 2 ≤ d)
    (e : Fin dims.prod ≃ Fin dims'.prod) (he : Renumbers σ e) {ix ix' : List ℕ}
    (eo : Fin (outDims dims ix).prod ≃ Fin (outDims dims' ix').prod) (ho : Renumbers σ eo) (p : Fin (outDims dims ix).prod) :
    compEmb dims' ix' h2' (eo p) = e (compEmb dims ix h2 p) := by
  refine pos_ext fun t ht => ?_
  rw [hd.length] at ht
  have hs : σ.symm t < dims.length := by
    rw [hd.places, σ.apply_symm_apply]
    exact ht
  have h1 := he (compEmb dims ix h2 p) (σ.symm t) hs
  have h3 := ho p (σ.symm t) (by rw [outDims_length]; exact hs)
  rw [σ.apply_symm_apply] at h1 h3
  rw [level_comp, h1, h3, level_comp]

theorem two_le (σ : Equiv.Perm ℕ) (hd : SameDims σ dims dims') (h2 : ∀ d ∈ dims, 2 ≤ d) : ∀ d ∈ dims', 2 ≤ d := by
  intro d h
  obtain ⟨t, ht, rfl⟩ := List.getElem_of_mem h
  rw [hd.length] at ht
  have hs : σ.symm t < dims.length := by
    rw [hd.places, σ.apply_symm_apply]
    exact ht
  have := hd.levels (σ.symm t) hs
  rw [σ.apply_symm_apply, List.getD_eq_getElem _ _ (by rw [hd.length]; exact ht), List.getD_eq_getElem _ _ hs] at this
  rw [this]
  exact h2 _ (List.getElem_mem _)

/-! ## Projection -/

/-- C253: the projections to the computational states are the same operator. -/
theorem C253_project (σ : Equiv.Perm ℕ) (hd : SameDims σ dims dims') (h2 : ∀ d ∈ dims, 2 ≤ d)
    (e : Fin dims.prod ≃ Fin dims'.prod) (he : Renumbers σ e) {index index' : List ℕ}
    (eo : Fin (outDims dims (eff dims index)).prod ≃ Fin (outDims dims' (eff dims' index')).prod) (ho : Renumbers σ eo)
    (A A' : Arr ℂ) (hA : Same e A A') :
    ∃ C C', projectToComp A dims (.list index) false = some C ∧ projectToComp A' dims' (.list index') false = some C' ∧
      Same eo C C' := by
  have h2' := two_le σ hd h2
  obtain ⟨C, h1, hr, hc, hm⟩ := C64_submatrix A dims (.list index) (by simp) h2 hA.rows hA.cols
  obtain ⟨C', h1', hr', hc', hm'⟩ := C64_submatrix A' dims' (.list index') (by simp) h2' hA.rows' hA.cols'
  refine ⟨C, C', h1, h1', hr, hc, hr', hc', fun i j => ?_⟩
  have a := congrFun (congrFun hm i) j
  have b := congrFun (congrFun hm' (eo i)) (eo j)
  rw [submatrix_apply] at a b
  rw [comp_re σ hd h2 h2' e he eo ho, comp_re σ hd h2 h2' e he eo ho] at b
  exact b.trans ((hA.entries _ _).trans a.symm)

/-- C253: also for operators on operators. -/
theorem C253_project_super (σ : Equiv.Perm ℕ) (hd : SameDims σ dims dims') (h2 : ∀ d ∈ dims, 2 ≤ d)
    (e : Fin dims.prod ≃ Fin dims'.prod) (he : Renumbers σ e) {index index' : List ℕ}
    (eo : Fin (outDims dims (eff dims index)).prod ≃ Fin (outDims dims' (eff dims' index')).prod) (ho : Renumbers σ eo)
    (A A' : Arr ℂ) (hA : SameSuper e A A') :
    ∃ C C', projectToComp A dims (.list index) true = some C ∧ projectToComp A' dims' (.list index') true = some C' ∧
      SameSuper eo C C' := by
  have h2' := two_le σ hd h2
  obtain ⟨C, h1, hr, hc, hm⟩ := C64_super_entries A dims (.list index) (by simp) h2 hA.rows hA.cols
  obtain ⟨C', h1', hr', hc', hm'⟩ := C64_super_entries A' dims' (.list index') (by simp) h2' hA.rows' hA.cols'
  refine ⟨C, C', h1, h1', hr, hc, hr', hc', fun i j k l => ?_⟩
  have a := hm i j k l
  have b := hm' (eo i) (eo j) (eo k) (eo l)
  rw [comp_re σ hd h2 h2' e he eo ho, comp_re σ hd h2 h2' e he eo ho, comp_re σ hd h2 h2' e he eo ho,
    comp_re σ hd h2 h2' e he eo ho] at b
  exact b.trans ((hA.entries _ _ _ _).trans a.symm)

/-! ## Figures of merit of one gate -/

theorem trace_same {q q' : ℕ} (eo : Fin q ≃ Fin q') (A A' B B' : Arr ℂ) (hA : Same eo A A') (hB : Same eo B B') :
    ((A'.mat q' q') * (B'.mat q' q')ᴴ).trace = ((A.mat q q) * (B.mat q q)ᴴ).trace := by
  rw [trace_mul_adj, trace_mul_adj]
  refine (Fintype.sum_equiv (eo.prodCongr eo) _ _ fun p => ?_).symm
  have a := hA.entries p.1 p.2
  have b := hB.entries p.1 p.2
  simp only [Arr.mat, Equiv.prodCongr_apply, Prod.map_fst, Prod.map_snd, a, b]

/-- C253 (`unitary_infid`): the same number. -/
theorem C253_unitary (σ : Equiv.Perm ℕ) (hd : SameDims σ dims dims') (h2 : ∀ d ∈ dims, 2 ≤ d)
    (e : Fin dims.prod ≃ Fin dims'.prod) (he : Renumbers σ e) {index index' : List ℕ}
    (hi : SameIndex σ dims.length index index')
    (eo : Fin (outDims dims (eff dims index)).prod ≃ Fin (outDims dims' (eff dims' index')).prod) (ho : Renumbers σ eo)
    (U U' V V' : Arr ℂ) (hU : Same e U U') (hV : Same eo V V') :
    ∃ x, unitaryInfid V U (some index) dims = some x ∧ unitaryInfid V' U' (some index') dims' = some x := by
  obtain ⟨C, C', h1, h1', hC⟩ := C253_project σ hd h2 e he eo ho U U' hU
  obtain ⟨M, hM, ht⟩ := arrTrace_mul_adj C V _ hC.rows hC.cols hV.rows hV.cols
  obtain ⟨M', hM', ht'⟩ := arrTrace_mul_adj C' V' _ hC.rows' hC.cols' hV.rows' hV.cols'
  rw [trace_same eo C C' V V' hC hV, ← ht] at ht'
  unfold unitaryInfid unitaryOverlap
  simp only [Option.getD_some, Option.bind_eq_bind, h1, h1', Option.bind_some, hM, hM', Option.map_some, ht', hi.length]
  exact ⟨_, rfl, rfl⟩

/-- C253 (`average_infid`). -/
theorem C253_average (σ : Equiv.Perm ℕ) (hd : SameDims σ dims dims') (h2 : ∀ d ∈ dims, 2 ≤ d)
    (e : Fin dims.prod ≃ Fin dims'.prod) (he : Renumbers σ e) {index index' : List ℕ}
    (hi : SameIndex σ dims.length index index') (hne : index ≠ []) (hnd : index.Nodup) (hlt : ∀ i ∈ index, i < dims.length)
    (hnd' : index'.Nodup) (hlt' : ∀ i ∈ index', i < dims'.length)
    (eo : Fin (outDims dims (eff dims index)).prod ≃ Fin (outDims dims' (eff dims' index')).prod) (ho : Renumbers σ eo)
    (U U' V V' : Arr ℂ) (hU : Same e U U') (hV : Same eo V V') :
    ∃ x, averageInfid V U index dims = some x ∧ averageInfid V' U' index' dims' = some x := by
  have hne' : index' ≠ [] := by
    intro h
    have := hi.length
    rw [h] at this
    exact hne (List.length_eq_zero_iff.1 this.symm)
  have e1 : eff dims index = index := by
    obtain ⟨i, l, rfl⟩ := List.exists_cons_of_ne_nil hne
    rfl
  have e2 : eff dims' index' = index' := by
    obtain ⟨i, l, rfl⟩ := List.exists_cons_of_ne_nil hne'
    rfl
  have h2' := two_le σ hd h2
  have p := outDims_prod dims index hnd hlt
  have p' := outDims_prod dims' index' hnd' hlt'
  obtain ⟨x, y, hx, hy, hxy⟩ := C63_value V U dims index h2 hne hnd hlt hU.rows hU.cols
    (by rw [← p, hV.rows, e1]) (by rw [← p, hV.cols, e1])
  obtain ⟨x', y', hx', hy', hxy'⟩ := C63_value V' U' dims' index' h2' hne' hnd' hlt' hU.rows' hU.cols'
    (by rw [← p', hV.rows', e2]) (by rw [← p', hV.cols', e2])
  obtain ⟨z, hz, hz'⟩ := C253_unitary σ hd h2 e he hi eo ho U U' V V' hU hV
  refine ⟨y, hy, ?_⟩
  rw [hy']
  rw [hx, Option.some_inj] at hz
  rw [hx', Option.some_inj] at hz'
  rw [hxy, hxy', hi.length, hz, hz']

/-- The numbering of pairs of states. -/
def pairs {q q' : ℕ} (eo : Fin q ≃ Fin q') : Fin (q * q) ≃ Fin (q' * q') :=
  (finProdFinEquiv.symm.trans (eo.prodCongr eo)).trans finProdFinEquiv

theorem same_pairs {q q' : ℕ} (eo : Fin q ≃ Fin q') (A A' : Arr ℂ) (h : SameSuper eo A A') : Same (pairs eo) A A' := by
  refine ⟨h.rows, h.cols, h.rows', h.cols', fun i j => ?_⟩
  obtain ⟨⟨i1, i2⟩, rfl⟩ := finProdFinEquiv.surjective i
  obtain ⟨⟨j1, j2⟩, rfl⟩ := finProdFinEquiv.surjective j
  have := h.entries i1 i2 j1 j2
  simp only [pairs, Equiv.trans_apply, Equiv.symm_apply_apply, Equiv.prodCongr_apply, Prod.map_apply,
    finProdFinEquiv_apply_val]
  rw [add_comm, mul_comm, add_comm (eo j2 : ℕ), mul_comm q', this]
  congr 1 <;> ring

theorem super_same {q q' : ℕ} (eo : Fin q ≃ Fin q') (V V' : Arr ℂ) (h : Same eo V V') :
    SameSuper eo (superArr V) (superArr V') := by
  refine ⟨by simp [superArr, kron, h.rows], by simp [superArr, kron, h.cols], by simp [superArr, kron, h.rows'],
    by simp [superArr, kron, h.cols'], fun i j k l => ?_⟩
  have d : ∀ (n : ℕ) (a b : Fin n), (a * n + b : ℕ) / n = a ∧ (a * n + b : ℕ) % n = b := by
    intro n a b
    have hn : 0 < n := lt_of_le_of_lt (Nat.zero_le _) b.2
    constructor
    · rw [mul_comm, Nat.mul_add_div hn, Nat.div_eq_of_lt b.2, add_zero]
    · rw [mul_comm, Nat.mul_add_mod, Nat.mod_eq_of_lt b.2]
  simp only [superArr, kron, h.rows, h.cols, h.rows', h.cols', (d _ _ _).1, (d _ _ _).2, h.entries]

/-- C253 (`lindbladian_unitary_infid`). -/
theorem C253_lindblad (σ : Equiv.Perm ℕ) (hd : SameDims σ dims dims') (h2 : ∀ d ∈ dims, 2 ≤ d)
    (e : Fin dims.prod ≃ Fin dims'.prod) (he : Renumbers σ e) {index index' : List ℕ}
    (hi : SameIndex σ dims.length index index')
    (eo : Fin (outDims dims (eff dims index)).prod ≃ Fin (outDims dims' (eff dims' index')).prod) (ho : Renumbers σ eo)
    (S S' V V' : Arr ℂ) (hS : SameSuper e S S') (hV : Same eo V V') :
    ∃ x, lindUnitaryInfid V S index dims = some x ∧ lindUnitaryInfid V' S' index' dims' = some x := by
  obtain ⟨C, C', h1, h1', hC0⟩ := C253_project_super σ hd h2 e he eo ho S S' hS
  have hC := same_pairs eo C C' hC0
  have hW := same_pairs eo _ _ (super_same eo V V' hV)
  obtain ⟨M, hM, ht⟩ := arrTrace_mul_adj C (superArr V) _ hC.rows hC.cols hW.rows hW.cols
  obtain ⟨M', hM', ht'⟩ := arrTrace_mul_adj C' (superArr V') _ hC.rows' hC.cols' hW.rows' hW.cols'
  rw [trace_same _ C C' _ _ hC hW, ← ht] at ht'
  unfold lindUnitaryInfid superoperUnitaryOverlap
  simp only [Option.bind_eq_bind, h1, h1', Option.bind_some, hM, hM', Option.map_some, ht', hi.length]
  exact ⟨_, rfl, rfl⟩

/-- C253 (`state_transfer_infid`): with the initial state in the other numbering too. -/
theorem C253_state (σ : Equiv.Perm ℕ) (hd : SameDims σ dims dims') (h2 : ∀ d ∈ dims, 2 ≤ d)
    (e : Fin dims.prod ≃ Fin dims'.prod) (he : Renumbers σ e) {index index' : List ℕ}
    (eo : Fin (outDims dims (eff dims index)).prod ≃ Fin (outDims dims' (eff dims' index')).prod) (ho : Renumbers σ eo)
    (U U' V V' psi psi' : Arr ℂ) (hU : Same e U U') (hV : Same eo V V')
    (hr : psi.rows = (outDims dims (eff dims index)).prod) (hr' : psi'.rows = (outDims dims' (eff dims' index')).prod)
    (hp : ∀ i, psi'.e (eo i) 0 = psi.e i 0) :
    ∃ x, stateTransferInfid V U index dims psi = some x ∧ stateTransferInfid V' U' index' dims' psi' = some x := by
  obtain ⟨C, C', h1, h1', hC⟩ := C253_project σ hd h2 e he eo ho U U' hU
  unfold stateTransferInfid
  simp only [Option.bind_eq_bind, h1, h1', Option.bind_some]
  unfold arrMul arrAdj
  simp only [hV.rows, hV.cols, hV.rows', hV.cols', hC.rows, hC.cols, hC.rows', hC.cols', hr, hr', if_true, Option.bind_some]
  refine ⟨_, rfl, ?_⟩
  congr 3
  simp only [Finset.sum_range]
  refine (Fintype.sum_equiv eo _ _ fun k => ?_).symm
  have a : ∀ W W' : Arr ℂ, Same eo W W' → ∑ j : Fin (outDims dims (eff dims index)).prod, W.e k j * psi.e j 0 =
      ∑ j : Fin (outDims dims' (eff dims' index')).prod, W'.e (eo k) j * psi'.e j 0 := by
    intro W W' hW
    refine Fintype.sum_equiv eo _ _ fun j => ?_
    rw [hW.entries, hp]
  rw [a V V' hV, a C C' hC]

/-! ## Ideal gates -/

/-- Labels of the same state in both orders. -/
def Moved (σ : Equiv.Perm ℕ) (n : ℕ) (l l' : List ℕ) : Prop := ∀ t < n, l'.getD (σ t) 0 = l.getD t 0

theorem moved_pos (σ : Equiv.Perm ℕ) (hd : SameDims σ dims dims') (e : Fin dims.prod ≃ Fin dims'.prod) (he : Renumbers σ e)
    {l l' : List ℕ} (hl : Valid dims l) (hl' : Valid dims' l') (h : Moved σ dims.length l l') :
    e ⟨flat dims l, flat_lt hl⟩ = ⟨flat dims' l', flat_lt hl'⟩ := by
  refine pos_ext fun t ht => ?_
  rw [hd.length] at ht
  have hs : σ.symm t < dims.length := by
    rw [hd.places, σ.apply_symm_apply]
    exact ht
  have a := he ⟨flat dims l, flat_lt hl⟩ (σ.symm t) hs
  have b := h (σ.symm t) hs
  rw [σ.apply_symm_apply] at a b
  rw [a, levelAt_flat hl, levelAt_flat hl', b]

theorem pos_moved (σ : Equiv.Perm ℕ) (e : Fin dims.prod ≃ Fin dims'.prod) (he : Renumbers σ e)
    {l l' : List ℕ} (hl : Valid dims l) (hl' : Valid dims' l') (h : e ⟨flat dims l, flat_lt hl⟩ = ⟨flat dims' l', flat_lt hl'⟩) :
    Moved σ dims.length l l' := by
  intro t ht
  have a := he ⟨flat dims l, flat_lt hl⟩ t ht
  rw [h, levelAt_flat hl, levelAt_flat hl'] at a
  exact a

/-- The entries of the same operator in terms of labels. -/
theorem same_labels (σ : Equiv.Perm ℕ) (hd : SameDims σ dims dims') (e : Fin dims.prod ≃ Fin dims'.prod)
    (he : Renumbers σ e) (A A' : Arr ℂ) :
    (∀ i j, A'.e (e i) (e j) = A.e i j) ↔
      ∀ l m l' m', Valid dims l → Valid dims m → Valid dims' l' → Valid dims' m' → Moved σ dims.length l l' →
        Moved σ dims.length m m' → A'.e (flat dims' l') (flat dims' m') = A.e (flat dims l) (flat dims m) := by
  constructor
  · intro h l m l' m' hl hm hl' hm' a b
    have := h ⟨flat dims l, flat_lt hl⟩ ⟨flat dims m, flat_lt hm⟩
    rw [moved_pos σ hd e he hl hl' a, moved_pos σ hd e he hm hm' b] at this
    exact this
  · intro h i j
    obtain ⟨l, hl, hli⟩ := exists_flat _ _ i.2
    obtain ⟨m, hm, hmj⟩ := exists_flat _ _ j.2
    obtain ⟨l', hl', hli'⟩ := exists_flat _ _ (e i).2
    obtain ⟨m', hm', hmj'⟩ := exists_flat _ _ (e j).2
    have c : i = ⟨flat _ l, flat_lt hl⟩ := Fin.ext hli.symm
    have d : j = ⟨flat _ m, flat_lt hm⟩ := Fin.ext hmj.symm
    have c' : e i = ⟨flat _ l', flat_lt hl'⟩ := Fin.ext hli'.symm
    have d' : e j = ⟨flat _ m', flat_lt hm'⟩ := Fin.ext hmj'.symm
    rw [← hli, ← hmj, ← hli', ← hmj']
    exact h l m l' m' hl hm hl' hm' (pos_moved σ e he hl hl' (c ▸ c')) (pos_moved σ e he hm hm' (d ▸ d'))

theorem out_full (dims : List ℕ) : outDims dims (List.range dims.length) = List.replicate dims.length 2 := by
  unfold outDims
  rw [List.eq_replicate_iff]
  simp only [List.length_map, List.length_range, List.mem_map, List.mem_range, true_and]
  rintro b ⟨t, ht, rfl⟩
  rw [if_pos ht]

theorem same_two (σ : Equiv.Perm ℕ) (hd : SameDims σ dims dims') :
    SameDims σ (List.replicate dims.length 2) (List.replicate dims'.length 2) := by
  have h := same_out σ hd (ix := List.range dims.length) (ix' := List.range dims'.length) (fun t _ => by
    rw [List.mem_range, List.mem_range, hd.length]
    exact hd.places t)
  rwa [out_full, out_full] at h

theorem valid_two {ix a : List ℕ} (ha : Valid (outDims dims ix) a) : Valid (List.replicate dims.length 2) a := by
  have : outDims (List.replicate dims.length 2) ix = outDims dims ix := by simp [outDims]
  rw [← this] at ha
  exact valid_out (by intro d hd; rw [List.eq_of_mem_replicate hd]) ha

/-- C253: the ideal gate of an instruction that names its targets is the same operator if the targets are moved. -/
theorem C253_ideal (σ : Equiv.Perm ℕ) (hd : SameDims σ dims dims')
    (eq : Fin (List.replicate dims.length 2).prod ≃ Fin (List.replicate dims'.length 2).prod) (hq : Renumbers σ eq)
    (G : Arr ℂ) (targets : List ℕ) (hnd : targets.Nodup) (hlt : ∀ t ∈ targets, t < dims.length)
    (hr : G.rows = 2 ^ targets.length) (hc : G.cols = 2 ^ targets.length) :
    ∃ P P', getIdealGate (some G) (some targets) dims = some P ∧
      getIdealGate (some G) (some (targets.map σ)) dims' = some P' ∧ Same eq P P' := by
  have hlt' : ∀ t ∈ targets.map σ, t < dims'.length := by
    intro t ht
    obtain ⟨s, hs, rfl⟩ := List.mem_map.1 ht
    rw [hd.length]
    exact (hd.places s).1 (hlt s hs)
  have hnd' : (targets.map σ).Nodup := hnd.map σ.injective
  have t1 := tdims_two dims.length targets hlt
  have t2 := tdims_two dims'.length (targets.map σ) hlt'
  rw [List.length_map] at t2
  have pw : (List.replicate targets.length 2).prod = 2 ^ targets.length := by simp
  obtain ⟨P, h1, h3, h4, h5⟩ := C57_entries (List.replicate dims.length 2) targets G hnd
    (by simpa using hlt) (by rw [t1, pw, hr]) (by rw [t1, pw, hc])
  obtain ⟨P', h1', h3', h4', h5'⟩ := C57_entries (List.replicate dims'.length 2) (targets.map σ) G hnd'
    (by simpa using hlt') (by rw [t2, pw, hr]) (by rw [t2, pw, hc])
  rw [t1] at h5
  rw [t2] at h5'
  refine ⟨P, P', h1, h1', h3, h4, h3', h4', ?_⟩
  rw [same_labels σ (same_two σ hd) eq hq]
  intro l m l' m' hl hm hl' hm' kl km
  rw [List.length_replicate] at kl km
  rw [h5 l m hl hm, h5' l' m' hl' hm']
  have tu : ∀ l l' : List ℕ, (∀ t < dims.length, l'.getD (σ t) 0 = l.getD t 0) → tup (targets.map σ) l' = tup targets l := by
    intro l l' h
    unfold tup
    rw [List.map_map]
    exact List.map_congr_left fun t ht => h t (hlt t ht)
  rw [tu l l' kl, tu m m' km]
  refine if_congr ?_ rfl rfl
  simp only [SameRest, List.length_replicate]
  constructor
  · intro h t ht hn
    have := h (σ t) (by rw [hd.length]; exact (hd.places t).1 ht) (by simpa using hn)
    rw [kl t ht, km t ht] at this
    exact this
  · intro h t ht hn
    rw [hd.length] at ht
    have hs : σ.symm t < dims.length := by
      rw [hd.places, σ.apply_symm_apply]
      exact ht
    have := h (σ.symm t) hs (fun hm => hn (List.mem_map.2 ⟨_, hm, σ.apply_symm_apply t⟩))
    rw [← kl _ hs, ← km _ hs, σ.apply_symm_apply] at this
    exact this

/-- C253: with a selection of elements too. -/
theorem C253_ideal_index (σ : Equiv.Perm ℕ) (hd : SameDims σ dims dims') {index index' : List ℕ}
    (hi : SameIndex σ dims.length index index')
    (eo : Fin (outDims dims (eff dims index)).prod ≃ Fin (outDims dims' (eff dims' index')).prod) (ho : Renumbers σ eo)
    (G : Arr ℂ) (targets : List ℕ) (hnd : targets.Nodup) (hlt : ∀ t ∈ targets, t < dims.length)
    (hr : G.rows = 2 ^ targets.length) (hc : G.cols = 2 ^ targets.length) :
    ∃ C C', getIdealGateIndex (some G) (some targets) dims index = some C ∧
      getIdealGateIndex (some G) (some (targets.map σ)) dims' index' = some C' ∧ Same eo C C' := by
  obtain ⟨eq, hq, -⟩ := C252_states σ (same_two σ hd)
  obtain ⟨P, P', h1, h1', hP⟩ := C253_ideal σ hd eq hq G targets hnd hlt hr hc
  have hl := (same_labels σ (same_two σ hd) eq hq P P').1 hP.entries
  have hod := same_out σ hd (eff_members σ hd hi)
  obtain ⟨-, e1, e2⟩ := C171_ideal (some G) (some targets) dims index
  obtain ⟨-, e1', e2'⟩ := C171_ideal (some G) (some (targets.map σ)) dims' index'
  cases index with
  | nil =>
    have hn : index' = [] := List.length_eq_zero_iff.1 hi.length
    subst hn
    have f : outDims dims (eff dims []) = List.replicate dims.length 2 := out_full dims
    have f' : outDims dims' (eff dims' []) = List.replicate dims'.length 2 := out_full dims'
    refine ⟨P, P', e1 P h1, e1' P' h1', by rw [hP.rows, f], by rw [hP.cols, f], by rw [hP.rows', f'], by rw [hP.cols', f'], ?_⟩
    rw [same_labels σ hod eo ho, f, f']
    exact hl
  | cons i l =>
    cases index' with
    | nil => exact absurd hi.length (by simp)
    | cons i' l' =>
      obtain ⟨C, h2, hr, hc, h3⟩ := e2 P h1 (by simp)
      obtain ⟨C', h2', hr', hc', h3'⟩ := e2' P' h1' (by simp)
      refine ⟨C, C', h2, h2', hr, hc, hr', hc', ?_⟩
      rw [same_labels σ hod eo ho]
      intro a b a' b' ha hb ha' hb' m1 m2
      refine (h3' a' b' ha' hb').trans (Eq.trans ?_ (h3 a b ha hb).symm)
      refine hl a b a' b' (valid_two ha) (valid_two hb) (valid_two ha') (valid_two hb') ?_ ?_
      · rw [List.length_replicate]
        rwa [outDims_length] at m1
      · rw [List.length_replicate]
        rwa [outDims_length] at m2

/-! ## Sets of gates -/

/-- The same gate in both orders: the propagator is renumbered, the targets of the instruction are moved. -/
structure SameGate (σ : Equiv.Perm ℕ) (e : Fin dims.prod ≃ Fin dims'.prod) (g g' : GateData) : Prop where
  prop : Same e g.1 g'.1
  instr : ∃ G targets, targets.Nodup ∧ (∀ t ∈ targets, t < dims.length) ∧ G.rows = 2 ^ targets.length ∧
    G.cols = 2 ^ targets.length ∧ g.2 = (some G, some targets) ∧ g'.2 = (some G, some (targets.map σ))

theorem mapM_same {α β : Type} (R : α → β → Prop) (f : α → Option ℝ) (f' : β → Option ℝ)
    (h : ∀ a b, R a b → ∃ x, f a = some x ∧ f' b = some x) (l : List α) (l' : List β) (hl : List.Forall₂ R l l') :
    ∃ xs, l.mapM f = some xs ∧ l'.mapM f' = some xs ∧ xs.length = l.length := by
  induction hl with
  | nil => exact ⟨[], rfl, rfl, rfl⟩
  | cons hab _ ih =>
    obtain ⟨x, h1, h2⟩ := h _ _ hab
    obtain ⟨xs, h3, h4, h5⟩ := ih
    refine ⟨x :: xs, ?_, ?_, by simp [h5]⟩
    · rw [List.mapM_cons, h1, h3]
      rfl
    · rw [List.mapM_cons, h2, h4]
      rfl

/-- C253 (`unitary_infid_set`): the goal of optimal control has the same value in both orders. -/
theorem C253_set (σ : Equiv.Perm ℕ) (hd : SameDims σ dims dims') (h2 : ∀ d ∈ dims, 2 ≤ d)
    (e : Fin dims.prod ≃ Fin dims'.prod) (he : Renumbers σ e) {index index' : List ℕ}
    (hi : SameIndex σ dims.length index index') (gates gates' : List GateData)
    (hg : List.Forall₂ (SameGate σ e) gates gates') :
    unitaryInfidSet gates' index' dims' = unitaryInfidSet gates index dims ∧
      (gates ≠ [] → (unitaryInfidSet gates index dims).isSome) := by
  obtain ⟨eo, ho, -⟩ := C252_states σ (same_out σ hd (eff_members σ hd hi))
  obtain ⟨xs, h3, h4, h5⟩ := mapM_same (SameGate σ e)
    (fun g => (getIdealGateIndex g.2.1 g.2.2 dims index).bind fun P => unitaryInfid P g.1 (some index) dims)
    (fun g => (getIdealGateIndex g.2.1 g.2.2 dims' index').bind fun P => unitaryInfid P g.1 (some index') dims') (by
      intro g g' h
      obtain ⟨G, targets, a, b, c, d, eg, eg'⟩ := h.instr
      obtain ⟨C, C', k1, k2, k3⟩ := C253_ideal_index σ hd hi eo ho G targets a b c d
      obtain ⟨x, k4, k5⟩ := C253_unitary σ hd h2 e he hi eo ho g.1 g'.1 C C' h.prop k3
      refine ⟨x, ?_, ?_⟩
      · simp only [eg, k1, Option.bind_some, k4]
      · simp only [eg', k2, Option.bind_some, k5]) gates gates' hg
  have v : unitaryInfidSet gates index dims = if xs = [] then none else some (xs.sum / xs.length) := by
    unfold unitaryInfidSet
    simp only [Option.bind_eq_bind] at h3 ⊢
    rw [h3]
    rfl
  have v' : unitaryInfidSet gates' index' dims' = if xs = [] then none else some (xs.sum / xs.length) := by
    unfold unitaryInfidSet
    simp only [Option.bind_eq_bind] at h4 ⊢
    rw [h4]
    rfl
  refine ⟨by rw [v, v'], fun hne => ?_⟩
  rw [v, if_neg]
  · rfl
  · intro hx
    rw [hx] at h5
    exact hne (List.length_eq_zero_iff.1 h5.symm)

/-- C253: the order of the positions in `index` has no effect. -/
theorem C253_index (h2 : ∀ d ∈ dims, 2 ≤ d) {index index' : List ℕ} (hp : index.Perm index') (gates : List GateData)
    (hg : ∀ g ∈ gates, g.1.rows = dims.prod ∧ g.1.cols = dims.prod ∧ ∃ G targets, targets.Nodup ∧
      (∀ t ∈ targets, t < dims.length) ∧ G.rows = 2 ^ targets.length ∧ G.cols = 2 ^ targets.length ∧
      g.2 = (some G, some targets)) :
    unitaryInfidSet gates index' dims = unitaryInfidSet gates index dims := by
  refine (C253_set 1 ⟨rfl, fun t => Iff.rfl, fun t _ => rfl⟩ h2 (Equiv.refl _) (fun p t _ => rfl)
    ⟨hp.length_eq.symm, fun t _ => hp.mem_iff⟩ gates gates ?_).1
  rw [List.forall₂_same]
  intro g h
  obtain ⟨a, b, G, targets, c1, c2, c3, c4, c5⟩ := hg g h
  exact ⟨⟨a, b, a, b, fun i j => rfl⟩, G, targets, c1, c2, c3, c4, c5, by simpa using c5⟩

/-! ## Whole experiments -/

/-- An operator as an array. -/
def arr {N : ℕ} (U : Matrix (Fin N) (Fin N) ℂ) : Arr ℂ :=
  ⟨N, N, fun i j => if h : i < N ∧ j < N then U ⟨i, h.1⟩ ⟨j, h.2⟩ else 0⟩

theorem arr_same {N N' : ℕ} (e : Fin N ≃ Fin N') (U : Matrix (Fin N) (Fin N) ℂ) : Same e (arr U) (arr (re e U)) := by
  refine ⟨rfl, rfl, rfl, rfl, fun i j => ?_⟩
  simp only [arr, Fin.is_lt, and_self, dif_pos, Fin.eta]
  exact re_apply e U i j

/-- `unitary_infid_set` (c3/libraries/fidelities.py:187-219) of propagators of an experiment; `none` is the `KeyError` of a
missing propagator or an exception of the goal function. -/
def goal (props : String → Option (Op dims)) (instr : String → Option (Arr ℂ) × Option (List ℕ)) (names : List String)
    (index : List ℕ) : Option ℝ :=
  (names.mapM fun g => (props g).map fun U => (arr U, instr g)).bind fun gates => unitaryInfidSet gates index dims

theorem history_same (σ : Equiv.Perm ℕ) (hd : SameDims σ dims dims') (e : Fin dims.prod ≃ Fin dims'.prod)
    (he : Renumbers σ e) (s : Exp (Op dims)) (ks : List (Call dims dims')) (hk : ∀ k ∈ ks, k.Ok σ e) :
    runEvents (expMap (re e) s) (ks.map fun k => ⟨closed k.chip' k.pulses, k.sel, k.overwrite⟩) =
      expMap (re e) (runEvents s (ks.map fun k => ⟨closed k.chip k.pulses, k.sel, k.overwrite⟩)) := by
  have h1 : (ks.map fun k => (⟨closed k.chip' k.pulses, k.sel, k.overwrite⟩ : Event (Op dims'))) =
      (ks.map fun k => ⟨closed k.chip k.pulses, k.sel, k.overwrite⟩).map (eventMap (re e)) := by
    rw [List.map_map]
    refine List.map_congr_left fun k h => ?_
    simp only [Function.comp, eventMap]
    rw [C252_closed σ hd e he k.chip k.chip' (hk k h).wf (hk k h).size (hk k h).same]
  rw [h1]
  exact runEvents_map (re e : Op dims →* Op dims') s (ks.map fun k => ⟨closed k.chip k.pulses, k.sel, k.overwrite⟩)

/-- C253: after every history the goal of optimal control has the same value for the chip with its elements in another
order, missing propagators included. -/
theorem C253_goal (σ : Equiv.Perm ℕ) (hd : SameDims σ dims dims') (h2 : ∀ d ∈ dims, 2 ≤ d)
    (e : Fin dims.prod ≃ Fin dims'.prod) (he : Renumbers σ e) (s : Exp (Op dims)) (ks : List (Call dims dims'))
    (hk : ∀ k ∈ ks, k.Ok σ e) {index index' : List ℕ} (hi : SameIndex σ dims.length index index')
    (ideal : String → Arr ℂ) (targets : String → List ℕ) (names : List String)
    (hn : ∀ g ∈ names, (targets g).Nodup ∧ (∀ t ∈ targets g, t < dims.length) ∧ (ideal g).rows = 2 ^ (targets g).length ∧
      (ideal g).cols = 2 ^ (targets g).length) :
    goal (runEvents (expMap (re e) s) (ks.map fun k => ⟨closed k.chip' k.pulses, k.sel, k.overwrite⟩)).propagators
        (fun g => (some (ideal g), some ((targets g).map σ))) names index' =
      goal (runEvents s (ks.map fun k => ⟨closed k.chip k.pulses, k.sel, k.overwrite⟩)).propagators
        (fun g => (some (ideal g), some (targets g))) names index := by
  rw [history_same σ hd e he s ks hk]
  generalize runEvents s (ks.map fun k => ⟨closed k.chip k.pulses, k.sel, k.overwrite⟩) = r
  have h : ∀ names : List String, (∀ g ∈ names, (targets g).Nodup ∧ (∀ t ∈ targets g, t < dims.length) ∧
      (ideal g).rows = 2 ^ (targets g).length ∧ (ideal g).cols = 2 ^ (targets g).length) →
      (names.mapM (fun g => (r.propagators g).map fun U => (arr U, (some (ideal g), some (targets g)))) = none ∧
        names.mapM (fun g => ((expMap (re e) r).propagators g).map fun U =>
          (arr U, (some (ideal g), some ((targets g).map σ)))) = none) ∨
      ∃ gs gs' : List GateData, names.mapM (fun g => (r.propagators g).map fun U =>
          (arr U, (some (ideal g), some (targets g)))) = some gs ∧
        names.mapM (fun g => ((expMap (re e) r).propagators g).map fun U =>
          (arr U, (some (ideal g), some ((targets g).map σ)))) = some gs' ∧ List.Forall₂ (SameGate σ e) gs gs' := by
    intro names
    induction names with
    | nil => exact fun _ => .inr ⟨[], [], rfl, rfl, .nil⟩
    | cons g names ih =>
      intro hn
      rw [List.mapM_cons, List.mapM_cons]
      cases hg : r.propagators g with
      | none =>
        have hg' : (expMap (re e) r).propagators g = none := by
          change (r.propagators g).map _ = none
          rw [hg]
          rfl
        rw [hg']
        exact .inl ⟨rfl, rfl⟩
      | some U =>
        have hg' : (expMap (re e) r).propagators g = some (re e U) := by
          change (r.propagators g).map _ = _
          rw [hg]
          rfl
        rw [hg']
        rcases ih fun k hk => hn k (List.mem_cons_of_mem _ hk) with ⟨a, b⟩ | ⟨gs, gs', a, b, c⟩
        · rw [a, b]
          exact .inl ⟨rfl, rfl⟩
        · rw [a, b]
          obtain ⟨n1, n2, n3, n4⟩ := hn g List.mem_cons_self
          exact .inr ⟨_, _, rfl, rfl, .cons ⟨arr_same e U, _, _, n1, n2, n3, n4, rfl, rfl⟩ c⟩
  unfold goal
  rcases h names hn with ⟨a, b⟩ | ⟨gs, gs', a, b, c⟩
  · rw [a, b]
    rfl
  · rw [a, b]
    exact (C253_set σ hd h2 e he hi gs gs' c).1

/-! ## Instructions without targets -/

/-- A phase flip of the first of two qubits. -/
def flipFirst : Arr ℂ := ⟨4, 4, fun i j => if i = j then (if i < 2 then 1 else -1) else 0⟩

/-- A phase flip of the second of two qubits. -/
def flipSecond : Arr ℂ := ⟨4, 4, fun i j => if i = j then (if i % 2 = 0 then 1 else -1) else 0⟩

theorem labels_two (i : ℕ) (hi : i < 4) : ∃ l, Valid [2, 2] l ∧ flat [2, 2] l = i ∧ tup [0, 1] l = l := by
  obtain ⟨l, hl, h⟩ := exists_flat [2, 2] i hi
  refine ⟨l, hl, h, ?_⟩
  have := valid_length hl
  match l, this with
  | [a, b], _ => rfl

/-- The infidelity of two qubits for an instruction without targets. -/
theorem value_two (U G : Arr ℂ) (hU : U.rows = 4 ∧ U.cols = 4) (hG : G.rows = 4 ∧ G.cols = 4) :
    unitaryInfidSet [(U, some G, none)] [0, 1] [2, 2] =
      some (1 - ‖(∑ p : Fin 4 × Fin 4, U.e p.1 p.2 * star (G.e p.1 p.2)) / 4‖ ^ 2) := by
  obtain ⟨P, h1, hr, hc, h3⟩ := C57_entries [2, 2] [0, 1] G (by decide) (by decide) hG.1 hG.2
  have h1' : getIdealGate (some G) none [2, 2] = some P := h1
  obtain ⟨-, -, e2⟩ := C171_ideal (some G) none [2, 2] [0, 1]
  obtain ⟨V, k1, k2, k3, k4⟩ := e2 P h1' (by simp)
  obtain ⟨C, c1, c2, c3, c4⟩ := C64_entries U [2, 2] (.list [0, 1]) (by simp) (by simp) hU.1 hU.2
  have o : outDims [2, 2] [0, 1] = [2, 2] := by decide
  have o' : outDims [2, 2] (effIndex [2, 2] (.list [0, 1])) = [2, 2] := by decide
  rw [o] at k2 k3 k4
  rw [o'] at c2 c3 c4
  have v1 : ∀ i j : Fin 4, V.e i j = G.e i j := by
    intro i j
    obtain ⟨l, hl, hli, tl⟩ := labels_two i i.2
    obtain ⟨m, hm, hmj, tm⟩ := labels_two j j.2
    have := k4 l m hl hm
    have g := h3 l m hl hm
    rw [if_pos (by intro t ht hn; exfalso; apply hn; simp at ht ⊢; omega), tl, tm] at g
    rw [← hli, ← hmj, this]
    exact g
  have v2 : ∀ i j : Fin 4, C.e i j = U.e i j := by
    intro i j
    obtain ⟨l, hl, hli, tl⟩ := labels_two i i.2
    obtain ⟨m, hm, hmj, tm⟩ := labels_two j j.2
    rw [← hli, ← hmj]
    exact c4 l m hl hm
  obtain ⟨M, hM, ht⟩ := arrTrace_mul_adj C V 4 c2 c3 k2 k3
  rw [trace_mul_adj] at ht
  simp only [Arr.mat, v1, v2] at ht
  unfold unitaryInfidSet
  simp only [List.mapM_cons, List.mapM_nil, Option.bind_eq_bind, k1, Option.bind_some]
  unfold unitaryInfid unitaryOverlap
  simp only [Option.getD_some, Option.bind_eq_bind, c1, Option.bind_some, hM, Option.map_some, ht]
  norm_num

/-- C253: an instruction without targets is meant for the elements in the order of the chip: for the same gate on the same
chip with the two qubits exchanged the infidelity is one instead of zero. -/
theorem C253_false_default_targets :
    ∃ e : Fin [2, 2].prod ≃ Fin [2, 2].prod, Renumbers (dims := [2, 2]) (dims' := [2, 2]) (Equiv.swap 0 1) e ∧
      Same e flipFirst flipSecond ∧
      unitaryInfidSet [(flipFirst, some flipFirst, none)] [0, 1] [2, 2] = some 0 ∧
      unitaryInfidSet [(flipSecond, some flipFirst, none)] [0, 1] [2, 2] = some 1 := by
  have hd : SameDims (Equiv.swap 0 1) [2, 2] [2, 2] := by
    refine ⟨rfl, fun t => ?_, fun t ht => ?_⟩
    · by_cases h0 : t = 0
      · subst h0; simp
      · by_cases h1 : t = 1
        · subst h1; simp
        · rw [Equiv.swap_apply_of_ne_of_ne h0 h1]
    · have : t = 0 ∨ t = 1 := by simp at ht; omega
      rcases this with rfl | rfl <;> simp
  obtain ⟨e, he, -⟩ := C252_states _ hd
  refine ⟨e, he, ⟨rfl, rfl, rfl, rfl, ?_⟩, ?_, ?_⟩
  · rw [same_labels _ hd e he]
    intro l m l' m' hl hm hl' hm' a b
    have hll := valid_length hl
    have hml := valid_length hm
    have hll' := valid_length hl'
    have hml' := valid_length hm'
    match l, m, l', m', hll, hml, hll', hml' with
    | [l0, l1], [m0, m1], [p0, p1], [q0, q1], _, _, _, _ =>
      have a0 := a 0 (by simp)
      have a1 := a 1 (by simp)
      have b0 := b 0 (by simp)
      have b1 := b 1 (by simp)
      simp at a0 a1 b0 b1
      subst a0 a1 b0 b1
      have k0 := valid_getD hl 0 (by simp)
      have k1 := valid_getD hl 1 (by simp)
      have n0 := valid_getD hm 0 (by simp)
      have n1 := valid_getD hm 1 (by simp)
      simp at k0 k1 n0 n1
      interval_cases p0 <;> interval_cases p1 <;> interval_cases q0 <;> interval_cases q1 <;> rfl
  · rw [value_two _ _ ⟨rfl, rfl⟩ ⟨rfl, rfl⟩]
    simp [Fintype.sum_prod_type, Fin.sum_univ_four, flipFirst]
    norm_num
  · rw [value_two _ _ ⟨rfl, rfl⟩ ⟨rfl, rfl⟩]
    simp [Fintype.sum_prod_type, Fin.sum_univ_four, flipFirst, flipSecond]

/-- With targets the same gates agree: here the phase flip of one qubit. -/
example : unitaryInfidSet [(flipSecond, some ⟨2, 2, fun i j => if i = j then (if i = 0 then 1 else -1) else 0⟩, some [1])]
      [1, 0] [2, 2] =
    unitaryInfidSet [(flipFirst, some ⟨2, 2, fun i j => if i = j then (if i = 0 then 1 else -1) else 0⟩, some [0])] [0, 1]
      [2, 2] := by
  obtain ⟨e, he, hs, -⟩ := C253_false_default_targets
  have hd : SameDims (Equiv.swap 0 1) [2, 2] [2, 2] := by
    refine ⟨rfl, fun t => ?_, fun t ht => ?_⟩
    · change t < 2 ↔ Equiv.swap 0 1 t < 2
      rw [Equiv.swap_apply_def]
      split_ifs <;> omega
    · change t < 2 at ht
      obtain rfl | rfl : t = 0 ∨ t = 1 := by omega
      · rw [Equiv.swap_apply_left]
        rfl
      · rw [Equiv.swap_apply_right]
        rfl
  refine (C253_set _ hd (by simp) e he ⟨rfl, fun t ht => ?_⟩ _ _ (.cons ⟨hs, ?_⟩ .nil)).1
  · change t < 2 at ht
    obtain rfl | rfl : t = 0 ∨ t = 1 := by omega
    · simp
    · simp
  · exact ⟨_, [0], by simp, by simp, rfl, rfl, rfl, by simp⟩

end C3.Experiment.Merit
