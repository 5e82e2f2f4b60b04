import Verif.Gates.Insert
import Verif.Propagation.Model

/-!
# C64: projection to the computational space

Models `tf_project_to_comp` (c3/utils/tf_utils.py:428-436) with Python's dynamic `index` argument, and
`Instruction.get_ideal_gate` with `index` (c3/signal/gates.py:140-162).
-/

set_option linter.unusedSectionVars false

namespace C3.Fidelity

open Matrix Finset C3.Hilbert C3.Gates

/-! ## Model -/

/-- The values passed as `index`. -/
inductive IndexArg where
  | none
  | list (l : List ℕ)
  | bool (b : Bool)

/-- `not index`. -/
def IndexArg.falsy : IndexArg → Bool
  | .none => true
  | .list l => l.isEmpty
  | .bool b => !b

/-- `tf.matmul`: `none` is the exception for shapes that do not fit. -/
def arrMul (a b : Arr ℂ) : Option (Arr ℂ) :=
  if a.cols = b.rows then
    some ⟨a.rows, b.cols, fun i j => ∑ k ∈ range a.cols, a.e i k * b.e k j⟩
  else none

/-- Transpose. -/
def arrT (a : Arr ℂ) : Arr ℂ := ⟨a.cols, a.rows, fun i j => a.e j i⟩

/-- The projector used: `none` is the `TypeError` of `index in True`, which is only evaluated if there
is a subsystem. -/
def projectorArg (dims : List ℕ) (index : IndexArg) : Option (Arr ℂ) :=
  if index.falsy then some (projector dims (List.range dims.length) none)
  else match index with
    | .list l => some (projector dims l none)
    | _ => if dims = [] then some (projector [] [] none) else none

/-- c3/utils/tf_utils.py:428-436 `tf_project_to_comp`. -/
def projectToComp (A : Arr ℂ) (dims : List ℕ) (index : IndexArg) (toSuper : Bool) : Option (Arr ℂ) := do
  let proj ← projectorArg dims index
  let P := if toSuper then kron proj proj else proj
  let PA ← arrMul (arrT P) A
  arrMul PA P

/-- c3/signal/gates.py:140-162 `get_ideal_gate(dims, index)`: `index` a list. -/
noncomputable def getIdealGateIndex (ideal : Option (Arr ℂ)) (targets : Option (List ℕ)) (dims : List ℕ)
    (index : List ℕ) : Option (Arr ℂ) := do
  let g ← getIdealGate ideal targets dims
  if index.isEmpty then some g
  else projectToComp g (List.replicate dims.length 2) (.list index) false

/-! ## Specification -/

/-- Dimensions of the projected space: two levels for the chosen subsystems, one for the others. -/
def outDims (dims index : List ℕ) : List ℕ :=
  (List.range dims.length).map fun t => if t ∈ index then 2 else 1

theorem outDims_getD (dims index : List ℕ) (t : ℕ) (ht : t < dims.length) :
    (outDims dims index).getD t 0 = if t ∈ index then 2 else 1 := by
  unfold outDims
  rw [List.getD_eq_getElem?_getD, List.getElem?_map, List.getElem?_range ht]
  rfl

theorem outDims_length (dims index : List ℕ) : (outDims dims index).length = dims.length := by
  simp [outDims]

/-- The labels of the projected space are labels of the full space. -/
theorem valid_out {dims index a : List ℕ} (hd : ∀ d ∈ dims, 2 ≤ d)
    (ha : Valid (outDims dims index) a) : Valid dims a := by
  rw [valid_iff] at ha ⊢
  rw [outDims_length] at ha
  refine ⟨ha.1, fun t ht => ?_⟩
  have h1 := ha.2 t ht
  rw [outDims_getD _ _ _ ht] at h1
  have h2 : 2 ≤ dims.getD t 0 := by
    rw [List.getD_eq_getElem?_getD, List.getElem?_eq_getElem ht]
    exact hd _ (List.getElem_mem ht)
  split at h1 <;> omega

/-- Position in the full space of a position in the projected space: the same levels. -/
def compEmb (dims index : List ℕ) (hd : ∀ d ∈ dims, 2 ≤ d) (p : Fin (outDims dims index).prod) :
    Fin dims.prod :=
  ⟨flat dims ((stateLabels (outDims dims index)).getD p []), by
    have hp : (p : ℕ) < (stateLabels (outDims dims index)).length := by
      rw [length_stateLabels]
      exact p.2
    rw [List.getD_eq_getElem?_getD, List.getElem?_eq_getElem hp]
    exact flat_lt (valid_out hd (flat_getElem _ _ hp).1)⟩

theorem label_at {dims l : List ℕ} (h : Valid dims l) :
    (stateLabels dims).getD (flat dims l) [] = l := by
  rw [List.getD_eq_getElem?_getD, stateLabels_flat h]
  rfl

theorem compEmb_flat {dims index a : List ℕ} (hd : ∀ d ∈ dims, 2 ≤ d)
    (ha : Valid (outDims dims index) a) :
    compEmb dims index hd ⟨flat _ a, flat_lt ha⟩ = ⟨flat dims a, flat_lt (valid_out hd ha)⟩ := by
  unfold compEmb
  simp only [label_at ha]

theorem compEmb_injective (dims index : List ℕ) (hd : ∀ d ∈ dims, 2 ≤ d) :
    Function.Injective (compEmb dims index hd) := by
  rintro ⟨p, hp⟩ ⟨q, hq⟩ h
  obtain ⟨a, ha, rfl⟩ := exists_flat _ p hp
  obtain ⟨b, hb, rfl⟩ := exists_flat _ q hq
  rw [compEmb_flat hd ha, compEmb_flat hd hb, Fin.mk.injEq,
    flat_inj (valid_out hd ha) (valid_out hd hb)] at h
  subst h
  rfl

theorem outDims_prod (dims index : List ℕ) (hnd : index.Nodup) (hlt : ∀ i ∈ index, i < dims.length) :
    (outDims dims index).prod = 2 ^ index.length := by
  unfold outDims
  have h : ((List.range dims.length).map fun t => if t ∈ index then 2 else 1).prod =
      ∏ t ∈ range dims.length, if t ∈ index then 2 else 1 := by
    rw [Finset.prod_range]
    rw [← List.prod_ofFn]
    congr 1
    apply List.ext_getElem <;> simp
  rw [h, Finset.prod_ite]
  simp only [prod_const_one, mul_one, prod_const]
  congr 1
  rw [← List.toFinset_card_of_nodup hnd]
  congr 1
  ext t
  simp only [mem_filter, mem_range, List.mem_toFinset]
  exact ⟨fun h => h.2, fun h => ⟨hlt t h, h⟩⟩

/-! ## Proofs -/

theorem projector_entries (dims index : List ℕ) :
    (projector dims index none : Arr ℂ).rows = dims.prod ∧
    (projector dims index none : Arr ℂ).cols = (outDims dims index).prod ∧
    ∀ l a, Valid dims l → Valid (outDims dims index) a →
      (projector dims index none : Arr ℂ).e (flat dims l) (flat (outDims dims index) a) =
        if l = a then 1 else 0 := by
  set ms : List (Arr ℂ) := (List.range dims.length).map fun t =>
    if t ∈ index then eye (dims.getD t 0) ((dims.map fun _ => 2).getD t 0)
    else eye (dims.getD t 0) 1 with hms
  have hP : (projector dims index none : Arr ℂ) = npKronN ms := rfl
  have hlen : ms.length = dims.length := by simp [hms]
  have hget : ∀ t (ht : t < dims.length), ms.getD t (eye 0 0) =
      if t ∈ index then eye (dims.getD t 0) 2 else eye (dims.getD t 0) 1 := by
    intro t ht
    have h2 : (dims.map fun _ => 2).getD t 0 = 2 := by
      rw [List.getD_eq_getElem?_getD, List.getElem?_map, List.getElem?_eq_getElem ht]
      rfl
    rw [List.getD_eq_getElem?_getD, hms, List.getElem?_map, List.getElem?_range ht]
    simp only [Option.map_some, Option.getD_some, h2]
  have hr : ms.map (·.rows) = dims := by
    apply List.ext_getElem (by simp [hlen])
    intro t h1 h2
    have := hget t h2
    rw [List.getD_eq_getElem?_getD, List.getElem?_eq_getElem (by rw [hlen]; exact h2)] at this
    simp only [Option.getD_some] at this
    rw [List.getElem_map, this]
    split <;> simp [eye, List.getD_eq_getElem?_getD, h2]
  have hc : ms.map (·.cols) = outDims dims index := by
    apply List.ext_getElem (by simp [hlen, outDims])
    intro t h1 h2
    have ht : t < dims.length := by rwa [outDims_length] at h2
    have := hget t ht
    rw [List.getD_eq_getElem?_getD, List.getElem?_eq_getElem (by rw [hlen]; exact ht)] at this
    simp only [Option.getD_some] at this
    rw [List.getElem_map, this]
    simp only [outDims, List.getElem_map, List.getElem_range]
    split <;> rfl
  rw [hP]
  refine ⟨by rw [(npKronN_shape _).1, hr], by rw [(npKronN_shape _).2, hc], fun l a hl ha => ?_⟩
  have := npKronN_e ms l a (by rwa [hr]) (by rwa [hc])
  rw [hr, hc] at this
  rw [this]
  have hterm : ∀ t ∈ range ms.length, (ms.getD t (eye 0 0)).e (l.getD t 0) (a.getD t 0) =
      if l.getD t 0 = a.getD t 0 then 1 else 0 := by
    intro t ht
    rw [mem_range, hlen] at ht
    rw [hget t ht]
    split <;> rfl
  unfold prodE
  rw [prod_congr rfl hterm]
  have hll := valid_length hl
  have hal := valid_length ha
  rw [outDims_length] at hal
  split
  · next h =>
    subst h
    simp
  · next h =>
    obtain ⟨t, ht, hne⟩ : ∃ t, t < ms.length ∧ l.getD t 0 ≠ a.getD t 0 := by
      by_contra hcon
      push Not at hcon
      apply h
      apply List.ext_getElem (by omega)
      intro t ht1 ht2
      have := hcon t (by omega)
      simpa [List.getD_eq_getElem?_getD, ht1, ht2] using this
    apply prod_eq_zero (mem_range.2 ht)
    rw [if_neg hne]

/-- The index list in use. -/
def effIndex (dims : List ℕ) : IndexArg → List ℕ
  | .list (i :: l) => i :: l
  | _ => List.range dims.length

theorem projectorArg_eq (dims : List ℕ) (index : IndexArg) (h : index ≠ .bool true) :
    projectorArg dims index = some (projector dims (effIndex dims index) none) := by
  unfold projectorArg
  cases index with
  | none => rfl
  | list l => cases l <;> rfl
  | bool b => cases b <;> first | rfl | exact absurd rfl h

theorem sum_sel (n p : ℕ) (hp : p < n) (f : ℕ → ℂ) (g : ℕ → ℂ)
    (hg : ∀ k < n, g k = if k = p then 1 else 0) : ∑ k ∈ range n, g k * f k = f p := by
  rw [sum_eq_single p]
  · rw [hg p hp, if_pos rfl, one_mul]
  · intro k hk hne
    rw [hg k (mem_range.1 hk), if_neg hne, zero_mul]
  · intro h
    exact absurd (mem_range.2 hp) h

/-- C64: the projected operator consists of the matrix elements between the labels whose selected
levels are 0 or 1 and whose other levels are 0, in the order of the labels. Without an index (or an
empty one) all subsystems are selected. -/
theorem C64_entries (A : Arr ℂ) (dims : List ℕ) (index : IndexArg) (hi : index ≠ .bool true)
    (hd : ∀ d ∈ dims, 2 ≤ d) (hr : A.rows = dims.prod) (hc : A.cols = dims.prod) :
    ∃ C, projectToComp A dims index false = some C ∧
      C.rows = (outDims dims (effIndex dims index)).prod ∧
      C.cols = (outDims dims (effIndex dims index)).prod ∧
      ∀ a b, Valid (outDims dims (effIndex dims index)) a →
        Valid (outDims dims (effIndex dims index)) b →
        C.e (flat (outDims dims (effIndex dims index)) a) (flat (outDims dims (effIndex dims index)) b) =
          A.e (flat dims a) (flat dims b) := by
  unfold projectToComp
  rw [projectorArg_eq dims index hi]
  generalize effIndex dims index = ix
  obtain ⟨h1, h2, h3⟩ := projector_entries dims ix
  simp only [Option.bind_eq_bind, Option.bind_some, Bool.false_eq_true, if_false]
  unfold arrMul arrT
  simp only [h1, h2, hr, hc, if_true, Option.bind_some]
  refine ⟨_, rfl, rfl, rfl, fun a b ha hb => ?_⟩
  simp only
  have hsel : ∀ a, Valid (outDims dims ix) a → ∀ k < dims.prod,
      (projector dims ix none : Arr ℂ).e k (flat (outDims dims ix) a) =
        if k = flat dims a then 1 else 0 := by
    intro a ha k hk
    obtain ⟨l, hl, rfl⟩ := exists_flat dims k hk
    rw [h3 l a hl ha]
    simp only [flat_inj hl (valid_out hd ha)]
  have hb' := sum_sel dims.prod (flat dims b) (flat_lt (valid_out hd hb))
    (fun k => ∑ k_1 ∈ range dims.prod, (projector dims ix none : Arr ℂ).e k_1
      (flat (outDims dims ix) a) * A.e k_1 k) _ (hsel b hb)
  have ha' := sum_sel dims.prod (flat dims a) (flat_lt (valid_out hd ha))
    (fun k => A.e k (flat dims b)) _ (hsel a ha)
  rw [← ha', ← hb']
  apply sum_congr rfl
  intro k _
  ring

/-- C64: the same as a submatrix. -/
theorem C64_submatrix (A : Arr ℂ) (dims : List ℕ) (index : IndexArg) (hi : index ≠ .bool true)
    (hd : ∀ d ∈ dims, 2 ≤ d) (hr : A.rows = dims.prod) (hc : A.cols = dims.prod) :
    ∃ C, projectToComp A dims index false = some C ∧
      C.rows = (outDims dims (effIndex dims index)).prod ∧
      C.cols = (outDims dims (effIndex dims index)).prod ∧
      C.mat (outDims dims (effIndex dims index)).prod (outDims dims (effIndex dims index)).prod =
        (A.mat dims.prod dims.prod).submatrix (compEmb dims (effIndex dims index) hd)
          (compEmb dims (effIndex dims index) hd) := by
  obtain ⟨C, h1, h2, h3, h4⟩ := C64_entries A dims index hi hd hr hc
  refine ⟨C, h1, h2, h3, ?_⟩
  apply ext_labels
  intro a b ha hb
  rw [Matrix.submatrix_apply, compEmb_flat hd ha, compEmb_flat hd hb]
  exact h4 a b ha hb

/-- C64: an operator of another size is refused. -/
theorem C64_refused (A : Arr ℂ) (dims : List ℕ) (index : IndexArg)
    (h : A.rows ≠ dims.prod ∨ A.cols ≠ dims.prod) : projectToComp A dims index false = none := by
  unfold projectToComp
  cases hp : projectorArg dims index with
  | none => rfl
  | some P =>
    have hrows : P.rows = dims.prod := by
      unfold projectorArg at hp
      split at hp
      · rw [← Option.some.inj hp]
        exact (projector_entries _ _).1
      · split at hp
        · rw [← Option.some.inj hp]
          exact (projector_entries _ _).1
        · split at hp
          · next h0 =>
            rw [← Option.some.inj hp, h0]
            exact (projector_entries _ _).1
          · simp at hp
    simp only [Option.bind_eq_bind, Option.bind_some, Bool.false_eq_true, if_false]
    unfold arrMul arrT
    simp only [hrows]
    by_cases h1 : dims.prod = A.rows
    · rw [if_pos h1]
      simp only [Option.bind_some]
      rw [if_neg]
      rcases h with h | h
      · exact absurd h1.symm h
      · exact h
    · rw [if_neg h1]
      rfl

/-- C64: with `to_super` both factors of the superoperator space are projected in the same way. -/
theorem C64_super_entries (A : Arr ℂ) (dims : List ℕ) (index : IndexArg) (hi : index ≠ .bool true)
    (hd : ∀ d ∈ dims, 2 ≤ d) (hr : A.rows = dims.prod * dims.prod) (hc : A.cols = dims.prod * dims.prod) :
    ∃ C, projectToComp A dims index true = some C ∧
      C.rows = (outDims dims (effIndex dims index)).prod * (outDims dims (effIndex dims index)).prod ∧
      C.cols = (outDims dims (effIndex dims index)).prod * (outDims dims (effIndex dims index)).prod ∧
      ∀ a b c d : Fin (outDims dims (effIndex dims index)).prod,
        C.e (a * (outDims dims (effIndex dims index)).prod + b)
          (c * (outDims dims (effIndex dims index)).prod + d) =
          A.e (compEmb dims (effIndex dims index) hd a * dims.prod + compEmb dims (effIndex dims index) hd b)
            (compEmb dims (effIndex dims index) hd c * dims.prod +
              compEmb dims (effIndex dims index) hd d) := by
  unfold projectToComp
  rw [projectorArg_eq dims index hi]
  generalize effIndex dims index = ix
  obtain ⟨h1, h2, h3⟩ := projector_entries dims ix
  simp only [Option.bind_eq_bind, Option.bind_some, if_true]
  unfold arrMul arrT kron
  simp only [h1, h2, hr, hc, if_true, Option.bind_some]
  refine ⟨_, rfl, rfl, rfl, fun a b c d => ?_⟩
  simp only
  have hsel1 : ∀ a : Fin (outDims dims ix).prod, ∀ k < dims.prod,
      (projector dims ix none : Arr ℂ).e k a = if k = compEmb dims ix hd a then 1 else 0 := by
    rintro ⟨a, ha⟩ k hk
    obtain ⟨l, hl, rfl⟩ := exists_flat dims k hk
    obtain ⟨a, hav, rfl⟩ := exists_flat _ a ha
    rw [compEmb_flat hd hav]
    rw [h3 l a hl hav]
    simp only [flat_inj hl (valid_out hd hav)]
  have hsel : ∀ a b : Fin (outDims dims ix).prod, ∀ k < dims.prod * dims.prod,
      (projector dims ix none : Arr ℂ).e (k / dims.prod) ((a * (outDims dims ix).prod + b) /
          (outDims dims ix).prod) *
        (projector dims ix none : Arr ℂ).e (k % dims.prod) ((a * (outDims dims ix).prod + b) %
          (outDims dims ix).prod) =
        if k = compEmb dims ix hd a * dims.prod + compEmb dims ix hd b then 1 else 0 := by
    intro a b k hk
    have hN : 0 < dims.prod := by
      rcases Nat.eq_zero_or_pos dims.prod with h | h
      · rw [h] at hk
        simp at hk
      · exact h
    have hq : 0 < (outDims dims ix).prod := lt_of_le_of_lt (Nat.zero_le _) a.2
    have e1 : (a * (outDims dims ix).prod + b) / (outDims dims ix).prod = (a : ℕ) := by
      rw [mul_comm, Nat.mul_add_div hq, Nat.div_eq_of_lt b.2, add_zero]
    have e2 : (a * (outDims dims ix).prod + b) % (outDims dims ix).prod = (b : ℕ) := by
      rw [mul_comm, Nat.mul_add_mod, Nat.mod_eq_of_lt b.2]
    rw [e1, e2, hsel1 a _ (Nat.div_lt_of_lt_mul hk), hsel1 b _ (Nat.mod_lt _ hN)]
    have hiff : k = compEmb dims ix hd a * dims.prod + compEmb dims ix hd b ↔
        k / dims.prod = compEmb dims ix hd a ∧ k % dims.prod = compEmb dims ix hd b := by
      constructor
      · intro h
        rw [h, mul_comm, Nat.mul_add_div hN, Nat.div_eq_of_lt (compEmb dims ix hd b).2, add_zero,
          Nat.mul_add_mod, Nat.mod_eq_of_lt (compEmb dims ix hd b).2]
        exact ⟨rfl, rfl⟩
      · rintro ⟨h1, h2⟩
        rw [← h1, ← h2, mul_comm, Nat.div_add_mod]
    rw [if_congr hiff rfl rfl, ite_and]
    split_ifs <;> simp
  have hlt : ∀ a b : Fin (outDims dims ix).prod,
      (compEmb dims ix hd a * dims.prod + compEmb dims ix hd b : ℕ) < dims.prod * dims.prod := by
    intro a b
    have h1 := (compEmb dims ix hd a).2
    have h2 := (compEmb dims ix hd b).2
    nlinarith
  have hc' := sum_sel _ _ (hlt c d)
    (fun k => ∑ k_1 ∈ range (dims.prod * dims.prod),
      ((projector dims ix none : Arr ℂ).e (k_1 / dims.prod) ((a * (outDims dims ix).prod + b) /
          (outDims dims ix).prod) *
        (projector dims ix none : Arr ℂ).e (k_1 % dims.prod) ((a * (outDims dims ix).prod + b) %
          (outDims dims ix).prod)) * A.e k_1 k) _ (hsel c d)
  have ha' := sum_sel _ _ (hlt a b)
    (fun k => A.e k (compEmb dims ix hd c * dims.prod + compEmb dims ix hd d)) _ (hsel a b)
  rw [← ha', ← hc']
  apply sum_congr rfl
  intro k _
  ring

theorem tfSuper_apply {n : Type*} [Fintype n] [DecidableEq n] (U : Matrix n n ℂ) (a b c d : n) :
    C3.Propagation.tfSuper U (a, b) (c, d) = U a c * star (U b d) := by
  unfold C3.Propagation.tfSuper C3.Propagation.spre C3.Propagation.spost
  rw [← Matrix.mul_kronecker_mul, Matrix.mul_one, Matrix.one_mul, Matrix.kronecker_apply]
  rfl

/-- C64: projecting the superoperator of `U` gives the superoperator of the projected `U`. -/
theorem C64_super {m n : Type*} [Fintype m] [DecidableEq m] [Fintype n] [DecidableEq n] (f : m → n)
    (U : Matrix n n ℂ) :
    (C3.Propagation.tfSuper U).submatrix (Prod.map f f) (Prod.map f f) =
      C3.Propagation.tfSuper (U.submatrix f f) := by
  ext ⟨a, b⟩ ⟨c, d⟩
  rw [Matrix.submatrix_apply, tfSuper_apply]
  exact (tfSuper_apply (U.submatrix f f) _ _ _ _).symm

example : outDims [3, 4, 2] [2, 0] = [2, 1, 2] := by decide
example : ∀ d ∈ [3, 4, 2], 2 ≤ d := by decide

end C3.Fidelity
