import Verif.Fidelity.Average

/-!
# C171: figures of merit of sets of gates

Models `average_infid_set` (c3/libraries/fidelities.py:317-345), `lindbladian_unitary_infid_set` (255-286); with
`unitary_infid_set`, `state_transfer_infid_set` and `average_infid_seq` from the files before. A gate is its propagator
with `ideal` and `targets` of its instruction; `none` is an exception, or not a number for an empty set.
-/

namespace C3.Fidelity

open C3.Hilbert C3.Gates

abbrev GateData := Arr ℂ × Option (Arr ℂ) × Option (List ℕ)

/-- c3/libraries/fidelities.py:317-345 `average_infid_set`. -/
noncomputable def averageInfidSet (gates : List GateData) (index dims : List ℕ) : Option ℝ := do
  let infids ← gates.mapM fun g => do
    let perfect ← getIdealGateIndex g.2.1 g.2.2 dims index
    averageInfid perfect g.1 index dims
  if infids = [] then none else some (infids.sum / infids.length)

/-- c3/libraries/fidelities.py:255-286 `lindbladian_unitary_infid_set`. -/
noncomputable def lindUnitaryInfidSet (gates : List GateData) (index dims : List ℕ) : Option ℝ := do
  let infids ← gates.mapM fun g => do
    let perfect ← getIdealGate g.2.1 g.2.2 dims
    lindUnitaryInfid perfect g.1 index dims
  if infids = [] then none else some (infids.sum / infids.length)

/-! ## Specification -/

/-- `v` is the arithmetic mean over the gates of values related to them. -/
def IsMean {α : Type} (R : α → ℝ → Prop) (l : List α) (v : ℝ) : Prop :=
  ∃ xs : List ℝ, List.Forall₂ R l xs ∧ l ≠ [] ∧ v * l.length = xs.sum

theorem mapM_iff {α : Type} (f : α → Option ℝ) (l : List α) (xs : List ℝ) :
    l.mapM f = some xs ↔ List.Forall₂ (fun a x => f a = some x) l xs := by
  induction l generalizing xs with
  | nil => 
    simp only [List.mapM_nil, List.forall₂_nil_left_iff]
    exact ⟨fun h => (Option.some.inj h).symm, fun h => by rw [h]; rfl⟩
  | cons a l ih =>
    rw [List.mapM_cons]
    constructor
    · intro h
      cases ha : f a with
      | none => rw [ha] at h; simp at h
      | some x =>
        rw [ha] at h
        cases hl : l.mapM f with
        | none => rw [hl] at h; simp at h
        | some ys =>
          rw [hl] at h
          have : x :: ys = xs := by simpa using h
          rw [← this]
          exact .cons ha ((ih ys).1 hl)
    · intro h
      cases h with
      | cons ha hl => rw [ha, (ih _).2 hl]; rfl

theorem mean_iff {α : Type} (f : α → Option ℝ) (l : List α) (v : ℝ) :
    ((l.mapM f).bind fun infids => if infids = [] then none else some (infids.sum / infids.length)) = some v ↔
      IsMean (fun a x => f a = some x) l v := by
  constructor
  · intro h
    cases hl : l.mapM f with
    | none => rw [hl] at h; simp at h
    | some xs =>
      rw [hl, Option.bind_some] at h
      have hf := (mapM_iff f l xs).1 hl
      split at h
      · simp at h
      · next hne =>
        simp only [Option.some.injEq] at h
        have hpos : (xs.length : ℝ) ≠ 0 := by
          rw [Ne, Nat.cast_eq_zero, List.length_eq_zero_iff]; exact hne
        refine ⟨xs, hf, ?_, ?_⟩
        · rintro rfl
          rw [List.forall₂_nil_left_iff] at hf
          exact hne hf
        · rw [← h, hf.length_eq, div_mul_cancel₀ _ hpos]
  · rintro ⟨xs, hf, hne, hv⟩
    rw [(mapM_iff f l xs).2 hf, Option.bind_some]
    have hx : xs ≠ [] := by
      rintro rfl
      rw [List.forall₂_nil_right_iff] at hf
      exact hne hf
    have hpos : (xs.length : ℝ) ≠ 0 := by
      rw [Ne, Nat.cast_eq_zero, List.length_eq_zero_iff]; exact hx
    rw [if_neg hx, ← hv, hf.length_eq, mul_div_cancel_right₀ _ hpos]

theorem mean_iff2 {α P : Type} (p : α → Option P) (f : P → α → Option ℝ) (l : List α) (v : ℝ) :
    ((l.mapM fun a => (p a).bind fun q => f q a).bind fun infids =>
      if infids = [] then none else some (infids.sum / infids.length)) = some v ↔
      IsMean (fun a x => ∃ q, p a = some q ∧ f q a = some x) l v := by
  rw [mean_iff]
  simp only [Option.bind_eq_some_iff]

/-! ## C171 -/

/-- **C171**: `unitary_infid_set` is the mean of the infidelities of the gates; it raises exactly if one of them does
or there is none. -/
theorem C171_unitary (gates : List GateData) (index dims : List ℕ) (v : ℝ) :
    unitaryInfidSet gates index dims = some v ↔
      IsMean (fun g x => ∃ P, getIdealGateIndex g.2.1 g.2.2 dims index = some P ∧
        unitaryInfid P g.1 (some index) dims = some x) gates v := by
  exact mean_iff2 (fun g : GateData => getIdealGateIndex g.2.1 g.2.2 dims index) (fun P g => unitaryInfid P g.1 (some index) dims) gates v

/-- **C171** for `average_infid_set`. -/
theorem C171_average (gates : List GateData) (index dims : List ℕ) (v : ℝ) :
    averageInfidSet gates index dims = some v ↔
      IsMean (fun g x => ∃ P, getIdealGateIndex g.2.1 g.2.2 dims index = some P ∧
        averageInfid P g.1 index dims = some x) gates v := by
  exact mean_iff2 (fun g : GateData => getIdealGateIndex g.2.1 g.2.2 dims index) (fun P g => averageInfid P g.1 index dims) gates v

/-- **C171** for `state_transfer_infid_set` (ideal gate of the full space). -/
theorem C171_state (gates : List GateData) (index dims : List ℕ) (psi0 : Arr ℂ) (v : ℝ) :
    stateTransferInfidSet gates index dims psi0 = some v ↔
      IsMean (fun g x => ∃ P, getIdealGate g.2.1 g.2.2 dims = some P ∧
        stateTransferInfid P g.1 index dims psi0 = some x) gates v := by
  exact mean_iff2 (fun g : GateData => getIdealGate g.2.1 g.2.2 dims) (fun P g => stateTransferInfid P g.1 index dims psi0) gates v

/-- **C171** for `lindbladian_unitary_infid_set` (ideal gate of the full space). -/
theorem C171_lindblad (gates : List GateData) (index dims : List ℕ) (v : ℝ) :
    lindUnitaryInfidSet gates index dims = some v ↔
      IsMean (fun g x => ∃ P, getIdealGate g.2.1 g.2.2 dims = some P ∧
        lindUnitaryInfid P g.1 index dims = some x) gates v := by
  exact mean_iff2 (fun g : GateData => getIdealGate g.2.1 g.2.2 dims) (fun P g => lindUnitaryInfid P g.1 index dims) gates v

/-- **C171**: the ideal gate used by `unitary_infid_set` and `average_infid_set` with a selection of qubits has the
entries of the full ideal gate between the labels with the other qubits in state 0; without a selection it is the full
ideal gate, and without an ideal gate both raise. -/
theorem C171_ideal (ideal : Option (Arr ℂ)) (targets : Option (List ℕ)) (dims index : List ℕ) :
    (getIdealGate ideal targets dims = none → getIdealGateIndex ideal targets dims index = none) ∧
    (∀ P, getIdealGate ideal targets dims = some P → getIdealGateIndex ideal targets dims [] = some P) ∧
    (∀ P, getIdealGate ideal targets dims = some P → index ≠ [] →
      ∃ C, getIdealGateIndex ideal targets dims index = some C ∧ C.rows = (outDims dims index).prod ∧
        C.cols = (outDims dims index).prod ∧
        ∀ a b, Valid (outDims dims index) a → Valid (outDims dims index) b →
          C.e (flat (outDims dims index) a) (flat (outDims dims index) b) =
            P.e (flat (List.replicate dims.length 2) a) (flat (List.replicate dims.length 2) b)) := by
  refine ⟨fun h => ?_, fun P h => ?_, fun P h hi => ?_⟩
  · unfold getIdealGateIndex; rw [h]; rfl
  · unfold getIdealGateIndex; rw [h]; rfl
  · obtain ⟨hr, hc⟩ := ideal_rows _ _ _ _ h
    have he : index.isEmpty = false := by simpa using hi
    have ho : outDims (List.replicate dims.length 2) index = outDims dims index := by simp [outDims]
    have hf : effIndex (List.replicate dims.length 2) (.list index) = index := by
      cases index with
      | nil => exact absurd rfl hi
      | cons i l => rfl
    obtain ⟨C, h1, h2, h3, h4⟩ := C64_entries P (List.replicate dims.length 2) (.list index) (by simp)
      (by intro d hd; rw [List.eq_of_mem_replicate hd]) (by simpa using hr) (by simpa using hc)
    rw [hf, ho] at h2 h3 h4
    refine ⟨C, ?_, h2, h3, h4⟩
    unfold getIdealGateIndex
    rw [h]
    simp only [Option.bind_eq_bind, Option.bind_some, he]
    exact h1

/-- A mean of values between zero and one lies between them and vanishes exactly if all do. -/
theorem C171_mean {α : Type} (R : α → ℝ → Prop) (l : List α) (v : ℝ) (h : IsMean R l v)
    (hR : ∀ a x, R a x → 0 ≤ x ∧ x ≤ 1) (hU : ∀ a x y, R a x → R a y → x = y) :
    0 ≤ v ∧ v ≤ 1 ∧ (v = 0 ↔ ∀ a ∈ l, R a 0) := by
  obtain ⟨xs, hf, hne, hv⟩ := h
  have hx : ∀ x ∈ xs, 0 ≤ x ∧ x ≤ 1 := by
    intro x hx
    obtain ⟨hlen, hg⟩ := List.forall₂_iff_get.1 hf
    obtain ⟨i, hi, rfl⟩ := List.getElem_of_mem hx
    exact hR _ _ (hg i (by omega) hi)
  have hpos : (0 : ℝ) < l.length := by
    rw [Nat.cast_pos]; exact List.length_pos_iff.2 hne
  have h0 : 0 ≤ xs.sum := List.sum_nonneg fun x h => (hx x h).1
  have h1 : xs.sum ≤ xs.length := by
    have := List.sum_le_card_nsmul xs 1 fun x h => (hx x h).2
    simpa using this
  refine ⟨?_, ?_, ?_⟩
  · by_contra hc
    push Not at hc
    nlinarith
  · by_contra hc
    push Not at hc
    rw [← hf.length_eq] at h1
    nlinarith
  · constructor
    · rintro rfl
      rw [zero_mul] at hv
      have hz : ∀ x ∈ xs, x = 0 := by
        intro x hxm
        have := List.single_le_sum (fun y hy => (hx y hy).1) x hxm
        exact le_antisymm (by linarith) (hx x hxm).1
      intro a ha
      obtain ⟨hlen, hg⟩ := List.forall₂_iff_get.1 hf
      obtain ⟨i, hi, rfl⟩ := List.getElem_of_mem ha
      have := hg i hi (by omega)
      rw [List.get_eq_getElem, List.get_eq_getElem, hz _ (List.getElem_mem _)] at this
      exact this
    · intro hall
      have : xs.sum = 0 := by
        apply List.sum_eq_zero
        intro x hxm
        obtain ⟨hlen, hg⟩ := List.forall₂_iff_get.1 hf
        obtain ⟨i, hi, rfl⟩ := List.getElem_of_mem hxm
        exact hU _ _ _ (hg i (by omega) hi) (hall _ (List.getElem_mem _))
      rw [this] at hv
      rcases mul_eq_zero.1 hv with h | h
      · exact h
      · exact absurd h hpos.ne'

example : IsMean (fun (a : ℕ) x => x = 1 / (a : ℝ)) [1, 2] (3 / 4) :=
  ⟨[1, 1 / 2], by simp, by simp, by norm_num⟩

/-- **C171** for `average_infid_seq`: the fidelity of the sequence is the product of the fidelities of the gates. -/
theorem C171_seq (gates : List GateData) (index dims : List ℕ) (v : ℝ) :
    averageInfidSeq gates index dims = some v ↔
      ∃ xs : List ℝ, List.Forall₂ (fun g x => ∃ P, getIdealGate g.2.1 g.2.2 dims = some P ∧
        averageInfid P g.1 index dims = some x) gates xs ∧ 1 - v = (xs.map fun x => 1 - x).prod := by
  have key : ∀ (gates : List GateData) (c w : ℝ),
      gates.foldlM (fun fid g => (getIdealGate g.2.1 g.2.2 dims).bind fun P =>
        (averageInfid P g.1 index dims).bind fun infid => some (fid * (1 - infid))) c = some w ↔
      ∃ xs : List ℝ, List.Forall₂ (fun g x => ∃ P, getIdealGate g.2.1 g.2.2 dims = some P ∧
        averageInfid P g.1 index dims = some x) gates xs ∧ w = c * (xs.map fun x => 1 - x).prod := by
    intro gates
    induction gates with
    | nil =>
      intro c w
      simp only [List.foldlM_nil, List.forall₂_nil_left_iff]
      constructor
      · intro h
        exact ⟨[], rfl, by simpa using (Option.some.inj h).symm⟩
      · rintro ⟨xs, rfl, h⟩
        rw [h]; simp
    | cons g gates ih =>
      intro c w
      rw [List.foldlM_cons]
      constructor
      · intro h
        rw [Option.bind_eq_bind, Option.bind_eq_some_iff] at h
        obtain ⟨c', hc', h⟩ := h
        rw [Option.bind_eq_some_iff] at hc'
        obtain ⟨P, hP, hc'⟩ := hc'
        rw [Option.bind_eq_some_iff] at hc'
        obtain ⟨x, hx, hc'⟩ := hc'
        obtain ⟨xs, hf, hw⟩ := (ih c' w).1 h
        refine ⟨x :: xs, .cons ⟨P, hP, hx⟩ hf, ?_⟩
        rw [hw, ← Option.some.inj hc', List.map_cons, List.prod_cons, mul_assoc]
      · rintro ⟨xs, hf, hw⟩
        cases hf with
        | cons hg hf =>
          obtain ⟨P, hP, hx⟩ := hg
          rw [hP, Option.bind_some, hx, Option.bind_some, Option.bind_eq_bind, Option.bind_some]
          refine (ih _ w).2 ⟨_, hf, ?_⟩
          rw [hw, List.map_cons, List.prod_cons, mul_assoc]
  have h1 : averageInfidSeq gates index dims = (gates.foldlM (fun fid g => (getIdealGate g.2.1 g.2.2 dims).bind fun P =>
        (averageInfid P g.1 index dims).bind fun infid => some (fid * (1 - infid))) 1).bind fun fid => some (1 - fid) :=
    rfl
  rw [h1, Option.bind_eq_some_iff]
  constructor
  · rintro ⟨w, hw, hv⟩
    obtain ⟨xs, hf, h⟩ := (key gates 1 w).1 hw
    refine ⟨xs, hf, ?_⟩
    rw [← Option.some.inj hv, sub_sub_cancel, h, one_mul]
  · rintro ⟨xs, hf, h⟩
    exact ⟨1 - v, (key gates 1 _).2 ⟨xs, hf, by rw [h, one_mul]⟩, by rw [sub_sub_cancel]⟩

end C3.Fidelity
