import Verif.Experiment.Evaluate

/-!
# C109, C110: the initial state of a model

Models c3/model.py:63-107 (`set_init_state`, `update_init_state`, `get_ground_state`, `get_init_state`) and
323-335 (`set_lindbladian`) with the shapes of the arrays, and the evaluation of sequences on the result
(c3/experiment.py:273-302).
-/

set_option linter.unusedSectionVars false

namespace C3.Experiment

open Finset C3.Hilbert C3.Fidelity

/-- The fields of the model that matter; `thermal` is the result of the `init_ground` task if there is
one (see C42). -/
structure MState where
  lind : Bool
  totDim : ℕ
  init : Option (Arr ℂ)
  thermal : Option (Arr ℂ)

/-- c3/utils/tf_utils.py:292-296 `tf_state_to_dm` with shapes. -/
noncomputable def stateToDmArr (psi : Arr ℂ) : Arr ℂ := ⟨psi.rows, psi.rows, fun i j => psi.e i 0 * psi.e j 0⟩

/-- c3/utils/tf_utils.py:305-308 `tf_vec_to_dm` with shapes. -/
noncomputable def vecToDmArr (v : Arr ℂ) : Arr ℂ :=
  let dim := Nat.sqrt v.rows
  ⟨dim, dim, fun i j => v.e (j * dim + i) 0⟩

/-- c3/model.py:76-79 `get_ground_state`. -/
noncomputable def groundState (dim : ℕ) : Arr ℂ := ⟨dim, 1, fun i _ => if i = 0 then 1 else 0⟩

/-- c3/model.py:63-70 `set_init_state`: a vector of another length leaves the old state in place. -/
noncomputable def setInitState (m : MState) (state : Arr ℂ) : MState :=
  if m.lind ∧ state.rows ≠ state.cols then
    if state.rows = m.totDim then { m with init := some (stateToDmArr state) }
    else if state.rows = m.totDim ^ 2 then { m with init := some (vecToDmArr state) }
    else m
  else { m with init := some state }

/-- c3/model.py:72-74 `update_init_state`. -/
noncomputable def updateInitState (m : MState) : MState :=
  match m.init with
  | none => m
  | some s => setInitState m s

/-- c3/model.py:323-335 `set_lindbladian` (the Hamiltonian part of `update_model` does not enter). -/
noncomputable def setLindbladian (m : MState) (b : Bool) : MState := updateInitState { m with lind := b }

/-- c3/model.py:81-107 `get_init_state`. -/
noncomputable def getInitState (m : MState) : Arr ℂ × MState :=
  match m.init with
  | some s => (s, m)
  | none =>
    match m.thermal with
    | some v => (v, m)
    | none =>
      let psi := if m.lind then stateToDmArr (groundState m.totDim) else groundState m.totDim
      (psi, { m with init := some psi })

/-- c3/experiment.py:297-298 with shapes. -/
noncomputable def runSeqArr (props : String → Option (Arr ℂ)) : List String → Arr ℂ → Option (Arr ℂ)
  | [], psi => some psi
  | g :: gs, psi =>
    match props g with
    | none => none
    | some U =>
      match arrMul U psi with
      | none => none
      | some psi' => runSeqArr props gs psi'

/-! ## C109 -/

/-- C109: in a closed system without a task the initial state is the ground state, the column with a one in the first
row; asking for it twice gives the same. -/
theorem C109_closed (m : MState) (h : m.lind = false) (hi : m.init = none) (ht : m.thermal = none) :
    (getInitState m).1 = ⟨m.totDim, 1, fun i _ => if i = 0 then 1 else 0⟩ ∧
      getInitState (getInitState m).2 = getInitState m := by
  unfold getInitState
  rw [hi, ht]
  simp [h, groundState]

/-- C109: repeated calls return the same state, whatever the options. -/
theorem C109_stable (m : MState) : (getInitState (getInitState m).2).1 = (getInitState m).1 := by
  unfold getInitState
  cases hi : m.init with
  | some s => simp [hi]
  | none =>
    cases ht : m.thermal with
    | some v => simp [hi, ht]
    | none => simp

theorem runSeqArr_raises (props : String → Option (Arr ℂ)) (g : String) (gs : List String) (psi : Arr ℂ)
    (hp : ∀ U, props g = some U → U.cols ≠ psi.rows) : runSeqArr props (g :: gs) psi = none := by
  unfold runSeqArr
  cases h : props g with
  | none => rfl
  | some U =>
    have : arrMul U psi = none := by
      unfold arrMul
      rw [if_neg (hp U h)]
    simp only [this]

/-- C109: in an open system without a thermal task the initial state is a square matrix: evaluating any
sequence with at least one gate raises. The propagators of an open system are `totDim² × totDim²`. -/
theorem C109_false_open (m : MState) (h : m.lind = true) (hi : m.init = none) (ht : m.thermal = none)
    (hd : 2 ≤ m.totDim) (props : String → Option (Arr ℂ))
    (hp : ∀ g U, props g = some U → U.cols = m.totDim ^ 2) (g : String) (gs : List String) :
    runSeqArr props (g :: gs) (getInitState m).1 = none := by
  apply runSeqArr_raises
  intro U hU
  rw [hp g U hU]
  unfold getInitState
  rw [hi, ht]
  simp only [h, if_true, stateToDmArr, groundState]
  nlinarith

/-- C109: the same if the initial state was set by the user, as a state vector or as a density
vector. -/
theorem C109_false_set (m : MState) (h : m.lind = true) (hd : 2 ≤ m.totDim) (state : Arr ℂ)
    (hc : state.cols = 1) (hr : state.rows = m.totDim ∨ state.rows = m.totDim ^ 2)
    (props : String → Option (Arr ℂ)) (hp : ∀ g U, props g = some U → U.cols = m.totDim ^ 2) (g : String)
    (gs : List String) :
    runSeqArr props (g :: gs) (getInitState (setInitState m state)).1 = none := by
  have hgt : m.totDim < m.totDim ^ 2 := by nlinarith
  have hne : state.rows ≠ state.cols := by
    rw [hc]
    rcases hr with hr | hr <;> rw [hr]
    · omega
    · omega
  apply runSeqArr_raises
  intro U hU
  rw [hp g U hU]
  unfold setInitState
  rw [if_pos ⟨h, hne⟩]
  rcases hr with hr | hr
  · rw [if_pos hr]
    simp only [getInitState, stateToDmArr, hr]
    omega
  · rw [if_neg (by omega), if_pos hr]
    simp only [getInitState, vecToDmArr, hr]
    rw [pow_two, Nat.sqrt_eq]
    rw [pow_two] at hgt
    omega

/-- C109: with a thermal task (or with `psi_init` given to `evaluate`) the state is a density vector and
the sequence can be evaluated. -/
theorem C109_thermal_partial (m : MState) (hi : m.init = none) (v : Arr ℂ) (ht : m.thermal = some v)
    (hv : v.rows = m.totDim ^ 2) (props : String → Option (Arr ℂ)) (s : List String)
    (hp : ∀ g ∈ s, ∃ U, props g = some U ∧ U.cols = m.totDim ^ 2 ∧ U.rows = m.totDim ^ 2) :
    ∃ w, runSeqArr props s (getInitState m).1 = some w ∧ w.rows = m.totDim ^ 2 ∧ w.cols = v.cols := by
  have hg : (getInitState m).1 = v := by
    unfold getInitState
    rw [hi, ht]
  rw [hg]
  clear hg ht
  induction s generalizing v with
  | nil => exact ⟨v, rfl, hv, rfl⟩
  | cons g gs ih =>
    obtain ⟨U, hU, hc, hr⟩ := hp g List.mem_cons_self
    unfold runSeqArr
    rw [hU]
    simp only [arrMul, hc, hv, if_true]
    exact ih (⟨U.rows, v.cols, _⟩ : Arr ℂ) hr fun g hg => hp g (List.mem_cons_of_mem _ hg)

/-! ## C110 -/

/-- C110: setting a state in a closed system stores it unchanged. -/
theorem C110_set_closed (m : MState) (h : m.lind = false) (state : Arr ℂ) :
    (getInitState (setInitState m state)).1 = state := by
  simp [setInitState, getInitState, h]

/-- C110: switching open-system dynamics on turns the state vector into a density matrix, and switching
it off again does not restore the vector: the closed system is left with a square matrix as its initial
state. -/
theorem C110_false_toggle (m : MState) (psi : Arr ℂ) (hi : m.init = some psi) (hc : psi.cols = 1)
    (hr : psi.rows = m.totDim) (hd : 2 ≤ m.totDim) :
    (getInitState (setLindbladian (setLindbladian m true) false)).1 = stateToDmArr psi ∧
      (stateToDmArr psi).cols ≠ psi.cols := by
  have hne : psi.rows ≠ psi.cols := by omega
  have h1 : (setLindbladian m true).init = some (stateToDmArr psi) := by
    unfold setLindbladian updateInitState
    simp only [hi]
    unfold setInitState
    rw [if_pos ⟨rfl, hne⟩, if_pos hr]
  constructor
  · generalize setLindbladian m true = m' at h1
    unfold setLindbladian updateInitState
    simp only [h1]
    simp [setInitState, getInitState]
  · simp only [stateToDmArr]
    exact hne

/-- C110: in an open system a density vector is stored as its density matrix, so writing it as a column again
(`tf_dm_to_vec`: entry `j * dim + i` is row `i`, column `j`) gives back what was set. -/
theorem C110_vector (m : MState) (h : m.lind = true) (hd : 2 ≤ m.totDim) (state : Arr ℂ) (hc : state.cols = 1)
    (hr : state.rows = m.totDim ^ 2) :
    (getInitState (setInitState m state)).1.rows = m.totDim ∧ (getInitState (setInitState m state)).1.cols = m.totDim ∧
      ∀ i j, (getInitState (setInitState m state)).1.e i j = state.e (j * m.totDim + i) 0 := by
  have hgt : m.totDim < m.totDim ^ 2 := by nlinarith
  have hne : state.rows ≠ state.cols := by
    rw [hc, hr]
    omega
  have e : setInitState m state = { m with init := some (vecToDmArr state) } := by
    unfold setInitState
    rw [if_pos ⟨h, hne⟩, if_neg (by omega), if_pos hr]
  rw [e]
  simp only [getInitState, vecToDmArr, hr, pow_two, Nat.sqrt_eq]
  exact ⟨trivial, trivial, fun _ _ => trivial⟩

/-- C110: in an open system a state vector is stored as the matrix of products of its entries, without complex
conjugation (see C88). -/
theorem C110_ket (m : MState) (h : m.lind = true) (hd : 2 ≤ m.totDim) (state : Arr ℂ) (hc : state.cols = 1)
    (hr : state.rows = m.totDim) :
    (getInitState (setInitState m state)).1.rows = m.totDim ∧ (getInitState (setInitState m state)).1.cols = m.totDim ∧
      ∀ i j, (getInitState (setInitState m state)).1.e i j = state.e i 0 * state.e j 0 := by
  have hne : state.rows ≠ state.cols := by
    rw [hc, hr]
    omega
  have e : setInitState m state = { m with init := some (stateToDmArr state) } := by
    unfold setInitState
    rw [if_pos ⟨h, hne⟩, if_pos hr]
  rw [e]
  simp only [getInitState, stateToDmArr, hr]
  exact ⟨trivial, trivial, fun _ _ => trivial⟩

/-- C110: a state of the wrong length is silently ignored in an open system. -/
theorem C110_ignored (m : MState) (h : m.lind = true) (state : Arr ℂ) (hne : state.rows ≠ state.cols)
    (h1 : state.rows ≠ m.totDim) (h2 : state.rows ≠ m.totDim ^ 2) : setInitState m state = m := by
  unfold setInitState
  rw [if_pos ⟨h, hne⟩, if_neg h1, if_neg h2]

example : ∃ m : MState, ∃ psi, m.init = some psi ∧ psi.cols = 1 ∧ psi.rows = m.totDim ∧ 2 ≤ m.totDim :=
  ⟨⟨false, 3, some (groundState 3), none⟩, groundState 3, rfl, rfl, rfl, by norm_num⟩

end C3.Experiment
