import Verif.Qiskit.Run
import Verif.Qiskit.Backend
import Verif.Experiment.Lookup
import Verif.Experiment.Readout
import Verif.Experiment.GoalCircuits

/-!
# C230: from circuits to counts on the Qiskit backend

`run_experiment` (c3/qiskit/c3_backend.py:496-589) with the experiment behind it: `evaluate_qasm`
(c3/experiment.py:304-346), `process` (355-407), `generate_shot_readout` and the dictionary of counts
(c3/qiskit/c3_backend.py:559-565). The counts are compared with those of the ideal circuit.
-/

set_option linter.unusedSectionVars false

noncomputable section

namespace C3.Qiskit.Counts

open Matrix C3.Hilbert C3.Fidelity C3.Qiskit.Run C3.Experiment C3.Experiment.Circuits C3.Experiment.GoalCircuits

/-! ## Model -/

/-- c3/experiment.py:337-353: `lookup_gate(**gate)` of an instruction of a circuit. Simplified: a VZ gate without qubits or
without angle, which raises in the code, is read as zero. -/
def toCall {K : Type} (i : Instr ℝ K) : Qasm.Call :=
  if i.name = "VZ" then .vz (i.qubits.headD 0) (i.vals.headD 0) else .named (Lookup.opKey i.name (.list i.qubits))

/-- c3/experiment.py:619-624 `populations` of a state vector, as a column. -/
def column (psi : Qasm.Vec) : Arr ℝ := ⟨psi.dim, 1, fun i _ => if h : i < psi.dim then ‖psi.v ⟨i, h⟩‖ ^ 2 else 0⟩

/-- c3/qiskit/c3_backend.py:549-551: `exp.evaluate([instructions], psi)` and `exp.process(pops)` for a model without readout
tasks. Simplified: all exceptions are `none`. -/
def evalCircuit {K : Type} (dims : List ℕ) (psi : Qasm.Vec) (props : String → Option Qasm.Op) (c : List (Instr ℝ K)) :
    Option (List ℝ) :=
  match Qasm.runSeq dims props (c.map toCall) psi with
  | .error _ => none
  | .ok v => match C3.Experiment.process dims ⟨none, none⟩ none [column v] with
    | .ok ([.vec l], _) => some l
    | _ => none

/-- The device with an experiment of these dimensions; setting parameters and computing propagators are arbitrary. -/
def device {P K : Type} (dims : List ℕ) (psi : Qasm.Vec) (set : List ℝ → List K → P → P × Bool)
    (compute : P → String → Option Qasm.Op) : Dev P ℝ K (String → Option Qasm.Op) (List ℝ) :=
  ⟨dims.length, set, compute, evalCircuit dims psi⟩

/-- c3/qiskit/c3_backend.py:559-565: the dictionary of counts by the index whose `hex` is the key, from the populations and
from whether the circuit has a measurement. The commented lines after it (568-571) would flip the labels. -/
def report (dims : List ℕ) (shots : ℕ) (pops : List ℝ) (measured : Bool) : List (ℕ × ℝ) :=
  if measured then counts dims ((shotReadout pops shots).map fun (z : ℤ) => (z : ℝ)) else counts dims pops

/-! ## Specification -/

/-- The label of a state in the convention of Qiskit: qubit 0 is the least significant bit. -/
def qiskitIndex (bits : List ℕ) : ℕ := Nat.ofDigits 2 bits

/-- The key of a gate in the table of propagators. -/
def keyOf {K : Type} (i : Instr ℝ K) : String := Lookup.opKey i.name (.list i.qubits)

/-- The probability of a state after the ideal circuit. -/
def share (dims : List ℕ) (hd : ∀ d ∈ dims, 2 ≤ d) (ideal : String → Arr ℂ) (keys : List String)
    (xi : Fin (outDims dims (List.range dims.length)).prod → ℂ) (p : Fin dims.prod) : ℝ :=
  ‖encode (compEmb dims (List.range dims.length) hd) (circuit (fun g => (ideal g).mat
    (outDims dims (List.range dims.length)).prod (outDims dims (List.range dims.length)).prod) keys xi) p‖ ^ 2

/-! ## Lemmas -/

theorem runSeq_named (dims : List ℕ) (props : String → Option (Matrix (Fin dims.prod) (Fin dims.prod) ℂ))
    (ops : String → Option Qasm.Op) (keys : List String) (h : ∀ k ∈ keys, ops k = (props k).map (Qasm.Op.mk dims.prod))
    (psi v : Fin dims.prod → ℂ) (hv : runSeq props keys psi = some v) :
    Qasm.runSeq dims ops (keys.map .named) ⟨dims.prod, psi⟩ = .ok ⟨dims.prod, v⟩ := by
  induction keys generalizing psi with
  | nil =>
    simp only [runSeq, Option.some.injEq] at hv
    subst hv
    rfl
  | cons k keys ih =>
    rw [runSeq] at hv
    cases hp : props k with
    | none => rw [hp] at hv; simp at hv
    | some U =>
      rw [hp] at hv
      have hk := h k List.mem_cons_self
      rw [hp, Option.map_some] at hk
      rw [List.map_cons, Qasm.runSeq]
      simp only [Qasm.lookup, hk]
      unfold Qasm.apply
      rw [dif_pos rfl]
      exact ih (fun k hk => h k (List.mem_cons_of_mem _ hk)) _ hv

theorem toCall_map {K : Type} (c : List (Instr ℝ K)) (h : ∀ i ∈ c, i.name ≠ "VZ") :
    c.map toCall = (c.map keyOf).map .named := by
  rw [List.map_map]
  refine List.map_congr_left fun i hi => ?_
  simp [toCall, keyOf, h i hi]

theorem evalCircuit_eq {K : Type} (dims : List ℕ) (props : String → Option (Matrix (Fin dims.prod) (Fin dims.prod) ℂ))
    (ops : String → Option Qasm.Op) (c : List (Instr ℝ K)) (hvz : ∀ i ∈ c, i.name ≠ "VZ")
    (h : ∀ i ∈ c, ops (keyOf i) = (props (keyOf i)).map (Qasm.Op.mk dims.prod)) (psi v : Fin dims.prod → ℂ)
    (hv : runSeq props (c.map keyOf) psi = some v) :
    evalCircuit dims ⟨dims.prod, psi⟩ ops c = some (List.ofFn fun p => ‖v p‖ ^ 2) := by
  unfold evalCircuit
  rw [toCall_map c hvz, runSeq_named dims props ops _ (by
    intro k hk
    obtain ⟨i, hi, rfl⟩ := List.mem_map.1 hk
    exact h i hi) psi v hv]
  have e : (List.range dims.prod).map (fun i => (column ⟨dims.prod, v⟩).e i 0) = List.ofFn fun p => ‖v p‖ ^ 2 := by
    apply List.ext_getElem
    · simp
    · intro i h1 h2
      simp only [List.getElem_map, List.getElem_range, List.getElem_ofFn, column]
      rw [dif_pos (by simpa using h1)]
  simp only [C3.Experiment.process, C3.Experiment.processOne]
  simp only [bind, Except.bind]
  rw [← e]
  rfl

/-! ## Theorems -/

/-- **C230** up to the order of the qubits and to the number of levels: let the gates of a circuit be in the table of
propagators under their names and qubits, with values of `unitary_infid`. Then the circuit runs, and the count reported for
a label with qubit 0 in front (in the number system of the levels) differs from the share of the ideal circuit by at most
the shots times the errors of the gates, and half a count for the rounding. Missing: the order of the qubits that the
backend announces, `C230_false_order`, and two bits per qubit for more levels, `C230_false_levels`. -/
theorem C230_counts_partial {P K : Type} (dims : List ℕ) (lv : ℕ) (hlv : ∀ d ∈ dims, d = lv) (hne : dims ≠ [])
    (hd : ∀ d ∈ dims, 2 ≤ d) (set : List ℝ → List K → P → P × Bool) (compute : P → String → Option Qasm.Op)
    (xi : Fin (outDims dims (List.range dims.length)).prod → ℂ) (hxi : ∑ j, ‖xi j‖ ^ 2 = 1)
    (s : St P ℝ K (String → Option Qasm.Op)) (c : Circ ℝ K) (hn : c.n ≤ dims.length)
    (hlast : ∀ l, (gates c.body).getLast? = some l → l.name ≠ "param_update") (hg : gates c.body ≠ [])
    (hvz : ∀ i ∈ gates c.body, i.name ≠ "VZ") (ideal actual : String → Arr ℂ) (x : String → ℝ)
    (hfit : ∀ i ∈ gates c.body, Fits dims (List.range dims.length) (ideal (keyOf i)) (actual (keyOf i)))
    (hx : ∀ i ∈ gates c.body, unitaryInfid (ideal (keyOf i)) (actual (keyOf i)) none dims = some (x (keyOf i)))
    (hprops : ∀ i ∈ gates c.body, s.props (keyOf i) = some ⟨dims.prod, (actual (keyOf i)).mat dims.prod dims.prod⟩)
    (shots : ℕ) :
    ∃ pops m, runExperiment (device dims ⟨dims.prod, encode (compEmb dims (List.range dims.length) hd) xi⟩ set compute) s c =
        (s, .ok (pops, m)) ∧ (m = true ↔ ∃ i ∈ c.body, i.name = "measure") ∧
      ∀ l, ∀ hl : Valid dims l, ∃ y, dictGet (report dims shots pops m) (flat dims l) = some y ∧
        (m = true → |y - shots * share dims hd ideal ((gates c.body).map keyOf) xi ⟨flat dims l, flat_lt hl⟩| ≤
          shots * (2 * ((gates c.body).map fun i => Real.sqrt (2 * 2 ^ dims.length * x (keyOf i))).sum) + 1 / 2) ∧
        (m = false → |y - share dims hd ideal ((gates c.body).map keyOf) xi ⟨flat dims l, flat_lt hl⟩| ≤
          2 * ((gates c.body).map fun i => Real.sqrt (2 * 2 ^ dims.length * x (keyOf i))).sum) := by
  classical
  set names := (gates c.body).map keyOf with hnames
  set props : String → Option (Matrix (Fin dims.prod) (Fin dims.prod) ℂ) :=
    fun k => if k ∈ names then some ((actual k).mat dims.prod dims.prod) else none with hpr
  have hr : List.range dims.length ≠ [] := by
    rw [Ne, List.range_eq_nil, List.length_eq_zero_iff]
    exact hne
  have hmem : ∀ k ∈ names, ∃ i ∈ gates c.body, keyOf i = k := fun k hk => List.mem_map.1 hk
  obtain ⟨pops, h1, h2, h3⟩ := C229_circuits dims (List.range dims.length) hd hr List.nodup_range (by simp) names ideal actual
    x (fun k hk => by obtain ⟨i, hi, rfl⟩ := hmem k hk; exact hfit i hi)
    (fun k hk => by obtain ⟨i, hi, rfl⟩ := hmem k hk; exact hx i hi) props (fun k hk => if_pos hk) [names] (by simp) xi hxi
  obtain ⟨pop, rfl⟩ := List.length_eq_one_iff.1 h2
  have h4 := h3 0 names pop rfl rfl
  obtain ⟨v, hv, rfl⟩ : ∃ v, runSeq props names (encode (compEmb dims (List.range dims.length) hd) xi) = some v ∧
      popsClosed v = pop := by
    unfold evaluateClosed at h1
    rw [List.mapM_cons, List.mapM_nil] at h1
    cases hv : runSeq props names (encode (compEmb dims (List.range dims.length) hd) xi) with
    | none => rw [hv] at h1; simp at h1
    | some v =>
      rw [hv] at h1
      exact ⟨v, rfl, by simpa using h1⟩
  have h5 := evalCircuit_eq dims props s.props (gates c.body) hvz (fun i hi => by
    rw [hprops i hi, hpr]
    simp only
    rw [if_pos (List.mem_map_of_mem hi)]
    rfl) _ v hv
  obtain ⟨l0, hl0⟩ : ∃ l, (gates c.body).getLast? = some l := by
    cases h : (gates c.body).getLast? with
    | none => exact absurd (List.getLast?_eq_none_iff.1 h) hg
    | some l => exact ⟨l, rfl⟩
  obtain ⟨m, h6, h7⟩ := C161_gates_partial (device dims ⟨dims.prod, encode (compEmb dims (List.range dims.length) hd) xi⟩ set
    compute) s c hn l0 hl0 (hlast l0 hl0) _ h5
  refine ⟨_, m, h6, h7, fun l hl => ?_⟩
  have h11 := (Finset.single_le_sum (f := fun p => |popsClosed v p - share dims hd ideal names xi p|)
    (fun p _ => abs_nonneg _) (Finset.mem_univ ⟨flat dims l, flat_lt hl⟩)).trans h4
  have h12 : (names.map fun g => errorOf (List.range dims.length) (x g)) =
      (gates c.body).map fun i => Real.sqrt (2 * 2 ^ dims.length * x (keyOf i)) := by
    rw [hnames, List.map_map]
    refine List.map_congr_left fun i _ => ?_
    simp [errorOf]
  rw [h12] at h11
  simp only [popsClosed] at h11
  generalize share dims hd ideal names xi ⟨flat dims l, flat_lt hl⟩ = b at h11 ⊢
  cases m with
  | false =>
    have h8 := (C119_all_states_partial dims lv hlv hne (List.ofFn fun p => ‖v p‖ ^ 2) (by simp)).1
      (flat dims l) (flat_lt hl)
    rw [List.getElem?_ofFn, dif_pos (flat_lt hl)] at h8
    exact ⟨_, h8, by simp, fun _ => h11⟩
  | true =>
    have h8 := (C119_all_states_partial dims lv hlv hne
      ((shotReadout (List.ofFn fun p => ‖v p‖ ^ 2) shots).map fun (z : ℤ) => (z : ℝ)) (by simp [shotReadout])).1
      (flat dims l) (flat_lt hl)
    have h9 : ((shotReadout (List.ofFn fun p => ‖v p‖ ^ 2) shots).map fun (z : ℤ) => (z : ℝ))[flat dims l]? =
        some ((roundEven (‖v ⟨flat dims l, flat_lt hl⟩‖ ^ 2 * shots) : ℤ) : ℝ) := by
      simp [shotReadout, flat_lt hl]
    rw [h9] at h8
    refine ⟨_, by rw [report, if_pos rfl]; exact h8, fun _ => ?_, by simp⟩
    have h10 := roundEven_near (‖v ⟨flat dims l, flat_lt hl⟩‖ ^ 2 * shots)
    generalize ‖v ⟨flat dims l, flat_lt hl⟩‖ ^ 2 = a at h10 h11 ⊢
    have e : (roundEven (a * shots) : ℝ) - shots * b = ((roundEven (a * shots) : ℝ) - a * shots) + shots * (a - b) := by
      ring
    rw [e]
    refine (abs_add_le _ _).trans ?_
    rw [abs_mul, abs_of_nonneg (Nat.cast_nonneg shots : (0 : ℝ) ≤ shots), add_comm]
    exact add_le_add (mul_le_mul_of_nonneg_left h11 (Nat.cast_nonneg _)) h10

/-- The gate of the example of C229 on a backend with one transmon. -/
example (shots : ℕ) (xi : Fin (outDims [3] (List.range [3].length)).prod → ℂ) (hxi : ∑ j, ‖xi j‖ ^ 2 = 1) :
    ∃ pops m, runExperiment (device [3] ⟨[3].prod, encode (compEmb [3] (List.range [3].length) (by simp)) xi⟩
      (fun _ (_ : List String) (p : Unit) => (p, true)) fun _ _ => none)
      ⟨(), fun k => if k = "id[0]" then some ⟨[3].prod, exGate.mat [3].prod [3].prod⟩ else none, none, none⟩
      ⟨1, [⟨"id", [0], [], []⟩, ⟨"measure", [0], [], []⟩]⟩ =
        (⟨(), fun k => if k = "id[0]" then some ⟨[3].prod, exGate.mat [3].prod [3].prod⟩ else none, none, none⟩,
          .ok (pops, m)) ∧ m = true ∧
      ∀ l, Valid [3] l → ∃ y, dictGet (report [3] shots pops m) (flat [3] l) = some y := by
  have hg : gates ([⟨"id", [0], [], []⟩, ⟨"measure", [0], [], []⟩] : List (Instr ℝ String)) = [⟨"id", [0], [], []⟩] := by
    simp [gates, IsGate]
  have hk : keyOf (⟨"id", [0], [], []⟩ : Instr ℝ String) = "id[0]" := by decide
  obtain ⟨pops, m, h1, h2, h3⟩ := C230_counts_partial (P := Unit) (K := String) [3] 3 (by simp) (by simp) (by simp)
    (fun _ _ p => (p, true)) (fun _ _ => none) xi hxi
    ⟨(), fun k => if k = "id[0]" then some ⟨[3].prod, exGate.mat [3].prod [3].prod⟩ else none, none, none⟩
    ⟨1, [⟨"id", [0], [], []⟩, ⟨"measure", [0], [], []⟩]⟩ (by simp) (by simp [hg]) (by simp [hg]) (by simp [hg])
    (fun _ => eye 2 2) (fun _ => exGate) (fun _ => 19 / 100) (fun _ _ => exGate_fits) (fun _ _ => exGate_infid)
    (by
      intro i hi
      rw [hg, List.mem_singleton] at hi
      rw [hi, hk]
      rfl) shots
  exact ⟨pops, m, h1, h2.2 (by simp), fun l hl => let ⟨y, hy, _⟩ := h3 l hl; ⟨y, hy⟩⟩

/-- A circuit with the gate `x` on qubit 0 of two qubits, and a measurement. -/
def flipFirst : Circ ℝ String := ⟨2, [⟨"x", [0], [], []⟩, ⟨"measure", [0, 1], [], []⟩]⟩

/-- The gate that swaps the two lowest levels of the first of two subsystems with `lv` levels and leaves the second alone. -/
def swapFirst (lv : ℕ) : Matrix (Fin [lv, lv].prod) (Fin [lv, lv].prod) ℂ := of fun i j =>
  if (i : ℕ) % lv = (j : ℕ) % lv ∧ ((i : ℕ) / lv = (j : ℕ) / lv ∧ 2 ≤ (j : ℕ) / lv ∨
    (i : ℕ) / lv = 0 ∧ (j : ℕ) / lv = 1 ∨ (i : ℕ) / lv = 1 ∧ (j : ℕ) / lv = 0) then 1 else 0

theorem swapFirst_ground (lv : ℕ) (h : 2 ≤ lv) (hp : 0 < [lv, lv].prod) (hq : lv < [lv, lv].prod) :
    swapFirst lv *ᵥ Pi.single ⟨0, hp⟩ 1 = Pi.single ⟨lv, hq⟩ 1 := by
  rw [mulVec_single_one]
  ext i
  simp only [swapFirst, Matrix.col_apply, of_apply, Pi.single_apply, Nat.zero_mod, Nat.zero_div]
  refine if_congr ?_ rfl rfl
  constructor
  · rintro ⟨h1, h2 | h2 | h2⟩
    · omega
    · omega
    · apply Fin.ext
      have := Nat.div_add_mod (i : ℕ) lv
      simp only [h1, h2.1] at this
      simp only
      omega
  · rintro rfl
    simp [Nat.div_self (by omega : 0 < lv)]

/-- The counts of `flipFirst` on two subsystems with `lv` levels, with a perfect gate: all shots are under the number of
levels. -/
theorem flipFirst_counts (lv : ℕ) (h : 2 ≤ lv) (hp : 0 < [lv, lv].prod) (shots : ℕ)
    (s : St Unit ℝ String (String → Option Qasm.Op)) (hs : s.props "x[0]" = some ⟨[lv, lv].prod, swapFirst lv⟩) :
    ∃ pops, runExperiment (device [lv, lv] ⟨[lv, lv].prod, Pi.single ⟨0, hp⟩ 1⟩ (fun _ _ p => (p, true)) fun _ => s.props) s
        flipFirst = (s, .ok (pops, true)) ∧
      ∀ k < [lv, lv].prod, dictGet (report [lv, lv] shots pops true) k = some (if k = lv then (shots : ℝ) else 0) := by
  have hq : lv < [lv, lv].prod := by
    simp only [List.prod_cons, List.prod_nil, mul_one]
    nlinarith
  have hg : gates flipFirst.body = [⟨"x", [0], [], []⟩] := by
    simp [gates, flipFirst, IsGate]
  have hk : keyOf (⟨"x", [0], [], []⟩ : Instr ℝ String) = "x[0]" := by decide
  have h5 := evalCircuit_eq (K := String) [lv, lv] (fun k => if k = "x[0]" then some (swapFirst lv) else none) s.props
    [⟨"x", [0], [], []⟩] (by simp) (by
      intro i hi
      obtain rfl := List.mem_singleton.1 hi
      rw [hk, hs]
      rfl) (Pi.single ⟨0, hp⟩ 1) (Pi.single ⟨lv, hq⟩ 1) (by
      rw [List.map_cons, hk, List.map_nil, runSeq]
      simp only [if_true, runSeq]
      rw [swapFirst_ground lv h hp hq])
  obtain ⟨m, h6, h7⟩ := C161_gates_partial (device [lv, lv] ⟨[lv, lv].prod, Pi.single ⟨0, hp⟩ 1⟩ (fun _ _ p => (p, true))
    fun _ => s.props) s flipFirst (by simp [flipFirst, device]) ⟨"x", [0], [], []⟩ (by rw [hg]; rfl) (by simp) _
    (by rw [hg]; exact h5)
  rw [h7.2 (by simp [flipFirst])] at h6
  refine ⟨_, h6, fun k hk => ?_⟩
  have h8 := (C119_all_states_partial [lv, lv] lv (by simp) (by simp)
    ((shotReadout (List.ofFn fun p => ‖(Pi.single ⟨lv, hq⟩ 1 : Fin [lv, lv].prod → ℂ) p‖ ^ 2) shots).map
      fun (z : ℤ) => (z : ℝ)) (by simp [shotReadout])).1 k hk
  rw [report, if_pos rfl, h8]
  have h9 : ∀ n : ℕ, roundEven (n : ℝ) = n := fun n => by exact_mod_cast roundEven_int n
  have h10 := h9 0
  have h11 := h9 1
  simp only [shotReadout, List.map_ofFn, List.getElem?_ofFn, hk, dif_pos, Function.comp_apply, Pi.single_apply,
    Fin.mk.injEq]
  by_cases he : k = lv
  · simp [he, h9]
  · simp [he]
    simpa using h10

/-- The backend announces that labels are flipped to the convention of Qiskit by default (`disable_flip_labels`, 142-148),
but they are not: after `x` on qubit 0 all shots are under the label that means `x` on qubit 1, and none under the label of
qubit 0. -/
theorem C230_false_order (shots : ℕ) (s : St Unit ℝ String (String → Option Qasm.Op))
    (hs : s.props "x[0]" = some ⟨[2, 2].prod, swapFirst 2⟩) :
    ∃ pops, runExperiment (device [2, 2] ⟨[2, 2].prod, Pi.single ⟨0, by simp⟩ 1⟩ (fun _ _ p => (p, true)) fun _ => s.props) s
        flipFirst = (s, .ok (pops, true)) ∧
      dictGet (report [2, 2] shots pops true) (qiskitIndex [1, 0]) = some 0 ∧
      dictGet (report [2, 2] shots pops true) (qiskitIndex [0, 1]) = some (shots : ℝ) := by
  obtain ⟨pops, h1, h2⟩ := flipFirst_counts 2 le_rfl (by simp) shots s hs
  refine ⟨pops, h1, ?_, ?_⟩
  · rw [show qiskitIndex [1, 0] = 1 by decide, h2 1 (by simp)]
    simp
  · rw [show qiskitIndex [0, 1] = 2 by decide, h2 2 (by simp)]
    simp

/-- With three levels the label of the same circuit is the one that means both qubits excited. -/
theorem C230_false_levels (shots : ℕ) (s : St Unit ℝ String (String → Option Qasm.Op))
    (hs : s.props "x[0]" = some ⟨[3, 3].prod, swapFirst 3⟩) :
    ∃ pops, runExperiment (device [3, 3] ⟨[3, 3].prod, Pi.single ⟨0, by simp⟩ 1⟩ (fun _ _ p => (p, true)) fun _ => s.props) s
        flipFirst = (s, .ok (pops, true)) ∧
      dictGet (report [3, 3] shots pops true) (qiskitIndex [1, 1]) = some (shots : ℝ) ∧
      dictGet (report [3, 3] shots pops true) (qiskitIndex [1, 0]) = some 0 ∧
      dictGet (report [3, 3] shots pops true) (qiskitIndex [0, 1]) = some 0 := by
  obtain ⟨pops, h1, h2⟩ := flipFirst_counts 3 (by norm_num) (by simp) shots s hs
  refine ⟨pops, h1, ?_, ?_, ?_⟩
  · rw [show qiskitIndex [1, 1] = 3 by decide, h2 3 (by simp)]
    simp
  · rw [show qiskitIndex [1, 0] = 1 by decide, h2 1 (by simp)]
    simp
  · rw [show qiskitIndex [0, 1] = 2 by decide, h2 2 (by simp)]
    simp

end C3.Qiskit.Counts

