import Mathlib.Analysis.Complex.Basic
import Mathlib.LinearAlgebra.Matrix.ConjTranspose
import Mathlib.LinearAlgebra.Matrix.Notation
import Mathlib.Algebra.BigOperators.Group.List.Basic

/-!
# Product spaces, labels and operators: model

Models `Model.__create_labels`, `__create_annihilators`, `set_max_excitations`, `cut_excitations`,
`blowup_excitations` (c3/model.py), `np_kron_n`, `hilbert_space_kron`, `projector`, `kron_ids`
(c3/utils/qt_utils.py) and c3/libraries/hamiltonians.py.

Numpy arrays are functions on pairs of natural numbers together with their shape.
-/

namespace C3.Hilbert

open Matrix

/-! ## Labels -/

/-- `itertools.product(*lists)`: the rightmost factor advances fastest. -/
def product {α : Type*} : List (List α) → List (List α)
  | [] => [[]]
  | l :: ls => l.flatMap fun x => (product ls).map fun r => x :: r

/-- c3/model.py:141-159 `__create_labels`: `state_labels`. -/
def stateLabels (dims : List ℕ) : List (List ℕ) :=
  product (dims.map List.range)

/-- c3/model.py:141-159 `__create_labels`: `comp_state_labels`. -/
def compStateLabels (dims : List ℕ) : List (List ℕ) :=
  product (dims.map fun _ => [0, 1])

/-- c3/model.py:591-592 `get_state_index`: `list.index` raises `ValueError` (`none`). -/
def getStateIndex (dims : List ℕ) (state : List ℕ) : Option ℕ :=
  (stateLabels dims).findIdx? (· == state)

/-! ## Arrays -/

/-- A two-dimensional numpy array. The values outside of the shape are irrelevant. -/
structure Arr (R : Type*) where
  rows : ℕ
  cols : ℕ
  e : ℕ → ℕ → R

variable {R : Type*}

/-- `np.eye(r, c)`. -/
def eye [Zero R] [One R] (r c : ℕ) : Arr R :=
  ⟨r, c, fun i j => if i = j then 1 else 0⟩

/-- `np.kron`. -/
def kron [Mul R] (a b : Arr R) : Arr R :=
  ⟨a.rows * b.rows, a.cols * b.cols, fun i j =>
    a.e (i / b.rows) (j / b.cols) * b.e (i % b.rows) (j % b.cols)⟩

/-- c3/utils/qt_utils.py:58-65 `np_kron_n`. -/
def npKronN [Mul R] [Zero R] [One R] (ms : List (Arr R)) : Arr R :=
  ms.foldl kron (eye 1 1)

/-- c3/utils/qt_utils.py:68-96 `hilbert_space_kron`: `none` is the raised `Warning`. -/
def hilbertSpaceKron [Mul R] [Zero R] [One R] (op : Arr R) (indx : ℕ) (dims : List ℕ) :
    Option (Arr R) :=
  let opList := (List.range dims.length).map fun indy =>
    if indy = indx then op else eye (dims.getD indy 0) (dims.getD indy 0)
  if indx + 1 > dims.length then none else some (npKronN opList)

/-- c3/utils/qt_utils.py:196-205 `kron_ids`: identities, replaced one after the other by the given
matrices. `none` is the `IndexError` for an index outside of the list. -/
def kronIds [Mul R] [Zero R] [One R] (dims : List ℕ) (indices : List ℕ) (mats : List (Arr R)) :
    Option (Arr R) :=
  let ids := dims.map fun d => eye d d
  if mats.length ≤ indices.length ∧ ∀ i ∈ indices.take mats.length, i < dims.length then
    some (npKronN ((indices.zip mats).foldl (fun l p => l.set p.1 p.2) ids))
  else none

/-- c3/utils/qt_utils.py:178-193 `projector`. `outdims` are looked up by position. -/
def projector [Mul R] [Zero R] [One R] (dims : List ℕ) (indices : List ℕ)
    (outdims : Option (List ℕ)) : Arr R :=
  let od := outdims.getD (dims.map fun _ => 2)
  npKronN ((List.range dims.length).map fun index =>
    if index ∈ indices then eye (dims.getD index 0) (od.getD index 0)
    else eye (dims.getD index 0) 1)

/-- The array as a Mathlib matrix of a prescribed size. -/
def Arr.mat (a : Arr R) (r c : ℕ) : Matrix (Fin r) (Fin c) R :=
  fun i j => a.e i j

/-- c3/model.py:169 `np.diag(np.sqrt(np.arange(1, dim)), k=1)`. -/
noncomputable def annih (dim : ℕ) : Arr ℂ :=
  ⟨dim, dim, fun i j => if j = i + 1 then ((Real.sqrt j : ℝ) : ℂ) else 0⟩

/-- c3/model.py:161-171 `__create_annihilators`: the annihilator of subsystem `indx`. -/
noncomputable def annOper (dims : List ℕ) (indx : ℕ) : Option (Arr ℂ) :=
  hilbertSpaceKron (annih (dims.getD indx 0)) indx dims

/-! ## Excitation cut -/

/-- c3/model.py:198-216 `set_max_excitations`: the kept positions, in order. -/
def keptPositions (dims : List ℕ) (maxEx : ℕ) : List ℕ :=
  (List.range (stateLabels dims).length).filter fun ii =>
    ((stateLabels dims).getD ii []).sum ≤ maxEx

/-- c3/model.py:198-216: the cutter, one row `e_ii` for each kept position. -/
def exCutter (dims : List ℕ) (maxEx : ℕ) :
    Matrix (Fin (keptPositions dims maxEx).length) (Fin (stateLabels dims).length) ℂ :=
  fun r c => if (c : ℕ) = (keptPositions dims maxEx)[r] then 1 else 0

/-- c3/model.py:218-220 `cut_excitations`. -/
noncomputable def cutExcitations (dims : List ℕ) (maxEx : ℕ)
    (op : Matrix (Fin (stateLabels dims).length) (Fin (stateLabels dims).length) ℂ) :
    Matrix (Fin (keptPositions dims maxEx).length) (Fin (keptPositions dims maxEx).length) ℂ :=
  exCutter dims maxEx * op * (exCutter dims maxEx)ᵀ

/-- c3/model.py:222-224 `blowup_excitations`. -/
noncomputable def blowupExcitations (dims : List ℕ) (maxEx : ℕ)
    (op : Matrix (Fin (keptPositions dims maxEx).length) (Fin (keptPositions dims maxEx).length) ℂ) :
    Matrix (Fin (stateLabels dims).length) (Fin (stateLabels dims).length) ℂ :=
  (exCutter dims maxEx)ᵀ * op * exCutter dims maxEx

/-! ## Library Hamiltonians (c3/libraries/hamiltonians.py) -/

section Hams
variable {n : Type*} [Fintype n] [DecidableEq n]

/-- c3/libraries/hamiltonians.py:17-34 `resonator`. -/
noncomputable def resonator (a : Matrix n n ℂ) : Matrix n n ℂ := aᴴ * a

/-- c3/libraries/hamiltonians.py:37-55 `duffing`. -/
noncomputable def duffing (a : Matrix n n ℂ) : Matrix n n ℂ :=
  (1 / 2 : ℂ) • ((aᴴ * a - 1) * (aᴴ * a))

/-- c3/libraries/hamiltonians.py:58-77 `third_order`. -/
noncomputable def thirdOrder (a : Matrix n n ℂ) : Matrix n n ℂ :=
  aᴴ * a * a + aᴴ * (aᴴ * a)

/-- c3/libraries/hamiltonians.py:80-100 `int_XX`. -/
noncomputable def intXX (a b : Matrix n n ℂ) : Matrix n n ℂ := (aᴴ + a) * (bᴴ + b)

/-- c3/libraries/hamiltonians.py:103-123 `int_YY`. -/
noncomputable def intYY (a b : Matrix n n ℂ) : Matrix n n ℂ := -((aᴴ - a) * (bᴴ - b))

/-- c3/libraries/hamiltonians.py:126-143 `x_drive`. -/
noncomputable def xDrive (a : Matrix n n ℂ) : Matrix n n ℂ := aᴴ + a

/-- c3/libraries/hamiltonians.py:146-163 `y_drive`. -/
noncomputable def yDrive (a : Matrix n n ℂ) : Matrix n n ℂ := Complex.I • (aᴴ - a)

/-- c3/libraries/hamiltonians.py:165-182 `z_drive`. -/
noncomputable def zDrive (a : Matrix n n ℂ) : Matrix n n ℂ := aᴴ * a

end Hams

end C3.Hilbert
