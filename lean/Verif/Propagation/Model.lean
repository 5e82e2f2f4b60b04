import Verif.Fold.Model
import Mathlib.Analysis.Normed.Algebra.MatrixExponential
import Mathlib.LinearAlgebra.Matrix.Kronecker
import Mathlib.Analysis.Complex.Basic
import Mathlib.LinearAlgebra.UnitaryGroup

/-!
# Model of the propagation code

c3/libraries/propagation.py and the superoperator helpers of c3/utils/tf_utils.py.
Floats are exact reals / complex numbers, `tf.linalg.expm` is the matrix exponential.
A flat index of a `d² `-dimensional vector is the pair `(i, j)` with flat position `i * d + j`, the row
major order of `tf.reshape`.
-/

namespace C3.Propagation

open Matrix Kronecker NormedSpace

variable {n : Type*} [Fintype n] [DecidableEq n]

/-! ## Closed systems -/

/-- c3/libraries/propagation.py:370-374: `h = h0; h += c_k * h_k` in a loop. -/
def hamAt (h0 : Matrix n n ℂ) (ctrl : List (ℝ × Matrix n n ℂ)) : Matrix n n ℂ :=
  ctrl.foldl (fun h p => h + (p.1 : ℂ) • p.2) h0

/-- c3/libraries/propagation.py:349-379 `tf_dU_of_t`. -/
noncomputable def dUOfT (h0 : Matrix n n ℂ) (hks : List (Matrix n n ℂ)) (dt : ℝ) (c : List ℝ) :
    Matrix n n ℂ :=
  exp ((dt : ℂ) • (-Complex.I) • hamAt h0 (c.zip hks))

/-- c3/libraries/propagation.py:426-440 `tf_propagation_vectorized` with signals: drift plus
`reduce_sum` of the products; one exponential per time slice. -/
noncomputable def propVectorized (h0 : Matrix n n ℂ) (hks : List (Matrix n n ℂ)) (dt : ℝ)
    (cs : List (List ℝ)) : List (Matrix n n ℂ) :=
  cs.map fun c =>
    exp ((dt : ℂ) • (-Complex.I) • (h0 + ((c.zip hks).map fun p => (p.1 : ℂ) • p.2).sum))

/-- c3/libraries/propagation.py:437-440 `tf_propagation_vectorized` without signals: the Hamiltonians
are given per slice. -/
noncomputable def propVectorizedH (dt : ℝ) (hs : List (Matrix n n ℂ)) : List (Matrix n n ℂ) :=
  hs.map fun h => exp ((dt : ℂ) • (-Complex.I) • h)

/-- c3/libraries/propagation.py:259-341 `pwc`, closed system with control signals and no excitation
cut: slice propagators in batches, then the folded product. `cs` is the list over time of the vectors
of control values. -/
noncomputable def pwc (h0 : Matrix n n ℂ) (hks : List (Matrix n n ℂ)) (dt : ℝ)
    (cs : List (List ℝ)) (bs : ℕ) (stack : List Bool) : Option (Matrix n n ℂ) :=
  Fold.matmulN (Fold.batchPropagate (propVectorized h0 hks dt) cs bs) stack

/-- The same without control signals (`controllability = False`). -/
noncomputable def pwcH (dt : ℝ) (hs : List (Matrix n n ℂ)) (bs : ℕ) (stack : List Bool) :
    Option (Matrix n n ℂ) :=
  Fold.matmulN (Fold.batchPropagate (propVectorizedH dt) hs bs) stack

/-! ## Series exponentials -/

/-- The body of the loop c3/libraries/propagation.py:651-654: `(r, A_powers)` for `ii`. -/
noncomputable def expmStep (A : Matrix n n ℂ) (s : Matrix n n ℂ × Matrix n n ℂ) (ii : ℕ) :
    Matrix n n ℂ × Matrix n n ℂ :=
  let p := ((ii : ℂ)⁻¹) • (s.2 * A)
  (s.1 + p, p)

/-- c3/libraries/propagation.py:630-655 `tf_expm`; `range(2, terms)`. (`ii += 1` in the body does not
affect a Python `for` loop.) -/
noncomputable def tfExpm (A : Matrix n n ℂ) (terms : ℕ) : Matrix n n ℂ :=
  ((List.range' 2 (terms - 2)).foldl (expmStep A) (1 + A, A)).1

/-! ## Superoperators -/

/-- c3/utils/tf_utils.py:271-274 `tf_spre`. -/
def spre (A : Matrix n n ℂ) : Matrix (n × n) (n × n) ℂ := A ⊗ₖ (1 : Matrix n n ℂ)

/-- c3/utils/tf_utils.py:277-280 `tf_spost`. -/
def spost (A : Matrix n n ℂ) : Matrix (n × n) (n × n) ℂ := (1 : Matrix n n ℂ) ⊗ₖ Aᵀ

/-- c3/utils/tf_utils.py:284-289 `tf_super`. -/
def tfSuper (A : Matrix n n ℂ) : Matrix (n × n) (n × n) ℂ := spre A * spost Aᴴ

/-- c3/utils/tf_utils.py:292-296 `tf_state_to_dm`: the bra is the transposed ket, without
conjugation. -/
def stateToDm (psi : n → ℂ) : Matrix n n ℂ := Matrix.of fun i j => psi i * psi j

/-- c3/utils/tf_utils.py:300-302 `tf_dm_to_vec`: reshape of the transpose. -/
def dmToVec (dm : Matrix n n ℂ) : n × n → ℂ := fun p => dmᵀ p.1 p.2

/-- c3/utils/tf_utils.py:305-308 `tf_vec_to_dm`: transpose of the reshape. -/
def vecToDm (v : n × n → ℂ) : Matrix n n ℂ := (Matrix.of fun i j => v (i, j))ᵀ

/-- c3/libraries/propagation.py:405-417, the generator of `tf_dU_of_t_lind`. -/
noncomputable def lindOp (h : Matrix n n ℂ) (cols : List (Matrix n n ℂ)) :
    Matrix (n × n) (n × n) ℂ :=
  cols.foldl (fun op L =>
      op + spre L * spost Lᴴ - (1 / 2 : ℂ) • (spre Lᴴ * spre L)
        - (1 / 2 : ℂ) • (spost L * spost Lᴴ))
    ((-Complex.I) • (spre h - spost h))

/-- c3/libraries/propagation.py:382-423 `tf_dU_of_t_lind`. -/
noncomputable def dUOfTLind (h0 : Matrix n n ℂ) (hks cols : List (Matrix n n ℂ)) (dt : ℝ)
    (c : List ℝ) : Matrix (n × n) (n × n) ℂ :=
  exp ((dt : ℂ) • lindOp (hamAt h0 (c.zip hks)) cols)

/-- c3/libraries/propagation.py:565-582, the generator of `tf_propagation_lind`: with
`l = L ⊗ 1`, `r = 1 ⊗ Lᵀ` the sum of `l r† - l† l / 2 - r r† / 2`. -/
noncomputable def lindOpVec (h : Matrix n n ℂ) (cols : List (Matrix n n ℂ)) :
    Matrix (n × n) (n × n) ℂ :=
  (-Complex.I) • (h ⊗ₖ (1 : Matrix n n ℂ) - (1 : Matrix n n ℂ) ⊗ₖ hᵀ)
    + (cols.map fun L =>
        let l := L ⊗ₖ (1 : Matrix n n ℂ)
        let r := (1 : Matrix n n ℂ) ⊗ₖ Lᵀ
        l * rᴴ - (1 / 2 : ℂ) • (lᴴ * l) - (1 / 2 : ℂ) • (r * rᴴ)).sum

/-- c3/libraries/propagation.py:551-585 `tf_propagation_lind` with signals. -/
noncomputable def propLind (h0 : Matrix n n ℂ) (hks cols : List (Matrix n n ℂ)) (dt : ℝ)
    (cs : List (List ℝ)) : List (Matrix (n × n) (n × n) ℂ) :=
  cs.map fun c =>
    exp ((dt : ℂ) • lindOpVec (h0 + ((c.zip hks).map fun p => (p.1 : ℂ) • p.2).sum) cols)

/-- c3/libraries/propagation.py:259-341 `pwc` for an open system with control signals. -/
noncomputable def pwcLind (h0 : Matrix n n ℂ) (hks cols : List (Matrix n n ℂ)) (dt : ℝ)
    (cs : List (List ℝ)) (bs : ℕ) (stack : List Bool) : Option (Matrix (n × n) (n × n) ℂ) :=
  Fold.matmulN (Fold.batchPropagate (propLind h0 hks cols dt) cs bs) stack

/-! ## Runge-Kutta solvers

`f state h` stands for `func(state, h, dt, col)`; states live in a complex vector space `V`. -/

section RK

variable {V H : Type*} [AddCommGroup V] [Module ℂ V]

/-- c3/libraries/propagation.py:755-762 `rk4`. -/
noncomputable def rk4 (f : V → H → V) (rho : V) (h : ℕ → H) : V :=
  let k1 := f rho (h 0)
  let k2 := f (rho + (1 / 2 : ℂ) • k1) (h 1)
  let k3 := f (rho + (1 / 2 : ℂ) • k2) (h 1)
  let k4 := f (rho + k3) (h 2)
  rho + (1 / 6 : ℂ) • (k1 + (2 : ℂ) • k2 + (2 : ℂ) • k3 + k4)

/-- c3/libraries/propagation.py:765-772 `rk38`. -/
noncomputable def rk38 (f : V → H → V) (rho : V) (h : ℕ → H) : V :=
  let k1 := f rho (h 0)
  let k2 := f (rho + (1 / 3 : ℂ) • k1) (h 1)
  let k3 := f (rho + (-(1 / 3 : ℂ)) • k1 + k2) (h 2)
  let k4 := f (rho + k1 - k2 + k3) (h 3)
  rho + (1 / 8 : ℂ) • (k1 + (3 : ℂ) • k2 + (3 : ℂ) • k3 + k4)

/-- c3/libraries/propagation.py:775-823 `rk5`. -/
noncomputable def rk5 (f : V → H → V) (rho : V) (h : ℕ → H) : V :=
  let k1 := f rho (h 0)
  let k2 := f (rho + (1 / 5 : ℂ) • k1) (h 1)
  let k3 := f (rho + (3 / 40 : ℂ) • k1 + (9 / 40 : ℂ) • k2) (h 2)
  let k4 := f (rho + (44 / 45 : ℂ) • k1 - (56 / 15 : ℂ) • k2 + (32 / 9 : ℂ) • k3) (h 3)
  let k5 := f (rho + (19372 / 6561 : ℂ) • k1 - (25360 / 2187 : ℂ) • k2 + (64448 / 6561 : ℂ) • k3
    - (212 / 729 : ℂ) • k4) (h 4)
  let k6 := f (rho + (9017 / 3168 : ℂ) • k1 - (355 / 33 : ℂ) • k2 + (46732 / 5247 : ℂ) • k3
    + (49 / 176 : ℂ) • k4 - (5103 / 18656 : ℂ) • k5) (h 5)
  let k7 := f (rho + (35 / 384 : ℂ) • k1 + (500 / 1113 : ℂ) • k3 + (125 / 192 : ℂ) • k4
    - (2187 / 6784 : ℂ) • k5 + (11 / 84 : ℂ) • k6) (h 5)
  rho + (5179 / 57600 : ℂ) • k1 + (7571 / 16695 : ℂ) • k3 + (393 / 640 : ℂ) • k4
    - (92097 / 339200 : ℂ) • k5 + (187 / 2100 : ℂ) • k6 + (1 / 40 : ℂ) • k7

/-- c3/libraries/propagation.py:826-883 `tsit5`; the decimal literals as exact decimals. -/
noncomputable def tsit5 (f : V → H → V) (rho : V) (h : ℕ → H) : V :=
  let k1 := f rho (h 0)
  let k2 := f (rho + (0.161 : ℂ) • k1) (h 1)
  let k3 := f (rho + (-0.008480655492356989 : ℂ) • k1 + (0.335480655492357 : ℂ) • k2) (h 2)
  let k4 := f (rho + (2.8971530571054935 : ℂ) • k1 - (6.359448489975075 : ℂ) • k2
    + (4.3622954328695815 : ℂ) • k3) (h 3)
  let k5 := f (rho + (5.325864828439257 : ℂ) • k1 - (11.748883564062828 : ℂ) • k2
    + (7.4955393428898365 : ℂ) • k3 - (0.09249506636175525 : ℂ) • k4) (h 4)
  let k6 := f (rho + (5.86145544294642 : ℂ) • k1 - (12.92096931784711 : ℂ) • k2
    + (8.159367898576159 : ℂ) • k3 + (-0.071584973281401 : ℂ) • k4
    - (0.028269050394068383 : ℂ) • k5) (h 5)
  let k7 := f (rho + (0.09646076681806523 : ℂ) • k1 + (0.01 : ℂ) • k2
    + (0.4798896504144996 : ℂ) • k3 + (1.379008574103742 : ℂ) • k4
    - (3.290069515436081 : ℂ) • k5 + (2.324710524099774 : ℂ) • k6) (h 5)
  rho + (0.09468075576583945 : ℂ) • k1 + (0.009183565540343254 : ℂ) • k2
    + (0.4877705284247616 : ℂ) • k3 + (1.234297566930479 : ℂ) • k4
    - (2.7077123499835256 : ℂ) • k5 + (1.866628418170587 : ℂ) • k6 + (1 / 66 : ℂ) • k7

/-- The registered solvers (c3/libraries/propagation.py:27-32 and the `solver_deco` registry). -/
inductive Solver
  | rk4 | rk38 | rk5 | tsit5

/-- `solver_dict[solver]`. -/
noncomputable def Solver.run (s : Solver) (f : V → H → V) (rho : V) (h : ℕ → H) : V :=
  match s with
  | .rk4 => Propagation.rk4 f rho h
  | .rk38 => Propagation.rk38 f rho h
  | .rk5 => Propagation.rk5 f rho h
  | .tsit5 => Propagation.tsit5 f rho h

/-- `solver_slicing[solver][0]`, the stride between steps (c3/libraries/propagation.py:27-32). -/
def Solver.start : Solver → ℕ
  | .rk4 => 2
  | .rk38 => 3
  | .rk5 => 6
  | .tsit5 => 6

/-- One iteration of c3/libraries/propagation.py:715-716: the samples from `start * index` on. -/
noncomputable def odeStep (s : Solver) (f : V → H → V) (Hs : ℕ → H) (state : V) (index : ℕ) : V :=
  s.run f state fun i => Hs (s.start * index + i)

/-- c3/libraries/propagation.py:714-719, the loop of `ode_solver` for `N` time stamps: the list of
states written. -/
noncomputable def odeSolver (s : Solver) (f : V → H → V) (Hs : ℕ → H) (N : ℕ) (init : V) : List V :=
  ((List.range N).foldl (fun (acc : V × List V) index =>
    let st := odeStep s f Hs acc.1 index
    (st, acc.2 ++ [st])) (init, [])).2

/-- c3/libraries/propagation.py:748-750, the loop of `ode_solver_final_state`. -/
noncomputable def odeSolverFinal (s : Solver) (f : V → H → V) (Hs : ℕ → H) (N : ℕ) (init : V) : V :=
  (List.range N).foldl (fun st index => odeStep s f Hs st index) init

end RK

/-- c3/libraries/propagation.py:886-894 `lindblad`; the collapse operators are a list. -/
noncomputable def lindbladStep (cols : List (Matrix n n ℂ)) (dt : ℝ) (rho h : Matrix n n ℂ) :
    Matrix n n ℂ :=
  (dt : ℂ) • cols.foldl (fun d L =>
      d + L * rho * Lᴴ - (1 / 2 : ℂ) • ((Lᴴ * L) * rho + rho * (Lᴴ * L)))
    ((-Complex.I) • (h * rho - rho * h))

/-- c3/libraries/propagation.py:897-899 `schrodinger`, for a ket stored as a column. -/
noncomputable def schrodingerStep (dt : ℝ) (psi : n → ℂ) (h : Matrix n n ℂ) : n → ℂ :=
  (dt : ℂ) • (-Complex.I) • (h *ᵥ psi)

/-- c3/libraries/propagation.py:902-904 `von_neumann`. -/
noncomputable def vonNeumannStep (dt : ℝ) (rho h : Matrix n n ℂ) : Matrix n n ℂ :=
  (dt : ℂ) • (-Complex.I) • (h * rho - rho * h)

end C3.Propagation
