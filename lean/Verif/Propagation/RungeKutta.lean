import Verif.Propagation.Lindblad
import Mathlib.Tactic.Module
import Mathlib.Tactic.NormNum.OfScientific

/-!
# C27, C28, C30: the Runge-Kutta solvers
-/

set_option linter.unusedSectionVars false

namespace C3.Propagation

open Matrix

variable {n : Type*} [Fintype n] [DecidableEq n]

section General

variable {V H : Type*} [AddCommGroup V] [Module ℂ V]

/-- A linear functional that vanishes on all increments is conserved by one step. -/
theorem solverRun_functional (s : Solver) (f : V → H → V) (phi : V →ₗ[ℂ] ℂ)
    (hf : ∀ x h, phi (f x h) = 0) (rho : V) (h : ℕ → H) : phi (s.run f rho h) = phi rho := by
  cases s <;>
    simp only [Solver.run, rk4, rk38, rk5, tsit5, map_add, map_sub, map_smul, hf, smul_zero,
      add_zero, sub_zero]

/-- A conjugate-linear symmetry of the increment is a symmetry of one step. -/
theorem solverRun_symm (s : Solver) (f g : V → H → V) (sig : V → V)
    (hadd : ∀ x y, sig (x + y) = sig x + sig y) (hsub : ∀ x y, sig (x - y) = sig x - sig y)
    (hsmul : ∀ (c : ℂ) x, sig (c • x) = (starRingEnd ℂ c) • sig x)
    (hf : ∀ x h, sig (f x h) = g (sig x) h) (rho : V) (h : ℕ → H) :
    sig (s.run f rho h) = s.run g (sig rho) h := by
  have hdec : ∀ (m e : ℕ) (b : Bool), (starRingEnd ℂ) (OfScientific.ofScientific m b e : ℂ) =
      (OfScientific.ofScientific m b e : ℂ) := by
    intro m e b
    have : (OfScientific.ofScientific m b e : ℂ) = ((OfScientific.ofScientific m b e : ℝ) : ℂ) := by
      norm_cast
    rw [this, Complex.conj_ofReal]
  cases s <;>
    simp only [Solver.run, rk4, rk38, rk5, tsit5, hadd, hsub, hsmul, hf, map_div₀, map_one,
      map_ofNat, map_neg, hdec]

/-! ### The loops -/

/-- Everything conserved by one step is conserved by the run. -/
theorem odeSolverFinal_invariant (s : Solver) (f : V → H → V) (Hs : ℕ → H) (P : V → Prop)
    (hstep : ∀ (x : V) (h : ℕ → H), (∃ k, ∀ i, h i = Hs (k + i)) → P x → P (s.run f x h)) (N : ℕ)
    (init : V) (h0 : P init) : P (odeSolverFinal s f Hs N init) := by
  unfold odeSolverFinal
  induction N with
  | zero => simpa using h0
  | succ N ih =>
    rw [List.range_succ, List.foldl_append]
    exact hstep _ _ ⟨s.start * N, fun i => rfl⟩ ih

theorem odeSolver_pair (s : Solver) (f : V → H → V) (Hs : ℕ → H) (N : ℕ) (init : V) :
    ((List.range N).foldl (fun (acc : V × List V) index =>
      let st := odeStep s f Hs acc.1 index
      (st, acc.2 ++ [st])) (init, [])).1 = odeSolverFinal s f Hs N init := by
  unfold odeSolverFinal
  induction N with
  | zero => rfl
  | succ N ih =>
    rw [List.range_succ, List.foldl_append, List.foldl_append]
    simp only [List.foldl_cons, List.foldl_nil]
    rw [ih]

theorem odeSolver_succ (s : Solver) (f : V → H → V) (Hs : ℕ → H) (N : ℕ) (init : V) :
    odeSolver s f Hs (N + 1) init =
      odeSolver s f Hs N init ++ [odeSolverFinal s f Hs (N + 1) init] := by
  have h := odeSolver_pair s f Hs N init
  unfold odeSolver odeSolverFinal at *
  rw [List.range_succ, List.foldl_append, List.foldl_append]
  simp only [List.foldl_cons, List.foldl_nil]
  rw [h]

/-- **C28** (states): the trajectory consists of the final states of all prefixes. -/
theorem C28_trajectory (s : Solver) (f : V → H → V) (Hs : ℕ → H) (N : ℕ) (init : V) :
    odeSolver s f Hs N init = (List.range N).map fun k => odeSolverFinal s f Hs (k + 1) init := by
  induction N with
  | zero => rfl
  | succ N ih => rw [odeSolver_succ, ih, List.range_succ, List.map_append]; rfl

/-- **C28**: for every solver, step function, Hamiltonian samples, initial state and number `N ≥ 1`
of steps, the final-state solver returns the last state of the trajectory. -/
theorem C28_final_is_last (s : Solver) (f : V → H → V) (Hs : ℕ → H) (N : ℕ) (hN : 1 ≤ N) (init : V) :
    (odeSolver s f Hs N init).getLast? = some (odeSolverFinal s f Hs N init) := by
  obtain ⟨N, rfl⟩ := Nat.exists_eq_add_of_le' hN
  rw [odeSolver_succ]
  simp

/-- The trajectory has one state per time stamp. -/
theorem C28_length (s : Solver) (f : V → H → V) (Hs : ℕ → H) (N : ℕ) (init : V) :
    (odeSolver s f Hs N init).length = N := by
  rw [C28_trajectory]; simp

example : (odeSolver (V := ℂ) (H := ℂ) .rk4 (fun x h => h * x) (fun _ => 1) 3 1).getLast? =
    some (odeSolverFinal .rk4 (fun x h => h * x) (fun _ => 1) 3 1) :=
  C28_final_is_last _ _ _ 3 (by norm_num) _

/-! ## C30 -/

/-- **C30** (`rk4`): for a constant generator one step is the Taylor polynomial of the exponential
of degree four. -/
theorem C30_rk4 (L : V →ₗ[ℂ] V) (rho : V) (h : ℕ → Unit) :
    rk4 (fun x _ => L x) rho h =
      ∑ k ∈ Finset.range 5, ((k.factorial : ℂ)⁻¹) • (L ^ k) rho := by
  simp only [rk4, Finset.sum_range_succ, Finset.sum_range_zero, Nat.factorial, map_add, map_smul,
    pow_succ, pow_zero, Module.End.mul_apply, Module.End.one_apply]
  push_cast
  module

/-- **C30** (`rk38`): likewise degree four. -/
theorem C30_rk38 (L : V →ₗ[ℂ] V) (rho : V) (h : ℕ → Unit) :
    rk38 (fun x _ => L x) rho h =
      ∑ k ∈ Finset.range 5, ((k.factorial : ℂ)⁻¹) • (L ^ k) rho := by
  simp only [rk38, Finset.sum_range_succ, Finset.sum_range_zero, Nat.factorial, map_add, map_sub,
    map_smul, pow_succ, pow_zero, Module.End.mul_apply, Module.End.one_apply]
  push_cast
  module

/-- **C30** (`rk5`): one step is the Taylor polynomial of degree *four* plus
`1097/120000 L⁵ + 161/120000 L⁶ + 1/24000 L⁷`. Missing for the full claim: the coefficient of `L⁵` is
not `1/120`, see `C30_rk5_false`. -/
theorem C30_rk5_partial (L : V →ₗ[ℂ] V) (rho : V) (h : ℕ → Unit) :
    rk5 (fun x _ => L x) rho h =
      (∑ k ∈ Finset.range 5, ((k.factorial : ℂ)⁻¹) • (L ^ k) rho) +
        (1097 / 120000 : ℂ) • (L ^ 5) rho + (161 / 120000 : ℂ) • (L ^ 6) rho
        + (1 / 24000 : ℂ) • (L ^ 7) rho := by
  simp only [rk5, Finset.sum_range_succ, Finset.sum_range_zero, Nat.factorial, map_add, map_sub,
    map_smul, pow_succ, pow_zero, Module.End.mul_apply, Module.End.one_apply]
  push_cast
  module

end General

/-- **C30 is false for `rk5`**: the step is not of order five. The final combination uses the weights
of the embedded fourth order scheme: the degree-five coefficient of the step for a scalar generator
`x` is `1097/120000`, not `1/120`. -/
theorem C30_rk5_false :
    ¬ ∃ a b : ℂ, ∀ x : ℂ, rk5 (fun (y : ℂ) (_ : Unit) => x * y) 1 (fun _ => ()) =
      (∑ k ∈ Finset.range 6, ((k.factorial : ℂ)⁻¹) * x ^ k) + a * x ^ 6 + b * x ^ 7 := by
  rintro ⟨a, b, hab⟩
  have key : ∀ x : ℂ, rk5 (fun (y : ℂ) (_ : Unit) => x * y) 1 (fun _ => ()) =
      (∑ k ∈ Finset.range 5, ((k.factorial : ℂ)⁻¹) * x ^ k) + 1097 / 120000 * x ^ 5
        + 161 / 120000 * x ^ 6 + 1 / 24000 * x ^ 7 := by
    intro x
    have h := C30_rk5_partial (V := ℂ) (LinearMap.mulLeft ℂ x) 1 (fun _ => ())
    simp only [LinearMap.pow_mulLeft, LinearMap.mulLeft_apply, mul_one, smul_eq_mul] at h
    exact h
  have e : ∀ x : ℂ, x ^ 5 * ((1 / 120 - 1097 / 120000) + (a - 161 / 120000) * x
      + (b - 1 / 24000) * x ^ 2) = 0 := by
    intro x
    have h1 := hab x
    rw [key x] at h1
    simp only [Finset.sum_range_succ, Finset.sum_range_zero, Nat.factorial] at h1
    push_cast at h1
    linear_combination -h1
  have e' : ∀ x : ℂ, x ≠ 0 → (1 / 120 - 1097 / 120000) + (a - 161 / 120000) * x
      + (b - 1 / 24000) * x ^ 2 = 0 := fun x hx =>
    (mul_eq_zero.1 (e x)).resolve_left (pow_ne_zero 5 hx)
  have h1 := e' 1 one_ne_zero
  have h2 := e' (-1) (by norm_num)
  have h3 := e' 2 (by norm_num)
  have : (1 / 120 - 1097 / 120000 : ℂ) = 0 := by linear_combination h1 + h2/3 - h3/3
  norm_num at this

/-- The coefficients of the stability polynomial of `tsit5` (exact values for the decimals written in
the code). -/
noncomputable def tsitCoeff : List ℝ :=
  [(1 / 1 : ℝ),
   (1031249999999999851 / 1031250000000000000 : ℝ),
   (82499999999999604763071433805025839 / 165000000000000000000000000000000000 : ℝ),
   (109999999999999770581717867607832970137538751375481 / 660000000000000000000000000000000000000000000000000 : ℝ),
   (916666666666665046436170638077427689804088015869873909932368349707 / 22000000000000000000000000000000000000000000000000000000000000000000 : ℝ),
   (770863253695538807867008762674123421940388763099907123545670758430156430727374243 / 88000000000000000000000000000000000000000000000000000000000000000000000000000000000 : ℝ),
   (28077676110892057777383423939711456150921164141109679867930145755088362781773293 / 22000000000000000000000000000000000000000000000000000000000000000000000000000000000 : ℝ),
   (1909615099743130498508645883234279906913535591568754368211185804484792173492297 / 88000000000000000000000000000000000000000000000000000000000000000000000000000000000 : ℝ)]

/-- C30 (`tsit5`): for a right hand side that does not depend on the state a step is a quadrature: each sample enters with
its own weight, and the weights add up to one up to the rounding of the decimals. -/
theorem C30_tsit5_quadrature {V : Type*} [AddCommGroup V] [Module ℂ V] (rho : V) (h : ℕ → V) :
    tsit5 (fun _ x => x) rho h = rho + (0.09468075576583945 : ℂ) • h 0 + (0.009183565540343254 : ℂ) • h 1
      + (0.4877705284247616 : ℂ) • h 2 + (1.234297566930479 : ℂ) • h 3 - (2.7077123499835256 : ℂ) • h 4
      + ((1.866628418170587 : ℂ) + 1 / 66) • h 5 ∧
    ‖(0.09468075576583945 + 0.009183565540343254 + 0.4877705284247616 + 1.234297566930479 - 2.7077123499835256 +
      (1.866628418170587 + 1 / 66) : ℂ) - 1‖ ≤ 1e-12 := by
  constructor
  · simp only [tsit5, add_smul]
    abel
  · have : (0.09468075576583945 + 0.009183565540343254 + 0.4877705284247616 + 1.234297566930479 - 2.7077123499835256 +
      (1.866628418170587 + 1 / 66) : ℂ) - 1 = ((0.09468075576583945 + 0.009183565540343254 + 0.4877705284247616 + 1.234297566930479 - 2.7077123499835256 +
      (1.866628418170587 + 1 / 66) - 1 : ℝ) : ℂ) := by push_cast; ring
    rw [this, Complex.norm_real, Real.norm_eq_abs, abs_le]
    norm_num

/-- **C30** (`tsit5`): one step for a constant generator is a polynomial of degree seven whose
coefficients up to degree four are those of the exponential up to `1e-14`; the coefficient of degree
five differs from `1/120` by more than `4e-4`, so that this solver is of order four as well. -/
theorem C30_tsit5_partial {V : Type*} [AddCommGroup V] [Module ℂ V] (L : V →ₗ[ℂ] V) (rho : V)
    (h : ℕ → Unit) :
    tsit5 (fun x _ => L x) rho h =
        ∑ k ∈ Finset.range 8, ((tsitCoeff.getD k 0 : ℝ) : ℂ) • (L ^ k) rho ∧
      (∀ k < 5, |tsitCoeff.getD k 0 - 1 / (k.factorial : ℝ)| ≤ 1e-14) ∧
      4e-4 < |tsitCoeff.getD 5 0 - 1 / 120| := by
  refine ⟨?_, ?_, ?_⟩
  · simp only [tsit5, Finset.sum_range_succ, Finset.sum_range_zero, map_add, map_sub,
      map_smul, pow_succ, pow_zero, Module.End.mul_apply, Module.End.one_apply, tsitCoeff,
      List.getD_cons_zero, List.getD_cons_succ]
    push_cast
    module
  · intro k hk
    have : k = 0 ∨ k = 1 ∨ k = 2 ∨ k = 3 ∨ k = 4 := by omega
    rcases this with rfl | rfl | rfl | rfl | rfl <;>
      simp only [tsitCoeff, List.getD_cons_zero, List.getD_cons_succ, Nat.factorial] <;>
      norm_num [abs_le]
  · simp only [tsitCoeff, List.getD_cons_zero, List.getD_cons_succ]
    rw [lt_abs]
    left
    norm_num

/-! ## C27 -/

theorem lindbladStep_eq (cols : List (Matrix n n ℂ)) (dt : ℝ) (rho h : Matrix n n ℂ) :
    lindbladStep cols dt rho h = (dt : ℂ) • masterRHS h cols rho := by
  unfold lindbladStep masterRHS
  congr 1
  generalize (-Complex.I) • (h * rho - rho * h) = d
  induction cols generalizing d with
  | nil => simp
  | cons L ls ih => rw [List.foldl_cons, ih, List.map_cons, List.sum_cons]; abel

/-- **C27** (the step functions are the equations of motion): `lindblad` is `dt` times the master
equation's right hand side, `von_neumann` the same without collapse operators. -/
theorem C27_step_functions (cols : List (Matrix n n ℂ)) (dt : ℝ) (rho h : Matrix n n ℂ) :
    lindbladStep cols dt rho h = (dt : ℂ) • masterRHS h cols rho ∧
      vonNeumannStep dt rho h = (dt : ℂ) • masterRHS h [] rho := by
  refine ⟨lindbladStep_eq cols dt rho h, ?_⟩
  simp [vonNeumannStep, masterRHS]

/-- **C27** (the step functions agree): for a pure state `|ψ⟩⟨ψ|` the step of `von_neumann` is what the
step of `schrodinger` for `ψ` gives by the product rule. -/
theorem C27_schrodinger (dt : ℝ) (psi : n → ℂ) (h : Matrix n n ℂ) (hh : h.IsHermitian) :
    vecMulVec (schrodingerStep dt psi h) (star psi) + vecMulVec psi (star (schrodingerStep dt psi h)) =
      (dt : ℂ) • masterRHS h [] (vecMulVec psi (star psi)) := by
  have h1 : star (h *ᵥ psi) = star psi ᵥ* h := by rw [star_mulVec, hh]
  have h2 : star (schrodingerStep dt psi h) = (dt : ℂ) • Complex.I • (star psi ᵥ* h) := by
    rw [schrodingerStep, star_smul, star_smul, h1]
    simp
  rw [h2, schrodingerStep, masterRHS]
  simp only [List.map_nil, List.sum_nil, add_zero, vecMulVec_smul, smul_vecMulVec, mul_vecMulVec,
    vecMulVec_mul, smul_sub]
  module

/-- The trace as a linear functional. -/
noncomputable def traceFun (n : Type*) [Fintype n] : Matrix n n ℂ →ₗ[ℂ] ℂ := Matrix.traceLinearMap n ℂ ℂ

/-- **C27** (trace, Lindblad): any number of steps of any solver keeps the trace. -/
theorem C27_trace_lindblad (s : Solver) (cols : List (Matrix n n ℂ)) (dt : ℝ)
    (Hs : ℕ → Matrix n n ℂ) (N : ℕ) (rho : Matrix n n ℂ) :
    (odeSolverFinal s (lindbladStep cols dt) Hs N rho).trace = rho.trace := by
  apply odeSolverFinal_invariant s _ Hs (fun x => x.trace = rho.trace) _ N rho rfl
  intro x h _ hx
  rw [← hx]
  exact solverRun_functional s _ (Matrix.traceLinearMap n ℂ ℂ) (by
    intro x h
    rw [lindbladStep_eq, Matrix.traceLinearMap_apply, trace_smul, masterRHS_trace, smul_zero]) x h

/-- **C27** (trace, von Neumann). -/
theorem C27_trace_vonNeumann (s : Solver) (dt : ℝ) (Hs : ℕ → Matrix n n ℂ) (N : ℕ)
    (rho : Matrix n n ℂ) :
    (odeSolverFinal s (vonNeumannStep dt) Hs N rho).trace = rho.trace := by
  have : (vonNeumannStep dt : Matrix n n ℂ → _) = lindbladStep [] dt := by
    funext x h; rw [lindbladStep_eq, (C27_step_functions [] dt x h).2]
  rw [this]
  exact C27_trace_lindblad s [] dt Hs N rho

theorem masterRHS_conjTranspose (h : Matrix n n ℂ) (hh : h.IsHermitian)
    (cols : List (Matrix n n ℂ)) (rho : Matrix n n ℂ) :
    (masterRHS h cols rho)ᴴ = masterRHS h cols rhoᴴ := by
  unfold masterRHS
  rw [conjTranspose_add]
  congr 1
  · rw [conjTranspose_smul, conjTranspose_sub, conjTranspose_mul, conjTranspose_mul, hh]
    simp only [star_neg, Complex.star_def, Complex.conj_I, neg_neg]
    rw [neg_smul, ← smul_neg, neg_sub]
  · induction cols with
    | nil => simp
    | cons L ls ih =>
      rw [List.map_cons, List.sum_cons, List.map_cons, List.sum_cons, conjTranspose_add, ih]
      congr 1
      rw [conjTranspose_sub, conjTranspose_smul, conjTranspose_add]
      simp only [conjTranspose_mul, conjTranspose_conjTranspose, Matrix.mul_assoc]
      rw [add_comm (rhoᴴ * _)]
      simp

/-- **C27** (hermiticity, Lindblad): with Hermitian Hamiltonian samples, any number of steps of any
solver keeps a Hermitian state Hermitian. -/
theorem C27_hermitian_lindblad (s : Solver) (cols : List (Matrix n n ℂ)) (dt : ℝ)
    (Hs : ℕ → Matrix n n ℂ) (hH : ∀ i, (Hs i).IsHermitian) (N : ℕ) (rho : Matrix n n ℂ)
    (hrho : rho.IsHermitian) :
    (odeSolverFinal s (lindbladStep cols dt) Hs N rho).IsHermitian := by
  apply odeSolverFinal_invariant s _ Hs (fun x => x.IsHermitian) _ N rho hrho
  rintro x h ⟨k, hk⟩ hx
  let f : Matrix n n ℂ → {M : Matrix n n ℂ // M.IsHermitian} → Matrix n n ℂ :=
    fun x h => lindbladStep cols dt x h.1
  have hh : ∀ i, (h i).IsHermitian := fun i => by rw [hk]; exact hH _
  have e : ∀ (s : Solver) (y : Matrix n n ℂ),
      s.run (lindbladStep cols dt) y h = s.run f y (fun i => ⟨h i, hh i⟩) := by
    intro s y; cases s <;> rfl
  have := solverRun_symm s f f conjTranspose (fun x y => conjTranspose_add x y)
    (fun x y => conjTranspose_sub x y) (fun c x => by rw [conjTranspose_smul]; rfl)
    (by
      intro x h
      simp only [f]
      rw [lindbladStep_eq, lindbladStep_eq, conjTranspose_smul, masterRHS_conjTranspose _ h.2]
      simp) x (fun i => ⟨h i, hh i⟩)
  change (s.run (lindbladStep cols dt) x h)ᴴ = _
  rw [e, this, hx]

/-- **C27** (hermiticity, von Neumann). -/
theorem C27_hermitian_vonNeumann (s : Solver) (dt : ℝ)
    (Hs : ℕ → Matrix n n ℂ) (hH : ∀ i, (Hs i).IsHermitian) (N : ℕ) (rho : Matrix n n ℂ)
    (hrho : rho.IsHermitian) : (odeSolverFinal s (vonNeumannStep dt) Hs N rho).IsHermitian := by
  have : (vonNeumannStep dt : Matrix n n ℂ → _) = lindbladStep [] dt := by
    funext x h; rw [lindbladStep_eq, (C27_step_functions [] dt x h).2]
  rw [this]
  exact C27_hermitian_lindblad s [] dt Hs hH N rho hrho

/-- **C27** (all states of the trajectory): trace and hermiticity hold for every state recorded. -/
theorem C27_trajectory (s : Solver) (cols : List (Matrix n n ℂ)) (dt : ℝ)
    (Hs : ℕ → Matrix n n ℂ) (hH : ∀ i, (Hs i).IsHermitian) (N : ℕ) (rho : Matrix n n ℂ)
    (hrho : rho.IsHermitian) :
    ∀ x ∈ odeSolver s (lindbladStep cols dt) Hs N rho, x.trace = rho.trace ∧ x.IsHermitian := by
  intro x hx
  rw [C28_trajectory] at hx
  obtain ⟨k, _, rfl⟩ := List.mem_map.1 hx
  exact ⟨C27_trace_lindblad s cols dt Hs _ rho, C27_hermitian_lindblad s cols dt Hs hH _ rho hrho⟩

example : (odeSolverFinal .tsit5 (lindbladStep [!![0, 1; 0, 0]] 0.1)
    (fun _ => (!![0, 1; 1, 0] : Matrix (Fin 2) (Fin 2) ℂ)) 7 !![1, 0; 0, 0]).trace =
      (!![1, 0; 0, 0] : Matrix (Fin 2) (Fin 2) ℂ).trace :=
  C27_trace_lindblad _ _ _ _ _ _

end C3.Propagation
