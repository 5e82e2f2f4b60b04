import Mathlib.Analysis.SpecialFunctions.Trigonometric.Deriv
import Mathlib.Analysis.SpecialFunctions.Trigonometric.Basic
import Mathlib.Analysis.Calculus.IteratedDeriv.Defs
import Mathlib.Analysis.Calculus.Deriv.Pow
import Mathlib.Tactic.Ring
import Mathlib.Tactic.Linarith
import Mathlib.Tactic.NormNum
import Mathlib.Tactic.IntervalCases
import Mathlib.Tactic.FieldSimp

/-!
# C84, C124: potentials of the flux qubit and the fluxonium and the minimum used

Models c3/libraries/chip.py:731-785 (`CShuntFluxQubit.get_potential_function`), 787-826 (`get_minimum_phi_var`),
831-871 (`get_frequency`, `get_anharmonicity`, as the order in which they ask for the minimum) and 980-1006
(`Fluxonium.get_potential_function`).

Simplified: `tape.gradient` is the derivative; `fmin` is an arbitrary function of the potential parameters and the
flux; the printed output of `get_minimum_phi_var` is left out.
-/

namespace C3.Chip

open Real

/-! ## C84: the derivatives -/

/-- c3/libraries/chip.py:731-785: order `n` of the potential of the flux qubit with parameters `EJ`, `γ`, flux
`phi` in units of `phi0`, and the flux signal `sig`, at phase `x`. Orders above four are derivatives of the order
below, which is called without the signal. -/
noncomputable def fluxPot (EJ γ phi phi0 : ℝ) : ℕ → ℝ → ℝ → ℝ
  | 0, sig, x => EJ * (-1 * cos (x + (phi + sig) / phi0 * 2 * π) - 2 * γ * cos (x / 2))
  | 1, sig, x => EJ * (2 * sin (x + (phi + sig) / phi0 * 2 * π) + 2 * γ * sin (x / 2)) / 2
  | 2, sig, x => EJ * (4 * cos (x + (phi + sig) / phi0 * 2 * π) + 2 * γ * cos (x / 2)) / 4
  | 3, sig, x => EJ * (-8 * sin (x + (phi + sig) / phi0 * 2 * π) - 2 * γ * sin (x / 2)) / 8
  | 4, sig, x => EJ * (-16 * cos (x + (phi + sig) / phi0 * 2 * π) - 2 * γ * cos (x / 2)) / 16
  | n + 5, _, x => deriv (fun y => fluxPot EJ γ phi phi0 (n + 4) 0 y) x

/-- c3/libraries/chip.py:980-1006: the fluxonium potential without flux signal. -/
noncomputable def fluxoniumPot (EJ EL phi phi0 : ℝ) : ℕ → ℝ → ℝ
  | 0, x => -EJ * cos (x + phi / phi0 * 2 * π) + 0.5 * EL * x ^ 2
  | 1, x => EJ * sin (x + phi / phi0 * 2 * π) + EL * x
  | 2, x => EJ * cos (x + phi / phi0 * 2 * π) + EL
  | 3, x => -EJ * sin (x + phi / phi0 * 2 * π)
  | n + 4, x => deriv (fun y => fluxoniumPot EJ EL phi phi0 (n + 3) y) x

theorem hasDerivAt_cos_add (c x : ℝ) : HasDerivAt (fun y => cos (y + c)) (-sin (x + c)) x := by
  have := ((hasDerivAt_id x).add_const c).cos
  simpa using this

theorem hasDerivAt_sin_add (c x : ℝ) : HasDerivAt (fun y => sin (y + c)) (cos (x + c)) x := by
  have := ((hasDerivAt_id x).add_const c).sin
  simpa using this

theorem hasDerivAt_cos_half (x : ℝ) : HasDerivAt (fun y => cos (y / 2)) (-sin (x / 2) / 2) x := by
  have := ((hasDerivAt_id x).div_const 2).cos
  refine this.congr_deriv ?_
  simp; ring

theorem hasDerivAt_sin_half (x : ℝ) : HasDerivAt (fun y => sin (y / 2)) (cos (x / 2) / 2) x := by
  have := ((hasDerivAt_id x).div_const 2).sin
  refine this.congr_deriv ?_
  simp; ring

/-- C84: each hard-coded derivative (orders one to four) is the derivative of the order before, for every signal. -/
theorem C84_flux (EJ γ phi phi0 sig x : ℝ) (n : ℕ) (hn : n < 4) :
    HasDerivAt (fluxPot EJ γ phi phi0 n sig) (fluxPot EJ γ phi phi0 (n + 1) sig x) x := by
  set c := (phi + sig) / phi0 * 2 * π with hc
  have hC := hasDerivAt_cos_add c x
  have hS := hasDerivAt_sin_add c x
  have hc2 := hasDerivAt_cos_half x
  have hs2 := hasDerivAt_sin_half x
  interval_cases n
  · have := ((hC.const_mul (-1)).sub (hc2.const_mul (2 * γ))).const_mul EJ
    refine (this.congr_of_eventuallyEq (Filter.Eventually.of_forall fun y => ?_)).congr_deriv ?_
    · simp [fluxPot, hc]
    · simp only [fluxPot, ← hc]; ring
  · have := (((hS.const_mul 2).add (hs2.const_mul (2 * γ))).const_mul EJ).div_const 2
    refine (this.congr_of_eventuallyEq (Filter.Eventually.of_forall fun y => ?_)).congr_deriv ?_
    · simp [fluxPot, hc]
    · simp only [fluxPot, ← hc]; ring
  · have := (((hC.const_mul 4).add (hc2.const_mul (2 * γ))).const_mul EJ).div_const 4
    refine (this.congr_of_eventuallyEq (Filter.Eventually.of_forall fun y => ?_)).congr_deriv ?_
    · simp [fluxPot, hc]
    · simp only [fluxPot, ← hc]; ring
  · have := (((hS.const_mul (-8)).sub (hs2.const_mul (2 * γ))).const_mul EJ).div_const 8
    refine (this.congr_of_eventuallyEq (Filter.Eventually.of_forall fun y => ?_)).congr_deriv ?_
    · simp [fluxPot, hc]
    · simp only [fluxPot, ← hc]; ring

/-- C84: without a flux signal, order `n` of the flux qubit potential is its `n`-th derivative, for every `n`. Missing:
orders above four with a signal, see `C84_signal_false`. -/
theorem C84_flux_all_partial (EJ γ phi phi0 : ℝ) (n : ℕ) :
    fluxPot EJ γ phi phi0 n 0 = iteratedDeriv n (fluxPot EJ γ phi phi0 0 0) := by
  induction n with
  | zero => simp
  | succ n ih =>
    rw [iteratedDeriv_succ, ← ih]
    funext x
    by_cases hn : n < 4
    · exact ((C84_flux EJ γ phi phi0 0 x n hn).deriv).symm
    · obtain ⟨m, rfl⟩ : ∃ m, n = m + 4 := ⟨n - 4, by omega⟩
      rw [fluxPot]

/-- C84: with a signal this holds up to order four. -/
theorem C84_flux_signal_partial (EJ γ phi phi0 sig : ℝ) (n : ℕ) (hn : n ≤ 4) :
    fluxPot EJ γ phi phi0 n sig = iteratedDeriv n (fluxPot EJ γ phi phi0 0 sig) := by
  induction n with
  | zero => simp
  | succ n ih =>
    rw [iteratedDeriv_succ, ← ih (by omega)]
    funext x
    exact ((C84_flux EJ γ phi phi0 sig x n (by omega)).deriv).symm

example : ∃ n : ℕ, n ≤ 4 := ⟨3, by norm_num⟩

/-- Order five with a signal is not the derivative of order four: the signal is dropped. For `EJ = 1`, `γ = 0`, flux
zero, a signal of a quarter of a flux quantum and phase zero, order five is zero, and the derivative of order
four is one. -/
theorem C84_signal_false : fluxPot 1 0 0 1 5 (1 / 4) 0 = 0 ∧ deriv (fluxPot 1 0 0 1 4 (1 / 4)) 0 = 1 := by
  have key : ∀ sig : ℝ, deriv (fluxPot 1 0 0 1 4 sig) 0 = sin (sig * 2 * π) := by
    intro sig
    have h : fluxPot 1 0 0 1 4 sig = fun y => -1 * cos (y + sig * 2 * π) := by
      funext y
      simp only [fluxPot]
      rw [zero_add, div_one]
      ring
    rw [h]
    have := (hasDerivAt_cos_add (sig * 2 * π) 0).const_mul (-1)
    rw [this.deriv]
    simp
  constructor
  · have h5 : fluxPot 1 0 0 1 5 (1 / 4) 0 = deriv (fluxPot 1 0 0 1 4 0) 0 := by rw [fluxPot]
    rw [h5, key]
    simp
  · rw [key]
    have : (1 / 4 : ℝ) * 2 * π = π / 2 := by ring
    rw [this, sin_pi_div_two]

/-- C84: order `n` of the fluxonium potential is its `n`-th derivative, for every `n`. -/
theorem C84_fluxonium (EJ EL phi phi0 : ℝ) (n : ℕ) :
    fluxoniumPot EJ EL phi phi0 n = iteratedDeriv n (fluxoniumPot EJ EL phi phi0 0) := by
  have step : ∀ (m : ℕ) (x : ℝ), m < 3 →
      HasDerivAt (fluxoniumPot EJ EL phi phi0 m) (fluxoniumPot EJ EL phi phi0 (m + 1) x) x := by
    intro m x hm
    set c := phi / phi0 * 2 * π with hc
    have hC := hasDerivAt_cos_add c x
    have hS := hasDerivAt_sin_add c x
    interval_cases m
    · have := (hC.const_mul (-EJ)).add ((hasDerivAt_pow 2 x).const_mul (0.5 * EL))
      refine (this.congr_of_eventuallyEq (Filter.Eventually.of_forall fun y => ?_)).congr_deriv ?_
      · simp [fluxoniumPot, hc]
      · simp only [fluxoniumPot, ← hc]; norm_num; ring
    · have := (hS.const_mul EJ).add ((hasDerivAt_id x).const_mul EL)
      refine (this.congr_of_eventuallyEq (Filter.Eventually.of_forall fun y => ?_)).congr_deriv ?_
      · simp [fluxoniumPot, hc]
      · simp only [fluxoniumPot, ← hc]; ring
    · have := (hC.const_mul EJ).add_const EL
      refine (this.congr_of_eventuallyEq (Filter.Eventually.of_forall fun y => ?_)).congr_deriv ?_
      · simp [fluxoniumPot, hc]
      · simp only [fluxoniumPot, ← hc]; ring
  induction n with
  | zero => simp
  | succ n ih =>
    rw [iteratedDeriv_succ, ← ih]
    funext x
    by_cases hn : n < 3
    · exact ((step n x hn).deriv).symm
    · obtain ⟨m, rfl⟩ : ∃ m, n = m + 3 := ⟨n - 3, by omega⟩
      rw [fluxoniumPot]

/-- A flux of one quantum more gives the same potential in every order: the flux counts modulo `phi_0`. -/
theorem C84_periodic (EJ γ phi phi0 sig x : ℝ) (h0 : phi0 ≠ 0) (n : ℕ) (hn : n ≤ 4) :
    fluxPot EJ γ (phi + phi0) phi0 n sig x = fluxPot EJ γ phi phi0 n sig x := by
  have harg : x + (phi + phi0 + sig) / phi0 * 2 * π = x + (phi + sig) / phi0 * 2 * π + 2 * π := by
    field_simp; ring
  interval_cases n <;> simp only [fluxPot, harg, cos_add_two_pi, sin_add_two_pi]

example : (1 : ℝ) ≠ 0 := one_ne_zero

/-! ## C124: the minimum that is used -/

section Cache

variable {P : Type}

/-- What `get_minimum_phi_var` remembers: the value it tests for changes (`none` for the initial wrong number) and
the table of minima, kept as the parameters it was computed for. -/
structure Cache (P : Type) where
  test : Option ℝ
  table : Option P

/-- c3/libraries/chip.py:787-829 `get_minimum_phi_var()` without signal. `pot0 p` is the potential at phase zero,
`min p` the minimum found by `fmin`. The table lookup at flux signal zero returns its first entry, the minimum for
the parameters of the table. Returns the minimum and the new memory. -/
def getMin (pot0 : P → ℝ) (min : P → ℝ) [DecidableEq ℝ] (p : P) (c : Cache P) : ℝ × Cache P :=
  if c.test ≠ some (pot0 p) then (min p, { c with test := some (pot0 p) })
  else match c.table with
    | some q => (min q, c)
    | none => (min p, { c with table := some p })

/-- A sequence of calls with the parameters each finds: the minima returned. -/
def getMins (pot0 : P → ℝ) (min : P → ℝ) [DecidableEq ℝ] : List P → Cache P → List ℝ
  | [], _ => []
  | p :: ps, c => (getMin pot0 min p c).1 :: getMins pot0 min ps (getMin pot0 min p c).2

def freshCache : Cache P := { test := none, table := none }

open scoped Classical in
/-- C124 as long as the parameters do not change: every call returns the minimum for them. Missing: changing
parameters, see `C124_stale_false`. -/
theorem C124_constant_partial (pot0 : P → ℝ) (min : P → ℝ) (p : P) (n : ℕ) :
    getMins pot0 min (List.replicate n p) freshCache = List.replicate n (min p) := by
  have aux : ∀ (n : ℕ) (c : Cache P), (c.table = none ∨ c.table = some p) →
      getMins pot0 min (List.replicate n p) c = List.replicate n (min p) := by
    intro n
    induction n with
    | zero => intro c _; rfl
    | succ n ih =>
      intro c hc
      rw [List.replicate_succ, List.replicate_succ, getMins]
      unfold getMin
      by_cases ht : c.test ≠ some (pot0 p)
      · rw [if_pos ht]
        exact congrArg _ (ih _ hc)
      · rw [if_neg ht]
        rcases hc with h | h
        · rw [h]; exact congrArg _ (ih _ (Or.inr rfl))
        · rw [h]; exact congrArg _ (ih _ (Or.inr h))
  exact aux n freshCache (Or.inl rfl)

open scoped Classical in
/-- The first call after a change that shows at phase zero returns the right minimum. -/
theorem C124_first (pot0 : P → ℝ) (min : P → ℝ) (p : P) (c : Cache P) (h : c.test ≠ some (pot0 p)) :
    (getMin pot0 min p c).1 = min p := by
  unfold getMin; rw [if_pos h]

open scoped Classical in
/-- C124 fails: after two evaluations with parameters `p` and a change to `q`, the second evaluation with `q` returns
the minimum for `p`, because the table is not cleared; so the frequency and the anharmonicity belong to
different minima. -/
theorem C124_stale_false (pot0 : P → ℝ) (min : P → ℝ) (p q : P) (h : pot0 p ≠ pot0 q) :
    getMins pot0 min [p, p, q, q] freshCache = [min p, min p, min q, min p] := by
  simp [getMins, getMin, freshCache, h]

open scoped Classical in
/-- A change that keeps the potential at phase zero is not noticed at all, once the table is there. -/
theorem C124_unnoticed_false (pot0 : P → ℝ) (min : P → ℝ) (p q : P) (h : pot0 p = pot0 q) :
    getMins pot0 min [p, p, q] freshCache = [min p, min p, min p] := by
  simp [getMins, getMin, freshCache, h]

/-- Opposite fluxes have the same potential at phase zero. -/
theorem C124_opposite (EJ γ phi phi0 : ℝ) :
    fluxPot EJ γ phi phi0 0 0 0 = fluxPot EJ γ (-phi) phi0 0 0 0 := by
  simp only [fluxPot]
  have : (0 : ℝ) + (-phi + 0) / phi0 * 2 * π = -(0 + (phi + 0) / phi0 * 2 * π) := by ring
  rw [this, cos_neg]

/-- ... and different ones show: the parameters of `C124_stale_false` exist. -/
example : fluxPot 1 0 0 1 0 0 0 ≠ fluxPot 1 0 (1 / 2) 1 0 0 0 := by
  simp only [fluxPot]
  have : (0 : ℝ) + (1 / 2 + 0) / 1 * 2 * π = π := by ring
  rw [this, cos_pi]
  norm_num

open scoped Classical in
/-- The potential of the fluxonium refuses flux signals (c3/libraries/chip.py:983-984); `none` stands for the
exception. -/
noncomputable def fluxoniumSignal (sig : ℝ) : Option ℝ := if sig ≠ 0 then none else some sig

/-- The table of the fluxonium (c3/libraries/chip.py:808-818) calls the potential with flux signals `k phi_0 / 49`, of
which all but the first are refused. -/
noncomputable def fluxoniumTable (phi0 : ℝ) : Option (List ℝ) :=
  ((List.range 50).map fun (k : ℕ) => (k : ℝ) * phi0 / 49).mapM fluxoniumSignal

/-- Without a flux signal the potential of the fluxonium can be computed, with one it cannot. -/
theorem C124_fluxonium_signal (sig : ℝ) : (fluxoniumSignal sig).isSome ↔ sig = 0 := by
  unfold fluxoniumSignal
  by_cases h : sig = 0 <;> simp [h]

/-- C124 fails for the fluxonium: the second question for the minimum builds the table and raises, so the
Hamiltonian of a fluxonium with more than two levels cannot be computed. -/
theorem C124_fluxonium_false (phi0 : ℝ) (h : phi0 ≠ 0) : fluxoniumTable phi0 = none := by
  unfold fluxoniumTable
  rw [show (50 : ℕ) = 1 + (1 + 48) by norm_num, List.range_add, List.range_add]
  simp [h, fluxoniumSignal]

example : (1 : ℝ) ≠ 0 := one_ne_zero

end Cache

end C3.Chip
