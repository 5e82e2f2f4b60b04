import Verif.Hilbert.Decay

/-!
# C42, C43: thermal initial state, flux tuning

`InitialiseGround.initialise` (c3/libraries/tasks.py:46-88), `Transmon.get_factor` and `get_freq`
(c3/libraries/chip.py:355-383), `FluxTuning` (c3/generator/devices.py:457-525) and `CouplingTuning`
(c3/generator/devices.py:374-453).
-/

set_option linter.unusedSectionVars false

namespace C3.Hilbert

open Matrix Finset C3.Propagation
open scoped ComplexOrder

/-! ## C42 -/

section
variable {n : ℕ}

/-- What `initialise` returns: a state vector or a density vector. -/
inductive Init (n : ℕ) where
  | ket (psi : Fin n → ℂ)
  | vec (v : Fin n × Fin n → ℂ)

/-- c3/libraries/tasks.py:69-75: the normalised Boltzmann factors of the diagonal of the drift
Hamiltonian. -/
noncomputable def boltzmann (drift : Matrix (Fin (n + 1)) (Fin (n + 1)) ℂ) (T : ℝ) (p : Fin (n + 1)) : ℂ :=
  let detBal : Fin (n + 1) → ℂ := fun p =>
    Complex.exp (-(hBar : ℂ) * (drift p p - drift 0 0) * (1 / ((T : ℂ) * (kB : ℂ))))
  detBal p / ∑ q, detBal q

open scoped Classical in
/-- c3/libraries/tasks.py:46-88 `initialise`. `none` is the raised `Warning` of line 80. -/
noncomputable def initialise (drift : Matrix (Fin (n + 1)) (Fin (n + 1)) ℂ) (lindbladian : Bool) (T : ℝ) :
    Option (Init (n + 1)) :=
  if 2 ^ (-52 : ℤ) < |T| then
    if lindbladian then some (.vec (dmToVec (Matrix.diagonal (boltzmann drift T)))) else none
  else
    let psi : Fin (n + 1) → ℂ := fun i => if i = 0 then 1 else 0
    if lindbladian then some (.vec (dmToVec (stateToDm psi))) else some (.ket psi)

theorem boltzmann_real (drift : Matrix (Fin (n + 1)) (Fin (n + 1)) ℂ) (h : drift.IsHermitian) (T : ℝ)
    (p : Fin (n + 1)) :
    boltzmann drift T p =
      ((Real.exp (-hBar * ((drift p p).re - (drift 0 0).re) / (T * kB)) /
        ∑ q, Real.exp (-hBar * ((drift q q).re - (drift 0 0).re) / (T * kB)) : ℝ) : ℂ) := by
  have hre : ∀ q, drift q q = ((drift q q).re : ℂ) := fun q => by
    have := congrFun (congrFun h q) q
    rw [Matrix.conjTranspose_apply] at this
    exact (Complex.conj_eq_iff_re.1 this).symm
  have hd : ∀ q, Complex.exp (-(hBar : ℂ) * (drift q q - drift 0 0) * (1 / ((T : ℂ) * (kB : ℂ)))) =
      ((Real.exp (-hBar * ((drift q q).re - (drift 0 0).re) / (T * kB)) : ℝ) : ℂ) := by
    intro q
    rw [hre q, hre 0, Complex.ofReal_exp]
    congr 1
    push_cast
    simp only [Complex.ofReal_re]
    ring
  unfold boltzmann
  simp only [hd]
  push_cast
  rfl

/-- C42: the thermal density vector belongs to a diagonal density matrix with Boltzmann population
ratios. -/
theorem C42_thermal (drift : Matrix (Fin (n + 1)) (Fin (n + 1)) ℂ) (h : drift.IsHermitian) (T : ℝ)
    (hT : 2 ^ (-52 : ℤ) < |T|) :
    ∃ v, initialise drift true T = some (.vec v) ∧ IsDensity (vecToDm v) ∧
      (∀ p q, p ≠ q → vecToDm v p q = 0) ∧
      ∀ p q, vecToDm v p p = (Real.exp (-hBar * ((drift p p).re - (drift q q).re) / (kB * T)) : ℂ) *
        vecToDm v q q := by
  refine ⟨_, by unfold initialise; rw [if_pos hT, if_pos rfl], ?_, ?_, ?_⟩
  · rw [vecToDm_dmToVec]
    have hpos : 0 < ∑ q, Real.exp (-hBar * ((drift q q).re - (drift 0 0).re) / (T * kB)) :=
      sum_pos (fun q _ => Real.exp_pos _) univ_nonempty
    constructor
    · apply Matrix.PosSemidef.diagonal
      intro p
      rw [boltzmann_real drift h]
      simp only [Pi.zero_apply]
      rw [Complex.zero_le_real]
      exact div_nonneg (Real.exp_pos _).le hpos.le
    · rw [Matrix.trace_diagonal]
      simp only [boltzmann_real drift h]
      rw [← Complex.ofReal_sum, ← Finset.sum_div, div_self hpos.ne']
      rfl
  · intro p q hpq
    rw [vecToDm_dmToVec, Matrix.diagonal_apply_ne _ hpq]
  · intro p q
    rw [vecToDm_dmToVec, Matrix.diagonal_apply_eq, Matrix.diagonal_apply_eq,
      boltzmann_real drift h, boltzmann_real drift h]
    rw [← Complex.ofReal_mul]
    congr 1
    rw [← mul_div_assoc, ← Real.exp_add]
    congr 2
    rw [mul_comm kB T, ← add_div]
    congr 1
    ring

/-- C42: a lower energy never has the smaller population (positive temperature). -/
theorem C42_ordered (drift : Matrix (Fin (n + 1)) (Fin (n + 1)) ℂ) (h : drift.IsHermitian) (T : ℝ)
    (hT : 2 ^ (-52 : ℤ) < T) (p q : Fin (n + 1)) (hpq : (drift p p).re ≤ (drift q q).re) :
    (boltzmann drift T q).re ≤ (boltzmann drift T p).re := by
  have hT0 : 0 < T := lt_trans (by positivity) hT
  rw [boltzmann_real drift h, boltzmann_real drift h, Complex.ofReal_re, Complex.ofReal_re]
  have hpos : 0 < ∑ q, Real.exp (-hBar * ((drift q q).re - (drift 0 0).re) / (T * kB)) :=
    sum_pos (fun q _ => Real.exp_pos _) univ_nonempty
  apply div_le_div_of_nonneg_right _ hpos.le
  apply Real.exp_le_exp.2
  apply div_le_div_of_nonneg_right _ (mul_pos hT0 kB_pos).le
  have := mul_le_mul_of_nonneg_left hpq hBar_pos.le
  nlinarith

/-- C42: at zero temperature (up to machine precision) the ground state is returned, as a vector for a
closed and as a density vector for an open system. -/
theorem C42_zero (drift : Matrix (Fin (n + 1)) (Fin (n + 1)) ℂ) (T : ℝ) (hT : |T| ≤ 2 ^ (-52 : ℤ)) :
    initialise drift false T = some (.ket (Pi.single 0 1)) ∧
      ∃ v, initialise drift true T = some (.vec v) ∧ vecToDm v = Matrix.single 0 0 1 := by
  have h0 : (fun i : Fin (n + 1) => if i = 0 then (1 : ℂ) else 0) = Pi.single 0 1 := by
    funext i
    by_cases hi : i = 0
    · subst hi; simp
    · simp [hi]
  constructor
  · unfold initialise
    rw [if_neg (not_lt.2 hT)]
    simp only [Bool.false_eq_true, if_false, h0]
  · refine ⟨_, by unfold initialise; rw [if_neg (not_lt.2 hT)]; rfl, ?_⟩
    rw [vecToDm_dmToVec, h0]
    ext i j
    simp only [stateToDm, Matrix.single_apply]
    by_cases hi : i = 0 <;> by_cases hj : j = 0 <;> simp [hi, hj, eq_comm]

/-- C42: a finite temperature is refused for a closed system. -/
theorem C42_closed_refused (drift : Matrix (Fin (n + 1)) (Fin (n + 1)) ℂ) (T : ℝ)
    (hT : 2 ^ (-52 : ℤ) < |T|) : initialise drift false T = none := by
  unfold initialise
  rw [if_pos hT]
  rfl

example : (2 : ℝ) ^ (-52 : ℤ) < |(0.05 : ℝ)| := by
  rw [abs_of_pos (by norm_num)]
  norm_num

end

/-! ## C43 -/

theorem squid_arg_bounds (x d : ℝ) (hd : |d| ≤ 1) :
    d ^ 2 ≤ Real.cos x ^ 2 + d ^ 2 * Real.sin x ^ 2 ∧
      Real.cos x ^ 2 + d ^ 2 * Real.sin x ^ 2 ≤ 1 := by
  have hd2 : d ^ 2 ≤ 1 := by
    rw [← sq_abs]
    exact pow_le_one₀ (abs_nonneg d) hd
  have h1 := Real.sin_sq_add_cos_sq x
  have hs := sq_nonneg (Real.sin x)
  have hc := sq_nonneg (Real.cos x)
  constructor <;> nlinarith [mul_nonneg (sub_nonneg.2 hd2) hs, mul_nonneg (sub_nonneg.2 hd2) hc]

/-- C43: the SQUID factor lies between `√|d|` and one. -/
theorem C43_factor (phi phi0 d : ℝ) (hd : |d| ≤ 1) :
    Real.sqrt |d| ≤ squidFactor phi phi0 d ∧ squidFactor phi phi0 d ≤ 1 := by
  obtain ⟨h1, h2⟩ := squid_arg_bounds (Real.pi * phi / phi0) d hd
  unfold squidFactor
  constructor
  · apply Real.sqrt_le_sqrt
    rw [← Real.sqrt_sq_eq_abs]
    exact Real.sqrt_le_sqrt h1
  · rw [Real.sqrt_le_one, Real.sqrt_le_one]
    exact h2

/-- C43: at zero flux the frequency is the bare frequency. -/
theorem C43_zero_flux (freq anhar phi phi0 d sig : ℝ) (h : phi + sig = 0) :
    transmonFreq freq anhar phi phi0 d sig = freq := by
  unfold transmonFreq squidFactor
  rw [h]
  simp

/-- C43: the frequency is periodic in the flux with period `phi0`. -/
theorem C43_periodic (freq anhar phi phi0 d sig : ℝ) (h0 : phi0 ≠ 0) (k : ℤ) :
    transmonFreq freq anhar phi phi0 d (sig + k * phi0) = transmonFreq freq anhar phi phi0 d sig := by
  unfold transmonFreq squidFactor
  have e : Real.pi * (phi + (sig + k * phi0)) / phi0 = Real.pi * (phi + sig) / phi0 + k * Real.pi := by
    field_simp
    ring
  rw [e, Real.cos_add_int_mul_pi, Real.sin_add_int_mul_pi]
  have : ((-1 : ℝ) ^ k) ^ 2 = 1 := by
    rcases Int.even_or_odd k with hk | hk
    · rw [hk.neg_one_zpow]; norm_num
    · rw [hk.neg_one_zpow]; norm_num
  simp only [mul_pow, this, one_mul]

/-- C43: the sign of the flux does not matter. -/
theorem C43_even (freq anhar phi0 d flux : ℝ) :
    transmonFreq freq anhar 0 phi0 d (-flux) = transmonFreq freq anhar 0 phi0 d flux := by
  unfold transmonFreq squidFactor
  simp only [zero_add, mul_neg, neg_div, Real.cos_neg, Real.sin_neg, neg_sq]

/-- C43: for an asymmetry of at most one the frequency lies between its minimum (given by the
asymmetry) and the bare frequency. -/
theorem C43_range (freq anhar phi phi0 d sig : ℝ) (hd : |d| ≤ 1) (hf : anhar ≤ freq) :
    (freq - anhar) * Real.sqrt |d| + anhar ≤ transmonFreq freq anhar phi phi0 d sig ∧
      transmonFreq freq anhar phi phi0 d sig ≤ freq := by
  obtain ⟨h1, h2⟩ := C43_factor (phi + sig) phi0 d hd
  unfold transmonFreq
  have h3 := mul_le_mul_of_nonneg_left h1 (sub_nonneg.2 hf)
  have h4 := mul_le_mul_of_nonneg_left h2 (sub_nonneg.2 hf)
  constructor <;> linarith

/-- C43: both bounds are reached, at half a flux quantum and at zero flux. -/
theorem C43_range_tight (freq anhar phi0 d : ℝ) (h0 : phi0 ≠ 0) :
    transmonFreq freq anhar 0 phi0 d (phi0 / 2) = (freq - anhar) * Real.sqrt |d| + anhar ∧
      transmonFreq freq anhar 0 phi0 d 0 = freq := by
  refine ⟨?_, C43_zero_flux _ _ _ _ _ _ (by ring)⟩
  unfold transmonFreq squidFactor
  have e : Real.pi * (0 + phi0 / 2) / phi0 = Real.pi / 2 := by
    field_simp
    ring
  rw [e, Real.cos_pi_div_two, Real.sin_pi_div_two]
  simp [Real.sqrt_sq_eq_abs]

/-- c3/libraries/chip.py:360-366: the asymmetry: the parameter `d`, or computed from `gamma`, or zero. -/
noncomputable def asymmetry (d gamma : Option ℝ) : ℝ :=
  match d, gamma with
  | some d, _ => d
  | none, some g => (g - 1) / (g + 1)
  | none, none => 0

/-- C43: an asymmetry given by a non-negative junction ratio is in range. -/
theorem C43_asymmetry (g : ℝ) (hg : 0 ≤ g) :
    |asymmetry none (some g)| ≤ 1 ∧ asymmetry none none = 0 ∧ ∀ d gamma, asymmetry (some d) gamma = d := by
  refine ⟨?_, rfl, fun _ _ => rfl⟩
  · simp only [asymmetry]
    have : 0 < g + 1 := by linarith
    rw [abs_le, le_div_iff₀ this, div_le_iff₀ this]
    constructor <;> linarith

/-- C43: the asymmetry of junctions with ratio `g` is the one that makes their energies relate as `1 + d` to `1 - d`. -/
theorem C43_asymmetry_ratio (g : ℝ) (hg : 0 ≤ g) :
    (1 + asymmetry none (some g)) = g * (1 - asymmetry none (some g)) := by
  simp only [asymmetry]
  have : g + 1 ≠ 0 := by positivity
  field_simp
  ring

example : |(0.36 : ℝ)| ≤ 1 ∧ (-210e6 : ℝ) ≤ 5e9 := by
  constructor
  · rw [abs_of_pos] <;> norm_num
  · norm_num

/-! ### Tuning devices (C97) -/

/-- c3/generator/devices.py:481-496 `FluxTuning.get_factor`. -/
noncomputable def fluxFactor (phi0 : ℝ) (d : Option ℝ) (phi : ℝ) : ℝ :=
  match d with
  | some d => Real.sqrt (Real.sqrt (Real.cos (Real.pi * phi / phi0) ^ 2 +
      d ^ 2 * Real.sin (Real.pi * phi / phi0) ^ 2))
  | none => Real.sqrt |Real.cos (Real.pi * phi / phi0)|

/-- c3/generator/devices.py:497-502 `FluxTuning.get_freq`. -/
noncomputable def fluxFreq (omega0 anhar phi0 : ℝ) (d : Option ℝ) (phi : ℝ) : ℝ :=
  (omega0 - anhar) * fluxFactor phi0 d phi + anhar

/-- c3/generator/devices.py:504-525 `FluxTuning.process`, one sample. -/
noncomputable def fluxTuning (omega0 anhar phi0 : ℝ) (d : Option ℝ) (phi sig : ℝ) : ℝ :=
  fluxFreq omega0 anhar phi0 d (phi + sig) - fluxFreq omega0 anhar phi0 d phi

/-- c3/generator/devices.py:409-421, 423-453 `CouplingTuning.process`, one sample; the second input is
zero unless `two_inputs`. -/
noncomputable def coupling (g0 w1 w2 s1 s2 : ℝ) : ℝ :=
  g0 / Real.sqrt (w1 * w2) * Real.sqrt ((w2 - s2) * (w1 - s1))

noncomputable def couplingTuning (g0 w1 w2 : ℝ) (two : Bool) (s1 s2 : ℝ) : ℝ :=
  let s2 := if two then s2 else 0
  coupling g0 w1 w2 s1 s2 - coupling g0 w1 w2 0 0

/-- C97: the flux tuning device produces exactly the change of the frequency of a transmon with the
same parameters. -/
theorem C97_flux_is_transmon_shift (omega0 anhar phi0 phi sig : ℝ) (d : Option ℝ) :
    fluxTuning omega0 anhar phi0 d phi sig =
      transmonFreq omega0 anhar phi phi0 (d.getD 0) sig -
        transmonFreq omega0 anhar phi phi0 (d.getD 0) 0 := by
  unfold fluxTuning fluxFreq transmonFreq fluxFactor squidFactor
  cases d with
  | some d => simp
  | none =>
    simp only [Option.getD_none, ne_eq, OfNat.ofNat_ne_zero, not_false_eq_true, zero_pow, zero_mul,
      add_zero, Real.sqrt_sq_eq_abs]

/-- C97: no signal, no shift. -/
theorem C97_zero_signal (omega0 anhar phi0 phi : ℝ) (d : Option ℝ) (g0 w1 w2 : ℝ) (two : Bool) :
    fluxTuning omega0 anhar phi0 d phi 0 = 0 ∧ couplingTuning g0 w1 w2 two 0 0 = 0 := by
  constructor
  · unfold fluxTuning
    simp
  · unfold couplingTuning
    cases two <;> simp

/-- C97: tuned coupling: the coupling at the tuned frequencies is `g0 √(w1' w2' / (w1 w2))`, and at the
bias point it is `g0`. -/
theorem C97_coupling (g0 w1 w2 s1 s2 : ℝ) (h1 : 0 < w1) (h2 : 0 < w2) :
    g0 + couplingTuning g0 w1 w2 true s1 s2 =
      g0 * Real.sqrt ((w1 - s1) * (w2 - s2) / (w1 * w2)) := by
  have hp : 0 < w1 * w2 := mul_pos h1 h2
  have hs : Real.sqrt (w1 * w2) ≠ 0 := (Real.sqrt_pos.2 hp).ne'
  unfold couplingTuning coupling
  simp only [if_true, sub_zero]
  rw [Real.sqrt_div' _ hp.le, mul_comm w2 w1, mul_comm (w2 - s2)]
  field_simp
  ring

/-- C97: a device with one input ignores the second frequency. -/
theorem C97_one_input (g0 w1 w2 s1 s2 : ℝ) :
    couplingTuning g0 w1 w2 false s1 s2 = couplingTuning g0 w1 w2 true s1 0 := by
  simp [couplingTuning]

example : couplingTuning 1 4 4 true 4 0 = -1 := by
  have h : Real.sqrt 16 = 4 := by
    rw [show (16 : ℝ) = 4 ^ 2 by norm_num]
    exact Real.sqrt_sq (by norm_num)
  norm_num [couplingTuning, coupling, h]

end C3.Hilbert
