import Verif.Devices.Mix
import Verif.Devices.Convolve
import Verif.Devices.Grid
import Verif.Timing.Awg
import Mathlib.Analysis.SpecialFunctions.Trigonometric.Basic
import Mathlib.Analysis.SpecialFunctions.Pow.Real
import Mathlib.Analysis.Complex.ExponentialBounds
import Mathlib.Algebra.BigOperators.Field

/-!
# Drive signals and noise sources (C141-C145)

The local oscillator, the AWG and the mixer together, c3/generator/devices.py:906-939, 1063-1196;
noise of the local oscillator, pink noise, filters defined by a step response, high-pass filter.
-/

namespace C3.Devices

open Real Timing

/-! ## C141: the modulated carrier -/

/-- c3/generator/devices.py:1122-1126 `LO.process` without noise. -/
noncomputable def loClean (omega : ℝ) (ts : List ℝ) : Sig :=
  [("inphase", ts.map fun t => cos (omega * t)), ("quadrature", ts.map fun t => sin (omega * t)),
    ("ts", ts)]

/-- c3/generator/devices.py:1186-1197 `AWG.create_IQ`. -/
noncomputable def awgSig (comps : List AComp) (ts : List ℝ) : Sig :=
  [("inphase", (awgSignal comps ts).1), ("quadrature", (awgSignal comps ts).2), ("ts", ts)]

theorem mixer_map (f g u v : ℝ → ℝ) (ts : List ℝ) :
    mixer [("inphase", ts.map f), ("quadrature", ts.map g), ("ts", ts)]
      [("inphase", ts.map u), ("quadrature", ts.map v), ("ts", ts)] =
      some [("values", ts.map fun t => f t * u t + g t * v t), ("ts", ts)] := by
  have hz : ∀ (op : ℝ → ℝ → ℝ) (a b : ℝ → ℝ), List.zipWith op (ts.map a) (ts.map b) =
      ts.map fun t => op (a t) (b t) := by
    intro op a b
    apply List.ext_getElem <;> simp
  simp [mixer, Sig.get, elementwise, hz]

theorem list_sum_mul (l : List AComp) (f : AComp → ℝ) (c : ℝ) :
    c * (l.map f).sum = (l.map fun x => c * f x).sum := by
  induction l with
  | nil => simp
  | cons a l ih => simp [mul_add, ih]

/-- **C141**, all components: the mixed signal is the real part of the complex AWG waveform, moved by the
carrier: `Re(s(t) e^{-iωt})` summed over the components of the channel. -/
theorem C141_mixed (omega : ℝ) (comps : List AComp) (ts : List ℝ) (h2 : 2 ≤ ts.length) :
    mixer (loClean omega ts) (awgSig comps ts) =
      some [("values", ts.map fun t => (comps.map fun c =>
        (compAt (ts.getD 1 0 - ts.getD 0 0) c t * Complex.exp (-(Complex.I * (omega * t : ℝ)))).re).sum),
        ("ts", ts)] := by
  unfold loClean awgSig
  rw [C55_sum_of_components comps ts h2, mixer_map]
  congr 4
  funext t
  rw [list_sum_mul, list_sum_mul, ← List.sum_map_add]
  congr 1
  apply List.map_congr_left
  intro c _
  have he : Complex.exp (-(Complex.I * (omega * t : ℝ))) =
      (cos (omega * t) : ℂ) - Complex.I * (sin (omega * t) : ℂ) := by
    rw [show -(Complex.I * ((omega * t : ℝ) : ℂ)) = ((-(omega * t) : ℝ) : ℂ) * Complex.I by
      push_cast; ring, Complex.exp_mul_I, ← Complex.ofReal_cos, ← Complex.ofReal_sin, cos_neg, sin_neg]
    push_cast
    ring
  rw [he]
  simp only [Complex.mul_re, Complex.sub_re, Complex.sub_im, Complex.mul_im, Complex.I_re, Complex.I_im,
    Complex.ofReal_re, Complex.ofReal_im]
  ring

/-- A single pulse with a real shape. -/
noncomputable def pulse (tStart tEnd amp xy off tFinal : ℝ) (g : ℝ → ℝ) : AComp :=
  ⟨tStart, tEnd, some ⟨amp, xy, off, tFinal, fun t => (g t : ℂ)⟩⟩

/-- **C141**, one pulse with a real envelope on a carrier of frequency `ω`: the line carries
`amp · mask · shape · cos((ω + off)(t - t₀) + ω t₀ - xy)`, i.e. an oscillation at the carrier frequency
*plus* the frequency offset with phase `-xy`. -/
theorem C141_pulse (omega t0 t1 amp xy off tFinal : ℝ) (g : ℝ → ℝ) (ts : List ℝ) (h2 : 2 ≤ ts.length) :
    mixer (loClean omega ts) (awgSig [pulse t0 t1 amp xy off tFinal g] ts) =
      some [("values", ts.map fun t =>
        amp * (maskAt (ts.getD 1 0 - ts.getD 0 0) (min tFinal (t1 - t0)) (t - t0) * g (t - t0)) *
          cos ((omega + off) * (t - t0) + omega * t0 - xy)), ("ts", ts)] := by
  rw [C141_mixed omega _ ts h2]
  congr 4
  funext t
  simp only [List.map_cons, List.map_nil, List.sum_cons, List.sum_nil, add_zero, pulse, compAt]
  rw [mul_assoc, ← Complex.exp_add]
  rw [show Complex.I * ((xy - off * (t - t0) : ℝ) : ℂ) + -(Complex.I * ((omega * t : ℝ) : ℂ)) =
    ((-((omega + off) * (t - t0) + omega * t0 - xy) : ℝ) : ℂ) * Complex.I by push_cast; ring]
  rw [← Complex.ofReal_mul, ← Complex.ofReal_mul, Complex.re_ofReal_mul, Complex.exp_ofReal_mul_I_re,
    cos_neg]

/-- c3/signal/gates.py:372-399 `quick_setup`: the carrier and offset frequencies (times 2π, unit
"Hz 2pi") for a qubit frequency and an optional sideband; a sideband of zero counts as none. -/
noncomputable def quickFreqs (qubitFreq : ℝ) (sideband : Option ℝ) : ℝ × ℝ :=
  open scoped Classical in
  match sideband with
  | none => (2 * π * qubitFreq, 0)
  | some s => if s = 0 then (2 * π * qubitFreq, 0) else (2 * π * (qubitFreq - s), 2 * π * s)

/-- **C141**, `quick_setup`: with or without a sideband, a gate that starts at time zero drives at the
frequency of the qubit. -/
theorem C141_quick_setup (f : ℝ) (sb : Option ℝ) (t1 amp tFinal : ℝ) (g : ℝ → ℝ) (ts : List ℝ)
    (h2 : 2 ≤ ts.length) :
    mixer (loClean (quickFreqs f sb).1 ts) (awgSig [pulse 0 t1 amp 0 (quickFreqs f sb).2 tFinal g] ts) =
      some [("values", ts.map fun t =>
        amp * (maskAt (ts.getD 1 0 - ts.getD 0 0) (min tFinal t1) t * g t) * cos (2 * π * f * t)),
        ("ts", ts)] := by
  rw [C141_pulse _ _ _ _ _ _ _ _ _ h2]
  have hs : (quickFreqs f sb).1 + (quickFreqs f sb).2 = 2 * π * f := by
    unfold quickFreqs
    cases sb with
    | none => simp
    | some s => 
      by_cases h : s = 0
      · simp [h]
      · simp [h]
        ring
  simp only [hs, sub_zero, mul_zero, add_zero]

/-- **C141**, `quick_setup` without a sideband: the pulse has no frequency offset, and a gate that starts at any time
drives at the frequency of the qubit, in phase with the oscillator. -/
theorem C141_no_sideband (f t0 t1 amp tFinal : ℝ) (sb : Option ℝ) (hs : sb = none ∨ sb = some 0) (g : ℝ → ℝ)
    (ts : List ℝ) (h2 : 2 ≤ ts.length) :
    mixer (loClean (quickFreqs f sb).1 ts) (awgSig [pulse t0 t1 amp 0 (quickFreqs f sb).2 tFinal g] ts) =
      some [("values", ts.map fun t =>
        amp * (maskAt (ts.getD 1 0 - ts.getD 0 0) (min tFinal (t1 - t0)) (t - t0) * g (t - t0)) *
          cos (2 * π * f * t)), ("ts", ts)] := by
  rw [C141_pulse _ _ _ _ _ _ _ _ _ h2]
  have hq : quickFreqs f sb = (2 * π * f, 0) := by
    rcases hs with rfl | rfl <;> simp [quickFreqs]
  rw [hq]
  congr 4
  funext t
  congr 2
  ring

/-! ## C142: noise of the local oscillator -/

/-- c3/generator/devices.py:1073-1130 `LO.process`: in-phase and quadrature samples. `zA`, `zP`, `zF` are
the standard normal draws of each sample; a scale of zero switches a noise source off. -/
noncomputable def loNoisy (amp phase freq omega : ℝ) (zA zP zF : ℕ → ℝ) (ts : List ℝ) : List (ℝ × ℝ) :=
  open scoped Classical in
  let dt := ts.getD 1 0 - ts.getD 0 0
  let accumulated (k : ℕ) : ℝ :=
    (List.range k).foldl (fun phi i => phi + (omega + freq * zF i) * dt) (omega * ts.getD 0 0)
  let sample (A phi : ℝ) : ℝ × ℝ := (A * cos phi, A * sin phi)
  ts.zipIdx.map fun (t, k) =>
    if amp ≠ 0 ∧ freq ≠ 0 then sample (1 + amp * zA k) (accumulated k)
    else if amp ≠ 0 ∧ phase ≠ 0 then sample (1 + amp * zA k) (omega * t + phase * zP k)
    else if amp ≠ 0 then sample (1 + amp * zA k) (omega * t)
    else if phase ≠ 0 then sample 1 (omega * t + phase * zP k)
    else if freq ≠ 0 then sample 1 (accumulated k)
    else sample 1 (omega * t)

/-- Regular samples. -/
def regular (t0 dt : ℝ) (N : ℕ) : List ℝ := (List.range N).map fun k : ℕ => t0 + k * dt

theorem regular_step (t0 dt : ℝ) (N : ℕ) (hN : 2 ≤ N) :
    (regular t0 dt N).getD 1 0 - (regular t0 dt N).getD 0 0 = dt ∧ (regular t0 dt N).getD 0 0 = t0 := by
  obtain ⟨N, rfl⟩ := Nat.exists_eq_add_of_le hN
  have h0 : (regular t0 dt (2 + N)).getD 0 0 = t0 := by
    simp [regular, List.getD_eq_getElem?_getD]
  have h1 : (regular t0 dt (2 + N)).getD 1 0 = t0 + dt := by
    simp [regular, List.getD_eq_getElem?_getD, List.getElem?_range (show 1 < 2 + N by omega)]
  rw [h0, h1]
  exact ⟨by ring, rfl⟩

theorem accumulate (omega dt phi0 : ℝ) (d : ℕ → ℝ) (k : ℕ) :
    (List.range k).foldl (fun phi i => phi + (omega + d i) * dt) phi0 =
      phi0 + (k * omega + ∑ i ∈ Finset.range k, d i) * dt := by
  induction k with
  | zero => simp
  | succ k ih =>
    rw [List.range_succ, List.foldl_append, ih, Finset.sum_range_succ]
    simp only [List.foldl_cons, List.foldl_nil]
    push_cast
    ring

/-- What is meant: sample `k` has the amplitude `1 + amp zA`, the phase `ω t`, plus the phase noise of
this sample, plus the frequency noise of all earlier samples. -/
noncomputable def loIntended (amp phase freq omega t0 dt : ℝ) (zA zP zF : ℕ → ℝ) (k : ℕ) : ℝ × ℝ :=
  let phi := omega * (t0 + k * dt) + phase * zP k + freq * (∑ i ∈ Finset.range k, zF i) * dt
  ((1 + amp * zA k) * cos phi, (1 + amp * zA k) * sin phi)

/-- **C142**, what holds: if not both phase and frequency noise are switched on, every sample carries
exactly the noise of the sources that are switched on. In particular zero draws (or no noise source) give
the clean carrier. Missing: phase and frequency noise together, see the negation. -/
theorem C142_sources_partial (amp phase freq omega t0 dt : ℝ) (zA zP zF : ℕ → ℝ) (N : ℕ) (hN : 2 ≤ N)
    (h : phase = 0 ∨ freq = 0) :
    loNoisy amp phase freq omega zA zP zF (regular t0 dt N) =
      (List.range N).map (loIntended amp phase freq omega t0 dt zA zP zF) := by
  unfold loNoisy
  rw [(regular_step t0 dt N hN).1, (regular_step t0 dt N hN).2]
  apply List.ext_getElem
  · simp [regular]
  intro k h1 h3
  have hacc : ∀ k : ℕ, (List.range k).foldl (fun phi i => phi + (omega + freq * zF i) * dt) (omega * t0) =
      omega * (t0 + k * dt) + freq * (∑ i ∈ Finset.range k, zF i) * dt := by
    intro k
    rw [accumulate omega dt (omega * t0) (fun i => freq * zF i) k, ← Finset.mul_sum]
    ring
  simp only [List.getElem_map, List.getElem_zipIdx, List.getElem_range, regular, Nat.zero_add, hacc,
    loIntended]
  rcases h with rfl | rfl
  · by_cases ha : amp = 0 <;> by_cases hf : freq = 0 <;> simp [ha, hf]
  · by_cases ha : amp = 0 <;> by_cases hp : phase = 0 <;> simp [ha, hp]

/-- **C142 is false** for phase and frequency noise together: one of them has no effect, the phase noise
if there is amplitude noise and the frequency noise otherwise. -/
theorem C142_false_both (amp phase freq omega : ℝ) (zA zP zF : ℕ → ℝ) (ts : List ℝ) (hp : phase ≠ 0)
    (hf : freq ≠ 0) :
    loNoisy amp phase freq omega zA zP zF ts =
      if amp ≠ 0 then loNoisy amp 0 freq omega zA zP zF ts else loNoisy 0 phase 0 omega zA zP zF ts := by
  by_cases ha : amp = 0
  · simp [loNoisy, ha, hp]
  · simp [loNoisy, ha, hf]

/-- **C142**: without amplitude noise all samples lie on the unit circle. -/
theorem C142_unit_circle (phase freq omega : ℝ) (zA zP zF : ℕ → ℝ) (ts : List ℝ) :
    ∀ s ∈ loNoisy 0 phase freq omega zA zP zF ts, s.1 ^ 2 + s.2 ^ 2 = 1 := by
  intro s hs
  simp only [loNoisy] at hs
  obtain ⟨⟨t, k⟩, _, rfl⟩ := List.mem_map.1 hs
  simp only [ne_eq, not_true_eq_false, false_and, if_false]
  split
  · simp
  · split <;> simp

/-! ## C143: pink noise -/

/-- c3/generator/devices.py:1030-1034, one sample: every fluctuator flips if `floor(u * rate)` is zero. -/
noncomputable def flipAll (u rates : ℕ → ℝ) (b : List ℤ) : List ℤ :=
  open scoped Classical in
  b.zipIdx.map fun (x, i) => if ⌊u i * rates (i + 1)⌋ = 0 then -x else x

/-- c3/generator/devices.py:1021-1035 `Pink_Noise.get_noise` for given random numbers `u` of each sample
and fluctuator. -/
noncomputable def pinkNoise (amp : ℝ) (rates : ℕ → ℝ) (u : ℕ → ℕ → ℝ) : ℕ → List ℤ → ℕ → List ℝ
  | 0, _, _ => []
  | n + 1, b, k => ((flipAll (u k) rates b).sum * amp) :: pinkNoise amp rates u n (flipAll (u k) rates b) (k + 1)

/-- c3/generator/devices.py:1027-1029: `np.logspace(0, np.log(num_steps), num=bfl_num + 1, base=10)`. -/
noncomputable def flipRate (steps bfl : ℕ) (i : ℕ) : ℝ := (10 : ℝ) ^ (i * Real.log steps / bfl)

/-- A state of the fluctuators: each one is up or down. -/
def IsSpins (b : List ℤ) : Prop := ∀ x ∈ b, x = 1 ∨ x = -1

theorem flipAll_spins (u rates : ℕ → ℝ) (b : List ℤ) (hb : IsSpins b) :
    IsSpins (flipAll u rates b) ∧ (flipAll u rates b).length = b.length := by
  refine ⟨?_, by simp [flipAll]⟩
  intro x hx
  obtain ⟨⟨y, i⟩, hy, rfl⟩ := List.mem_map.1 hx
  have hyb : y ∈ b := by
    have := List.mem_zipIdx hy
    rw [this.2.2]
    exact List.getElem_mem _
  rcases hb y hyb with rfl | rfl <;> simp only <;> split <;> simp

theorem spins_sum (b : List ℤ) (hb : IsSpins b) : |b.sum| ≤ b.length ∧ b.sum % 2 = (b.length : ℤ) % 2 := by
  induction b with
  | nil => simp
  | cons x b ih =>
    obtain ⟨h1, h2⟩ := ih fun y hy => hb y (List.mem_cons_of_mem _ hy)
    rw [abs_le] at h1
    rw [List.sum_cons, List.length_cons, abs_le]
    push_cast
    rcases hb x (by simp) with rfl | rfl
    · omega
    · omega

/-- **C143**, what holds: every noise sample is the amplitude times a whole number of the parity of the
number `n` of fluctuators, between `-n` and `n`, whatever the random numbers are; there is one for every
sample. Missing: the range of flip rates, see the negation. -/
theorem C143_values_partial (amp : ℝ) (rates : ℕ → ℝ) (u : ℕ → ℕ → ℝ) (n : ℕ) (b : List ℤ) (k : ℕ)
    (hb : IsSpins b) :
    (pinkNoise amp rates u n b k).length = n ∧ ∀ v ∈ pinkNoise amp rates u n b k,
      ∃ s : ℤ, v = s * amp ∧ |s| ≤ b.length ∧ s % 2 = (b.length : ℤ) % 2 := by
  induction n generalizing b k with
  | zero => simp [pinkNoise]
  | succ n ih =>
    obtain ⟨h1, h2⟩ := flipAll_spins (u k) rates b hb
    obtain ⟨h3, h4⟩ := ih (flipAll (u k) rates b) (k + 1) h1
    refine ⟨by simp [pinkNoise, h3], ?_⟩
    intro v hv
    rw [pinkNoise, List.mem_cons] at hv
    rcases hv with rfl | hv
    · have := spins_sum _ h1
      rw [h2] at this
      exact ⟨_, rfl, this.1, this.2⟩
    · have := h4 v hv
      rwa [h2] at this

/-- C143: a random number `u` in `[0, 1)` flips a fluctuator of rate `r ≥ 1` with probability `1/r`: it
flips exactly if `u < 1/r`. -/
theorem C143_flip (u r : ℝ) (hu : 0 ≤ u) (hr : 1 ≤ r) : ⌊u * r⌋ = 0 ↔ u < 1 / r := by
  rw [Int.floor_eq_zero_iff, Set.mem_Ico, lt_div_iff₀ (by linarith)]
  exact ⟨fun h => h.2, fun h => ⟨by positivity, h⟩⟩

/-- C143: in each sample a fluctuator of rate `r ≥ 1` changes its sign if its random number is below `1/r` and keeps
it otherwise. -/
theorem C143_step (u rates : ℕ → ℝ) (b : List ℤ) (hu : ∀ i, 0 ≤ u i) (hr : ∀ i, 1 ≤ rates i) (i : ℕ) (x : ℤ)
    (hx : b[i]? = some x) :
    (u i < 1 / rates (i + 1) → (flipAll u rates b)[i]? = some (-x)) ∧
      (1 / rates (i + 1) ≤ u i → (flipAll u rates b)[i]? = some x) := by
  have h : (flipAll u rates b)[i]? = some (open scoped Classical in if ⌊u i * rates (i + 1)⌋ = 0 then -x else x) := by
    simp only [flipAll, List.getElem?_map, List.getElem?_zipIdx, hx, Option.map_some, zero_add]
  rw [h]
  constructor
  · intro hlt
    rw [if_pos ((C143_flip _ _ (hu i) (hr _)).2 hlt)]
  · intro hle
    rw [if_neg fun hc => absurd ((C143_flip _ _ (hu i) (hr _)).1 hc) (not_lt.2 hle)]

/-- **C143 is false** for the range of flip rates: the slowest fluctuator does not flip once in `N` samples
on average but once in `N ^ ln 10 ≥ N ^ 2` samples, because the exponent is a natural logarithm and the
base is ten. -/
theorem C143_false_rates (N bfl : ℕ) (hN : 2 ≤ N) (hb : 0 < bfl) :
    flipRate N bfl bfl = (N : ℝ) ^ Real.log 10 ∧ (N : ℝ) ^ 2 ≤ flipRate N bfl bfl := by
  have hN0 : (0 : ℝ) < N := by exact_mod_cast (by omega : 0 < N)
  have h1 : flipRate N bfl bfl = (N : ℝ) ^ Real.log 10 := by
    unfold flipRate
    rw [mul_comm, mul_div_assoc, div_self (by exact_mod_cast hb.ne'), mul_one,
      rpow_def_of_pos (by norm_num), rpow_def_of_pos hN0, mul_comm]
  refine ⟨h1, ?_⟩
  rw [h1, ← rpow_natCast]
  apply rpow_le_rpow_of_exponent_le
  · exact_mod_cast (by omega : 1 ≤ N)
  · have : Real.exp 2 ≤ 10 := by
      have h := Real.exp_one_lt_d9
      have h2 : Real.exp 2 = Real.exp 1 * Real.exp 1 := by rw [← Real.exp_add]; norm_num
      rw [h2]
      nlinarith [Real.exp_pos 1]
    push_cast
    rwa [Real.le_log_iff_exp_le (by norm_num)]

/-! ## C144: filters defined by a step response -/

/-- c3/generator/devices.py:719-731 `StepFuncFilter.process`, one key: the step response is taken at the
time stamps of the signal. -/
noncomputable def stepFilter (s : ℝ → ℝ) (ts sig : List ℝ) : List ℝ :=
  (tfConvolve (sig.map Complex.ofReal) ((impulse (ts.map s)).map Complex.ofReal)).map Complex.re

/-- c3/generator/devices.py:767-769 `HighpassExponential.step_response_function`. -/
noncomputable def highpassStep (tau t : ℝ) : ℝ := exp (-t / tau)

/-- c3/generator/devices.py:747-751 `ExponentialIIR.step_response_function`. -/
noncomputable def iirStep (amp tau t : ℝ) : ℝ := 1 + amp * exp (-t / tau)

/-- **C144**, what holds: for an instruction that starts at time zero, the answer to a unit step after
`k + 1/2` samples is the step response after this time. Missing: other starting times, see the
negation. -/
theorem C144_zero_start_partial (s : ℝ → ℝ) (res : ℝ) (hres : 0 < res) (n : ℕ) (hn : 0 < n) :
    ∃ ts, createTs res 0 (n / res) true = some ts ∧
      stepFilter s ts (List.replicate ts.length 1) =
        (List.range n).map fun k : ℕ => s ((k + 1 / 2) / res) := by
  have h := C49_centred res 0 hres n hn
  simp only [zero_add, mul_one_div] at h
  refine ⟨_, h, ?_⟩
  have h2 := C93_step_filter (((List.range n).map fun k : ℕ => (((k : ℝ) + 1 / 2) / res)).map s)
  unfold stepFilter
  rw [List.length_map] at h2
  rw [h2, List.map_map]
  rfl

/-- C144: the step response of the exponential filter starts at `1 + A` and decays to one; that of the high-pass starts
at one and decays to zero, for a positive time constant. -/
theorem C144_responses (amp tau : ℝ) (htau : 0 < tau) :
    iirStep amp tau 0 = 1 + amp ∧ Filter.Tendsto (iirStep amp tau) Filter.atTop (nhds 1) ∧
      highpassStep tau 0 = 1 ∧ Filter.Tendsto (highpassStep tau) Filter.atTop (nhds 0) ∧
      iirStep amp tau tau = 1 + amp * exp (-1) := by
  have h0 : Filter.Tendsto (fun t : ℝ => exp (-t / tau)) Filter.atTop (nhds 0) := by
    refine Real.tendsto_exp_atBot.comp ?_
    exact Filter.Tendsto.atBot_div_const htau Filter.tendsto_neg_atTop_atBot
  refine ⟨by simp [iirStep], ?_, by simp [highpassStep], h0, ?_⟩
  · have := (h0.const_mul amp).const_add 1
    rw [mul_zero, add_zero] at this
    exact this
  · rw [iirStep, neg_div, div_self htau.ne']

theorem impulse_scale (c : ℝ) (l : List ℝ) : impulse (l.map (c * ·)) = (impulse l).map (c * ·) := by
  unfold impulse
  apply List.ext_getElem
  · simp
  intro k h1 h2
  rw [List.getElem_map, List.getElem_zipWith, List.getElem_zipWith, List.getElem_map]
  cases k with
  | zero => simp
  | succ k => simp [mul_sub]

/-- **C144 is false**: the exponential high-pass damps the signal of an instruction that starts at time `T`
by the factor `exp(-T/τ)`, because the step response is taken at the time stamps and not at the time
since the start. -/
theorem C144_false_start (tau T : ℝ) (ts sig : List ℝ) :
    stepFilter (highpassStep tau) (ts.map (· + T)) sig =
      (stepFilter (highpassStep tau) ts sig).map (exp (-T / tau) * ·) := by
  have h1 : (ts.map (· + T)).map (highpassStep tau) = (ts.map (highpassStep tau)).map (exp (-T / tau) * ·) := by
    rw [List.map_map, List.map_map]
    apply List.map_congr_left
    intro t _
    simp only [Function.comp_apply, highpassStep]
    rw [← exp_add]
    ring_nf
  unfold stepFilter
  rw [h1, impulse_scale, C51_real_part, C51_real_part, List.map_map]
  apply List.map_congr_left
  intro m _
  have hat : ∀ i, at0 ((impulse (ts.map (highpassStep tau))).map (exp (-T / tau) * ·)) i =
      exp (-T / tau) * at0 (impulse (ts.map (highpassStep tau))) i := by
    intro i
    unfold at0
    rw [List.getD_eq_getElem?_getD, List.getD_eq_getElem?_getD, List.getElem?_map]
    cases (impulse (ts.map (highpassStep tau)))[i]? <;> simp
  simp only [linConv, hat, Function.comp_apply, Finset.mul_sum]
  apply Finset.sum_congr rfl
  intro i _
  ring

/-! ## C145: the high-pass filter -/

/-- `tf.signal.hamming_window(N)` for odd `N ≥ 3`. -/
noncomputable def hamming (N : ℕ) (n : ℕ) : ℝ := 0.54 - 0.46 * cos (2 * π * n / (N - 1))

/-- c3/generator/devices.py:885-889: windowed sinc; the undefined centre value is replaced by one. -/
noncomputable def windowedSinc (fc : ℝ) (N n : ℕ) : ℝ :=
  open scoped Classical in
  let x := 2 * fc * (n - (N - 1) / 2)
  (if x = 0 then 1 else sin (π * x) / (π * x)) * hamming N n

/-- C145: the windowed sinc is symmetric about its centre. -/
theorem C145_symmetric (fc : ℝ) (k n : ℕ) (hk : 0 < k) (hn : n ≤ 2 * k) :
    windowedSinc fc (2 * k + 1) (2 * k - n) = windowedSinc fc (2 * k + 1) n := by
  have hk' : (k : ℝ) ≠ 0 := by exact_mod_cast hk.ne'
  have hx : 2 * fc * (((2 * k - n : ℕ) : ℝ) - (((2 * k + 1 : ℕ) : ℝ) - 1) / 2) =
      -(2 * fc * ((n : ℝ) - (((2 * k + 1 : ℕ) : ℝ) - 1) / 2)) := by
    rw [Nat.cast_sub hn]; push_cast; ring
  have hh : hamming (2 * k + 1) (2 * k - n) = hamming (2 * k + 1) n := by
    unfold hamming
    rw [Nat.cast_sub hn, show 2 * π * (((2 * k : ℕ) : ℝ) - n) / (((2 * k + 1 : ℕ) : ℝ) - 1) =
      2 * π - 2 * π * n / (((2 * k + 1 : ℕ) : ℝ) - 1) by push_cast; field_simp; ring, cos_two_pi_sub]
  unfold windowedSinc
  simp only
  rw [hx, hh]
  simp only [neg_eq_zero, mul_neg, sin_neg, neg_div_neg_eq]

/-- c3/generator/devices.py:883-894: the response; normalised with a minus sign, the centre *replaced* by
one. -/
noncomputable def highpassResp (fc : ℝ) (k : ℕ) : List ℝ :=
  let N := 2 * k + 1
  let S := ∑ n ∈ Finset.range N, windowedSinc fc N n
  (List.range N).map fun n => if n = k then 1 else windowedSinc fc N n / -S

theorem windowedSinc_centre (fc : ℝ) (k : ℕ) (hk : 0 < k) : windowedSinc fc (2 * k + 1) k = 1 := by
  have hk' : (k : ℝ) ≠ 0 := by exact_mod_cast hk.ne'
  unfold windowedSinc hamming
  simp only
  rw [if_pos (by push_cast; ring)]
  rw [show 2 * π * (k : ℝ) / (((2 * k + 1 : ℕ) : ℝ) - 1) = π by push_cast; field_simp; ring, cos_pi]
  norm_num

/-- The sum of the response (its answer to a constant signal). -/
theorem highpassResp_sum (fc : ℝ) (k : ℕ) (hk : 0 < k)
    (hS : ∑ n ∈ Finset.range (2 * k + 1), windowedSinc fc (2 * k + 1) n ≠ 0) :
    ∑ i ∈ Finset.range (2 * k + 1), at0 (highpassResp fc k) i =
      1 / ∑ n ∈ Finset.range (2 * k + 1), windowedSinc fc (2 * k + 1) n := by
  set S := ∑ n ∈ Finset.range (2 * k + 1), windowedSinc fc (2 * k + 1) n with hSdef
  have h1 : ∀ i ∈ Finset.range (2 * k + 1), at0 (highpassResp fc k) i =
      (if i = k then 1 + 1 / S else 0) - windowedSinc fc (2 * k + 1) i / S := by
    intro i hi
    rw [Finset.mem_range] at hi
    unfold at0 highpassResp
    rw [List.getD_eq_getElem _ _ (by simpa using hi)]
    simp only [List.getElem_map, List.getElem_range, ← hSdef]
    by_cases h : i = k
    · subst h
      rw [if_pos rfl, if_pos rfl, windowedSinc_centre fc i hk]
      ring
    · rw [if_neg h, if_neg h]
      rw [div_neg]
      ring
  rw [Finset.sum_congr rfl h1, Finset.sum_sub_distrib, ← Finset.sum_div, ← hSdef, div_self hS,
    Finset.sum_ite_eq' _ k, if_pos (by simp; omega)]
  ring

/-- **C145 is false**: a constant signal passes the high-pass filter: away from the ends its value is
multiplied by `1/S`, which is never zero, where `S` is the sum of the windowed sinc. (The centre of the
response is set to one instead of being increased by one.) -/
theorem C145_false_constant (fc a : ℝ) (k M p : ℕ) (hk : 0 < k) (hp : k ≤ p) (hpM : p + k < M)
    (hS : ∑ n ∈ Finset.range (2 * k + 1), windowedSinc fc (2 * k + 1) n ≠ 0) :
    (highpassConvolve (List.replicate M a) (highpassResp fc k))[p]? =
      some (a * (1 / ∑ n ∈ Finset.range (2 * k + 1), windowedSinc fc (2 * k + 1) n)) := by
  have hlen : (highpassResp fc k).length = 2 * k + 1 := by simp [highpassResp]
  rw [C92_highpass _ _ k hlen, List.getElem?_map, List.length_replicate,
    List.getElem?_range (by omega), Option.map_some, ← highpassResp_sum fc k hk hS, Finset.mul_sum, hlen]
  congr 1
  apply Finset.sum_congr rfl
  intro i hi
  rw [Finset.mem_range] at hi
  rw [if_neg (by omega)]
  congr 1
  unfold at0
  rw [List.getD_replicate _ (by omega)]

/-- **C145**, what holds: a response whose centre is *increased* by one removes constants; the code's
response is this one up to the centre. Missing: the centre itself. -/
theorem C145_other_samples_partial (fc : ℝ) (k : ℕ)
    (hS : ∑ n ∈ Finset.range (2 * k + 1), windowedSinc fc (2 * k + 1) n ≠ 0) :
    ∃ good : ℕ → ℝ, ∑ i ∈ Finset.range (2 * k + 1), good i = 0 ∧
      ∀ i, i < 2 * k + 1 → i ≠ k → at0 (highpassResp fc k) i = good i := by
  refine ⟨fun i => (if i = k then 1 else 0) -
    windowedSinc fc (2 * k + 1) i / ∑ n ∈ Finset.range (2 * k + 1), windowedSinc fc (2 * k + 1) n, ?_, ?_⟩
  · rw [Finset.sum_sub_distrib, ← Finset.sum_div, div_self hS, Finset.sum_ite_eq' _ k,
      if_pos (by simp; omega)]
    ring
  · intro i hi hik
    unfold at0 highpassResp
    rw [List.getD_eq_getElem _ _ (by simpa using hi)]
    simp only [List.getElem_map, List.getElem_range, if_neg hik]
    rw [div_neg]
    ring

/-! ## Examples -/

example : pinkNoise 2 (fun _ => 1) (fun _ _ => 0) 2 [1, 1, -1] 0 = [-2, 2] := by
  norm_num [pinkNoise, flipAll, List.zipIdx]

example : loNoisy 0 0 0 1 0 0 0 (regular 0 1 2) = [(cos 0, sin 0), (cos 1, sin 1)] := by
  rw [C142_sources_partial 0 0 0 1 0 1 0 0 0 2 le_rfl (Or.inl rfl)]
  simp [List.range_succ, loIntended]

end C3.Devices
