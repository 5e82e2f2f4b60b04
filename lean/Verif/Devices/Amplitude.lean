import Verif.Devices.Drive
import Mathlib.Analysis.SpecialFunctions.Sqrt

/-!
# C231: amplitudes reported by the AWG

`AWG.create_IQ`, `get_average_amp`, `get_I`, `get_Q` and `log_shapes` (c3/generator/devices.py:1159-1229), and the second
answer of `Instruction.get_awg_signal` (c3/signal/gates.py:342-353, 365, 370).
-/

namespace C3.Devices.Amplitude

open Timing

/-! ## Model -/

/-- One call of `create_IQ`: the channel, its components with their timings, and the samples of the instruction. -/
structure Play where
  chan : String
  comps : List AComp
  ts : List ℝ

/-- The AWG between the calls: `self.signal` (in-phase and quadrature of each channel) and `self.amp_tot`, which is missing
at first. -/
structure State where
  signal : String → Option (List ℝ × List ℝ)
  ampTot : Option ℝ

/-- A new AWG, c3/generator/devices.py:1144-1155. -/
def fresh : State := ⟨fun _ => none, none⟩

/-- c3/signal/gates.py:342-353, 365: the root of the added squares of the amplitudes of all envelopes. The squares are
added as complex numbers with imaginary part zero and cast back. -/
noncomputable def norm (comps : List AComp) : ℝ :=
  Real.sqrt (comps.foldl (fun a c => match c.env with | none => a | some e => a + ((e.amp : ℂ) ^ 2).re) 0)

/-- c3/generator/devices.py:1186-1197 `create_IQ`. -/
noncomputable def createIQ (s : State) (p : Play) : State :=
  ⟨Function.update s.signal p.chan (some (awgSignal p.comps p.ts)), some (norm p.comps)⟩

/-- What can go wrong. -/
inductive Err
  | key (line : String)
  | attr
  deriving DecidableEq

/-- c3/generator/devices.py:1215-1216 `get_I`. -/
def getI (s : State) (line : String) : Except Err (List ℝ) :=
  match s.signal line with
  | none => .error (.key line)
  | some w => .ok w.1

/-- c3/generator/devices.py:1218-1219 `get_Q`. -/
def getQ (s : State) (line : String) : Except Err (List ℝ) :=
  match s.signal line with
  | none => .error (.key line)
  | some w => .ok w.2

/-- c3/generator/devices.py:1199-1213 `get_average_amp`: mean and sum. The mean of no samples, NaN in the code, is 0 here;
`create_ts` never returns an empty list. -/
noncomputable def averageAmp (s : State) (line : String) : Except Err (ℝ × ℝ) :=
  match getI s line, getQ s line with
  | .error e, _ => .error e
  | _, .error e => .error e
  | .ok i, .ok q =>
    let amp := List.zipWith (fun a b => Real.sqrt (|a| ^ 2 + |b| ^ 2)) i q
    .ok (amp.sum / amp.length, amp.sum)

open scoped Classical in
/-- c3/generator/devices.py:1221-1229 `log_shapes`, whether it writes a line: `self.signal[key]` is a dictionary, which has
no `numpy`. Without signals it writes the empty dictionary. (The file is taken to be writable.) -/
noncomputable def logShapes (s : State) : Except Err String :=
  if ∃ k, s.signal k ≠ none then .error .attr else .ok "{}\n"

/-! ## Specification -/

/-- What the AWG last played on a line. -/
def lastOn (line : String) : List Play → Option Play
  | [] => none
  | p :: ps => match lastOn line ps with
    | some q => some q
    | none => if p.chan = line then some p else none

/-- The complex waveform at time `t`: the sum of the pulses, each inside its window. -/
noncomputable def wave (p : Play) (t : ℝ) : ℂ :=
  (p.comps.map fun c => compAt (p.ts.getD 1 0 - p.ts.getD 0 0) c t).sum

/-! ## Theorems -/

theorem run_signal (ps : List Play) (s : State) (line : String) :
    (ps.foldl createIQ s).signal line =
      match lastOn line ps with
      | some p => some (awgSignal p.comps p.ts)
      | none => s.signal line := by
  induction ps generalizing s with
  | nil => rfl
  | cons p ps ih =>
    rw [List.foldl_cons, ih, lastOn]
    cases lastOn line ps with
    | some q => rfl
    | none =>
      by_cases h : p.chan = line
      · subst h; simp [createIQ]
      · have h' : line ≠ p.chan := fun e => h e.symm
        simp [createIQ, h, h']

theorem sum_re (l : List ℂ) : l.sum.re = (l.map Complex.re).sum := by
  induction l with
  | nil => rfl
  | cons a l ih => simp [ih]

theorem sum_im (l : List ℂ) : l.sum.im = (l.map Complex.im).sum := by
  induction l with
  | nil => rfl
  | cons a l ih => simp [ih]

theorem awgSignal_wave (p : Play) (h2 : 2 ≤ p.ts.length) :
    awgSignal p.comps p.ts = (p.ts.map fun t => (wave p t).re, p.ts.map fun t => (wave p t).im) := by
  rw [C55_sum_of_components _ _ h2]
  simp only [wave, sum_re, sum_im, List.map_map]
  rfl

theorem zip_norm (f : ℝ → ℂ) (ts : List ℝ) :
    List.zipWith (fun a b => Real.sqrt (|a| ^ 2 + |b| ^ 2)) (ts.map fun t => (f t).re) (ts.map fun t => (f t).im) =
      ts.map fun t => ‖f t‖ := by
  apply List.ext_getElem
  · simp
  · intro n h1 h2
    simp only [List.getElem_zipWith, List.getElem_map, sq_abs]
    rw [Complex.norm_def, Complex.normSq_apply]
    congr 1
    ring

/-- **C231**: after any calls, the reported sum is that of the absolute values of the complex waveform last played on the
line, the mean is the sum divided by the number of samples, and a line never played raises. -/
theorem C231_average_partial (ps : List Play) (line : String) (h2 : ∀ p ∈ ps, 2 ≤ p.ts.length) :
    averageAmp (ps.foldl createIQ fresh) line =
      match lastOn line ps with
      | none => .error (.key line)
      | some p => .ok ((p.ts.map fun t => ‖wave p t‖).sum / p.ts.length, (p.ts.map fun t => ‖wave p t‖).sum) := by
  have hmem : ∀ p, lastOn line ps = some p → p ∈ ps := by
    clear h2
    induction ps with
    | nil => simp [lastOn]
    | cons q qs ih =>
      intro p hp
      rw [lastOn] at hp
      cases hl : lastOn line qs with
      | some r =>
        rw [hl] at hp
        simp only [Option.some.injEq] at hp
        exact List.mem_cons_of_mem _ (ih p (by rw [hl, hp]))
      | none =>
        rw [hl] at hp
        simp only at hp
        split at hp
        · simp only [Option.some.injEq] at hp
          simp [hp]
        · cases hp
  have hrun := run_signal ps fresh line
  cases hl : lastOn line ps with
  | none =>
    rw [hl] at hrun
    have : (ps.foldl createIQ fresh).signal line = none := hrun
    simp [averageAmp, getI, this]
  | some p =>
    rw [hl] at hrun
    simp only at hrun
    rw [awgSignal_wave p (h2 p (hmem p hl))] at hrun
    simp only [averageAmp, getI, getQ, hrun]
    rw [zip_norm]
    simp

/-- **C231**: the total amplitude is the root of the added squares of the amplitudes of the pulses played last, on whatever
channel that was; carriers do not count. -/
theorem C231_total (ps : List Play) (p : Play) :
    ((ps ++ [p]).foldl createIQ fresh).ampTot = some (Real.sqrt (((p.comps.filterMap AComp.env).map fun e => e.amp ^ 2).sum)) ∧
    fresh.ampTot = none := by
  refine ⟨?_, rfl⟩
  rw [List.foldl_append]
  simp only [List.foldl_cons, List.foldl_nil, createIQ, norm]
  congr 2
  have key : ∀ (l : List AComp) (a : ℝ), l.foldl (fun a c => match c.env with
      | none => a | some e => a + ((e.amp : ℂ) ^ 2).re) a = a + ((l.filterMap AComp.env).map fun e => e.amp ^ 2).sum := by
    intro l
    induction l with
    | nil => simp
    | cons c l ih =>
      intro a
      rw [List.foldl_cons, ih]
      cases hc : c.env with
      | none => simp [hc]
      | some e =>
        have : ((e.amp : ℂ) ^ 2).re = e.amp ^ 2 := by rw [← Complex.ofReal_pow, Complex.ofReal_re]
        simp [hc, this, add_assoc]
  rw [key, zero_add]

/-- **C231**: of a lone pulse the reported amplitude does not depend on its angle and its frequency offset, and is
proportional to its amplitude. -/
theorem C231_lone (chan : String) (ts : List ℝ) (t0 t1 : ℝ) (e : Env) (t : ℝ) :
    ‖wave ⟨chan, [⟨t0, t1, some e⟩], ts⟩ t‖ =
      |e.amp| * (maskAt (ts.getD 1 0 - ts.getD 0 0) (min e.tFinal (t1 - t0)) (t - t0) * ‖e.shape (t - t0)‖) := by
  have hm : 0 ≤ maskAt (ts.getD 1 0 - ts.getD 0 0) (min e.tFinal (t1 - t0)) (t - t0) :=
    mul_nonneg (sigmoid_nonneg _) (sigmoid_nonneg _)
  simp only [wave, List.map_cons, List.map_nil, List.sum_cons, List.sum_nil, add_zero, compAt]
  rw [norm_mul, norm_mul, norm_mul, mul_comm Complex.I, Complex.norm_exp_ofReal_mul_I, mul_one, Complex.norm_real,
    Complex.norm_real, Real.norm_eq_abs, Real.norm_eq_abs, abs_of_nonneg hm]

/-- **C231**: with shapes of height at most one the mean is at most the sum of the absolute amplitudes. -/
theorem C231_bound (p : Play) (h0 : p.ts ≠ [])
    (hs : ∀ c ∈ p.comps, ∀ e, c.env = some e → ∀ t, ‖e.shape t‖ ≤ 1) :
    (p.ts.map fun t => ‖wave p t‖).sum / p.ts.length ≤ ((p.comps.filterMap AComp.env).map fun e => |e.amp|).sum := by
  have hlen : (0 : ℝ) < p.ts.length := by
    exact_mod_cast List.length_pos_iff.2 h0
  have hpt : ∀ t, ‖wave p t‖ ≤ ((p.comps.filterMap AComp.env).map fun e => |e.amp|).sum := by
    intro t
    unfold wave
    generalize p.ts.getD 1 0 - p.ts.getD 0 0 = dt
    revert hs
    induction p.comps with
    | nil => simp
    | cons c l ih =>
      intro hs
      have hl := ih fun c hc => hs c (List.mem_cons_of_mem _ hc)
      rw [List.map_cons, List.sum_cons]
      cases hc : c.env with
      | none =>
        have h0 : compAt dt c t = 0 := by simp [compAt, hc]
        rw [h0, zero_add]
        simpa [hc] using hl
      | some e =>
        have h1 : ‖compAt dt c t‖ ≤ |e.amp| := by
          have hm0 : 0 ≤ maskAt dt (min e.tFinal (c.tEnd - c.tStart)) (t - c.tStart) :=
            mul_nonneg (sigmoid_nonneg _) (sigmoid_nonneg _)
          have hm1 : maskAt dt (min e.tFinal (c.tEnd - c.tStart)) (t - c.tStart) ≤ 1 :=
            mul_le_one₀ (sigmoid_le_one _) (sigmoid_nonneg _) (sigmoid_le_one _)
          simp only [compAt, hc]
          rw [norm_mul, norm_mul, norm_mul, mul_comm Complex.I, Complex.norm_exp_ofReal_mul_I, mul_one,
            Complex.norm_real, Complex.norm_real, Real.norm_eq_abs, Real.norm_eq_abs, abs_of_nonneg hm0]
          exact mul_le_of_le_one_right (abs_nonneg _)
            (mul_le_one₀ hm1 (norm_nonneg _) (hs c (by simp) e hc _))
        refine (norm_add_le _ _).trans ?_
        simp only [List.filterMap_cons, hc, List.map_cons, List.sum_cons]
        exact add_le_add h1 hl
  rw [div_le_iff₀ hlen, mul_comm]
  generalize p.ts = ts
  induction ts with
  | nil => simp
  | cons t ts ih =>
    simp only [List.map_cons, List.sum_cons, List.length_cons]
    push_cast
    have := hpt t
    linarith

/-- **C231**, what fails: as soon as anything was played, `log_shapes` raises. -/
theorem C231_false_log (ps : List Play) :
    (ps ≠ [] → logShapes (ps.foldl createIQ fresh) = .error .attr) ∧ logShapes fresh = .ok "{}\n" := by
  constructor
  · intro h
    obtain ⟨qs, p, rfl⟩ : ∃ qs p, ps = qs ++ [p] := ⟨_, _, (List.dropLast_append_getLast h).symm⟩
    refine if_pos ⟨p.chan, ?_⟩
    rw [List.foldl_append]
    simp [createIQ]
  · refine if_neg ?_
    simp [fresh]

/-- A pulse of constant shape. -/
noncomputable def exPlay (chan : String) (a phi : ℝ) : Play :=
  ⟨chan, [⟨0, 4, some ⟨a, phi, 0, 4, fun _ => 1⟩⟩], [1 / 2, 3 / 2]⟩

/-- **C231**, what fails: the amplitude of a line the last instruction did not drive is still that of an earlier one. -/
theorem C231_false_stale : ∃ (p q : Play) (x : ℝ × ℝ), p.chan ≠ q.chan ∧ 0 < x.1 ∧
    averageAmp ([p, q].foldl createIQ fresh) p.chan = .ok x ∧
    averageAmp ([p, q].foldl createIQ fresh) p.chan = averageAmp ([p].foldl createIQ fresh) p.chan := by
  have h1 := C231_average_partial [exPlay "d1" 1 0, exPlay "d2" 1 0] "d1" (by
    intro p hp
    rcases List.mem_cons.1 hp with rfl | hp
    · simp [exPlay]
    · rw [List.mem_singleton.1 hp]; simp [exPlay])
  have h2 := C231_average_partial [exPlay "d1" 1 0] "d1" (by
    intro p hp
    rw [List.mem_singleton.1 hp]; simp [exPlay])
  have l1 : lastOn "d1" [exPlay "d1" 1 0, exPlay "d2" 1 0] = some (exPlay "d1" 1 0) := by simp [lastOn, exPlay]
  have l2 : lastOn "d1" [exPlay "d1" 1 0] = some (exPlay "d1" 1 0) := by simp [lastOn, exPlay]
  rw [l1] at h1
  rw [l2] at h2
  refine ⟨exPlay "d1" 1 0, exPlay "d2" 1 0, _, by simp [exPlay], ?_, h1, h1.trans h2.symm⟩
  have hp : ∀ t, 0 < ‖wave (exPlay "d1" 1 0) t‖ := by
    intro t
    rw [exPlay, C231_lone]
    have : 0 < maskAt (([1 / 2, 3 / 2] : List ℝ).getD 1 0 - ([1 / 2, 3 / 2] : List ℝ).getD 0 0) (min 4 (4 - 0)) (t - 0) := by
      unfold maskAt sigmoid
      positivity
    simpa using this
  have e1 := hp (1 / 2)
  have e2 := hp (3 / 2)
  have : (exPlay "d1" 1 0).ts = [1 / 2, 3 / 2] := rfl
  rw [this]
  simp only [List.map_cons, List.map_nil, List.sum_cons, List.sum_nil, List.length_cons, List.length_nil]
  positivity

/-- Two pulses of opposite sign have no amplitude on average, but a total amplitude. -/
example : averageAmp ([⟨"d", [⟨0, 4, some ⟨1, 0, 0, 4, fun _ => 1⟩⟩, ⟨0, 4, some ⟨-1, 0, 0, 4, fun _ => 1⟩⟩],
      [1 / 2, 3 / 2]⟩].foldl createIQ fresh) "d" = .ok (0, 0) ∧
    norm [⟨0, 4, some ⟨1, 0, 0, 4, fun _ => 1⟩⟩, ⟨0, 4, some ⟨-1, 0, 0, 4, fun _ => 1⟩⟩] = Real.sqrt 2 := by
  constructor
  · rw [C231_average_partial _ _ (by intro p hp; rw [List.mem_singleton.1 hp]; simp)]
    simp [lastOn, wave, compAt]
  · simp only [norm, List.foldl_cons, List.foldl_nil]
    norm_num

end C3.Devices.Amplitude
