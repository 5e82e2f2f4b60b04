import Verif.Experiment.ResonantInfid
import Verif.Experiment.FrameFreq
import Verif.Fidelity.Sensitive
import Verif.Chain.Model

/-!
# C219: from the parameters of an instruction to the gate

The whole path of an instruction: waveform generator, converter, local oscillator, mixer and conversion to frequencies
(c3/generator/generator.py:172-229, c3/generator/devices.py), propagation (c3/libraries/propagation.py:259-341) and frame
rotation (c3/experiment.py:440-534), ended by the infidelity to an entry of the gate table. The models of the parts are
those of C44, C49, C55, C95, C141, C199, C215 and C61.

Simplified: no response function between converter and mixer; instructions start at time zero; real shapes; the
resolution of the simulation is a multiple of the one of the waveform generator.
-/

noncomputable section

namespace C3.Experiment.FromInstruction

open Matrix Set C3.Propagation C3.Hilbert C3.Fidelity C3.Experiment C3.Experiment.Compute C3.Experiment.EndToEnd
  C3.Experiment.Resonant C3.Experiment.ResonantInfid C3.Devices C3.Timing C3.Chain C3.Experiment.FrameFreq

/-! ## Model -/

/-- Parameters of one line: amplitude, angle in the xy-plane and shape of the envelope, frequency of the carrier, and the
factor of the conversion from volts. -/
structure LineSet where
  amp : ℝ
  xy : ℝ
  shape : ℝ → ℝ
  omega : ℝ
  v2hz : ℝ

/-- The devices of a line. -/
inductive Dev where
  | lo | awg | dac | mixer | v2hz
  deriving DecidableEq

/-- The chain of a line, with the sources of each device (as in test/conftest.py:343-357). -/
def chain : SigChain Dev where
  nodes := [.lo, .awg, .dac, .mixer, .v2hz]
  preds
    | .lo => []
    | .awg => []
    | .dac => [.awg]
    | .mixer => [.lo, .dac]
    | .v2hz => [.mixer]

/-- c3/generator/devices.py:306-351 `DigitalToAnalog.process` with sample times `ts`. -/
def dac (ts : List ℝ) (s : Sig) : Option Sig := do
  let i ← s.get "inphase"
  let q ← s.get "quadrature"
  pure [("ts", ts), ("inphase", dacNearest i ts.length), ("quadrature", dacNearest q ts.length)]

/-- The envelope of a line of an instruction of length `T`. -/
def envOf (T : ℝ) (d : LineSet) : FrameFreq.Env := ⟨"pulse", d.amp, d.xy, 0, T, d.shape⟩

/-- The `process` methods of the devices; `res` is the resolution of the simulation and `resA` that of the waveform
generator. A device whose source failed fails. -/
def process (d : LineSet) (T res resA : ℝ) : Dev → List (Option Sig) → Option Sig
  | .lo, _ => (createTs res 0 T true).map (loClean d.omega)
  | .awg, _ => (createTs resA 0 T true).map (awgSig (played T [envOf T d] ++ [⟨0, T, none⟩]))
  | .dac, [some s] => (createTs res 0 T true).bind fun ts => dac ts s
  | .mixer, [some a, some b] => mixer a b
  | .v2hz, [some s] => voltsToHertz d.v2hz s
  | _, _ => none

/-- c3/generator/generator.py:172-229 `generate_signals`, one channel. -/
def lineSignal (d : LineSet) (T res resA : ℝ) : Option Sig :=
  match topo chain with
  | .error _ => none
  | .ok order => (generate chain.preds (process d T res resA) order).join

/-- c3/experiment.py:470-501, c3/libraries/propagation.py:282-310: what is handed to the propagation. Channels are in the
order of the lines. -/
def instrPulse (lines : ℕ) (line : ℕ → String) (d : ℕ → LineSet) (T res resA : ℝ) : Option Pulse := do
  let ts ← createTs res 0 T true
  let vals ← (List.range lines).mapM fun k => (lineSignal (d k) T res resA).bind (Sig.get · "values")
  let r ← (freqs ((List.range lines).map fun k => (line k, lineOf [envOf T (d k)] (d k).omega 0))).toOption
  pure ⟨(List.range lines).map line, (List.range ts.length).map fun i => vals.map (·.getD i 0),
    ts.getD 1 0 - ts.getD 0 0, r.map fun x => (x.1, x.2.1), fun n => (r.lookup n).map Prod.snd, T⟩

/-! ## The signal of a line -/

theorem chain_order : topo chain = .ok [.awg, .dac, .lo, .mixer, .v2hz] := by decide

theorem times (T : ℝ) (hT : 0 < T) (N : ℕ) (hN : 0 < N) :
    createTs (N / T) 0 T true = some ((List.range N).map fun i : ℕ => ((i : ℝ) + 1 / 2) * (T / N)) := by
  have hN' : (0 : ℝ) < N := by exact_mod_cast hN
  have h := C49_centred (N / T) 0 (by positivity) N hN
  rw [show (0 : ℝ) + N / (N / T) = T by field_simp; ring] at h
  rw [h]
  congr 1
  refine List.map_congr_left fun k _ => ?_
  rw [one_div_div]
  ring

theorem getD_map_range (f : ℕ → ℝ) (N i : ℕ) (hi : i < N) : ((List.range N).map f).getD i 0 = f i := by
  rw [List.getD_eq_getElem _ _ (by simpa using hi)]
  simp

theorem step (T : ℝ) (N : ℕ) (hN : 2 ≤ N) :
    ((List.range N).map fun i : ℕ => ((i : ℝ) + 1 / 2) * (T / N)).getD 1 0 -
      ((List.range N).map fun i : ℕ => ((i : ℝ) + 1 / 2) * (T / N)).getD 0 0 = T / N := by
  rw [getD_map_range _ _ _ (by omega), getD_map_range _ _ _ (by omega)]
  push_cast
  ring

/-- The value of a line at sample `i`: the envelope is that of the slice of the waveform generator. -/
def lineValue (d : LineSet) (T : ℝ) (M K i : ℕ) : ℝ :=
  let τ := (((i / K : ℕ) : ℝ) + 1 / 2) * (T / M)
  d.amp * (maskAt (T / M) T τ * d.shape τ) * Real.cos (d.omega * (((i : ℝ) + 1 / 2) * (T / (K * M : ℕ))) - d.xy) * d.v2hz

theorem dac_map (f : ℕ → ℝ) (M K : ℕ) (hK : 0 < K) :
    dacNearest ((List.range M).map f) (K * M) = (List.range (K * M)).map fun i => f (i / K) := by
  unfold dacNearest
  refine List.map_congr_left fun i hi => ?_
  rw [List.mem_range] at hi
  rw [List.length_map, List.length_range, nearestIndex_mul M K i hK hi]
  refine getD_map_range f M _ ?_
  rw [Nat.div_lt_iff_lt_mul hK, mul_comm]
  exact hi

theorem lineSignal_eq (d : LineSet) (T : ℝ) (hT : 0 < T) (M K : ℕ) (hM : 2 ≤ M) (hK : 0 < K) :
    lineSignal d T ((K * M : ℕ) / T) (M / T) = some [("values", (List.range (K * M)).map (lineValue d T M K)),
      ("ts", (List.range (K * M)).map fun i : ℕ => ((i : ℝ) + 1 / 2) * (T / (K * M : ℕ)))] := by
  have hN : 0 < K * M := Nat.mul_pos hK (by omega)
  have hawg : awgSig (played T [envOf T d] ++ [⟨0, T, none⟩]) ((List.range M).map fun i : ℕ => ((i : ℝ) + 1 / 2) * (T / M)) =
      [("inphase", (List.range M).map fun j : ℕ => d.amp * (maskAt (T / M) T (((j : ℝ) + 1 / 2) * (T / M)) *
          d.shape (((j : ℝ) + 1 / 2) * (T / M))) * Real.cos d.xy),
        ("quadrature", (List.range M).map fun j : ℕ => d.amp * (maskAt (T / M) T (((j : ℝ) + 1 / 2) * (T / M)) *
          d.shape (((j : ℝ) + 1 / 2) * (T / M))) * Real.sin d.xy),
        ("ts", (List.range M).map fun i : ℕ => ((i : ℝ) + 1 / 2) * (T / M))] := by
    unfold awgSig
    rw [C55_sum_of_components _ _ (by simpa using hM), step T M hM]
    simp only [List.map_map]
    have hre : ∀ (x : ℝ), ((d.amp : ℂ) * ((maskAt (T / M) T x : ℂ) * (d.shape x : ℂ)) *
        Complex.exp (Complex.I * (d.xy : ℂ))).re = d.amp * (maskAt (T / M) T x * d.shape x) * Real.cos d.xy := by
      intro x
      rw [← Complex.ofReal_mul, ← Complex.ofReal_mul, Complex.re_ofReal_mul, mul_comm Complex.I, Complex.exp_ofReal_mul_I_re]
    have him : ∀ (x : ℝ), ((d.amp : ℂ) * ((maskAt (T / M) T x : ℂ) * (d.shape x : ℂ)) *
        Complex.exp (Complex.I * (d.xy : ℂ))).im = d.amp * (maskAt (T / M) T x * d.shape x) * Real.sin d.xy := by
      intro x
      rw [← Complex.ofReal_mul, ← Complex.ofReal_mul, Complex.im_ofReal_mul, mul_comm Complex.I, Complex.exp_ofReal_mul_I_im]
    have e1 : ∀ x : ℝ, ((played T [envOf T d] ++ [(⟨0, T, none⟩ : AComp)]).map fun c => (compAt (T / M) c x).re).sum =
        d.amp * (maskAt (T / M) T x * d.shape x) * Real.cos d.xy := by
      intro x
      rw [← hre]
      simp [played, envOf, pulse, compAt]
    have e2 : ∀ x : ℝ, ((played T [envOf T d] ++ [(⟨0, T, none⟩ : AComp)]).map fun c => (compAt (T / M) c x).im).sum =
        d.amp * (maskAt (T / M) T x * d.shape x) * Real.sin d.xy := by
      intro x
      rw [← him]
      simp [played, envOf, pulse, compAt]
    simp only [Function.comp_def, e1, e2]
  have hdac : dac ((List.range (K * M)).map fun i : ℕ => ((i : ℝ) + 1 / 2) * (T / (K * M : ℕ)))
      [("inphase", (List.range M).map fun j : ℕ => d.amp * (maskAt (T / M) T (((j : ℝ) + 1 / 2) * (T / M)) *
          d.shape (((j : ℝ) + 1 / 2) * (T / M))) * Real.cos d.xy),
        ("quadrature", (List.range M).map fun j : ℕ => d.amp * (maskAt (T / M) T (((j : ℝ) + 1 / 2) * (T / M)) *
          d.shape (((j : ℝ) + 1 / 2) * (T / M))) * Real.sin d.xy),
        ("ts", (List.range M).map fun i : ℕ => ((i : ℝ) + 1 / 2) * (T / M))] =
      some [("ts", (List.range (K * M)).map fun i : ℕ => ((i : ℝ) + 1 / 2) * (T / (K * M : ℕ))),
        ("inphase", (List.range (K * M)).map fun i : ℕ => d.amp * (maskAt (T / M) T ((((i / K : ℕ) : ℝ) + 1 / 2) * (T / M)) *
          d.shape ((((i / K : ℕ) : ℝ) + 1 / 2) * (T / M))) * Real.cos d.xy),
        ("quadrature", (List.range (K * M)).map fun i : ℕ => d.amp * (maskAt (T / M) T ((((i / K : ℕ) : ℝ) + 1 / 2) * (T / M)) *
          d.shape ((((i / K : ℕ) : ℝ) + 1 / 2) * (T / M))) * Real.sin d.xy)] := by
    unfold dac
    simp only [Sig.get, List.find?_cons, decide_true, Option.map_some, Option.bind_eq_bind, Option.bind_some,
      List.length_map, List.length_range]
    simp [dac_map _ M K hK]
  have hmix : mixer (loClean d.omega ((List.range (K * M)).map fun i : ℕ => ((i : ℝ) + 1 / 2) * (T / (K * M : ℕ))))
      [("ts", (List.range (K * M)).map fun i : ℕ => ((i : ℝ) + 1 / 2) * (T / (K * M : ℕ))),
        ("inphase", (List.range (K * M)).map fun i : ℕ => d.amp * (maskAt (T / M) T ((((i / K : ℕ) : ℝ) + 1 / 2) * (T / M)) *
          d.shape ((((i / K : ℕ) : ℝ) + 1 / 2) * (T / M))) * Real.cos d.xy),
        ("quadrature", (List.range (K * M)).map fun i : ℕ => d.amp * (maskAt (T / M) T ((((i / K : ℕ) : ℝ) + 1 / 2) * (T / M)) *
          d.shape ((((i / K : ℕ) : ℝ) + 1 / 2) * (T / M))) * Real.sin d.xy)] =
      some [("values", (List.range (K * M)).map fun i : ℕ => Real.cos (d.omega * (((i : ℝ) + 1 / 2) * (T / (K * M : ℕ)))) *
          (d.amp * (maskAt (T / M) T ((((i / K : ℕ) : ℝ) + 1 / 2) * (T / M)) *
          d.shape ((((i / K : ℕ) : ℝ) + 1 / 2) * (T / M))) * Real.cos d.xy) +
          Real.sin (d.omega * (((i : ℝ) + 1 / 2) * (T / (K * M : ℕ)))) *
          (d.amp * (maskAt (T / M) T ((((i / K : ℕ) : ℝ) + 1 / 2) * (T / M)) *
          d.shape ((((i / K : ℕ) : ℝ) + 1 / 2) * (T / M))) * Real.sin d.xy)),
        ("ts", (List.range (K * M)).map fun i : ℕ => ((i : ℝ) + 1 / 2) * (T / (K * M : ℕ)))] := by
    have hz : ∀ (op : ℝ → ℝ → ℝ) (a b : ℕ → ℝ), List.zipWith op ((List.range (K * M)).map a) ((List.range (K * M)).map b) =
        (List.range (K * M)).map fun i => op (a i) (b i) := by
      intro op a b
      apply List.ext_getElem <;> simp
    simp [mixer, loClean, Sig.get, elementwise, hz, Function.comp_def]
  unfold lineSignal
  rw [chain_order]
  simp only [generate, runOrder, collect, chain, process, times T hT M (by omega), times T hT (K * M) hN, Option.map_some,
    Function.update_self, Option.bind_some, hawg, hdac, ne_eq,
    reduceCtorEq, not_false_eq_true, Function.update_of_ne, hmix]
  have hv : ∀ (v t : List ℝ), voltsToHertz d.v2hz [("values", v), ("ts", t)] = some [("values", v.map (· * d.v2hz)), ("ts", t)] :=
    fun v t => C52_volts_to_hertz _ _ v t (by simp [Sig.get]) (by simp [Sig.get])
  rw [hv, Option.join_some]
  congr 3
  rw [List.map_map]
  refine List.map_congr_left fun i _ => ?_
  simp only [Function.comp, lineValue]
  rw [Real.cos_sub]
  ring

theorem mapM_some {α β : Type} (f : α → Option β) (g : α → β) (l : List α) (h : ∀ x ∈ l, f x = some (g x)) :
    l.mapM f = some (l.map g) := by
  induction l with
  | nil => rfl
  | cons a l ih =>
    rw [List.mapM_cons, h a (by simp), ih fun x hx => h x (by simp [hx])]
    rfl

theorem lineFreq_eq (T : ℝ) (d : LineSet) : lineFreq (lineOf [envOf T d] d.omega 0) = .ok (d.omega, 0) := by
  simp [lineFreq, lineOf, envOf, FrameFreq.offset, envCtrl, carrierCtrl, List.lookup]

theorem freqs_eq (line : ℕ → String) (d : ℕ → LineSet) (T : ℝ) (l : List ℕ) :
    freqs (l.map fun k => (line k, lineOf [envOf T (d k)] (d k).omega 0)) =
      .ok (l.map fun k => (line k, (d k).omega, 0)) := by
  induction l with
  | nil => rfl
  | cons a l ih => simp only [List.map_cons, freqs, lineFreq_eq, ih]

theorem lookup_zero (line : ℕ → String) (f : ℕ → ℝ) (l : List ℕ) (k : ℕ) (hk : k ∈ l) :
    ((l.map fun k => (line k, f k, (0 : ℝ))).lookup (line k)).map Prod.snd = some 0 := by
  induction l with
  | nil => simp at hk
  | cons a l ih =>
    rw [List.map_cons, List.lookup_cons]
    by_cases h : line k = line a
    · simp [h]
    · have h2 : (line k == line a) = false := by simpa using h
      simp only [h2]
      exact ih ((List.mem_cons.1 hk).resolve_left fun e => h (by rw [e]))

/-- The signals of an instruction. -/
theorem instrPulse_eq (L : ℕ) (line : ℕ → String) (d : ℕ → LineSet) (T : ℝ) (hT : 0 < T) (M K : ℕ) (hM : 2 ≤ M) (hK : 0 < K) :
    ∃ sh, (∀ k < L, sh (line k) = some 0) ∧ instrPulse L line d T ((K * M : ℕ) / T) (M / T) =
      some ⟨(List.range L).map line, (List.range (K * M)).map fun i => (List.range L).map fun k => lineValue (d k) T M K i,
        T / (K * M : ℕ), (List.range L).map fun k => (line k, (d k).omega), sh, T⟩ := by
  have hN : 2 ≤ K * M := hM.trans (Nat.le_mul_of_pos_left M hK)
  refine ⟨fun n => (((List.range L).map fun k => (line k, (d k).omega, (0 : ℝ))).lookup n).map Prod.snd,
    fun k hk => lookup_zero line _ _ k (List.mem_range.2 hk), ?_⟩
  have hv := mapM_some (fun k => (lineSignal (d k) T ((K * M : ℕ) / T) (M / T)).bind (Sig.get · "values"))
    (fun k => (List.range (K * M)).map (lineValue (d k) T M K)) (List.range L)
    (by
      intro k _
      rw [lineSignal_eq (d k) T hT M K hM hK]
      simp [Sig.get])
  unfold instrPulse
  rw [times T hT (K * M) (by omega)]
  simp only [Option.bind_eq_bind, Option.bind_some, hv, freqs_eq, Except.toOption, step T (K * M) hN, List.length_map,
    List.length_range, Option.pure_def, List.map_map, Function.comp_def]
  congr 2
  refine List.map_congr_left fun i hi => ?_
  refine List.map_congr_left fun k _ => ?_
  exact getD_map_range _ _ _ (List.mem_range.1 hi)

/-! ## Distance to the ideal signals -/

/-- The part of a pulse that the mask of the envelope removes at its end (C96). -/
def lost (M : ℕ) : ℝ := if M ≤ 499 then 0 else 0.001 + 0.501 / M

/-- Distance of the played envelope from the smooth one, as a mean over the pulse: the slices of the waveform generator and
the mask. -/
def playError (T a a' : ℝ) (M : ℕ) : ℝ := a' * (T / M / 2) + a * (2 * Real.exp (-1000) + lost M)

theorem mask_range (dt T t : ℝ) : 0 ≤ maskAt dt T t ∧ maskAt dt T t ≤ 1 := by
  unfold maskAt
  refine ⟨mul_nonneg (sigmoid_nonneg _) (sigmoid_nonneg _), ?_⟩
  calc _ ≤ 1 * (1 : ℝ) := mul_le_mul (sigmoid_le_one _) (sigmoid_le_one _) (sigmoid_nonneg _) (by norm_num)
    _ = 1 := one_mul 1

/-- The mean loss by the mask. -/
theorem mask_loss (T : ℝ) (hT : 0 < T) (M K : ℕ) (hM : 2 ≤ M) (hK : 0 < K) :
    ∑ i ∈ Finset.range (K * M), (1 - maskAt (T / M) T ((((i / K : ℕ) : ℝ) + 1 / 2) * (T / M))) ≤
      (K * M : ℕ) * (2 * Real.exp (-1000) + lost M) := by
  have hM' : (0 : ℝ) < M := by exact_mod_cast (by omega : 0 < M)
  have hK' : (0 : ℝ) < K := by exact_mod_cast hK
  have hdt : 0 < T / M := by positivity
  set P : ℕ → Prop := fun i => ((i / K : ℕ) : ℝ) + 1 / 2 ≤ 0.999 * M - 1 / 1000 with hP
  have hgood : ∀ i, P i → 1 - maskAt (T / M) T ((((i / K : ℕ) : ℝ) + 1 / 2) * (T / M)) ≤ 2 * Real.exp (-1000) := by
    intro i hi
    have h := (C96_passes_inside_partial (T / M) T ((((i / K : ℕ) : ℝ) + 1 / 2) * (T / M)) hdt (by positivity) (by
      have := mul_le_mul_of_nonneg_right hi hdt.le
      have e : (0.999 * (M : ℝ) - 1 / 1000) * (T / M) = 0.999 * T - T / M / 1000 := by
        field_simp
      rw [e] at this
      exact this)).1
    linarith
  classical
  have hbad : (((Finset.range (K * M)).filter fun i => ¬ P i).card : ℝ) ≤ (K * M : ℕ) * lost M := by
    unfold lost
    by_cases h499 : M ≤ 499
    · rw [if_pos h499, mul_zero]
      have : (Finset.range (K * M)).filter (fun i => ¬ P i) = ∅ := by
        rw [Finset.filter_eq_empty_iff]
        intro i hi
        rw [not_not, hP]
        have h1 : i / K + 1 ≤ M := by
          have : i / K < M := by
            rw [Nat.div_lt_iff_lt_mul hK, mul_comm]
            exact Finset.mem_range.1 hi
          omega
        have h1' : ((i / K : ℕ) : ℝ) + 1 ≤ M := by exact_mod_cast h1
        have h2 : (M : ℝ) ≤ 499 := by exact_mod_cast h499
        norm_num
        linarith
      rw [this]
      simp
    · rw [if_neg h499]
      have hM499 : (500 : ℝ) ≤ M := by exact_mod_cast (by omega : 500 ≤ M)
      set x : ℝ := K * (0.999 * M - 0.501) with hx
      have hx0 : 0 ≤ x := by
        rw [hx]
        refine mul_nonneg hK'.le ?_
        norm_num
        linarith
      have hsub : (Finset.range (K * M)).filter (fun i => ¬ P i) ⊆ Finset.Ico (⌊x⌋₊ + 1) (K * M) := by
        intro i hi
        rw [Finset.mem_filter, hP, not_le, Finset.mem_range] at hi
        rw [Finset.mem_Ico]
        refine ⟨?_, hi.1⟩
        rw [Nat.succ_le_iff, Nat.floor_lt hx0]
        have h1 : ((i / K : ℕ) : ℝ) * K ≤ i := by exact_mod_cast Nat.div_mul_le_self i K
        have h2 : 0.999 * (M : ℝ) - 0.501 < ((i / K : ℕ) : ℝ) := by
          have := hi.2
          norm_num at this ⊢
          linarith
        rw [hx]
        nlinarith
      have hcard := Finset.card_le_card hsub
      rw [Nat.card_Ico] at hcard
      have h3 : ((K * M - (⌊x⌋₊ + 1) : ℕ) : ℝ) ≤ K * M - x := by
        have hfl : x < ⌊x⌋₊ + 1 := Nat.lt_floor_add_one x
        by_cases hle : ⌊x⌋₊ + 1 ≤ K * M
        · rw [Nat.cast_sub hle]
          push_cast
          linarith
        · rw [Nat.sub_eq_zero_of_le (by omega)]
          have : x ≤ K * M := by
            rw [hx]
            refine mul_le_mul_of_nonneg_left ?_ hK'.le
            norm_num
            linarith
          push_cast
          linarith
      have h4 : (((Finset.range (K * M)).filter fun i => ¬ P i).card : ℝ) ≤ K * M - x := by
        refine le_trans ?_ h3
        exact_mod_cast hcard
      refine h4.trans (le_of_eq ?_)
      rw [hx]
      push_cast
      field_simp
      ring
  have hterm : ∀ i ∈ Finset.range (K * M), 1 - maskAt (T / M) T ((((i / K : ℕ) : ℝ) + 1 / 2) * (T / M)) ≤
      2 * Real.exp (-1000) + if ¬ P i then 1 else 0 := by
    intro i _
    by_cases hi : P i
    · rw [if_neg (not_not.2 hi), add_zero]
      exact hgood i hi
    · rw [if_pos hi]
      have := (mask_range (T / M) T ((((i / K : ℕ) : ℝ) + 1 / 2) * (T / M))).1
      have := Real.exp_pos (-1000)
      linarith
  refine (Finset.sum_le_sum hterm).trans ?_
  rw [Finset.sum_add_distrib, Finset.sum_const, Finset.card_range, nsmul_eq_mul, Finset.sum_boole, mul_add]
  exact add_le_add le_rfl hbad

/-- The amplitude of a line in the Hamiltonian. -/
def LineSet.ampl (d : LineSet) (t : ℝ) : ℝ := d.v2hz * d.amp * d.shape t

/-- Error of one sample of a line. -/
theorem sample_error (d : LineSet) (A' : ℝ → ℝ) (T a a' : ℝ) (hT : 0 < T) (M K : ℕ) (hM : 2 ≤ M) (hK : 0 < K)
    (hA : ∀ t ∈ Icc 0 T, HasDerivWithinAt d.ampl (A' t) (Icc 0 T) t ∧ |d.ampl t| ≤ a ∧ |A' t| ≤ a')
    (i : ℕ) (hi : i < K * M) :
    |lineValue d T M K i - d.ampl (((i : ℝ) + 1 / 2) * (T / (K * M : ℕ))) *
        Real.cos (d.omega * (((i : ℝ) + 1 / 2) * (T / (K * M : ℕ))) - d.xy)| ≤
      a' * (T / M / 2) + a * (1 - maskAt (T / M) T ((((i / K : ℕ) : ℝ) + 1 / 2) * (T / M))) := by
  have hM' : (0 : ℝ) < M := by exact_mod_cast (by omega : 0 < M)
  have hK' : (0 : ℝ) < K := by exact_mod_cast hK
  have hdt : 0 < T / M := by positivity
  have hq : i / K < M := by
    rw [Nat.div_lt_iff_lt_mul hK, mul_comm]
    exact hi
  have hq' : ((i / K : ℕ) : ℝ) + 1 ≤ M := by exact_mod_cast hq
  have hMT : (M : ℝ) * (T / M) = T := by field_simp
  obtain ⟨b1, b2⟩ := C95_hold 0 (T / M) hdt K i hK
  simp only [zero_add] at b1 b2
  have e : T / M / K = T / (K * M : ℕ) := by
    push_cast
    field_simp
  rw [e] at b1 b2
  set t := ((i : ℝ) + 1 / 2) * (T / (K * M : ℕ)) with ht
  set τ := (((i / K : ℕ) : ℝ) + 1 / 2) * (T / M) with hτ
  have hq0 : (0 : ℝ) ≤ ((i / K : ℕ) : ℝ) := Nat.cast_nonneg _
  have hend : (((i / K : ℕ) : ℝ) + 1) * (T / M) ≤ T := by
    rw [← hMT]
    have := mul_le_mul_of_nonneg_right hq' hdt.le
    rwa [hMT] at this ⊢
  have htI : t ∈ Icc 0 T := ⟨le_trans (by positivity) b1.le, b2.le.trans hend⟩
  have hτI : τ ∈ Icc 0 T := ⟨by positivity, le_trans (by rw [hτ]; nlinarith) hend⟩
  have hclose : |τ - t| ≤ T / M / 2 := by
    rw [abs_le, hτ]
    constructor <;> nlinarith
  have hlip := (convex_Icc (0 : ℝ) T).norm_image_sub_le_of_norm_hasDerivWithin_le (fun x hx => (hA x hx).1)
      (fun x hx => (hA x hx).2.2) htI hτI
  simp only [Real.norm_eq_abs] at hlip
  have ha' : 0 ≤ a' := (abs_nonneg _).trans (hA t htI).2.2
  obtain ⟨m0, m1⟩ := mask_range (T / M) T τ
  have e2 : lineValue d T M K i - d.ampl t * Real.cos (d.omega * t - d.xy) =
      ((d.ampl τ - d.ampl t) - d.ampl τ * (1 - maskAt (T / M) T τ)) * Real.cos (d.omega * t - d.xy) := by
    unfold lineValue LineSet.ampl
    simp only [← hτ, ← ht]
    ring
  rw [e2, abs_mul]
  refine (mul_le_of_le_one_right (abs_nonneg _) (Real.abs_cos_le_one _)).trans ?_
  refine (abs_sub _ _).trans (add_le_add (hlip.trans (mul_le_mul_of_nonneg_left hclose ha')) ?_)
  rw [abs_mul, abs_of_nonneg (by linarith : 0 ≤ 1 - maskAt (T / M) T τ)]
  exact mul_le_mul_of_nonneg_right (hA τ hτI).2.1 (by linarith)

theorem line_error (d : LineSet) (A' : ℝ → ℝ) (T a a' : ℝ) (hT : 0 < T) (M K : ℕ) (hM : 2 ≤ M) (hK : 0 < K)
    (hA : ∀ t ∈ Icc 0 T, HasDerivWithinAt d.ampl (A' t) (Icc 0 T) t ∧ |d.ampl t| ≤ a ∧ |A' t| ≤ a') :
    ∑ i ∈ Finset.range (K * M), |lineValue d T M K i - d.ampl (((i : ℝ) + 1 / 2) * (T / (K * M : ℕ))) *
        Real.cos (d.omega * (((i : ℝ) + 1 / 2) * (T / (K * M : ℕ))) - d.xy)| ≤ (K * M : ℕ) * playError T a a' M := by
  have ha : 0 ≤ a := (abs_nonneg _).trans (hA 0 ⟨le_rfl, hT.le⟩).2.1
  refine (Finset.sum_le_sum fun i hi => sample_error d A' T a a' hT M K hM hK hA i (Finset.mem_range.1 hi)).trans ?_
  rw [Finset.sum_add_distrib, Finset.sum_const, Finset.card_range, nsmul_eq_mul, ← Finset.mul_sum, playError, mul_add]
  refine add_le_add le_rfl ?_
  have := mul_le_mul_of_nonneg_left (mask_loss T hT M K hM hK) ha
  calc _ ≤ _ := this
    _ = _ := by ring

open scoped Matrix.Norms.L2Operator in
/-- The propagators of two sets of signals, in terms of the entries of the control Hamiltonians. -/
theorem signals_entries {n : Type} [Fintype n] [DecidableEq n] (h0 : Matrix n n ℂ) (L N : ℕ) (X : ℕ → Matrix n n ℂ)
    (hh : h0.IsHermitian) (hX : ∀ k < L, (X k).IsHermitian) (dt : ℝ) (hdt : 0 ≤ dt) (f g : ℕ → ℕ → ℝ) (hN : 0 < N) (ε : ℝ)
    (hfg : ∀ k < L, ∑ i ∈ Finset.range N, |f k i - g k i| ≤ ε) (bs : ℕ) (hbs : 1 ≤ bs) :
    ∃ P P', pwc h0 ((List.range L).map X) dt ((List.range N).map fun i => (List.range L).map fun k => f k i) bs
        (Fold.stackFor N) = some P ∧
      pwc h0 ((List.range L).map X) dt ((List.range N).map fun i => (List.range L).map fun k => g k i) bs
        (Fold.stackFor N) = some P' ∧
      ∀ i j, ‖P i j - P' i j‖ ≤ dt * (ε * ∑ k ∈ Finset.range L, ∑ p, ∑ q, ‖X k p q‖) := by
  obtain ⟨P, P', h1, h2, h3⟩ := Sensitive.C213_signals h0 ((List.range L).map X) hh (by
      intro k hk
      obtain ⟨j, hj, rfl⟩ := List.mem_map.1 hk
      exact hX j (List.mem_range.1 hj)) dt hdt
    ((List.range N).map fun i => (List.range L).map fun k => f k i)
    ((List.range N).map fun i => (List.range L).map fun k => g k i) (by simp; omega) (by simp)
    (by intro c hc; obtain ⟨j, -, rfl⟩ := List.mem_map.1 hc; simp)
    (by intro c hc; obtain ⟨j, -, rfl⟩ := List.mem_map.1 hc; simp) bs hbs
  simp only [List.length_map, List.length_range] at h1 h2
  refine ⟨P, P', h1, h2, fun i j => (h3 i j).trans (mul_le_mul_of_nonneg_left ?_ hdt)⟩
  simp only [List.zip_map', List.map_map, Function.comp_def, sum_range_list]
  rw [Finset.sum_comm, Finset.mul_sum]
  refine Finset.sum_le_sum fun k hk => ?_
  rw [← Finset.sum_mul]
  have hε : 0 ≤ ε := (Finset.sum_nonneg fun i _ => abs_nonneg _).trans (hfg k (Finset.mem_range.1 hk))
  exact mul_le_mul (hfg k (Finset.mem_range.1 hk)) (Average.norm_le_sum _) (norm_nonneg _) hε

/-! ## The gate -/

theorem frame_instr (dims : List ℕ) (ω δ : ℕ → ℝ) (sub line : ℕ → String) (target : String → Option ℕ) (batch : ℕ)
    (htar : ∀ k < dims.length, target (line k) = some k) (T : ℝ) (vs : List (List ℝ)) (dt : ℝ) (sh : String → Option ℝ)
    (hsh : ∀ k < dims.length, sh (line k) = some 0) (cs : List String) :
    (chipOf dims ω δ sub line target batch).frame
        ⟨cs, vs, dt, (List.range dims.length).map fun k => (line k, ω k), sh, T⟩ = some (diagonal fun p =>
      Complex.exp (((∑ k ∈ Finset.range dims.length, ω k * lev dims k p) * T : ℝ) * Complex.I)) := by
  unfold Chip.frame
  rw [C37_diagonal]
  · congr 2
    funext p
    rw [mul_comm Complex.I]
    congr 3
    unfold framePhase
    simp only
    rw [List.map_map, sum_range_list, Finset.sum_mul]
    refine Finset.sum_congr rfl fun k hk => ?_
    rw [Finset.mem_range] at hk
    simp only [Function.comp_def, hsh k hk, Option.getD_some, add_zero]
    show ω k * T * (levelAt dims ((target (line k)).getD 0) p : ℝ) = _
    rw [htar k hk, Option.getD_some]
    show ω k * T * (lev dims k p : ℝ) = _
    ring
  · intro l hl
    obtain ⟨k, hk, rfl⟩ := List.mem_map.1 hl
    exact ⟨⟨0, hsh k (List.mem_range.1 hk)⟩, k, List.mem_range.1 hk, htar k (List.mem_range.1 hk)⟩

theorem physical_ok {dims : List ℕ} (c : Chip dims) (p : Pulse) (g : String) (hks : List (Op dims)) (U F : Op dims)
    (hk : c.hks p = some hks)
    (hU : pwc c.h0 hks p.dt p.values c.batch (Fold.stackFor p.values.length) = some U) (hu : c.useFR = true)
    (hF : c.frame p = some F) : physical (closed c [(g, p)]) (.name "pwc") g = .ok (F * U) := by
  unfold physical closed
  simp [hk, hU, hF, hu]

/-- The size of the drives. -/
def drives (dims : List ℕ) : ℝ := ∑ k ∈ Finset.range dims.length, ∑ p, ∑ q, ‖xDrive (ann dims k) p q‖

/-- Error of the gate of an instruction: the rotating-wave approximation and the leakage, the slices of the simulation, and
the playing of the envelope. -/
def gateError (dims : List ℕ) (T a a' κ C : ℝ) (M K : ℕ) : ℝ :=
  size dims T a a' / κ + C / (K * M : ℕ) ^ 2 + T * (playError T a a' M * drives dims)

/-- **C219**: let each line play an envelope with a smooth shape on a carrier at the frequency of its qubit. Then
everything from the parameters of the instruction to the propagator succeeds, and the propagator is the product of the
rotations by the areas of the amplitudes in the Hamiltonian, about the axes at the xy-angles of the envelopes. The error is
at most the sum of a term for the rotating-wave approximation and the leakage, a term that falls with the square of the
number of slices of the simulation and a term that falls with the number of slices of the waveform generator, as long as
that number is at most 499. From 500 slices on, the mask of the envelopes cuts off about a thousandth of the pulse. -/
theorem C219_gate (dims : List ℕ) (d : ℕ → LineSet) (δ : ℕ → ℝ) (sub line : ℕ → String) (target : String → Option ℕ)
    (htar : ∀ k < dims.length, target (line k) = some k) (A' : ℕ → ℝ → ℝ) (T a a' L κ : ℝ) (hT : 0 < T) (hκ : 0 < κ)
    (hsel : Selective dims (fun k => (d k).omega) δ κ)
    (hA : ∀ k < dims.length, ∀ t ∈ Icc 0 T,
      HasDerivWithinAt (d k).ampl (A' k t) (Icc 0 T) t ∧ |(d k).ampl t| ≤ a ∧ |A' k t| ≤ a')
    (hL : ∀ k < dims.length, ∀ s ∈ Icc 0 T, ∀ t ∈ Icc 0 T, |A' k s - A' k t| ≤ L * |s - t|) :
    ∃ C : ℝ, ∀ M K : ℕ, 2 ≤ M → 1 ≤ K → ∀ batch : ℕ, 1 ≤ batch → ∀ g : String, ∃ pulse V,
      instrPulse dims.length line d T ((K * M : ℕ) / T) (M / T) = some pulse ∧
      physical (closed (chipOf dims (fun k => (d k).omega) δ sub line target batch) [(g, pulse)]) (.name "pwc") g = .ok V ∧
      ∀ p q, Computational dims p ∨ Computational dims q →
        ‖V p q - ∏ k ∈ Finset.range dims.length,
          rot (∫ t in (0 : ℝ)..T, (d k).ampl t) (d k).xy (lev dims k p) (lev dims k q)‖ ≤ gateError dims T a a' κ C M K := by
  obtain ⟨C, hC⟩ := C209_gate dims (fun k => (d k).omega) δ (fun k => (d k).xy) sub line target htar (fun k => (d k).ampl) A'
    T a a' L κ hT hκ hsel hA hL
  refine ⟨C, fun M K hM hK batch hb g => ?_⟩
  have hN : 0 < K * M := Nat.mul_pos hK (by omega)
  have hN' : (0 : ℝ) < (K * M : ℕ) := by exact_mod_cast hN
  obtain ⟨sh, hsh, hpulse⟩ := instrPulse_eq dims.length line d T hT M K hM hK
  obtain ⟨ts, V, hts, hV, hclose⟩ := hC (K * M) hN batch hb g
  rw [times T hT (K * M) hN, Option.some_inj] at hts
  subst hts
  obtain ⟨p0, hks, U, hp0, hhk, hU, hfr⟩ := physical_closed _ _ _ _ hV
  rw [List.lookup_cons, beq_self_eq_true] at hp0
  simp only [Option.some_inj] at hp0
  subst hp0
  have hhk' := hhk
  rw [hks_eq dims _ δ _ sub line target batch htar, Option.some_inj] at hhk
  subst hhk
  obtain ⟨-, F, hF, rfl⟩ := hfr.resolve_right (by simp [chipOf])
  rw [frame_eq dims _ δ _ sub line target batch htar, Option.some_inj] at hF
  subst hF
  rw [h0_eq] at hU
  obtain ⟨P, P', hP, hP', hPP⟩ := signals_entries (diagonal fun p => (energy dims (fun k => (d k).omega) δ p : ℂ))
    dims.length (K * M) (fun k => xDrive (ann dims k))
    (by
      refine isHermitian_diagonal_of_self_adjoint _ ?_
      funext p
      simp)
    (fun k _ => xDrive_self dims k) (T / (K * M : ℕ)) (by positivity) (fun k i => lineValue (d k) T M K i)
    (fun k i => (d k).ampl (((i : ℝ) + 1 / 2) * (T / (K * M : ℕ))) *
      Real.cos ((d k).omega * (((i : ℝ) + 1 / 2) * (T / (K * M : ℕ))) - (d k).xy)) hN _
    (fun k hk => line_error (d k) (A' k) T a a' hT M K hM hK (hA k hk)) batch hb
  have hUP : U = P' := by
    have : pwc (diagonal fun p => (energy dims (fun k => (d k).omega) δ p : ℂ))
        ((List.range dims.length).map fun k => xDrive (ann dims k)) (T / (K * M : ℕ))
        ((List.range (K * M)).map fun i : ℕ => (List.range dims.length).map fun k =>
          (d k).ampl (((i : ℝ) + 1 / 2) * (T / (K * M : ℕ))) *
            Real.cos ((d k).omega * (((i : ℝ) + 1 / 2) * (T / (K * M : ℕ))) - (d k).xy)) batch
        (Fold.stackFor (K * M)) = some U := by
      rw [← hU]
      show _ = pwc _ _ (T / (K * M : ℕ)) (((List.range (K * M)).map _).map _) batch
        (Fold.stackFor (((List.range (K * M)).map _).map _).length)
      rw [List.length_map, List.length_map, List.length_range, List.map_map]
      rfl
    rw [hP'] at this
    exact (Option.some.inj this).symm
  subst hUP
  refine ⟨_, _, hpulse, physical_ok _ _ g ((List.range dims.length).map fun k => xDrive (ann dims k)) P _ hhk' ?_ rfl
    (frame_instr dims _ δ sub line target batch htar T _ _ sh hsh _), fun p q hpq => ?_⟩
  · rw [h0_eq]
    show pwc _ _ (T / (K * M : ℕ)) ((List.range (K * M)).map _) batch (Fold.stackFor ((List.range (K * M)).map _).length) = _
    rw [List.length_map, List.length_range]
    exact hP
  · have h1 := hclose p q hpq
    have h2 := hPP p q
    rw [diagonal_mul] at h1 ⊢
    have h3 : ‖Complex.exp (((∑ k ∈ Finset.range dims.length, (d k).omega * lev dims k p) * T : ℝ) * Complex.I) *
        (P p q - U p q)‖ ≤ T * (playError T a a' M * drives dims) := by
      rw [norm_mul, Complex.norm_exp_ofReal_mul_I, one_mul]
      refine h2.trans (le_of_eq ?_)
      unfold drives
      field_simp
    refine le_trans (le_of_eq ?_) ((norm_add_le _ _).trans (add_le_add h1 h3))
    congr 1
    ring

/-- **C219**: an instruction that plays on one qubit an envelope with the area and the angle of a gate of the table, and
nothing on the others, makes that gate: both infidelities of the propagator to the entry of the table are at most the
dimension times the square of the error of the gate. -/
theorem C219_table (dims : List ℕ) (d : ℕ → LineSet) (δ : ℕ → ℝ) (sub line : ℕ → String) (target : String → Option ℕ)
    (htar : ∀ k < dims.length, target (line k) = some k) (ht : ∀ l q, target l = some q → q < dims.length)
    (A' : ℕ → ℝ → ℝ) (T a a' L κ : ℝ) (hT : 0 < T) (hκ : 0 < κ) (hsel : Selective dims (fun k => (d k).omega) δ κ)
    (hA : ∀ k < dims.length, ∀ t ∈ Icc 0 T,
      HasDerivWithinAt (d k).ampl (A' k t) (Icc 0 T) t ∧ |(d k).ampl t| ≤ a ∧ |A' k t| ≤ a')
    (hL : ∀ k < dims.length, ∀ s ∈ Icc 0 T, ∀ t ∈ Icc 0 T, |A' k s - A' k t| ≤ L * |s - t|)
    (k : ℕ) (hk : k < dims.length) (hrest : ∀ j < dims.length, j ≠ k → (d j).amp = 0) (gate : Gates.Gate)
    (hg : PulseFor gate (∫ t in (0 : ℝ)..T, (d k).v2hz * (d k).amp * (d k).shape t) (d k).xy) :
    ∃ C : ℝ, ∀ M K : ℕ, 2 ≤ M → 1 ≤ K → ∀ batch : ℕ, 1 ≤ batch → ∀ g : String, ∃ pulse V,
      instrPulse dims.length line d T ((K * M : ℕ) / T) (M / T) = some pulse ∧
      physical (closed (chipOf dims (fun k => (d k).omega) δ sub line target batch) [(g, pulse)]) (.name "pwc") g = .ok V ∧
      ∀ actual : Arr ℂ, actual.rows = dims.prod → actual.cols = dims.prod →
        (∀ p q : Fin dims.prod, actual.e p q = V p q) →
        ∃ x y, unitaryInfid gate.arr actual (some [k]) dims = some x ∧ averageInfid gate.arr actual [k] dims = some y ∧
          0 ≤ x ∧ x ≤ dims.prod * gateError dims T a a' κ C M K ^ 2 ∧ 0 ≤ y ∧ y ≤ x := by
  obtain ⟨hr, hc, -⟩ := pulseFor_arr gate _ _ hg
  have hrest' : ∀ j < dims.length, j ∉ [k] → ∫ t in (0 : ℝ)..T, (d j).ampl t = 0 := by
    intro j hj hjk
    rw [List.mem_singleton] at hjk
    have : (d j).ampl = fun _ => 0 := funext fun t => by simp [LineSet.ampl, hrest j hj hjk]
    rw [this]
    simp
  have hd := selective_dims dims _ δ κ hsel
  obtain ⟨C, hC⟩ := C219_gate dims d δ sub line target htar A' T a a' L κ hT hκ hsel hA hL
  refine ⟨C, fun M K hM hK batch hb g => ?_⟩
  obtain ⟨pulse, V, hp, hV, hclose⟩ := hC M K hM hK batch hb g
  refine ⟨pulse, V, hp, hV, fun actual h1 h2 h3 => ?_⟩
  have hVu := C199_unitary _ (chipOf_wf dims _ δ sub line target ht batch hb) _ g V hV
  obtain ⟨x, hx, hx0, hxb⟩ := infid_of_close dims hd (fun k => ∫ t in (0 : ℝ)..T, (d k).ampl t) (fun k => (d k).xy) V hVu _
    hclose [k] (by simp) (by simp) (by simpa using hk) hrest' gate.arr (by simpa using hr) (by simpa using hc)
    (table_prod dims k hk gate (fun k => ∫ t in (0 : ℝ)..T, (d k).ampl t) (fun k => (d k).xy) hg hrest') actual h1 h2 h3
  obtain ⟨x', y, hx', hy, hxy⟩ := C63_value gate.arr actual dims [k] hd (by simp) (by simp) (by simpa using hk) h1 h2
    (by simpa using hr) (by simpa using hc)
  rw [hx, Option.some_inj] at hx'
  subst hx'
  refine ⟨x, y, hx, hy, hx0, hxb, ?_, ?_⟩ <;> rw [hxy] <;> norm_num <;> linarith

/-- An envelope of constant amplitude one half, converted with the factor `2 pi`, on a qutrit: the gate `ryp`. -/
example : ∃ C : ℝ, ∀ M K : ℕ, 2 ≤ M → 1 ≤ K → ∃ pulse V,
    instrPulse 1 (fun _ => "d1") (fun _ => ⟨1 / 2, Real.pi / 2, fun _ => 1, 1000, 2 * Real.pi⟩) 1 ((K * M : ℕ) / 1) (M / 1) =
      some pulse ∧
    physical (closed (chipOf [3] (fun _ => 1000) (fun _ => -100) (fun _ => "Q1") (fun _ => "d1")
      (fun s => if s = "d1" then some 0 else none) 1) [("ryp", pulse)]) (.name "pwc") "ryp" = .ok V ∧
    ∀ actual : Arr ℂ, actual.rows = [3].prod → actual.cols = [3].prod → (∀ p q : Fin [3].prod, actual.e p q = V p q) →
      ∃ x y, unitaryInfid (Gates.Gate.arr .ryp) actual (some [0]) [3] = some x ∧
        averageInfid (Gates.Gate.arr .ryp) actual [0] [3] = some y ∧ 0 ≤ x ∧
        x ≤ ([3].prod : ℕ) * gateError [3] 1 Real.pi 0 100 C M K ^ 2 ∧ 0 ≤ y ∧ y ≤ x := by
  have ha : (LineSet.ampl ⟨1 / 2, Real.pi / 2, fun _ => 1, 1000, 2 * Real.pi⟩) = fun _ => Real.pi := by
    funext t
    simp only [LineSet.ampl]
    ring
  obtain ⟨C, hC⟩ := C219_table [3] (fun _ => ⟨1 / 2, Real.pi / 2, fun _ => 1, 1000, 2 * Real.pi⟩) (fun _ => -100)
    (fun _ => "Q1") (fun _ => "d1") (fun s => if s = "d1" then some 0 else none) (by simp) (by
      intro l q h
      split at h <;> simp_all) (fun _ _ => 0) 1 Real.pi 0 0 100
    one_pos (by norm_num)
    (by
      intro k hk
      obtain rfl : k = 0 := by simpa using hk
      refine ⟨by simp, by norm_num, fun l hl => ?_⟩
      have hl' : l = 0 ∨ l = 1 := by simp at hl; omega
      rcases hl' with rfl | rfl <;> norm_num)
    (by
      intro k _ t _
      rw [ha]
      exact ⟨hasDerivWithinAt_const _ _ _, by rw [abs_of_pos Real.pi_pos], by simp⟩) (by simp) 0 (by simp)
    (by intro j hj hj0; simp at hj; omega) .ryp (by
      have : ∫ _ in (0 : ℝ)..1, 2 * Real.pi * (1 / 2) * 1 = Real.pi := by
        rw [intervalIntegral.integral_const, smul_eq_mul]
        ring
      rw [this]
      exact .ryp)
  exact ⟨C, fun M K hM hK => hC M K hM hK 1 le_rfl "ryp"⟩

end C3.Experiment.FromInstruction
