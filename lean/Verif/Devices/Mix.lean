import Mathlib.Data.Matrix.Mul
import Mathlib.Data.Real.Basic
import Mathlib.Data.List.GetD
import Mathlib.Data.Fin.VecNotation
import Mathlib.Tactic.Linarith
import Mathlib.Tactic.NormNum
import Mathlib.Tactic.Ring

/-!
# C50, C52: crosstalk, mixer, conversion and offsets

c3/generator/devices.py: `Crosstalk.process` (262-292), `Mixer.process` (914-939),
`VoltsToHertz.process` (203-221), `DC_Offset.process` (1052-1059), `Additive_Noise.process`
(980-997), `Readout.readout` (167-183).
-/

set_option linter.unusedSectionVars false

namespace C3.Devices

/-! ## Signals as dictionaries of sample lists -/

/-- A signal dictionary (`"ts"`, `"inphase"`, ...) in insertion order. -/
abbrev Sig := List (String × List ℝ)

/-- Dictionary lookup. -/
def Sig.get (s : Sig) (k : String) : Option (List ℝ) := (s.find? fun kv => kv.1 = k).map Prod.snd

/-- Elementwise operation of two tensors of the same shape (`none` models the shape error;
broadcasting of tensors of length one is not modelled). -/
def elementwise (f : ℝ → ℝ → ℝ) (a b : List ℝ) : Option (List ℝ) :=
  if a.length = b.length then some (List.zipWith f a b) else none

/-- c3/generator/devices.py:931-936 `Mixer.process`; `none` is a missing key or a shape error. -/
def mixer (in1 in2 : Sig) : Option Sig := do
  let i1 ← in1.get "inphase"
  let q1 ← in1.get "quadrature"
  let i2 ← in2.get "inphase"
  let q2 ← in2.get "quadrature"
  let ii ← elementwise (· * ·) i1 i2
  let qq ← elementwise (· * ·) q1 q2
  let v ← elementwise (· + ·) ii qq
  let ts ← in1.get "ts"
  pure [("values", v), ("ts", ts)]

/-- c3/generator/devices.py:218-221 `VoltsToHertz.process`. -/
def voltsToHertz (v2hz : ℝ) (s : Sig) : Option Sig := do
  let v ← s.get "values"
  let ts ← s.get "ts"
  pure [("values", v.map (· * v2hz)), ("ts", ts)]

/-- c3/generator/devices.py:1054-1059 `DC_Offset.process`: the offset is added to every key. -/
def dcOffset (offset : ℝ) (s : Sig) : Sig := s.map fun kv => (kv.1, kv.2.map (· + offset))

/-- c3/generator/devices.py:982-997 `Additive_Noise.process` for given noise samples. -/
def additiveNoise (noise : String → List ℝ) (hasNoise : String → Bool) (s : Sig) (ts : List ℝ) : Sig :=
  ("ts", ts) :: s.flatMap fun kv =>
    if kv.1 ≠ "ts" ∧ hasNoise kv.1 = false then
      [("noise" ++ (if kv.1 ≠ "values" then "-" ++ kv.1 else ""), noise kv.1),
        (kv.1, List.zipWith (· + ·) kv.2 (noise kv.1))]
    else []

/-- c3/generator/devices.py:181-183 `Readout.readout`. -/
def readout (factor offset phase : ℝ) : ℝ := phase * factor + offset

/-! ## C52 -/

/-- C52: the mixed signal is `I1·I2 + Q1·Q2` sample by sample, on the time stamps of the first
input. -/
theorem C52_mixer (in1 in2 : Sig) (i1 q1 i2 q2 ts : List ℝ) (h1 : in1.get "inphase" = some i1)
    (h2 : in1.get "quadrature" = some q1) (h3 : in2.get "inphase" = some i2)
    (h4 : in2.get "quadrature" = some q2) (ht : in1.get "ts" = some ts) (N : ℕ)
    (l1 : i1.length = N) (l2 : q1.length = N) (l3 : i2.length = N) (l4 : q2.length = N) :
    ∃ v, mixer in1 in2 = some [("values", v), ("ts", ts)] ∧ v.length = N ∧
      ∀ n < N, v.getD n 0 = i1.getD n 0 * i2.getD n 0 + q1.getD n 0 * q2.getD n 0 := by
  refine ⟨List.zipWith (· + ·) (List.zipWith (· * ·) i1 i2) (List.zipWith (· * ·) q1 q2), ?_, ?_, ?_⟩
  · simp [mixer, h1, h2, h3, h4, ht, elementwise, l1, l2, l3, l4]
  · simp [l1, l2, l3, l4]
  · intro n hn
    rw [List.getD_eq_getElem _ _ (by simp; omega), List.getD_eq_getElem _ _ (by omega),
      List.getD_eq_getElem _ _ (by omega), List.getD_eq_getElem _ _ (by omega),
      List.getD_eq_getElem _ _ (by omega)]
    simp

/-- C52: the mixer result does not depend on which input comes first, apart from the time stamps. -/
theorem C52_mixer_symmetric (in1 in2 : Sig) (ht : in1.get "ts" = in2.get "ts") :
    mixer in1 in2 = mixer in2 in1 := by
  unfold mixer
  rw [ht]
  cases in1.get "inphase" <;> cases in1.get "quadrature" <;> cases in2.get "inphase" <;>
    cases in2.get "quadrature" <;> simp [elementwise]
  rename_i a b c d
  by_cases h1 : a.length = c.length
  · by_cases h2 : b.length = d.length
    · simp [h1, h2, List.zipWith_comm_of_comm (f := fun x1 x2 : ℝ => x1 * x2) (fun a b => mul_comm a b)]
    · simp [h1, h2, Ne.symm h2]
  · simp [h1, Ne.symm h1]

/-- C52: `VoltsToHertz` multiplies every sample and keeps the time stamps. -/
theorem C52_volts_to_hertz (v2hz : ℝ) (s : Sig) (v ts : List ℝ) (hv : s.get "values" = some v)
    (ht : s.get "ts" = some ts) :
    voltsToHertz v2hz s = some [("values", v.map (· * v2hz)), ("ts", ts)] := by
  simp [voltsToHertz, hv, ht]

/-- C52: `DC_Offset` shifts every amplitude by the offset ... -/
theorem C52_offset_partial (offset : ℝ) (s : Sig) (k : String) :
    (dcOffset offset s).get k = (s.get k).map fun v => v.map (· + offset) := by
  unfold Sig.get dcOffset
  induction s with
  | nil => rfl
  | cons a s ih =>
    by_cases h : a.1 = k
    · simp [h]
    · simpa [h] using ih

/-- ... but it also shifts the time stamps: the claim that offsets leave the time stamps alone is
false for every offset other than zero. -/
theorem C52_false_offset_shifts_time (offset : ℝ) (h : offset ≠ 0) (s : Sig) (t : ℝ) (ts : List ℝ)
    (ht : s.get "ts" = some (t :: ts)) : (dcOffset offset s).get "ts" ≠ s.get "ts" := by
  rw [C52_offset_partial, ht]
  simp [h]

/-- C52: the noise device keeps the time stamps and adds the noise it reports, as "noise" for the values and with the
name of the component for others. -/
theorem C52_additive_noise (noise : String → List ℝ) (hasNoise : String → Bool) (s : Sig)
    (ts v : List ℝ) (k : String) (hk : k ≠ "ts") (hnk : hasNoise k = false) (hv : (k, v) ∈ s) :
    (additiveNoise noise hasNoise s ts).get "ts" = some ts ∧
      (k, List.zipWith (· + ·) v (noise k)) ∈ additiveNoise noise hasNoise s ts ∧
      (k = "values" → ("noise", noise k) ∈ additiveNoise noise hasNoise s ts) ∧
      (k ≠ "values" → ("noise-" ++ k, noise k) ∈ additiveNoise noise hasNoise s ts) := by
  refine ⟨by simp [additiveNoise, Sig.get], ?_, ?_, ?_⟩
  · unfold additiveNoise
    apply List.mem_cons_of_mem
    rw [List.mem_flatMap]
    refine ⟨(k, v), hv, ?_⟩
    simp [hk, hnk]
  · intro h
    unfold additiveNoise
    apply List.mem_cons_of_mem
    rw [List.mem_flatMap]
    refine ⟨(k, v), hv, ?_⟩
    subst h
    simp [hnk]
  · intro h
    unfold additiveNoise
    apply List.mem_cons_of_mem
    rw [List.mem_flatMap]
    refine ⟨(k, v), hv, ?_⟩
    simp only [ne_eq, hk, not_false_eq_true, hnk, and_self, if_true, h, List.mem_cons, Prod.mk.injEq]
    left
    rw [show "noise-" = "noise" ++ "-" by decide, String.append_assoc]
    simp

/-- C52: the readout of the phase zero is the offset, and it changes with the phase in proportion to the factor. -/
theorem C52_readout (factor offset p q : ℝ) : readout factor offset 0 = offset ∧
    readout factor offset p - readout factor offset q = factor * (p - q) := by
  unfold readout
  constructor <;> ring

/-- C52: with vanishing noise the amplitudes are unchanged. -/
theorem C52_zero_noise (v : List ℝ) : List.zipWith (· + ·) v (List.replicate v.length (0 : ℝ)) = v := by
  apply List.ext_getElem
  · simp
  · intro i h1 h2
    simp

example : mixer [("inphase", [1, 2]), ("quadrature", [3, 4]), ("ts", [0, 1])]
    [("inphase", [5, 6]), ("quadrature", [7, 8])] = some [("values", [26, 44]), ("ts", [0, 1])] := by
  simp [mixer, Sig.get, elementwise]
  norm_num

/-! ## C50 -/

variable {n T : ℕ}

/-- The signal of one drive line. -/
structure Line (T : ℕ) where
  values : Fin T → ℝ
  ts : Fin T → ℝ

/-- Collect the values of the crossed channels; `none` models the `KeyError`. -/
def gather (signals : String → Option (Line T)) (channels : Fin n → String) :
    Option (Fin n → Fin T → ℝ) :=
  if ∀ j, (signals (channels j)).isSome then
    some fun j t => match signals (channels j) with
      | some l => l.values t
      | none => 0
  else none

/-- c3/generator/devices.py:290-291: write the mixed values back, channel by channel. -/
def writeBack (crossed : Fin n → Fin T → ℝ) (channels : Fin n → String) :
    List (Fin n) → (String → Option (Line T)) → String → Option (Line T)
  | [], s => s
  | i :: is, s => writeBack crossed channels is (Function.update s (channels i)
      ((s (channels i)).map fun l => { l with values := crossed i }))

/-- c3/generator/devices.py:262-292 `Crosstalk.process` for a square matrix. -/
def crosstalk (M : Matrix (Fin n) (Fin n) ℝ) (channels : Fin n → String)
    (signals : String → Option (Line T)) : Option (String → Option (Line T)) :=
  match gather signals channels with
  | none => none
  | some signal =>
    some (writeBack (fun i t => ∑ j, M i j * signal j t) channels (List.finRange n) signals)

theorem writeBack_other (crossed : Fin n → Fin T → ℝ) (channels : Fin n → String)
    (l : List (Fin n)) (s : String → Option (Line T)) (ch : String) (h : ∀ i ∈ l, channels i ≠ ch) :
    writeBack crossed channels l s ch = s ch := by
  induction l generalizing s with
  | nil => rfl
  | cons i l ih =>
    rw [writeBack, ih _ fun j hj => h j (by simp [hj])]
    exact Function.update_of_ne (Ne.symm (h i (by simp))) _ _

theorem writeBack_self (crossed : Fin n → Fin T → ℝ) (channels : Fin n → String)
    (hinj : Function.Injective channels) (l : List (Fin n)) (hnd : l.Nodup)
    (s : String → Option (Line T)) (i : Fin n) (hi : i ∈ l) :
    writeBack crossed channels l s (channels i) =
      (s (channels i)).map fun l => { l with values := crossed i } := by
  induction l generalizing s with
  | nil => simp at hi
  | cons j l ih =>
    rw [writeBack]
    have hnd' := List.nodup_cons.1 hnd
    by_cases hij : i = j
    · subst hij
      rw [writeBack_other _ _ _ _ _ fun k hk he => hnd'.1 ((hinj he : k = i) ▸ hk)]
      simp
    · rw [ih hnd'.2 _ (by simpa [hij] using hi)]
      rw [Function.update_of_ne fun he => hij (hinj he)]

/-- C50: the new values of channel `i` are row `i` of the matrix applied to the old values of all
crossed channels; time stamps and other channels are unchanged. -/
theorem C50_mixes_linearly (M : Matrix (Fin n) (Fin n) ℝ) (channels : Fin n → String)
    (hinj : Function.Injective channels) (signals : String → Option (Line T))
    (lines : Fin n → Line T) (hl : ∀ j, signals (channels j) = some (lines j)) :
    ∃ out, crosstalk M channels signals = some out ∧
      (∀ i, out (channels i) =
        some ⟨fun t => ∑ j, M i j * (lines j).values t, (lines i).ts⟩) ∧
      ∀ ch, (∀ i, channels i ≠ ch) → out ch = signals ch := by
  have hg : gather signals channels = some fun j t => (lines j).values t := by
    unfold gather
    rw [if_pos (fun j => by rw [hl j]; rfl)]
    congr 1
    funext j t
    rw [hl j]
  refine ⟨_, by rw [crosstalk, hg], ?_, ?_⟩
  · intro i
    rw [writeBack_self _ _ hinj _ (List.nodup_finRange n) _ i (List.mem_finRange i), hl i]
    rfl
  · intro ch hch
    exact writeBack_other _ _ _ _ _ fun i _ => hch i

/-- C50: the identity matrix changes nothing. -/
theorem C50_identity (channels : Fin n → String)
    (hinj : Function.Injective channels) (signals : String → Option (Line T))
    (lines : Fin n → Line T) (hl : ∀ j, signals (channels j) = some (lines j)) :
    crosstalk 1 channels signals = some signals := by
  obtain ⟨out, h1, h2, h3⟩ := C50_mixes_linearly 1 channels hinj signals lines hl
  rw [h1]
  congr 1
  funext ch
  by_cases h : ∃ i, channels i = ch
  · obtain ⟨i, rfl⟩ := h
    rw [h2 i, hl i]
    congr 1
    have : (fun t => ∑ j, (1 : Matrix (Fin n) (Fin n) ℝ) i j * (lines j).values t) =
        (lines i).values := by
      funext t
      simp [Matrix.one_apply]
    rw [this]
  · exact h3 ch fun i hi => h ⟨i, hi⟩

/-- C50: crosstalk matrices compose like matrices. -/
theorem C50_compose (M M' : Matrix (Fin n) (Fin n) ℝ) (channels : Fin n → String)
    (hinj : Function.Injective channels) (signals : String → Option (Line T))
    (lines : Fin n → Line T) (hl : ∀ j, signals (channels j) = some (lines j)) :
    (crosstalk M' channels signals).bind (crosstalk M channels) =
      crosstalk (M * M') channels signals := by
  obtain ⟨o1, h1, h2, h3⟩ := C50_mixes_linearly M' channels hinj signals lines hl
  obtain ⟨o2, k1, k2, k3⟩ := C50_mixes_linearly M channels hinj o1 _ h2
  obtain ⟨o3, m1, m2, m3⟩ := C50_mixes_linearly (M * M') channels hinj signals lines hl
  rw [h1, m1, Option.bind_some, k1]
  congr 1
  funext ch
  by_cases h : ∃ i, channels i = ch
  · obtain ⟨i, rfl⟩ := h
    rw [k2 i, m2 i]
    congr 2
    funext t
    simp only [Matrix.mul_apply, Finset.sum_mul, Finset.mul_sum]
    rw [Finset.sum_comm]
    apply Finset.sum_congr rfl
    intro a _
    apply Finset.sum_congr rfl
    intro b _
    ring
  · rw [k3 ch fun i hi => h ⟨i, hi⟩, h3 ch fun i hi => h ⟨i, hi⟩, m3 ch fun i hi => h ⟨i, hi⟩]

/-- A missing channel raises. -/
theorem C50_missing_channel (M : Matrix (Fin n) (Fin n) ℝ) (channels : Fin n → String)
    (signals : String → Option (Line T)) (j : Fin n) (h : signals (channels j) = none) :
    crosstalk M channels signals = none := by
  unfold crosstalk gather
  rw [if_neg]
  intro hall
  have := hall j
  rw [h] at this
  simp at this

example : ∃ (channels : Fin 2 → String), Function.Injective channels :=
  ⟨![("TC1" : String), "TC2"], by decide⟩

end C3.Devices
