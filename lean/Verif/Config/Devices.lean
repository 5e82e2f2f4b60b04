import Verif.Config.Dict
import Mathlib.Data.Real.Basic
import Mathlib.Tactic.NormNum

/-!
# Devices: construction, parameters and configuration files (C130)

Model of `Device.__init__` and `asdict` (c3/generator/devices.py:32-67) with the constructors of all registered
devices (150-1150), of `Generator.fromdict`/`asdict` for one device (c3/generator/generator.py:144-167) and of
the collection of device parameters by a `ParameterMap` (c3/parametermap.py:51-56). Descriptions and comments
are left out (they are not stored and nothing reads them); `AWG.logdir` likewise.
-/

namespace C3.Config.Dev

/-- The registered device classes. `generic` are `VoltsToHertz`, `Response`, `ResponseFFT`, `StepFuncFilter`
and its subclasses, and `HighpassFilter`, whose constructors only set one input and one output. -/
inductive Cls where
  | readout | generic | crosstalk | dac | filter | coupling | flux | mixer | loNoise | additive | pink
  | dcOffset | lo | awg
  deriving DecidableEq

/-- A keyword value: a quantity, or anything else (a number, a text, `None`). -/
inductive PVal (Q : Type) where
  | qty (q : Q)
  | num (x : ℝ)
  | text (s : String)
  | none

/-- Keyword arguments. `extra` are those that are not named by `Device.__init__` (devices.py:33-45). -/
structure Props (Q : Type) where
  name : String
  inputs : Option ℕ := .none
  outputs : Option ℕ := .none
  resolution : Option ℝ := .none
  params : List (String × PVal Q) := []
  extra : List (String × PVal Q) := []
  channels : Option (List String) := .none
  twoInputs : Bool := false

/-- A device. -/
structure Device (Q : Type) where
  cls : Cls
  name : String
  inputs : ℕ
  outputs : ℕ
  resolution : ℝ
  params : List (String × PVal Q)
  /-- `crossed_channels` (devices.py:256) -/
  channels : Option (List String)
  /-- `two_inputs` (devices.py:394) -/
  twoInputs : Bool
  /-- `sampling_method` (devices.py:304); `none` is the default "nearest" -/
  sampling : Option (PVal Q)
  /-- `phase_noise`, `freq_noise`, `amp_noise` (devices.py:1069-1071); `none` is 0 -/
  noise : Option (PVal Q) × Option (PVal Q) × Option (PVal Q)

inductive Err where
  | key (k : String)
  | missing (k : String)
  | notImplemented
  | attribute
  deriving DecidableEq

variable {Q : Type}

/-- Inputs and outputs when none are given. -/
def ports (c : Cls) (two : Bool) : ℕ × ℕ :=
  match c with
  | .readout => (0, 0)
  | .lo => (0, 1)
  | .awg => (0, 1)
  | .mixer => (2, 1)
  | .coupling => if two then (2, 1) else (1, 1)
  | _ => (1, 1)

/-- Parameters a constructor insists on (devices.py:162-165, 403-407, 475-479). -/
def needed : Cls → List String
  | .readout => ["factor", "offset"]
  | .coupling => ["w_1", "w_2", "g0"]
  | .flux => ["phi_0", "phi", "omega_0", "anhar"]
  | _ => []

/-- devices.py:33-45: the common part. The remaining keywords are written over the parameters. -/
def base (c : Cls) (p : Props Q) : Device Q where
  cls := c
  name := p.name
  inputs := p.inputs.getD (ports c p.twoInputs).1
  outputs := p.outputs.getD (ports c p.twoInputs).2
  resolution := p.resolution.getD 0
  params := dupdate p.params p.extra
  channels := .none
  twoInputs := false
  sampling := .none
  noise := (.none, .none, .none)

/-- The constructors. `five` is `Quantity(value=5, min_val=1, max_val=10)` (devices.py:1018). -/
def make (five : Q) (c : Cls) (p : Props Q) : Except Err (Device Q) :=
  let d := base c p
  match (needed c).find? fun k => (dget d.params k).isNone with
  | some k => .error (.missing k)
  | .none =>
    match c with
    | .filter => .error .notImplemented
    | .crosstalk =>
      .ok { d with channels := p.channels, params := dset d.params "crosstalk_matrix" ((dget p.extra "crosstalk_matrix").getD .none) }
    | .dac => .ok { d with sampling := dget p.extra "sampling_method" }
    | .coupling => .ok { d with twoInputs := p.twoInputs }
    | .loNoise =>
      match dget p.extra "noise_perc" with
      | .none => .error (.key "noise_perc")
      | some v => .ok { d with params := dset d.params "noise_perc" v }
    | .pink => .ok { d with params := dset d.params "bfl_num" ((dget p.extra "bfl_num").getD (.qty five)) }
    | .dcOffset =>
      match dget d.params "offset_amp" with
      | .none => .error (.key "offset_amp")
      | some _ => .ok d
    | .lo => .ok { d with noise := (dget p.extra "phase_noise", dget p.extra "freq_noise", dget p.extra "amp_noise") }
    | _ => .ok d

/-- A value with `asdict`, `length`, ... -/
def PVal.isQty : PVal Q → Bool
  | .qty _ => true
  | _ => false

/-- The keywords in the dictionary of a device (devices.py:58-65). -/
def Device.stored (d : Device Q) : Props Q where
  name := d.name
  inputs := some d.inputs
  outputs := some d.outputs
  resolution := some d.resolution
  params := d.params

/-- devices.py:55-65 `asdict`, as the keywords found in the file; `item.asdict()` is an attribute error for
anything but a quantity. -/
def Device.asdict (d : Device Q) : Except Err (Cls × Props Q) :=
  if d.params.all fun kv => kv.2.isQty then .ok (d.cls, d.stored) else .error .attribute

/-- generator.py:145-149. -/
def reload (five : Q) (d : Device Q) : Except Err (Device Q) :=
  match d.asdict with
  | .error e => .error e
  | .ok (c, p) => make five c p

/-- parametermap.py:51-56: `par_value.length` of every parameter; the identifiers of the parameters. -/
def register (d : Device Q) : Except Err (List (String × Q)) :=
  d.params.foldr (fun kv r =>
    match kv.2, r with
    | .qty q, .ok l => .ok ((d.name ++ "-" ++ kv.1, q) :: l)
    | .qty _, .error e => .error e
    | _, _ => .error .attribute) (.ok [])

/-! ## C130 -/

/-- The classes without a state of their own. -/
def simple : Cls → Bool
  | .crosstalk => false
  | .loNoise => false
  | .pink => false
  | _ => true

/-- Keywords that are kept outside the parameters too. -/
def special : List String := ["sampling_method", "phase_noise", "freq_noise", "amp_noise"]

/-- **C130**, what holds: a device of a simple class that can be written is read back as it was: ports,
resolution and all parameters. Missing: crosstalk, the oscillator noise devices, pink noise, tunable couplings
with two inputs and everything that cannot be written, see the negations. -/
theorem C130_reload_partial (five : Q) (c : Cls) (p : Props Q) (d : Device Q) (h : make five c p = .ok d)
    (hc : simple c = true) (ht : p.twoInputs = false) (hs : ∀ k ∈ special, dget p.extra k = .none)
    (hq : ∀ kv ∈ d.params, kv.2.isQty = true) : reload five d = .ok d := by
  have has : d.asdict = .ok (d.cls, d.stored) := by
    unfold Device.asdict
    rw [if_pos (by rw [List.all_eq_true]; exact hq)]
  unfold reload
  rw [has]
  simp only
  have h1 := hs "sampling_method" (by simp [special])
  have h2 := hs "phase_noise" (by simp [special])
  have h3 := hs "freq_noise" (by simp [special])
  have h4 := hs "amp_noise" (by simp [special])
  unfold make at h
  simp only at h
  cases hf : (needed c).find? (fun k => (dget (base c p).params k).isNone) with
  | some k => rw [hf] at h; cases h
  | none =>
    rw [hf] at h
    simp only at h
    have hd : d = base c p := by
      cases c <;> simp only [simple, Bool.false_eq_true] at hc <;>
        simp only [Except.ok.injEq, h1, h2, h3, h4, ht] at h <;>
        first
        | exact h.symm
        | (cases h)
        | (cases ho : dget (base Cls.dcOffset p).params "offset_amp" with
           | none => rw [ho] at h; cases h
           | some v =>
             rw [ho] at h
             simp only [Except.ok.injEq] at h
             exact h.symm)
    have hcls : d.cls = c := by rw [hd]; rfl
    have hb : base d.cls d.stored = d := by
      rw [hd]
      simp [base, dupdate, Device.stored]
    have hpar : (base c p).params = d.params := by rw [hd]
    unfold make
    simp only [hb]
    rw [hcls]
    rw [hpar] at hf
    rw [hf]
    simp only
    cases c <;> simp only [simple, Bool.false_eq_true] at hc
    · rfl
    · rfl
    · simp only [dget]
      rw [hd]
      rfl
    · cases h
    · simp only
      rw [hd]
      rfl
    · rfl
    · rfl
    · rfl
    · rw [hpar] at h
      cases ho : dget d.params "offset_amp" with
      | none => rw [ho] at h; cases h
      | some v => rfl
    · simp only [dget]
      rw [hd]
      rfl
    · rfl

/-- A device built without explicit ports has those of its kind: sources (readout, oscillator, generator) have no
input, mixers two, tunable couplings one for each tunable element, all others one; only the readout has no
output. Ports that are given are used. -/
theorem C130_ports (five : Q) (c : Cls) (p : Props Q) (d : Device Q) (h : make five c p = .ok d) :
    (p.inputs = .none → d.inputs =
      if c = .readout ∨ c = .lo ∨ c = .awg then 0
      else if c = .mixer ∨ (c = .coupling ∧ p.twoInputs = true) then 2 else 1) ∧
    (p.outputs = .none → d.outputs = if c = .readout then 0 else 1) ∧
    (∀ n, p.inputs = some n → d.inputs = n) ∧ (∀ n, p.outputs = some n → d.outputs = n) := by
  have hd : d.inputs = p.inputs.getD (ports c p.twoInputs).1 ∧ d.outputs = p.outputs.getD (ports c p.twoInputs).2 := by
    unfold make at h
    simp only at h
    split at h
    · cases h
    · cases c <;> simp only [Except.ok.injEq] at h <;>
        first
        | (rw [← h]; exact ⟨rfl, rfl⟩)
        | (cases h)
        | (split at h
           · cases h
           · simp only [Except.ok.injEq] at h
             rw [← h]; exact ⟨rfl, rfl⟩)
  rw [hd.1, hd.2]
  refine ⟨fun hi => ?_, fun ho => ?_, fun n hn => by simp [hn], fun n hn => by simp [hn]⟩
  · rw [hi]
    cases c <;> cases p.twoInputs <;> simp [ports]
  · rw [ho]
    cases c <;> cases p.twoInputs <;> simp [ports]

/-- A device keeps the name and the resolution it is given, zero if none; a crosstalk device has its channels, an
oscillator its noise settings, a converter its sampling method. -/
theorem C130_settings (five : Q) (c : Cls) (p : Props Q) (d : Device Q) (h : make five c p = .ok d) :
    d.cls = c ∧ d.name = p.name ∧ d.resolution = (match p.resolution with | some r => r | .none => 0) ∧
      (c = .crosstalk → d.channels = p.channels) ∧ (c = .dac → d.sampling = dget p.extra "sampling_method") ∧
      (c = .lo → d.noise = (dget p.extra "phase_noise", dget p.extra "freq_noise", dget p.extra "amp_noise")) := by
  have hr : ∀ o : Option ℝ, o.getD 0 = (match o with | some r => r | .none => 0) := by
    intro o; cases o <;> rfl
  unfold make at h
  simp only at h
  split at h
  · cases h
  · cases c <;> simp only [Except.ok.injEq] at h <;>
      first
      | (rw [← h]; refine ⟨rfl, rfl, hr _, ?_, ?_, ?_⟩ <;> simp)
      | (cases h)
      | (split at h
         · cases h
         · simp only [Except.ok.injEq] at h
           rw [← h]; refine ⟨rfl, rfl, hr _, ?_, ?_, ?_⟩ <;> simp)

/-- A device that exists has the parameters its signal processing reads. -/
theorem C130_needed (five : Q) (c : Cls) (p : Props Q) (d : Device Q) (h : make five c p = .ok d) :
    (c = .readout → ∀ k ∈ ["factor", "offset"], dget d.params k ≠ .none) ∧
    (c = .coupling → ∀ k ∈ ["w_1", "w_2", "g0"], dget d.params k ≠ .none) ∧
    (c = .flux → ∀ k ∈ ["phi_0", "phi", "omega_0", "anhar"], dget d.params k ≠ .none) ∧
    (c = .dcOffset → dget d.params "offset_amp" ≠ .none) := by
  unfold make at h
  simp only at h
  cases hf : (needed c).find? (fun k => (dget (base c p).params k).isNone) with
  | some k => rw [hf] at h; cases h
  | none =>
    rw [hf] at h
    simp only at h
    have hn : ∀ k ∈ needed c, dget (base c p).params k ≠ .none := by
      intro k hk hc
      have := List.find?_eq_none.1 hf k hk
      simp [hc] at this
    refine ⟨?_, ?_, ?_, ?_⟩ <;> rintro rfl
    · simp only [Except.ok.injEq] at h
      rw [← h]; exact hn
    · simp only [Except.ok.injEq] at h
      rw [← h]; exact hn
    · simp only [Except.ok.injEq] at h
      rw [← h]; exact hn
    · simp only at h
      split at h
      · cases h
      · rename_i ho
        simp only [Except.ok.injEq] at h
        rw [← h, ho]; simp

/-- **C130 is false** for crosstalk: after reading, the channels and the matrix are gone. -/
theorem C130_false_crosstalk (five : Q) (d : Device Q) (hc : d.cls = .crosstalk)
    (hq : ∀ kv ∈ d.params, kv.2.isQty = true) : ∃ d', reload five d = .ok d' ∧ d'.channels = .none ∧
      dget d'.params "crosstalk_matrix" = some .none := by
  unfold reload Device.asdict
  rw [if_pos (by rw [List.all_eq_true]; exact hq)]
  simp only [hc, make, needed, List.find?_nil]
  refine ⟨_, rfl, rfl, ?_⟩
  simp [dget_dset, dget, Device.stored]

/-- ... and such a device can be neither registered nor written again. -/
theorem register_none (d : Device Q) (k : String) (v : PVal Q) (h : (k, v) ∈ d.params) (hv : v.isQty = false) :
    register d = .error .attribute := by
  unfold register
  generalize hl : d.params = l at h
  clear hl
  induction l with
  | nil => simp at h
  | cons a l ih =>
    simp only [List.foldr_cons]
    rcases List.mem_cons.1 h with rfl | h
    · cases v
      · simp [PVal.isQty] at hv
      all_goals rfl
    · rw [ih h]
      cases a.2 <;> rfl

/-- **C130 is false** for every device with a parameter that is not a quantity: it cannot be written, and no
parameter map can be built with it. -/
theorem C130_false_register (five : Q) (d : Device Q) (k : String) (v : PVal Q) (h : (k, v) ∈ d.params)
    (hv : v.isQty = false) : reload five d = .error .attribute ∧ register d = .error .attribute := by
  refine ⟨?_, register_none d k v h hv⟩
  unfold reload Device.asdict
  rw [if_neg]
  rw [List.all_eq_true]
  intro hc
  have := hc _ h
  simp [hv] at this

/-- Keywords that are no quantities end up among the parameters: an oscillator with a noise strength, or a
converter with a sampling method, cannot be registered. -/
theorem C130_false_keyword (five : Q) (c : Cls) (hc : c = .lo ∨ c = .dac) (p : Props Q) (he : Distinct p.extra)
    (hp : Distinct p.params) (k : String) (v : PVal Q) (hk : (k, v) ∈ p.extra) (hv : v.isQty = false) :
    ∃ d, make five c p = .ok d ∧ register d = .error .attribute := by
  have hmem : (k, v) ∈ (base c p).params := by
    have : dget (dupdate p.params p.extra) k = some v := by
      rw [dget_dupdate _ _ he, (dget_mem he).2 hk]
      rfl
    exact (dget_mem (dupdate_distinct hp _)).1 this
  rcases hc with rfl | rfl
  · exact ⟨_, rfl, register_none _ k v hmem hv⟩
  · exact ⟨_, rfl, register_none _ k v hmem hv⟩

/-- **C130 is false** for the oscillator noise device: it is written but cannot be read. -/
theorem C130_false_lonoise (five : Q) (d : Device Q) (hc : d.cls = .loNoise)
    (hq : ∀ kv ∈ d.params, kv.2.isQty = true) : reload five d = .error (.key "noise_perc") := by
  unfold reload Device.asdict
  rw [if_pos (by rw [List.all_eq_true]; exact hq)]
  simp [hc, make, needed, dget, Device.stored]

/-- **C130 is false** for pink noise: the number of fluctuators is 5 after reading. -/
theorem C130_false_pink (five : Q) (d : Device Q) (hc : d.cls = .pink)
    (hq : ∀ kv ∈ d.params, kv.2.isQty = true) : ∃ d', reload five d = .ok d' ∧
      dget d'.params "bfl_num" = some (.qty five) := by
  unfold reload Device.asdict
  rw [if_pos (by rw [List.all_eq_true]; exact hq)]
  simp only [hc, make, needed, List.find?_nil]
  refine ⟨_, rfl, ?_⟩
  simp [dget_dset, dget, Device.stored]

/-- **C130 is false** for a coupling with two tunable elements: it still has two inputs after reading, but no
longer takes the second one into account. -/
theorem C130_false_coupling (five : Q) (p : Props Q) (ht : p.twoInputs = true) (d : Device Q)
    (h : make five .coupling p = .ok d) (hq : ∀ kv ∈ d.params, kv.2.isQty = true) :
    d.twoInputs = true ∧ ∃ d', reload five d = .ok d' ∧ d'.inputs = d.inputs ∧ d'.twoInputs = false := by
  unfold make at h
  simp only at h
  cases hf : (needed .coupling).find? (fun k => (dget (base .coupling p).params k).isNone) with
  | some k => rw [hf] at h; cases h
  | none =>
    rw [hf] at h
    simp only [Except.ok.injEq] at h
    have hpar : d.params = (base .coupling p).params := by rw [← h]
    have hcls : d.cls = .coupling := by rw [← h]; rfl
    refine ⟨by rw [← h]; exact ht, ?_⟩
    unfold reload Device.asdict
    rw [if_pos (by rw [List.all_eq_true]; exact hq)]
    simp only [hcls, make]
    have hb : (base Cls.coupling d.stored).params = (base .coupling p).params := by
      rw [← hpar]; simp [base, dupdate, Device.stored]
    rw [hb, hf]
    exact ⟨_, rfl, rfl, rfl⟩

/-- devices.py:436-453 `CouplingTuning.process` for coupling function `g`: the second signal counts only with
`two_inputs`. -/
def coupProcess (g : ℝ → ℝ → ℝ) (two : Bool) (s1 s2 : ℝ) : ℝ := g s1 (if two then s2 else 0) - g 0 0

/-- The lost flag is observable for every coupling that depends on the second element. -/
theorem C130_false_coupling_signal (g : ℝ → ℝ → ℝ) (s1 s2 : ℝ) (h : g s1 s2 ≠ g s1 0) :
    coupProcess g true s1 s2 ≠ coupProcess g false s1 s2 := by
  simp only [coupProcess, if_true, Bool.false_eq_true, if_false]
  intro hc
  exact h (sub_left_inj.1 hc)

/-- Without signals the coupling does not change. -/
theorem C130_coupling_rest (g : ℝ → ℝ → ℝ) (two : Bool) : coupProcess g two 0 0 = 0 := by
  cases two <;> simp [coupProcess]

/-- The registered parameters are the quantities of the device under distinct identifiers. -/
theorem C130_register (d : Device Q) (hq : ∀ kv ∈ d.params, kv.2.isQty = true) :
    ∃ l, register d = .ok l ∧ l.map Prod.fst = d.params.map (fun kv => d.name ++ "-" ++ kv.1) ∧
      l.map (fun x => PVal.qty x.2) = d.params.map Prod.snd := by
  unfold register
  generalize hl : d.params = l at hq
  clear hl
  induction l with
  | nil => exact ⟨[], rfl, rfl, rfl⟩
  | cons a l ih =>
    obtain ⟨r, h1, h2, h3⟩ := ih fun kv hkv => hq kv (List.mem_cons_of_mem _ hkv)
    have ha := hq a List.mem_cons_self
    simp only [List.foldr_cons, h1]
    obtain ⟨k, v⟩ := a
    cases v
    · exact ⟨_, rfl, by simp [h2], by simp [h3]⟩
    all_goals simp [PVal.isQty] at ha

/-! ## Examples -/

/-- A flux tuning device with the needed parameters comes back. -/
example : reload 5 (⟨.flux, "f", 1, 1, 2, [("phi_0", .qty 1), ("phi", .qty 2), ("omega_0", .qty 3), ("anhar", .qty 4)],
    .none, false, .none, (.none, .none, .none)⟩ : Device ℕ) =
    .ok ⟨.flux, "f", 1, 1, 2, [("phi_0", .qty 1), ("phi", .qty 2), ("omega_0", .qty 3), ("anhar", .qty 4)],
    .none, false, .none, (.none, .none, .none)⟩ :=
  C130_reload_partial 5 .flux ⟨"f", .none, .none, some 2, [], [("phi_0", .qty 1), ("phi", .qty 2),
    ("omega_0", .qty 3), ("anhar", .qty 4)], .none, false⟩ _ rfl rfl rfl (by simp [special, dget])
    (by simp [PVal.isQty])

/-- A converter with an explicit sampling method. -/
example : ∃ d, make 5 .dac ({ name := "dac", extra := [("sampling_method", .text "linear")] } : Props ℕ) = .ok d ∧
    register d = .error .attribute :=
  C130_false_keyword 5 .dac (Or.inr rfl) _ (by simp [Distinct]) (by simp [Distinct]) _ _ List.mem_cons_self rfl

/-- A coupling with two inputs. -/
example : ∃ d, make 5 .coupling (⟨"c", .none, .none, .none, [], [("w_1", .qty 1), ("w_2", .qty 2), ("g0", .qty 3)],
    .none, true⟩ : Props ℕ) = .ok d ∧ d.inputs = 2 ∧ ∃ d', reload 5 d = .ok d' ∧ d'.twoInputs = false :=
  ⟨_, rfl, rfl, _, rfl, rfl⟩

/-- A crosstalk device with its matrix. -/
example : ∃ d d', make 5 .crosstalk (⟨"crosstalk", .none, .none, .none, [], [("crosstalk_matrix", .qty 7)],
    some ["d1", "d2"], false⟩ : Props ℕ) = .ok d ∧ d.channels = some ["d1", "d2"] ∧
    reload 5 d = .ok d' ∧ d'.channels = .none := ⟨_, _, rfl, rfl, rfl, rfl⟩

end C3.Config.Dev
