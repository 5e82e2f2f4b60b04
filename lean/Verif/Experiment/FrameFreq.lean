import Verif.Devices.Drive
import Verif.Hilbert.Frame

/-!
# C215: Each drive line is rotated with the frequency its signal oscillates at

`Experiment.compute_propagators` (c3/experiment.py:482-509): the frequency and the frame change of every drive line,
which `Model.get_Frame_Rotation` (c3/model.py:536-578, C37) turns into a rotation of the frame. The signals are those of
the local oscillator, the waveform generator and the mixer (C141).

Simplified: amplitudes are scalars (`ctrl.params["amp"] != 0.0` has no truth value for arrays of several entries);
values are in the units of the simulation, i.e. include the factor of the unit (C10).
-/

noncomputable section

namespace C3.Experiment.FrameFreq

open Real C3.Devices C3.Timing C3.Hilbert

/-! ## Model -/

/-- A component of a drive line (envelope or carrier): the values of its parameters. -/
abbrev Ctrl := String → Option ℝ

/-- The components of a line in the order of their addition (c3/signal/gates.py:220-257 `add_component`). -/
abbrev Line := List (String × Ctrl)

/-- Key not found; the key. -/
inductive Err where
  | key (k : String)
  /-- "Component ... not found in couplings or subsystems" -/
  | line
  deriving DecidableEq

open scoped Classical in
/-- c3/experiment.py:488-492: the loop over the components of a line, from the offset found so far. -/
def offset : Line → ℝ → Except Err ℝ
  | [], o => .ok o
  | (_, c) :: rest, o =>
    match c "freq_offset" with
    | none => offset rest o
    | some d =>
      match c "amp" with
      | none => .error (.key "amp")
      | some a => offset rest (if a ≠ 0 then d else o)

/-- c3/experiment.py:486-500: frequency and frame change of one line. -/
def lineFreq (l : Line) : Except Err (ℝ × ℝ) :=
  match offset l 0 with
  | .error e => .error e
  | .ok o =>
    match l.lookup "carrier" with
    | none => .error (.key "carrier")
    | some c =>
      match c "freq" with
      | none => .error (.key "freq")
      | some f =>
        match c "framechange" with
        | none => .error (.key "framechange")
        | some s => .ok (f + o, s)

/-- c3/experiment.py:484-500: frequencies and frame changes of all lines of an instruction. -/
def freqs : List (String × Line) → Except Err (List (String × ℝ × ℝ))
  | [] => .ok []
  | (n, l) :: rest =>
    match lineFreq l with
    | .error e => .error e
    | .ok fs =>
      match freqs rest with
      | .error e => .error e
      | .ok r => .ok ((n, fs) :: r)

/-- c3/experiment.py:482-502: the frame rotation of an instruction. -/
def gateFrame (dims : List ℕ) (target : String → Option ℕ) (tStart tEnd : ℝ) (comps : List (String × Line)) :
    Except Err (Matrix (Fin dims.prod) (Fin dims.prod) ℂ) :=
  match freqs comps with
  | .error e => .error e
  | .ok r =>
    match frameRotation dims target (fun n => (r.lookup n).map Prod.snd) (tEnd - tStart)
        (r.map fun x => (x.1, x.2.1)) with
    | none => .error .line
    | some F => .ok F

/-- The parameters of an envelope used here (c3/signal/pulse.py:47-54 has a default for each of them). -/
def envCtrl (amp xy off : ℝ) : Ctrl := fun k =>
  if k = "amp" then some amp else if k = "xy_angle" then some xy else if k = "freq_offset" then some off else none

/-- The parameters of a carrier (c3/signal/pulse.py:252-255). -/
def carrierCtrl (freq shift : ℝ) : Ctrl := fun k =>
  if k = "freq" then some freq else if k = "framechange" then some shift else none

/-! ## Specification -/

/-- The component plays a signal (its amplitude is not zero) with frequency offset `d`. -/
def Plays (c : Ctrl) (d : ℝ) : Prop := c "freq_offset" = some d ∧ ∃ a, c "amp" = some a ∧ a ≠ 0

/-- `d` is the offset of the last component that plays, zero if none does. -/
def LastOffset (l : Line) (d : ℝ) : Prop :=
  (d = 0 ∧ ∀ c ∈ l, ∀ d', ¬ Plays c.2 d') ∨
    ∃ pre c post, l = pre ++ c :: post ∧ Plays c.2 d ∧ ∀ c' ∈ post, ∀ d', ¬ Plays c'.2 d'

/-- An envelope of the line with a real shape. -/
structure Env where
  name : String
  amp : ℝ
  xy : ℝ
  off : ℝ
  tFinal : ℝ
  shape : ℝ → ℝ

/-- A line with the given envelopes and, after them, a carrier. -/
def lineOf (es : List Env) (freq shift : ℝ) : Line :=
  es.map (fun e => (e.name, envCtrl e.amp e.xy e.off)) ++ [("carrier", carrierCtrl freq shift)]

/-- The same envelopes as the waveform generator plays them, without delays, in an instruction of length `t1`. -/
def played (t1 : ℝ) (es : List Env) : List AComp :=
  es.map fun e => pulse 0 t1 e.amp e.xy e.off e.tFinal e.shape

/-! ## Lemmas -/

theorem offset_ok (l : Line) (o : ℝ) (h : ∀ c ∈ l, ∀ d, c.2 "freq_offset" = some d → ∃ a, c.2 "amp" = some a) :
    ∃ d, offset l o = .ok d ∧ ((d = o ∧ ∀ c ∈ l, ∀ d', ¬ Plays c.2 d') ∨
      ∃ pre c post, l = pre ++ c :: post ∧ Plays c.2 d ∧ ∀ c' ∈ post, ∀ d', ¬ Plays c'.2 d') := by
  induction l generalizing o with
  | nil => exact ⟨o, rfl, Or.inl ⟨rfl, by simp⟩⟩
  | cons x l ih =>
    have h' : ∀ c ∈ l, ∀ d, c.2 "freq_offset" = some d → ∃ a, c.2 "amp" = some a :=
      fun c hc => h c (List.mem_cons_of_mem _ hc)
    obtain ⟨n, c⟩ := x
    have skip : ∀ o', (∀ d', ¬ Plays c d') → o' = o → ∃ d, offset l o' = .ok d ∧
        ((d = o ∧ ∀ c' ∈ (n, c) :: l, ∀ d', ¬ Plays c'.2 d') ∨
        ∃ pre c' post, (n, c) :: l = pre ++ c' :: post ∧ Plays c'.2 d ∧ ∀ c'' ∈ post, ∀ d', ¬ Plays c''.2 d') := by
      intro o' hn ho
      obtain ⟨d, hd, hc⟩ := ih o' h'
      refine ⟨d, hd, ?_⟩
      rcases hc with ⟨e, hc⟩ | ⟨pre, c', post, e, hp⟩
      · exact Or.inl ⟨e.trans ho, by
          intro c' hc' d'
          rcases List.mem_cons.1 hc' with rfl | hc'
          · exact hn d'
          · exact hc c' hc' d'⟩
      · exact Or.inr ⟨(n, c) :: pre, c', post, by rw [e]; rfl, hp⟩
    cases hf : c "freq_offset" with
    | none =>
      have hn : ∀ d', ¬ Plays c d' := by
        rintro d' ⟨h1, _⟩
        rw [hf] at h1
        cases h1
      obtain ⟨d, hd, hc⟩ := skip o hn rfl
      exact ⟨d, by simp only [offset, hf]; exact hd, hc⟩
    | some e =>
      obtain ⟨a, ha⟩ := h (n, c) List.mem_cons_self e hf
      replace ha : c "amp" = some a := ha
      by_cases h0 : a = 0
      · have hn : ∀ d', ¬ Plays c d' := by
          rintro d' ⟨_, a', h2, h3⟩
          rw [ha] at h2
          cases h2
          exact h3 h0
        obtain ⟨d, hd, hc⟩ := skip o hn rfl
        refine ⟨d, ?_, hc⟩
        simp only [offset, hf, ha, if_neg (not_not.2 h0)]
        exact hd
      · obtain ⟨d, hd, hc⟩ := ih e h'
        refine ⟨d, ?_, Or.inr ?_⟩
        · simp only [offset, hf, ha, if_pos h0]
          exact hd
        rcases hc with ⟨e', hc⟩ | ⟨pre, c', post, e', hp⟩
        · exact ⟨[], (n, c), l, rfl, ⟨by rw [e']; exact hf, a, ha, h0⟩, hc⟩
        · exact ⟨(n, c) :: pre, c', post, by rw [e']; rfl, hp⟩

theorem lastOffset_unique (l : Line) (d d' : ℝ) (h : LastOffset l d) (h' : LastOffset l d') : d = d' := by
  rcases h with ⟨e, h⟩ | ⟨pre, c, post, e, hp, hn⟩
  · rcases h' with ⟨e', _⟩ | ⟨pre', c', post', e', hp', _⟩
    · rw [e, e']
    · exact absurd hp' (h c' (by rw [e']; simp) _)
  · rcases h' with ⟨_, h'⟩ | ⟨pre', c', post', e', hp', hn'⟩
    · exact absurd hp (h' c (by rw [e]; simp) _)
    · have hc : c = c' := by
        rw [e] at e'
        rcases List.append_eq_append_iff.1 e' with ⟨as, h1, h2⟩ | ⟨as, h1, h2⟩
        · cases as with
          | nil => simp at h2; exact h2.1
          | cons x as =>
            simp only [List.cons_append, List.cons.injEq] at h2
            exact absurd hp' (hn c' (by rw [h2.2]; simp) _)
        · cases as with
          | nil => simp at h2; exact h2.1.symm
          | cons x as =>
            simp only [List.cons_append, List.cons.injEq] at h2
            exact absurd hp (hn' c (by rw [h2.2]; simp) _)
      subst hc
      have := hp.1.symm.trans hp'.1
      exact Option.some.inj this

theorem offset_bad (l : Line) (o : ℝ) (c : String × Ctrl) (hc : c ∈ l) (d : ℝ) (hf : c.2 "freq_offset" = some d)
    (ha : c.2 "amp" = none) : offset l o = .error (.key "amp") := by
  induction l generalizing o with
  | nil => simp at hc
  | cons x l ih =>
    obtain ⟨n, x⟩ := x
    rcases List.mem_cons.1 hc with rfl | hc
    · simp only at hf ha
      simp only [offset, hf, ha]
    · cases h1 : x "freq_offset" with
      | none => simp only [offset, h1]; exact ih _ hc
      | some e =>
        cases h2 : x "amp" with
        | none => simp only [offset, h1, h2]
        | some a => simp only [offset, h1, h2]; exact ih _ hc

/-! ## C215 -/

/-- **C215**: a line has a frequency and a frame change exactly if it has a component called "carrier" with parameters
`freq` and `framechange`, and an amplitude wherever there is an offset. The frequency is that of the carrier plus the
offset of the last component that plays (zero if none does); the frame change is that of the carrier. -/
theorem C215_frequency (l : Line) (f s : ℝ) :
    lineFreq l = .ok (f, s) ↔
      (∀ c ∈ l, ∀ d, c.2 "freq_offset" = some d → ∃ a, c.2 "amp" = some a) ∧
      ∃ c w d, l.lookup "carrier" = some c ∧ c "freq" = some w ∧ c "framechange" = some s ∧ LastOffset l d ∧
        f = w + d := by
  by_cases h : ∀ c ∈ l, ∀ d, c.2 "freq_offset" = some d → ∃ a, c.2 "amp" = some a
  · obtain ⟨d, hd, hl⟩ := offset_ok l 0 h
    have hl : LastOffset l d := hl
    simp only [lineFreq, hd]
    constructor
    · intro hr
      refine ⟨h, ?_⟩
      cases h1 : l.lookup "carrier" with
      | none => rw [h1] at hr; cases hr
      | some c =>
        rw [h1] at hr
        simp only at hr
        cases h2 : c "freq" with
        | none => rw [h2] at hr; cases hr
        | some w =>
          rw [h2] at hr
          simp only at hr
          cases h3 : c "framechange" with
          | none => rw [h3] at hr; cases hr
          | some s' =>
            rw [h3] at hr
            simp only [Except.ok.injEq, Prod.mk.injEq] at hr
            exact ⟨c, w, d, rfl, h2, by rw [h3, hr.2], hl, hr.1.symm⟩
    · rintro ⟨_, c, w, d', h1, h2, h3, h4, h5⟩
      simp only [h1, h2, h3]
      rw [h5, lastOffset_unique l d d' hl h4]
  · constructor
    · intro hr
      push Not at h
      obtain ⟨c, hc, d, hf, ha⟩ := h
      have : c.2 "amp" = none := by
        cases h2 : c.2 "amp" with
        | none => rfl
        | some a => exact absurd h2 (ha a)
      rw [lineFreq, offset_bad l 0 c hc d hf this] at hr
      cases hr
    · rintro ⟨h', _⟩
      exact absurd h' h

theorem freqs_ok (comps : List (String × Line)) (r : List (String × ℝ × ℝ)) (h : freqs comps = .ok r) :
    List.Forall₂ (fun c x => c.1 = x.1 ∧ lineFreq c.2 = .ok x.2) comps r := by
  induction comps generalizing r with
  | nil =>
    simp only [freqs, Except.ok.injEq] at h
    subst h
    exact .nil
  | cons c comps ih =>
    obtain ⟨n, l⟩ := c
    cases h1 : lineFreq l with
    | error e => simp only [freqs, h1] at h; cases h
    | ok fs =>
      cases h2 : freqs comps with
      | error e => simp only [freqs, h1, h2] at h; cases h
      | ok r' =>
        simp only [freqs, h1, h2, Except.ok.injEq] at h
        subst h
        exact .cons ⟨rfl, h1⟩ (ih r' h2)

theorem lookup_of_mem {α : Type} (r : List (String × α)) (hn : (r.map Prod.fst).Nodup) (x : String × α)
    (hx : x ∈ r) : r.lookup x.1 = some x.2 := by
  induction r with
  | nil => simp at hx
  | cons y r ih =>
    rw [List.map_cons, List.nodup_cons] at hn
    rcases List.mem_cons.1 hx with rfl | hx
    · rw [List.lookup_cons, beq_self_eq_true]
    · rw [List.lookup_cons]
      have : (x.1 == y.1) = false := by
        rw [beq_eq_false_iff_ne]
        intro e
        exact hn.1 (e ▸ List.mem_map_of_mem hx)
      rw [this]
      exact ih hn.2 hx

/-- **C215**, the rotation: with the frequencies `f` and frame changes `s` of the lines (different names, each
belonging to a subsystem), every state gets the phase `Σ (f T + s)·level` over the lines, where `T` is the length of
the instruction. -/
theorem C215_rotation (dims : List ℕ) (target : String → Option ℕ) (tStart tEnd : ℝ)
    (comps : List (String × Line)) (r : List (String × ℝ × ℝ)) (h : freqs comps = .ok r)
    (hn : (comps.map Prod.fst).Nodup) (ht : ∀ c ∈ comps, ∃ q < dims.length, target c.1 = some q) :
    gateFrame dims target tStart tEnd comps = .ok (Matrix.diagonal fun p => Complex.exp (Complex.I *
      ((r.map fun x => (x.2.1 * (tEnd - tStart) + x.2.2) * (levelAt dims ((target x.1).getD 0) p : ℝ)).sum : ℝ))) := by
  have hf := freqs_ok comps r h
  have hnames : comps.map Prod.fst = r.map Prod.fst := by
    clear h hn ht
    induction hf with
    | nil => rfl
    | cons h1 _ ih => simp [h1.1, ih]
  have hnr : (r.map Prod.fst).Nodup := hnames ▸ hn
  have htr : ∀ x ∈ r, ∃ q < dims.length, target x.1 = some q := by
    intro x hx
    have : x.1 ∈ comps.map Prod.fst := hnames ▸ List.mem_map_of_mem hx
    obtain ⟨c, hc, e⟩ := List.mem_map.1 this
    rw [← e]
    exact ht c hc
  have hok : FramesOk dims target (fun n => (r.lookup n).map Prod.snd) (r.map fun x => (x.1, x.2.1)) := by
    intro y hy
    obtain ⟨x, hx, rfl⟩ := List.mem_map.1 hy
    refine ⟨⟨x.2.2, ?_⟩, htr x hx⟩
    simp [lookup_of_mem r hnr x hx]
  simp only [gateFrame, h, C37_diagonal dims target _ _ _ hok]
  congr 2
  funext p
  congr 3
  unfold framePhase
  rw [List.map_map]
  congr 1
  apply List.map_congr_left
  intro x hx
  simp [lookup_of_mem r hnr x hx]

theorem lastOffset_lineOf (es : List Env) (freq shift d : ℝ) (h : ∀ e ∈ es, e.amp ≠ 0 → e.off = d)
    (hp : ∃ e ∈ es, e.amp ≠ 0) : LastOffset (lineOf es freq shift) d := by
  obtain ⟨d', hd', hl⟩ := offset_ok (lineOf es freq shift) 0 (by
    intro c hc d hd
    rcases List.mem_append.1 hc with hc | hc
    · obtain ⟨e, _, rfl⟩ := List.mem_map.1 hc
      exact ⟨e.amp, by simp [envCtrl]⟩
    · simp only [List.mem_singleton] at hc
      subst hc
      simp [carrierCtrl] at hd)
  have hpl : ∀ e : Env, ∀ x, Plays (envCtrl e.amp e.xy e.off) x ↔ x = e.off ∧ e.amp ≠ 0 := by
    intro e x
    simp [Plays, envCtrl, eq_comm]
  rcases hl with ⟨_, hl⟩ | ⟨pre, c, post, e', hp', hn⟩
  · obtain ⟨e, he, ha⟩ := hp
    exact absurd ((hpl e e.off).2 ⟨rfl, ha⟩)
      (hl (e.name, envCtrl e.amp e.xy e.off) (List.mem_append_left _ (List.mem_map_of_mem (f := fun e : Env =>
        (e.name, envCtrl e.amp e.xy e.off)) he)) e.off)
  · have hc : c ∈ lineOf es freq shift := by rw [e']; simp
    rcases List.mem_append.1 hc with hc | hc
    · obtain ⟨e, he, rfl⟩ := List.mem_map.1 hc
      obtain ⟨h1, h2⟩ := (hpl e d').1 hp'
      have : d' = d := h1.trans (h e he h2)
      exact Or.inr ⟨pre, _, post, e', this ▸ hp', hn⟩
    · simp only [List.mem_singleton] at hc
      subst hc
      obtain ⟨h1, _⟩ := hp'
      simp [carrierCtrl] at h1

theorem lookup_lineOf (es : List Env) (freq shift : ℝ) (hn : ∀ e ∈ es, e.name ≠ "carrier") :
    (lineOf es freq shift).lookup "carrier" = some (carrierCtrl freq shift) := by
  unfold lineOf
  induction es with
  | nil => simp
  | cons e es ih =>
    rw [List.map_cons, List.cons_append, List.lookup_cons]
    have : ("carrier" == e.name) = false := by
      rw [beq_eq_false_iff_ne]
      exact fun h => hn e List.mem_cons_self h.symm
    rw [this]
    exact ih fun e he => hn e (List.mem_cons_of_mem _ he)

theorem lineFreq_lineOf (es : List Env) (freq shift d : ℝ) (hn : ∀ e ∈ es, e.name ≠ "carrier")
    (h : LastOffset (lineOf es freq shift) d) : lineFreq (lineOf es freq shift) = .ok (freq + d, shift) := by
  rw [C215_frequency]
  refine ⟨?_, carrierCtrl freq shift, freq, d, lookup_lineOf es freq shift hn, by simp [carrierCtrl],
    by simp [carrierCtrl], h, rfl⟩
  intro c hc d hd
  rcases List.mem_append.1 hc with hc | hc
  · obtain ⟨e, _, rfl⟩ := List.mem_map.1 hc
    exact ⟨e.amp, by simp [envCtrl]⟩
  · simp only [List.mem_singleton] at hc
    subst hc
    simp [carrierCtrl] at hd

/-- **C215**, the signal: if all envelopes that play have the same offset (and at least one plays), the line carries a
sum of oscillations `amp·mask·shape·cos(F t - xy)` at exactly the frequency `F` the frame is rotated with. -/
theorem C215_signal_partial (es : List Env) (freq shift d t1 : ℝ) (hn : ∀ e ∈ es, e.name ≠ "carrier")
    (h : ∀ e ∈ es, e.amp ≠ 0 → e.off = d) (hp : ∃ e ∈ es, e.amp ≠ 0) (ts : List ℝ) (h2 : 2 ≤ ts.length) :
    ∃ F, lineFreq (lineOf es freq shift) = .ok (F, shift) ∧
      mixer (loClean freq ts) (awgSig (played t1 es) ts) = some [("values", ts.map fun t =>
        (es.map fun e => e.amp * (maskAt (ts.getD 1 0 - ts.getD 0 0) (min e.tFinal t1) t * e.shape t) *
          cos (F * t - e.xy)).sum), ("ts", ts)] := by
  refine ⟨freq + d, lineFreq_lineOf es freq shift d hn (lastOffset_lineOf es freq shift d h hp), ?_⟩
  rw [C141_mixed _ _ _ h2]
  congr 4
  funext t
  unfold played
  rw [List.map_map]
  congr 1
  apply List.map_congr_left
  intro e he
  simp only [Function.comp, pulse, compAt, sub_zero]
  by_cases ha : e.amp = 0
  · simp [ha]
  rw [h e he ha, mul_assoc, ← Complex.exp_add]
  rw [show Complex.I * ((e.xy - d * t : ℝ) : ℂ) + -(Complex.I * ((freq * t : ℝ) : ℂ)) =
    ((-((freq + d) * t - e.xy) : ℝ) : ℂ) * Complex.I by push_cast; ring]
  rw [← Complex.ofReal_mul, ← Complex.ofReal_mul, Complex.re_ofReal_mul, Complex.exp_ofReal_mul_I_re, cos_neg]

/-- The line made by `quick_setup` (c3/signal/gates.py:372-399, frequencies `quickFreqs` of C141), with the amplitude
set to `amp`. -/
def quickLine (qubitFreq : ℝ) (sideband : Option ℝ) (amp : ℝ) : Line :=
  lineOf [⟨"gaussian", amp, 0, (quickFreqs qubitFreq sideband).2, 0, fun _ => 0⟩] (quickFreqs qubitFreq sideband).1 0

/-- **C215**, `quick_setup`: with or without a sideband, the frame is rotated with the frequency of the qubit, for every
amplitude except zero. -/
theorem C215_quick_setup (f amp : ℝ) (sb : Option ℝ) (ha : amp ≠ 0) :
    lineFreq (quickLine f sb amp) = .ok (2 * π * f, 0) := by
  have hs : (quickFreqs f sb).1 + (quickFreqs f sb).2 = 2 * π * f := by
    unfold quickFreqs
    cases sb with
    | none => simp
    | some s =>
      by_cases h : s = 0
      · simp [h]
      · simp [h]
        ring
  rw [← hs]
  exact lineFreq_lineOf _ _ _ _ (by simp) (lastOffset_lineOf _ _ _ _ (by simp) ⟨_, List.mem_cons_self, ha⟩)

/-- **C215**, waiting: a rotation with the frequencies of the qubits and no frame changes undoes the evolution of
uncoupled, undriven qubits without anharmonicity (phases `-f T` per level), for any number of qubits. -/
theorem C215_wait (dims : List ℕ) (target : String → Option ℕ) (tStart tEnd : ℝ)
    (comps : List (String × Line)) (r : List (String × ℝ × ℝ)) (h : freqs comps = .ok r)
    (hn : (comps.map Prod.fst).Nodup) (ht : ∀ c ∈ comps, ∃ q < dims.length, target c.1 = some q)
    (hs : ∀ x ∈ r, x.2.2 = 0) :
    ∃ F, gateFrame dims target tStart tEnd comps = .ok F ∧
      F * (Matrix.diagonal fun p => Complex.exp (-(Complex.I * ((r.map fun x => x.2.1 *
        (levelAt dims ((target x.1).getD 0) p : ℝ)).sum * (tEnd - tStart) : ℝ)))) = 1 := by
  refine ⟨_, C215_rotation dims target tStart tEnd comps r h hn ht, ?_⟩
  rw [Matrix.diagonal_mul_diagonal, ← Matrix.diagonal_one]
  congr 1
  funext p
  rw [← Complex.exp_add]
  have : (r.map fun x => (x.2.1 * (tEnd - tStart) + x.2.2) * (levelAt dims ((target x.1).getD 0) p : ℝ)).sum =
      (r.map fun x => x.2.1 * (levelAt dims ((target x.1).getD 0) p : ℝ)).sum * (tEnd - tStart) := by
    rw [← List.sum_map_mul_right]
    congr 1
    apply List.map_congr_left
    intro x hx
    rw [hs x hx]
    ring
  rw [this, add_neg_cancel, Complex.exp_zero]

/-! ## Where the claim fails -/

/-- The claim "the frame does not depend on how strong a pulse is" is false: with a sideband, an amplitude of exactly
zero switches to the frequency of the carrier, which misses the qubit by the sideband. -/
theorem C215_false_zero (f s : ℝ) (hs : s ≠ 0) :
    lineFreq (quickLine f (some s) 0) = .ok (2 * π * (f - s), 0) ∧ 2 * π * (f - s) ≠ 2 * π * f := by
  have h1 : quickFreqs f (some s) = (2 * π * (f - s), 2 * π * s) := by simp [quickFreqs, hs]
  refine ⟨?_, fun h => hs ?_⟩
  · have := lineFreq_lineOf [⟨"gaussian", 0, 0, (quickFreqs f (some s)).2, 0, fun _ => 0⟩] (quickFreqs f (some s)).1 0 0
      (by simp) (Or.inl ⟨rfl, by
        intro c hc d' hp
        simp only [lineOf, List.map_cons, List.map_nil, List.cons_append, List.nil_append, List.mem_cons,
          List.not_mem_nil, or_false] at hc
        rcases hc with rfl | rfl
        · obtain ⟨_, a, h2, h3⟩ := hp
          simp only [envCtrl, if_true, Option.some.injEq] at h2
          exact h3 h2.symm
        · obtain ⟨h2, _⟩ := hp
          simp [carrierCtrl] at h2⟩)
    rw [quickLine, this, h1, add_zero]
  · have hpi : (2 * π) ≠ 0 := by positivity
    have := mul_left_cancel₀ hpi h
    linarith

/-- ... and waiting with such a line (amplitude zero, so that nothing is driven) turns the qubit about `z` by the
sideband times the length: on the first level the phase left is `-2π s T`. -/
theorem C215_false_idle (f s T : ℝ) (hs : s ≠ 0) :
    ∃ F, gateFrame [2] (fun _ => some 0) 0 T [("d1", quickLine f (some s) 0)] = .ok F ∧
      F * (Matrix.diagonal fun p => Complex.exp (-(Complex.I * (2 * π * f * T * levelAt [2] 0 p : ℝ)))) =
        Matrix.diagonal fun p => Complex.exp (-(Complex.I * (2 * π * s * T * levelAt [2] 0 p : ℝ))) := by
  have hf : freqs [("d1", quickLine f (some s) 0)] = .ok [("d1", 2 * π * (f - s), 0)] := by
    simp only [freqs, (C215_false_zero f s hs).1]
  refine ⟨_, C215_rotation _ _ _ _ _ _ hf (by simp) (by simp), ?_⟩
  rw [Matrix.diagonal_mul_diagonal]
  congr 1
  funext p
  rw [← Complex.exp_add]
  congr 1
  simp only [List.map_cons, List.map_nil, List.sum_cons, List.sum_nil, Option.getD_some]
  push_cast
  ring

/-- The claim "every pulse is rotated with its own frequency" is false: of two envelopes with different offsets on a
line only the last one counts. -/
theorem C215_false_two (w d₁ d₂ : ℝ) (h : d₁ ≠ d₂) :
    lineFreq (lineOf [⟨"a", 1, 0, d₁, 1, fun _ => 1⟩, ⟨"b", 1, 0, d₂, 1, fun _ => 1⟩] w 0) = .ok (w + d₂, 0) ∧
      lineFreq (lineOf [⟨"b", 1, 0, d₂, 1, fun _ => 1⟩, ⟨"a", 1, 0, d₁, 1, fun _ => 1⟩] w 0) = .ok (w + d₁, 0) ∧
      w + d₁ ≠ w + d₂ := by
  refine ⟨?_, ?_, fun e => h (by linarith)⟩ <;>
  simp [lineFreq, offset, lineOf, envCtrl, carrierCtrl, List.lookup_cons]

/-- The claim "a pulse with a carrier has a frame" is false: the local oscillator takes any carrier, but the frame needs
one that is called "carrier". -/
theorem C215_false_name (e : Ctrl) (n : String) (h : n ≠ "carrier") (a d w s : ℝ)
    (he : e = envCtrl a 0 d) : lineFreq [("env", e), (n, carrierCtrl w s)] = .error (.key "carrier") := by
  have : ("carrier" == n) = false := by
    rw [beq_eq_false_iff_ne]
    exact fun h' => h h'.symm
  subst he
  simp [lineFreq, offset, envCtrl, carrierCtrl, List.lookup_cons, this]

/-- C215: what is missing is named: the carrier, its frequency, then its frame change. -/
theorem C215_missing (l : Line) (h : ∀ c ∈ l, ∀ d, c.2 "freq_offset" = some d → ∃ a, c.2 "amp" = some a) :
    (l.lookup "carrier" = none → lineFreq l = .error (.key "carrier")) ∧
      ∀ c, l.lookup "carrier" = some c → (c "freq" = none → lineFreq l = .error (.key "freq")) ∧
        ∀ w, c "freq" = some w → c "framechange" = none → lineFreq l = .error (.key "framechange") := by
  obtain ⟨d, hd, -⟩ := offset_ok l 0 h
  refine ⟨fun h1 => ?_, fun c hc => ⟨fun h1 => ?_, fun w hw h1 => ?_⟩⟩
  · simp only [lineFreq, hd, h1]
  · simp only [lineFreq, hd, hc, h1]
  · simp only [lineFreq, hd, hc, hw, h1]

/-! ## Examples -/

example : lineFreq (lineOf [⟨"gauss", 1, 0, -3, 1, fun _ => 1⟩, ⟨"off", 0, 0, 7, 1, fun _ => 1⟩] 10 2) = .ok (7, 2) := by
  have := lineFreq_lineOf [⟨"gauss", 1, 0, -3, 1, fun _ => 1⟩, ⟨"off", 0, 0, 7, 1, fun _ => 1⟩] 10 2 (-3) (by simp)
    (lastOffset_lineOf _ _ _ _ (by simp) ⟨_, List.mem_cons_self, one_ne_zero⟩)
  rw [this]
  norm_num

example : ∃ F, gateFrame [2, 3] (fun n => if n = "d1" then some 0 else some 1) 1 4
    [("d1", lineOf [⟨"g", 1, 0, 0, 1, fun _ => 1⟩] 5 0), ("d2", lineOf [] 6 0)] = .ok F := by
  have h1 : lineFreq (lineOf [⟨"g", 1, 0, 0, 1, fun _ => 1⟩] 5 0) = .ok (5, 0) := by
    simp [lineFreq, offset, lineOf, envCtrl, carrierCtrl, List.lookup_cons]
  have h2 : lineFreq (lineOf [] 6 0) = .ok (6, 0) := by
    simp [lineFreq, offset, lineOf, carrierCtrl]
  obtain ⟨F, hF, _⟩ := C215_wait [2, 3] (fun n => if n = "d1" then some 0 else some 1) 1 4
    [("d1", lineOf [⟨"g", 1, 0, 0, 1, fun _ => 1⟩] 5 0), ("d2", lineOf [] 6 0)] [("d1", 5, 0), ("d2", 6, 0)]
    (by simp only [freqs, h1, h2]) (by simp) (by simp) (by simp)
  exact ⟨F, hF⟩

end C3.Experiment.FrameFreq
