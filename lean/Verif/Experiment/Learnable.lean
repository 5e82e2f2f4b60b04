import Verif.Experiment.Decays
import Verif.Optim.Estimators
import Mathlib.Analysis.SpecialFunctions.Trigonometric.Chebyshev.Basic

/-!
# C245: what relaxation, Ramsey and echo data determine

`ModelLearning` (c3/optimizers/modellearning.py:218-242, 275-360) simulates the sequences of the data set with the
parameters that the algorithm proposes and compares with the measured values by estimators
(c3/libraries/estimators.py:19-37). Here the data are the populations that a device shows after the sequences of
c3/utils/qt_utils.py:364-445; the device and the candidate are qubits as in C236. Without noise in the data, an estimate is
perfect if the goal is zero: which parameters do the data fix?
-/

noncomputable section

namespace C3.Experiment.Learnable

open Matrix C3.Propagation C3.Hilbert C3.Experiment C3.Experiment.Compute C3.Experiment.EndToEnd
  C3.Experiment.WeakNoise C3.Experiment.Decays C3.Gates C3.Optim.Est

/-! ## Specification -/

/-- A qubit, with the experiment that has computed its wait `g`, and a table of propagators with ideal quarter turns. -/
structure Device (g : String) (p : Pulse) (target : ℕ) where
  chip : Chip [2]
  energies : Fin 2 → ℝ
  kind : Kind
  t1 : Option ℝ
  t2 : Option ℝ
  pulses : List (String × Pulse)
  exp : Exp (SOp [2])
  props : String → Option (SOp [2])
  pos : Positive t1 t2
  given : Given chip energies kind t1 t2 pulses g p exp
  turns : Turns props target
  wait : props g = exp.propagators g

variable {g : String} {p : Pulse} {target : ℕ}

/-- The frequency of the qubit. -/
def Device.gap (d : Device g p target) : ℝ := d.energies 1 - d.energies 0

/-- The phase gained in one wait. -/
def Device.phase (d : Device g p target) : ℝ := gained d.chip.useFR d.gap p

/-- The rate at which coherences decay. -/
def Device.rate (d : Device g p target) : ℝ := rate1 d.kind d.t1 / 2 + rate2 d.t2

/-- Only one of the decay times is given. -/
def Device.Single (d : Device g p target) : Prop := d.t1 = none ∨ d.t2 = none

/-- The time that the wait takes. -/
def length (p : Pulse) : ℝ := p.dt * p.values.length

/-- The excited population after a sequence, c3/experiment.py:279-339 and 404-436. -/
def excited (props : String → Option (SOp [2])) (seq : List String) : Option ℝ :=
  (evaluateOpen props [seq] ground).bind fun l => l.head?.map fun pops : Fin 2 → ℝ => pops 1

/-- The data points: measured on one device, simulated for another. -/
def Points (a b : Device g p target) : List (List String) → List Pt → Prop :=
  List.Forall₂ fun seq pt => excited a.props seq = some pt.exp ∧ excited b.props seq = some pt.sim

/-- The estimators see no difference. -/
def Perfect (l : List Pt) : Prop := rmsDist l = some 0 ∧ meanDist l = some 0

/-! ## Lemmas -/

theorem sum_zero {ι : Type} (l : List ι) (f : ι → ℝ) (hf : ∀ x ∈ l, 0 ≤ f x) :
    (l.map f).sum = 0 ↔ ∀ x ∈ l, f x = 0 := by
  induction l with
  | nil => simp
  | cons a l ih =>
    have h1 := hf a (by simp)
    have h2 : 0 ≤ (l.map f).sum := List.sum_nonneg (by
      intro y hy
      obtain ⟨x, hx, rfl⟩ := List.mem_map.1 hy
      exact hf x (by simp [hx]))
    rw [List.map_cons, List.sum_cons, add_eq_zero_iff_of_nonneg h1 h2, ih fun x hx => hf x (by simp [hx])]
    simp

theorem mean_zero {ι : Type} (l : List ι) (hl : l ≠ []) (f : ι → ℝ) (hf : ∀ x ∈ l, 0 ≤ f x) :
    mean (l.map f) = some 0 ↔ ∀ x ∈ l, f x = 0 := by
  have hn : (l.length : ℝ) ≠ 0 := by
    rw [Nat.cast_ne_zero]
    exact fun h => hl (List.length_eq_zero_iff.1 h)
  rw [mean, if_neg (by simpa using hl), Option.some.injEq, List.length_map, div_eq_zero_iff, or_iff_left hn, sum_zero l f hf]

theorem rms_zero (l : List Pt) (hl : l ≠ []) : rmsDist l = some 0 ↔ ∀ x ∈ l, x.exp = x.sim := by
  have hnn : ∀ x ∈ l, 0 ≤ diff x ^ 2 := fun x _ => sq_nonneg _
  have key : rmsDist l = some 0 ↔ mean (l.map fun p => diff p ^ 2) = some 0 := by
    unfold rmsDist
    have hm : mean (l.map fun p => diff p ^ 2) = some ((l.map fun p => diff p ^ 2).sum / (l.map fun p => diff p ^ 2).length) :=
      if_neg (by simpa using hl)
    have h0 : 0 ≤ (l.map fun p => diff p ^ 2).sum / (l.map fun p => diff p ^ 2).length := by
      refine div_nonneg (List.sum_nonneg ?_) (Nat.cast_nonneg _)
      intro y hy
      obtain ⟨x, hx, rfl⟩ := List.mem_map.1 hy
      exact hnn x hx
    rw [hm, Option.bind_some, tfSqrt, if_pos h0, Option.some.injEq, Option.some.injEq, Real.sqrt_eq_zero h0]
  rw [key, mean_zero l hl _ hnn]
  refine forall₂_congr fun x _ => ?_
  rw [pow_eq_zero_iff two_ne_zero, diff, abs_eq_zero, sub_eq_zero]

theorem dist_zero (l : List Pt) (hl : l ≠ []) : meanDist l = some 0 ↔ ∀ x ∈ l, x.exp = x.sim := by
  unfold meanDist
  rw [mean_zero l hl diff fun x _ => abs_nonneg _]
  refine forall₂_congr fun x _ => ?_
  rw [diff, abs_eq_zero, sub_eq_zero]

theorem perfect_iff (l : List Pt) (hl : l ≠ []) : Perfect l ↔ ∀ x ∈ l, x.exp = x.sim := by
  rw [Perfect, rms_zero l hl, dist_zero l hl, and_self]

/-- The estimators see no difference if and only if the populations agree after each sequence. -/
theorem points_iff (a b : Device g p target) (seqs : List (List String)) (hs : seqs ≠ []) (l : List Pt)
    (h : Points a b seqs l) : Perfect l ↔ ∀ s ∈ seqs, excited a.props s = excited b.props s := by
  have hl : l ≠ [] := by
    rintro rfl
    cases h
    exact hs rfl
  rw [perfect_iff l hl]
  clear hs hl
  induction h with
  | nil => simp
  | cons h1 _ ih => rw [List.forall_mem_cons, List.forall_mem_cons, propext ih, h1.1, h1.2, Option.some.injEq]

theorem excited_of (props : String → Option (SOp [2])) (seq : List String) (pops : Fin 2 → ℝ)
    (h : evaluateOpen props [seq] ground = some [pops]) : excited props seq = some (pops 1) := by
  unfold excited
  rw [h]
  rfl

theorem relaxation_shows (d : Device "Id" p target) (n : ℕ) :
    excited d.props (t1Sequence n target) = some (Real.exp (-(rate1 d.kind d.t1 * (n * length p)))) := by
  obtain ⟨pops, h1, h2, -⟩ := C236_relaxation d.chip d.energies d.kind d.t1 d.t2 d.pos d.pulses p d.exp d.given target
    d.props d.turns d.wait n
  rw [excited_of _ _ pops h1, h2, length]

theorem ramsey_shows (d : Device "id" p target) (hd : d.Single) (n : ℕ) :
    excited d.props (ramseySequence n target) =
      some ((1 + Real.cos (n * d.phase) * Real.exp (-(d.rate * (n * length p)))) / 2) := by
  obtain ⟨pops, h1, h2, -⟩ := C236_ramsey_partial d.chip d.energies d.kind d.t1 d.t2 d.pos hd d.pulses p d.exp d.given target
    d.props d.turns d.wait n
  rw [excited_of _ _ pops h1, h2, length, Device.rate, Device.phase, Device.gap]

theorem echo_shows (d : Device "id" p target) (hd : d.Single) (n : ℕ) :
    excited d.props (echoSequence n target) =
      some ((1 + Real.exp (-(d.rate * ((2 * (n / 2) : ℕ) * length p)))) / 2) := by
  obtain ⟨pops, h1, h2, -⟩ := C236_echo_partial d.chip d.energies d.kind d.t1 d.t2 d.pos hd d.pulses p d.exp d.given target
    d.props d.turns d.wait n
  rw [excited_of _ _ pops h1, h2, length, Device.rate, (C66_echo n target).1]

/-- Two damped cosines agree everywhere if they agree at one and at two. -/
theorem cosines (r s x y : ℝ) (hr : 0 < r) (hs : 0 < s) (h1 : Real.cos x * r = Real.cos y * s)
    (h2 : Real.cos (2 * x) * r ^ 2 = Real.cos (2 * y) * s ^ 2) : r = s ∧ Real.cos x = Real.cos y := by
  rw [Real.cos_two_mul, Real.cos_two_mul] at h2
  have h3 : (Real.cos x * r) ^ 2 = (Real.cos y * s) ^ 2 := by rw [h1]
  have h4 : r ^ 2 = s ^ 2 := by nlinarith
  have h5 : r = s := by
    rcases sq_eq_sq_iff_eq_or_eq_neg.1 h4 with h | h
    · exact h
    · linarith
  subst h5
  exact ⟨rfl, mul_right_cancel₀ hr.ne' h1⟩

theorem cos_mul_congr (x y : ℝ) (h : Real.cos x = Real.cos y) (n : ℕ) : Real.cos (n * x) = Real.cos (n * y) := by
  have := congrArg (fun c => (Polynomial.Chebyshev.T ℝ n).eval c) h
  simpa [Polynomial.Chebyshev.T_real_cos] using this

theorem rate1_inj (k : Kind) (x y : ℝ) (hx : 0 < x) (hy : 0 < y) : rate1 k (some x) = rate1 k (some y) ↔ x = y := by
  unfold rate1 relaxRate
  constructor
  · intro h
    cases k <;> field_simp at h <;> linarith
  · rintro rfl
    rfl

/-! ## C245 -/

/-- **C245**: every device gives data points for every list of sequences of waits, so the comparisons below take place. -/
theorem C245_points (a b : Device "Id" p target) (ns : List ℕ) :
    ∃ l, Points a b (ns.map (t1Sequence · target)) l := by
  induction ns with
  | nil => exact ⟨[], .nil⟩
  | cons n ns ih =>
    obtain ⟨l, hl⟩ := ih
    exact ⟨⟨_, _, 0, 0⟩ :: l, .cons ⟨relaxation_shows a n, relaxation_shows b n⟩ hl⟩

/-- **C245**: so do Ramsey and echo sequences. -/
theorem C245_points_phase (a b : Device "id" p target) (ha : a.Single) (hb : b.Single) (ns : List ℕ) :
    (∃ l, Points a b (ns.map (ramseySequence · target)) l) ∧ ∃ l, Points a b (ns.map (echoSequence · target)) l := by
  induction ns with
  | nil => exact ⟨⟨[], .nil⟩, [], .nil⟩
  | cons n ns ih =>
    obtain ⟨⟨l, hl⟩, m, hm⟩ := ih
    exact ⟨⟨⟨_, _, 0, 0⟩ :: l, .cons ⟨ramsey_shows a ha n, ramsey_shows b hb n⟩ hl⟩,
      ⟨_, _, 0, 0⟩ :: m, .cons ⟨echo_shows a ha n, echo_shows b hb n⟩ hm⟩

/-- **C245**: relaxation data with at least one wait fix the relaxation rate, and nothing else. -/
theorem C245_relaxation (a b : Device "Id" p target) (hp : 0 < length p) (ns : List ℕ) (hn : ∃ n ∈ ns, 0 < n)
    (l : List Pt) (h : Points a b (ns.map (t1Sequence · target)) l) :
    Perfect l ↔ rate1 a.kind a.t1 = rate1 b.kind b.t1 := by
  obtain ⟨m, hm, hm0⟩ := hn
  have hne : ns.map (t1Sequence · target) ≠ [] := by
    intro h0
    rw [List.map_eq_nil_iff.1 h0] at hm
    simp at hm
  rw [points_iff a b _ hne l h]
  constructor
  · intro hs
    have := hs _ (List.mem_map.2 ⟨m, hm, rfl⟩)
    rw [relaxation_shows, relaxation_shows, Option.some.injEq, Real.exp_eq_exp, neg_inj] at this
    have hpos : (0 : ℝ) < m * length p := by positivity
    exact mul_right_cancel₀ hpos.ne' this
  · intro hr s hs
    obtain ⟨n, -, rfl⟩ := List.mem_map.1 hs
    rw [relaxation_shows, relaxation_shows, hr]

/-- **C245**: for a device and a candidate of the same kind, relaxation data fix the relaxation time. -/
theorem C245_t1 (a b : Device "Id" p target) (hk : a.kind = b.kind) (x y : ℝ) (ha : a.t1 = some x) (hb : b.t1 = some y)
    (hp : 0 < length p) (ns : List ℕ) (hn : ∃ n ∈ ns, 0 < n) (l : List Pt)
    (h : Points a b (ns.map (t1Sequence · target)) l) : Perfect l ↔ x = y := by
  rw [C245_relaxation a b hp ns hn l h, hk, ha, hb]
  exact rate1_inj _ x y (a.pos.1 x ha) (b.pos.1 y hb)

/-- **C245**, for devices with one of the decay times: Ramsey data with one wait and with two waits, and any others, fix the
decay rate of the coherences and the cosine of the phase that is gained in one wait. -/
theorem C245_ramsey_partial (a b : Device "id" p target) (ha : a.Single) (hb : b.Single) (hp : 0 < length p) (ns : List ℕ)
    (h1 : 1 ∈ ns) (h2 : 2 ∈ ns) (l : List Pt) (h : Points a b (ns.map (ramseySequence · target)) l) :
    Perfect l ↔ a.rate = b.rate ∧ Real.cos a.phase = Real.cos b.phase := by
  have hne : ns.map (ramseySequence · target) ≠ [] := by
    intro h0
    rw [List.map_eq_nil_iff.1 h0] at h1
    simp at h1
  rw [points_iff a b _ hne l h]
  constructor
  · intro hs
    have e1 := hs _ (List.mem_map.2 ⟨1, h1, rfl⟩)
    have e2 := hs _ (List.mem_map.2 ⟨2, h2, rfl⟩)
    rw [ramsey_shows a ha, ramsey_shows b hb, Option.some.injEq] at e1 e2
    have hsq : ∀ r : ℝ, Real.exp (-(r * ((2 : ℕ) * length p))) = Real.exp (-(r * length p)) ^ 2 := by
      intro r
      rw [← Real.exp_nat_mul]
      congr 1
      push_cast
      ring
    rw [hsq, hsq] at e2
    simp only [Nat.cast_one, one_mul, Nat.cast_ofNat] at e1 e2
    obtain ⟨h3, h4⟩ := cosines _ _ a.phase b.phase (Real.exp_pos (-(a.rate * length p))) (Real.exp_pos (-(b.rate * length p)))
      (by linarith) (by linarith)
    rw [Real.exp_eq_exp, neg_inj] at h3
    exact ⟨mul_right_cancel₀ hp.ne' h3, h4⟩
  · rintro ⟨hr, hc⟩ s hs
    obtain ⟨n, -, rfl⟩ := List.mem_map.1 hs
    rw [ramsey_shows a ha, ramsey_shows b hb, hr, cos_mul_congr _ _ hc n]

/-- **C245**: within half a turn the phase is fixed too, and with it, without frame rotation, the frequency. -/
theorem C245_window_partial (a b : Device "id" p target) (ha : a.Single) (hb : b.Single) (hp : 0 < length p)
    (fa : a.chip.useFR = false) (fb : b.chip.useFR = false)
    (wa : 0 ≤ a.gap ∧ a.gap * length p ≤ Real.pi) (wb : 0 ≤ b.gap ∧ b.gap * length p ≤ Real.pi) (ns : List ℕ)
    (h1 : 1 ∈ ns) (h2 : 2 ∈ ns) (l : List Pt) (h : Points a b (ns.map (ramseySequence · target)) l) :
    Perfect l ↔ a.rate = b.rate ∧ a.gap = b.gap := by
  rw [C245_ramsey_partial a b ha hb hp ns h1 h2 l h]
  have e : ∀ d : Device "id" p target, d.chip.useFR = false → d.phase = d.gap * length p := by
    intro d hd
    unfold Device.phase gained length
    rw [hd]
    simp
  rw [e a fa, e b fb]
  refine and_congr_right fun _ => ⟨fun hc => ?_, fun hg => by rw [hg]⟩
  exact mul_right_cancel₀ hp.ne' (Real.injOn_cos ⟨mul_nonneg wa.1 hp.le, wa.2⟩ ⟨mul_nonneg wb.1 hp.le, wb.2⟩ hc)

/-- **C245**, for devices with one of the decay times: echo data with at least two waits fix the decay rate of the
coherences, and nothing else. -/
theorem C245_echo_partial (a b : Device "id" p target) (ha : a.Single) (hb : b.Single) (hp : 0 < length p) (ns : List ℕ)
    (hn : ∃ n ∈ ns, 1 < n) (l : List Pt) (h : Points a b (ns.map (echoSequence · target)) l) :
    Perfect l ↔ a.rate = b.rate := by
  obtain ⟨m, hm, hm0⟩ := hn
  have hne : ns.map (echoSequence · target) ≠ [] := by
    intro h0
    rw [List.map_eq_nil_iff.1 h0] at hm
    simp at hm
  rw [points_iff a b _ hne l h]
  constructor
  · intro hs
    have := hs _ (List.mem_map.2 ⟨m, hm, rfl⟩)
    rw [echo_shows a ha, echo_shows b hb, Option.some.injEq] at this
    have h3 : Real.exp (-(a.rate * ((2 * (m / 2) : ℕ) * length p))) = Real.exp (-(b.rate * ((2 * (m / 2) : ℕ) * length p))) := by
      linarith
    rw [Real.exp_eq_exp, neg_inj] at h3
    have h4 : 0 < 2 * (m / 2) := by omega
    have hpos : (0 : ℝ) < (2 * (m / 2) : ℕ) * length p := mul_pos (Nat.cast_pos.2 h4) hp
    exact mul_right_cancel₀ hpos.ne' h3
  · intro hr s hs
    obtain ⟨n, -, rfl⟩ := List.mem_map.1 hs
    rw [echo_shows a ha, echo_shows b hb, hr]

/-! ## What is not determined -/

/-- The table of propagators with ideal quarter turns on the first qubit. -/
def table (t : Exp (SOp [2])) : String → Option (SOp [2]) := fun s =>
  if s = onTarget "rx90p" 0 then some (tfSuper (n := Fin 2) x90p)
  else if s = onTarget "rx90m" 0 then some (tfSuper (n := Fin 2) x90m) else t.propagators s

/-- C245: for every frequency, carrier and decay time there is such a device. -/
theorem C245_devices (ω ω' T : ℝ) (hT : 0 ≤ T) (N : ℕ) (hN : 0 < N) (k : Kind) (t1 t2 : Option ℝ)
    (hsome : t1 ≠ none ∨ t2 ≠ none) (hpos : Positive t1 t2) (fr : Bool) (g : String) (hg : g = "id" ∨ g = "Id") :
    ∃ d : Device g (waitPulse ω' T N) 0, d.gap = ω ∧ d.kind = k ∧ d.t1 = t1 ∧ d.t2 = t2 ∧ d.chip.useFR = fr := by
  obtain ⟨t', h⟩ := C236_setup ω ω' T hT N hN k t1 t2 hsome fr g
  refine ⟨⟨_, _, k, t1, t2, _, t', table t', hpos, h, ⟨if_pos rfl, ?_⟩, ?_⟩, ?_, rfl, rfl, rfl, rfl⟩
  · exact (if_neg (by decide)).trans (if_pos rfl)
  · rcases hg with rfl | rfl <;> exact (if_neg (by decide)).trans (if_neg (by decide))
  · simp [Device.gap]

theorem wait_length (ω' T : ℝ) (N : ℕ) (hN : 0 < N) : length (waitPulse ω' T N) = T := by
  have : (N : ℝ) ≠ 0 := by positivity
  simp [length, waitPulse]
  field_simp

theorem wait_phase (ω' T : ℝ) (N : ℕ) (hN : 0 < N) (d : Device g (waitPulse ω' T N) 0) :
    d.phase = (d.gap - if d.chip.useFR then ω' else 0) * T := by
  have h := wait_length ω' T N hN
  unfold length at h
  unfold Device.phase gained
  rw [h]
  split
  · simp [waitPulse]
    ring
  · simp

/-- C245 fails for the frequency: whatever the numbers of waits, the Ramsey data of a qubit agree with those of a qubit
whose frequency is higher by a full turn per wait. -/
theorem C245_false_turn (T : ℝ) (N : ℕ) (hN : 0 < N) (hT : 0 < T) (ω' : ℝ) (a b : Device "id" (waitPulse ω' T N) 0)
    (ha : a.Single) (hb : b.Single) (hfr : a.chip.useFR = b.chip.useFR) (hr : a.rate = b.rate) (z : ℤ)
    (hw : b.gap = a.gap + z * (2 * Real.pi / T)) (ns : List ℕ) (hne : ns ≠ []) (l : List Pt)
    (h : Points a b (ns.map (ramseySequence · 0)) l) : Perfect l := by
  rw [points_iff a b _ (by simpa using hne) l h]
  intro s hs
  obtain ⟨n, -, rfl⟩ := List.mem_map.1 hs
  have hc : Real.cos a.phase = Real.cos b.phase := by
    rw [wait_phase _ _ _ hN, wait_phase _ _ _ hN, hw, hfr]
    rw [show (a.gap + z * (2 * Real.pi / T) - if b.chip.useFR then ω' else 0) * T =
      (a.gap - if b.chip.useFR then ω' else 0) * T + z * (2 * Real.pi) by field_simp; ring]
    rw [Real.cos_add_int_mul_two_pi]
  rw [ramsey_shows a ha, ramsey_shows b hb, hr, cos_mul_congr _ _ hc n]

/-- C245 fails for the frequency: in the frame of the carrier, the Ramsey data of a qubit that is too fast agree with
those of a qubit that is too slow by as much. -/
theorem C245_false_sign (T : ℝ) (N : ℕ) (hN : 0 < N) (ω' δ : ℝ) (a b : Device "id" (waitPulse ω' T N) 0)
    (ha : a.Single) (hb : b.Single) (fa : a.chip.useFR = true) (fb : b.chip.useFR = true) (hr : a.rate = b.rate)
    (wa : a.gap = ω' + δ) (wb : b.gap = ω' - δ) (ns : List ℕ) (hne : ns ≠ []) (l : List Pt)
    (h : Points a b (ns.map (ramseySequence · 0)) l) : Perfect l := by
  rw [points_iff a b _ (by simpa using hne) l h]
  intro s hs
  obtain ⟨n, -, rfl⟩ := List.mem_map.1 hs
  have hc : Real.cos a.phase = Real.cos b.phase := by
    rw [wait_phase _ _ _ hN, wait_phase _ _ _ hN, wa, wb, fa, fb, if_pos rfl, ← Real.cos_neg]
    congr 1
    ring
  rw [ramsey_shows a ha, ramsey_shows b hb, hr, cos_mul_congr _ _ hc n]

/-- C245 fails with waits of one length only: for every wait there are two qubits with the same Ramsey data after one
wait, of which one dephases twice as fast. -/
theorem C245_false_one (T : ℝ) (hT : 0 < T) (N : ℕ) (hN : 0 < N) (ω' : ℝ) :
    ∃ a b : Device "id" (waitPulse ω' T N) 0, a.Single ∧ b.Single ∧ a.rate = 2 * b.rate ∧ 0 < b.rate ∧ a.gap ≠ b.gap ∧
      (∃ l, Points a b [ramseySequence 1 0] l ∧ Perfect l) ∧
      ∃ l, Points a b [ramseySequence 1 0, ramseySequence 2 0] l ∧ ¬Perfect l := by
  have hl : 0 < Real.log 2 := Real.log_pos (by norm_num)
  obtain ⟨a, a1, a2, a3, a4, a5⟩ := C245_devices 0 ω' T hT.le N hN .qubit none (some (T / (2 * Real.log 2))) (by simp)
    ⟨by simp, by rintro t ⟨⟩; positivity⟩ false "id" (Or.inl rfl)
  obtain ⟨b, b1, b2, b3, b4, b5⟩ := C245_devices (Real.pi / 3 / T) ω' T hT.le N hN .qubit none (some (T / Real.log 2))
    (by simp) ⟨by simp, by rintro t ⟨⟩; positivity⟩ false "id" (Or.inl rfl)
  have ra : a.rate = 2 * (Real.log 2 / T) := by
    rw [Device.rate, a3, a4, rate1, rate2]
    field_simp
    ring
  have rb : b.rate = Real.log 2 / T := by
    rw [Device.rate, b3, b4, rate1, rate2]
    field_simp
    ring
  have pa : a.phase = 0 := by
    rw [wait_phase _ _ _ hN, a1, a5]
    simp
  have pb : b.phase = Real.pi / 3 := by
    rw [wait_phase _ _ _ hN, b1, b5]
    simp
    field_simp
  have sa : a.Single := Or.inl a3
  have sb : b.Single := Or.inl b3
  have xa : Real.exp (-(a.rate * T)) = 1 / 4 := by
    rw [ra, show -(2 * (Real.log 2 / T) * T) = (2 : ℕ) * -Real.log 2 by field_simp; norm_num, Real.exp_nat_mul, Real.exp_neg,
      Real.exp_log (by norm_num)]
    norm_num
  have xb : Real.exp (-(b.rate * T)) = 1 / 2 := by
    rw [rb, show -(Real.log 2 / T * T) = -Real.log 2 by field_simp, Real.exp_neg, Real.exp_log (by norm_num)]
    norm_num
  have one : excited a.props (ramseySequence 1 0) = excited b.props (ramseySequence 1 0) := by
    rw [ramsey_shows a sa, ramsey_shows b sb, pa, pb, wait_length _ _ _ hN]
    simp only [Nat.cast_one, one_mul]
    rw [xa, xb, Real.cos_zero, Real.cos_pi_div_three]
    norm_num
  have hb : 0 < b.rate := by rw [rb]; positivity
  refine ⟨a, b, sa, sb, by rw [ra, rb], hb, ?_, ?_, ?_⟩
  · rw [a1, b1]
    have := Real.pi_pos
    exact (by positivity : (0 : ℝ) < Real.pi / 3 / T).ne
  · have hp : Points a b [ramseySequence 1 0] [⟨_, _, 0, 0⟩] := .cons ⟨ramsey_shows a sa 1, ramsey_shows b sb 1⟩ .nil
    refine ⟨_, hp, (points_iff a b _ (by simp) _ hp).2 fun s hs => ?_⟩
    rw [List.mem_singleton.1 hs]
    exact one
  · have hp : Points a b ([1, 2].map (ramseySequence · 0)) [⟨_, _, 0, 0⟩, ⟨_, _, 0, 0⟩] :=
      .cons ⟨ramsey_shows a sa 1, ramsey_shows b sb 1⟩ (.cons ⟨ramsey_shows a sa 2, ramsey_shows b sb 2⟩ .nil)
    refine ⟨_, hp, fun hP => ?_⟩
    have := ((C245_ramsey_partial a b sa sb (by rw [wait_length _ _ _ hN]; exact hT) [1, 2] (by simp) (by simp) _ hp).1 hP).1
    rw [ra, ← rb] at this
    linarith

/-! ## Example -/

/-- Two qubits, 5 GHz and 5.1 GHz, with waits of 10 ns: the learned model may have the one for the other, since their
Ramsey data agree. -/
example : ∃ a b : Device "id" (waitPulse 0 1e-8 10) 0, a.gap = 2 * Real.pi * 5e9 ∧ b.gap = 2 * Real.pi * 5.1e9 ∧
    ∀ (ns : List ℕ) (l : List Pt), ns ≠ [] → Points a b (ns.map (ramseySequence · 0)) l → Perfect l := by
  obtain ⟨a, a1, a2, a3, a4, a5⟩ := C245_devices (2 * Real.pi * 5e9) 0 1e-8 (by norm_num) 10 (by norm_num) .qubit none
    (some 1e-6) (by simp) ⟨by simp, by rintro t ⟨⟩; norm_num⟩ false "id" (Or.inl rfl)
  obtain ⟨b, b1, b2, b3, b4, b5⟩ := C245_devices (2 * Real.pi * 5.1e9) 0 1e-8 (by norm_num) 10 (by norm_num) .qubit none
    (some 1e-6) (by simp) ⟨by simp, by rintro t ⟨⟩; norm_num⟩ false "id" (Or.inl rfl)
  refine ⟨a, b, a1, b1, fun ns l hne h => ?_⟩
  refine C245_false_turn 1e-8 10 (by norm_num) (by norm_num) 0 a b (Or.inl a3) (Or.inl b3) (by rw [a5, b5]) ?_ 1 ?_ ns hne l h
  · rw [Device.rate, Device.rate, a2, b2, a3, b3, a4, b4]
  · rw [a1, b1]
    push_cast
    field_simp
    norm_num

end C3.Experiment.Learnable
