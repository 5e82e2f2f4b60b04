import Verif.Experiment.FromInstruction
import Verif.Hilbert.Decay

/-!
# C251: the unit of time is arbitrary

The whole chain of C199 for two chips that differ in the unit of time only: frequencies, anharmonicities, couplings,
samples of the signals and rates of one are those of the other times a factor, times are divided by it. All propagators
are the same, errors included, and so is everything computed from them.
-/

set_option linter.unusedSectionVars false

noncomputable section

namespace C3.Experiment.Units

open Matrix NormedSpace C3.Propagation C3.Hilbert C3.Experiment C3.Experiment.Compute C3.Experiment.EndToEnd

variable {dims : List ℕ}

/-! ## Specification -/

/-- A chip element in another unit. -/
def sub (s : ℝ) : Sub → Sub
  | .qubit dim freq anhar => .qubit dim (s * freq) (s * anhar)
  | .res freq => .res (s * freq)
  | .transmon dim freq anhar phi phi0 d => .transmon dim (s * freq) (s * anhar) phi phi0 d
  | .snail dim freq anhar beta => .snail dim (s * freq) (s * anhar) (s * beta)

/-- A line in another unit. -/
def line (s : ℝ) : Line → Line
  | .coupling f g c₁ c₂ => .coupling f (s * g) c₁ c₂
  | l => l

/-- A chip in another unit: the dressed basis is the same, rates go with the squares of collapse operators. -/
def chip (s : ℝ) (c : Chip dims) : Chip dims :=
  { c with
    sys := ⟨c.sys.subs.map fun p => (p.1, sub s p.2), c.sys.lines.map fun p => (p.1, line s p.2)⟩
    cols := c.cols.map fun L => ((Real.sqrt s : ℝ) : ℂ) • L }

/-- A pulse in another unit. -/
def pulse (s : ℝ) (p : Pulse) : Pulse :=
  { p with
    values := p.values.map fun v => v.map (s * ·)
    dt := p.dt / s
    freqs := p.freqs.map fun l => (l.1, s * l.2)
    t := p.t / s }

def pulses (s : ℝ) (ps : List (String × Pulse)) : List (String × Pulse) := ps.map fun p => (p.1, pulse s p.2)

/-! ## Hamiltonians -/

theorem dress_smul (tr : Option (Op dims)) (z : ℂ) (h : Op dims) : dress tr (z • h) = z • dress tr h := by
  cases tr with
  | none => rfl
  | some t =>
    change tᴴ * (z • h) * t = z • (tᴴ * h * t)
    rw [Matrix.mul_smul, Matrix.smul_mul]

theorem sub_ham (s : ℝ) (x : Sub) (tr : Option (Op dims)) (a : Op dims) : (sub s x).ham tr a = (s : ℂ) • x.ham tr a := by
  cases x with
  | qubit dim freq anhar =>
    simp only [sub, Sub.ham, Complex.ofReal_mul]
    split <;> simp only [smul_smul, smul_add]
  | res freq => simp only [sub, Sub.ham, Complex.ofReal_mul, smul_smul]
  | transmon dim freq anhar phi phi0 d =>
    have e : transmonFreq (s * freq) (s * anhar) phi phi0 d 0 = s * transmonFreq freq anhar phi phi0 d 0 := by
      unfold transmonFreq
      ring
    simp only [sub, Sub.ham, e, Complex.ofReal_mul]
    split <;> simp only [smul_smul, smul_add]
  | snail dim freq anhar beta =>
    simp only [sub, Sub.ham, Complex.ofReal_mul]
    split <;> simp only [smul_smul, smul_add]

theorem line_drift (s : ℝ) (l : Line) (ann : ℕ → Op dims) :
    (line s l).drift ann = (l.drift ann).map fun h => (s : ℂ) • h := by
  cases l with
  | coupling f g c₁ c₂ => simp only [line, Line.drift, Option.map_some, Complex.ofReal_mul, smul_smul]
  | drive f conn => rfl
  | couplingDrive f c₁ c₂ => rfl

theorem line_control (s : ℝ) (l : Line) (ann : ℕ → Op dims) : (line s l).control ann = l.control ann := by
  cases l <;> rfl

theorem drift_scale (s : ℝ) (c : Chip dims) : (chip s c).h0 = (s : ℂ) • c.h0 := by
  unfold Chip.h0
  rw [← dress_smul]
  change dress c.tr _ = _
  congr 1
  have e1 : ((chip s c).sys.subs.zipIdx.map fun p => (p.1.1, dress none (p.1.2.ham none (ann dims p.2)))).map Prod.snd =
      (c.sys.subs.zipIdx.map fun p => (p.1.1, dress none (p.1.2.ham none (ann dims p.2)))).map fun x => (s : ℂ) • x.2 := by
    rw [List.map_map, List.map_map]
    change List.map _ ((c.sys.subs.map fun p => (p.1, sub s p.2)).zipIdx) = _
    rw [List.zipIdx_map, List.map_map]
    apply List.map_congr_left
    rintro ⟨⟨n, x⟩, i⟩ _
    exact sub_ham s x none (ann dims i)
  have e2 : ((chip s c).sys.lines.filterMap fun l => (l.2.drift (ann dims)).map fun h => (l.1, dress none h)).map
      Prod.snd = (c.sys.lines.filterMap fun l => (l.2.drift (ann dims)).map fun h => (l.1, dress none h)).map
        fun x => (s : ℂ) • x.2 := by
    change List.map _ ((c.sys.lines.map fun p => (p.1, line s p.2)).filterMap _) = _
    rw [List.filterMap_map, List.map_filterMap, List.map_filterMap]
    congr 1
    funext l
    simp only [Function.comp, line_drift]
    cases l.2.drift (ann dims) <;> rfl
  have e3 : ∀ l : List (String × Op dims), (l.map fun x => (s : ℂ) • x.2).sum = (s : ℂ) • (l.map Prod.snd).sum := by
    intro l
    induction l with
    | nil => simp
    | cons a l ih => rw [List.map_cons, List.sum_cons, List.map_cons, List.sum_cons, ih, smul_add]
  unfold Sys.drift Sys.hams
  rw [List.map_append, e1, e2, ← List.map_append, e3]

theorem controls_scale (s : ℝ) (c : Chip dims) : (chip s c).sys.controls (ann dims) = c.sys.controls (ann dims) := by
  unfold Sys.controls
  change (c.sys.lines.map fun p => (p.1, line s p.2)).filterMap _ = _
  rw [List.filterMap_map]
  congr 1
  funext l
  simp only [Function.comp, line_control]

theorem hks_scale (s : ℝ) (c : Chip dims) (p : Pulse) : (chip s c).hks (pulse s p) = c.hks p := by
  unfold Chip.hks
  rw [controls_scale]
  rfl

theorem ham_scale (s : ℝ) (h0 : Op dims) (hks : List (Op dims)) (v : List ℝ) :
    (s : ℂ) • h0 + (((v.map (s * ·)).zip hks).map fun p => (p.1 : ℂ) • p.2).sum =
      (s : ℂ) • (h0 + ((v.zip hks).map fun p => (p.1 : ℂ) • p.2).sum) := by
  rw [smul_add, List.zip_map_left, List.map_map]
  congr 1
  induction v.zip hks with
  | nil => simp
  | cons x l ih =>
    rw [List.map_cons, List.sum_cons, List.map_cons, List.sum_cons, ih, smul_add, smul_smul]
    congr 1
    change ((s * x.1 : ℝ) : ℂ) • x.2 = _
    rw [Complex.ofReal_mul]

theorem step_scale (s : ℝ) (hs : s ≠ 0) (dt : ℝ) {M : Type*} [AddCommGroup M] [Module ℂ M] (x : M) :
    ((dt / s : ℝ) : ℂ) • (s : ℂ) • x = (dt : ℂ) • x := by
  rw [smul_smul]
  congr 1
  push_cast
  exact div_mul_cancel₀ _ (by exact_mod_cast hs)

theorem batch_map {α β γ : Type*} (f : List α → List γ) (f' : List β → List γ) (g : α → β) (h : ∀ l, f' (l.map g) = f l)
    (l : List α) (bs : ℕ) : Fold.batchPropagate f' (l.map g) bs = Fold.batchPropagate f l bs := by
  unfold Fold.batchPropagate
  rw [List.length_map]
  congr 1
  funext i
  rw [← List.map_drop, ← List.map_take, h]

theorem pwc_scale (s : ℝ) (hs : s ≠ 0) (h0 : Op dims) (hks : List (Op dims)) (dt : ℝ) (vs : List (List ℝ)) (bs : ℕ)
    (st : List Bool) :
    pwc ((s : ℂ) • h0) hks (dt / s) (vs.map fun v => v.map (s * ·)) bs st = pwc h0 hks dt vs bs st := by
  unfold pwc
  rw [batch_map (propVectorized h0 hks dt)]
  intro l
  unfold propVectorized
  rw [List.map_map]
  refine List.map_congr_left fun v _ => ?_
  simp only [Function.comp]
  rw [ham_scale, smul_comm (-Complex.I) (s : ℂ), step_scale s hs]

theorem sqrt_sq (s : ℝ) (hs : 0 ≤ s) : ((Real.sqrt s : ℝ) : ℂ) * ((Real.sqrt s : ℝ) : ℂ) = (s : ℂ) := by
  rw [← Complex.ofReal_mul, Real.mul_self_sqrt hs]

theorem lind_scale (s : ℝ) (hs : 0 ≤ s) (h : Op dims) (cols : List (Op dims)) :
    lindOpVec ((s : ℂ) • h) (cols.map fun L => ((Real.sqrt s : ℝ) : ℂ) • L) = (s : ℂ) • lindOpVec h cols := by
  unfold lindOpVec
  rw [smul_add, smul_comm (s : ℂ) (-Complex.I), smul_sub]
  congr 1
  · rw [smul_kronecker, transpose_smul, kronecker_smul, smul_sub, smul_sub]
  · induction cols with
    | nil => simp
    | cons L cols ih =>
      rw [List.map_cons, List.map_cons, List.sum_cons, ih, List.map_cons, List.sum_cons, smul_add]
      congr 1
      simp only [smul_kronecker, kronecker_smul, transpose_smul, conjTranspose_smul, Matrix.smul_mul, Matrix.mul_smul,
        smul_smul, Complex.star_def, Complex.conj_ofReal, sqrt_sq s hs, smul_sub]
      simp only [mul_comm (s : ℂ)]

theorem pwcLind_scale (s : ℝ) (hs : 0 < s) (h0 : Op dims) (hks cols : List (Op dims)) (dt : ℝ) (vs : List (List ℝ))
    (bs : ℕ) (st : List Bool) :
    pwcLind ((s : ℂ) • h0) hks (cols.map fun L => ((Real.sqrt s : ℝ) : ℂ) • L) (dt / s) (vs.map fun v => v.map (s * ·))
      bs st = pwcLind h0 hks cols dt vs bs st := by
  unfold pwcLind
  rw [batch_map (propLind h0 hks cols dt)]
  intro l
  unfold propLind
  rw [List.map_map]
  refine List.map_congr_left fun v _ => ?_
  simp only [Function.comp]
  rw [ham_scale, lind_scale s hs.le, step_scale s hs.ne']

theorem frame_scale (s : ℝ) (hs : s ≠ 0) (c : Chip dims) (p : Pulse) : (chip s c).frame (pulse s p) = c.frame p := by
  unfold Chip.frame frameRotation
  have e : ∀ (l : List (String × ℝ)) (acc : Op dims),
      frameExponent dims c.target p.shifts (p.t / s) (l.map fun l => (l.1, s * l.2)) acc =
        frameExponent dims c.target p.shifts p.t l acc := by
    intro l
    induction l with
    | nil => intro acc; rfl
    | cons x l ih =>
      intro acc
      rw [List.map_cons, frameExponent, frameExponent]
      have : s * x.2 * (p.t / s) = x.2 * p.t := by
        field_simp
      cases h1 : p.shifts x.1 with
      | none => simp
      | some fc =>
        cases h2 : c.target x.1 with
        | none => simp
        | some q =>
          simp only
          rw [this]
          exact ih _
  have e1 : frameExponent dims (chip s c).target (pulse s p).shifts (pulse s p).t (pulse s p).freqs 0 =
      frameExponent dims c.target p.shifts p.t p.freqs 0 := e p.freqs 0
  rw [e1]
  have e2 : ((pulse s p).freqs = []) = (p.freqs = []) := by simp [pulse]
  simp only [e2]

theorem lookup_pulses (s : ℝ) (ps : List (String × Pulse)) (g : String) :
    (pulses s ps).lookup g = (ps.lookup g).map (pulse s) := by
  unfold pulses
  induction ps with
  | nil => rfl
  | cons a ps ih =>
    rw [List.map_cons, List.lookup_cons, List.lookup_cons, ih]
    cases g == a.1 <;> rfl

/-! ## Theorems -/

/-- C251 (closed systems): in another unit of time `compute_propagators` reads the same Hamiltonian phases, so every
propagation, and every exception, is the same. -/
theorem C251_closed (s : ℝ) (hs : s ≠ 0) (c : Chip dims) (ps : List (String × Pulse)) :
    closed (chip s c) (pulses s ps) = closed c ps := by
  unfold closed
  congr 1
  · unfold pulses
    rw [List.map_map]
    rfl
  · funext g
    rw [lookup_pulses]
    cases ps.lookup g with
    | none => rfl
    | some p => simp [pulse]
  · funext m g st
    rw [lookup_pulses]
    cases ps.lookup g with
    | none => rfl
    | some p =>
      simp only [Option.map_some]
      rw [hks_scale]
      cases c.hks p with
      | none => rfl
      | some hks =>
        simp only
        rw [drift_scale]
        have e : pwc ((s : ℂ) • c.h0) hks (pulse s p).dt (pulse s p).values (chip s c).batch st =
            pwc c.h0 hks p.dt p.values c.batch st := pwc_scale s hs c.h0 hks p.dt p.values c.batch st
        rw [e]
  · funext m g
    rw [lookup_pulses]
    cases ps.lookup g with
    | none => rfl
    | some p =>
      simp only [Option.map_some, Option.bind_some]
      rw [frame_scale s hs]

/-- C251 (open systems). -/
theorem C251_opened (s : ℝ) (hs : 0 < s) (c : Chip dims) (ps : List (String × Pulse)) :
    opened (chip s c) (pulses s ps) = opened c ps := by
  unfold opened
  congr 1
  · unfold pulses
    rw [List.map_map]
    rfl
  · funext g
    rw [lookup_pulses]
    cases ps.lookup g with
    | none => rfl
    | some p => simp [pulse]
  · funext m g st
    rw [lookup_pulses]
    cases ps.lookup g with
    | none => rfl
    | some p =>
      simp only [Option.map_some]
      rw [hks_scale]
      cases c.hks p with
      | none => rfl
      | some hks =>
        simp only
        rw [drift_scale]
        have e : pwcLind ((s : ℂ) • c.h0) hks (chip s c).cols (pulse s p).dt (pulse s p).values (chip s c).batch st =
            pwcLind c.h0 hks c.cols p.dt p.values c.batch st :=
          pwcLind_scale s hs c.h0 hks c.cols p.dt p.values c.batch st
        rw [e]
  · funext m g
    rw [lookup_pulses]
    cases ps.lookup g with
    | none => rfl
    | some p =>
      simp only [Option.map_some, Option.bind_some]
      rw [frame_scale s hs.ne']

/-- C251: experiments whose calls have the same selections and the same chips and pulses in any units, which may change
from call to call, end in the same state with the same propagators, so they report the same populations. -/
theorem C251_history (st : Exp (Op dims)) (es : List (ℝ × Chip dims × List (String × Pulse) × Option (List Gate) × Bool))
    (hs : ∀ e ∈ es, e.1 ≠ 0) (seqs : List (List String)) (psi : Fin dims.prod → ℂ) :
    runEvents st (es.map fun e => ⟨closed (chip e.1 e.2.1) (pulses e.1 e.2.2.1), e.2.2.2.1, e.2.2.2.2⟩) =
        runEvents st (es.map fun e => ⟨closed e.2.1 e.2.2.1, e.2.2.2.1, e.2.2.2.2⟩) ∧
      evaluateClosed (runEvents st (es.map fun e =>
          ⟨closed (chip e.1 e.2.1) (pulses e.1 e.2.2.1), e.2.2.2.1, e.2.2.2.2⟩)).propagators seqs psi =
        evaluateClosed (runEvents st (es.map fun e => ⟨closed e.2.1 e.2.2.1, e.2.2.2.1, e.2.2.2.2⟩)).propagators seqs psi := by
  have h : (es.map fun e => (⟨closed (chip e.1 e.2.1) (pulses e.1 e.2.2.1), e.2.2.2.1, e.2.2.2.2⟩ : Event (Op dims))) =
      es.map fun e => ⟨closed e.2.1 e.2.2.1, e.2.2.2.1, e.2.2.2.2⟩ :=
    List.map_congr_left fun e he => by rw [C251_closed e.1 (hs e he)]
  rw [h]
  exact ⟨rfl, rfl⟩

/-- C251, the same for open systems. -/
theorem C251_history_open (st : Exp (SOp dims))
    (es : List (ℝ × Chip dims × List (String × Pulse) × Option (List Gate) × Bool)) (hs : ∀ e ∈ es, 0 < e.1)
    (seqs : List (List String)) (v : Fin dims.prod × Fin dims.prod → ℂ) :
    runEvents st (es.map fun e => ⟨opened (chip e.1 e.2.1) (pulses e.1 e.2.2.1), e.2.2.2.1, e.2.2.2.2⟩) =
        runEvents st (es.map fun e => ⟨opened e.2.1 e.2.2.1, e.2.2.2.1, e.2.2.2.2⟩) ∧
      evaluateOpen (runEvents st (es.map fun e =>
          ⟨opened (chip e.1 e.2.1) (pulses e.1 e.2.2.1), e.2.2.2.1, e.2.2.2.2⟩)).propagators seqs v =
        evaluateOpen (runEvents st (es.map fun e => ⟨opened e.2.1 e.2.2.1, e.2.2.2.1, e.2.2.2.2⟩)).propagators seqs v := by
  have h : (es.map fun e => (⟨opened (chip e.1 e.2.1) (pulses e.1 e.2.2.1), e.2.2.2.1, e.2.2.2.2⟩ : Event (SOp dims))) =
      es.map fun e => ⟨opened e.2.1 e.2.2.1, e.2.2.2.1, e.2.2.2.2⟩ :=
    List.map_congr_left fun e he => by rw [C251_opened e.1 (hs e he)]
  rw [h]
  exact ⟨rfl, rfl⟩

/-- Decay parameters in another unit: times are divided, frequencies and temperatures multiplied. -/
def decay (s : ℝ) (d : Decay) : Decay :=
  ⟨d.t1.map (· / s), d.temp.map (s * ·), d.t2star.map (· / s), s * d.freq, s * d.anhar⟩

/-- C251: the collapse operators of an element in another unit, its temperature measured against its frequency, are those
of the chip in another unit. -/
theorem C251_decay (s : ℝ) (hs : 0 < s) (k : Kind) (d : Decay) (i : ℕ) :
    collapseList k (decay s d) dims i = (collapseList k d dims i).map fun L => ((Real.sqrt s : ℝ) : ℂ) • L := by
  have hr : ∀ t1, Real.sqrt (relaxRate k (t1 / s)) = Real.sqrt s * Real.sqrt (relaxRate k t1) := by
    intro t1
    rw [← Real.sqrt_mul hs.le]
    congr 1
    cases k <;>
    · unfold relaxRate
      field_simp
  have h2 : ∀ t2 : ℝ, Real.sqrt (0.5 / (t2 / s)) = Real.sqrt s * Real.sqrt (0.5 / t2) := by
    intro t2
    rw [← Real.sqrt_mul hs.le]
    congr 1
    field_simp
  have hT : tempUsed k (decay s d) = (tempUsed k d).map (s * ·) := by
    unfold tempUsed decay
    cases d.temp with
    | none => rfl
    | some T =>
      simp only [Option.map_some, mul_eq_zero, hs.ne', false_or]
      split <;> rfl
  have hb : ∀ T, detBalArr (dims.getD i 0) (decay s d) (s * T) = detBalArr (dims.getD i 0) d T := by
    intro T
    unfold detBalArr
    congr 1
    funext x y
    have e1 : freqDiff (dims.getD i 0) (decay s d) x = s * freqDiff (dims.getD i 0) d x := by
      unfold freqDiff decay
      split
      · simp only
        ring
      · split <;> simp
    have e2 : -hBar * (s * freqDiff (dims.getD i 0) d x) * (1 / (s * T * kB)) =
        -hBar * freqDiff (dims.getD i 0) d x * (1 / (T * kB)) := by
      by_cases hT : T * kB = 0
      · rw [mul_assoc s, hT]
        simp
      · rw [mul_assoc s, one_div, mul_inv]
        field_simp
    rw [e1, e2]
  unfold collapseList
  rw [List.map_append]
  congr 1
  · rw [hT]
    cases h : d.t1 with
    | none => simp [decay, h]
    | some t1 =>
      have : (decay s d).t1 = some (t1 / s) := by simp [decay, h]
      rw [this]
      cases tempUsed k d with
      | none => simp only [Option.map_none, List.map_cons, List.map_nil, hr, smul_smul, Complex.ofReal_mul]
      | some T => simp only [Option.map_some, List.map_cons, List.map_nil, hr, hb, smul_smul, Complex.ofReal_mul]
  · cases h : d.t2star with
    | none => simp [decay, h]
    | some t2 =>
      have : (decay s d).t2star = some (t2 / s) := by simp [decay, h]
      rw [this]
      simp only [h2, List.map_cons, List.map_nil, smul_smul]
      push_cast
      rw [mul_assoc]

/-! ## Instructions -/

open C3.Experiment.FromInstruction C3.Timing C3.Devices C3.Chain C3.Experiment.FrameFreq

/-- The settings of a line in another unit: the shape is read at the same fraction of the pulse. -/
def lineSet (s : ℝ) (d : LineSet) : LineSet := ⟨d.amp, d.xy, fun t => d.shape (s * t), s * d.omega, s * d.v2hz⟩

theorem lineValue_scale (s : ℝ) (hs : s ≠ 0) (d : LineSet) (T : ℝ) (M K i : ℕ) :
    lineValue (lineSet s d) (T / s) M K i = s * lineValue d T M K i := by
  have e1 : ∀ x, s * (x * (T / s / M)) = x * (T / M) := by
    intro x
    field_simp
  have e2 : ∀ x y : ℝ, s * y * (x * (T / s / (K * M : ℕ))) = y * (x * (T / (K * M : ℕ))) := by
    intro x y
    field_simp
  have e3 : ∀ x, maskAt (T / s / M) (T / s) (x * (T / s / M)) = maskAt (T / M) T (x * (T / M)) := by
    intro x
    unfold maskAt
    have f1 : x * (T / s / M) / (T / s / M) = x * (T / M) / (T / M) := by
      by_cases h : T / M = 0
      · rw [div_right_comm, h]
        simp
      · rw [mul_div_cancel_right₀ _ h, mul_div_cancel_right₀]
        rw [div_right_comm]
        exact div_ne_zero h hs
    have f2 : (0.999 * (T / s) - x * (T / s / M)) / (T / s / M) = (0.999 * T - x * (T / M)) / (T / M) := by
      have : (0.999 * (T / s) - x * (T / s / M)) = (0.999 * T - x * (T / M)) / s := by
        field_simp
      rw [this, div_right_comm T s, div_div_div_cancel_right₀ hs]
    rw [f1, f2]
  unfold lineValue lineSet
  simp only [e1, e2, e3]
  ring

theorem lookup_angles (line : ℕ → String) (f g : ℕ → ℝ) (l : List ℕ) (n : String) :
    ((l.map fun k => (line k, f k, (0 : ℝ))).lookup n).map Prod.snd =
      ((l.map fun k => (line k, g k, (0 : ℝ))).lookup n).map Prod.snd := by
  induction l with
  | nil => rfl
  | cons a l ih =>
    rw [List.map_cons, List.lookup_cons, List.map_cons, List.lookup_cons]
    cases n == line a
    · exact ih
    · rfl

theorem instrPulse_full (L : ℕ) (line : ℕ → String) (d : ℕ → LineSet) (T : ℝ) (hT : 0 < T) (M K : ℕ) (hM : 2 ≤ M)
    (hK : 0 < K) : instrPulse L line d T ((K * M : ℕ) / T) (M / T) =
      some ⟨(List.range L).map line, (List.range (K * M)).map fun i => (List.range L).map fun k => lineValue (d k) T M K i,
        T / (K * M : ℕ), (List.range L).map fun k => (line k, (d k).omega),
        fun n => (((List.range L).map fun k => (line k, (d k).omega, (0 : ℝ))).lookup n).map Prod.snd, T⟩ := by
  have hN : 2 ≤ K * M := hM.trans (Nat.le_mul_of_pos_left M hK)
  have hv := mapM_some (fun k => (lineSignal (d k) T ((K * M : ℕ) / T) (M / T)).bind (Sig.get · "values"))
    (fun k => (List.range (K * M)).map (lineValue (d k) T M K)) (List.range L)
    (by
      intro k _
      rw [lineSignal_eq (d k) T hT M K hM hK]
      simp [Sig.get])
  unfold instrPulse
  rw [times T hT (K * M) (by omega)]
  simp only [Option.bind_eq_bind, Option.bind_some, hv, freqs_eq, Except.toOption, FromInstruction.step T (K * M) hN,
    List.length_map, List.length_range, Option.pure_def, List.map_map, Function.comp_def]
  congr 2
  refine List.map_congr_left fun i hi => ?_
  refine List.map_congr_left fun k _ => ?_
  exact getD_map_range _ _ _ (List.mem_range.1 hi)

/-- C251: an instruction in another unit (length, resolutions, carrier frequencies, conversion factors) plays the pulse in
the other unit. -/
theorem C251_instruction (s : ℝ) (hs : 0 < s) (L : ℕ) (line : ℕ → String) (d : ℕ → LineSet) (T : ℝ) (hT : 0 < T)
    (M K : ℕ) (hM : 2 ≤ M) (hK : 0 < K) :
    ∃ p, instrPulse L line d T ((K * M : ℕ) / T) (M / T) = some p ∧
      instrPulse L line (fun k => lineSet s (d k)) (T / s) (s * ((K * M : ℕ) / T)) (s * (M / T)) = some (pulse s p) := by
  refine ⟨_, instrPulse_full L line d T hT M K hM hK, ?_⟩
  have e : ∀ N : ℕ, s * (N / T) = N / (T / s) := by
    intro N
    field_simp
  rw [e, e, instrPulse_full L line _ (T / s) (div_pos hT hs) M K hM hK]
  unfold pulse
  simp only [List.map_map, Function.comp_def, lineValue_scale s hs.ne', Option.some.injEq, Pulse.mk.injEq, true_and]
  refine ⟨?_, rfl, ?_, trivial⟩
  · rw [div_right_comm]
  · funext n
    exact lookup_angles line _ _ _ n

/-! ## Examples -/

/-- The same gate in nanoseconds and in seconds. -/
example : ∃ V, physical (closed exChip [("rx", ⟨["d"], [[1], [2]], 1, [("d", 5)], fun _ => some 0, 2⟩)]) (.name "pwc") "rx" =
      .ok V ∧ physical (closed (chip 1e9 exChip)
        (pulses 1e9 [("rx", ⟨["d"], [[1], [2]], 1, [("d", 5)], fun _ => some 0, 2⟩)])) (.name "pwc") "rx" = .ok V := by
  obtain ⟨V, h⟩ := C199_computed exChip exChip_wf
    [("rx", ⟨["d"], [[1], [2]], 1, [("d", 5)], fun _ => some 0, 2⟩)] "rx" _ rfl (by simp)
    (by
      intro k hk
      rw [List.mem_singleton.1 hk]
      exact ⟨_, rfl⟩)
    (fun l _ => ⟨⟨0, rfl⟩, 0, by simp, rfl⟩)
  exact ⟨V, h, by rw [C251_closed 1e9 (by norm_num)]; exact h⟩

/-- The other unit has other numbers. -/
example : sub 1e9 (.qubit 2 5 0) = .qubit 2 5e9 0 := by
  unfold sub
  norm_num

end C3.Experiment.Units
