import Verif.Hilbert.Dressed
import Verif.Propagation.Positive
import Mathlib.LinearAlgebra.Matrix.Hadamard

/-!
# C37, C38: frame rotation and dephasing channel

`Model.get_Frame_Rotation` (c3/model.py:536-578) and `Model.get_dephasing_channel`
(c3/model.py:597-639).
-/

set_option linter.unusedSectionVars false

namespace C3.Hilbert

open Matrix Finset NormedSpace C3.Propagation
open scoped ComplexOrder

/-! ## C37 -/

/-- c3/model.py:560-568: the subsystem addressed by a line: the first connected one for a coupling or
drive, the subsystem itself for a subsystem name; anything else raises (`none`). -/
def lineTarget (couplings subsystems : String → Option ℕ) (line : String) : Option ℕ :=
  match couplings line with
  | some q => some q
  | none => subsystems line

/-- c3/model.py:557-575: the exponent of the frame rotation. `none` is a raised exception (unknown
line or missing frame change). -/
noncomputable def frameExponent (dims : List ℕ) (target : String → Option ℕ)
    (framechanges : String → Option ℝ) (t : ℝ) :
    List (String × ℝ) → Matrix (Fin dims.prod) (Fin dims.prod) ℂ →
      Option (Matrix (Fin dims.prod) (Fin dims.prod) ℂ)
  | [], acc => some acc
  | (line, freq) :: rest, acc =>
    match framechanges line, target line with
    | some fc, some q =>
      frameExponent dims target framechanges t rest
        (acc + (Complex.I * ((freq * t + fc : ℝ) : ℂ)) • ((ann dims q)ᴴ * ann dims q))
    | _, _ => none

/-- c3/model.py:536-578 `get_Frame_Rotation`. -/
noncomputable def frameRotation (dims : List ℕ) (target : String → Option ℕ)
    (framechanges : String → Option ℝ) (t : ℝ) (freqs : List (String × ℝ)) :
    Option (Matrix (Fin dims.prod) (Fin dims.prod) ℂ) :=
  match frameExponent dims target framechanges t freqs 0 with
  | none => none
  | some x => some (if freqs = [] then 1 else exp x)

/-- Specification: the phase of the state at position `p`: every line contributes its angle times
the level of its subsystem. -/
noncomputable def framePhase (dims : List ℕ) (target : String → Option ℕ)
    (framechanges : String → Option ℝ) (t : ℝ) (freqs : List (String × ℝ)) (p : Fin dims.prod) : ℝ :=
  (freqs.map fun l => (l.2 * t + (framechanges l.1).getD 0) *
    (levelAt dims ((target l.1).getD 0) p : ℝ)).sum

/-- All lines are known, point to existing subsystems and have a frame change. -/
def FramesOk (dims : List ℕ) (target : String → Option ℕ) (framechanges : String → Option ℝ)
    (freqs : List (String × ℝ)) : Prop :=
  ∀ l ∈ freqs, (∃ fc, framechanges l.1 = some fc) ∧ ∃ q < dims.length, target l.1 = some q

theorem frameExponent_eq (dims : List ℕ) (target : String → Option ℕ)
    (framechanges : String → Option ℝ) (t : ℝ) (freqs : List (String × ℝ))
    (hok : FramesOk dims target framechanges freqs) (f : Fin dims.prod → ℝ) :
    frameExponent dims target framechanges t freqs
        (Matrix.diagonal fun p => Complex.I * (f p : ℂ)) =
      some (Matrix.diagonal fun p =>
        Complex.I * ((f p + framePhase dims target framechanges t freqs p : ℝ) : ℂ)) := by
  induction freqs generalizing f with
  | nil => simp [frameExponent, framePhase]
  | cons l rest ih =>
    obtain ⟨⟨fc, hfc⟩, q, hq, htq⟩ := hok l List.mem_cons_self
    obtain ⟨line, freq⟩ := l
    simp only at hfc htq
    simp only [frameExponent, hfc, htq]
    rw [ann_number dims q hq]
    have hacc : (Matrix.diagonal fun p => Complex.I * (f p : ℂ)) +
        (Complex.I * ((freq * t + fc : ℝ) : ℂ)) •
          (Matrix.diagonal fun p => (levelAt dims q p : ℂ)) =
        Matrix.diagonal fun p =>
          Complex.I * ((f p + (freq * t + fc) * levelAt dims q p : ℝ) : ℂ) := by
      rw [← Matrix.diagonal_smul, Matrix.diagonal_add]
      congr 1
      funext p
      simp only [Pi.smul_apply, smul_eq_mul]
      push_cast
      ring
    rw [hacc, ih (fun l hl => hok l (List.mem_cons_of_mem _ hl))]
    congr 2
    funext p
    simp only [framePhase, List.map_cons, List.sum_cons, hfc, htq, Option.getD_some]
    congr 2
    ring

/-- C37: the frame rotation is diagonal; each state gets the phase factor given by its levels. No
drive lines give the identity. -/
theorem C37_diagonal (dims : List ℕ) (target : String → Option ℕ)
    (framechanges : String → Option ℝ) (t : ℝ) (freqs : List (String × ℝ))
    (hok : FramesOk dims target framechanges freqs) :
    frameRotation dims target framechanges t freqs = some (Matrix.diagonal fun p =>
      Complex.exp (Complex.I * (framePhase dims target framechanges t freqs p : ℝ))) := by
  have h := frameExponent_eq dims target framechanges t freqs hok (fun _ => 0)
  have h0 : (Matrix.diagonal fun _ : Fin dims.prod => Complex.I * ((0 : ℝ) : ℂ)) = 0 := by
    simp
  rw [h0] at h
  unfold frameRotation
  rw [h]
  simp only [zero_add, Option.some.injEq]
  split
  · next he =>
    subst he
    simp [framePhase]
  · rw [Matrix.exp_diagonal]
    congr 1
    funext p
    rw [Pi.coe_exp, ← Complex.exp_eq_exp_ℂ]

/-- C37: the frame rotation is unitary. -/
theorem C37_unitary (dims : List ℕ) (target : String → Option ℕ)
    (framechanges : String → Option ℝ) (t : ℝ) (freqs : List (String × ℝ))
    (hok : FramesOk dims target framechanges freqs) :
    ∃ FR, frameRotation dims target framechanges t freqs = some FR ∧ FRᴴ * FR = 1 ∧
      FR * FRᴴ = 1 := by
  refine ⟨_, C37_diagonal dims target framechanges t freqs hok, ?_, ?_⟩
  all_goals
    rw [Matrix.diagonal_conjTranspose, Matrix.diagonal_mul_diagonal, ← Matrix.diagonal_one]
    congr 1
    funext p
    simp only [Pi.star_apply, RCLike.star_def, ← Complex.exp_conj, map_mul, Complex.conj_I,
      Complex.conj_ofReal, ← Complex.exp_add]
    simp

/-- C37: without frame changes the rotations form a one-parameter group in time. -/
theorem C37_group (dims : List ℕ) (target : String → Option ℕ) (t₁ t₂ : ℝ)
    (freqs : List (String × ℝ)) (hok : FramesOk dims target (fun _ => some 0) freqs) :
    ∃ A B C, frameRotation dims target (fun _ => some 0) t₁ freqs = some A ∧
      frameRotation dims target (fun _ => some 0) t₂ freqs = some B ∧
      frameRotation dims target (fun _ => some 0) (t₁ + t₂) freqs = some C ∧ C = B * A := by
  refine ⟨_, _, _, C37_diagonal dims target _ t₁ freqs hok, C37_diagonal dims target _ t₂ freqs hok,
    C37_diagonal dims target _ (t₁ + t₂) freqs hok, ?_⟩
  rw [Matrix.diagonal_mul_diagonal]
  congr 1
  funext p
  rw [← Complex.exp_add, ← mul_add, ← Complex.ofReal_add]
  congr 3
  unfold framePhase
  have : ∀ l : List (String × ℝ), (l.map fun l => (l.2 * (t₁ + t₂) + ((some (0 : ℝ)).getD 0)) *
      (levelAt dims ((target l.1).getD 0) p : ℝ)).sum =
      (l.map fun l => (l.2 * t₂ + ((some (0 : ℝ)).getD 0)) *
        (levelAt dims ((target l.1).getD 0) p : ℝ)).sum +
      (l.map fun l => (l.2 * t₁ + ((some (0 : ℝ)).getD 0)) *
        (levelAt dims ((target l.1).getD 0) p : ℝ)).sum := by
    intro l
    induction l with
    | nil => simp
    | cons a l ih =>
      simp only [List.map_cons, List.sum_cons, ih]
      simp only [Option.getD_some]
      ring
  exact this freqs

/-- C37: no lines give the identity at all times. -/
theorem C37_no_lines (dims : List ℕ) (target : String → Option ℕ)
    (framechanges : String → Option ℝ) (t : ℝ) :
    frameRotation dims target framechanges t [] = some 1 := by
  simp [frameRotation, frameExponent]

/-- C37: a line that is neither a coupling nor a subsystem, or without frame change, raises. -/
theorem C37_unknown (dims : List ℕ) (target : String → Option ℕ)
    (framechanges : String → Option ℝ) (t : ℝ) (freqs : List (String × ℝ)) (l : String × ℝ)
    (hl : l ∈ freqs) (h : target l.1 = none ∨ framechanges l.1 = none) :
    frameRotation dims target framechanges t freqs = none := by
  have key : ∀ acc, frameExponent dims target framechanges t freqs acc = none := by
    induction freqs with
    | nil => simp at hl
    | cons a rest ih =>
      intro acc
      obtain ⟨line, freq⟩ := a
      simp only [frameExponent]
      rcases List.mem_cons.1 hl with rfl | hl
      · rcases h with h | h
        · simp only at h
          rw [h]
          cases framechanges line <;> rfl
        · simp only at h
          rw [h]
      · cases framechanges line with
        | none => rfl
        | some fc =>
          cases target line with
          | none => rfl
          | some q => exact ih hl _
  unfold frameRotation
  rw [key]

example : FramesOk [2, 2] (lineTarget (fun s => if s = "d1" then some 0 else none) fun _ => none)
    (fun _ => some 0) [("d1", 5)] := by
  intro l hl
  simp only [List.mem_singleton] at hl
  subst hl
  exact ⟨⟨0, rfl⟩, 0, by decide, by simp [lineTarget]⟩

/-! ## C38 -/

/-- c3/model.py:597-639 `get_dephasing_channel`. `amps` holds the (first connected) subsystem and the
average amplitude of each line. The products of superoperators are elementwise in the code. `none`
is the raised `ValueError`. -/
noncomputable def dephasingLoop (dims : List ℕ) (t strength : ℝ) :
    List (ℕ × ℝ) → Matrix (Fin dims.prod × Fin dims.prod) (Fin dims.prod × Fin dims.prod) ℂ →
      Option (Matrix (Fin dims.prod × Fin dims.prod) (Fin dims.prod × Fin dims.prod) ℂ)
  | [], ch => some ch
  | (q, amp) :: rest, ch =>
    let Z := tfSuper (exp ((Complex.I * (Real.pi : ℂ)) • ((ann dims q)ᴴ * ann dims q)))
    let p := t * amp * strength
    open scoped Classical in
    if 1 < p ∨ p < 0 then none
    else dephasingLoop dims t strength rest
      (ch ⊙ (((1 - p : ℝ) : ℂ) • tfSuper 1 + ((p : ℝ) : ℂ) • Z))

/-- c3/model.py:613-616: start with the identity channel. -/
noncomputable def dephasing (dims : List ℕ) (t strength : ℝ) (amps : List (ℕ × ℝ)) :
    Option (Matrix (Fin dims.prod × Fin dims.prod) (Fin dims.prod × Fin dims.prod) ℂ) :=
  dephasingLoop dims t strength amps (tfSuper 1)

/-- The parity operator of a subsystem: `(-1)^level`. -/
noncomputable def parity (dims : List ℕ) (q : ℕ) : Matrix (Fin dims.prod) (Fin dims.prod) ℂ :=
  Matrix.diagonal fun p => (-1) ^ levelAt dims q p

/-- Specification: with probability `p` the parity operator is applied. -/
noncomputable def phaseFlip (dims : List ℕ) (q : ℕ) (p : ℝ)
    (rho : Matrix (Fin dims.prod) (Fin dims.prod) ℂ) : Matrix (Fin dims.prod) (Fin dims.prod) ℂ :=
  ((1 - p : ℝ) : ℂ) • rho + (p : ℂ) • (parity dims q * rho * (parity dims q)ᴴ)

/-- Specification: one phase flip after the other. -/
noncomputable def phaseFlips (dims : List ℕ) (t strength : ℝ) :
    List (ℕ × ℝ) → Matrix (Fin dims.prod) (Fin dims.prod) ℂ →
      Matrix (Fin dims.prod) (Fin dims.prod) ℂ
  | [], rho => rho
  | (q, amp) :: rest, rho =>
    phaseFlips dims t strength rest (phaseFlip dims q (t * amp * strength) rho)

theorem exp_number (dims : List ℕ) (q : ℕ) (hq : q < dims.length) :
    exp ((Complex.I * (Real.pi : ℂ)) • ((ann dims q)ᴴ * ann dims q)) = parity dims q := by
  rw [ann_number dims q hq, ← Matrix.diagonal_smul, Matrix.exp_diagonal, parity]
  congr 1
  funext p
  rw [Pi.coe_exp, ← Complex.exp_eq_exp_ℂ]
  simp only [Pi.smul_apply, smul_eq_mul]
  rw [mul_comm, ← mul_comm (Real.pi : ℂ), Complex.exp_nat_mul, Complex.exp_pi_mul_I]

/-- The factor a phase flip puts on the coherence between two states. -/
noncomputable def flipFactor (dims : List ℕ) (q : ℕ) (p : ℝ) (i j : Fin dims.prod) : ℝ :=
  (1 - p) + p * ((-1) ^ levelAt dims q i * (-1) ^ levelAt dims q j)

theorem tfSuper_diagonal {n : Type*} [Fintype n] [DecidableEq n] (d : n → ℂ) :
    tfSuper (Matrix.diagonal d) = Matrix.diagonal fun p : n × n => d p.1 * star (d p.2) := by
  ext ⟨i, j⟩ ⟨k, l⟩
  unfold tfSuper spre spost
  rw [← Matrix.mul_kronecker_mul, Matrix.mul_one, Matrix.one_mul, Matrix.diagonal_conjTranspose,
    Matrix.diagonal_transpose, Matrix.diagonal_kronecker_diagonal]
  rfl

theorem step_eq (dims : List ℕ) (q : ℕ) (hq : q < dims.length) (p : ℝ)
    (f : Fin dims.prod → Fin dims.prod → ℝ) :
    (Matrix.diagonal fun x : Fin dims.prod × Fin dims.prod => (f x.1 x.2 : ℂ)) ⊙
        (((1 - p : ℝ) : ℂ) • tfSuper 1 + ((p : ℝ) : ℂ) •
          tfSuper (exp ((Complex.I * (Real.pi : ℂ)) • ((ann dims q)ᴴ * ann dims q)))) =
      Matrix.diagonal fun x : Fin dims.prod × Fin dims.prod =>
        ((f x.1 x.2 * flipFactor dims q p x.1 x.2 : ℝ) : ℂ) := by
  rw [exp_number dims q hq, parity, ← Matrix.diagonal_one, tfSuper_diagonal, tfSuper_diagonal]
  ext x y
  simp only [Matrix.hadamard_apply, Matrix.add_apply, Matrix.smul_apply, Matrix.diagonal_apply,
    smul_eq_mul]
  by_cases h : x = y
  · subst h
    simp only [if_true, flipFactor]
    push_cast
    simp
  · simp [h]

/-- The product of the factors of all lines. -/
noncomputable def totalFactor (dims : List ℕ) (t strength : ℝ) :
    List (ℕ × ℝ) → Fin dims.prod → Fin dims.prod → ℝ
  | [], _, _ => 1
  | (q, amp) :: rest, i, j =>
    flipFactor dims q (t * amp * strength) i j * totalFactor dims t strength rest i j

theorem dephasingLoop_eq (dims : List ℕ) (t strength : ℝ) (amps : List (ℕ × ℝ))
    (hq : ∀ l ∈ amps, l.1 < dims.length)
    (hp : ∀ l ∈ amps, 0 ≤ t * l.2 * strength ∧ t * l.2 * strength ≤ 1)
    (f : Fin dims.prod → Fin dims.prod → ℝ) :
    dephasingLoop dims t strength amps
        (Matrix.diagonal fun x : Fin dims.prod × Fin dims.prod => (f x.1 x.2 : ℂ)) =
      some (Matrix.diagonal fun x : Fin dims.prod × Fin dims.prod =>
        ((f x.1 x.2 * totalFactor dims t strength amps x.1 x.2 : ℝ) : ℂ)) := by
  induction amps generalizing f with
  | nil => simp [dephasingLoop, totalFactor]
  | cons l rest ih =>
    obtain ⟨q, amp⟩ := l
    have h1 := hp (q, amp) List.mem_cons_self
    simp only at h1
    simp only [dephasingLoop]
    rw [if_neg (by push Not; exact ⟨h1.2, h1.1⟩), step_eq dims q (hq (q, amp) List.mem_cons_self),
      ih (fun l hl => hq l (List.mem_cons_of_mem _ hl))
        (fun l hl => hp l (List.mem_cons_of_mem _ hl))
        (fun i j => f i j * flipFactor dims q (t * amp * strength) i j)]
    congr 2
    funext x
    simp only [totalFactor, mul_assoc]

theorem phaseFlip_apply (dims : List ℕ) (q : ℕ) (p : ℝ)
    (rho : Matrix (Fin dims.prod) (Fin dims.prod) ℂ) (i j) :
    phaseFlip dims q p rho i j = (flipFactor dims q p i j : ℂ) * rho i j := by
  simp only [phaseFlip, parity, Matrix.add_apply, Matrix.smul_apply, smul_eq_mul,
    Matrix.diagonal_conjTranspose, Matrix.mul_diagonal, Matrix.diagonal_mul, flipFactor]
  push_cast
  simp only [Pi.star_apply, star_pow, star_neg, star_one]
  ring

theorem phaseFlips_apply (dims : List ℕ) (t strength : ℝ) (amps : List (ℕ × ℝ))
    (rho : Matrix (Fin dims.prod) (Fin dims.prod) ℂ) (i j) :
    phaseFlips dims t strength amps rho i j =
      (totalFactor dims t strength amps i j : ℂ) * rho i j := by
  induction amps generalizing rho with
  | nil => simp [phaseFlips, totalFactor]
  | cons l rest ih =>
    simp only [phaseFlips, totalFactor, ih, phaseFlip_apply]
    push_cast
    ring

/-- C38: for probabilities in `[0,1]` the matrix acts on vectorised states as the composition of the
phase flips of all lines, for the row-stacked and for the code's column-stacked vectors. -/
theorem C38_is_phase_flips (dims : List ℕ) (t strength : ℝ) (amps : List (ℕ × ℝ))
    (hq : ∀ l ∈ amps, l.1 < dims.length)
    (hp : ∀ l ∈ amps, 0 ≤ t * l.2 * strength ∧ t * l.2 * strength ≤ 1) :
    ∃ S, dephasing dims t strength amps = some S ∧
      (∀ rho, S *ᵥ rowVec rho = rowVec (phaseFlips dims t strength amps rho)) ∧
      ∀ rho, S *ᵥ dmToVec rho = dmToVec (phaseFlips dims t strength amps rho) := by
  have h := dephasingLoop_eq dims t strength amps hq hp (fun _ _ => 1)
  have h1 : (Matrix.diagonal fun x : Fin dims.prod × Fin dims.prod => ((1 : ℝ) : ℂ)) =
      tfSuper 1 := by
    rw [← Matrix.diagonal_one, tfSuper_diagonal]
    simp
  rw [h1] at h
  have hrow : ∀ rho, (Matrix.diagonal fun x : Fin dims.prod × Fin dims.prod =>
      ((1 * totalFactor dims t strength amps x.1 x.2 : ℝ) : ℂ)) *ᵥ rowVec rho =
      rowVec (phaseFlips dims t strength amps rho) := by
    intro rho
    funext x
    rw [Matrix.mulVec_diagonal, one_mul]
    simp only [rowVec, phaseFlips_apply]
  have hsymm : ∀ i j, totalFactor dims t strength amps i j =
      totalFactor dims t strength amps j i := by
    intro i j
    clear h hrow hp hq
    induction amps with
    | nil => rfl
    | cons l rest ih =>
      simp only [totalFactor, flipFactor, ih]
      ring
  refine ⟨_, h, hrow, fun rho => ?_⟩
  rw [dmToVec_eq, hrow, dmToVec_eq]
  funext x
  simp only [rowVec, phaseFlips_apply, Matrix.transpose_apply]
  rw [hsymm]

theorem phaseFlip_density (dims : List ℕ) (q : ℕ) (p : ℝ) (h0 : 0 ≤ p) (h1 : p ≤ 1)
    (rho : Matrix (Fin dims.prod) (Fin dims.prod) ℂ) (h : IsDensity rho) :
    IsDensity (phaseFlip dims q p rho) := by
  constructor
  · unfold phaseFlip
    have e0 : (0 : ℂ) ≤ ((1 - p : ℝ) : ℂ) := by
      rw [Complex.zero_le_real]
      linarith
    have e1 : (0 : ℂ) ≤ (p : ℂ) := by
      rw [Complex.zero_le_real]
      exact h0
    exact (h.1.smul e0).add ((h.1.mul_mul_conjTranspose_same (parity dims q)).smul e1)
  · rw [← h.2]
    unfold Matrix.trace
    apply sum_congr rfl
    intro i _
    rw [Matrix.diag_apply, Matrix.diag_apply, phaseFlip_apply]
    have : flipFactor dims q p i i = 1 := by
      unfold flipFactor
      rw [← pow_add, ← two_mul, pow_mul]
      norm_num
    rw [this]
    simp

/-- C38: the channel maps density matrices to density matrices. -/
theorem C38_channel (dims : List ℕ) (t strength : ℝ) (amps : List (ℕ × ℝ))
    (hp : ∀ l ∈ amps, 0 ≤ t * l.2 * strength ∧ t * l.2 * strength ≤ 1)
    (rho : Matrix (Fin dims.prod) (Fin dims.prod) ℂ) (h : IsDensity rho) :
    IsDensity (phaseFlips dims t strength amps rho) := by
  induction amps generalizing rho with
  | nil => exact h
  | cons l rest ih =>
    have hl := hp l List.mem_cons_self
    exact ih (fun l hl => hp l (List.mem_cons_of_mem _ hl)) _
      (phaseFlip_density dims l.1 _ hl.1 hl.2 rho h)

theorem flipFactor_bound (dims : List ℕ) (q : ℕ) (p : ℝ) (h0 : 0 ≤ p) (h1 : p ≤ 1)
    (i j : Fin dims.prod) : |flipFactor dims q p i j| ≤ 1 ∧ flipFactor dims q p i i = 1 := by
  constructor
  · unfold flipFactor
    rw [← pow_add]
    rcases neg_one_pow_eq_or ℝ (levelAt dims q i + levelAt dims q j) with h | h
    · rw [h, abs_le]
      constructor <;> linarith
    · rw [h, abs_le]
      constructor <;> linarith
  · unfold flipFactor
    rw [← pow_add, ← two_mul, pow_mul]
    norm_num

/-- C38: populations are untouched and no coherence grows. -/
theorem C38_populations (dims : List ℕ) (t strength : ℝ) (amps : List (ℕ × ℝ))
    (hp : ∀ l ∈ amps, 0 ≤ t * l.2 * strength ∧ t * l.2 * strength ≤ 1)
    (rho : Matrix (Fin dims.prod) (Fin dims.prod) ℂ) (i j) :
    phaseFlips dims t strength amps rho i i = rho i i ∧
      ‖phaseFlips dims t strength amps rho i j‖ ≤ ‖rho i j‖ := by
  have hb : |totalFactor dims t strength amps i j| ≤ 1 ∧
      totalFactor dims t strength amps i i = 1 := by
    induction amps with
    | nil => simp [totalFactor]
    | cons l rest ih =>
      have hl := hp l List.mem_cons_self
      obtain ⟨a1, a2⟩ := ih fun l hl => hp l (List.mem_cons_of_mem _ hl)
      obtain ⟨b1, b2⟩ := flipFactor_bound dims l.1 _ hl.1 hl.2 i j
      simp only [totalFactor]
      rw [a2, b2, mul_one, abs_mul]
      exact ⟨mul_le_one₀ b1 (abs_nonneg _) a1, rfl⟩
  constructor
  · rw [phaseFlips_apply, hb.2]
    simp
  · rw [phaseFlips_apply, norm_mul, Complex.norm_real, Real.norm_eq_abs]
    exact mul_le_of_le_one_left (norm_nonneg _) hb.1

/-- C38: a line with a probability outside of `[0,1]` raises. -/
theorem C38_refused (dims : List ℕ) (t strength : ℝ) (amps : List (ℕ × ℝ)) (l : ℕ × ℝ)
    (hl : l ∈ amps) (h : 1 < t * l.2 * strength ∨ t * l.2 * strength < 0) :
    dephasing dims t strength amps = none := by
  unfold dephasing
  generalize tfSuper (1 : Matrix (Fin dims.prod) (Fin dims.prod) ℂ) = ch
  induction amps generalizing ch with
  | nil => simp at hl
  | cons a rest ih =>
    simp only [dephasingLoop]
    split
    · rfl
    · next hn =>
      rcases List.mem_cons.1 hl with rfl | hl
      · exact absurd h hn
      · exact ih hl _

example : ∀ l ∈ [((0 : ℕ), (1 / 2 : ℝ))], 0 ≤ 1 * l.2 * (1 : ℝ) ∧ 1 * l.2 * (1 : ℝ) ≤ 1 := by
  intro l hl
  simp only [List.mem_singleton] at hl
  subst hl
  norm_num

end C3.Hilbert
