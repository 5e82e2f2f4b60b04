import Verif.Experiment.Waiting
import Verif.Gates.Sequences

/-!
# C236: what relaxation, Ramsey and echo sequences show

The sequences of c3/utils/qt_utils.py:364-445 (`T1_sequence`, `ramsey_sequence`, `ramsey_echo_sequence`, models of C66) are
run by `evaluate_legacy` (C65) on a two-level qubit. The quarter turns are the ideal ones, the wait is a silent gate that
`compute_propagators` (C68) has obtained from the drift, the frame rotation and the collapse operator of the qubit
(c3/libraries/chip.py:205-242, 425-467).
-/

set_option linter.unusedSectionVars false

noncomputable section

namespace C3.Experiment.Decays

open Matrix C3.Propagation C3.Hilbert C3.Experiment C3.Experiment.Compute C3.Experiment.EndToEnd
  C3.Experiment.WeakNoise C3.Experiment.Waiting C3.Gates

/-! ## Specification -/

/-- A qubit with the given decay times and no temperature. -/
def times (t1 t2 : Option ℝ) (freq anhar : ℝ) : Decay := ⟨t1, none, t2, freq, anhar⟩

/-- The phase that the qubit gains against the frame during a gate: its energy difference times the length of the gate,
less the phases of the carriers if the frame rotation is used. -/
def gained (useFR : Bool) (gap : ℝ) (p : Pulse) : ℝ :=
  gap * (p.dt * p.values.length) - if useFR then (p.freqs.map fun l => l.2 * p.t + (p.shifts l.1).getD 0).sum else 0

/-- The table of propagators has ideal quarter turns for the qubit. -/
structure Turns (props : String → Option (SOp [2])) (target : ℕ) : Prop where
  plus : props (onTarget "rx90p" target) = some (tfSuper (n := Fin 2) x90p)
  minus : props (onTarget "rx90m" target) = some (tfSuper (n := Fin 2) x90m)

/-- The ground state as density vector. -/
def ground : Fin 2 × Fin 2 → ℂ := dmToVec (diagonal (Pi.single 0 1))

/-- Rate of the relaxation. -/
def rate1 (k : Kind) : Option ℝ → ℝ
  | none => 0
  | some t => relaxRate k t

/-- Rate of the dephasing. -/
def rate2 : Option ℝ → ℝ
  | none => 0
  | some t => 1 / t

/-- What is given: a chip with one qubit that has the given decay times, and an experiment that has computed a silent
gate. -/
structure Given (c : Chip [2]) (e : Fin 2 → ℝ) (k : Kind) (t1 t2 : Option ℝ) (ps : List (String × Pulse)) (g : String)
    (p : Pulse) (t' : Exp (SOp [2])) : Prop where
  wf : c.WF
  drift : c.h0 = (diagonal fun j => (e j : ℂ) : Matrix (Fin 2) (Fin 2) ℂ)
  decay : ∃ (ks : ℕ → Kind) (d : ℕ → Decay) (freq anhar : ℝ), FromComponents c ks d ∧ ks 0 = k ∧ d 0 = times t1 t2 freq anhar
  pulse : ps.lookup g = some p
  silent : ∀ row ∈ p.values, ∀ x ∈ row, x = 0
  done : ∃ t : Exp (SOp [2]), t.propMethod = none ∧ t.optGates = none ∧ ∃ table, compute (opened c ps) t = (.ok table, t')

/-- The decay times that are given are positive. -/
def Positive (t1 t2 : Option ℝ) : Prop := (∀ t, t1 = some t → 0 < t) ∧ ∀ t, t2 = some t → 0 < t

/-! ## Two-level lemmas -/

/-- A wait keeps the trace and shrinks the excited population. -/
structure Relaxes (W : Matrix (Fin 2 × Fin 2) (Fin 2 × Fin 2) ℂ) (a : ℂ) : Prop where
  exc : ∀ v, (W *ᵥ v) (1, 1) = a * v (1, 1)
  tot : ∀ v, (W *ᵥ v) (0, 0) + (W *ᵥ v) (1, 1) = v (0, 0) + v (1, 1)

/-- A wait multiplies the coherences. -/
structure Dephases (W : Matrix (Fin 2 × Fin 2) (Fin 2 × Fin 2) ℂ) (b : ℂ) : Prop where
  up : ∀ v, (W *ᵥ v) (0, 1) = b * v (0, 1)
  down : ∀ v, (W *ᵥ v) (1, 0) = star b * v (1, 0)

theorem Relaxes.pow {W : Matrix (Fin 2 × Fin 2) (Fin 2 × Fin 2) ℂ} {a : ℂ} (h : Relaxes W a) (n : ℕ) :
    Relaxes (W ^ n) (a ^ n) := by
  induction n with
  | zero => exact ⟨by simp, by simp⟩
  | succ n ih =>
    refine ⟨fun v => ?_, fun v => ?_⟩
    · rw [pow_succ, ← mulVec_mulVec, ih.exc, h.exc, pow_succ, mul_assoc]
    · rw [pow_succ, ← mulVec_mulVec, ih.tot, h.tot]

theorem Dephases.pow {W : Matrix (Fin 2 × Fin 2) (Fin 2 × Fin 2) ℂ} {b : ℂ} (h : Dephases W b) (n : ℕ) :
    Dephases (W ^ n) (b ^ n) := by
  induction n with
  | zero => exact ⟨by simp, by simp⟩
  | succ n ih =>
    refine ⟨fun v => ?_, fun v => ?_⟩
    · rw [pow_succ, ← mulVec_mulVec, ih.up, h.up, pow_succ, mul_assoc]
    · rw [pow_succ, ← mulVec_mulVec, ih.down, h.down, pow_succ, star_mul', mul_assoc]

theorem x90p_eq : x90p = r2 • !![1, -Complex.I; -Complex.I, 1] := by simp [x90p, Gate.mat]

theorem x90m_eq : x90m = r2 • !![1, Complex.I; Complex.I, 1] := by simp [x90m, Gate.mat]

theorem turn_entries (s : ℂ) (hs : star s = -s) (hs2 : s * s = -1) (v : Fin 2 × Fin 2 → ℂ) :
    let y := tfSuper (r2 • !![1, s; s, 1]) *ᵥ v
    y (0, 0) = (v (0, 0) + v (1, 1) - s * v (0, 1) + s * v (1, 0)) / 2 ∧
      y (1, 1) = (v (0, 0) + v (1, 1) + s * v (0, 1) - s * v (1, 0)) / 2 ∧
      y (0, 1) = (v (0, 1) + v (1, 0) - s * v (0, 0) + s * v (1, 1)) / 2 ∧
      y (1, 0) = (v (0, 1) + v (1, 0) + s * v (0, 0) - s * v (1, 1)) / 2 := by
  have hv : v = rowVec (unRow v) := rfl
  have e : tfSuper (r2 • !![1, s; s, 1]) *ᵥ v = rowVec ((1 / 2 : ℂ) • (!![1, s; s, 1] * unRow v * !![1, -s; -s, 1])) := by
    rw [hv, C26_super_row, conjTranspose_smul, r2_star, Matrix.smul_mul, Matrix.smul_mul, Matrix.mul_smul, smul_smul, r2_sq]
    have : (!![1, s; s, 1] : Matrix (Fin 2) (Fin 2) ℂ)ᴴ = !![1, -s; -s, 1] := by
      ext i j
      fin_cases i <;> fin_cases j <;> simp [conjTranspose_apply, hs]
    rw [this]
    rfl
  dsimp only
  rw [e]
  refine ⟨?_, ?_, ?_, ?_⟩ <;>
  · simp only [rowVec, unRow, Matrix.smul_apply, Matrix.mul_apply, Fin.sum_univ_two, smul_eq_mul]
    simp
    ring_nf
    try (rw [pow_two, hs2]; ring)

theorem plus_entries (v : Fin 2 × Fin 2 → ℂ) :
    let y := tfSuper x90p *ᵥ v
    y (0, 0) = (v (0, 0) + v (1, 1) - -Complex.I * v (0, 1) + -Complex.I * v (1, 0)) / 2 ∧
      y (1, 1) = (v (0, 0) + v (1, 1) + -Complex.I * v (0, 1) - -Complex.I * v (1, 0)) / 2 ∧
      y (0, 1) = (v (0, 1) + v (1, 0) - -Complex.I * v (0, 0) + -Complex.I * v (1, 1)) / 2 ∧
      y (1, 0) = (v (0, 1) + v (1, 0) + -Complex.I * v (0, 0) - -Complex.I * v (1, 1)) / 2 := by
  rw [x90p_eq]
  exact turn_entries (-Complex.I) (by simp) (by simp) v

theorem minus_entries (v : Fin 2 × Fin 2 → ℂ) :
    let y := tfSuper x90m *ᵥ v
    y (0, 0) = (v (0, 0) + v (1, 1) - Complex.I * v (0, 1) + Complex.I * v (1, 0)) / 2 ∧
      y (1, 1) = (v (0, 0) + v (1, 1) + Complex.I * v (0, 1) - Complex.I * v (1, 0)) / 2 ∧
      y (0, 1) = (v (0, 1) + v (1, 0) - Complex.I * v (0, 0) + Complex.I * v (1, 1)) / 2 ∧
      y (1, 0) = (v (0, 1) + v (1, 0) + Complex.I * v (0, 0) - Complex.I * v (1, 1)) / 2 := by
  rw [x90m_eq]
  exact turn_entries Complex.I (by simp) (by simp) v

theorem ground_entries : ground (0, 0) = 1 ∧ ground (1, 1) = 0 ∧ ground (0, 1) = 0 ∧ ground (1, 0) = 0 := by
  refine ⟨?_, ?_, ?_, ?_⟩ <;> simp [ground, dmToVec]

/-- The state after the first quarter turn. -/
theorem first_turn : let y := tfSuper x90p *ᵥ ground
    y (0, 0) = 1 / 2 ∧ y (1, 1) = 1 / 2 ∧ y (0, 1) = Complex.I / 2 ∧ y (1, 0) = -Complex.I / 2 := by
  obtain ⟨h1, h2, h3, h4⟩ := plus_entries ground
  obtain ⟨g1, g2, g3, g4⟩ := ground_entries
  dsimp only
  rw [h1, h2, h3, h4, g1, g2, g3, g4]
  refine ⟨?_, ?_, ?_, ?_⟩ <;> ring

theorem run_one {d : Type} [Fintype d] [DecidableEq d] (props : String → Option (Matrix d d ℂ)) (g : String)
    (W : Matrix d d ℂ) (h : props g = some W) (rest : List String) (v : d → ℂ) :
    runSeq props (g :: rest) v = runSeq props rest (W *ᵥ v) := by
  rw [runSeq, h]

theorem run_rep {d : Type} [Fintype d] [DecidableEq d] (props : String → Option (Matrix d d ℂ)) (g : String)
    (W : Matrix d d ℂ) (h : props g = some W) (n : ℕ) (rest : List String) (v : d → ℂ) :
    runSeq props (List.replicate n g ++ rest) v = runSeq props rest (W ^ n *ᵥ v) := by
  induction n generalizing v with
  | zero => simp
  | succ n ih =>
    rw [List.replicate_succ, List.cons_append, run_one props g W h, ih, mulVec_mulVec, pow_succ]

theorem t1_run (props : String → Option (Matrix (Fin 2 × Fin 2) (Fin 2 × Fin 2) ℂ)) (target n : ℕ)
    (hp : props (onTarget "rx90p" target) = some (tfSuper x90p)) (W : Matrix (Fin 2 × Fin 2) (Fin 2 × Fin 2) ℂ)
    (hw : props "Id" = some W) (a : ℂ) (ha : Relaxes W a) :
    ∃ y, runSeq props (t1Sequence n target) ground = some y ∧ y (1, 1) = a ^ n ∧ y (0, 0) = 1 - a ^ n := by
  have e : t1Sequence n target = onTarget "rx90p" target :: onTarget "rx90p" target :: (List.replicate n "Id" ++ []) := by
    simp [t1Sequence, List.replicate]
  obtain ⟨h1, h2, h3, h4⟩ := first_turn
  obtain ⟨k1, k2, k3, k4⟩ := plus_entries (tfSuper x90p *ᵥ ground)
  rw [h1, h2, h3, h4] at k1 k2
  refine ⟨W ^ n *ᵥ (tfSuper x90p *ᵥ (tfSuper x90p *ᵥ ground)), ?_, ?_, ?_⟩
  · rw [e, run_one props _ _ hp, run_one props _ _ hp, run_rep props _ _ hw]
    rfl
  · rw [(ha.pow n).exc, k2]
    ring_nf
    rw [Complex.I_sq]
    ring
  · have ht := (ha.pow n).tot (tfSuper x90p *ᵥ (tfSuper x90p *ᵥ ground))
    rw [(ha.pow n).exc, k1, k2] at ht
    rw [eq_sub_of_add_eq ht]
    ring_nf
    rw [Complex.I_sq]
    ring

theorem ramsey_run (props : String → Option (Matrix (Fin 2 × Fin 2) (Fin 2 × Fin 2) ℂ)) (target n : ℕ)
    (hp : props (onTarget "rx90p" target) = some (tfSuper x90p)) (W : Matrix (Fin 2 × Fin 2) (Fin 2 × Fin 2) ℂ)
    (hw : props "id" = some W) (a b : ℂ) (ha : Relaxes W a) (hb : Dephases W b) :
    ∃ y, runSeq props (ramseySequence n target) ground = some y ∧ y (1, 1) = ((1 + (b ^ n).re) / 2 : ℝ) ∧
      y (0, 0) = ((1 - (b ^ n).re) / 2 : ℝ) := by
  have e : ramseySequence n target = onTarget "rx90p" target :: (List.replicate n "id" ++ [onTarget "rx90p" target]) := by
    simp [ramseySequence]
  obtain ⟨h1, h2, h3, h4⟩ := first_turn
  obtain ⟨k1, k2, -, -⟩ := plus_entries (W ^ n *ᵥ (tfSuper x90p *ᵥ ground))
  rw [(ha.pow n).tot, (hb.pow n).up, (hb.pow n).down, h1, h2, h3, h4] at k1 k2
  have hre : (((b ^ n).re : ℝ) : ℂ) = (b ^ n + star (b ^ n)) / 2 := Complex.re_eq_add_conj _
  refine ⟨tfSuper x90p *ᵥ (W ^ n *ᵥ (tfSuper x90p *ᵥ ground)), ?_, ?_, ?_⟩
  · rw [e, run_one props _ _ hp, run_rep props _ _ hw, run_one props _ _ hp]
    rfl
  · rw [k2]
    push_cast
    rw [hre]
    ring_nf
    rw [Complex.I_sq]
    ring
  · rw [k1]
    push_cast
    rw [hre]
    ring_nf
    rw [Complex.I_sq]
    ring

theorem echo_run (props : String → Option (Matrix (Fin 2 × Fin 2) (Fin 2 × Fin 2) ℂ)) (target n : ℕ)
    (hp : props (onTarget "rx90p" target) = some (tfSuper x90p))
    (hm : props (onTarget "rx90m" target) = some (tfSuper x90m)) (W : Matrix (Fin 2 × Fin 2) (Fin 2 × Fin 2) ℂ)
    (hw : props "id" = some W) (a b : ℂ) (ha : Relaxes W a) (hb : Dephases W b) :
    ∃ y, runSeq props (echoSequence n target) ground = some y ∧ y (1, 1) = ((1 + ‖b‖ ^ (2 * (n / 2))) / 2 : ℝ) ∧
      y (0, 0) = ((1 - ‖b‖ ^ (2 * (n / 2))) / 2 : ℝ) := by
  have e : echoSequence n target = onTarget "rx90p" target :: (List.replicate (n / 2) "id" ++
      (onTarget "rx90p" target :: onTarget "rx90p" target :: (List.replicate (n / 2) "id" ++
        [onTarget "rx90m" target]))) := by
    simp [echoSequence]
  generalize n / 2 = m at *
  obtain ⟨h1, h2, h3, h4⟩ := first_turn
  set y1 := W ^ m *ᵥ (tfSuper x90p *ᵥ ground) with hy1
  have a1 : y1 (0, 0) + y1 (1, 1) = 1 := by rw [hy1, (ha.pow m).tot, h1, h2]; norm_num
  have a2 : y1 (0, 1) = b ^ m * (Complex.I / 2) := by rw [hy1, (hb.pow m).up, h3]
  have a3 : y1 (1, 0) = star (b ^ m) * (-Complex.I / 2) := by rw [hy1, (hb.pow m).down, h4]
  obtain ⟨k1, k2, k3, k4⟩ := plus_entries y1
  obtain ⟨l1, l2, l3, l4⟩ := plus_entries (tfSuper x90p *ᵥ y1)
  rw [k1, k2, k3, k4] at l1 l2 l3 l4
  set y2 := W ^ m *ᵥ (tfSuper x90p *ᵥ (tfSuper x90p *ᵥ y1)) with hy2
  have b1 : y2 (0, 0) + y2 (1, 1) = 1 := by
    rw [hy2, (ha.pow m).tot, l1, l2, ← a1]
    ring
  have b2 : y2 (0, 1) = b ^ m * (star (b ^ m) * (-Complex.I / 2)) := by
    rw [hy2, (hb.pow m).up, l3, ← a3]
    congr 1
    ring_nf
    rw [Complex.I_sq]
    ring
  have b3 : y2 (1, 0) = star (b ^ m) * (b ^ m * (Complex.I / 2)) := by
    rw [hy2, (hb.pow m).down, l4, ← a2]
    congr 1
    ring_nf
    rw [Complex.I_sq]
    ring
  have hn : ((‖b‖ ^ (2 * m) : ℝ) : ℂ) = b ^ m * star (b ^ m) := by
    have : b ^ m * star (b ^ m) = ((Complex.normSq (b ^ m) : ℝ) : ℂ) := Complex.mul_conj _
    rw [this, Complex.normSq_eq_norm_sq, norm_pow, ← pow_mul, mul_comm m]
  obtain ⟨m1, m2, -, -⟩ := minus_entries y2
  rw [b1, b2, b3] at m1 m2
  refine ⟨tfSuper x90m *ᵥ y2, ?_, ?_, ?_⟩
  · rw [e, run_one props _ _ hp, run_rep props _ _ hw, run_one props _ _ hp, run_one props _ _ hp, run_rep props _ _ hw,
      run_one props _ _ hm]
    rfl
  · rw [m2, Complex.ofReal_div, Complex.ofReal_add, hn]
    push_cast
    ring_nf
    rw [Complex.I_sq]
    ring
  · rw [m1, Complex.ofReal_div, Complex.ofReal_sub, hn]
    push_cast
    ring_nf
    rw [Complex.I_sq]
    ring

/-! ## The computed wait -/

theorem number_two : (!![0, 1; 0, 0] : Matrix (Fin 2) (Fin 2) ℂ)ᴴ * !![0, 1; 0, 0] = !![0, 0; 0, 1] := by
  ext i j
  fin_cases i <;> fin_cases j <;> simp [Matrix.mul_apply, conjTranspose_apply]

theorem sqrt_two (t : ℝ) : ((Real.sqrt (0.5 / t) : ℝ) : ℂ) * 2 = ((Real.sqrt (2 * (1 / t)) : ℝ) : ℂ) := by
  have : 2 * (1 / t) = 2 ^ 2 * (0.5 / t) := by ring
  rw [this, Real.sqrt_mul (by norm_num), Real.sqrt_sq (by norm_num)]
  push_cast
  ring

theorem sum_one_two (x : ℂ) : x • (!![0, 1; 0, 0] : Matrix (Fin 2) (Fin 2) ℂ) = !![0, x; 0, 0] := by
  ext i j
  fin_cases i <;> fin_cases j <;> simp

theorem sum_other_two (y : ℂ) : y • (2 : ℂ) • (!![0, 0; 0, 1] : Matrix (Fin 2) (Fin 2) ℂ) = !![0, 0; 0, y * 2] := by
  ext i j
  fin_cases i <;> fin_cases j <;> simp

theorem sum_both_two (x y : ℂ) : x • (!![0, 1; 0, 0] : Matrix (Fin 2) (Fin 2) ℂ) + y • (2 : ℂ) • !![0, 0; 0, 1] =
    !![0, x; 0, y * 2] := by
  ext i j
  fin_cases i <;> fin_cases j <;> simp

theorem collapse_two (k : Kind) (t1 t2 : Option ℝ) (freq anhar : ℝ) (L : Op [2])
    (h : getLindbladian k (times t1 t2 freq anhar) [2] 0 = some L) :
    L = (!![0, ((Real.sqrt (rate1 k t1) : ℝ) : ℂ); 0, ((Real.sqrt (2 * rate2 t2) : ℝ) : ℂ)] :
      Matrix (Fin 2) (Fin 2) ℂ) := by
  have hn : ((ann [2] 0)ᴴ * ann [2] 0 : Op [2]) = (!![0, 0; 0, 1] : Matrix (Fin 2) (Fin 2) ℂ) := by
    rw [ann_two]
    exact number_two
  have hT : ∀ t1 t2, tempUsed k (times t1 t2 freq anhar) = none := by
    intro t1 t2
    cases k <;> rfl
  unfold getLindbladian at h
  split at h
  · simp at h
  · next hne =>
    rw [← Option.some.inj h]
    unfold collapseList at hne ⊢
    rw [hT] at hne ⊢
    rcases t1 with _ | t1 <;> rcases t2 with _ | t2
    · exact absurd rfl hne
    · simp only [times, List.nil_append, List.sum_cons, List.sum_nil, add_zero]
      rw [hn]
      refine (sum_other_two _).trans ?_
      rw [sqrt_two, rate1, rate2, Real.sqrt_zero, Complex.ofReal_zero]
    · simp only [times, List.append_nil, List.sum_cons, List.sum_nil, add_zero]
      rw [ann_two]
      refine (sum_one_two _).trans ?_
      rw [rate1, rate2, mul_zero, Real.sqrt_zero, Complex.ofReal_zero]
    · simp only [times, List.cons_append, List.nil_append, List.sum_cons, List.sum_nil, add_zero]
      rw [hn, ann_two]
      refine (sum_both_two _ _).trans ?_
      rw [sqrt_two, rate1, rate2]

/-- The master equation of one qubit. -/
theorem master_two (e0 e1 x y : ℝ) (rho : Matrix (Fin 2) (Fin 2) ℂ) :
    let R := masterRHS (diagonal ![(e0 : ℂ), (e1 : ℂ)]) [!![0, (x : ℂ); 0, (y : ℂ)]] rho
    R 1 1 = -((x ^ 2 : ℝ) : ℂ) * rho 1 1 ∧
      R 0 1 = (-(((x ^ 2 + y ^ 2) / 2 : ℝ) : ℂ) - Complex.I * ((e0 - e1 : ℝ) : ℂ)) * rho 0 1 + ((x * y : ℝ) : ℂ) * rho 1 1 ∧
      R 1 0 = (-(((x ^ 2 + y ^ 2) / 2 : ℝ) : ℂ) - Complex.I * ((e1 - e0 : ℝ) : ℂ)) * rho 1 0 +
        ((x * y : ℝ) : ℂ) * rho 1 1 := by
  have hc : (!![0, (x : ℂ); 0, (y : ℂ)] : Matrix (Fin 2) (Fin 2) ℂ)ᴴ = !![0, 0; (x : ℂ), (y : ℂ)] := by
    ext i j
    fin_cases i <;> fin_cases j <;> simp [conjTranspose_apply]
  dsimp only
  unfold masterRHS
  simp only [List.map_cons, List.map_nil, List.sum_cons, List.sum_nil, add_zero, hc]
  refine ⟨?_, ?_, ?_⟩ <;>
  · simp [Matrix.mul_apply, vecMul, dotProduct, Fin.sum_univ_two]
    ring

theorem level_two (p : Fin 2) : levelAt [2] 0 p = p := by
  fin_cases p <;> rfl

/-- The frame phase of the two levels. -/
theorem phase_two (target : String → Option ℕ) (ht : ∀ l q, target l = some q → q < 1) (shifts : String → Option ℝ)
    (t : ℝ) (freqs : List (String × ℝ)) (p : Fin 2) :
    framePhase [2] target shifts t freqs p = (freqs.map fun l => l.2 * t + (shifts l.1).getD 0).sum * (p : ℕ) := by
  unfold framePhase
  rw [← List.sum_map_mul_right]
  congr 1
  refine List.map_congr_left fun l _ => ?_
  have h0 : (target l.1).getD 0 = 0 := by
    cases h : target l.1 with
    | none => rfl
    | some q => exact Nat.lt_one_iff.1 (ht _ _ h)
  rw [h0, level_two]

variable {dims : List ℕ}

/-- The frame rotation of a gate, with its phases. -/
theorem frame_phases (c : Chip dims) (hc : c.WF) (p : Pulse) (F : Op dims) (h : c.frame p = some F) :
    F = diagonal fun i => Complex.exp (Complex.I * (framePhase dims c.target p.shifts p.t p.freqs i : ℝ)) := by
  have hok : FramesOk dims c.target p.shifts p.freqs := by
    intro l hl
    refine ⟨?_, ?_⟩
    · cases hs : p.shifts l.1 with
      | some x => exact ⟨x, rfl⟩
      | none =>
        have := C37_unknown dims c.target p.shifts p.t p.freqs l hl (Or.inr hs)
        unfold Chip.frame at h
        rw [this] at h
        simp at h
    · cases ht : c.target l.1 with
      | none =>
        have := C37_unknown dims c.target p.shifts p.t p.freqs l hl (Or.inl ht)
        unfold Chip.frame at h
        rw [this] at h
        simp at h
      | some q => exact ⟨q, hc.target _ _ ht, rfl⟩
  unfold Chip.frame at h
  rw [C37_diagonal dims c.target p.shifts p.t p.freqs hok] at h
  exact (Option.some.inj h).symm

/-- A functional that the generator multiplies by a number is multiplied by its exponential during a silent gate. -/
theorem silent_gate (c : Chip dims) (hc : c.WF) (ps : List (String × Pulse)) (w : Fin dims.prod × Fin dims.prod → ℂ)
    (z : ℂ) (hgen : w ᵥ* lindOp c.h0 c.cols = z • w) (g : String) (S : SOp dims)
    (h : physical (opened c ps) (.name "pwc") g = .ok S) :
    ∃ p, ps.lookup g = some p ∧ ((∀ row ∈ p.values, ∀ x ∈ row, x = 0) →
      ∃ S', w ᵥ* S' = Complex.exp (z * (p.dt * p.values.length : ℝ)) • w ∧
        S = (if c.useFR then tfSuper (diagonal fun i => Complex.exp (Complex.I *
          (framePhase dims c.target p.shifts p.t p.freqs i : ℝ))) else 1) * S') := by
  obtain ⟨p, hks, S', hp, -, hU, hF⟩ := physical_opened c ps g S h
  refine ⟨p, hp, fun hsil => ⟨S', ?_, ?_⟩⟩
  · have hv : p.values ≠ [] := by
      intro hv
      rw [hv, List.length_nil, pwcLind_empty c.h0 hks c.cols p.dt c.batch hc.batch] at hU
      simp at hU
    rw [pwcLind_eq c.h0 hks c.cols p.dt p.values hv c.batch hc.batch, Option.some.injEq] at hU
    have h1 := slices w c.h0 c.cols z hgen hks p.dt p.values c.h0 fun row hr => silent_ham _ _ _ (hsil row hr)
    rw [hU] at h1
    exact h1
  · rcases hF with ⟨h1, F, hF, rfl⟩ | ⟨h1, rfl⟩
    · rw [h1, if_pos rfl, ← frame_phases c hc p F hF]
    · rw [h1, if_neg (by simp), Matrix.one_mul]

theorem functional_two (h L : Matrix (Fin 2) (Fin 2) ℂ) (p q : Fin 2) (z : ℂ)
    (hR : ∀ rho, masterRHS h [L] rho p q = z * rho p q) :
    (Pi.single (p, q) 1 : Fin 2 × Fin 2 → ℂ) ᵥ* lindOp h [L] = z • Pi.single (p, q) 1 := by
  refine functional_lindOp _ _ _ _ fun rho => ?_
  rw [single_dotProduct, one_mul, single_dotProduct, one_mul]
  exact hR rho

theorem entry_two (S' : Matrix (Fin 2 × Fin 2) (Fin 2 × Fin 2) ℂ) (x : Fin 2 × Fin 2) (u : ℂ)
    (h : (Pi.single x 1 : Fin 2 × Fin 2 → ℂ) ᵥ* S' = u • Pi.single x 1) (v : Fin 2 × Fin 2 → ℂ) :
    (S' *ᵥ v) x = u * v x := by
  have h1 : (Pi.single x 1 : Fin 2 × Fin 2 → ℂ) ⬝ᵥ (S' *ᵥ v) = (S' *ᵥ v) x := by rw [single_dotProduct, one_mul]
  rw [← h1, Matrix.dotProduct_mulVec, h, smul_dotProduct, single_dotProduct, one_mul, smul_eq_mul]

/-- The functional that reads the trace. -/
def traceForm : Fin 2 × Fin 2 → ℂ := fun x => if x.1 = x.2 then 1 else 0

theorem traceForm_dot (v : Fin 2 × Fin 2 → ℂ) : traceForm ⬝ᵥ v = v (0, 0) + v (1, 1) := by
  unfold dotProduct traceForm
  rw [Fintype.sum_prod_type]
  simp [Fin.sum_univ_two]

theorem traceForm_gen (h L : Matrix (Fin 2) (Fin 2) ℂ) : traceForm ᵥ* lindOp h [L] = (0 : ℂ) • traceForm := by
  refine functional_lindOp _ _ _ _ fun rho => ?_
  rw [traceForm_dot, zero_mul]
  have := masterRHS_trace h [L] rho
  rw [Matrix.trace_fin_two] at this
  exact this

theorem trace_two (S' : Matrix (Fin 2 × Fin 2) (Fin 2 × Fin 2) ℂ) (T : ℂ)
    (h : traceForm ᵥ* S' = Complex.exp (0 * T) • traceForm) (v : Fin 2 × Fin 2 → ℂ) :
    (S' *ᵥ v) (0, 0) + (S' *ᵥ v) (1, 1) = v (0, 0) + v (1, 1) := by
  rw [← traceForm_dot, Matrix.dotProduct_mulVec, h, zero_mul, Complex.exp_zero, one_smul, traceForm_dot]

theorem framed_two (b : Bool) (f : Fin 2 → ℝ) (S' : Matrix (Fin 2 × Fin 2) (Fin 2 × Fin 2) ℂ) (p q : Fin 2)
    (v : Fin 2 × Fin 2 → ℂ) :
    (((if b then tfSuper (diagonal fun i => Complex.exp (Complex.I * (f i : ℝ))) else 1) * S') *ᵥ v) (p, q) =
      Complex.exp (Complex.I * ((if b then f p - f q else 0 : ℝ) : ℂ)) * (S' *ᵥ v) (p, q) := by
  rw [← mulVec_mulVec]
  cases b with
  | false => simp
  | true =>
    rw [if_pos rfl, if_pos rfl, tfSuper_diagonal, mulVec_diagonal]
    congr 1
    have : star (Complex.exp (Complex.I * (f q : ℝ))) = Complex.exp (-(Complex.I * (f q : ℝ))) := by
      rw [Complex.star_def, ← Complex.exp_conj]
      simp
    rw [this, ← Complex.exp_add]
    push_cast
    ring_nf

/-- What a silent gate does to the qubit. -/
theorem wait_two (c : Chip [2]) (hc : c.WF) (e : Fin 2 → ℝ)
    (he : c.h0 = (diagonal fun j => (e j : ℂ) : Matrix (Fin 2) (Fin 2) ℂ)) (x y : ℝ)
    (hcols : c.cols = [(!![0, (x : ℂ); 0, (y : ℂ)] : Matrix (Fin 2) (Fin 2) ℂ)]) (ps : List (String × Pulse)) (g : String)
    (p : Pulse) (hp : ps.lookup g = some p) (hsil : ∀ row ∈ p.values, ∀ x ∈ row, x = 0) (S : SOp [2])
    (h : physical (opened c ps) (.name "pwc") g = .ok S) :
    Relaxes S ((Real.exp (-(x ^ 2 * (p.dt * p.values.length))) : ℝ) : ℂ) ∧
      (x * y = 0 → Dephases S (Complex.exp (Complex.I * (gained c.useFR (e 1 - e 0) p : ℝ)) *
        ((Real.exp (-((x ^ 2 + y ^ 2) / 2 * (p.dt * p.values.length))) : ℝ) : ℂ))) := by
  have hd : (diagonal fun j => (e j : ℂ) : Matrix (Fin 2) (Fin 2) ℂ) = diagonal ![(e 0 : ℂ), (e 1 : ℂ)] := by
    congr 1
    funext j
    fin_cases j <;> rfl
  have hm := fun rho => master_two (e 0) (e 1) x y rho
  dsimp only at hm
  have key : ∀ (i j : Fin 2) (z : ℂ), (∀ rho, masterRHS (diagonal ![(e 0 : ℂ), (e 1 : ℂ)]) [!![0, (x : ℂ); 0, (y : ℂ)]]
      rho i j = z * rho i j) → ∀ v : Fin 2 × Fin 2 → ℂ, (S *ᵥ v : Fin 2 × Fin 2 → ℂ) (i, j) =
        Complex.exp (Complex.I * ((if c.useFR then (p.freqs.map fun l => l.2 * p.t + (p.shifts l.1).getD 0).sum *
          ((i : ℕ) - (j : ℕ)) else 0 : ℝ) : ℂ)) * (Complex.exp (z * (p.dt * p.values.length : ℝ)) * v (i, j)) := by
    intro i j z hz v
    have hgen := functional_two _ _ i j z hz
    obtain ⟨p', hp', h1⟩ := silent_gate c hc ps (Pi.single (i, j) 1) z (by rw [he, hcols, hd]; exact hgen) g S h
    obtain rfl : p' = p := by rw [hp] at hp'; exact (Option.some.inj hp').symm
    obtain ⟨S', h2, h3⟩ := h1 hsil
    rw [h3]
    refine (framed_two c.useFR (framePhase [2] c.target p'.shifts p'.t p'.freqs) S' i j v).trans ?_
    rw [entry_two S' (i, j) _ h2 v, phase_two c.target hc.target, phase_two c.target hc.target]
    congr 5
    ring
  have trace : ∀ v : Fin 2 × Fin 2 → ℂ, (S *ᵥ v : Fin 2 × Fin 2 → ℂ) (0, 0) + (S *ᵥ v : Fin 2 × Fin 2 → ℂ) (1, 1) =
      v (0, 0) + v (1, 1) := by
    intro v
    obtain ⟨p', hp', h1⟩ := silent_gate c hc ps traceForm 0 (by rw [he, hcols]; exact traceForm_gen _ _) g S h
    obtain rfl : p' = p := by rw [hp] at hp'; exact (Option.some.inj hp').symm
    obtain ⟨S', h2, h3⟩ := h1 hsil
    have h4 := trace_two S' _ h2 v
    rw [h3, ← h4]
    have f : ∀ i : Fin 2, _ := fun i => framed_two c.useFR (framePhase [2] c.target p'.shifts p'.t p'.freqs) S' i i v
    simp only [sub_self, ite_self, Complex.ofReal_zero, mul_zero, Complex.exp_zero, one_mul] at f
    exact congrArg₂ (· + ·) (f 0) (f 1)
  refine ⟨⟨fun v => ?_, trace⟩, fun hxy => ⟨fun v => ?_, fun v => ?_⟩⟩
  · refine (key 1 1 _ (fun rho => (hm rho).1) v).trans ?_
    rw [← mul_assoc]
    congr 1
    simp
  · refine (key 0 1 _ (fun rho => by rw [(hm rho).2.1, hxy, Complex.ofReal_zero, zero_mul, add_zero]) v).trans ?_
    rw [← mul_assoc]
    congr 1
    unfold gained
    rw [Complex.ofReal_exp, ← Complex.exp_add, ← Complex.exp_add]
    congr 1
    cases c.useFR <;> simp <;> ring
  · refine (key 1 0 _ (fun rho => by rw [(hm rho).2.2, hxy, Complex.ofReal_zero, zero_mul, add_zero]) v).trans ?_
    rw [← mul_assoc]
    congr 1
    unfold gained
    generalize (p.freqs.map fun l => l.2 * p.t + (p.shifts l.1).getD 0).sum = s
    rw [Complex.ofReal_exp, ← Complex.exp_add, ← Complex.exp_add, Complex.star_def, ← Complex.exp_conj, map_add, map_mul,
      Complex.conj_I, Complex.conj_ofReal, Complex.conj_ofReal]
    congr 1
    cases c.useFR <;> simp <;> ring

theorem cols_two (c : Chip [2]) (k : ℕ → Kind) (d : ℕ → Decay) (hd : FromComponents c k d) (t1 t2 : Option ℝ)
    (freq anhar : ℝ) (h0 : d 0 = times t1 t2 freq anhar) :
    c.cols = [(!![0, ((Real.sqrt (rate1 (k 0) t1) : ℝ) : ℂ); 0, ((Real.sqrt (2 * rate2 t2) : ℝ) : ℂ)] :
      Matrix (Fin 2) (Fin 2) ℂ)] := by
  unfold FromComponents at hd
  have hr : List.range [2].length = [0] := rfl
  rw [hr, List.mapM_cons, List.mapM_nil, h0] at hd
  cases hL : getLindbladian (k 0) (times t1 t2 freq anhar) [2] 0 with
  | none => rw [hL] at hd; simp at hd
  | some L =>
    rw [hL] at hd
    have : some [L] = some c.cols := hd
    rw [← Option.some.inj this, collapse_two (k 0) t1 t2 freq anhar L hL]
    rfl

theorem evaluate_one (props : String → Option (Matrix (Fin 2 × Fin 2) (Fin 2 × Fin 2) ℂ)) (seq : List String)
    (v y : Fin 2 × Fin 2 → ℂ) (h : runSeq props seq v = some y) : evaluateOpen props [seq] v = some [popsOpen y] := by
  unfold evaluateOpen
  rw [List.mapM_cons, List.mapM_nil, h]
  rfl

theorem t1_unknown (props : String → Option (Matrix (Fin 2 × Fin 2) (Fin 2 × Fin 2) ℂ)) (target n : ℕ)
    (hp : props (onTarget "rx90p" target) = some (tfSuper x90p)) (h : props "Id" = none) (v : Fin 2 × Fin 2 → ℂ) :
    evaluateOpen props [t1Sequence (n + 1) target] v = none := by
  have e : t1Sequence (n + 1) target = onTarget "rx90p" target :: onTarget "rx90p" target :: "Id" ::
      List.replicate n "Id" := by
    simp [t1Sequence, List.replicate]
  unfold evaluateOpen
  rw [List.mapM_cons, e, run_one props _ _ hp, run_one props _ _ hp, runSeq, h]
  rfl

/-- A gate in the table of the experiment was computed from its pulse. -/
theorem computed (c : Chip [2]) (ps : List (String × Pulse)) (t : Exp (SOp [2])) (ht : t.propMethod = none)
    (hopt : t.optGates = none) (table : String → Option (SOp [2])) (t' : Exp (SOp [2]))
    (h : compute (opened c ps) t = (.ok table, t')) (g : String) (p : Pulse) (hp : ps.lookup g = some p) :
    ∃ S, physical (opened c ps) (.name "pwc") g = .ok S ∧ t'.propagators g = some S := by
  have hg : g ∈ t.optGates.getD (opened c ps).keys := by
    rw [hopt]
    exact (lookup_iff ps g).2 ⟨p, hp⟩
  obtain ⟨S, h1, h2⟩ := (C68_selected (opened c ps) (opened_wf c ps) t ht table t' h g).1 hg
  exact ⟨S, h1, by rw [(C68_stored _ t ht table t' h g).1, if_pos hg, h2]⟩

theorem rates_nonneg (k : Kind) (t1 t2 : Option ℝ) (h : Positive t1 t2) : 0 ≤ rate1 k t1 ∧ 0 ≤ rate2 t2 := by
  constructor
  · cases t1 with
    | none => exact le_rfl
    | some t => exact relaxRate_nonneg k t (h.1 t rfl)
  · cases t2 with
    | none => exact le_rfl
    | some t => exact (one_div_pos.2 (h.2 t rfl)).le

theorem given_wait (c : Chip [2]) (e : Fin 2 → ℝ) (k : Kind) (t1 t2 : Option ℝ) (hpos : Positive t1 t2)
    (ps : List (String × Pulse)) (g : String) (p : Pulse) (t' : Exp (SOp [2])) (h : Given c e k t1 t2 ps g p t') :
    ∃ W : SOp [2], t'.propagators g = some W ∧
      Relaxes W ((Real.exp (-(rate1 k t1 * (p.dt * p.values.length))) : ℝ) : ℂ) ∧
      (t1 = none ∨ t2 = none → Dephases W (Complex.exp (Complex.I * (gained c.useFR (e 1 - e 0) p : ℝ)) *
        ((Real.exp (-((rate1 k t1 / 2 + rate2 t2) * (p.dt * p.values.length))) : ℝ) : ℂ))) := by
  obtain ⟨t, ht, hopt, table, hcomp⟩ := h.done
  obtain ⟨ks, d, freq, anhar, hd, rfl, h0⟩ := h.decay
  obtain ⟨r1, r2⟩ := rates_nonneg (ks 0) t1 t2 hpos
  obtain ⟨S, h1, h2⟩ := computed c ps t ht hopt table t' hcomp g p h.pulse
  obtain ⟨h3, h4⟩ := wait_two c h.wf e h.drift _ _ (cols_two c ks d hd t1 t2 freq anhar h0) ps g p h.pulse h.silent S h1
  rw [Real.sq_sqrt r1, Real.sq_sqrt (by linarith)] at h4
  rw [Real.sq_sqrt r1] at h3
  refine ⟨S, h2, h3, fun hone => ?_⟩
  have hz : Real.sqrt (rate1 (ks 0) t1) * Real.sqrt (2 * rate2 t2) = 0 := by
    rcases hone with rfl | rfl
    · rw [rate1, Real.sqrt_zero, zero_mul]
    · rw [rate2, mul_zero, Real.sqrt_zero, mul_zero]
  have h5 := h4 hz
  have e1 : (rate1 (ks 0) t1 + 2 * rate2 t2) / 2 = rate1 (ks 0) t1 / 2 + rate2 t2 := by ring
  rw [e1] at h5
  exact h5

/-! ## Both decay times -/

/-- With both decay times there is one collapse operator, and the excited population feeds the coherences. -/
structure Feeds (W : Matrix (Fin 2 × Fin 2) (Fin 2 × Fin 2) ℂ) (b s : ℂ) : Prop where
  up : ∀ v, (W *ᵥ v) (0, 1) + s * (W *ᵥ v) (1, 1) = b * (v (0, 1) + s * v (1, 1))
  down : ∀ v, (W *ᵥ v) (1, 0) + star s * (W *ᵥ v) (1, 1) = star b * (v (1, 0) + star s * v (1, 1))

theorem Feeds.pow {W : Matrix (Fin 2 × Fin 2) (Fin 2 × Fin 2) ℂ} {b s : ℂ} (h : Feeds W b s) (n : ℕ) :
    Feeds (W ^ n) (b ^ n) s := by
  induction n with
  | zero => exact ⟨by simp, by simp⟩
  | succ n ih =>
    refine ⟨fun v => ?_, fun v => ?_⟩
    · rw [pow_succ, ← mulVec_mulVec, ih.up, h.up, pow_succ, mul_assoc]
    · rw [pow_succ, ← mulVec_mulVec, ih.down, h.down, pow_succ, star_mul', mul_assoc]

theorem ramsey_fed (props : String → Option (Matrix (Fin 2 × Fin 2) (Fin 2 × Fin 2) ℂ)) (target n : ℕ)
    (hp : props (onTarget "rx90p" target) = some (tfSuper x90p)) (W : Matrix (Fin 2 × Fin 2) (Fin 2 × Fin 2) ℂ)
    (hw : props "id" = some W) (a : ℝ) (b s : ℂ) (ha : Relaxes W (a : ℂ)) (hb : Feeds W b s) :
    ∃ y, runSeq props (ramseySequence n target) ground = some y ∧
      y (1, 1) = ((1 + (b ^ n).re + ((b ^ n - (a ^ n : ℝ)) * s).im) / 2 : ℝ) := by
  have e : ramseySequence n target = onTarget "rx90p" target :: (List.replicate n "id" ++ [onTarget "rx90p" target]) := by
    simp [ramseySequence]
  obtain ⟨h1, h2, h3, h4⟩ := first_turn
  obtain ⟨-, k2, -, -⟩ := plus_entries (W ^ n *ᵥ (tfSuper x90p *ᵥ ground))
  have u1 := (hb.pow n).up (tfSuper x90p *ᵥ ground)
  have u2 := (hb.pow n).down (tfSuper x90p *ᵥ ground)
  rw [(ha.pow n).exc, h2] at u1 u2
  rw [h3] at u1
  rw [h4] at u2
  rw [(ha.pow n).tot, eq_sub_of_add_eq u1, eq_sub_of_add_eq u2, h1, h2] at k2
  have hre : (((b ^ n).re : ℝ) : ℂ) = (b ^ n + star (b ^ n)) / 2 := Complex.re_eq_add_conj _
  have him : ((((b ^ n - (a ^ n : ℝ)) * s).im : ℝ) : ℂ) =
      ((b ^ n - (a : ℂ) ^ n) * s - (star (b ^ n) - (a : ℂ) ^ n) * star s) / (2 * Complex.I) := by
    rw [Complex.im_eq_sub_conj]
    simp
  refine ⟨tfSuper x90p *ᵥ (W ^ n *ᵥ (tfSuper x90p *ᵥ ground)), ?_, ?_⟩
  · rw [e, run_one props _ _ hp, run_rep props _ _ hw, run_one props _ _ hp]
    rfl
  · rw [k2, Complex.ofReal_div, Complex.ofReal_add, Complex.ofReal_add, hre, him]
    push_cast
    field_simp
    ring_nf
    rw [Complex.I_pow_three, Complex.I_sq]
    ring

theorem wait_both (c : Chip [2]) (hc : c.WF) (hfr : c.useFR = false) (e : Fin 2 → ℝ)
    (he : c.h0 = (diagonal fun j => (e j : ℂ) : Matrix (Fin 2) (Fin 2) ℂ)) (x y : ℝ)
    (hcols : c.cols = [(!![0, (x : ℂ); 0, (y : ℂ)] : Matrix (Fin 2) (Fin 2) ℂ)]) (ps : List (String × Pulse)) (g : String)
    (p : Pulse) (hp : ps.lookup g = some p) (hsil : ∀ row ∈ p.values, ∀ x ∈ row, x = 0) (S : SOp [2])
    (h : physical (opened c ps) (.name "pwc") g = .ok S) (z s : ℂ)
    (hz : z = -(((x ^ 2 + y ^ 2) / 2 : ℝ) : ℂ) - Complex.I * ((e 0 - e 1 : ℝ) : ℂ))
    (hs : s * (z + ((x ^ 2 : ℝ) : ℂ)) = ((x * y : ℝ) : ℂ)) :
    Feeds S (Complex.exp (z * (p.dt * p.values.length : ℝ))) s := by
  have hd : (diagonal fun j => (e j : ℂ) : Matrix (Fin 2) (Fin 2) ℂ) = diagonal ![(e 0 : ℂ), (e 1 : ℂ)] := by
    congr 1
    funext j
    fin_cases j <;> rfl
  have hm := fun rho => master_two (e 0) (e 1) x y rho
  dsimp only at hm
  have key : ∀ (i j : Fin 2) (z s : ℂ), (∀ rho, masterRHS (diagonal ![(e 0 : ℂ), (e 1 : ℂ)])
      [!![0, (x : ℂ); 0, (y : ℂ)]] rho i j + s * masterRHS (diagonal ![(e 0 : ℂ), (e 1 : ℂ)])
      [!![0, (x : ℂ); 0, (y : ℂ)]] rho 1 1 = z * (rho i j + s * rho 1 1)) → ∀ v : Fin 2 × Fin 2 → ℂ,
        (S *ᵥ v : Fin 2 × Fin 2 → ℂ) (i, j) + s * (S *ᵥ v : Fin 2 × Fin 2 → ℂ) (1, 1) =
          Complex.exp (z * (p.dt * p.values.length : ℝ)) * (v (i, j) + s * v (1, 1)) := by
    intro i j z s hR v
    have hgen : (Pi.single (i, j) 1 + s • Pi.single (1, 1) 1 : Fin 2 × Fin 2 → ℂ) ᵥ*
        lindOp (diagonal ![(e 0 : ℂ), (e 1 : ℂ)]) [!![0, (x : ℂ); 0, (y : ℂ)]] =
          z • (Pi.single (i, j) 1 + s • Pi.single (1, 1) 1) := by
      refine functional_lindOp _ _ _ _ fun rho => ?_
      rw [add_dotProduct, smul_dotProduct, add_dotProduct, smul_dotProduct]
      simp only [single_dotProduct, one_mul, smul_eq_mul]
      exact hR rho
    obtain ⟨p', hp', h1⟩ := silent_gate c hc ps (Pi.single (i, j) 1 + s • Pi.single (1, 1) 1 : Fin 2 × Fin 2 → ℂ) z
      (by rw [he, hcols, hd]; exact hgen) g S h
    obtain rfl : p' = p := by rw [hp] at hp'; exact (Option.some.inj hp').symm
    obtain ⟨S', h2, h3⟩ := h1 hsil
    rw [hfr, if_neg (by simp), Matrix.one_mul] at h3
    subst h3
    have e1 : ∀ M : Matrix (Fin 2 × Fin 2) (Fin 2 × Fin 2) ℂ, ∀ u : ℂ,
        (Pi.single (i, j) 1 + s • Pi.single (1, 1) 1 : Fin 2 × Fin 2 → ℂ) ᵥ* M =
          u • (Pi.single (i, j) 1 + s • Pi.single (1, 1) 1) →
        (M *ᵥ v) (i, j) + s * (M *ᵥ v) (1, 1) = u * (v (i, j) + s * v (1, 1)) := by
      intro M u hM
      have f : ∀ w : Fin 2 × Fin 2 → ℂ, (Pi.single (i, j) 1 + s • Pi.single (1, 1) 1 : Fin 2 × Fin 2 → ℂ) ⬝ᵥ w =
          w (i, j) + s * w (1, 1) := by
        intro w
        rw [add_dotProduct, smul_dotProduct, single_dotProduct, single_dotProduct, one_mul, one_mul, smul_eq_mul]
      rw [← f, Matrix.dotProduct_mulVec, hM, smul_dotProduct, f, smul_eq_mul]
    exact e1 S _ h2
  refine ⟨key 0 1 z s fun rho => ?_, ?_⟩
  · rw [(hm rho).1, (hm rho).2.1, ← hs, ← hz]
    ring
  · have hzs : star z = -(((x ^ 2 + y ^ 2) / 2 : ℝ) : ℂ) - Complex.I * ((e 1 - e 0 : ℝ) : ℂ) := by
      rw [hz, Complex.star_def, map_sub, map_neg, map_mul, Complex.conj_I, Complex.conj_ofReal, Complex.conj_ofReal]
      push_cast
      ring
    have hss : star s * (star z + ((x ^ 2 : ℝ) : ℂ)) = ((x * y : ℝ) : ℂ) := by
      have := congrArg star hs
      rw [star_mul', star_add, Complex.star_def, Complex.conj_ofReal, Complex.conj_ofReal] at this
      exact this
    have hexp : star (Complex.exp (z * (p.dt * p.values.length : ℝ))) =
        Complex.exp (star z * (p.dt * p.values.length : ℝ)) := by
      rw [Complex.star_def, ← Complex.exp_conj, map_mul, Complex.conj_ofReal]
    intro v
    rw [hexp]
    refine key 1 0 (star z) (star s) (fun rho => ?_) v
    rw [(hm rho).1, (hm rho).2.2, ← hss, ← hzs]
    ring

/-! ## C236 -/

/-- **C236**: after the relaxation sequence with `n` waits, the excited population of the qubit is the exponential of the
relaxation rate times the time waited, whatever the frame, the detuning and the dephasing; the rest is in the ground
state. -/
theorem C236_relaxation (c : Chip [2]) (e : Fin 2 → ℝ) (k : Kind) (t1 t2 : Option ℝ) (hpos : Positive t1 t2)
    (ps : List (String × Pulse)) (p : Pulse) (t' : Exp (SOp [2])) (h : Given c e k t1 t2 ps "Id" p t') (target : ℕ)
    (props : String → Option (SOp [2])) (hp : Turns props target) (hw : props "Id" = t'.propagators "Id") (n : ℕ) :
    ∃ pops : Fin 2 → ℝ, evaluateOpen props [t1Sequence n target] ground = some [pops] ∧
      pops 1 = Real.exp (-(rate1 k t1 * (n * (p.dt * p.values.length)))) ∧ pops 0 = 1 - pops 1 := by
  obtain ⟨W, h1, h2, -⟩ := given_wait c e k t1 t2 hpos ps "Id" p t' h
  obtain ⟨y, hy, y1, y0⟩ := t1_run props target n hp.plus W (hw.trans h1) _ h2
  have hr : (((Real.exp (-(rate1 k t1 * (p.dt * p.values.length))) : ℝ) : ℂ)) ^ n =
      ((Real.exp (-(rate1 k t1 * (n * (p.dt * p.values.length)))) : ℝ) : ℂ) := by
    rw [← Complex.ofReal_pow, ← Real.exp_nat_mul]
    congr 2
    ring
  rw [hr] at y0 y1
  refine ⟨popsOpen y, evaluate_one props _ _ y hy, ?_, ?_⟩
  · change (y (1, 1)).re = _
    rw [y1, Complex.ofReal_re]
  · change (y (0, 0)).re = 1 - (y (1, 1)).re
    rw [y0, y1]
    simp only [Complex.sub_re, Complex.one_re]

/-- C236 for qubits (see `C236_false_transmon` for transmons): the relaxation sequence shows `exp(-t/T1)`. -/
theorem C236_t1_partial (c : Chip [2]) (e : Fin 2 → ℝ) (t1 : ℝ) (t2 : Option ℝ) (hpos : Positive (some t1) t2)
    (ps : List (String × Pulse)) (p : Pulse) (t' : Exp (SOp [2])) (h : Given c e .qubit (some t1) t2 ps "Id" p t')
    (target : ℕ) (props : String → Option (SOp [2])) (hp : Turns props target) (hw : props "Id" = t'.propagators "Id")
    (n : ℕ) :
    ∃ pops : Fin 2 → ℝ, evaluateOpen props [t1Sequence n target] ground = some [pops] ∧
      pops 1 = Real.exp (-(n * (p.dt * p.values.length)) / t1) ∧ pops 0 = 1 - pops 1 := by
  obtain ⟨pops, h1, h2, h3⟩ := C236_relaxation c e .qubit (some t1) t2 hpos ps p t' h target props hp hw n
  refine ⟨pops, h1, ?_, h3⟩
  rw [h2]
  congr 1
  unfold rate1 relaxRate
  ring

/-- C236 fails for transmons: the relaxation sequence shows `exp(-t/(2 T1))`, twice the time that was given. -/
theorem C236_false_transmon (c : Chip [2]) (e : Fin 2 → ℝ) (t1 : ℝ) (t2 : Option ℝ) (hpos : Positive (some t1) t2)
    (ps : List (String × Pulse)) (p : Pulse) (t' : Exp (SOp [2])) (h : Given c e .transmon (some t1) t2 ps "Id" p t')
    (target : ℕ) (props : String → Option (SOp [2])) (hp : Turns props target) (hw : props "Id" = t'.propagators "Id")
    (n : ℕ) :
    ∃ pops : Fin 2 → ℝ, evaluateOpen props [t1Sequence n target] ground = some [pops] ∧
      pops 1 = Real.exp (-(n * (p.dt * p.values.length)) / (2 * t1)) ∧
      (0 < n * (p.dt * p.values.length) → Real.exp (-(n * (p.dt * p.values.length)) / t1) < pops 1) := by
  obtain ⟨pops, h1, h2, h3⟩ := C236_relaxation c e .transmon (some t1) t2 hpos ps p t' h target props hp hw n
  have ht : 0 < t1 := hpos.1 t1 rfl
  have h4 : pops 1 = Real.exp (-(n * (p.dt * p.values.length)) / (2 * t1)) := by
    rw [h2]
    congr 1
    unfold rate1 relaxRate
    field_simp
    try ring
  refine ⟨pops, h1, h4, fun hT => ?_⟩
  rw [h4, Real.exp_lt_exp, neg_div, neg_div, neg_lt_neg_iff]
  exact div_lt_div_of_pos_left hT ht (by linarith)

/-- **C236**, partial since the two decay times must not both be given (`C236_false_both`): after the Ramsey sequence
with `n` waits, the excited population is `(1 + cos(n θ) exp(-κ t)) / 2` with the time `t` waited, the phase `θ` gained
against the frame in one wait, and `κ` half the relaxation rate plus the dephasing rate. -/
theorem C236_ramsey_partial (c : Chip [2]) (e : Fin 2 → ℝ) (k : Kind) (t1 t2 : Option ℝ) (hpos : Positive t1 t2)
    (hone : t1 = none ∨ t2 = none)
    (ps : List (String × Pulse)) (p : Pulse) (t' : Exp (SOp [2])) (h : Given c e k t1 t2 ps "id" p t') (target : ℕ)
    (props : String → Option (SOp [2])) (hp : Turns props target) (hw : props "id" = t'.propagators "id") (n : ℕ) :
    ∃ pops : Fin 2 → ℝ, evaluateOpen props [ramseySequence n target] ground = some [pops] ∧
      pops 1 = (1 + Real.cos (n * gained c.useFR (e 1 - e 0) p) *
        Real.exp (-((rate1 k t1 / 2 + rate2 t2) * (n * (p.dt * p.values.length))))) / 2 ∧ pops 0 = 1 - pops 1 := by
  obtain ⟨W, h1, h2, h3⟩ := given_wait c e k t1 t2 hpos ps "id" p t' h
  obtain ⟨y, hy, y1, y0⟩ := ramsey_run props target n hp.plus W (hw.trans h1) _ _ h2 (h3 hone)
  have hr : ((Complex.exp (Complex.I * (gained c.useFR (e 1 - e 0) p : ℝ)) *
      ((Real.exp (-((rate1 k t1 / 2 + rate2 t2) * (p.dt * p.values.length))) : ℝ) : ℂ)) ^ n).re =
      Real.cos (n * gained c.useFR (e 1 - e 0) p) *
        Real.exp (-((rate1 k t1 / 2 + rate2 t2) * (n * (p.dt * p.values.length)))) := by
    rw [mul_pow, ← Complex.ofReal_pow, ← Real.exp_nat_mul, ← Complex.exp_nat_mul, Complex.re_mul_ofReal]
    have e1 : (n : ℂ) * (Complex.I * (gained c.useFR (e 1 - e 0) p : ℝ)) =
        ((n * gained c.useFR (e 1 - e 0) p : ℝ) : ℂ) * Complex.I := by
      push_cast
      ring
    rw [e1, Complex.exp_ofReal_mul_I_re]
    congr 2
    ring
  rw [hr] at y0 y1
  refine ⟨popsOpen y, evaluate_one props _ _ y hy, ?_, ?_⟩
  · change (y (1, 1)).re = _
    rw [y1, Complex.ofReal_re]
  · change (y (0, 0)).re = 1 - (y (1, 1)).re
    rw [y0, y1, Complex.ofReal_re, Complex.ofReal_re]
    ring

/-- **C236**, with one of the decay times: after the echo sequence the excited population is `(1 + exp(-κ t)) / 2`, where
`t` is the length of the waits that are played, whatever the detuning and the frame. -/
theorem C236_echo_partial (c : Chip [2]) (e : Fin 2 → ℝ) (k : Kind) (t1 t2 : Option ℝ) (hpos : Positive t1 t2)
    (hone : t1 = none ∨ t2 = none)
    (ps : List (String × Pulse)) (p : Pulse) (t' : Exp (SOp [2])) (h : Given c e k t1 t2 ps "id" p t') (target : ℕ)
    (props : String → Option (SOp [2])) (hp : Turns props target) (hw : props "id" = t'.propagators "id") (n : ℕ) :
    ∃ pops : Fin 2 → ℝ, evaluateOpen props [echoSequence n target] ground = some [pops] ∧
      pops 1 = (1 + Real.exp (-((rate1 k t1 / 2 + rate2 t2) *
        (((echoSequence n target).count "id" : ℕ) * (p.dt * p.values.length))))) / 2 ∧ pops 0 = 1 - pops 1 := by
  obtain ⟨W, h1, h2, h3⟩ := given_wait c e k t1 t2 hpos ps "id" p t' h
  obtain ⟨y, hy, y1, y0⟩ := echo_run props target n hp.plus hp.minus W (hw.trans h1) _ _ h2 (h3 hone)
  have hr : ‖Complex.exp (Complex.I * (gained c.useFR (e 1 - e 0) p : ℝ)) *
      ((Real.exp (-((rate1 k t1 / 2 + rate2 t2) * (p.dt * p.values.length))) : ℝ) : ℂ)‖ ^ (2 * (n / 2)) =
      Real.exp (-((rate1 k t1 / 2 + rate2 t2) *
        (((echoSequence n target).count "id" : ℕ) * (p.dt * p.values.length)))) := by
    rw [(C66_echo n target).1, norm_mul, mul_comm Complex.I, Complex.norm_exp_ofReal_mul_I, one_mul, Complex.norm_real,
      Real.norm_of_nonneg (Real.exp_pos _).le, ← Real.exp_nat_mul]
    congr 1
    push_cast
    ring
  rw [hr] at y0 y1
  refine ⟨popsOpen y, evaluate_one props _ _ y hy, ?_, ?_⟩
  · change (y (1, 1)).re = _
    rw [y1, Complex.ofReal_re]
  · change (y (0, 0)).re = 1 - (y (1, 1)).re
    rw [y0, y1, Complex.ofReal_re, Complex.ofReal_re]
    ring

/-- C236 fails if both decay times are given: the collapse operators are added to one operator, by which the excited
population feeds the coherences. Without frame rotation, when the qubit has made half a turn, the Ramsey sequence shows more
than `(1 + cos(n θ) exp(-κ t)) / 2`. -/
theorem C236_false_both (c : Chip [2]) (hfr : c.useFR = false) (e : Fin 2 → ℝ) (k : Kind) (t1 t2 : ℝ)
    (hpos : Positive (some t1) (some t2)) (ps : List (String × Pulse)) (p : Pulse) (t' : Exp (SOp [2]))
    (h : Given c e k (some t1) (some t2) ps "id" p t') (target : ℕ)
    (props : String → Option (SOp [2])) (hp : Turns props target) (hw : props "id" = t'.propagators "id") (n : ℕ)
    (hT : 0 < n * (p.dt * p.values.length)) (hhalf : n * gained c.useFR (e 1 - e 0) p = Real.pi) :
    ∃ pops : Fin 2 → ℝ, evaluateOpen props [ramseySequence n target] ground = some [pops] ∧
      (1 + Real.cos (n * gained c.useFR (e 1 - e 0) p) *
        Real.exp (-((rate1 k (some t1) / 2 + rate2 (some t2)) * (n * (p.dt * p.values.length))))) / 2 < pops 1 := by
  obtain ⟨W, h1, h2, -⟩ := given_wait c e k (some t1) (some t2) hpos ps "id" p t' h
  obtain ⟨t, ht, hopt, table, hcomp⟩ := h.done
  obtain ⟨ks, d, freq, anhar, hd, rfl, h0⟩ := h.decay
  obtain ⟨r1, r2⟩ := rates_nonneg (ks 0) (some t1) (some t2) hpos
  obtain ⟨S, hS, hS'⟩ := computed c ps t ht hopt table t' hcomp "id" p h.pulse
  obtain rfl : S = W := by rw [h1] at hS'; exact (Option.some.inj hS').symm
  set x := Real.sqrt (rate1 (ks 0) (some t1)) with hx
  set y := Real.sqrt (2 * rate2 (some t2)) with hy
  have hx2 : x ^ 2 = rate1 (ks 0) (some t1) := Real.sq_sqrt r1
  have hy2 : y ^ 2 = 2 * rate2 (some t2) := Real.sq_sqrt (by linarith)
  have hxpos : 0 < x := by
    refine Real.sqrt_pos.2 ?_
    have := hpos.1 t1 rfl
    unfold rate1 relaxRate
    cases ks 0 <;> positivity
  have hypos : 0 < y := by
    refine Real.sqrt_pos.2 ?_
    have := hpos.2 t2 rfl
    unfold rate2
    positivity
  set T := p.dt * p.values.length with hTd
  have hg : gained c.useFR (e 1 - e 0) p = (e 1 - e 0) * T := by
    unfold gained
    rw [hfr]
    simp [hTd]
  rw [hg] at hhalf ⊢
  set δ := e 1 - e 0 with hδ
  have hδpos : 0 < δ := by
    have : 0 < δ * (n * T) := by
      have := Real.pi_pos
      nlinarith
    exact (pos_iff_pos_of_mul_pos this).2 hT
  set κ := (x ^ 2 + y ^ 2) / 2 with hκ
  set z : ℂ := -((κ : ℝ) : ℂ) - Complex.I * ((e 0 - e 1 : ℝ) : ℂ) with hz
  have hzre : (z + ((x ^ 2 : ℝ) : ℂ)).re = x ^ 2 - κ := by
    rw [hz]
    simp only [Complex.add_re, Complex.sub_re, Complex.neg_re, Complex.ofReal_re, Complex.mul_re, Complex.I_re,
      Complex.I_im, Complex.ofReal_im]
    ring
  have hzim : (z + ((x ^ 2 : ℝ) : ℂ)).im = δ := by
    rw [hz]
    simp only [Complex.add_im, Complex.sub_im, Complex.neg_im, Complex.ofReal_re, Complex.mul_im, Complex.I_re,
      Complex.I_im, Complex.ofReal_im]
    rw [hδ]
    ring
  have hzne : z + ((x ^ 2 : ℝ) : ℂ) ≠ 0 := by
    intro h0
    rw [h0, Complex.zero_im] at hzim
    linarith
  set s : ℂ := ((x * y : ℝ) : ℂ) / (z + ((x ^ 2 : ℝ) : ℂ)) with hs
  have hsim : s.im < 0 := by
    rw [hs, Complex.div_im, Complex.ofReal_re, Complex.ofReal_im, hzim, zero_mul, zero_div, zero_sub]
    have : 0 < Complex.normSq (z + ((x ^ 2 : ℝ) : ℂ)) := Complex.normSq_pos.2 hzne
    have : 0 < x * y * δ / Complex.normSq (z + ((x ^ 2 : ℝ) : ℂ)) := by positivity
    linarith
  have hF := wait_both c h.wf hfr e h.drift x y (cols_two c ks d hd (some t1) (some t2) freq anhar h0) ps "id" p h.pulse
    h.silent S hS z s hz (div_mul_cancel₀ _ hzne)
  obtain ⟨v, hv, v1⟩ := ramsey_fed props target n hp.plus S (hw.trans h1) _ _ _ h2 hF
  refine ⟨popsOpen v, evaluate_one props _ _ v hv, ?_⟩
  change _ < (v (1, 1)).re
  rw [v1, Complex.ofReal_re]
  have hb : Complex.exp (z * ((p.dt * p.values.length : ℝ) : ℂ)) ^ n = ((-Real.exp (-(κ * (n * T))) : ℝ) : ℂ) := by
    have e1 : (n : ℂ) * (z * ((p.dt * p.values.length : ℝ) : ℂ)) = ((-(κ * (n * T)) : ℝ) : ℂ) + Real.pi * Complex.I := by
      rw [← hhalf, hz, ← hTd, hδ]
      push_cast
      ring
    rw [← Complex.exp_nat_mul, e1, Complex.exp_add, Complex.exp_pi_mul_I, ← Complex.ofReal_exp]
    push_cast
    ring
  rw [hb, hhalf, Real.cos_pi, ← Complex.ofReal_sub, Complex.ofReal_re, Complex.im_ofReal_mul, ← hx2]
  have e2 : x ^ 2 / 2 + rate2 (some t2) = κ := by rw [hκ, hy2]; ring
  rw [e2]
  have hE := Real.exp_pos (-(κ * (n * T)))
  have hA : 0 < Real.exp (-(x ^ 2 * T)) ^ n := by positivity
  have : 0 < (-Real.exp (-(κ * (n * T))) - Real.exp (-(x ^ 2 * T)) ^ n) * s.im := by
    refine mul_pos_of_neg_of_neg ?_ hsim
    linarith
  linarith

/-- C236: on resonance the carrier cancels the precession: a wait with one carrier at the frequency of the qubit, no frame
change and a length that agrees with the samples gains no phase. -/
theorem C236_resonance (gap : ℝ) (p : Pulse) (l : String) (hf : p.freqs = [(l, gap)]) (hs : p.shifts l = some 0)
    (ht : p.t = p.dt * p.values.length) : gained true gap p = 0 := by
  unfold gained
  rw [hf, ht]
  simp [hs]

/-- C236: one wait gate does not serve all three sequences: the relaxation sequence asks for `Id`, the others for `id`. An
experiment with the latter only cannot evaluate a relaxation sequence with waits. -/
theorem C236_false_name (props : String → Option (SOp [2])) (target : ℕ) (hp : Turns props target)
    (h : props "Id" = none) (n : ℕ) (v : Fin 2 × Fin 2 → ℂ) :
    evaluateOpen props [t1Sequence (n + 1) target] v = none :=
  t1_unknown props target n hp.plus h v

/-! ## Example -/

/-- A two-level qubit with frequency `ω` and the given decay times. -/
def qubitChip (ω : ℝ) (k : Kind) (t1 t2 : Option ℝ) (fr : Bool) : Chip [2] :=
  { Resonant.chipOf [2] (fun _ => ω) (fun _ => 0) (fun _ => "q") (fun _ => "d") (fun _ => some 0) 1 with
    cols := (getLindbladian k (times t1 t2 ω 0) [2] 0).toList, useFR := fr }

/-- A silent gate of `N` samples with a carrier of frequency `ω`. -/
def waitPulse (ω T : ℝ) (N : ℕ) : Pulse := ⟨[], List.replicate N [], T / N, [("d", ω)], fun _ => some 0, T⟩

theorem energy_two (ω : ℝ) (j : Fin 2) : Resonant.energy [2] (fun _ => ω) (fun _ => 0) j = ![0, ω] j := by
  have h : Resonant.energy [2] (fun _ => ω) (fun _ => 0) j = ω * Resonant.lev [2] 0 j := by
    unfold Resonant.energy
    have : [2].length = 1 := rfl
    rw [this, Finset.sum_range_one]
    ring
  rw [h]
  have hl : Resonant.lev [2] 0 j = (j : ℕ) := by
    have := level_two j
    unfold Resonant.lev
    exact_mod_cast this
  rw [hl]
  fin_cases j <;> simp

/-- C236: such chips and experiments exist: every two-level qubit with at least one decay time. -/
theorem C236_setup (ω ω' T : ℝ) (hT : 0 ≤ T) (N : ℕ) (hN : 0 < N) (k : Kind) (t1 t2 : Option ℝ)
    (hsome : t1 ≠ none ∨ t2 ≠ none) (fr : Bool) (g : String) :
    ∃ t', Given (qubitChip ω k t1 t2 fr) ![0, ω] k t1 t2 [(g, waitPulse ω' T N)] g (waitPulse ω' T N) t' := by
  have hw : (qubitChip ω k t1 t2 fr).WF := by
    refine ⟨?_, ?_, le_rfl⟩
    · intro l hl
      obtain ⟨k, hk, rfl⟩ := List.mem_map.1 hl
      intro i hi
      rw [List.mem_singleton.1 hi]
      exact List.mem_range.1 hk
    · intro l q h
      cases h
      decide
  have hlook : List.lookup g [(g, waitPulse ω' T N)] = some (waitPulse ω' T N) := by simp
  obtain ⟨V, h⟩ := C199_computed (qubitChip ω k t1 t2 fr) hw [(g, waitPulse ω' T N)] g (waitPulse ω' T N) hlook
    (by
      intro h0
      have := congrArg List.length h0
      simp [waitPulse] at this
      omega) (by simp [waitPulse])
    (fun l _ => ⟨⟨0, rfl⟩, 0, by simp, rfl⟩)
  obtain ⟨S, h1, -⟩ := C225_gates (qubitChip ω k t1 t2 fr) hw [(g, waitPulse ω' T N)] g (by
    intro p hp
    rw [hlook] at hp
    cases hp
    exact div_nonneg hT (Nat.cast_nonneg N)) V h
  let t : Exp (SOp [2]) := ⟨none, .name "pwc", none, none, false, fun _ => none⟩
  obtain ⟨table, t', ht⟩ := (C68_succeeds_iff (opened (qubitChip ω k t1 t2 fr) [(g, waitPulse ω' T N)])
    (opened_wf _ _) t rfl).2 (by
    intro g' hg
    have : g' = g := by simpa [t, opened] using hg
    rw [this]
    exact ⟨S, h1⟩)
  refine ⟨t', hw, ?_, ⟨fun _ => k, fun _ => times t1 t2 ω 0, ω, 0, ?_, rfl, rfl⟩, hlook, ?_, t, rfl, rfl, table, ht⟩
  · refine (Resonant.h0_eq [2] (fun _ => ω) (fun _ => 0) (fun _ => "q") (fun _ => "d") (fun _ => some 0) 1).trans ?_
    change @Eq (Matrix (Fin 2) (Fin 2) ℂ) _ _
    refine congrArg diagonal (funext fun j => ?_)
    exact congrArg (fun r : ℝ => (r : ℂ)) (energy_two ω j)
  · unfold FromComponents
    have hr : List.range [2].length = [0] := rfl
    rw [hr, List.mapM_cons, List.mapM_nil]
    have hL : ∃ L, getLindbladian k (times t1 t2 ω 0) [2] 0 = some L := by
      unfold getLindbladian collapseList times
      rcases t1 with _ | t1 <;> rcases t2 with _ | t2
      · simp at hsome
      · exact ⟨_, if_neg (List.cons_ne_nil _ _)⟩
      · exact ⟨_, if_neg (List.cons_ne_nil _ _)⟩
      · exact ⟨_, if_neg (List.cons_ne_nil _ _)⟩
    obtain ⟨L, hL⟩ := hL
    have hc : (qubitChip ω k t1 t2 fr).cols = [L] := by
      unfold qubitChip
      dsimp only
      rw [hL]
      rfl
    rw [hc, hL]
    rfl
  · intro row hr x hx
    rw [List.eq_of_mem_replicate hr] at hx
    simp at hx

/-- Three waits of length 2 on resonance, dephasing time 3. -/
example : ∃ (props : String → Option (SOp [2])) (pops : Fin 2 → ℝ),
    evaluateOpen props [ramseySequence 3 0] ground = some [pops] ∧ pops 1 = (1 + Real.exp (-2)) / 2 := by
  obtain ⟨t', h⟩ := C236_setup 5 5 2 (by norm_num) 4 (by norm_num) .transmon none (some 3) (Or.inr (by simp)) true "id"
  let props : String → Option (SOp [2]) := fun g => if g = onTarget "rx90p" 0 then some (tfSuper (n := Fin 2) x90p) else
    if g = onTarget "rx90m" 0 then some (tfSuper (n := Fin 2) x90m) else t'.propagators g
  have hm : onTarget "rx90m" 0 ≠ onTarget "rx90p" 0 := by decide
  have hT : Turns props 0 := ⟨if_pos rfl, (if_neg hm).trans (if_pos rfl)⟩
  obtain ⟨pops, h1, h2, -⟩ := C236_ramsey_partial _ _ _ _ _ ⟨by simp, by simp⟩ (Or.inl rfl) _ _ t' h 0 props hT (by
    simp only [props]
    rw [if_neg (by decide), if_neg (by decide)]) 3
  refine ⟨props, pops, h1, ?_⟩
  rw [h2]
  have hg : gained true (5 - 0) (waitPulse 5 2 4) = 0 :=
    C236_resonance _ _ "d" (by simp [waitPulse]) rfl (by simp [waitPulse])
  have hg' : gained (qubitChip 5 .transmon none (some 3) true).useFR ((![0, 5] : Fin 2 → ℝ) 1 - (![0, 5] : Fin 2 → ℝ) 0)
      (waitPulse 5 2 4) = 0 := hg
  rw [hg', mul_zero, Real.cos_zero, one_mul]
  have : -((rate1 .transmon none / 2 + rate2 (some 3)) * (((3 : ℕ) : ℝ) * ((waitPulse 5 2 4).dt *
      (waitPulse 5 2 4).values.length))) = -2 := by
    simp [rate1, rate2, waitPulse]
  rw [this]

end C3.Experiment.Decays
