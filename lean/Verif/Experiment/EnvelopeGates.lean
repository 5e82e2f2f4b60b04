import Verif.Experiment.FromInstruction
import Verif.Envelopes.Areas

/-!
# C222: gates by envelopes of the library

C219 for the envelopes `rect`, `cosine` and `gaussian_sigma` of c3/libraries/envelopes.py: which amplitude makes which
gate, with bounds on the error in terms of the angle and the length of the pulse only.
-/

noncomputable section

namespace C3.Experiment.EnvelopeGates

open Set C3.Propagation C3.Hilbert C3.Fidelity C3.Experiment C3.Experiment.Compute C3.Experiment.EndToEnd
  C3.Experiment.Resonant C3.Experiment.ResonantInfid C3.Experiment.FromInstruction C3.Envelopes

/-- What it means that the instruction makes the gate: for all resolutions, batch sizes and names everything succeeds,
and both infidelities to the entry of the table are bounded by the square of the error. -/
def MakesGate (dims : List ℕ) (d : ℕ → LineSet) (δ : ℕ → ℝ) (sub line : ℕ → String) (target : String → Option ℕ)
    (T a a' κ : ℝ) (k : ℕ) (gate : Gates.Gate) : Prop :=
  ∃ C : ℝ, ∀ M K : ℕ, 2 ≤ M → 1 ≤ K → ∀ batch : ℕ, 1 ≤ batch → ∀ g : String, ∃ pulse V,
    instrPulse dims.length line d T ((K * M : ℕ) / T) (M / T) = some pulse ∧
    physical (closed (chipOf dims (fun k => (d k).omega) δ sub line target batch) [(g, pulse)]) (.name "pwc") g = .ok V ∧
    ∀ actual : Arr ℂ, actual.rows = dims.prod → actual.cols = dims.prod →
      (∀ p q : Fin dims.prod, actual.e p q = V p q) →
      ∃ x y, unitaryInfid gate.arr actual (some [k]) dims = some x ∧ averageInfid gate.arr actual [k] dims = some y ∧
        0 ≤ x ∧ x ≤ dims.prod * gateError dims T a a' κ C M K ^ 2 ∧ 0 ≤ y ∧ y ≤ x

/-- The chip and the lines of the statements below: each line drives its qubit at its frequency, only line `k` has an
amplitude. -/
structure Setting (dims : List ℕ) (d : ℕ → LineSet) (δ : ℕ → ℝ) (line : ℕ → String) (target : String → Option ℕ)
    (T κ : ℝ) (k : ℕ) : Prop where
  target_line : ∀ j < dims.length, target (line j) = some j
  target_lt : ∀ l q, target l = some q → q < dims.length
  length_pos : 0 < T
  gap_pos : 0 < κ
  selective : Selective dims (fun k => (d k).omega) δ κ
  index : k < dims.length
  rest : ∀ j < dims.length, j ≠ k → (d j).amp = 0

theorem shape_table (dims : List ℕ) (d : ℕ → LineSet) (δ : ℕ → ℝ) (sub line : ℕ → String) (target : String → Option ℕ)
    (T κ : ℝ) (k : ℕ) (h : Setting dims d δ line target T κ k) (S' : ℝ → ℝ) (b b' L : ℝ)
    (hS : ∀ t ∈ Icc 0 T, HasDerivAt (d k).shape (S' t) t ∧ |(d k).shape t| ≤ b ∧ |S' t| ≤ b')
    (hL : ∀ s ∈ Icc 0 T, ∀ t ∈ Icc 0 T, |S' s - S' t| ≤ L * |s - t|) (area : ℝ)
    (harea : ∫ t in (0 : ℝ)..T, (d k).shape t = area) (gate : Gates.Gate)
    (hg : PulseFor gate ((d k).v2hz * (d k).amp * area) (d k).xy) :
    MakesGate dims d δ sub line target T (|(d k).v2hz * (d k).amp| * b) (|(d k).v2hz * (d k).amp| * b') κ k gate := by
  set v := (d k).v2hz * (d k).amp with hv
  have h0 : (0 : ℝ) ∈ Icc 0 T := ⟨le_rfl, h.length_pos.le⟩
  have hT : T ∈ Icc 0 T := ⟨h.length_pos.le, le_rfl⟩
  have hb : 0 ≤ b := (abs_nonneg _).trans (hS 0 h0).2.1
  have hb' : 0 ≤ b' := (abs_nonneg _).trans (hS 0 h0).2.2
  have hLn : 0 ≤ L := by
    have h1 := (abs_nonneg _).trans (hL T hT 0 h0)
    rw [sub_zero, abs_of_pos h.length_pos] at h1
    exact nonneg_of_mul_nonneg_left h1 h.length_pos
  refine C219_table dims d δ sub line target h.target_line h.target_lt (fun j t => if j = k then v * S' t else 0) T _ _
    (|v| * L) κ h.length_pos h.gap_pos h.selective ?_ ?_ k h.index h.rest gate ?_
  · intro j hj t ht
    by_cases hjk : j = k
    · subst hjk
      obtain ⟨s1, s2, s3⟩ := hS t ht
      simp only [if_true]
      refine ⟨(s1.const_mul v).hasDerivWithinAt, ?_, ?_⟩
      · unfold LineSet.ampl
        rw [← hv, abs_mul]
        exact mul_le_mul_of_nonneg_left s2 (abs_nonneg _)
      · rw [abs_mul]
        exact mul_le_mul_of_nonneg_left s3 (abs_nonneg _)
    · have hz : (d j).ampl = fun _ => 0 := funext fun t => by simp [LineSet.ampl, h.rest j hj hjk]
      simp only [if_neg hjk, hz]
      refine ⟨hasDerivWithinAt_const _ _ _, ?_, ?_⟩ <;> rw [abs_zero] <;> positivity
  · intro j _ s hs t ht
    by_cases hjk : j = k
    · simp only [if_pos hjk]
      rw [← mul_sub, abs_mul, mul_assoc]
      exact mul_le_mul_of_nonneg_left (hL s hs t ht) (abs_nonneg _)
    · simp only [if_neg hjk, sub_self, abs_zero]
      positivity
  · rw [intervalIntegral.integral_const_mul, harea]
    exact hg

/-- **C222**: a rectangular pulse whose amplitude times its length is the angle makes the gate. -/
theorem C222_rect (dims : List ℕ) (d : ℕ → LineSet) (δ : ℕ → ℝ) (sub line : ℕ → String) (target : String → Option ℕ)
    (T κ : ℝ) (k : ℕ) (h : Setting dims d δ line target T κ k) (hsh : (d k).shape = fun _ => 1) (gate : Gates.Gate)
    (θ : ℝ) (hg : PulseFor gate θ (d k).xy) (hθ : (d k).v2hz * (d k).amp * T = θ) :
    MakesGate dims d δ sub line target T (|θ| / T) 0 κ k gate := by
  have hT := h.length_pos
  have := shape_table dims d δ sub line target T κ k h (fun _ => 0) 1 0 0
    (fun t _ => ⟨by rw [hsh]; exact hasDerivAt_const _ _, by rw [hsh]; simp, by simp⟩) (by simp) T (by rw [hsh]; simp) gate
    (by rw [hθ]; exact hg)
  have e : |(d k).v2hz * (d k).amp| * 1 = |θ| / T := by
    rw [← hθ, abs_mul _ T, abs_of_pos hT]
    field_simp
  rwa [e, mul_zero] at this

/-- **C222**: a cosine pulse whose amplitude times half its length is the angle makes the gate. -/
theorem C222_cosine (dims : List ℕ) (d : ℕ → LineSet) (δ : ℕ → ℝ) (sub line : ℕ → String) (target : String → Option ℕ)
    (T κ : ℝ) (k : ℕ) (h : Setting dims d δ line target T κ k) (hsh : (d k).shape = cosine T) (gate : Gates.Gate)
    (θ : ℝ) (hg : PulseFor gate θ (d k).xy) (hθ : (d k).v2hz * (d k).amp * (T / 2) = θ) :
    MakesGate dims d δ sub line target T (2 * |θ| / T) (2 * Real.pi * |θ| / T ^ 2) κ k gate := by
  have hT := h.length_pos
  have hpi := Real.pi_pos
  obtain ⟨hr, -, -, -, -, har⟩ := C83_cosine T hT
  have hder : ∀ t, HasDerivAt (cosine T) (Real.pi / T * Real.sin (2 * Real.pi / T * t)) t := by
    intro t
    have h1 := (((hasDerivAt_id t).const_mul (2 * Real.pi / T)).cos.const_sub 1).const_mul (0.5 : ℝ)
    have e : cosine T = fun y => 0.5 * (1 - Real.cos (2 * Real.pi / T * id y)) := by
      funext y
      unfold cosine
      rw [id]
      congr 3
      ring
    rw [e]
    refine h1.congr_deriv ?_
    simp only [id, mul_one]
    ring
  have := shape_table dims d δ sub line target T κ k h (fun t => Real.pi / T * Real.sin (2 * Real.pi / T * t)) 1
    (Real.pi / T) (Real.pi / T * (2 * Real.pi / T))
    (fun t _ => ⟨by rw [hsh]; exact hder t, by
      rw [hsh, abs_of_nonneg (hr t).1]
      exact (hr t).2, by
      rw [abs_mul, abs_of_pos (by positivity : 0 < Real.pi / T)]
      exact mul_le_of_le_one_right (by positivity) (Real.abs_sin_le_one _)⟩)
    (by
      intro s _ t _
      rw [← mul_sub, abs_mul, abs_of_pos (by positivity : 0 < Real.pi / T), mul_assoc]
      refine mul_le_mul_of_nonneg_left ?_ (by positivity)
      have h2 := Real.abs_sin_sub_sin_le (2 * Real.pi / T * s) (2 * Real.pi / T * t)
      rwa [← mul_sub, abs_mul, abs_of_pos (by positivity : 0 < 2 * Real.pi / T)] at h2)
    (T / 2) (by rw [hsh]; exact har) gate (by rw [hθ]; exact hg)
  have e : |(d k).v2hz * (d k).amp| = 2 * |θ| / T := by
    rw [← hθ, abs_mul _ (T / 2), abs_of_pos (by positivity : 0 < T / 2)]
    field_simp
  rw [e, mul_one] at this
  rwa [show 2 * |θ| / T * (Real.pi / T) = 2 * Real.pi * |θ| / T ^ 2 by field_simp] at this

/-- **C222**: a normalized Gaussian whose amplitude is the angle makes the gate, whatever its length and width. -/
theorem C222_gaussian (dims : List ℕ) (d : ℕ → LineSet) (δ : ℕ → ℝ) (sub line : ℕ → String) (target : String → Option ℕ)
    (T κ : ℝ) (k : ℕ) (h : Setting dims d δ line target T κ k) (σ : ℝ) (hσ : 0 < σ)
    (hsh : (d k).shape = gaussianSigma T σ) (gate : Gates.Gate) (θ : ℝ) (hg : PulseFor gate θ (d k).xy)
    (hθ : (d k).v2hz * (d k).amp = θ) :
    MakesGate dims d δ sub line target T (|θ| / norm T σ) (|θ| / norm T σ * (T / (2 * σ ^ 2))) κ k gate := by
  have hT := h.length_pos
  have hn := norm_pos T σ hσ hT
  have hg1 : ∀ t, HasDerivAt (fun t => Real.exp (-(t - T / 2) ^ 2 / (2 * σ ^ 2)))
      (-(Real.exp (-(t - T / 2) ^ 2 / (2 * σ ^ 2)) * (t - T / 2) / σ ^ 2)) t := by
    intro t
    refine (hasDerivAt_gauss T σ t hσ.ne').congr_deriv ?_
    ring
  have hder : ∀ t, HasDerivAt (gaussianSigma T σ) (-gaussianDer T σ t) t := by
    intro t
    refine (((hg1 t).sub_const (offset T σ)).div_const (norm T σ)).congr_deriv ?_
    unfold gaussianDer
    ring
  have hmid : ∀ t ∈ Icc 0 T, |t - T / 2| ≤ T / 2 := by
    intro t ht
    rw [abs_le]
    constructor <;> linarith [ht.1, ht.2]
  have hexp : ∀ t : ℝ, Real.exp (-(t - T / 2) ^ 2 / (2 * σ ^ 2)) ≤ 1 := by
    intro t
    rw [Real.exp_le_one_iff]
    refine div_nonpos_of_nonpos_of_nonneg ?_ (by positivity)
    nlinarith [sq_nonneg (t - T / 2)]
  have hbd : ∀ t ∈ Icc 0 T, |gaussianDer T σ t| ≤ 1 / norm T σ * (T / (2 * σ ^ 2)) := by
    intro t ht
    unfold gaussianDer
    rw [abs_div, abs_div, abs_mul, abs_of_pos (Real.exp_pos _), abs_of_pos hn, abs_of_pos (by positivity : 0 < σ ^ 2)]
    have h1 : Real.exp (-(t - T / 2) ^ 2 / (2 * σ ^ 2)) * |t - T / 2| ≤ 1 * (T / 2) :=
      mul_le_mul (hexp t) (hmid t ht) (abs_nonneg _) (by norm_num)
    calc _ ≤ 1 * (T / 2) / σ ^ 2 / norm T σ := by gcongr
      _ = _ := by field_simp
  have hder2 : ∀ t, HasDerivAt (fun t => -gaussianDer T σ t)
      (Real.exp (-(t - T / 2) ^ 2 / (2 * σ ^ 2)) * ((t - T / 2) ^ 2 / σ ^ 4 - 1 / σ ^ 2) / norm T σ) t := by
    intro t
    have h1 := ((((hg1 t).mul ((hasDerivAt_id t).sub_const (T / 2))).div_const (σ ^ 2)).div_const (norm T σ)).neg
    refine h1.congr_deriv ?_
    simp only [id]
    field_simp
    ring
  have hbd2 : ∀ t ∈ Icc 0 T, ‖Real.exp (-(t - T / 2) ^ 2 / (2 * σ ^ 2)) * ((t - T / 2) ^ 2 / σ ^ 4 - 1 / σ ^ 2) / norm T σ‖ ≤
      ((T / 2) ^ 2 / σ ^ 4 + 1 / σ ^ 2) / norm T σ := by
    intro t ht
    rw [Real.norm_eq_abs, abs_div, abs_mul, abs_of_pos (Real.exp_pos _), abs_of_pos hn]
    have h1 : |(t - T / 2) ^ 2 / σ ^ 4 - 1 / σ ^ 2| ≤ (T / 2) ^ 2 / σ ^ 4 + 1 / σ ^ 2 := by
      refine (abs_sub _ _).trans ?_
      rw [abs_of_nonneg (by positivity : 0 ≤ (t - T / 2) ^ 2 / σ ^ 4), abs_of_pos (by positivity : 0 < 1 / σ ^ 2)]
      have h2 : (t - T / 2) ^ 2 ≤ (T / 2) ^ 2 := by
        rw [← sq_abs (t - T / 2)]
        exact pow_le_pow_left₀ (abs_nonneg _) (hmid t ht) 2
      gcongr
    have h3 := mul_le_mul (hexp t) h1 (abs_nonneg _) (by norm_num : (0 : ℝ) ≤ 1)
    rw [one_mul] at h3
    gcongr
  have hL : ∀ s ∈ Icc 0 T, ∀ t ∈ Icc 0 T, |(-gaussianDer T σ s) - (-gaussianDer T σ t)| ≤
      ((T / 2) ^ 2 / σ ^ 4 + 1 / σ ^ 2) / norm T σ * |s - t| := by
    intro s hs t ht
    have := (convex_Icc (0 : ℝ) T).norm_image_sub_le_of_norm_hasDerivWithin_le
      (fun x _ => (hder2 x).hasDerivWithinAt) hbd2 ht hs
    simpa only [Real.norm_eq_abs] using this
  have hval : ∀ t ∈ Icc 0 T, |gaussianSigma T σ t| ≤ 1 / norm T σ := by
    intro t ht
    unfold gaussianSigma
    rw [abs_div, abs_of_pos hn]
    have h1 : 0 ≤ Real.exp (-(t - T / 2) ^ 2 / (2 * σ ^ 2)) - offset T σ := by
      rw [sub_nonneg]
      unfold offset
      refine Real.exp_le_exp.2 ?_
      rw [div_le_div_iff₀ (by positivity) (by positivity)]
      have h2 : (t - T / 2) ^ 2 ≤ (T / 2) ^ 2 := by
        rw [← sq_abs (t - T / 2)]
        exact pow_le_pow_left₀ (abs_nonneg _) (hmid t ht) 2
      have hs : 0 < σ ^ 2 := by positivity
      nlinarith
    rw [abs_of_nonneg h1]
    have h3 : 0 < offset T σ := Real.exp_pos _
    have := hexp t
    gcongr
    linarith
  have := shape_table dims d δ sub line target T κ k h (fun t => -gaussianDer T σ t) (1 / norm T σ)
    (1 / norm T σ * (T / (2 * σ ^ 2))) (((T / 2) ^ 2 / σ ^ 4 + 1 / σ ^ 2) / norm T σ)
    (fun t ht => ⟨by rw [hsh]; exact hder t, by rw [hsh]; exact hval t ht, by rw [abs_neg]; exact hbd t ht⟩) hL 1
    (by rw [hsh]; exact C120_area T σ hσ hT) gate (by rw [hθ, mul_one]; exact hg)
  rw [hθ] at this
  rwa [show |θ| * (1 / norm T σ) = |θ| / norm T σ by ring,
    show |θ| * (1 / norm T σ * (T / (2 * σ ^ 2))) = |θ| / norm T σ * (T / (2 * σ ^ 2)) by ring] at this

/-- Gaussians on the second of two transmons: the gate `rx90p`. -/
example : MakesGate [3, 3] (fun k => ⟨if k = 1 then Real.pi / 2 else 0, 0, gaussianSigma 20 5, if k = 1 then 1000 else 700, 1⟩)
    (fun _ => -100) (fun _ => "") (fun k => if k = 1 then "d2" else "d1")
    (fun s => if s = "d1" then some 0 else if s = "d2" then some 1 else none) 20 (Real.pi / 2 / norm 20 5)
    (Real.pi / 2 / norm 20 5 * (20 / (2 * 5 ^ 2))) 100 1 .rx90p := by
  have hp := Real.pi_pos
  have := C222_gaussian [3, 3]
    (fun k => ⟨if k = 1 then Real.pi / 2 else 0, 0, gaussianSigma 20 5, if k = 1 then 1000 else 700, 1⟩)
    (fun _ => -100) (fun _ => "") (fun k => if k = 1 then "d2" else "d1")
    (fun s => if s = "d1" then some 0 else if s = "d2" then some 1 else none) 20 100 1
    { target_line := by
        intro j hj
        have hj' : j = 0 ∨ j = 1 := by simp at hj; omega
        rcases hj' with rfl | rfl <;> simp
      target_lt := by
        intro l q h
        split_ifs at h <;> simp_all <;> omega
      length_pos := by norm_num
      gap_pos := by norm_num
      selective := by
        intro k hk
        have hk' : k = 0 ∨ k = 1 := by simp at hk; omega
        rcases hk' with rfl | rfl <;> refine ⟨by simp, by norm_num, fun l hl => ?_⟩
        · have hl' : l = 0 ∨ l = 1 := by simp at hl; omega
          rcases hl' with rfl | rfl <;> norm_num
        · have hl' : l = 0 ∨ l = 1 := by simp at hl; omega
          rcases hl' with rfl | rfl <;> norm_num
      index := by simp
      rest := by intro j _ hj; simp [hj] } 5 (by norm_num) rfl .rx90p (Real.pi / 2) .rx90p (by simp)
  rwa [abs_of_pos (by positivity : 0 < Real.pi / 2)] at this

end C3.Experiment.EnvelopeGates
