import Verif.Experiment.Circuits

/-!
# C247: pulses off resonance

A pulse of constant amplitude whose carrier is not at the frequency of the qubit. The models are those of C199, C209 and
C219: devices, propagation (c3/libraries/propagation.py:259-341) and frame rotation (c3/experiment.py:440-534); the frame
rotates with the carriers. Simplified as there.
-/

noncomputable section

namespace C3.Experiment.Chevron

open Matrix Set C3.Propagation C3.Propagation.Converge C3.Propagation.Average C3.Hilbert C3.Experiment
  C3.Experiment.Compute C3.Experiment.EndToEnd C3.Experiment.Resonant C3.Experiment.FromInstruction C3.Experiment.Circuits C3.Experiment.ResonantInfid

open scoped Matrix.Norms.L2Operator

/-! ## Specification -/

/-- The frequency of the oscillation for amplitude `A` and detuning `Δ`. -/
def freq (A Δ : ℝ) : ℝ := √(A ^ 2 + Δ ^ 2)

/-- Turn of the two lowest levels about the axis with `A` in the xy-plane at angle `φ` and `-Δ` along z, for a time `T`, up
to a phase; higher levels get phases. -/
def tilt (T A Δ φ : ℝ) (x y : ℕ) : ℂ :=
  if x = y ∧ 2 ≤ x then Complex.exp (-((Δ * x * T : ℝ) : ℂ) * Complex.I)
  else Complex.exp (-((Δ * T / 2 : ℝ) : ℂ) * Complex.I) *
    (if x = 0 ∧ y = 0 then
      (Real.cos (freq A Δ * T / 2) : ℂ) + Complex.I * ((Δ / freq A Δ * Real.sin (freq A Δ * T / 2) : ℝ) : ℂ)
    else if x = 1 ∧ y = 1 then
      (Real.cos (freq A Δ * T / 2) : ℂ) - Complex.I * ((Δ / freq A Δ * Real.sin (freq A Δ * T / 2) : ℝ) : ℂ)
    else if x = 0 ∧ y = 1 then
      -Complex.I * Complex.exp (-φ * Complex.I) * ((A / freq A Δ * Real.sin (freq A Δ * T / 2) : ℝ) : ℂ)
    else if x = 1 ∧ y = 0 then
      -Complex.I * Complex.exp (φ * Complex.I) * ((A / freq A Δ * Real.sin (freq A Δ * T / 2) : ℝ) : ℂ)
    else 0)

/-- The formula of Rabi: probability of the change between the two lowest levels. -/
def rabi (T A Δ : ℝ) : ℝ := A ^ 2 / (A ^ 2 + Δ ^ 2) * Real.sin (√(A ^ 2 + Δ ^ 2) * T / 2) ^ 2

/-- Probability to find a qubit that was in its ground state in level `x`. -/
def level (T A Δ : ℝ) (x : ℕ) : ℝ := if x = 0 then 1 - rabi T A Δ else if x = 1 then rabi T A Δ else 0

/-! ## A single subsystem -/

/-- An operator on subsystem `k`. -/
abbrev em (dims : List ℕ) (k : ℕ) (f : ℕ → ℕ → ℂ) : Op dims := emb ⟨dims.getD k 0, dims.getD k 0, f⟩ k dims

theorem em_apply (dims : List ℕ) (k : ℕ) (hk : k < dims.length) (f : ℕ → ℕ → ℂ) (p q : Fin dims.prod) :
    em dims k f p q = if ∀ t < dims.length, t ≠ k → lev dims t p = lev dims t q then f (lev dims k p) (lev dims k q)
      else 0 := emb_lev _ k dims ⟨hk, rfl, rfl⟩ p q

theorem em_add (dims : List ℕ) (k : ℕ) (hk : k < dims.length) (f g : ℕ → ℕ → ℂ) :
    em dims k f + em dims k g = em dims k fun x y => f x y + g x y := by
  ext p q
  rw [Matrix.add_apply, em_apply dims k hk, em_apply dims k hk, em_apply dims k hk]
  split <;> simp

theorem em_smul (dims : List ℕ) (k : ℕ) (hk : k < dims.length) (c : ℂ) (f : ℕ → ℕ → ℂ) :
    c • em dims k f = em dims k fun x y => c * f x y := by
  ext p q
  rw [Matrix.smul_apply, em_apply dims k hk, em_apply dims k hk]
  split <;> simp

theorem em_mul (dims : List ℕ) (k : ℕ) (hk : k < dims.length) (f g : ℕ → ℕ → ℂ) :
    em dims k f * em dims k g = em dims k fun x y => ∑ z ∈ Finset.range (dims.getD k 0), f x z * g z y :=
  C32_mul _ _ k dims ⟨hk, rfl, rfl⟩ ⟨hk, rfl, rfl⟩

theorem em_congr (dims : List ℕ) (k : ℕ) (hk : k < dims.length) (f g : ℕ → ℕ → ℂ)
    (h : ∀ x < dims.getD k 0, ∀ y < dims.getD k 0, f x y = g x y) : em dims k f = em dims k g :=
  emb_congr _ _ k dims ⟨hk, rfl, rfl⟩ ⟨hk, rfl, rfl⟩ h

theorem same_iff (dims : List ℕ) (k : ℕ) (p q : Fin dims.prod)
    (h : ∀ t < dims.length, t ≠ k → lev dims t p = lev dims t q) : p = q ↔ lev dims k p = lev dims k q := by
  constructor
  · intro h
    rw [h]
  · intro h'
    refine lev_ext dims p q fun t ht => ?_
    by_cases htk : t = k
    · rw [htk, h']
    · exact h t ht htk

theorem em_diagonal (dims : List ℕ) (k : ℕ) (hk : k < dims.length) (c : ℕ → ℂ) :
    em dims k (fun x y => if x = y then c x else 0) = diagonal fun p => c (lev dims k p) := by
  ext p q
  rw [em_apply dims k hk, diagonal_apply]
  by_cases h : ∀ t < dims.length, t ≠ k → lev dims t p = lev dims t q
  · rw [if_pos h]
    simp only [same_iff dims k p q h]
  · rw [if_neg h, if_neg]
    rintro rfl
    exact h fun _ _ _ => rfl

/-- The axis with `c` in the plane and `s` along z. -/
def axis (c s φ : ℝ) (x y : ℕ) : ℂ :=
  if x = 0 ∧ y = 0 then (s : ℂ) else if x = 1 ∧ y = 1 then -(s : ℂ) else c * Resonant.flip φ x y

theorem axis_mul (c s φ : ℝ) (h : c ^ 2 + s ^ 2 = 1) (d x y : ℕ) (hd : 2 ≤ d) :
    ∑ z ∈ Finset.range d, axis c s φ x z * axis c s φ z y = if x = y ∧ x < 2 then 1 else 0 := by
  have h' : (c : ℂ) ^ 2 + (s : ℂ) ^ 2 = 1 := by exact_mod_cast h
  have e1 : Complex.exp (-φ * Complex.I) * Complex.exp (φ * Complex.I) = 1 := by
    rw [← Complex.exp_add]
    simp
  have hz : ∀ z, 2 ≤ z → axis c s φ x z * axis c s φ z y = 0 := by
    intro z hz
    unfold axis Resonant.flip
    rw [if_neg (by omega : ¬ (x = 0 ∧ z = 0)), if_neg (by omega : ¬ (x = 1 ∧ z = 1)), if_neg (by omega : ¬ (x = 0 ∧ z = 1)),
      if_neg (by omega : ¬ (x = 1 ∧ z = 0)), mul_zero, zero_mul]
  obtain ⟨d, rfl⟩ := Nat.exists_eq_add_of_le hd
  rw [Finset.sum_range_add, Finset.sum_eq_zero (s := Finset.range d) fun z _ => hz (2 + z) (by omega), add_zero,
    Finset.sum_range_succ, Finset.sum_range_one]
  match x, y with
  | 0, 0 =>
    simp [axis, Resonant.flip]
    simp at e1
    linear_combination h' + (c : ℂ) ^ 2 * e1
  | 0, 1 =>
    simp [axis, Resonant.flip]
    ring
  | 1, 0 =>
    simp [axis, Resonant.flip]
    ring
  | 1, 1 =>
    simp [axis, Resonant.flip]
    simp at e1
    linear_combination h' + (c : ℂ) ^ 2 * e1
  | 0, y + 2 => simp [axis, Resonant.flip]
  | 1, y + 2 => simp [axis, Resonant.flip]
  | x + 2, y => simp [axis, Resonant.flip]

/-- The generator of a subsystem in the frame of the carrier. -/
def gen (A Δ φ : ℝ) (x y : ℕ) : ℂ := (if x = y then ((Δ * x : ℝ) : ℂ) else 0) + (A : ℂ) * (1 / 2 * Resonant.flip φ x y)

theorem exp_gen (dims : List ℕ) (k : ℕ) (hk : k < dims.length) (hd : 2 ≤ dims.getD k 0) (T A Δ φ : ℝ) :
    NormedSpace.exp ((-Complex.I * (T : ℂ)) • em dims k (gen A Δ φ)) = em dims k (tilt T A Δ φ) := by
  set Ω := freq A Δ with hΩ
  have hΩ2 : Ω ^ 2 = A ^ 2 + Δ ^ 2 := Real.sq_sqrt (by positivity)
  obtain ⟨c, s, hcs, hc, hs, hc', hs'⟩ : ∃ c s : ℝ, c ^ 2 + s ^ 2 = 1 ∧ Ω * c = A ∧ Ω * s = -Δ ∧
      (∀ u, c * Real.sin (Ω * u) = A / Ω * Real.sin (Ω * u)) ∧ (∀ u, s * Real.sin (Ω * u) = -(Δ / Ω * Real.sin (Ω * u))) := by
    by_cases h : Ω = 0
    · have h1 : A ^ 2 + Δ ^ 2 = 0 := by rw [← hΩ2, h]; norm_num
      have hA : A = 0 := by nlinarith [sq_nonneg A, sq_nonneg Δ]
      have hD : Δ = 0 := by nlinarith [sq_nonneg A, sq_nonneg Δ]
      exact ⟨1, 0, by norm_num, by rw [h, hA]; ring, by rw [h, hD]; ring, fun u => by rw [h]; simp, fun u => by rw [h]; simp⟩
    · refine ⟨A / Ω, -Δ / Ω, ?_, by field_simp, by field_simp, fun u => rfl, fun u => by ring⟩
      rw [div_pow, div_pow, neg_sq, ← add_div, ← hΩ2]
      field_simp
  have hcC : (Ω : ℂ) * (c : ℂ) = A := by exact_mod_cast hc
  have hsC : (Ω : ℂ) * (s : ℂ) = -(Δ : ℂ) := by exact_mod_cast hs
  set D : ℕ → ℂ := fun x => if x < 2 then ((Δ / 2 : ℝ) : ℂ) else ((Δ * x : ℝ) : ℂ) with hD
  have hg : em dims k (gen A Δ φ) = em dims k (fun x y => (Ω / 2 : ℂ) * axis c s φ x y) +
      em dims k (fun x y => if x = y then D x else 0) := by
    rw [em_add dims k hk]
    congr 2
    funext x y
    match x, y with
    | 0, 0 =>
      simp [gen, axis, Resonant.flip, D]
      linear_combination -hsC / 2
    | 0, 1 =>
      simp [gen, axis, Resonant.flip]
      rw [← hcC]; ring
    | 1, 0 =>
      simp [gen, axis, Resonant.flip]
      rw [← hcC]; ring
    | 1, 1 =>
      simp [gen, axis, Resonant.flip, D]
      linear_combination hsC / 2
    | 0, y + 2 => simp [gen, axis, Resonant.flip]
    | 1, y + 2 => simp [gen, axis, Resonant.flip]
    | x + 2, y => simp [gen, axis, Resonant.flip, D]
  have hmm : em dims k (axis c s φ) * em dims k (axis c s φ) = em dims k fun x y => if x = y ∧ x < 2 then 1 else 0 := by
    rw [em_mul dims k hk]
    exact em_congr dims k hk _ _ fun x _ y _ => axis_mul c s φ hcs _ x y hd
  have hpm : em dims k (fun x y => if x = y ∧ x < 2 then 1 else 0) * em dims k (axis c s φ) = em dims k (axis c s φ) := by
    rw [em_mul dims k hk]
    refine em_congr dims k hk _ _ fun x hx y _ => ?_
    rw [Finset.sum_eq_single x]
    · by_cases h : x < 2
      · simp [h]
      · simp only [h, and_false, if_false, zero_mul]
        unfold axis Resonant.flip
        rw [if_neg (by omega), if_neg (by omega), if_neg (by omega), if_neg (by omega), mul_zero]
    · intro z _ hz
      rw [if_neg (fun h => hz h.1.symm), zero_mul]
    · intro h
      exact absurd (Finset.mem_range.2 hx) h
  have hcomm : Commute (em dims k (fun x y => (Ω / 2 : ℂ) * axis c s φ x y))
      (em dims k (fun x y => if x = y then D x else 0)) := by
    rw [Commute, SemiconjBy, em_mul dims k hk, em_mul dims k hk]
    refine em_congr dims k hk _ _ fun x hx y hy => ?_
    rw [Finset.sum_eq_single y, Finset.sum_eq_single x]
    · simp only [if_true]
      by_cases hxy : x < 2 ∧ y < 2
      · simp only [D, hxy.1, hxy.2, if_true]
        ring
      · have : axis c s φ x y = 0 := by
          unfold axis Resonant.flip
          rw [if_neg (by omega), if_neg (by omega), if_neg (by omega), if_neg (by omega), mul_zero]
        rw [this]
        ring
    · intro z _ hz
      rw [if_neg (Ne.symm hz), zero_mul]
    · intro h
      exact absurd (Finset.mem_range.2 hx) h
    · intro z _ hz
      rw [if_neg hz, mul_zero]
    · intro h
      exact absurd (Finset.mem_range.2 hy) h
  have hx := Gates.exp_reflection _ _ hmm hpm (Ω * T)
  rw [hg, smul_add, Matrix.exp_add_of_commute _ _ ((hcomm.smul_left _).smul_right _), ← em_smul dims k hk, smul_smul,
    show -Complex.I * (T : ℂ) * (Ω / 2) = -Complex.I / 2 * ((Ω * T : ℝ) : ℂ) by push_cast; ring, hx,
    em_diagonal dims k hk, ← diagonal_smul, Matrix.exp_diagonal]
  ext p q
  rw [mul_diagonal, Matrix.sub_apply, Matrix.add_apply, Matrix.sub_apply, Matrix.smul_apply, Matrix.smul_apply,
    em_apply dims k hk, em_apply dims k hk, em_apply dims k hk, Matrix.one_apply]
  by_cases hag : ∀ t < dims.length, t ≠ k → lev dims t p = lev dims t q
  · simp only [if_pos hag, same_iff dims k p q hag, Pi.coe_exp, Pi.smul_apply]
    rw [← Complex.exp_eq_exp_ℂ]
    have u1 := hc' (T / 2)
    have u2 := hs' (T / 2)
    rw [show Ω * (T / 2) = Ω * T / 2 by ring] at u1 u2
    have v1 : (c : ℂ) * (Real.sin (Ω * T / 2) : ℂ) = ((A / Ω * Real.sin (Ω * T / 2) : ℝ) : ℂ) := by
      rw [← u1]; push_cast; rfl
    have v2 : (s : ℂ) * (Real.sin (Ω * T / 2) : ℂ) = -((Δ / Ω * Real.sin (Ω * T / 2) : ℝ) : ℂ) := by
      rw [← Complex.ofReal_neg, ← u2]; push_cast; rfl
    have w0 : Complex.exp ((-Complex.I * (T : ℂ)) • ((Δ / 2 : ℝ) : ℂ)) =
        Complex.exp (-((Δ * T / 2 : ℝ) : ℂ) * Complex.I) := by
      congr 1
      rw [smul_eq_mul]
      push_cast
      ring
    have wx : ∀ x : ℕ, Complex.exp ((-Complex.I * (T : ℂ)) • ((Δ * x : ℝ) : ℂ)) =
        Complex.exp (-((Δ * x * T : ℝ) : ℂ) * Complex.I) := by
      intro x
      congr 1
      rw [smul_eq_mul]
      push_cast
      ring
    generalize lev dims k p = x
    generalize lev dims k q = y
    simp only [tilt, D, ← hΩ, smul_eq_mul]
    simp only [smul_eq_mul] at w0 wx
    generalize Real.sin (Ω * T / 2) = S at *
    generalize Real.cos (Ω * T / 2) = K at *
    match x, y with
    | 0, 0 =>
      rw [if_pos (by norm_num : (0 : ℕ) < 2), w0]
      generalize Complex.exp (-((Δ * T / 2 : ℝ) : ℂ) * Complex.I) = w
      simp [axis, -Complex.ofReal_mul, -Complex.ofReal_div]
      linear_combination (-Complex.I * w) * v2
    | 0, 1 =>
      rw [if_pos (by norm_num : (1 : ℕ) < 2), w0]
      generalize Complex.exp (-((Δ * T / 2 : ℝ) : ℂ) * Complex.I) = w
      simp [axis, Resonant.flip, -Complex.ofReal_mul, -Complex.ofReal_div]
      linear_combination (Complex.I * w * Complex.exp (-(φ * Complex.I))) * v1
    | 1, 0 =>
      rw [if_pos (by norm_num : (0 : ℕ) < 2), w0]
      generalize Complex.exp (-((Δ * T / 2 : ℝ) : ℂ) * Complex.I) = w
      simp [axis, Resonant.flip, -Complex.ofReal_mul, -Complex.ofReal_div]
      linear_combination (Complex.I * w * Complex.exp (φ * Complex.I)) * v1
    | 1, 1 =>
      rw [if_pos (by norm_num : (1 : ℕ) < 2), w0]
      generalize Complex.exp (-((Δ * T / 2 : ℝ) : ℂ) * Complex.I) = w
      simp [axis, -Complex.ofReal_mul, -Complex.ofReal_div]
      linear_combination (Complex.I * w) * v2
    | 0, y + 2 => simp [axis, Resonant.flip]
    | 1, y + 2 => simp [axis, Resonant.flip]
    | x + 2, y =>
      by_cases hxy : x + 2 = y
      · subst hxy
        rw [if_neg (by omega : ¬ x + 2 < 2), wx]
        simp [axis, Resonant.flip]
      · simp [axis, Resonant.flip, hxy]
  · simp only [if_neg hag]
    have hpq : p ≠ q := by
      rintro rfl
      exact hag fun _ _ _ => rfl
    simp [hpq]

/-! ## The register -/

/-- The energies of the detunings. -/
def shift (dims : List ℕ) (Δ : ℕ → ℝ) (p : Fin dims.prod) : ℝ := ∑ k ∈ Finset.range dims.length, Δ k * lev dims k p

theorem energy_shift (dims : List ℕ) (f ν δ : ℕ → ℝ) (p : Fin dims.prod) :
    energy dims f δ p = energy dims ν δ p + shift dims (fun k => f k - ν k) p := by
  unfold energy shift
  rw [← Finset.sum_add_distrib]
  refine Finset.sum_congr rfl fun k _ => ?_
  ring

/-- All subsystems together, in the frame of the carriers. -/
theorem sum_gen (dims : List ℕ) (A Δ φ : ℕ → ℝ) :
    ((List.finRange dims.length).map fun k : Fin dims.length => em dims k (gen (A k) (Δ k) (φ k))).sum =
      diagonal (fun p => (shift dims Δ p : ℂ)) +
        ∑ k : Fin dims.length, (A k : ℂ) • ((1 / 2 : ℂ) • emb (flipA dims k (φ k)) k dims) := by
  rw [← List.ofFn_eq_map, List.sum_ofFn]
  have e : ∀ k : Fin dims.length, em dims k (gen (A k) (Δ k) (φ k)) =
      diagonal (fun p => ((Δ k * lev dims k p : ℝ) : ℂ)) + (A k : ℂ) • ((1 / 2 : ℂ) • emb (flipA dims k (φ k)) k dims) := by
    intro k
    have h1 := em_diagonal dims k k.2 fun x => ((Δ k * x : ℝ) : ℂ)
    rw [← h1, show emb (flipA dims k (φ k)) k dims = em dims k (Resonant.flip (φ k)) from rfl, em_smul dims k k.2,
      em_smul dims k k.2, em_add dims k k.2]
    rfl
  simp only [e]
  rw [Finset.sum_add_distrib]
  congr 1
  ext p q
  rw [Matrix.sum_apply]
  simp only [diagonal_apply]
  split
  · unfold shift
    rw [Finset.sum_range]
    push_cast
    rfl
  · simp

/-- The factor of the bound on the error: the sizes of the drives and of the detunings. -/
def bound (dims : List ℕ) (T a : ℝ) (Δ : ℕ → ℝ) : ℝ :=
  (a * drives dims + ∑ p, |shift dims Δ p|) * (2 + 3 * T * (a * drives dims + ∑ p, |shift dims Δ p|))

theorem register (dims : List ℕ) (f ν δ φ A : ℕ → ℝ) (T a κ : ℝ) (hT : 0 ≤ T) (ha : 0 < a) (hκ : 0 < κ)
    (hsel : Selective dims ν δ κ) (hA : ∀ k < dims.length, |A k| ≤ a) (U : ℝ → Op dims)
    (hU : Schrodinger (driven (energy dims f δ) (fun (k : Fin dims.length) _ => A k) (fun k : Fin dims.length => ν k)
      (fun k : Fin dims.length => φ k) fun k : Fin dims.length => xDrive (ann dims k)) 0 T U) (p q : Fin dims.prod) :
    ‖Complex.exp ((energy dims ν δ p * T : ℝ) * Complex.I) * U T p q -
      ∏ k ∈ Finset.range dims.length, tilt T (A k) (f k - ν k) (φ k) (lev dims k p) (lev dims k q)‖ ≤
        bound dims T a (fun k => f k - ν k) / κ := by
  set Δ : ℕ → ℝ := fun k => f k - ν k with hΔ
  set D : Op dims := (1 / a : ℂ) • diagonal fun p => (shift dims Δ p : ℂ) with hD
  have ha' : (a : ℂ) ≠ 0 := by exact_mod_cast ha.ne'
  have hdr : driven (energy dims f δ) (fun (k : Fin dims.length) _ => A k) (fun k : Fin dims.length => ν k)
      (fun k : Fin dims.length => φ k) (fun k : Fin dims.length => xDrive (ann dims k)) =
    driven (energy dims ν δ) (fun (k : Option (Fin dims.length)) _ => k.elim a fun k => A k) (fun k => k.elim 0 fun k => ν k)
      (fun k => k.elim 0 fun k => φ k) (fun k => k.elim D fun k => xDrive (ann dims k)) := by
    funext t
    unfold driven
    rw [Fintype.sum_option, ← add_assoc]
    simp only [Option.elim]
    congr 1
    rw [hD, smul_smul]
    have e : ((a * Real.cos (0 * t - 0) : ℝ) : ℂ) * (1 / a) = 1 := by
      simp [ha']
    rw [e, one_smul, diagonal_add]
    congr 1
    funext p
    rw [energy_shift dims f ν δ p]
    push_cast
    rfl
  rw [hdr] at hU
  have hdiag : ∀ i j, D i j ≠ 0 → i = j := by
    intro i j h
    by_contra hij
    exact h (by simp [hD, hij])
  have hres : resonant (energy dims ν δ) 0 0 D = D := by
    ext i j
    simp only [resonant, of_apply]
    by_cases h : D i j = 0
    · rw [h]; simp
    · rw [hdiag i j h]
      simp
      ring
  have hcomm : ∀ j k : Fin dims.length, Commute (em dims j (gen (A j) (Δ j) (φ j))) (em dims k (gen (A k) (Δ k) (φ k))) := by
    intro j k
    by_cases hjk : j = k
    · rw [hjk]
    · exact C32_commute _ _ j k dims ⟨j.2, rfl, rfl⟩ ⟨k.2, rfl, rfl⟩ fun h => hjk (Fin.ext h)
  have hav := C209_average (energy dims ν δ) (fun (k : Option (Fin dims.length)) _ => k.elim a fun k => A k) (fun _ _ => 0)
    (fun k => k.elim 0 fun k => ν k) (fun k => k.elim 0 fun k => φ k) (fun k => k.elim D fun k => xDrive (ann dims k))
    T a 0 κ hT hκ
    (by
      rintro (_ | k)
      · show Dᴴ = D
        rw [hD, conjTranspose_smul, diagonal_conjTranspose]
        congr 1
        · simp
        · congr 1
          funext p
          simp
      · exact xDrive_self dims k)
    (by
      rintro (_ | k)
      · intro i j h
        have := hdiag i j h
        subst this
        simp
      · exact selective_detuned dims ν δ κ hsel k k.2)
    (by
      rintro (_ | k) t _
      · exact ⟨hasDerivWithinAt_const _ _ _, by simp [abs_of_pos ha], by simp⟩
      · exact ⟨hasDerivWithinAt_const _ _ _, hA k k.2, by simp⟩)
    U (fun t => ((List.finRange dims.length).map fun k : Fin dims.length =>
      NormedSpace.exp ((-Complex.I * (t : ℂ)) • em dims k (gen (A k) (Δ k) (φ k)))).prod) hU
    ⟨by simp, fun t ht i j => by
      have h := commuting (List.finRange dims.length) (fun k : Fin dims.length => em dims k (gen (A k) (Δ k) (φ k))) hcomm
        (fun _ _ => 1) (fun _ t => t) (Icc 0 T) t fun _ => hasDerivWithinAt_id _ _
      simp only [Complex.ofReal_one, one_smul] at h
      have e : (∑ k : Option (Fin dims.length), ((k.elim a fun k => A k : ℝ) : ℂ) • resonant (energy dims ν δ)
          (k.elim 0 fun k => ν k) (k.elim 0 fun k => φ k) (k.elim D fun k => xDrive (ann dims k))) =
          ((List.finRange dims.length).map fun k : Fin dims.length => em dims k (gen (A k) (Δ k) (φ k))).sum := by
        rw [sum_gen, Fintype.sum_option]
        simp only [Option.elim]
        rw [hres, hD, smul_smul, mul_one_div_cancel ha', one_smul]
        congr 1
        refine Finset.sum_congr rfl fun k _ => ?_
        rw [resonant_flip dims ν δ κ hκ hsel k k.2]
      simp only
      rw [e]
      exact Exists.entries h i j⟩
  have h1 := (entry_le _ p q).trans hav
  have e1 : ((List.finRange dims.length).map fun k : Fin dims.length =>
      NormedSpace.exp ((-Complex.I * (T : ℂ)) • em dims k (gen (A k) (Δ k) (φ k)))).prod p q =
      ∏ k ∈ Finset.range dims.length, tilt T (A k) (f k - ν k) (φ k) (lev dims k p) (lev dims k q) := by
    have e : ((List.finRange dims.length).map fun k : Fin dims.length =>
        NormedSpace.exp ((-Complex.I * (T : ℂ)) • em dims k (gen (A k) (Δ k) (φ k)))) =
        (List.finRange dims.length).map fun k : Fin dims.length =>
          emb ⟨dims.getD k 0, dims.getD k 0, (fun k => tilt T (A k) (Δ k) (φ k)) k⟩ k dims :=
      List.map_congr_left fun k _ => exp_gen dims k k.2 (hsel k k.2).1 T (A k) (Δ k) (φ k)
    rw [e, prod_emb dims (fun k => tilt T (A k) (Δ k) (φ k)) _ (List.nodup_finRange _)]
    simp only [tens, of_apply]
    refine Finset.prod_congr rfl fun k hk => ?_
    rw [if_pos ⟨⟨k, Finset.mem_range.1 hk⟩, List.mem_finRange _, rfl⟩]
  rw [Matrix.sub_apply, e1, Average.frame, diagonal_mul] at h1
  refine h1.trans (le_of_eq ?_)
  have e2 : ∑ i, ∑ j, ‖D i j‖ = 1 / a * ∑ p, |shift dims Δ p| := by
    rw [Finset.mul_sum]
    refine Finset.sum_congr rfl fun i _ => ?_
    rw [Finset.sum_eq_single i]
    · simp [hD, abs_of_pos ha]
    · intro j _ hj
      simp [hD, Ne.symm hj]
    · simp
  have e3 : ∑ k : Option (Fin dims.length), ∑ i, ∑ j, ‖(k.elim D fun k => xDrive (ann dims k) : Op dims) i j‖ =
      1 / a * ∑ p, |shift dims Δ p| + drives dims := by
    rw [Fintype.sum_option]
    simp only [Option.elim]
    rw [e2, drives, Finset.sum_range]
  rw [e3]
  unfold bound
  field_simp
  ring

/-! ## From the instruction to the propagator -/

theorem drive_detuned (dims : List ℕ) (f ν δ φ A : ℕ → ℝ) :
    drive (diagonal fun p => (energy dims f δ p : ℂ)) ((List.range dims.length).map fun k => xDrive (ann dims k))
      ((List.range dims.length).map fun k t => A k * Real.cos (ν k * t - φ k)) =
    driven (energy dims f δ) (fun (k : Fin dims.length) _ => A k) (fun k : Fin dims.length => ν k)
      (fun k : Fin dims.length => φ k) fun k : Fin dims.length => xDrive (ann dims k) := by
  funext t
  unfold drive driven
  congr 1
  rw [List.zip_map', List.map_map, sum_range_list, Finset.sum_range]
  rfl

/-- Amplitude in the Hamiltonian of a line with a rectangular envelope (c3/libraries/envelopes.py:195-197 `rect`). -/
def height (d : LineSet) : ℝ := d.v2hz * d.amp

/-- Error: the rotating-wave approximation and the leakage, the slices of the simulation, and the playing of the
envelope. -/
def error (dims : List ℕ) (T a κ C : ℝ) (Δ : ℕ → ℝ) (M K : ℕ) : ℝ :=
  bound dims T a Δ / κ + C / (K * M : ℕ) ^ 2 + T * (playError T a 0 M * drives dims)

/-- **C247**: let each line play a rectangular envelope on a carrier that need not be at the frequency of its qubit. The
propagator is the product of the turns about the tilted axes. -/
theorem C247_gate (dims : List ℕ) (f : ℕ → ℝ) (d : ℕ → LineSet) (δ : ℕ → ℝ) (sub line : ℕ → String)
    (target : String → Option ℕ) (htar : ∀ k < dims.length, target (line k) = some k) (T a κ : ℝ) (hT : 0 < T) (ha : 0 < a)
    (hκ : 0 < κ) (hsel : Selective dims (fun k => (d k).omega) δ κ) (hshape : ∀ k < dims.length, (d k).shape = fun _ => 1)
    (hA : ∀ k < dims.length, |height (d k)| ≤ a) :
    ∃ C : ℝ, ∀ M K : ℕ, 2 ≤ M → 1 ≤ K → ∀ batch : ℕ, 1 ≤ batch → ∀ g : String, ∃ pulse V,
      instrPulse dims.length line d T ((K * M : ℕ) / T) (M / T) = some pulse ∧
      physical (closed (chipOf dims f δ sub line target batch) [(g, pulse)]) (.name "pwc") g = .ok V ∧
      ∀ p q, Computational dims p ∨ Computational dims q →
        ‖V p q - ∏ k ∈ Finset.range dims.length,
          tilt T (height (d k)) (f k - (d k).omega) (d k).xy (lev dims k p) (lev dims k q)‖ ≤
            error dims T a κ C (fun k => f k - (d k).omega) M K := by
  set ν : ℕ → ℝ := fun k => (d k).omega with hν
  set φ : ℕ → ℝ := fun k => (d k).xy with hφ
  set A : ℕ → ℝ := fun k => height (d k) with hAd
  have hampl : ∀ k < dims.length, (d k).ampl = fun _ => A k := by
    intro k hk
    funext t
    simp [LineSet.ampl, hshape k hk, hAd, height]
  obtain ⟨U, hU, -, C, hC⟩ := Exists.C202_converges (diagonal fun p => (energy dims f δ p : ℂ))
    ((List.range dims.length).map fun k => xDrive (ann dims k))
    ((List.range dims.length).map fun k t => A k * Real.cos (ν k * t - φ k)) 0 T hT (by
      intro g hg
      obtain ⟨k, hk, rfl⟩ := List.mem_map.1 hg
      rw [zero_add]
      exact smooth_carrier (fun _ => A k) (fun _ => 0) (ν k) (φ k) T a 0 0
        (fun t _ => ⟨hasDerivWithinAt_const _ _ _, hA k (List.mem_range.1 hk), by simp⟩) (by simp))
  simp only [zero_add] at hU hC
  rw [drive_detuned] at hU
  have hreg := register dims f ν δ φ A T a κ hT.le ha hκ hsel hA U hU
  refine ⟨C, fun M K hM hK batch hb g => ?_⟩
  have hN : 0 < K * M := Nat.mul_pos hK (by omega)
  have hN' : (0 : ℝ) < (K * M : ℕ) := by exact_mod_cast hN
  obtain ⟨sh, hsh, hpulse⟩ := instrPulse_eq dims.length line d T hT M K hM hK
  obtain ⟨ts, P', hts, hP', hPU⟩ := hC (K * M) hN batch hb
  rw [times T hT (K * M) hN, Option.some_inj] at hts
  subst hts
  obtain ⟨P, P'', hP, hP'', hPP⟩ := signals_entries (diagonal fun p => (energy dims f δ p : ℂ))
    dims.length (K * M) (fun k => xDrive (ann dims k))
    (by
      refine isHermitian_diagonal_of_self_adjoint _ ?_
      funext p
      simp)
    (fun k _ => xDrive_self dims k) (T / (K * M : ℕ)) (by positivity) (fun k i => lineValue (d k) T M K i)
    (fun k i => A k * Real.cos (ν k * (((i : ℝ) + 1 / 2) * (T / (K * M : ℕ))) - φ k)) hN ((K * M : ℕ) * playError T a 0 M)
    (fun k hk => by
      have := line_error (d k) (fun _ => 0) T a 0 hT M K hM hK (by
        intro t _
        rw [hampl k hk]
        exact ⟨hasDerivWithinAt_const _ _ _, hA k hk, by simp⟩)
      simp only [hampl k hk] at this
      exact this) batch hb
  have hPP' : P'' = P' := by
    have e : pwc (diagonal fun p => (energy dims f δ p : ℂ)) ((List.range dims.length).map fun k => xDrive (ann dims k))
        (T / (K * M : ℕ)) ((List.range (K * M)).map fun i : ℕ => (List.range dims.length).map fun k =>
          A k * Real.cos (ν k * (((i : ℝ) + 1 / 2) * (T / (K * M : ℕ))) - φ k)) batch (Fold.stackFor (K * M)) = some P' := by
      rw [← hP']
      simp only [List.map_map, List.length_map, List.length_range, Function.comp_def]
    rw [hP''] at e
    exact Option.some.inj e
  subst hPP'
  refine ⟨_, _, hpulse, physical_ok _ _ g ((List.range dims.length).map fun k => xDrive (ann dims k)) P _
    (hks_eq dims ν δ φ sub line target batch htar (fun k _ => A k) T (K * M) []) ?_ rfl
    (frame_instr dims ν δ sub line target batch htar T _ _ sh hsh _), fun p q hpq => ?_⟩
  · rw [h0_eq]
    show pwc _ _ (T / (K * M : ℕ)) ((List.range (K * M)).map _) batch (Fold.stackFor ((List.range (K * M)).map _).length) = _
    rw [List.length_map, List.length_range]
    exact hP
  · have h1 : ∀ p q, ‖Complex.exp ((energy dims ν δ p * T : ℝ) * Complex.I) * P p q -
        ∏ k ∈ Finset.range dims.length, tilt T (A k) (f k - ν k) (φ k) (lev dims k p) (lev dims k q)‖ ≤
          error dims T a κ C (fun k => f k - ν k) M K := by
      intro p q
      have h3 : ‖Complex.exp ((energy dims ν δ p * T : ℝ) * Complex.I) * (P'' p q - U T p q)‖ ≤ C / (K * M : ℕ) ^ 2 := by
        rw [norm_mul, Complex.norm_exp_ofReal_mul_I, one_mul]
        exact hPU p q
      have h4 : ‖Complex.exp ((energy dims ν δ p * T : ℝ) * Complex.I) * (P p q - P'' p q)‖ ≤
          T * (playError T a 0 M * drives dims) := by
        rw [norm_mul, Complex.norm_exp_ofReal_mul_I, one_mul]
        refine (hPP p q).trans (le_of_eq ?_)
        unfold drives
        field_simp
      refine le_trans (le_of_eq ?_) ((norm_add_le _ _).trans (add_le_add ((norm_add_le _ _).trans
        (add_le_add (hreg p q) h3)) h4))
      congr 1
      ring
    rw [diagonal_mul]
    by_cases hp : Computational dims p
    · have h2 := h1 p q
      have h3 : energy dims ν δ p = ∑ k ∈ Finset.range dims.length, ν k * lev dims k p := by
        unfold energy
        refine Finset.sum_congr rfl fun k hk => ?_
        have h4 := hp k (Finset.mem_range.1 hk)
        have h5 : lev dims k p = 0 ∨ lev dims k p = 1 := by omega
        rcases h5 with h5 | h5 <;> rw [h5] <;> simp
      rwa [h3] at h2
    · have hq := hpq.resolve_left hp
      have h2 := h1 p q
      unfold Computational at hp
      push Not at hp
      obtain ⟨k, hk, hpk⟩ := hp
      have hz : ∏ k ∈ Finset.range dims.length, tilt T (A k) (f k - ν k) (φ k) (lev dims k p) (lev dims k q) = 0 := by
        refine Finset.prod_eq_zero (Finset.mem_range.2 hk) ?_
        have hqk := hq k hk
        unfold tilt
        rw [if_neg (by omega), if_neg (by omega), if_neg (by omega), if_neg (by omega), if_neg (by omega), mul_zero]
      rw [hz, sub_zero, norm_mul, Complex.norm_exp_ofReal_mul_I] at h2 ⊢
      exact h2

/-! ## Populations -/

theorem norm_tilt (T A Δ φ : ℝ) (x : ℕ) : ‖tilt T A Δ φ x 0‖ ^ 2 = level T A Δ x := by
  have h2 : freq A Δ ^ 2 = A ^ 2 + Δ ^ 2 := Real.sq_sqrt (by positivity)
  have e : ∀ u : ℝ, ‖Complex.exp (-(u : ℂ) * Complex.I)‖ = 1 := fun u => by
    rw [← Complex.ofReal_neg, Complex.norm_exp_ofReal_mul_I]
  have e' : ‖Complex.exp (φ * Complex.I)‖ = 1 := Complex.norm_exp_ofReal_mul_I _
  have hr : (A / freq A Δ * Real.sin (freq A Δ * T / 2)) ^ 2 = rabi T A Δ := by
    rw [mul_pow, div_pow, h2]
    rfl
  match x with
  | 0 =>
    simp only [tilt, level, if_true, and_self]
    rw [if_neg (by omega)]
    rw [norm_mul, e, one_mul, mul_comm Complex.I, ← Complex.normSq_eq_norm_sq, Complex.normSq_add_mul_I, ← hr]
    have hs := Real.sin_sq_add_cos_sq (freq A Δ * T / 2)
    by_cases h0 : freq A Δ = 0
    · rw [h0] at hs ⊢
      simp
    · rw [mul_pow, mul_pow, div_pow, div_pow, h2]
      have h3 : A ^ 2 + Δ ^ 2 ≠ 0 := by
        rw [← h2]
        exact pow_ne_zero _ h0
      field_simp
      linear_combination (A ^ 2 + Δ ^ 2) * hs
  | 1 =>
    simp only [tilt, level, one_ne_zero, false_and, and_false, if_false, and_true, if_true, zero_ne_one]
    rw [norm_mul, e, one_mul, norm_mul, norm_mul, norm_neg, Complex.norm_I, e', one_mul, one_mul, Complex.norm_real,
      Real.norm_eq_abs, sq_abs, hr]
  | x + 2 => simp [tilt, level]

/-- The probabilities of the two lowest levels. -/
theorem C247_level (T A Δ : ℝ) : (∀ x, 0 ≤ level T A Δ x) ∧ level T A Δ 0 + level T A Δ 1 = 1 :=
  ⟨fun x => by rw [← norm_tilt T A Δ 0 x]; positivity, by simp [level]⟩

theorem level_le (T A Δ : ℝ) (x : ℕ) : level T A Δ x ≤ 1 := by
  have h := C247_level T A Δ
  match x with
  | 0 => linarith [h.1 1]
  | 1 => linarith [h.1 0]
  | x + 2 => simp [level]

theorem sq_close (u v : ℂ) (hu : ‖u‖ ≤ 1) (hv : ‖v‖ ≤ 1) (e : ℝ) (h : ‖u - v‖ ≤ e) : |‖u‖ ^ 2 - ‖v‖ ^ 2| ≤ 2 * e := by
  have h1 := (abs_norm_sub_norm_le u v).trans h
  have h2 : |‖u‖ + ‖v‖| ≤ 2 := by
    rw [abs_of_nonneg (by positivity)]
    linarith
  rw [show ‖u‖ ^ 2 - ‖v‖ ^ 2 = (‖u‖ + ‖v‖) * (‖u‖ - ‖v‖) by ring, abs_mul]
  exact mul_le_mul h2 h1 (abs_nonneg _) (by norm_num)

/-- **C247**: an experiment with one such instruction, started in the ground state: the populations reported are those of
the formula of Rabi, for each qubit with the amplitude of its line and its distance to the carrier. -/
theorem C247_populations (dims : List ℕ) (f : ℕ → ℝ) (d : ℕ → LineSet) (δ : ℕ → ℝ) (sub line : ℕ → String)
    (target : String → Option ℕ) (htar : ∀ k < dims.length, target (line k) = some k)
    (hlt : ∀ l q, target l = some q → q < dims.length) (T a κ : ℝ) (hT : 0 < T) (ha : 0 < a)
    (hκ : 0 < κ) (hsel : Selective dims (fun k => (d k).omega) δ κ) (hshape : ∀ k < dims.length, (d k).shape = fun _ => 1)
    (hA : ∀ k < dims.length, |height (d k)| ≤ a) (ground : Fin dims.prod) (hg : ∀ k < dims.length, lev dims k ground = 0) :
    ∃ C : ℝ, ∀ M K : ℕ, 2 ≤ M → 1 ≤ K → ∀ batch : ℕ, 1 ≤ batch → ∀ g : String, ∃ pulse,
      instrPulse dims.length line d T ((K * M : ℕ) / T) (M / T) = some pulse ∧
      ∀ s : Exp (Op dims), s.propMethod = none → s.optGates = none → ∃ table s',
        compute (closed (chipOf dims f δ sub line target batch) [(g, pulse)]) s = (.ok table, s') ∧
        ∃ pop, evaluateClosed s'.propagators [[g]] (Pi.single ground 1) = some [pop] ∧
          ∀ p, |pop p - ∏ k ∈ Finset.range dims.length, level T (height (d k)) (f k - (d k).omega) (lev dims k p)| ≤
            2 * error dims T a κ C (fun k => f k - (d k).omega) M K := by
  obtain ⟨C, hC⟩ := C247_gate dims f d δ sub line target htar T a κ hT ha hκ hsel hshape hA
  refine ⟨C, fun M K hM hK batch hb g => ?_⟩
  obtain ⟨pulse, V, hp, hV, hclose⟩ := hC M K hM hK batch hb g
  refine ⟨pulse, hp, fun s hm hs => ?_⟩
  set c := chipOf dims f δ sub line target batch with hc
  have hcw : c.WF := chipOf_wf dims f δ sub line target hlt batch hb
  set w := closed c [(g, pulse)] with hw
  have hkeys : w.keys = [g] := by simp [hw, closed]
  have hww : w.WF := by
    intro g'
    rw [hkeys]
    simp only [hw, closed]
    by_cases h : g' = g
    · simp [h]
    · simp [h, List.lookup_cons, beq_eq_false_iff_ne.2 h]
  obtain ⟨table, s', hcomp⟩ := (C68_succeeds_iff w hww s hm).2 (by
    rw [hs, Option.getD_none, hkeys]
    intro g' hg'
    rw [List.mem_singleton.1 hg']
    exact ⟨V, hV⟩)
  have hprop : s'.propagators g = some V := by
    have hg' : g ∈ s.optGates.getD w.keys := by rw [hs, Option.getD_none, hkeys]; simp
    obtain ⟨v, h4, h5⟩ := (C68_selected w hww s hm table s' hcomp g).1 hg'
    rw [hV] at h4
    cases h4
    rw [(C68_stored w s hm table s' hcomp g).1, if_pos hg', h5]
  have hVu := C199_unitary _ hcw _ g V hV
  refine ⟨table, s', hcomp, popsClosed (V *ᵥ Pi.single ground 1), by simp [evaluateClosed, runSeq, hprop], fun p => ?_⟩
  have h1 := hclose p ground (.inr fun k hk => by rw [hg k hk]; norm_num)
  have e1 : popsClosed (V *ᵥ Pi.single ground 1) p = ‖V p ground‖ ^ 2 := by simp [popsClosed]
  have e2 : ∏ k ∈ Finset.range dims.length, level T (height (d k)) (f k - (d k).omega) (lev dims k p) =
      ‖∏ k ∈ Finset.range dims.length,
          tilt T (height (d k)) (f k - (d k).omega) (d k).xy (lev dims k p) (lev dims k ground)‖ ^ 2 := by
    rw [norm_prod, ← Finset.prod_pow]
    refine Finset.prod_congr rfl fun k hk => ?_
    rw [hg k (Finset.mem_range.1 hk), norm_tilt]
  rw [e1, e2]
  refine sq_close _ _ ((entry_le V p ground).trans (norm_le_one_of_unitary hVu)) ?_ _ h1
  have h3 : ‖∏ k ∈ Finset.range dims.length,
      tilt T (height (d k)) (f k - (d k).omega) (d k).xy (lev dims k p) (lev dims k ground)‖ ^ 2 ≤ 1 := by
    rw [← e2]
    exact Finset.prod_le_one (fun k _ => (C247_level _ _ _).1 _) fun k _ => level_le _ _ _ _
  exact (sq_le_one_iff₀ (norm_nonneg _)).1 h3

/-- On resonance the turn is that of C209. -/
theorem C247_resonant (T A φ : ℝ) (hA : 0 < A) (x y : ℕ) (hx : x < 2 ∨ y < 2) : tilt T A 0 φ x y = rot (A * T) φ x y := by
  have e : freq A 0 = A := by
    rw [freq]
    simp [Real.sqrt_sq hA.le]
  match x, y with
  | 0, 0 => simp [tilt, rot, e]
  | 0, 1 => simp [tilt, rot, e, hA.ne']
  | 1, 0 => simp [tilt, rot, e, hA.ne']
  | 1, 1 => simp [tilt, rot, e]
  | 0, y + 2 => simp [tilt, rot]
  | 1, y + 2 => simp [tilt, rot]
  | x + 2, 0 => simp [tilt, rot]
  | x + 2, 1 => simp [tilt, rot]
  | x + 2, y + 2 => omega

/-- The largest excitation over all lengths of the pulse falls with the detuning: it is one on resonance only, one half at a
detuning as large as the amplitude, and the length where it is first reached gets shorter. -/
theorem C247_peak (A Δ : ℝ) (hA : 0 < A) :
    (∀ T, rabi T A Δ ≤ A ^ 2 / (A ^ 2 + Δ ^ 2)) ∧
      rabi (Real.pi / √(A ^ 2 + Δ ^ 2)) A Δ = A ^ 2 / (A ^ 2 + Δ ^ 2) ∧
      (A ^ 2 / (A ^ 2 + Δ ^ 2) = 1 ↔ Δ = 0) ∧ (A ^ 2 / (A ^ 2 + Δ ^ 2) = 1 / 2 ↔ |Δ| = A) ∧
      ∀ T, rabi (T + 2 * Real.pi / √(A ^ 2 + Δ ^ 2)) A Δ = rabi T A Δ := by
  have hp : 0 < A ^ 2 + Δ ^ 2 := by positivity
  have hr : 0 < √(A ^ 2 + Δ ^ 2) := Real.sqrt_pos.2 hp
  refine ⟨fun T => ?_, ?_, ?_, ?_, fun T => ?_⟩
  · exact mul_le_of_le_one_right (by positivity) (Real.sin_sq_le_one _)
  · rw [rabi, show √(A ^ 2 + Δ ^ 2) * (Real.pi / √(A ^ 2 + Δ ^ 2)) / 2 = Real.pi / 2 by field_simp, Real.sin_pi_div_two]
    ring
  · rw [div_eq_one_iff_eq hp.ne']
    constructor
    · intro h
      have : Δ ^ 2 = 0 := by linarith
      exact pow_eq_zero_iff two_ne_zero |>.1 this
    · rintro rfl
      ring
  · rw [div_eq_div_iff hp.ne' two_ne_zero]
    constructor
    · intro h
      have h1 : |Δ| ^ 2 = A ^ 2 := by rw [sq_abs]; linarith
      exact (pow_left_inj₀ (abs_nonneg _) hA.le two_ne_zero).1 h1
    · intro h
      have h1 : Δ ^ 2 = A ^ 2 := by rw [← sq_abs, h]
      rw [h1]
      ring
  · rw [rabi, rabi, show √(A ^ 2 + Δ ^ 2) * (T + 2 * Real.pi / √(A ^ 2 + Δ ^ 2)) / 2 =
      √(A ^ 2 + Δ ^ 2) * T / 2 + Real.pi by field_simp, Real.sin_add_pi, neg_sq]

/-- A transmon at 5.1 driven at 5 with amplitude one tenth. -/
example : ∃ C : ℝ, ∀ M K : ℕ, 2 ≤ M → 1 ≤ K → ∃ pulse,
    instrPulse 1 (fun _ => "d1") (fun _ => ⟨1 / 10, 0, fun _ => 1, 5, 1⟩) 1 ((K * M : ℕ) / 1) (M / 1) = some pulse ∧
    ∃ table s', compute (closed (chipOf [3] (fun _ => 5.1) (fun _ => -1) (fun _ => "Q1") (fun _ => "d1")
      (fun s => if s = "d1" then some 0 else none) 1) [("x", pulse)]) ⟨none, .name "pwc", none, none, true, fun _ => none⟩ =
        (.ok table, s') ∧
    ∃ pop, evaluateClosed s'.propagators [["x"]] (Pi.single ⟨0, by simp⟩ 1) = some [pop] ∧
      |pop ⟨1, by simp⟩ - 1 / 2 * Real.sin (√(2 / 100) / 2) ^ 2| ≤ 2 * error [3] 1 (1 / 10) 1 C (fun _ => 1 / 10) M K := by
  obtain ⟨C, hC⟩ := C247_populations [3] (fun _ => 5.1) (fun _ => ⟨1 / 10, 0, fun _ => 1, 5, 1⟩) (fun _ => -1)
    (fun _ => "Q1") (fun _ => "d1") (fun s => if s = "d1" then some 0 else none) (by simp) (by
      intro l q h
      split at h <;> simp_all) 1 (1 / 10) 1 one_pos (by norm_num) one_pos
    (by
      intro k hk
      obtain rfl : k = 0 := by simpa using hk
      refine ⟨by simp, by simp, fun l hl => ?_⟩
      have hl' : l = 0 ∨ l = 1 := by simp at hl; omega
      rcases hl' with rfl | rfl <;> norm_num)
    (fun _ _ => rfl) (fun _ _ => by norm_num [height]) ⟨0, by simp⟩ (by
      intro k hk
      obtain rfl : k = 0 := by simpa using hk
      rfl)
  refine ⟨C, fun M K hM hK => ?_⟩
  obtain ⟨pulse, h1, h2⟩ := hC M K hM hK 1 le_rfl "x"
  obtain ⟨table, s', h3, pop, h4, h5⟩ := h2 ⟨none, .name "pwc", none, none, true, fun _ => none⟩ rfl rfl
  refine ⟨pulse, h1, table, s', h3, pop, h4, ?_⟩
  have h6 := h5 ⟨1, by simp⟩
  have e : (5.1 : ℝ) - 5 = 1 / 10 := by norm_num
  have e2 : ∏ k ∈ Finset.range [3].length, level 1 (height ⟨1 / 10, 0, fun _ => 1, 5, 1⟩) (5.1 - 5)
      (lev [3] k ⟨1, by simp⟩) = 1 / 2 * Real.sin (√(2 / 100) / 2) ^ 2 := by
    rw [List.length_singleton, Finset.prod_range_one, show lev [3] 0 ⟨1, by simp⟩ = 1 from rfl, e]
    simp only [level, height, rabi]
    norm_num
  rw [e2] at h6
  simpa [e] using h6

end C3.Experiment.Chevron
