import Verif.Fidelity.Decay

/-!
# C240: gates per Clifford and the error per gate

`cliffors_per_gate` (c3/utils/qt_utils.py:586-589), the mean length of the decompositions, and what it says about the
sequences of `single_length_RB` (c3/utils/qt_utils.py:448-477) and the decay that `RB` fits
(c3/libraries/fidelities.py:515-590).
-/

set_option linter.unusedSectionVars false

namespace C3.Fidelity.Decay

open Matrix C3.Gates C3.Fidelity.Twirl C3.Fold
open scoped Matrix.Norms.L2Operator

/-! ## Model -/

/-- c3/utils/qt_utils.py:586-589: the lengths are added up one by one and divided by the number of decompositions. -/
noncomputable def cliffsPerGate : ℝ :=
  ((cliffordsDecomp.foldl (fun sum cd => sum + cd.length) 0 : ℕ) : ℝ) / (cliffordsDecomp.length : ℝ)

/-! ## Specification -/

/-- The average infidelity of a gate. -/
noncomputable def gateError (op : G4 → Op) (g : G4) : ℝ := 1 - axisFid (ad g.mat) (op g)

/-- The mean infidelity of the gates, weighted by how often they occur in the Cliffords: 21 times `rx90p`, 16 times `ry90p`,
9 times `rx90m` and 8 times `ry90m`. -/
noncomputable def meanGateError (op : G4 → Op) : ℝ :=
  (21 * gateError op .x90p + 16 * gateError op .y90p + 9 * gateError op .x90m + 8 * gateError op .y90m) / 54

/-! ## Counting -/

/-- The sum of a weight over a Clifford, averaged. -/
noncomputable def perClifford (w : G4 → ℝ) : ℝ := avg fun c : Cl => (c.word.map w).sum

theorem perClifford_eq (w : G4 → ℝ) : perClifford w = (21 * w .x90p + 16 * w .y90p + 9 * w .x90m + 8 * w .y90m) / 24 := by
  unfold perClifford avg
  rw [Cl.card, ← clEquiv.sum_comp]
  have : ∀ n : Fin 24, ((clEquiv n).word.map w).sum = ((cliffordsDecomp.getD n []).map w).sum := fun n => rfl
  simp only [this]
  simp [Fin.sum_univ_succ, cliffordsDecomp]
  ring

theorem sum_flatMap (w : G4 → ℝ) (l : List Cl) :
    ((l.flatMap Cl.word).map w).sum = (l.map fun c => (c.word.map w).sum).sum := by
  induction l with
  | nil => rfl
  | cons c l ih => rw [List.flatMap_cons, List.map_append, List.sum_append, ih, List.map_cons, List.sum_cons]

theorem sum_draws (W : Cl → ℝ) (k : ℕ) :
    ∑ d : Fin (k + 1) → Cl, ((List.ofFn d).map W).sum = (k + 1) * (24 ^ k * ∑ c, W c) := by
  have h1 : ∀ i : Fin (k + 1), ∑ d : Fin (k + 1) → Cl, W (d i) = 24 ^ k * ∑ c, W c := by
    intro i
    rw [← (Fin.insertNthEquiv (fun _ => Cl) i).sum_comp, Fintype.sum_prod_type]
    simp [Fin.insertNthEquiv, Finset.mul_sum, Cl.card]
  have h2 : ∀ d : Fin (k + 1) → Cl, ((List.ofFn d).map W).sum = ∑ i, W (d i) := by
    intro d
    rw [List.map_ofFn, List.sum_ofFn]
    rfl
  simp only [h2]
  rw [Finset.sum_comm]
  simp only [h1, Finset.sum_const, Finset.card_univ, Fintype.card_fin, nsmul_eq_mul]
  push_cast
  ring

/-- The inverse of a product of Cliffords, at least one of them drawn, is every Clifford equally often. -/
theorem sum_inverse (W : Cl → ℝ) (k : ℕ) :
    ∑ d : Fin (k + 1) → Cl, W (timeOrdered (List.ofFn d))⁻¹ = 24 ^ k * ∑ c, W c := by
  rw [← (Fin.snocEquiv fun _ : Fin (k + 1) => Cl).sum_comp, Fintype.sum_prod_type, Finset.sum_comm]
  have hl : ∀ c (d : Fin k → Cl), List.ofFn ((Fin.snocEquiv fun _ : Fin (k + 1) => Cl) (c, d)) = List.ofFn d ++ [c] := by
    intro c d
    rw [List.ofFn_succ', List.concat_eq_append]
    simp [Fin.snocEquiv]
  have h : ∀ d : Fin k → Cl, ∑ c, W (timeOrdered (List.ofFn ((Fin.snocEquiv fun _ : Fin (k + 1) => Cl) (c, d))))⁻¹ = ∑ c, W c := by
    intro d
    let e : Cl ≃ Cl := (Equiv.inv Cl).trans (Equiv.mulLeft (timeOrdered (List.ofFn d))⁻¹)
    refine (Finset.sum_congr rfl fun c _ => ?_).trans (e.sum_comp W)
    rw [hl, timeOrdered_concat, timeOrdered_one, _root_.mul_inv_rev]
    rfl
  refine (Finset.sum_congr rfl fun d _ => h d).trans ?_
  simp [Cl.card]

/-- The mean of a quantity that is added up over the gates. -/
theorem rbMean_additive (w : G4 → ℝ) (k : ℕ) :
    rbMean (fun gates => (gates.map w).sum) (k + 1) = (k + 2) * perClifford w := by
  rw [rbMean_eq]
  simp only [sum_flatMap, List.map_append, List.map_singleton, List.sum_append, List.sum_singleton, Finset.sum_add_distrib]
  rw [sum_draws, sum_inverse fun c => (c.word.map w).sum]
  unfold perClifford avg
  rw [Cl.card, smul_eq_mul, pow_succ]
  push_cast
  field_simp
  ring

/-! ## First order -/

/-- The gate as a Clifford. -/
def asCl : G4 → Cl
  | .x90p => ⟨10⟩
  | .y90p => ⟨21⟩
  | .x90m => ⟨4⟩
  | .y90m => ⟨9⟩

theorem asCl_rep (g : G4) : rep (asCl g) = ad g.mat := by
  rw [← cliffOp_ideal]
  unfold cliffOp
  have : (asCl g).word = [g] := by cases g <;> rfl
  rw [this, List.map_singleton, timeOrdered_one]

theorem rep_words (l : List G4) : rep (timeOrdered (l.map asCl)) = timeOrdered (l.map fun g => ad g.mat) := by
  induction l using List.reverseRecOn with
  | nil => exact map_one rep
  | append_singleton l g ih =>
    simp only [List.map_append, List.map_singleton, timeOrdered_concat, timeOrdered_one, map_mul, ih, asCl_rep]

theorem twirl_le {G A : Type*} [Group G] [Fintype G] [NormedRing A] [NormedAlgebra ℝ A] (a : G →* A)
    (ha : ∀ g, ‖a g‖ ≤ 1) (T : A) : ‖twirl a T‖ ≤ ‖T‖ := by
  unfold twirl
  refine avg_norm _ _ fun c => ?_
  calc ‖a c * T * a c⁻¹‖ ≤ ‖a c‖ * ‖T‖ * ‖a c⁻¹‖ :=
        (norm_mul_le _ _).trans (mul_le_mul_of_nonneg_right (norm_mul_le _ _) (norm_nonneg _))
    _ ≤ 1 * ‖T‖ * 1 := by
      gcongr
      · exact ha c
      · exact ha c⁻¹
    _ = ‖T‖ := by ring

theorem fid_le (T : Op) : |fid T| ≤ ‖T‖ := by
  have hI : ‖bloch 1 0 0 0‖ ≤ 1 := bloch_norm _ _ _ (by norm_num) (by norm_num)
  have hZ : ‖bloch 0 0 0 1‖ ≤ 1 := bloch_norm _ _ _ (by norm_num) (by norm_num)
  have hn := twirl_le rep rep_norm T
  obtain ⟨q, p, hf⟩ := commutes_form _ (twirl_commutes rep T)
  have hq : |q| ≤ ‖T‖ := by
    have e : q = pop (twirl rep T (bloch 1 0 0 0)) := by rw [hf, pop_bloch]; ring
    rw [e]
    exact (pop_le _).trans (op_le _ _ _ hn hI)
  have hp : |p| ≤ ‖T‖ := by
    have e : p = pop (twirl rep T (bloch 0 0 0 1)) := by rw [hf, pop_bloch]; ring
    rw [e]
    exact (pop_le _).trans (op_le _ _ _ hn hZ)
  rw [← fid_twirl, fid_form _ q p hf, abs_le]
  have := abs_le.1 hq
  have := abs_le.1 hp
  constructor <;> linarith

theorem linear_error {G A : Type*} [Group G] [NormedRing A] [NormOneClass A] [Algebra ℝ A] (a : G →* A) (φ : A →ₗ[ℝ] ℝ)
    (h1 : φ 1 = 1) (c : G) (S : A) : 1 - φ (S * a c⁻¹) = -φ ((S - a c) * a c⁻¹) := by
  rw [sub_mul, ← map_mul, mul_inv_cancel, map_one, map_sub, h1]
  ring

/-- The product of a word is the ideal one plus a part that is linear in the errors plus a rest. -/
theorem word_expand {G A : Type*} [Group G] [NormedRing A] [NormOneClass A] [Algebra ℝ A] (a : G →* A)
    (ha : ∀ g, ‖a g‖ ≤ 1) (φ : A →ₗ[ℝ] ℝ) (hφ : ∀ g S, φ (a g * S * a g⁻¹) = φ S) (cl : G4 → G) (op : G4 → A) (η : ℝ)
    (hη : 0 ≤ η) (hop : ∀ g, ‖op g - a (cl g)‖ ≤ η) (l : List G4) :
    ∃ D R : A, timeOrdered (l.map op) = a (timeOrdered (l.map cl)) + D + R ∧
      ‖R‖ ≤ (1 + η) ^ l.length - 1 - l.length * η ∧
      φ (D * a (timeOrdered (l.map cl))⁻¹) = (l.map fun g => φ ((op g - a (cl g)) * a (cl g)⁻¹)).sum := by
  have hid : ∀ l : List G4, a (timeOrdered (l.map cl)) = timeOrdered (l.map fun g => a (cl g)) := by
    intro l
    induction l using List.reverseRecOn with
    | nil => exact map_one a
    | append_singleton l g ih =>
      simp only [List.map_append, List.map_singleton, timeOrdered_concat, timeOrdered_one, map_mul, ih]
  induction l using List.reverseRecOn with
  | nil => exact ⟨0, 0, by simp [timeOrdered_nil], by simp, by simp⟩
  | append_singleton l g ih =>
    obtain ⟨D, R, h1, h2, h3⟩ := ih
    have hw := (close_words op (fun g => a (cl g)) η hη hop (fun g => ha _) l).1
    rw [← hid] at hw
    refine ⟨a (cl g) * D + (op g - a (cl g)) * a (timeOrdered (l.map cl)),
      a (cl g) * R + (op g - a (cl g)) * (timeOrdered (l.map op) - a (timeOrdered (l.map cl))), ?_, ?_, ?_⟩
    · simp only [List.map_append, List.map_singleton, timeOrdered_concat, timeOrdered_one, map_mul]
      generalize a (timeOrdered (l.map cl)) = x at *
      have : R = timeOrdered (l.map op) - x - D := by rw [h1]; abel
      rw [this]
      noncomm_ring
    · rw [List.length_append, List.length_singleton]
      calc _ ≤ ‖a (cl g)‖ * ‖R‖ + ‖op g - a (cl g)‖ * ‖timeOrdered (l.map op) - a (timeOrdered (l.map cl))‖ :=
            (norm_add_le _ _).trans (add_le_add (norm_mul_le _ _) (norm_mul_le _ _))
        _ ≤ 1 * ((1 + η) ^ l.length - 1 - l.length * η) + η * ((1 + η) ^ l.length - 1) := by
          gcongr
          · exact ha _
          · exact hop g
        _ = (1 + η) ^ (l.length + 1) - 1 - ((l.length + 1 : ℕ) : ℝ) * η := by push_cast; ring
    · simp only [List.map_append, List.map_singleton, timeOrdered_concat, timeOrdered_one, List.sum_append, List.sum_singleton,
        _root_.mul_inv_rev]
      rw [map_mul a (timeOrdered (l.map cl))⁻¹, add_mul, map_add]
      have e1 : a (cl g) * D * (a (timeOrdered (l.map cl))⁻¹ * a (cl g)⁻¹) =
          a (cl g) * (D * a (timeOrdered (l.map cl))⁻¹) * a (cl g)⁻¹ := by simp only [mul_assoc]
      have e2 : (op g - a (cl g)) * a (timeOrdered (l.map cl)) * (a (timeOrdered (l.map cl))⁻¹ * a (cl g)⁻¹) =
          (op g - a (cl g)) * a (cl g)⁻¹ := by
        rw [mul_assoc, ← mul_assoc (a (timeOrdered (l.map cl))), ← map_mul, mul_inv_cancel, map_one, one_mul]
      rw [e1, e2, hφ, h3]

theorem word_error {G A : Type*} [Group G] [NormedRing A] [NormOneClass A] [Algebra ℝ A] (a : G →* A)
    (ha : ∀ g, ‖a g‖ ≤ 1) (φ : A →ₗ[ℝ] ℝ) (hφ : ∀ g S, φ (a g * S * a g⁻¹) = φ S) (h1 : φ 1 = 1) (hn : ∀ S, |φ S| ≤ ‖S‖)
    (cl : G4 → G) (op : G4 → A) (η : ℝ)
    (hη : 0 ≤ η) (hop : ∀ g, ‖op g - a (cl g)‖ ≤ η) (l : List G4) :
    |1 - φ (timeOrdered (l.map op) * a (timeOrdered (l.map cl))⁻¹) - (l.map fun g => 1 - φ (op g * a (cl g)⁻¹)).sum| ≤
      (1 + η) ^ l.length - 1 - l.length * η := by
  obtain ⟨D, R, e1, e2, e3⟩ := word_expand a ha φ hφ cl op η hη hop l
  have e4 : (l.map fun g => 1 - φ (op g * a (cl g)⁻¹)).sum = -φ (D * a (timeOrdered (l.map cl))⁻¹) := by
    rw [e3]
    simp only [linear_error a φ h1]
    clear e1 e2 e3
    induction l with
    | nil => simp
    | cons g l ih => rw [List.map_cons, List.sum_cons, ih, List.map_cons, List.sum_cons, neg_add]
  have e5 : 1 - φ (timeOrdered (l.map op) * a (timeOrdered (l.map cl))⁻¹) -
      (l.map fun g => 1 - φ (op g * a (cl g)⁻¹)).sum = -φ (R * a (timeOrdered (l.map cl))⁻¹) := by
    rw [e4, e1, add_mul, add_mul, map_add, map_add, ← map_mul, mul_inv_cancel, map_one, h1]
    ring
  rw [e5, abs_neg]
  refine (hn _).trans ((norm_mul_le _ _).trans ?_)
  calc _ ≤ ((1 + η) ^ l.length - 1 - l.length * η) * 1 :=
        mul_le_mul e2 (ha _) (norm_nonneg _) ((norm_nonneg _).trans e2)
    _ = _ := mul_one _

theorem gateError_eq (op : G4 → Op) (g : G4) : gateError op g = 1 - fid (op g * rep (asCl g)⁻¹) := by
  unfold gateError
  rw [← asCl_rep, axisFid_rep]

/-! ## C240 -/

/-- **C240**: the mean length of the decompositions is 9/4. -/
theorem C240_value : cliffsPerGate = 9 / 4 := by
  have h : cliffordsDecomp.foldl (fun sum cd => sum + cd.length) 0 = 54 := rfl
  have h' : cliffordsDecomp.length = 24 := rfl
  unfold cliffsPerGate
  rw [h, h']
  norm_num

/-- **C240**: sequences of `single_length_RB` of length `n ≥ 2` have on average, over all outcomes of the draws, `n` times
that many gates: the inverse at the end is every Clifford equally often. -/
theorem C240_length (n : ℕ) (hn : 2 ≤ n) : rbMean (fun gates => (gates.length : ℝ)) (n - 1) = n * cliffsPerGate := by
  obtain ⟨k, rfl⟩ : ∃ k, n = k + 2 := ⟨n - 2, by omega⟩
  have h := rbMean_additive (fun _ => 1) k
  have e : (fun gates : List G4 => (gates.length : ℝ)) = fun gates => (gates.map fun _ => (1 : ℝ)).sum := by
    funext gates
    simp
  rw [e, show k + 2 - 1 = k + 1 by omega, h, perClifford_eq, C240_value]
  push_cast
  ring

/-- C240, the exception: the only sequence of length one is the decomposition of the identity, two gates. -/
theorem C240_single : rbMean (fun gates => (gates.length : ℝ)) 0 = 2 := by
  rw [rbMean_eq]
  simp [timeOrdered_nil]
  rfl

/-- **C240**: the infidelity of a Clifford is the sum of the infidelities of its gates, up to second order in the distance
of the operations from the ideal ones. -/
theorem C240_clifford (op : G4 → Op) (η : ℝ) (hη : η ≤ 1 / 250) (hop : ∀ g, ‖op g - ad g.mat‖ ≤ η) (c : Cl) :
    |1 - axisFid (rep c) (cliffOp op c) - (c.word.map (gateError op)).sum| ≤ 7 * η ^ 2 := by
  have hη0 : 0 ≤ η := (norm_nonneg (op .x90p - ad G4.x90p.mat)).trans (hop .x90p)
  have hrep : rep c = rep (timeOrdered (c.word.map asCl)) := by
    rw [rep_words, ← cliffOp_ideal]
    rfl
  have h := word_error rep rep_norm fid fid_conj fid_one fid_le asCl op η hη0 (fun g => by rw [asCl_rep]; exact hop g) c.word
  rw [hrep, axisFid_rep]
  have e : gateError op = fun g => 1 - fid (op g * rep (asCl g)⁻¹) := funext fun g => gateError_eq op g
  rw [e]
  refine h.trans ?_
  have hl := word_length c
  generalize c.word.length = n at hl
  have hb : 0 ≤ 1 / 250 - η := by linarith
  have a := mul_nonneg hη0 hη0
  have b := mul_nonneg a hb
  have d := mul_nonneg (mul_nonneg a hη0) hb
  interval_cases n <;> push_cast <;> nlinarith

/-- **C240**: the error per Clifford is the mean error of the gates times the number of gates per Clifford, up to second
order. -/
theorem C240_mean (op : G4 → Op) (η : ℝ) (hη : η ≤ 1 / 250) (hop : ∀ g, ‖op g - ad g.mat‖ ≤ η) :
    |meanError op - cliffsPerGate * meanGateError op| ≤ 7 * η ^ 2 := by
  have e : cliffsPerGate * meanGateError op = avg fun c : Cl => (c.word.map (gateError op)).sum := by
    change _ = perClifford (gateError op)
    rw [perClifford_eq, C240_value, meanGateError]
    ring
  have h : meanError op - cliffsPerGate * meanGateError op =
      avg fun c : Cl => 1 - axisFid (rep c) (cliffOp op c) - (c.word.map (gateError op)).sum := by
    rw [e]
    unfold meanError avg
    rw [← smul_sub, ← Finset.sum_sub_distrib]
  rw [h, ← Real.norm_eq_abs]
  refine avg_norm _ _ fun c => ?_
  rw [Real.norm_eq_abs]
  exact C240_clifford op η hη hop c

/-- **C240**: with the decay constant `p` of randomized benchmarking (C212), `(1 - p) / 2` divided by the mean number of
gates is the mean infidelity of the gates, up to second order, for all operations near the ideal ones. -/
theorem C240_decay (op : G4 → Op) (η : ℝ) (hη : η ≤ 1 / 250) (hop : ∀ g, ‖op g - ad g.mat‖ ≤ η)
    (htr : ∀ g X, tr (op g X) = tr X) :
    ∃ p A B, (∀ k, |rbMean (survival op) k - (A * p ^ (k + 1) + B)| ≤ (190 * η) ^ (k + 1)) ∧ |A - 1 / 2| ≤ 375 * η ∧
      |1 - p| ≤ 10 * η ∧ |0.5 * (1 - p) / cliffsPerGate - meanGateError op| ≤ 204 * η ^ 2 := by
  obtain ⟨p, A, B, h1, h2, -, h4, h5⟩ := C212_decay op η hη hop htr
  refine ⟨p, A, B, h5, h2, h1, ?_⟩
  have h := C240_mean op η hη hop
  rw [C240_value] at h ⊢
  rw [abs_le] at h h4 ⊢
  constructor <;> linarith [sq_nonneg η]

/-- C240 fails for the error per gate of the code, which takes the fourth root: with this decay constant it is 9/16 of the
mean infidelity of the gates, up to second order, so it is too small. -/
theorem C240_false_epg (op : G4 → Op) (η : ℝ) (hη : η ≤ 1 / 250) (hop : ∀ g, ‖op g - ad g.mat‖ ≤ η)
    (htr : ∀ g X, tr (op g X) = tr X) :
    ∃ p A B, (∀ k, |rbMean (survival op) k - (A * p ^ (k + 1) + B)| ≤ (190 * η) ^ (k + 1)) ∧ |A - 1 / 2| ≤ 375 * η ∧
      (p ≤ 1 → |epg p - 9 / 16 * meanGateError op| ≤ 165 * η ^ 2 ∧
        (378 * η ^ 2 < meanGateError op → epg p < meanGateError op)) := by
  have hη0 : 0 ≤ η := (norm_nonneg (op .x90p - ad G4.x90p.mat)).trans (hop .x90p)
  obtain ⟨p, A, B, h1, h2, h3, h4⟩ := C240_decay op η hη hop htr
  refine ⟨p, A, B, h1, h2, fun hp1 => ?_⟩
  have hp := (abs_le.1 h3).2
  obtain ⟨e0, e1, -, e2, -⟩ := C105_epg p (by linarith) hp1
  rw [C240_value] at h4
  set x := epg p
  have hx : 0.5 * (1 - p) = 4 * x - 6 * x ^ 2 + 4 * x ^ 3 - x ^ 4 := by
    have : (1 + p) / 2 = 1 - 0.5 * (1 - p) := by ring
    rw [this] at e2
    linarith [e2, show (1 - x) ^ 4 = 1 - (4 * x - 6 * x ^ 2 + 4 * x ^ 3 - x ^ 4) by ring]
  have hxe : x ≤ 5 * η := by
    have : x ≤ 4 * x - 6 * x ^ 2 + 4 * x ^ 3 - x ^ 4 := by nlinarith [mul_nonneg e0 e0, mul_nonneg e0 (by linarith : 0 ≤ 1 / 2 - x), mul_nonneg (mul_nonneg e0 e0) (by linarith : 0 ≤ 1 / 2 - x), mul_nonneg (mul_nonneg (mul_nonneg e0 e0) e0) (by linarith : 0 ≤ 1 / 2 - x)]
    linarith
  have hd : |x - 0.5 * (1 - p) / 4| ≤ 2 * x ^ 2 := by
    rw [hx, abs_le]
    have a := mul_nonneg e0 e0
    have b := mul_nonneg a (by linarith : 0 ≤ 1 / 2 - x)
    have d := mul_nonneg (mul_nonneg a e0) (by linarith : 0 ≤ 1 / 2 - x)
    constructor <;> nlinarith
  have hx2 : x ^ 2 ≤ 25 * η ^ 2 := by nlinarith
  have h6 : |x - 9 / 16 * meanGateError op| ≤ 165 * η ^ 2 := by
    rw [abs_le] at h4 hd ⊢
    constructor <;> linarith [sq_nonneg η]
  refine ⟨h6, fun hm => ?_⟩
  have := (abs_le.1 h6).2
  linarith [sq_nonneg η]

/-- Ideal gates have no error. -/
example : meanGateError (fun g => ad g.mat) = 0 := by
  have : ∀ g, gateError (fun g => ad g.mat) g = 0 := fun g => by
    rw [gateError_eq, ← asCl_rep, (rep_inv _).1, fid_one, sub_self]
  unfold meanGateError
  simp [this]

example : |0.5 * (1 - depolDecay 0.999) / cliffsPerGate - (1 - 0.999) / 2| ≤ 0.00001 := by
  rw [C240_value]
  norm_num [depolDecay, abs_le]

end C3.Fidelity.Decay
