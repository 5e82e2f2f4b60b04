import Verif.Experiment.EndToEnd
import Verif.Propagation.Average
import Verif.Gates.Parametric

/-!
# C209: a resonant pulse rotates the qubit by its area about the axis of its phase
-/

noncomputable section

namespace C3.Experiment.Resonant

open Matrix Set C3.Propagation C3.Propagation.Converge C3.Propagation.Average C3.Hilbert C3.Experiment
  C3.Experiment.Compute C3.Experiment.EndToEnd

/-! ## Operators on single subsystems -/

/-- The level of subsystem `k`. -/
abbrev lev (dims : List ℕ) (k : ℕ) (p : Fin dims.prod) : ℕ := levelAt dims k p

theorem lev_lt (dims : List ℕ) (k : ℕ) (hk : k < dims.length) (p : Fin dims.prod) : lev dims k p < dims.getD k 0 := by
  obtain ⟨p, hp⟩ := p
  obtain ⟨l, hl, rfl⟩ := exists_flat dims p hp
  rw [lev, levelAt_flat hl]
  exact valid_getD hl k hk

/-- States with the same levels are the same. -/
theorem lev_ext (dims : List ℕ) (p q : Fin dims.prod) (h : ∀ t < dims.length, lev dims t p = lev dims t q) : p = q := by
  obtain ⟨p, hp⟩ := p
  obtain ⟨q, hq⟩ := q
  obtain ⟨l, hl, rfl⟩ := exists_flat dims p hp
  obtain ⟨k, hk, rfl⟩ := exists_flat dims q hq
  have : l = k := by
    apply List.ext_getElem
    · rw [valid_length hl, valid_length hk]
    intro t h1 h2
    have := h t (by rwa [valid_length hl] at h1)
    rw [lev, lev, levelAt_flat hl, levelAt_flat hk, List.getD_eq_getElem _ _ h1, List.getD_eq_getElem _ _ h2] at this
    exact this
  subst this
  rfl

/-- The entries of an embedded operator. -/
theorem emb_lev (op : Arr ℂ) (i : ℕ) (dims : List ℕ) (h : Fits op i dims) (p q : Fin dims.prod) :
    emb op i dims p q = if ∀ t < dims.length, t ≠ i → lev dims t p = lev dims t q then
      op.e (lev dims i p) (lev dims i q) else 0 := by
  obtain ⟨p, hp⟩ := p
  obtain ⟨q, hq⟩ := q
  obtain ⟨l, hl, rfl⟩ := exists_flat dims p hp
  obtain ⟨k, hk, rfl⟩ := exists_flat dims q hq
  rw [emb_apply op i dims h l k hl hk]
  simp only [lev, levelAt_flat hl, levelAt_flat hk]
  rfl

/-- A product operator by its factors. -/
def tens (dims : List ℕ) (f : ℕ → ℕ → ℕ → ℂ) : Op dims := Matrix.of fun p q =>
  ∏ t ∈ Finset.range dims.length, f t (lev dims t p) (lev dims t q)

theorem tens_mul (dims : List ℕ) (f g : ℕ → ℕ → ℕ → ℂ) :
    tens dims f * tens dims g = tens dims fun t x y => ∑ z ∈ Finset.range (dims.getD t 0), f t x z * g t z y := by
  ext p q
  rw [mul_apply]
  simp only [tens, of_apply]
  have := sum_flat dims (fun t x => f t (lev dims t p) x * g t x (lev dims t q))
    (fun k => if h : k < dims.prod then (∏ t ∈ Finset.range dims.length, f t (lev dims t p) (lev dims t ⟨k, h⟩)) *
      ∏ t ∈ Finset.range dims.length, g t (lev dims t ⟨k, h⟩) (lev dims t q) else 0) 1
    (by
      intro l hl
      rw [one_mul, dif_pos (flat_lt hl), ← Finset.prod_mul_distrib]
      refine Finset.prod_congr rfl fun t _ => ?_
      simp only [lev, levelAt_flat hl])
  rw [one_mul] at this
  rw [← this, Finset.sum_range]
  refine Finset.sum_congr rfl fun k _ => ?_
  rw [dif_pos k.2]

theorem emb_tens (op : Arr ℂ) (i : ℕ) (dims : List ℕ) (h : Fits op i dims) :
    emb op i dims = tens dims fun t x y => if t = i then op.e x y else if x = y then 1 else 0 := by
  ext p q
  rw [emb_lev op i dims h]
  simp only [tens, of_apply]
  split
  · next hag =>
    rw [Finset.prod_eq_single i]
    · rw [if_pos rfl]
    · intro t ht hti
      rw [Finset.mem_range] at ht
      rw [if_neg hti, if_pos (hag t ht hti)]
    · intro hi
      rw [Finset.mem_range] at hi
      exact absurd h.1 hi
  · next hag =>
    push Not at hag
    obtain ⟨t, ht, hti, hne⟩ := hag
    rw [Finset.prod_eq_zero (Finset.mem_range.2 ht)]
    rw [if_neg hti, if_neg hne]

theorem tens_congr (dims : List ℕ) (f g : ℕ → ℕ → ℕ → ℂ)
    (h : ∀ t < dims.length, ∀ x < dims.getD t 0, ∀ y < dims.getD t 0, f t x y = g t x y) : tens dims f = tens dims g := by
  ext p q
  simp only [tens, of_apply]
  refine Finset.prod_congr rfl fun t ht => ?_
  rw [Finset.mem_range] at ht
  exact h t ht _ (lev_lt dims t ht p) _ (lev_lt dims t ht q)

/-- The product of operators on different subsystems. -/
theorem prod_emb (dims : List ℕ) (f : ℕ → ℕ → ℕ → ℂ) (l : List (Fin dims.length)) (hl : l.Nodup) :
    (l.map fun k : Fin dims.length => emb ⟨dims.getD k 0, dims.getD k 0, f k⟩ k dims).prod =
      tens dims fun t x y => if ∃ k ∈ l, (k : ℕ) = t then f t x y else if x = y then 1 else 0 := by
  induction l with
  | nil =>
    ext p q
    simp only [List.map_nil, List.prod_nil, tens, of_apply, List.not_mem_nil, false_and, exists_false, if_false]
    rw [Matrix.one_apply]
    split
    · next h =>
      subst h
      simp
    · next h =>
      by_contra hne
      apply h
      refine lev_ext dims p q fun t ht => ?_
      by_contra hh
      apply hne
      rw [Finset.prod_eq_zero (Finset.mem_range.2 ht)]
      rw [if_neg hh]
  | cons k l ih =>
    obtain ⟨hk, hl'⟩ := List.nodup_cons.1 hl
    rw [List.map_cons, List.prod_cons, ih hl', emb_tens _ _ _ ⟨k.2, rfl, rfl⟩, tens_mul]
    refine tens_congr dims _ _ fun t ht x hx y hy => ?_
    by_cases htk : t = k
    · subst htk
      have h1 : ¬ ∃ j ∈ l, (j : ℕ) = (k : ℕ) := by
        rintro ⟨j, hj, he⟩
        exact hk ((Fin.ext he : j = k) ▸ hj)
      have h2 : ∃ j ∈ k :: l, (j : ℕ) = (k : ℕ) := ⟨k, List.mem_cons_self, rfl⟩
      simp only [if_true, if_neg h1, if_pos h2]
      rw [Finset.sum_eq_single y]
      · simp
      · intro z _ hz
        rw [if_neg hz, mul_zero]
      · intro h
        exact absurd (Finset.mem_range.2 hy) h
    · have h1 : (∃ j ∈ k :: l, (j : ℕ) = t) ↔ ∃ j ∈ l, (j : ℕ) = t := by
        simp [Ne.symm htk]
      simp only [if_neg htk, h1]
      rw [Finset.sum_eq_single x]
      · rw [if_pos rfl, one_mul]
      · intro z _ hz
        rw [if_neg (Ne.symm hz), zero_mul]
      · intro h
        exact absurd (Finset.mem_range.2 hx) h

/-! ## Specification -/

/-- Rotation of the two lowest levels by `θ` about the axis at angle `φ` in the xy-plane; higher levels stay. -/
def rot (θ φ : ℝ) (x y : ℕ) : ℂ :=
  if x = 0 ∧ y = 0 ∨ x = 1 ∧ y = 1 then (Real.cos (θ / 2) : ℂ)
  else if x = 0 ∧ y = 1 then -Complex.I * Complex.exp (-φ * Complex.I) * (Real.sin (θ / 2) : ℂ)
  else if x = 1 ∧ y = 0 then -Complex.I * Complex.exp (φ * Complex.I) * (Real.sin (θ / 2) : ℂ)
  else if x = y then 1 else 0

/-- Energy of a state of uncoupled anharmonic oscillators. -/
def energy (dims : List ℕ) (ω δ : ℕ → ℝ) (p : Fin dims.prod) : ℝ :=
  ∑ k ∈ Finset.range dims.length, (ω k * lev dims k p + δ k * (lev dims k p * (lev dims k p - 1) / 2))

/-- No transition is closer than `κ` to the carrier, except for the one between the two lowest levels: the anharmonicity
is at least `κ`, and so is the sum of carrier and transition frequency. -/
def Selective (dims : List ℕ) (ω δ : ℕ → ℝ) (κ : ℝ) : Prop :=
  ∀ k < dims.length, 2 ≤ dims.getD k 0 ∧ (2 < dims.getD k 0 → κ ≤ |δ k|) ∧
    ∀ l : ℕ, l + 1 < dims.getD k 0 → κ ≤ |2 * ω k + δ k * l|

/-! ## The resonant part of the drives -/

/-- The operator between the two lowest levels. -/
def flip (φ : ℝ) (x y : ℕ) : ℂ :=
  if x = 0 ∧ y = 1 then Complex.exp (-φ * Complex.I) else if x = 1 ∧ y = 0 then Complex.exp (φ * Complex.I) else 0

def flipA (dims : List ℕ) (k : ℕ) (φ : ℝ) : Arr ℂ := ⟨dims.getD k 0, dims.getD k 0, flip φ⟩

theorem fits_flip (dims : List ℕ) (k : ℕ) (hk : k < dims.length) (φ : ℝ) : Fits (flipA dims k φ) k dims := ⟨hk, rfl, rfl⟩

theorem xDrive_lev (dims : List ℕ) (k : ℕ) (hk : k < dims.length) (p q : Fin dims.prod) :
    xDrive (ann dims k) p q = if ∀ t < dims.length, t ≠ k → lev dims t p = lev dims t q then
      (if lev dims k q = lev dims k p + 1 then ((Real.sqrt (lev dims k q : ℕ) : ℝ) : ℂ)
      else if lev dims k p = lev dims k q + 1 then ((Real.sqrt (lev dims k p : ℕ) : ℝ) : ℂ) else 0) else 0 := by
  have h1 : ∀ p q, ann dims k p q = if ∀ t < dims.length, t ≠ k → lev dims t p = lev dims t q then
      (if lev dims k q = lev dims k p + 1 then ((Real.sqrt (lev dims k q : ℕ) : ℝ) : ℂ) else 0) else 0 :=
    fun p q => emb_lev _ k dims (fits_annih dims k hk) p q
  unfold xDrive
  rw [Matrix.add_apply, conjTranspose_apply, h1, h1]
  have hsym : (∀ t < dims.length, t ≠ k → lev dims t q = lev dims t p) ↔
      ∀ t < dims.length, t ≠ k → lev dims t p = lev dims t q :=
    ⟨fun h t ht hk => (h t ht hk).symm, fun h t ht hk => (h t ht hk).symm⟩
  simp only [hsym]
  split
  · by_cases h : lev dims k q = lev dims k p + 1
    · rw [if_pos h, if_neg (by omega), if_pos h, star_zero, zero_add]
    · rw [if_neg h, if_neg h]
      split <;> simp
  · simp

theorem energy_diff (dims : List ℕ) (ω δ : ℕ → ℝ) (k : ℕ) (hk : k < dims.length) (p q : Fin dims.prod)
    (h : ∀ t < dims.length, t ≠ k → lev dims t p = lev dims t q) :
    energy dims ω δ p - energy dims ω δ q =
      (ω k * lev dims k p + δ k * (lev dims k p * (lev dims k p - 1) / 2)) -
        (ω k * lev dims k q + δ k * (lev dims k q * (lev dims k q - 1) / 2)) := by
  unfold energy
  rw [← Finset.sum_sub_distrib, Finset.sum_eq_single k]
  · intro t ht htk
    rw [Finset.mem_range] at ht
    rw [h t ht htk, sub_self]
  · intro hh
    exact absurd (Finset.mem_range.2 hk) hh

/-- Upwards by one level. -/
theorem energy_up (dims : List ℕ) (ω δ : ℕ → ℝ) (k : ℕ) (hk : k < dims.length) (p q : Fin dims.prod)
    (h : ∀ t < dims.length, t ≠ k → lev dims t p = lev dims t q) (hl : lev dims k q = lev dims k p + 1) :
    energy dims ω δ p - energy dims ω δ q = -(ω k + δ k * lev dims k p) := by
  rw [energy_diff dims ω δ k hk p q h, hl]
  push_cast
  ring

theorem selective_detuned (dims : List ℕ) (ω δ : ℕ → ℝ) (κ : ℝ) (h : Selective dims ω δ κ) (k : ℕ) (hk : k < dims.length) :
    Detuned (energy dims ω δ) (ω k) (xDrive (ann dims k)) κ := by
  obtain ⟨h2, h3, h4⟩ := h k hk
  have key : ∀ p q : Fin dims.prod, (∀ t < dims.length, t ≠ k → lev dims t p = lev dims t q) →
      lev dims k q = lev dims k p + 1 →
      (energy dims ω δ p - energy dims ω δ q = -ω k ∨ κ ≤ |energy dims ω δ p - energy dims ω δ q + ω k|) ∧
        κ ≤ |energy dims ω δ p - energy dims ω δ q - ω k| := by
    intro p q hag hl
    have hq := lev_lt dims k hk q
    rw [energy_up dims ω δ k hk p q hag hl]
    constructor
    · rcases Nat.eq_zero_or_pos (lev dims k p) with h0 | h0
      · left
        rw [h0]
        simp
      · right
        have h5 : (1 : ℝ) ≤ lev dims k p := by exact_mod_cast h0
        have h6 := h3 (by omega)
        rw [show -(ω k + δ k * lev dims k p) + ω k = -(δ k * lev dims k p) by ring, abs_neg, abs_mul,
          abs_of_nonneg (by linarith : (0 : ℝ) ≤ lev dims k p)]
        nlinarith [abs_nonneg (δ k)]
    · rw [show -(ω k + δ k * lev dims k p) - ω k = -(2 * ω k + δ k * lev dims k p) by ring, abs_neg]
      exact h4 _ (by omega)
  intro p q hx
  rw [xDrive_lev dims k hk] at hx
  split at hx
  · next hag =>
    split at hx
    · next hl =>
      obtain ⟨g1, g2⟩ := key p q hag hl
      exact ⟨Or.inr g2, g1⟩
    · split at hx
      · next hl =>
        obtain ⟨g1, g2⟩ := key q p (fun t ht htk => (hag t ht htk).symm) hl
        have e1 : |energy dims ω δ p - energy dims ω δ q - ω k| = |energy dims ω δ q - energy dims ω δ p + ω k| := by
          rw [← abs_neg]
          congr 1
          ring
        have e2 : |energy dims ω δ p - energy dims ω δ q + ω k| = |energy dims ω δ q - energy dims ω δ p - ω k| := by
          rw [← abs_neg]
          congr 1
          ring
        rw [e1, e2]
        refine ⟨g1.imp (fun h => by linarith) id, Or.inr g2⟩
      · exact absurd rfl hx
  · exact absurd rfl hx

theorem resonant_flip (dims : List ℕ) (ω δ : ℕ → ℝ) (κ : ℝ) (hκ : 0 < κ) (h : Selective dims ω δ κ) (k : ℕ)
    (hk : k < dims.length) (φ : ℝ) :
    resonant (energy dims ω δ) (ω k) φ (xDrive (ann dims k)) = (1 / 2 : ℂ) • emb (flipA dims k φ) k dims := by
  obtain ⟨h2, h3, h4⟩ := h k hk
  ext p q
  rw [Matrix.smul_apply, emb_lev _ k dims (fits_flip dims k hk φ)]
  simp only [resonant, of_apply, smul_eq_mul]
  rw [xDrive_lev dims k hk]
  by_cases hag : ∀ t < dims.length, t ≠ k → lev dims t p = lev dims t q
  swap
  · rw [if_neg hag, if_neg hag]
    simp
  rw [if_pos hag, if_pos hag]
  have hnz : ∀ l : ℕ, l + 1 < dims.getD k 0 → 2 * ω k + δ k * l ≠ 0 := by
    intro l hl h0
    have := h4 l hl
    rw [h0, abs_zero] at this
    linarith
  have hd : ∀ l : ℕ, 0 < l → l + 1 < dims.getD k 0 → δ k * l ≠ 0 := by
    intro l hl hl2 h0
    have := h3 (by omega)
    rcases mul_eq_zero.1 h0 with h0 | h0
    · rw [h0, abs_zero] at this
      linarith
    · have : (l : ℝ) ≠ 0 := by exact_mod_cast hl.ne'
      exact this h0
  show _ = 1 / 2 * flip φ (lev dims k p) (lev dims k q)
  by_cases hu : lev dims k q = lev dims k p + 1
  · have hq := lev_lt dims k hk q
    rw [if_pos hu, energy_up dims ω δ k hk p q hag hu]
    have n1 : ¬ -(ω k + δ k * lev dims k p) = ω k := by
      intro hh
      exact hnz (lev dims k p) (by omega) (by linarith)
    rw [if_neg n1, zero_add]
    rcases Nat.eq_zero_or_pos (lev dims k p) with h0 | h0
    · rw [hu, h0]
      simp [flip]
    · have n2 : ¬ -(ω k + δ k * lev dims k p) = -ω k := by
        intro hh
        exact hd _ h0 (by omega) (by linarith)
      rw [if_neg n2, mul_zero]
      unfold flip
      rw [if_neg (by omega), if_neg (by omega), mul_zero]
  · rw [if_neg hu]
    by_cases hv : lev dims k p = lev dims k q + 1
    · have hp := lev_lt dims k hk p
      have e := energy_up dims ω δ k hk q p (fun t ht htk => (hag t ht htk).symm) hv
      have e' : energy dims ω δ p - energy dims ω δ q = ω k + δ k * lev dims k q := by linarith
      rw [if_pos hv, e']
      have n1 : ¬ ω k + δ k * lev dims k q = -ω k := by
        intro hh
        exact hnz (lev dims k q) (by omega) (by linarith)
      rw [if_neg n1, add_zero]
      rcases Nat.eq_zero_or_pos (lev dims k q) with h0 | h0
      · rw [hv, h0]
        simp [flip]
      · have n2 : ¬ ω k + δ k * lev dims k q = ω k := by
          intro hh
          exact hd _ h0 (by omega) (by linarith)
        rw [if_neg n2, mul_zero]
        unfold flip
        rw [if_neg (by omega), if_neg (by omega), mul_zero]
    · rw [if_neg hv]
      have e : flip φ (lev dims k p) (lev dims k q) = 0 := by
        unfold flip
        rw [if_neg (fun h => hu (by omega)), if_neg (fun h => hv (by omega))]
      rw [e, mul_zero, zero_div, zero_mul]

/-- The projector on the two lowest levels. -/
def lowA (dims : List ℕ) (k : ℕ) : Arr ℂ := ⟨dims.getD k 0, dims.getD k 0, fun x y => if x = y ∧ x < 2 then 1 else 0⟩

theorem flip_mul (φ : ℝ) (d x y : ℕ) (hd : 2 ≤ d) :
    ∑ z ∈ Finset.range d, flip φ x z * flip φ z y = if x = y ∧ x < 2 then 1 else 0 := by
  have e1 : Complex.exp (-φ * Complex.I) * Complex.exp (φ * Complex.I) = 1 := by
    rw [← Complex.exp_add]
    simp
  have e2 : Complex.exp (φ * Complex.I) * Complex.exp (-φ * Complex.I) = 1 := by
    rw [mul_comm, e1]
  have hz : ∀ z, 2 ≤ z → flip φ x z * flip φ z y = 0 := by
    intro z hz
    unfold flip
    rw [if_neg (by omega : ¬ (x = 0 ∧ z = 1)), if_neg (by omega : ¬ (x = 1 ∧ z = 0)), zero_mul]
  obtain ⟨d, rfl⟩ := Nat.exists_eq_add_of_le hd
  rw [Finset.sum_range_add, Finset.sum_eq_zero (s := Finset.range d) fun z _ => hz (2 + z) (by omega), add_zero,
    Finset.sum_range_succ, Finset.sum_range_one]
  match x, y with
  | 0, 0 => simpa [flip] using e1
  | 0, 1 => simp [flip]
  | 1, 0 => simp [flip]
  | 1, 1 => simpa [flip] using e2
  | 0, y + 2 => simp [flip]
  | 1, y + 2 => simp [flip]
  | x + 2, y => simp [flip]

theorem emb_congr (op op' : Arr ℂ) (i : ℕ) (dims : List ℕ) (h : Fits op i dims) (h' : Fits op' i dims)
    (he : ∀ x < dims.getD i 0, ∀ y < dims.getD i 0, op.e x y = op'.e x y) : emb op i dims = emb op' i dims := by
  ext p q
  rw [emb_lev op i dims h, emb_lev op' i dims h', he _ (lev_lt dims i h.1 p) _ (lev_lt dims i h.1 q)]

/-- The exponential of the resonant part is a rotation. -/
theorem exp_flip (dims : List ℕ) (k : ℕ) (hk : k < dims.length) (hd : 2 ≤ dims.getD k 0) (θ φ : ℝ) :
    NormedSpace.exp ((-Complex.I * (θ : ℂ)) • ((1 / 2 : ℂ) • emb (flipA dims k φ) k dims)) =
      emb ⟨dims.getD k 0, dims.getD k 0, rot θ φ⟩ k dims := by
  have hf := fits_flip dims k hk φ
  have hp : Fits (lowA dims k) k dims := ⟨hk, rfl, rfl⟩
  have h1 : emb (flipA dims k φ) k dims * emb (flipA dims k φ) k dims = emb (lowA dims k) k dims := by
    rw [C32_mul _ _ k dims hf hf]
    refine emb_congr _ _ k dims ⟨hk, rfl, rfl⟩ hp fun x _ y _ => ?_
    exact flip_mul φ _ x y hd
  have h2 : emb (lowA dims k) k dims * emb (flipA dims k φ) k dims = emb (flipA dims k φ) k dims := by
    rw [C32_mul _ _ k dims hp hf]
    refine emb_congr _ _ k dims ⟨hk, rfl, rfl⟩ hf fun x hx y _ => ?_
    show ∑ z ∈ Finset.range (dims.getD k 0), (if x = z ∧ x < 2 then (1 : ℂ) else 0) * flip φ z y = flip φ x y
    rw [Finset.sum_eq_single x]
    · by_cases h : x < 2
      · simp [h]
      · unfold flip
        rw [if_neg (by omega : ¬ (x = 0 ∧ y = 1)), if_neg (by omega : ¬ (x = 1 ∧ y = 0)), mul_zero]
    · intro z _ hz
      rw [if_neg (fun h => hz h.1.symm), zero_mul]
    · intro h
      exact absurd (Finset.mem_range.2 hx) h
  have h3 := Gates.exp_reflection _ _ h1 h2 θ
  rw [smul_smul, show -Complex.I * (θ : ℂ) * (1 / 2) = -Complex.I / 2 * (θ : ℂ) by ring, h3]
  ext p q
  rw [emb_lev _ k dims ⟨hk, rfl, rfl⟩]
  rw [Matrix.sub_apply, Matrix.add_apply, Matrix.sub_apply, Matrix.smul_apply, Matrix.smul_apply, emb_lev _ k dims hp,
    emb_lev _ k dims hf, Matrix.one_apply]
  by_cases hag : ∀ t < dims.length, t ≠ k → lev dims t p = lev dims t q
  · simp only [if_pos hag]
    have hpq : p = q ↔ lev dims k p = lev dims k q := by
      constructor
      · intro h
        rw [h]
      · intro h
        refine lev_ext dims p q fun t ht => ?_
        by_cases htk : t = k
        · rw [htk, h]
        · exact hag t ht htk
    simp only [hpq, lowA, flipA]
    generalize lev dims k p = x
    generalize lev dims k q = y
    match x, y with
    | 0, 0 => simp [flip, rot]
    | 0, 1 =>
      simp [flip, rot]
      ring
    | 1, 0 =>
      simp [flip, rot]
      ring
    | 1, 1 => simp [flip, rot]
    | 0, y + 2 => simp [flip, rot]
    | 1, y + 2 => simp [flip, rot]
    | x + 2, y => simp [flip, rot]
  · simp only [if_neg hag]
    have hpq : p ≠ q := by
      rintro rfl
      exact hag fun _ _ _ => rfl
    simp [hpq]

/-! ## Model of the chip and the pulses -/

/-- A chip of uncoupled qubits with dimensions `dims`, frequencies `ω` and anharmonicities `δ`, each with a drive line for
its quadrature. -/
def chipOf (dims : List ℕ) (ω δ : ℕ → ℝ) (sub line : ℕ → String) (target : String → Option ℕ) (batch : ℕ) : Chip dims :=
  ⟨⟨(List.range dims.length).map fun k => (sub k, .qubit (dims.getD k 0) (ω k) (δ k)),
    (List.range dims.length).map fun k => (line k, .drive .x [k])⟩, none, [], target, true, batch⟩

/-- Pulses on all lines with carriers at the frequencies of the qubits, sampled at the times `ts`. -/
def pulseOf (dims : List ℕ) (ω φ : ℕ → ℝ) (line : ℕ → String) (A : ℕ → ℝ → ℝ) (T : ℝ) (N : ℕ) (ts : List ℝ) : Pulse :=
  ⟨(List.range dims.length).map line,
    ts.map fun t => (List.range dims.length).map fun k => A k t * Real.cos (ω k * t - φ k), T / N,
    (List.range dims.length).map fun k => (line k, ω k), fun _ => some 0, T⟩

theorem sum_range_list {M : Type} [AddCommMonoid M] (g : ℕ → M) (L : ℕ) :
    ((List.range L).map g).sum = ∑ k ∈ Finset.range L, g k := by
  induction L with
  | zero => simp
  | succ L ih => rw [List.range_succ, List.map_append, List.sum_append, ih, Finset.sum_range_succ]; simp

theorem zipIdx_range {α : Type} (g : ℕ → α) (L : ℕ) :
    ((List.range L).map g).zipIdx = (List.range L).map fun k => (g k, k) := by
  apply List.ext_getElem
  · simp
  · intro i h1 h2
    simp

theorem h0_eq (dims : List ℕ) (ω δ : ℕ → ℝ) (sub line : ℕ → String) (target : String → Option ℕ) (batch : ℕ) :
    (chipOf dims ω δ sub line target batch).h0 = diagonal fun p => (energy dims ω δ p : ℂ) := by
  show (Sys.drift _ (ann dims)) = _
  unfold Sys.drift Sys.hams chipOf
  have hl : List.filterMap (fun l : String × Line => (l.2.drift (ann dims)).map fun h => (l.1, dress none h))
      ((List.range dims.length).map fun k => (line k, Line.drive .x [k])) = [] := by
    rw [List.filterMap_eq_nil_iff]
    intro x hx
    obtain ⟨k, _, rfl⟩ := List.mem_map.1 hx
    rfl
  simp only
  rw [hl, List.append_nil, zipIdx_range, List.map_map, List.map_map, sum_range_list]
  ext p q
  rw [Matrix.sum_apply, diagonal_apply]
  have hk : ∀ k ∈ Finset.range dims.length, (Prod.snd ∘ (fun p : (String × Sub) × ℕ =>
      (p.1.1, dress none (p.1.2.ham none (ann dims p.2)))) ∘ fun k => ((sub k, Sub.qubit (dims.getD k 0) (ω k) (δ k)), k))
      k p q = if p = q then ((ω k * lev dims k p + δ k * (lev dims k p * (lev dims k p - 1) / 2) : ℝ) : ℂ) else 0 := by
    intro k hk
    rw [Finset.mem_range] at hk
    show (Sub.ham none (ann dims k) (Sub.qubit (dims.getD k 0) (ω k) (δ k))) p q = _
    simp only [Sub.ham, dress]
    rw [C33_resonator dims k hk, C33_duffing dims k hk]
    by_cases hd : dims.getD k 0 > 2
    · rw [if_pos hd, Matrix.add_apply, Matrix.smul_apply, Matrix.smul_apply, diagonal_apply, diagonal_apply]
      split
      · push_cast
        rfl
      · simp
    · rw [if_neg hd, Matrix.smul_apply, diagonal_apply]
      split
      · have h2 := lev_lt dims k hk p
        have h3 : lev dims k p = 0 ∨ lev dims k p = 1 := by omega
        rcases h3 with h3 | h3
        · show (ω k : ℂ) * (lev dims k p : ℂ) = _
          rw [h3]
          simp
        · show (ω k : ℂ) * (lev dims k p : ℂ) = _
          rw [h3]
          simp
      · simp
  refine (Finset.sum_congr rfl hk).trans ?_
  split
  · rw [energy]
    push_cast
    rfl
  · simp

theorem hks_eq (dims : List ℕ) (ω δ φ : ℕ → ℝ) (sub line : ℕ → String) (target : String → Option ℕ) (batch : ℕ)
    (htar : ∀ k < dims.length, target (line k) = some k) (A : ℕ → ℝ → ℝ) (T : ℝ) (N : ℕ) (ts : List ℝ) :
    (chipOf dims ω δ sub line target batch).hks (pulseOf dims ω φ line A T N ts) =
      some ((List.range dims.length).map fun k => xDrive (ann dims k)) := by
  have hinj : ∀ j < dims.length, ∀ k < dims.length, line j = line k → j = k := by
    intro j hj k hk h
    have h1 := htar j hj
    rw [h, htar k hk] at h1
    exact (Option.some.inj h1).symm
  have hc : (chipOf dims ω δ sub line target batch).sys.controls (ann dims) =
      (List.range dims.length).map fun k => (line k, xDrive (ann dims k)) := by
    unfold Sys.controls chipOf
    simp only
    rw [List.filterMap_map, ← List.filterMap_eq_map]
    congr 1
    funext k
    simp [Line.control, DriveFun.ham]
  have hlook : ∀ (L : List ℕ), (∀ j ∈ L, j < dims.length) → ∀ k ∈ L,
      (L.map fun k => (line k, xDrive (ann dims k))).lookup (line k) = some (xDrive (ann dims k)) := by
    intro L
    induction L with
    | nil => simp
    | cons j L ih =>
      intro hL k hk
      rw [List.map_cons, List.lookup_cons]
      by_cases he : line k = line j
      · have := hinj k (hL k hk) j (hL j (by simp)) he
        subst this
        simp
      · have h1 : k ≠ j := fun h => he (by rw [h])
        have h2 : (line k == line j) = false := by simpa using he
        simp only [h2]
        exact ih (fun j hj => hL j (by simp [hj])) k ((List.mem_cons.1 hk).resolve_left h1)
  unfold Chip.hks
  rw [hc]
  show ((List.range dims.length).map line).mapM _ = _
  have hM : ∀ (L : List ℕ), (∀ k ∈ L, k < dims.length) →
      (L.map line).mapM (fun k => (((List.range dims.length).map fun k => (line k, xDrive (ann dims k))).lookup k).map
        (dress (chipOf dims ω δ sub line target batch).tr)) = some (L.map fun k => xDrive (ann dims k)) := by
    intro L
    induction L with
    | nil => simp
    | cons j L ih =>
      intro hL
      rw [List.map_cons, List.mapM_cons, hlook _ (fun j hj => List.mem_range.1 hj) j (List.mem_range.2 (hL j (by simp))),
        ih fun k hk => hL k (by simp [hk])]
      rfl
  exact hM _ fun k hk => List.mem_range.1 hk

theorem frame_eq (dims : List ℕ) (ω δ φ : ℕ → ℝ) (sub line : ℕ → String) (target : String → Option ℕ) (batch : ℕ)
    (htar : ∀ k < dims.length, target (line k) = some k) (A : ℕ → ℝ → ℝ) (T : ℝ) (N : ℕ) (ts : List ℝ) :
    (chipOf dims ω δ sub line target batch).frame (pulseOf dims ω φ line A T N ts) = some (diagonal fun p =>
      Complex.exp (((∑ k ∈ Finset.range dims.length, ω k * lev dims k p) * T : ℝ) * Complex.I)) := by
  unfold Chip.frame
  rw [C37_diagonal]
  · congr 2
    funext p
    rw [mul_comm Complex.I]
    congr 3
    unfold framePhase pulseOf
    simp only
    rw [List.map_map, sum_range_list, Finset.sum_mul]
    refine Finset.sum_congr rfl fun k hk => ?_
    rw [Finset.mem_range] at hk
    simp only [Function.comp_def, Option.getD_some, add_zero]
    show ω k * T * (levelAt dims ((target (line k)).getD 0) p : ℝ) = _
    rw [htar k hk, Option.getD_some]
    show ω k * T * (lev dims k p : ℝ) = _
    ring
  · intro l hl
    obtain ⟨k, hk, rfl⟩ := List.mem_map.1 hl
    exact ⟨⟨0, rfl⟩, k, List.mem_range.1 hk, htar k (List.mem_range.1 hk)⟩

/-- A smooth amplitude on a carrier is smooth. -/
theorem smooth_carrier (A A' : ℝ → ℝ) (ω φ T a a' L : ℝ)
    (hA : ∀ t ∈ Icc 0 T, HasDerivWithinAt A (A' t) (Icc 0 T) t ∧ |A t| ≤ a ∧ |A' t| ≤ a')
    (hL : ∀ s ∈ Icc 0 T, ∀ t ∈ Icc 0 T, |A' s - A' t| ≤ L * |s - t|) :
    SmoothOn 0 T fun t => A t * Real.cos (ω * t - φ) := by
  have hc : ∀ t, HasDerivAt (fun t => Real.cos (ω * t - φ)) (-Real.sin (ω * t - φ) * ω) t := fun t => by
    have := (((hasDerivAt_id t).const_mul ω).sub_const φ).cos
    simpa using this
  have hcl : ∀ s t, |Real.cos (ω * s - φ) - Real.cos (ω * t - φ)| ≤ |ω| * |s - t| := by
    intro s t
    have := Real.abs_cos_sub_cos_le (ω * s - φ) (ω * t - φ)
    rwa [show ω * s - φ - (ω * t - φ) = ω * (s - t) by ring, abs_mul] at this
  have hsl : ∀ s t, |Real.sin (ω * s - φ) - Real.sin (ω * t - φ)| ≤ |ω| * |s - t| := by
    intro s t
    have := Real.abs_sin_sub_sin_le (ω * s - φ) (ω * t - φ)
    rwa [show ω * s - φ - (ω * t - φ) = ω * (s - t) by ring, abs_mul] at this
  have hAl : ∀ s ∈ Icc 0 T, ∀ t ∈ Icc 0 T, |A s - A t| ≤ a' * |s - t| := by
    intro s hs t ht
    have := (convex_Icc (0 : ℝ) T).norm_image_sub_le_of_norm_hasDerivWithin_le (fun x hx => (hA x hx).1)
      (fun x hx => (hA x hx).2.2) ht hs
    simpa [Real.norm_eq_abs] using this
  refine ⟨fun t => A' t * Real.cos (ω * t - φ) + A t * (-Real.sin (ω * t - φ) * ω),
    L + a' * |ω| + |ω| * (a' + a * |ω|), fun t ht => (hA t ht).1.mul (hc t).hasDerivWithinAt, fun s hs t ht => ?_⟩
  have e : A' s * Real.cos (ω * s - φ) + A s * (-Real.sin (ω * s - φ) * ω) -
      (A' t * Real.cos (ω * t - φ) + A t * (-Real.sin (ω * t - φ) * ω)) =
      (A' s - A' t) * Real.cos (ω * s - φ) + A' t * (Real.cos (ω * s - φ) - Real.cos (ω * t - φ)) -
        ω * ((A s - A t) * Real.sin (ω * s - φ) + A t * (Real.sin (ω * s - φ) - Real.sin (ω * t - φ))) := by ring
  rw [e]
  have a1 : |(A' s - A' t) * Real.cos (ω * s - φ)| ≤ L * |s - t| := by
    rw [abs_mul]
    exact (mul_le_of_le_one_right (abs_nonneg _) (Real.abs_cos_le_one _)).trans (hL s hs t ht)
  have a2 : |A' t * (Real.cos (ω * s - φ) - Real.cos (ω * t - φ))| ≤ a' * (|ω| * |s - t|) := by
    rw [abs_mul]
    exact mul_le_mul (hA t ht).2.2 (hcl s t) (abs_nonneg _) ((abs_nonneg _).trans (hA t ht).2.2)
  have a3 : |(A s - A t) * Real.sin (ω * s - φ)| ≤ a' * |s - t| := by
    rw [abs_mul]
    exact (mul_le_of_le_one_right (abs_nonneg _) (Real.abs_sin_le_one _)).trans (hAl s hs t ht)
  have a4 : |A t * (Real.sin (ω * s - φ) - Real.sin (ω * t - φ))| ≤ a * (|ω| * |s - t|) := by
    rw [abs_mul]
    exact mul_le_mul (hA t ht).2.1 (hsl s t) (abs_nonneg _) ((abs_nonneg _).trans (hA t ht).2.1)
  have a5 : |ω * ((A s - A t) * Real.sin (ω * s - φ) + A t * (Real.sin (ω * s - φ) - Real.sin (ω * t - φ)))| ≤
      |ω| * (a' * |s - t| + a * (|ω| * |s - t|)) := by
    rw [abs_mul]
    exact mul_le_mul_of_nonneg_left ((abs_add_le _ _).trans (add_le_add a3 a4)) (abs_nonneg _)
  refine (abs_sub _ _).trans ((add_le_add ((abs_add_le _ _).trans (add_le_add a1 a2)) a5).trans (le_of_eq ?_))
  ring

theorem drive_eq (dims : List ℕ) (ω δ φ : ℕ → ℝ) (A : ℕ → ℝ → ℝ) :
    drive (diagonal fun p => (energy dims ω δ p : ℂ)) ((List.range dims.length).map fun k => xDrive (ann dims k))
      ((List.range dims.length).map fun k t => A k t * Real.cos (ω k * t - φ k)) =
    driven (energy dims ω δ) (fun k : Fin dims.length => A k) (fun k : Fin dims.length => ω k)
      (fun k : Fin dims.length => φ k) fun k : Fin dims.length => xDrive (ann dims k) := by
  funext t
  unfold drive driven
  congr 1
  rw [List.zip_map', List.map_map, sum_range_list, Finset.sum_range]
  rfl

theorem resonant_commute (dims : List ℕ) (ω δ φ : ℕ → ℝ) (κ : ℝ) (hκ : 0 < κ) (h : Selective dims ω δ κ)
    (j k : Fin dims.length) :
    Commute (resonant (energy dims ω δ) (ω j) (φ j) (xDrive (ann dims j)))
      (resonant (energy dims ω δ) (ω k) (φ k) (xDrive (ann dims k))) := by
  by_cases hjk : j = k
  · subst hjk
    exact Commute.refl _
  · rw [resonant_flip dims ω δ κ hκ h j j.2, resonant_flip dims ω δ κ hκ h k k.2]
    exact ((show Commute (emb (flipA dims j (φ j)) j dims) (emb (flipA dims k (φ k)) k dims) from
      C32_commute _ _ j k dims (fits_flip dims j j.2 _) (fits_flip dims k k.2 _) fun h => hjk (Fin.ext h)).smul_left
      _).smul_right _

theorem xDrive_self (dims : List ℕ) (k : ℕ) : (xDrive (ann dims k))ᴴ = xDrive (ann dims k) := by
  unfold xDrive
  rw [conjTranspose_add, conjTranspose_conjTranspose, add_comm]

/-- Rotations of all qubits at once. -/
theorem rotations (dims : List ℕ) (ω δ φ θ : ℕ → ℝ) (κ : ℝ) (hκ : 0 < κ) (h : Selective dims ω δ κ) (p q : Fin dims.prod) :
    ((List.finRange dims.length).map fun k : Fin dims.length => NormedSpace.exp ((-Complex.I * (θ k : ℂ)) •
      resonant (energy dims ω δ) (ω k) (φ k) (xDrive (ann dims k)))).prod p q =
    ∏ k ∈ Finset.range dims.length, rot (θ k) (φ k) (lev dims k p) (lev dims k q) := by
  have e : ((List.finRange dims.length).map fun k : Fin dims.length => NormedSpace.exp ((-Complex.I * (θ k : ℂ)) •
      resonant (energy dims ω δ) (ω k) (φ k) (xDrive (ann dims k)))) =
      (List.finRange dims.length).map fun k : Fin dims.length =>
        emb ⟨dims.getD k 0, dims.getD k 0, rot (θ k) (φ k)⟩ k dims := by
    refine List.map_congr_left fun k _ => ?_
    rw [resonant_flip dims ω δ κ hκ h k k.2, exp_flip dims k k.2 (h k k.2).1]
  rw [e, prod_emb dims (fun k => rot (θ k) (φ k)) _ (List.nodup_finRange _)]
  simp only [tens, of_apply]
  refine Finset.prod_congr rfl fun k hk => ?_
  rw [if_pos ⟨⟨k, Finset.mem_range.1 hk⟩, List.mem_finRange _, rfl⟩]

/-- All qubits are in one of their two lowest levels. -/
def Computational (dims : List ℕ) (p : Fin dims.prod) : Prop := ∀ k < dims.length, lev dims k p < 2

/-- The factor of the bound on the error: the size of the drives, of their amplitudes and of the slopes. -/
def size (dims : List ℕ) (T a a' : ℝ) : ℝ :=
  (∑ k : Fin dims.length, ∑ p, ∑ q, ‖xDrive (ann dims k) p q‖) *
    (2 * a + T * (3 * a ^ 2 * (∑ k : Fin dims.length, ∑ p, ∑ q, ‖xDrive (ann dims k) p q‖) + a'))

/-- The propagator of resonant pulses, as computed and seen in the frame of the carriers, is the product of rotations of
the qubits. Each angle is the area of the pulse and each axis is given by the phase of the pulse. The error is at most
`size / κ` for the rotating-wave approximation and the leakage, and a term that falls with the square of the
resolution. -/
theorem C209_gate (dims : List ℕ) (ω δ φ : ℕ → ℝ) (sub line : ℕ → String) (target : String → Option ℕ)
    (htar : ∀ k < dims.length, target (line k) = some k) (A A' : ℕ → ℝ → ℝ) (T a a' L κ : ℝ) (hT : 0 < T) (hκ : 0 < κ)
    (hsel : Selective dims ω δ κ)
    (hA : ∀ k < dims.length, ∀ t ∈ Icc 0 T, HasDerivWithinAt (A k) (A' k t) (Icc 0 T) t ∧ |A k t| ≤ a ∧ |A' k t| ≤ a')
    (hL : ∀ k < dims.length, ∀ s ∈ Icc 0 T, ∀ t ∈ Icc 0 T, |A' k s - A' k t| ≤ L * |s - t|) :
    ∃ C : ℝ, ∀ N : ℕ, 1 ≤ N → ∀ batch : ℕ, 1 ≤ batch → ∀ g : String, ∃ ts V,
      Devices.createTs (N / T) 0 T true = some ts ∧
      physical (closed (chipOf dims ω δ sub line target batch) [(g, pulseOf dims ω φ line A T N ts)]) (.name "pwc") g =
        .ok V ∧
      ∀ p q, Computational dims p ∨ Computational dims q →
        ‖V p q - ∏ k ∈ Finset.range dims.length, rot (∫ t in (0 : ℝ)..T, A k t) (φ k) (lev dims k p) (lev dims k q)‖ ≤
          size dims T a a' / κ + C / N ^ 2 := by
  obtain ⟨U, hU, -, C, hC⟩ := Exists.C202_converges (diagonal fun p => (energy dims ω δ p : ℂ))
    ((List.range dims.length).map fun k => xDrive (ann dims k))
    ((List.range dims.length).map fun k t => A k t * Real.cos (ω k * t - φ k)) 0 T hT (by
      intro f hf
      obtain ⟨k, hk, rfl⟩ := List.mem_map.1 hf
      rw [zero_add]
      exact smooth_carrier (A k) (A' k) (ω k) (φ k) T a a' L (hA k (List.mem_range.1 hk)) (hL k (List.mem_range.1 hk)))
  simp only [zero_add] at hU hC
  rw [drive_eq] at hU
  have hav := C209_rotations (energy dims ω δ) (fun k : Fin dims.length => A k) (fun k : Fin dims.length => A' k)
    (fun k : Fin dims.length => ω k) (fun k : Fin dims.length => φ k)
    (fun k : Fin dims.length => xDrive (ann dims k)) T a a' κ hT.le hκ (fun k => xDrive_self dims k)
    (fun k => selective_detuned dims ω δ κ hsel k k.2) (fun j k => resonant_commute dims ω δ φ κ hκ hsel j k)
    (fun k => hA k k.2) U hU
  refine ⟨C, fun N hN batch hb g => ?_⟩
  obtain ⟨ts, P, hts, hP, hPU⟩ := hC N hN batch hb
  have hfr := frame_eq dims ω δ φ sub line target batch htar A T N ts
  refine ⟨ts, (diagonal fun p =>
      Complex.exp (((∑ k ∈ Finset.range dims.length, ω k * lev dims k p) * T : ℝ) * Complex.I)) * P, hts, ?_, ?_⟩
  · have hk := hks_eq dims ω δ φ sub line target batch htar A T N ts
    have hP' : pwc (chipOf dims ω δ sub line target batch).h0
        ((List.range dims.length).map fun k => xDrive (ann dims k)) (pulseOf dims ω φ line A T N ts).dt
        (pulseOf dims ω φ line A T N ts).values (chipOf dims ω δ sub line target batch).batch
        (Fold.stackFor (pulseOf dims ω φ line A T N ts).values.length) = some P := by
      rw [h0_eq]
      show pwc _ _ (T / N) (ts.map _) batch (Fold.stackFor (ts.map _).length) = some P
      rw [List.length_map, ← hP]
      simp only [List.map_map, Function.comp_def]
    have hu : (chipOf dims ω δ sub line target batch).useFR = true := rfl
    unfold physical closed
    simp [hk, hP', hfr, hu]
  · intro p q hpq
    have h1 : ∀ p q, ‖Complex.exp ((energy dims ω δ p * T : ℝ) * Complex.I) * P p q -
        ∏ k ∈ Finset.range dims.length, rot (∫ t in (0 : ℝ)..T, A k t) (φ k) (lev dims k p) (lev dims k q)‖ ≤
          size dims T a a' / κ + C / N ^ 2 := by
      intro p q
      have h2 := (entry_le _ p q).trans hav
      rw [Matrix.sub_apply, rotations dims ω δ φ (fun k => ∫ t in (0 : ℝ)..T, A k t) κ hκ hsel p q, Average.frame,
        diagonal_mul] at h2
      have h3 := hPU p q
      have h4 : ‖Complex.exp ((energy dims ω δ p * T : ℝ) * Complex.I) * (P p q - U T p q)‖ ≤ C / N ^ 2 := by
        rw [norm_mul, Complex.norm_exp_ofReal_mul_I, one_mul]
        exact h3
      refine le_trans (le_of_eq ?_) ((norm_add_le _ _).trans (add_le_add h2 h4))
      congr 1
      ring
    rw [diagonal_mul]
    by_cases hp : Computational dims p
    · have h2 := h1 p q
      have h3 : energy dims ω δ p = ∑ k ∈ Finset.range dims.length, ω k * lev dims k p := by
        unfold energy
        refine Finset.sum_congr rfl fun k hk => ?_
        have h4 := hp k (Finset.mem_range.1 hk)
        have h5 : lev dims k p = 0 ∨ lev dims k p = 1 := by omega
        rcases h5 with h5 | h5 <;> rw [h5] <;> simp
      rwa [h3] at h2
    · have hq := hpq.resolve_left hp
      have h2 := h1 p q
      unfold Computational at hp
      push Not at hp
      obtain ⟨k, hk, hpk⟩ := hp
      have hz : ∏ k ∈ Finset.range dims.length, rot (∫ t in (0 : ℝ)..T, A k t) (φ k) (lev dims k p) (lev dims k q) = 0 := by
        refine Finset.prod_eq_zero (Finset.mem_range.2 hk) ?_
        have hqk := hq k hk
        unfold rot
        rw [if_neg (by omega), if_neg (by omega), if_neg (by omega), if_neg (by omega)]
      rw [hz, sub_zero, norm_mul, Complex.norm_exp_ofReal_mul_I] at h2 ⊢
      exact h2

/-- The rotation of the two lowest levels is the exponential of Pauli matrices. -/
theorem C209_axis (θ φ : ℝ) :
    NormedSpace.exp ((-Complex.I / 2 * θ : ℂ) • ((Real.cos φ : ℂ) • !![0, 1; 1, 0] +
      (Real.sin φ : ℂ) • !![0, -Complex.I; Complex.I, 0] : Matrix (Fin 2) (Fin 2) ℂ)) =
      Matrix.of fun x y : Fin 2 => rot θ φ x y := by
  have e1 : Complex.exp (φ * Complex.I) = Complex.cos φ + Complex.sin φ * Complex.I := Complex.exp_mul_I _
  have e2 : Complex.exp (-(φ * Complex.I)) = Complex.cos φ - Complex.sin φ * Complex.I := by
    rw [← neg_mul, Complex.exp_mul_I, Complex.cos_neg, Complex.sin_neg]
    ring
  have e3 := Complex.cos_sq_add_sin_sq (φ : ℂ)
  rw [Gates.exp_reflection _ 1]
  · ext x y
    fin_cases x <;> fin_cases y <;>
      simp [rot, e1, e2] <;> ring_nf
  · ext x y
    fin_cases x <;> fin_cases y <;>
      simp [Matrix.mul_apply, Fin.sum_univ_two] <;> linear_combination e3 - Complex.sin φ ^ 2 * Complex.I_sq
  · rw [one_mul]

/-- The gates of the table are rotations: pulses of area pi or half of it, with phase zero and pi over two for the positive
gates around x and y, and pi more for the negative ones. -/
theorem C209_table :
    (Matrix.of fun x y : Fin 2 => rot (Real.pi / 2) 0 x y) = Gates.Gate.mat .rx90p ∧
    (Matrix.of fun x y : Fin 2 => rot (Real.pi / 2) Real.pi x y) = Gates.Gate.mat .rx90m ∧
    (Matrix.of fun x y : Fin 2 => rot Real.pi 0 x y) = Gates.Gate.mat .rxp ∧
    (Matrix.of fun x y : Fin 2 => rot (Real.pi / 2) (Real.pi / 2) x y) = Gates.Gate.mat .ry90p ∧
    (Matrix.of fun x y : Fin 2 => rot (Real.pi / 2) (-(Real.pi / 2)) x y) = Gates.Gate.mat .ry90m ∧
    (Matrix.of fun x y : Fin 2 => rot Real.pi (Real.pi / 2) x y) = Gates.Gate.mat .ryp := by
  have hr : Real.sqrt 2 / 2 = 1 / Real.sqrt 2 := by
    rw [div_eq_div_iff two_ne_zero (by positivity), Real.mul_self_sqrt zero_le_two]
    norm_num
  have hc : (Real.cos (Real.pi / 2 / 2) : ℂ) = Gates.r2 := by
    rw [show Real.pi / 2 / 2 = Real.pi / 4 by ring, Real.cos_pi_div_four, hr]
    rfl
  have hs : (Real.sin (Real.pi / 2 / 2) : ℂ) = Gates.r2 := by
    rw [show Real.pi / 2 / 2 = Real.pi / 4 by ring, Real.sin_pi_div_four, hr]
    rfl
  have e1 : Complex.exp ((Real.pi / 2 : ℝ) * Complex.I) = Complex.I := by
    push_cast
    exact Complex.exp_pi_div_two_mul_I
  have e2 : Complex.exp (-((Real.pi / 2 : ℝ) : ℂ) * Complex.I) = -Complex.I := by
    push_cast
    rw [← neg_div]
    exact Complex.exp_neg_pi_div_two_mul_I
  have e3 : Complex.exp (-(Real.pi : ℂ) * Complex.I) = -1 := by
    rw [neg_mul, Complex.exp_neg, Complex.exp_pi_mul_I]
    norm_num
  have e4 : Complex.exp (((-(Real.pi / 2) : ℝ) : ℂ) * Complex.I) = -Complex.I := by
    rw [Complex.ofReal_neg, e2]
  have e5 : Complex.exp (-((-(Real.pi / 2) : ℝ) : ℂ) * Complex.I) = Complex.I := by
    rw [Complex.ofReal_neg, neg_neg, e1]
  refine ⟨?_, ?_, ?_, ?_, ?_, ?_⟩
  · show _ = (Gates.r2 • !![1, -Complex.I; -Complex.I, 1] : Matrix (Fin 2) (Fin 2) ℂ)
    ext x y
    fin_cases x <;> fin_cases y <;> simp [rot, -Complex.ofReal_cos, -Complex.ofReal_sin, hc, hs, mul_comm]
  · show _ = (Gates.r2 • !![1, Complex.I; Complex.I, 1] : Matrix (Fin 2) (Fin 2) ℂ)
    ext x y
    fin_cases x <;> fin_cases y <;> simp only [rot] <;> rw [hc] <;> rw [hs] <;> simp only [e3, Complex.exp_pi_mul_I] <;>
      simp [mul_comm]
  · show _ = (!![0, -Complex.I; -Complex.I, 0] : Matrix (Fin 2) (Fin 2) ℂ)
    ext x y
    fin_cases x <;> fin_cases y <;> simp [rot]
  · show _ = (Gates.r2 • !![1, -1; 1, 1] : Matrix (Fin 2) (Fin 2) ℂ)
    ext x y
    fin_cases x <;> fin_cases y <;> simp only [rot] <;> rw [hc] <;> rw [hs] <;> simp only [e1, e2] <;> simp
  · show _ = (Gates.r2 • !![1, 1; -1, 1] : Matrix (Fin 2) (Fin 2) ℂ)
    ext x y
    fin_cases x <;> fin_cases y <;> simp only [rot] <;> rw [hc] <;> rw [hs] <;> simp only [e4, e5] <;> simp
  · show _ = (!![0, -1; 1, 0] : Matrix (Fin 2) (Fin 2) ℂ)
    ext x y
    fin_cases x <;> fin_cases y <;> simp only [rot, e1, e2] <;> simp

/-- A qutrit at frequency 5 with anharmonicity -1 and a constant amplitude. -/
example : ∃ C : ℝ, ∀ N : ℕ, 1 ≤ N → ∃ ts V, Devices.createTs (N / 1) 0 1 true = some ts ∧
    physical (closed (chipOf [3] (fun _ => 5) (fun _ => -1) (fun _ => "Q1") (fun _ => "d1")
      (fun s => if s = "d1" then some 0 else none) 1)
      [("rx", pulseOf [3] (fun _ => 5) (fun _ => 0) (fun _ => "d1") (fun _ _ => 1 / 10) 1 N ts)]) (.name "pwc") "rx" =
        .ok V ∧
    ∀ p q, Computational [3] p ∨ Computational [3] q →
      ‖V p q - ∏ k ∈ Finset.range 1, rot (∫ _ in (0 : ℝ)..1, 1 / 10) 0 (lev [3] k p) (lev [3] k q)‖ ≤
        size [3] 1 (1 / 10) 0 / 1 + C / N ^ 2 := by
  obtain ⟨C, hC⟩ := C209_gate [3] (fun _ => 5) (fun _ => -1) (fun _ => 0) (fun _ => "Q1") (fun _ => "d1")
    (fun s => if s = "d1" then some 0 else none) (by simp) (fun _ _ => 1 / 10) (fun _ _ => 0) 1 (1 / 10) 0 0 1
    one_pos one_pos
    (by
      intro k hk
      obtain rfl : k = 0 := by simpa using hk
      refine ⟨by simp, by simp, fun l hl => ?_⟩
      have hl' : l = 0 ∨ l = 1 := by simp at hl; omega
      rcases hl' with rfl | rfl <;> norm_num)
    (fun _ _ _ _ => ⟨hasDerivWithinAt_const _ _ _, by norm_num, by simp⟩) (by simp)
  exact ⟨C, fun N hN => hC N hN 1 le_rfl "rx"⟩

end C3.Experiment.Resonant
