import Verif.Experiment.Resonant
import Verif.Fidelity.Average
import Verif.Gates.Insert

/-!
# C218: the infidelity of resonant pulses is quadratic in the error of their propagator

`unitary_infid` (c3/libraries/fidelities.py:152-183) is applied to a propagator that `compute_propagators`
(c3/experiment.py:440-534) computes for resonant pulses. The models are those of C61 and C209.
-/

noncomputable section

namespace C3.Experiment.ResonantInfid

open Matrix Set C3.Propagation C3.Hilbert C3.Fidelity C3.Experiment C3.Experiment.Compute C3.Experiment.EndToEnd
  C3.Experiment.Resonant

/-! ## Overlap of matrices that are close -/

section Abstract

variable {m n : Type*} [Fintype m] [DecidableEq m] [Fintype n] [DecidableEq n]

theorem re_mul_star (x y : ℂ) : (x * star y).re = (‖x‖ ^ 2 + ‖y‖ ^ 2 - ‖x - y‖ ^ 2) / 2 := by
  rw [← Complex.normSq_eq_norm_sq, ← Complex.normSq_eq_norm_sq, ← Complex.normSq_eq_norm_sq, Complex.normSq_sub]
  simp only [Complex.star_def]
  ring

/-- A column of a unitary that is close to a column of a smaller unitary has almost all of the overlap. -/
theorem column_overlap (V : Matrix n n ℂ) (hV : Vᴴ * V = 1) (R : Matrix m m ℂ) (hR : Rᴴ * R = 1) (f : m → n)
    (hf : Function.Injective f) (ε : ℝ) (j : m) (h1 : ∀ i, ‖V (f i) (f j) - R i j‖ ≤ ε)
    (h2 : ∀ p, (∀ i, f i ≠ p) → ‖V p (f j)‖ ≤ ε) :
    1 - Fintype.card n * ε ^ 2 / 2 ≤ (∑ i, V (f i) (f j) * star (R i j)).re := by
  have cV := col_norm V hV (f j)
  have cR := col_norm R hR j
  have hsplit : ∑ p, ‖V p (f j)‖ ^ 2 = ∑ i, ‖V (f i) (f j)‖ ^ 2 +
      ∑ p ∈ Finset.univ \ Finset.univ.image f, ‖V p (f j)‖ ^ 2 := by
    rw [← Finset.sum_sdiff (Finset.subset_univ (Finset.univ.image f)), add_comm,
      Finset.sum_image fun a _ b _ h => hf h]
  have hout : ∑ p ∈ Finset.univ \ Finset.univ.image f, ‖V p (f j)‖ ^ 2 ≤
      (Fintype.card n - Fintype.card m : ℝ) * ε ^ 2 := by
    have hc : ((Finset.univ \ Finset.univ.image f).card : ℝ) = (Fintype.card n - Fintype.card m : ℝ) := by
      rw [Finset.card_sdiff_of_subset (Finset.subset_univ _), Finset.card_image_of_injective _ hf, Finset.card_univ,
        Finset.card_univ, Nat.cast_sub (Fintype.card_le_of_injective f hf)]
    rw [← hc, ← nsmul_eq_mul]
    refine Finset.sum_le_card_nsmul _ _ _ fun p hp => ?_
    refine pow_le_pow_left₀ (norm_nonneg _) (h2 p fun i hi => ?_) 2
    rw [Finset.mem_sdiff] at hp
    exact hp.2 (Finset.mem_image.2 ⟨i, Finset.mem_univ i, hi⟩)
  have hin : ∑ i, ‖V (f i) (f j) - R i j‖ ^ 2 ≤ Fintype.card m * ε ^ 2 := by
    rw [← nsmul_eq_mul, ← Finset.card_univ]
    exact Finset.sum_le_card_nsmul _ _ _ fun i _ => pow_le_pow_left₀ (norm_nonneg _) (h1 i) 2
  rw [Complex.re_sum]
  simp only [re_mul_star]
  rw [← Finset.sum_div, Finset.sum_sub_distrib, Finset.sum_add_distrib, cR]
  rw [hsplit] at cV
  linarith

/-- The infidelity of a unitary whose block is close to a unitary is quadratic in the distance. -/
theorem infid_le [Nonempty m] (V : Matrix n n ℂ) (hV : Vᴴ * V = 1) (R : Matrix m m ℂ) (hR : Rᴴ * R = 1) (f : m → n)
    (hf : Function.Injective f) (ε : ℝ) (h1 : ∀ i j, ‖V (f i) (f j) - R i j‖ ≤ ε)
    (h2 : ∀ p j, (∀ i, f i ≠ p) → ‖V p (f j)‖ ≤ ε) :
    1 - (‖(V.submatrix f f * Rᴴ).trace‖ / Fintype.card m) ^ 2 ≤ Fintype.card n * ε ^ 2 := by
  have hm : (0 : ℝ) < Fintype.card m := by exact_mod_cast Fintype.card_pos
  set h : ℝ := Fintype.card n * ε ^ 2 / 2 with hh
  have hre : Fintype.card m * (1 - h) ≤ ((V.submatrix f f * Rᴴ).trace).re := by
    rw [trace_mul_adj, Fintype.sum_prod_type_right, Complex.re_sum, ← nsmul_eq_mul, ← Finset.card_univ]
    exact Finset.card_nsmul_le_sum _ _ _ fun j _ =>
      column_overlap V hV R hR f hf ε j (fun i => h1 i j) fun p hp => h2 p j hp
  have hs : 1 - h ≤ ‖(V.submatrix f f * Rᴴ).trace‖ / Fintype.card m := by
    rw [le_div_iff₀ hm, mul_comm]
    exact hre.trans ((le_abs_self _).trans (Complex.abs_re_le_norm _))
  have h0 : 0 ≤ ‖(V.submatrix f f * Rᴴ).trace‖ / Fintype.card m := by positivity
  have e : Fintype.card n * ε ^ 2 = 2 * h := by rw [hh]; ring
  have hn : 0 ≤ h := by positivity
  rw [e]
  rcases le_total h 1 with hle | hle
  · nlinarith [pow_le_pow_left₀ (by linarith : (0:ℝ) ≤ 1 - h) hs 2]
  · nlinarith [sq_nonneg (‖(V.submatrix f f * Rᴴ).trace‖ / Fintype.card m)]

end Abstract

/-! ## The ideal gate -/

theorem tens_one (dims : List ℕ) : tens dims (fun _ x y => if x = y then 1 else 0) = 1 := by
  ext p q
  simp only [tens, of_apply]
  by_cases h : p = q
  · subst h
    rw [one_apply_eq]
    exact Finset.prod_eq_one fun t _ => by rw [if_pos rfl]
  · rw [one_apply_ne h]
    have : ∃ t < dims.length, lev dims t p ≠ lev dims t q := by
      by_contra hc
      push Not at hc
      exact h (lev_ext dims p q hc)
    obtain ⟨t, ht, hne⟩ := this
    exact Finset.prod_eq_zero (Finset.mem_range.2 ht) (if_neg hne)

theorem tens_adj (dims : List ℕ) (f : ℕ → ℕ → ℕ → ℂ) : (tens dims f)ᴴ = tens dims fun t x y => star (f t y x) := by
  ext p q
  simp only [tens, conjTranspose_apply, of_apply, star_prod]

theorem rot_unitary (θ φ : ℝ) (x y : ℕ) (hx : x < 2) (hy : y < 2) :
    ∑ z ∈ Finset.range 2, star (rot θ φ z x) * rot θ φ z y = if x = y then 1 else 0 := by
  have e1 : Complex.exp (-φ * Complex.I) * Complex.exp (φ * Complex.I) = 1 := by
    rw [← Complex.exp_add]
    simp
  have e2 : star (Complex.exp (φ * Complex.I)) = Complex.exp (-φ * Complex.I) := by
    rw [Complex.star_def, ← Complex.exp_conj]
    simp
  have e3 : star (Complex.exp (-φ * Complex.I)) = Complex.exp (φ * Complex.I) := by
    rw [Complex.star_def, ← Complex.exp_conj]
    simp
  have e4 : (Real.cos (θ / 2) : ℂ) ^ 2 + (Real.sin (θ / 2) : ℂ) ^ 2 = 1 := by
    exact_mod_cast Real.cos_sq_add_sin_sq (θ / 2)
  have e5 : ∀ x : ℝ, star (x : ℂ) = x := Complex.conj_ofReal
  have e6 : star Complex.I = -Complex.I := Complex.conj_I
  rw [Finset.sum_range_succ, Finset.sum_range_one]
  have hx' : x = 0 ∨ x = 1 := by omega
  have hy' : y = 0 ∨ y = 1 := by omega
  rcases hx' with rfl | rfl <;> rcases hy' with rfl | rfl <;>
    simp only [rot] <;>
    simp only [zero_ne_one, one_ne_zero, and_self, and_false, false_and, or_false, or_true, if_true, if_false,
      star_mul', star_neg, e2, e3, e5, e6]
  · linear_combination e4 - (Real.sin (θ / 2) : ℂ) ^ 2 * Complex.I ^ 2 * e1 - (Real.sin (θ / 2) : ℂ) ^ 2 * Complex.I_sq
  · ring
  · ring
  · linear_combination e4 - (Real.sin (θ / 2) : ℂ) ^ 2 * Complex.I ^ 2 * e1 - (Real.sin (θ / 2) : ℂ) ^ 2 * Complex.I_sq

theorem rot_rest (φ : ℝ) (x : ℕ) : rot 0 φ x 0 = if x = 0 then 1 else 0 := by
  unfold rot
  by_cases hx : x = 0
  · subst hx
    simp
  · rw [if_neg (by omega), if_neg (by omega)]
    by_cases h1 : x = 1
    · subst h1
      simp
    · rw [if_neg (by omega), if_neg hx]

/-- Rotations of some subsystems, while nothing happens to the others, are unitary. -/
theorem ideal_unitary (dims index : List ℕ) (θ φ : ℕ → ℝ) (h0 : ∀ k < dims.length, k ∉ index → θ k = 0) :
    (tens (outDims dims index) fun k => rot (θ k) (φ k))ᴴ * (tens (outDims dims index) fun k => rot (θ k) (φ k)) = 1 := by
  rw [tens_adj, tens_mul, ← tens_one]
  refine tens_congr _ _ _ fun t ht x hx y hy => ?_
  rw [outDims_length] at ht
  rw [outDims_getD _ _ _ ht] at hx hy ⊢
  by_cases hi : t ∈ index
  · rw [if_pos hi] at hx hy ⊢
    exact rot_unitary _ _ x y hx hy
  · rw [if_neg hi] at hx hy ⊢
    obtain rfl : x = 0 := by omega
    obtain rfl : y = 0 := by omega
    rw [Finset.sum_range_one, h0 t ht hi, rot_rest]
    simp

theorem lev_compEmb (dims index : List ℕ) (hd : ∀ d ∈ dims, 2 ≤ d) (k : ℕ) (p : Fin (outDims dims index).prod) :
    lev dims k (compEmb dims index hd p) = lev (outDims dims index) k p := by
  obtain ⟨p, hp⟩ := p
  obtain ⟨a, ha, rfl⟩ := exists_flat _ p hp
  rw [compEmb_flat hd ha]
  simp only [lev, levelAt_flat ha, levelAt_flat (valid_out hd ha)]

theorem lev_out (dims index : List ℕ) (k : ℕ) (hk : k < dims.length) (p : Fin (outDims dims index).prod) :
    lev (outDims dims index) k p < if k ∈ index then 2 else 1 := by
  have h := lev_lt (outDims dims index) k (by rwa [outDims_length]) p
  rwa [outDims_getD _ _ _ hk] at h

/-- A state with the chosen subsystems in their two lowest levels and the others in their ground states is one of the
projected space. -/
theorem exists_compEmb (dims index : List ℕ) (hd : ∀ d ∈ dims, 2 ≤ d) (p : Fin dims.prod)
    (h : ∀ k < dims.length, lev dims k p < if k ∈ index then 2 else 1) : ∃ i, compEmb dims index hd i = p := by
  obtain ⟨p, hp⟩ := p
  obtain ⟨a, ha, rfl⟩ := exists_flat _ p hp
  have hv : Valid (outDims dims index) a := by
    rw [Gates.valid_iff, outDims_length]
    refine ⟨valid_length ha, fun t ht => ?_⟩
    have := h t ht
    rw [lev, levelAt_flat ha] at this
    rwa [outDims_getD _ _ _ ht]
  exact ⟨⟨flat _ a, flat_lt hv⟩, compEmb_flat hd hv⟩

/-! ## Theorem -/

theorem chipOf_wf (dims : List ℕ) (ω δ : ℕ → ℝ) (sub line : ℕ → String) (target : String → Option ℕ)
    (ht : ∀ l q, target l = some q → q < dims.length) (batch : ℕ) (hb : 1 ≤ batch) :
    (chipOf dims ω δ sub line target batch).WF := by
  refine ⟨?_, ht, hb⟩
  intro l hl
  obtain ⟨k, hk, rfl⟩ := List.mem_map.1 hl
  rw [List.mem_range] at hk
  intro j hj
  simp only [List.mem_singleton] at hj
  omega

/-- A unitary whose entries are close to those of rotations, as far as computational states are concerned, has a small
infidelity to the product of rotations. -/
theorem infid_of_close (dims : List ℕ) (hd : ∀ d ∈ dims, 2 ≤ d) (θ φ : ℕ → ℝ) (V : Op dims) (hVu : Vᴴ * V = 1) (ε : ℝ)
    (hclose : ∀ p q, Computational dims p ∨ Computational dims q →
      ‖V p q - ∏ k ∈ Finset.range dims.length, rot (θ k) (φ k) (lev dims k p) (lev dims k q)‖ ≤ ε)
    (index : List ℕ) (hne : index ≠ []) (hnd : index.Nodup) (hlt : ∀ i ∈ index, i < dims.length)
    (hrest : ∀ k < dims.length, k ∉ index → θ k = 0)
    (ideal : Arr ℂ) (hir : ideal.rows = 2 ^ index.length) (hic : ideal.cols = 2 ^ index.length)
    (hideal : ∀ p q : Fin (outDims dims index).prod, ideal.e p q = ∏ k ∈ Finset.range dims.length,
      rot (θ k) (φ k) (lev (outDims dims index) k p) (lev (outDims dims index) k q))
    (actual : Arr ℂ) (hr : actual.rows = dims.prod) (hc : actual.cols = dims.prod)
    (hact : ∀ p q : Fin dims.prod, actual.e p q = V p q) :
    ∃ x, unitaryInfid ideal actual (some index) dims = some x ∧ 0 ≤ x ∧ x ≤ dims.prod * ε ^ 2 := by
  have hmat : actual.mat dims.prod dims.prod = V := by
    ext p q
    exact hact p q
  have himat : ideal.mat (outDims dims index).prod (outDims dims index).prod =
      tens (outDims dims index) fun k => rot (θ k) (φ k) := by
    ext p q
    refine (hideal p q).trans ?_
    simp only [tens, of_apply, outDims_length]
  have hRu := ideal_unitary dims index θ φ hrest
  obtain ⟨x, hx, h0, -, -⟩ := C61_range ideal actual dims index hd hne hnd hlt hr hc hir hic
    (by rw [hmat]; exact hVu) (by rw [himat]; exact hRu)
  refine ⟨x, hx, h0, ?_⟩
  have hval := C61_value ideal actual dims index hd hne hnd hlt hr hc hir hic
  rw [hx, Option.some_inj, hmat, himat] at hval
  have hp := outDims_prod dims index hnd hlt
  have : Nonempty (Fin (outDims dims index).prod) := ⟨⟨0, by rw [hp]; positivity⟩⟩
  have hcomp : ∀ i, Computational dims (compEmb dims index hd i) := by
    intro i k hk
    rw [lev_compEmb]
    have := lev_out dims index k hk i
    split at this <;> omega
  have hb := infid_le V hVu (tens (outDims dims index) fun k => rot (θ k) (φ k)) hRu
    (compEmb dims index hd) (compEmb_injective dims index hd) ε
    (by
      intro i j
      have h := hclose _ (compEmb dims index hd j) (Or.inl (hcomp i))
      simp only [lev_compEmb] at h
      simpa only [tens, of_apply, outDims_length] using h)
    (by
      intro p j hpj
      have h := hclose p _ (Or.inr (hcomp j))
      have hz : ∏ k ∈ Finset.range dims.length, rot (θ k) (φ k) (lev dims k p)
          (lev dims k (compEmb dims index hd j)) = 0 := by
        have : ∃ k < dims.length, (if k ∈ index then 2 else 1) ≤ lev dims k p := by
          by_contra hcon
          push Not at hcon
          obtain ⟨i, hi⟩ := exists_compEmb dims index hd p hcon
          exact hpj i hi
        obtain ⟨k, hk, hle⟩ := this
        refine Finset.prod_eq_zero (Finset.mem_range.2 hk) ?_
        have hj := lev_out dims index k hk j
        rw [lev_compEmb]
        by_cases hi : k ∈ index
        · rw [if_pos hi] at hle hj
          unfold rot
          rw [if_neg (by omega), if_neg (by omega), if_neg (by omega), if_neg (by omega)]
        · rw [if_neg hi] at hle hj
          rw [show lev (outDims dims index) k j = 0 by omega, hrest k hk hi, rot_rest, if_neg (by omega)]
      rwa [hz, sub_zero] at h)
  have hcard : (Fintype.card (Fin (outDims dims index).prod) : ℝ) = 2 ^ index.length := by
    rw [Fintype.card_fin, hp]
    push_cast
    rfl
  rw [hcard, Fintype.card_fin] at hb
  rw [hval]
  exact hb

theorem selective_dims (dims : List ℕ) (ω δ : ℕ → ℝ) (κ : ℝ) (hsel : Selective dims ω δ κ) : ∀ d ∈ dims, 2 ≤ d := by
  intro d hd
  obtain ⟨k, hk, rfl⟩ := List.getElem_of_mem hd
  have := (hsel k hk).1
  rwa [List.getD_eq_getElem _ _ hk] at this

/-- **C218**: let resonant pulses of areas `θ` and phases `φ` drive the qubits of `index`, and let the pulses on the other
qubits have area zero. Then the infidelity that `unitary_infid` gives, for the computed propagator and the product of the
rotations by `θ` about the axes at `φ`, is at most the dimension times the square of the error of the propagator. -/
theorem C218_infid (dims : List ℕ) (ω δ φ : ℕ → ℝ) (sub line : ℕ → String) (target : String → Option ℕ)
    (htar : ∀ k < dims.length, target (line k) = some k) (ht : ∀ l q, target l = some q → q < dims.length)
    (A A' : ℕ → ℝ → ℝ) (T a a' L κ : ℝ) (hT : 0 < T) (hκ : 0 < κ) (hsel : Selective dims ω δ κ)
    (hA : ∀ k < dims.length, ∀ t ∈ Icc 0 T, HasDerivWithinAt (A k) (A' k t) (Icc 0 T) t ∧ |A k t| ≤ a ∧ |A' k t| ≤ a')
    (hL : ∀ k < dims.length, ∀ s ∈ Icc 0 T, ∀ t ∈ Icc 0 T, |A' k s - A' k t| ≤ L * |s - t|)
    (index : List ℕ) (hne : index ≠ []) (hnd : index.Nodup) (hlt : ∀ i ∈ index, i < dims.length)
    (hrest : ∀ k < dims.length, k ∉ index → ∫ t in (0 : ℝ)..T, A k t = 0)
    (ideal : Arr ℂ) (hir : ideal.rows = 2 ^ index.length) (hic : ideal.cols = 2 ^ index.length)
    (hideal : ∀ p q : Fin (outDims dims index).prod, ideal.e p q = ∏ k ∈ Finset.range dims.length,
      rot (∫ t in (0 : ℝ)..T, A k t) (φ k) (lev (outDims dims index) k p) (lev (outDims dims index) k q)) :
    ∃ C : ℝ, ∀ N : ℕ, 1 ≤ N → ∀ batch : ℕ, 1 ≤ batch → ∀ g : String, ∃ ts V,
      Devices.createTs (N / T) 0 T true = some ts ∧
      physical (closed (chipOf dims ω δ sub line target batch) [(g, pulseOf dims ω φ line A T N ts)]) (.name "pwc") g =
        .ok V ∧
      ∀ actual : Arr ℂ, actual.rows = dims.prod → actual.cols = dims.prod →
        (∀ p q : Fin dims.prod, actual.e p q = V p q) →
        ∃ x, unitaryInfid ideal actual (some index) dims = some x ∧ 0 ≤ x ∧
          x ≤ dims.prod * (size dims T a a' / κ + C / N ^ 2) ^ 2 := by
  obtain ⟨C, hC⟩ := C209_gate dims ω δ φ sub line target htar A A' T a a' L κ hT hκ hsel hA hL
  refine ⟨C, fun N hN batch hb g => ?_⟩
  obtain ⟨ts, V, hts, hV, hclose⟩ := hC N hN batch hb g
  refine ⟨ts, V, hts, hV, fun actual hr hc hact => ?_⟩
  have hVu := C199_unitary _ (chipOf_wf dims ω δ sub line target ht batch hb) _ g V hV
  exact infid_of_close dims (selective_dims dims ω δ κ hsel) (fun k => ∫ t in (0 : ℝ)..T, A k t) φ V hVu _ hclose index hne
    hnd hlt hrest ideal hir hic hideal actual hr hc hact

/-- Position in a space where only one subsystem has more than one level. -/
theorem flat_single (ds l : List ℕ) (h : Valid ds l) (k : ℕ) (hk : k < ds.length)
    (h1 : ∀ t < ds.length, t ≠ k → ds.getD t 0 = 1) : flat ds l = l.getD k 0 := by
  induction h generalizing k with
  | nil => simp at hk
  | @cons x d xs ds hx hv ih =>
    cases k with
    | zero =>
      have hp : ds.prod = 1 := by
        refine List.prod_eq_one fun d hd => ?_
        obtain ⟨t, ht, rfl⟩ := List.getElem_of_mem hd
        have := h1 (t + 1) (by simpa using ht) (by omega)
        rwa [List.getD_cons_succ, List.getD_eq_getElem _ _ ht] at this
      have hf := flat_lt hv
      rw [hp] at hf
      simp only [flat, hp, List.getD_cons_zero]
      omega
    | succ k =>
      have hd := h1 0 (by simp) (by omega)
      rw [List.getD_cons_zero] at hd
      obtain rfl : x = 0 := by omega
      have := ih k (by simpa using hk) fun t ht htk => by
        have := h1 (t + 1) (by simpa using ht) (by omega)
        simpa using this
      simp [flat, this]

theorem lev_single (dims : List ℕ) (k : ℕ) (hk : k < dims.length) (p : Fin (outDims dims [k]).prod) :
    lev (outDims dims [k]) k p = p := by
  obtain ⟨p, hp⟩ := p
  obtain ⟨a, ha, rfl⟩ := exists_flat _ p hp
  rw [lev, levelAt_flat ha]
  refine (flat_single _ a ha k (by rwa [outDims_length]) fun t ht htk => ?_).symm
  rw [outDims_length] at ht
  rw [outDims_getD _ _ _ ht, if_neg (by simpa using htk)]

/-- Area and phase of the pulse for a gate of the table. -/
inductive PulseFor : Gates.Gate → ℝ → ℝ → Prop
  | rx90p : PulseFor .rx90p (Real.pi / 2) 0
  | rx90m : PulseFor .rx90m (Real.pi / 2) Real.pi
  | rxp : PulseFor .rxp Real.pi 0
  | ry90p : PulseFor .ry90p (Real.pi / 2) (Real.pi / 2)
  | ry90m : PulseFor .ry90m (Real.pi / 2) (-(Real.pi / 2))
  | ryp : PulseFor .ryp Real.pi (Real.pi / 2)

theorem pulseFor_arr (g : Gates.Gate) (θ φ : ℝ) (h : PulseFor g θ φ) :
    g.arr.rows = 2 ∧ g.arr.cols = 2 ∧ ∀ x < 2, ∀ y < 2, g.arr.e x y = rot θ φ x y := by
  obtain ⟨t1, t2, t3, t4, t5, t6⟩ := C209_table
  cases h <;> refine ⟨rfl, rfl, fun x hx y hy => ?_⟩ <;> refine (dif_pos ⟨hx, hy⟩).trans ?_
  · exact (congrFun (congrFun t1 ⟨x, hx⟩) ⟨y, hy⟩).symm
  · exact (congrFun (congrFun t2 ⟨x, hx⟩) ⟨y, hy⟩).symm
  · exact (congrFun (congrFun t3 ⟨x, hx⟩) ⟨y, hy⟩).symm
  · exact (congrFun (congrFun t4 ⟨x, hx⟩) ⟨y, hy⟩).symm
  · exact (congrFun (congrFun t5 ⟨x, hx⟩) ⟨y, hy⟩).symm
  · exact (congrFun (congrFun t6 ⟨x, hx⟩) ⟨y, hy⟩).symm

/-- The entries of a gate of the table as products of rotations, where only one subsystem is rotated. -/
theorem table_prod (dims : List ℕ) (k : ℕ) (hk : k < dims.length) (gate : Gates.Gate) (θ φ : ℕ → ℝ)
    (hg : PulseFor gate (θ k) (φ k)) (hrest : ∀ j < dims.length, j ∉ [k] → θ j = 0)
    (p q : Fin (outDims dims [k]).prod) : gate.arr.e p q = ∏ j ∈ Finset.range dims.length,
      rot (θ j) (φ j) (lev (outDims dims [k]) j p) (lev (outDims dims [k]) j q) := by
  obtain ⟨-, -, he⟩ := pulseFor_arr gate _ _ hg
  have hp := lev_single dims k hk p
  have hq := lev_single dims k hk q
  have hp2 := lev_out dims [k] k hk p
  have hq2 := lev_out dims [k] k hk q
  rw [if_pos (by simp)] at hp2 hq2
  rw [Finset.prod_eq_single k]
  · rw [hp, hq]
    rw [hp] at hp2
    rw [hq] at hq2
    exact he _ hp2 _ hq2
  · intro j hj hjk
    rw [Finset.mem_range] at hj
    have h1 := lev_out dims [k] j hj p
    have h2 := lev_out dims [k] j hj q
    rw [if_neg (by simpa using hjk)] at h1 h2
    rw [show lev (outDims dims [k]) j p = 0 by omega, show lev (outDims dims [k]) j q = 0 by omega,
      hrest j hj (by simpa using hjk), rot_rest, if_pos rfl]
  · intro h
    exact absurd (Finset.mem_range.2 hk) h

/-- **C218**: a resonant pulse on one qubit with the area and the phase of a gate of the table, and nothing on the others,
makes that gate: both infidelities of the computed propagator to the entry of the table are at most the dimension times
the square of the error of the propagator. -/
theorem C218_table (dims : List ℕ) (ω δ φ : ℕ → ℝ) (sub line : ℕ → String) (target : String → Option ℕ)
    (htar : ∀ k < dims.length, target (line k) = some k) (ht : ∀ l q, target l = some q → q < dims.length)
    (A A' : ℕ → ℝ → ℝ) (T a a' L κ : ℝ) (hT : 0 < T) (hκ : 0 < κ) (hsel : Selective dims ω δ κ)
    (hA : ∀ k < dims.length, ∀ t ∈ Icc 0 T, HasDerivWithinAt (A k) (A' k t) (Icc 0 T) t ∧ |A k t| ≤ a ∧ |A' k t| ≤ a')
    (hL : ∀ k < dims.length, ∀ s ∈ Icc 0 T, ∀ t ∈ Icc 0 T, |A' k s - A' k t| ≤ L * |s - t|)
    (k : ℕ) (hk : k < dims.length) (hrest : ∀ j < dims.length, j ≠ k → ∀ t, A j t = 0) (gate : Gates.Gate)
    (hg : PulseFor gate (∫ t in (0 : ℝ)..T, A k t) (φ k)) :
    ∃ C : ℝ, ∀ N : ℕ, 1 ≤ N → ∀ batch : ℕ, 1 ≤ batch → ∀ g : String, ∃ ts V,
      Devices.createTs (N / T) 0 T true = some ts ∧
      physical (closed (chipOf dims ω δ sub line target batch) [(g, pulseOf dims ω φ line A T N ts)]) (.name "pwc") g =
        .ok V ∧
      ∀ actual : Arr ℂ, actual.rows = dims.prod → actual.cols = dims.prod →
        (∀ p q : Fin dims.prod, actual.e p q = V p q) →
        ∃ x y, unitaryInfid gate.arr actual (some [k]) dims = some x ∧ averageInfid gate.arr actual [k] dims = some y ∧
          0 ≤ x ∧ x ≤ dims.prod * (size dims T a a' / κ + C / N ^ 2) ^ 2 ∧ 0 ≤ y ∧ y ≤ x := by
  obtain ⟨hr, hc, -⟩ := pulseFor_arr gate _ _ hg
  have hrest' : ∀ j < dims.length, j ∉ [k] → ∫ t in (0 : ℝ)..T, A j t = 0 := by
    intro j hj hjk
    rw [List.mem_singleton] at hjk
    have : A j = fun _ => 0 := funext (hrest j hj hjk)
    rw [this]
    simp
  obtain ⟨C, hC⟩ := C218_infid dims ω δ φ sub line target htar ht A A' T a a' L κ hT hκ hsel hA hL [k] (by simp) (by simp)
    (by simpa using hk) hrest' gate.arr (by simpa using hr) (by simpa using hc)
    (table_prod dims k hk gate (fun k => ∫ t in (0 : ℝ)..T, A k t) φ hg hrest')
  have hd := selective_dims dims ω δ κ hsel
  refine ⟨C, fun N hN batch hb g => ?_⟩
  obtain ⟨ts, V, hts, hV, h⟩ := hC N hN batch hb g
  refine ⟨ts, V, hts, hV, fun actual h1 h2 h3 => ?_⟩
  obtain ⟨x, hx, hx0, hxb⟩ := h actual h1 h2 h3
  obtain ⟨x', y, hx', hy, hxy⟩ := C63_value gate.arr actual dims [k] hd (by simp) (by simp) (by simpa using hk) h1 h2
    (by simpa using hr) (by simpa using hc)
  rw [hx, Option.some_inj] at hx'
  subst hx'
  refine ⟨x, y, hx, hy, hx0, hxb, ?_, ?_⟩ <;> rw [hxy] <;> norm_num <;> linarith

/-- A pulse of constant amplitude pi on a qutrit at frequency 1000 with anharmonicity -100: the gate `rxp`. -/
example : ∃ C : ℝ, ∀ N : ℕ, 1 ≤ N → ∃ ts V, Devices.createTs (N / 1) 0 1 true = some ts ∧
    physical (closed (chipOf [3] (fun _ => 1000) (fun _ => -100) (fun _ => "Q1") (fun _ => "d1")
      (fun s => if s = "d1" then some 0 else none) 1)
      [("rxp", pulseOf [3] (fun _ => 1000) (fun _ => 0) (fun _ => "d1") (fun _ _ => Real.pi) 1 N ts)]) (.name "pwc") "rxp" =
        .ok V ∧
    ∀ actual : Arr ℂ, actual.rows = [3].prod → actual.cols = [3].prod → (∀ p q : Fin [3].prod, actual.e p q = V p q) →
      ∃ x y, unitaryInfid (Gates.Gate.arr .rxp) actual (some [0]) [3] = some x ∧
        averageInfid (Gates.Gate.arr .rxp) actual [0] [3] = some y ∧ 0 ≤ x ∧
        x ≤ ([3].prod : ℕ) * (size [3] 1 Real.pi 0 / 100 + C / N ^ 2) ^ 2 ∧ 0 ≤ y ∧ y ≤ x := by
  obtain ⟨C, hC⟩ := C218_table [3] (fun _ => 1000) (fun _ => -100) (fun _ => 0) (fun _ => "Q1") (fun _ => "d1")
    (fun s => if s = "d1" then some 0 else none) (by simp) (by
      intro l q h
      split at h <;> simp_all) (fun _ _ => Real.pi) (fun _ _ => 0) 1 Real.pi 0 0 100
    one_pos (by norm_num)
    (by
      intro k hk
      obtain rfl : k = 0 := by simpa using hk
      refine ⟨by simp, by norm_num, fun l hl => ?_⟩
      have hl' : l = 0 ∨ l = 1 := by simp at hl; omega
      rcases hl' with rfl | rfl <;> norm_num)
    (fun _ _ _ _ => ⟨hasDerivWithinAt_const _ _ _, by rw [abs_of_pos Real.pi_pos], by simp⟩) (by simp) 0 (by simp)
    (by intro j hj hj0; simp at hj; omega) .rxp (by
      have : ∫ _ in (0 : ℝ)..1, Real.pi = Real.pi := by simp
      rw [this]
      exact .rxp)
  exact ⟨C, fun N hN => hC N hN 1 le_rfl "rxp"⟩

end C3.Experiment.ResonantInfid
