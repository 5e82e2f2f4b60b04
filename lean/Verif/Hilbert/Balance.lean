import Verif.Hilbert.Decay
import Verif.Hilbert.Energies

/-!
# C151, C152: rates of the decay channels

Rates between the levels that follow from `get_Lindbladian` (c3/libraries/chip.py:205-242, 425-467): detailed
balance at a finite temperature, and the decay of coherences.
-/

set_option linter.unusedSectionVars false

namespace C3.Hilbert

open Matrix Finset NormedSpace C3.Propagation

/-- Specification: the transition rate from `q` to `p` of a collapse operator. -/
noncomputable def rate {n : Type*} (L : Matrix n n ℂ) (p q : n) : ℝ := ‖L p q‖ ^ 2

/-- Specification: energy difference of the levels `n + 1` and `n` of an element. -/
noncomputable def spacing (s : Sub) (n : ℕ) : ℂ := s.lev (n + 1) (n + 1) - s.lev n n

/-- `q` is `p` with one more excitation in element `i`. -/
def OneUp (dims : List ℕ) (i : ℕ) (p q : Fin dims.prod) : Prop :=
  ∃ l m, ∃ (hl : Valid dims l) (hm : Valid dims m), p = ⟨flat dims l, flat_lt hl⟩ ∧
    q = ⟨flat dims m, flat_lt hm⟩ ∧ AgreeOff dims.length i l m ∧ m.getD i 0 = l.getD i 0 + 1

theorem OneUp.level {dims : List ℕ} {i : ℕ} {p q : Fin dims.prod} (h : OneUp dims i p q) :
    levelAt dims i q = levelAt dims i p + 1 := by
  obtain ⟨l, m, hl, hm, rfl, rfl, _, h2⟩ := h
  rw [levelAt_flat hl, levelAt_flat hm, h2]

theorem OneUp.lt {dims : List ℕ} {i : ℕ} {p q : Fin dims.prod} (h : OneUp dims i p q) (hi : i < dims.length) :
    levelAt dims i p + 1 < dims.getD i 0 := by
  obtain ⟨l, m, hl, hm, rfl, rfl, _, h2⟩ := h
  rw [levelAt_flat hl, ← h2]
  exact valid_getD hm i hi

theorem OneUp.ann {dims : List ℕ} {i : ℕ} {p q : Fin dims.prod} (h : OneUp dims i p q) (hi : i < dims.length) :
    ann dims i p q = ((Real.sqrt (levelAt dims i p + 1 : ℝ) : ℝ) : ℂ) ∧ ann dims i q p = 0 := by
  have hlev := h.level
  obtain ⟨l, m, hl, hm, rfl, rfl, h1, h2⟩ := h
  constructor
  · rw [C33_annihilator dims i hi l m hl hm, if_pos ⟨h1, h2⟩, levelAt_flat hl, h2]
    push_cast
    rfl
  · by_contra h0
    have := ann_shift dims i hi _ _ h0
    omega

theorem OneUp.ne {dims : List ℕ} {i : ℕ} {p q : Fin dims.prod} (h : OneUp dims i p q) : p ≠ q := by
  intro e
  have := h.level
  rw [e] at this
  omega

/-- A decay with relaxation at a temperature, and possibly dephasing. -/
def Warm (d : Decay) (t1 T : ℝ) : Prop := d.t1 = some t1 ∧ d.temp = some T

theorem warm_list (k : Kind) (d : Decay) (t1 T : ℝ) (hT : T ≠ 0) (h : Warm d t1 T) (dims : List ℕ) (i : ℕ) :
    ∃ rest, (rest = [] ∨ ∃ c : ℂ, rest = [c • ((2 : ℂ) • ((ann dims i)ᴴ * ann dims i))]) ∧
      collapseList k d dims i = ((Real.sqrt (relaxRate k t1) : ℝ) : ℂ) • ann dims i ::
        ((Real.sqrt (relaxRate k t1) : ℝ) : ℂ) • ((ann dims i)ᴴ * emb (detBalArr (dims.getD i 0) d T) i dims) ::
          rest := by
  have hu : tempUsed k d = some T := by
    unfold tempUsed
    rw [h.2]
    simp [hT]
  unfold collapseList
  rw [h.1, hu]
  cases d.t2star with
  | none => exact ⟨[], Or.inl rfl, rfl⟩
  | some t2 => exact ⟨_, Or.inr ⟨_, rfl⟩, rfl⟩

theorem norm_sq_eq (z : ℂ) : ((‖z‖ ^ 2 : ℝ) : ℂ) = z * star z := by
  rw [RCLike.star_def, Complex.mul_conj, Complex.normSq_eq_norm_sq]

/-- The rates between neighbouring levels. -/
theorem warm_rates (k : Kind) (d : Decay) (t1 T : ℝ) (h1 : 0 < t1) (hT : T ≠ 0) (hd : Warm d t1 T)
    (dims : List ℕ) (i : ℕ) (hi : i < dims.length) (L : Matrix (Fin dims.prod) (Fin dims.prod) ℂ)
    (hL : getLindbladian k d dims i = some L) (p q : Fin dims.prod) (hpq : OneUp dims i p q) :
    rate L p q = relaxRate k t1 * (levelAt dims i p + 1) ∧
    rate L q p = relaxRate k t1 * (levelAt dims i p + 1) *
      Real.exp (-hBar * freqDiff (dims.getD i 0) d (levelAt dims i p) * (1 / (T * kB))) ^ 2 := by
  obtain ⟨rest, hrest, hlist⟩ := warm_list k d t1 T hT hd dims i
  obtain ⟨ss, hnd, hs⟩ := collapse_shifts k d dims i hi
  have hLs : L = (collapseList k d dims i).sum := by
    unfold getLindbladian at hL
    split at hL
    · simp at hL
    · exact (Option.some.inj hL).symm
  obtain ⟨ha, hb⟩ := hpq.ann hi
  have hrel : 0 ≤ relaxRate k t1 := by
    cases k <;> unfold relaxRate <;> positivity
  have hzero : ∀ x y, x ≠ y → ∀ A ∈ rest, A x y = 0 := by
    intro x y hxy A hA
    rcases hrest with rfl | ⟨c, rfl⟩
    · simp at hA
    · rw [List.mem_singleton] at hA
      subst hA
      rw [ann_number dims i hi, Matrix.smul_apply, Matrix.smul_apply, Matrix.diagonal_apply_ne _ hxy]
      simp
  have hsum0 : ∀ x y, x ≠ y → (rest.map fun A => A x y * star (A x y)).sum = 0 := by
    intro x y hxy
    apply List.sum_eq_zero
    intro z hz
    obtain ⟨A, hA, rfl⟩ := List.mem_map.1 hz
    rw [hzero x y hxy A hA, zero_mul]
  have hsq : ∀ r : ℝ, 0 ≤ r → ((Real.sqrt r : ℝ) : ℂ) * ((Real.sqrt r : ℝ) : ℂ) = (r : ℂ) := by
    intro r hr
    rw [← Complex.ofReal_mul, Real.mul_self_sqrt hr]
  have hlev : (0 : ℝ) ≤ levelAt dims i p + 1 := by positivity
  have hst : ∀ r : ℝ, star (r : ℂ) = (r : ℂ) := fun r => Complex.conj_ofReal r
  have hsr := hsq _ hrel
  have hsl := hsq _ hlev
  push_cast at hsl
  constructor
  · have e := (sum_shifts_entry dims i ss _ hnd hs p q).1
    rw [← hLs, ← norm_sq_eq, hlist] at e
    simp only [List.map_cons, List.sum_cons, hsum0 p q hpq.ne, Matrix.smul_apply, detBal_diagonal dims i hi,
      Matrix.mul_diagonal, Matrix.conjTranspose_apply, ha, hb, star_zero, zero_mul, mul_zero, add_zero,
      smul_eq_mul, star_mul', hst] at e
    apply Complex.ofReal_injective
    unfold rate
    rw [e]
    push_cast
    linear_combination (((Real.sqrt (levelAt dims i p + 1 : ℝ) : ℝ) : ℂ) * ((Real.sqrt (levelAt dims i p + 1 : ℝ) : ℝ) : ℂ)) * hsr +
      (relaxRate k t1 : ℂ) * hsl
  · have e := (sum_shifts_entry dims i ss _ hnd hs q p).1
    rw [← hLs, ← norm_sq_eq, hlist] at e
    simp only [List.map_cons, List.sum_cons, hsum0 q p hpq.ne.symm, Matrix.smul_apply, detBal_diagonal dims i hi,
      Matrix.mul_diagonal, Matrix.conjTranspose_apply, ha, hb, star_zero, mul_zero, add_zero,
      zero_add, smul_eq_mul, star_mul', hst] at e
    apply Complex.ofReal_injective
    unfold rate
    rw [e]
    push_cast
    set E := Complex.exp (-(hBar : ℂ) * (freqDiff (dims.getD i 0) d (levelAt dims i p) : ℂ) * (1 / ((T : ℂ) * (kB : ℂ))))
    linear_combination (((Real.sqrt (levelAt dims i p + 1 : ℝ) : ℝ) : ℂ) * ((Real.sqrt (levelAt dims i p + 1 : ℝ) : ℝ) : ℂ)) *
      E ^ 2 * hsr + (relaxRate k t1 : ℂ) * E ^ 2 * hsl

theorem freqDiff_eq (dim : ℕ) (d : Decay) (n : ℕ) (hn : n + 1 < dim) : freqDiff dim d n = d.freq + n * d.anhar := by
  unfold freqDiff
  split
  · rfl
  · have : n = 0 := by omega
    subst this
    simp

theorem qubit_spacing (dim : ℕ) (freq anhar : ℝ) (n : ℕ) :
    spacing (.qubit dim freq anhar) n = ((freq + n * anhar : ℝ) : ℂ) := by
  simp only [spacing, Sub.lev, nLev, duffLev, if_true]
  push_cast
  ring

theorem transmon_spacing (dim : ℕ) (freq anhar phi phi0 d : ℝ) (n : ℕ) :
    spacing (.transmon dim freq anhar phi phi0 d) n =
      ((transmonFreq freq anhar phi phi0 d 0 + n * anhar : ℝ) : ℂ) := by
  simp only [spacing, Sub.lev, nLev, duffLev, if_true, transmonFreq, squidFactor, add_zero]
  push_cast
  ring

/-- **C151** (partial): between neighbouring levels the ratio of the rate upwards to the rate downwards is the
Boltzmann factor of the level spacing of the qubit — at half of the given temperature, see
`C151_false_temperature`. -/
theorem C151_half_temperature_partial (d : Decay) (t1 T : ℝ) (h1 : 0 < t1) (hT : T ≠ 0)
    (hd : Warm d t1 T) (dims : List ℕ) (i : ℕ) (hi : i < dims.length)
    (L : Matrix (Fin dims.prod) (Fin dims.prod) ℂ) (hL : getLindbladian .qubit d dims i = some L)
    (p q : Fin dims.prod) (hpq : OneUp dims i p q) :
    rate L q p = rate L p q *
      Real.exp (-(hBar * (spacing (.qubit (dims.getD i 0) d.freq d.anhar) (levelAt dims i p)).re) / (kB * (T / 2))) ∧
    rate L p q = (levelAt dims i p + 1) / t1 := by
  obtain ⟨e1, e2⟩ := warm_rates .qubit d t1 T h1 hT hd dims i hi L hL p q hpq
  rw [freqDiff_eq _ _ _ (hpq.lt hi)] at e2
  rw [e2, e1, qubit_spacing]
  refine ⟨?_, ?_⟩
  · congr 1
    rw [← Real.exp_nat_mul, Complex.ofReal_re]
    congr 1
    have := kB_pos.ne'
    push_cast
    field_simp
  · unfold relaxRate
    ring

/-- **C151 is false**: the rates do not have the ratio of the given temperature; the populations of a driven-free
qubit go to thermal equilibrium at half of it. -/
theorem C151_false_temperature (d : Decay) (t1 T : ℝ) (h1 : 0 < t1) (hT : T ≠ 0) (hd : Warm d t1 T)
    (dims : List ℕ) (i : ℕ) (hi : i < dims.length) (L : Matrix (Fin dims.prod) (Fin dims.prod) ℂ)
    (hL : getLindbladian .qubit d dims i = some L) (p q : Fin dims.prod) (hpq : OneUp dims i p q)
    (hs : spacing (.qubit (dims.getD i 0) d.freq d.anhar) (levelAt dims i p) ≠ 0) :
    rate L q p ≠ rate L p q *
      Real.exp (-(hBar * (spacing (.qubit (dims.getD i 0) d.freq d.anhar) (levelAt dims i p)).re) / (kB * T)) := by
  obtain ⟨e1, e2⟩ := C151_half_temperature_partial d t1 T h1 hT hd dims i hi L hL p q hpq
  rw [e1, e2]
  intro h
  have hpos : ((levelAt dims i p : ℝ) + 1) / t1 ≠ 0 := by positivity
  have h2 := Real.exp_injective (mul_left_cancel₀ hpos h)
  rw [qubit_spacing] at h2 hs
  rw [Complex.ofReal_re] at h2
  have hs' : d.freq + (levelAt dims i p : ℝ) * d.anhar ≠ 0 := by
    intro h0
    rw [h0] at hs
    exact hs (by simp)
  have hk := kB_pos.ne'
  have hh := hBar_pos.ne'
  field_simp at h2
  norm_num at h2

/-- **C151** (partial), for a transmon: the same with the frequency at zero flux in place of the frequency of the
drift Hamiltonian. -/
theorem C151_transmon_partial (d : Decay) (t1 T : ℝ) (h1 : 0 < t1) (hT : T ≠ 0) (hd : Warm d t1 T)
    (phi phi0 dd : ℝ) (dims : List ℕ) (i : ℕ) (hi : i < dims.length)
    (L : Matrix (Fin dims.prod) (Fin dims.prod) ℂ)
    (hL : getLindbladian .transmon d dims i = some L) (p q : Fin dims.prod) (hpq : OneUp dims i p q) :
    rate L q p = rate L p q * Real.exp (-(hBar * ((spacing (.transmon (dims.getD i 0) d.freq d.anhar phi phi0 dd)
      (levelAt dims i p)).re + (d.freq - transmonFreq d.freq d.anhar phi phi0 dd 0))) / (kB * (T / 2))) := by
  obtain ⟨e1, e2⟩ := warm_rates .transmon d t1 T h1 hT hd dims i hi L hL p q hpq
  rw [freqDiff_eq _ _ _ (hpq.lt hi)] at e2
  rw [e2, e1, transmon_spacing]
  congr 1
  rw [← Real.exp_nat_mul, Complex.ofReal_re]
  congr 1
  have := kB_pos.ne'
  push_cast
  field_simp
  ring

/-- **C151 is false** for a transmon away from its sweet spot: the rates use the frequency at zero flux, so that the
ratio is not the Boltzmann factor of the level spacing at half the temperature either. -/
theorem C151_false_flux (d : Decay) (t1 T : ℝ) (h1 : 0 < t1) (hT : T ≠ 0) (hd : Warm d t1 T)
    (phi phi0 dd : ℝ) (dims : List ℕ) (i : ℕ) (hi : i < dims.length)
    (L : Matrix (Fin dims.prod) (Fin dims.prod) ℂ)
    (hL : getLindbladian .transmon d dims i = some L) (p q : Fin dims.prod) (hpq : OneUp dims i p q)
    (hf : transmonFreq d.freq d.anhar phi phi0 dd 0 ≠ d.freq) :
    rate L q p ≠ rate L p q * Real.exp (-(hBar * (spacing (.transmon (dims.getD i 0) d.freq d.anhar phi phi0 dd)
      (levelAt dims i p)).re) / (kB * (T / 2))) := by
  rw [C151_transmon_partial d t1 T h1 hT hd phi phi0 dd dims i hi L hL p q hpq]
  intro h
  have hpos : rate L p q ≠ 0 := by
    rw [(warm_rates .transmon d t1 T h1 hT hd dims i hi L hL p q hpq).1]
    unfold relaxRate
    positivity
  have h2 := Real.exp_injective (mul_left_cancel₀ hpos h)
  have hk := kB_pos.ne'
  have hh := hBar_pos.ne'
  field_simp at h2
  apply hf
  linarith

/-- The example: a warm qubit. -/
example : ∃ (d : Decay) (L : Matrix (Fin [3].prod) (Fin [3].prod) ℂ), Warm d 1 2 ∧
    getLindbladian .qubit d [3] 0 = some L ∧ OneUp [3] 0 ⟨0, by decide⟩ ⟨1, by decide⟩ := by
  have h : ∃ L, getLindbladian .qubit ⟨some 1, some 2, none, 5, -1⟩ [3] 0 = some L := by
    unfold getLindbladian
    rw [if_neg (by
      obtain ⟨rest, _, h⟩ := warm_list .qubit ⟨some 1, some 2, none, 5, -1⟩ 1 2 (by norm_num) ⟨rfl, rfl⟩ [3] 0
      rw [h]
      exact List.cons_ne_nil _ _)]
    exact ⟨_, rfl⟩
  obtain ⟨L, hL⟩ := h
  refine ⟨_, L, ⟨rfl, rfl⟩, hL, [0], [1], ?_, ?_, ?_, ?_, ?_, ?_⟩
  · simp [Valid]
  · simp [Valid]
  · simp [flat]
  · simp [flat]
  · intro t ht hne
    simp at ht
    omega
  · simp

/-! ## C152 -/

/-- **C152**: with a dephasing time only, the coherence between two states decays at the rate `1/T2*` times the
square of the difference of the levels of the element; between the two lowest levels at the rate `1/T2*`.
Populations do not change. -/
theorem C152_dephasing (k : Kind) (t2 freq anhar : ℝ) (temp : Option ℝ) (h2 : 0 < t2) (dims : List ℕ) (i : ℕ)
    (hi : i < dims.length) (rho : Matrix (Fin dims.prod) (Fin dims.prod) ℂ) (p q : Fin dims.prod) :
    ∃ L, getLindbladian k ⟨none, temp, some t2, freq, anhar⟩ dims i = some L ∧
      masterRHS 0 [L] rho p q =
        -(((levelAt dims i p : ℂ) - levelAt dims i q) ^ 2 / t2) * rho p q := by
  refine ⟨((Real.sqrt (0.5 / t2) : ℝ) : ℂ) • ((2 : ℂ) • ((ann dims i)ᴴ * ann dims i)), ?_, ?_⟩
  · simp [getLindbladian, collapseList]
  · have hsq : ((Real.sqrt (0.5 / t2) : ℝ) : ℂ) * ((Real.sqrt (0.5 / t2) : ℝ) : ℂ) = 1 / (2 * t2) := by
      rw [← Complex.ofReal_mul, Real.mul_self_sqrt (by positivity)]
      push_cast
      have : (t2 : ℂ) ≠ 0 := by exact_mod_cast h2.ne'
      field_simp
      norm_num
    rw [ann_number dims i hi]
    set c : ℂ := ((Real.sqrt (0.5 / t2) : ℝ) : ℂ) with hc
    have hst : star c = c := Complex.conj_ofReal _
    have hL : c • ((2 : ℂ) • Matrix.diagonal fun p => (levelAt dims i p : ℂ)) =
        Matrix.diagonal fun p => 2 * c * (levelAt dims i p : ℂ) := by
      ext x y
      simp only [Matrix.smul_apply, Matrix.diagonal_apply, smul_eq_mul]
      split <;> ring
    have hLs : (Matrix.diagonal fun p => 2 * c * (levelAt dims i p : ℂ))ᴴ =
        Matrix.diagonal fun p => 2 * c * (levelAt dims i p : ℂ) := by
      rw [Matrix.diagonal_conjTranspose]
      congr 1
      funext x
      simp only [Pi.star_apply, star_mul', hst, star_natCast]
      simp
    unfold masterRHS
    rw [hL]
    simp only [List.map_cons, List.map_nil, List.sum_cons, List.sum_nil, add_zero, hLs, Matrix.zero_mul,
      Matrix.mul_zero, sub_zero, smul_zero, Matrix.diagonal_mul_diagonal, Matrix.sub_apply,
      Matrix.smul_apply, Matrix.add_apply, Matrix.mul_diagonal, Matrix.diagonal_mul, smul_eq_mul]
    have ht : (t2 : ℂ) ≠ 0 := by exact_mod_cast h2.ne'
    have key : 2 * c * (levelAt dims i p : ℂ) * rho p q * (2 * c * (levelAt dims i q : ℂ)) -
        1 / 2 * (2 * c * (levelAt dims i p : ℂ) * (2 * c * (levelAt dims i p : ℂ)) * rho p q +
          rho p q * (2 * c * (levelAt dims i q : ℂ) * (2 * c * (levelAt dims i q : ℂ)))) =
        -(2 * (c * c)) * ((levelAt dims i p : ℂ) - levelAt dims i q) ^ 2 * rho p q := by
      ring
    rw [key, hsq, Matrix.zero_apply, zero_add]
    field_simp

end C3.Hilbert
