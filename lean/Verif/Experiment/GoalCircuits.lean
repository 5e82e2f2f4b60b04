import Verif.Experiment.Circuits
import Verif.Fidelity.Sets

/-!
# C229: what the value of the goal function says about circuits

The goal functions `unitary_infid` (c3/libraries/fidelities.py:154-183), `unitary_infid_set` (187-219), `average_infid`
(290-311) and `average_infid_set` (317-345) are traces of the computational block of the propagators. Here their values are
followed to the populations that `evaluate_legacy` (c3/experiment.py:273-302) returns for circuits of the gates, with all
levels of the subsystems and so with all leakage.
-/

set_option linter.unusedSectionVars false

noncomputable section

namespace C3.Experiment.GoalCircuits

open Matrix C3.Hilbert C3.Fidelity C3.Gates C3.Experiment C3.Experiment.Circuits

/-! ## Specification -/

/-- The state of the qubits as state of all levels: the amplitude of a label of the qubits is put at this label, and all
other labels are empty. -/
def encode {m n : Type*} (f : m → n) (xi : m → ℂ) : n → ℂ := Function.extend f xi 0

/-- The sum of the populations outside of the labels of the qubits. -/
def outside {m n : Type*} [Fintype n] (f : m → n) (v : n → ℂ) : ℝ := by
  classical exact ∑ p, if p ∈ Set.range f then 0 else ‖v p‖ ^ 2

/-! ## Lemmas -/

section

variable {m n : Type*} [Fintype m] [DecidableEq m] [Fintype n] [DecidableEq n]

theorem encode_sum (f : m → n) (hf : Function.Injective f) (xi : m → ℂ) (F : n → ℂ → ℂ) (hF : ∀ p, F p 0 = 0) :
    ∑ p, F p (encode f xi p) = ∑ j, F (f j) (xi j) := by
  refine (Fintype.sum_of_injective f hf _ _ (fun p hp => ?_) fun j => ?_).symm
  · rw [encode, Function.extend_apply' _ _ _ (by simpa using hp)]
    exact hF p
  · rw [encode, hf.extend_apply]

theorem encode_len (f : m → n) (hf : Function.Injective f) (xi : m → ℂ) : len (encode f xi) = len xi := by
  have h : len (encode f xi) ^ 2 = len xi ^ 2 := by
    rw [len_sq, len_sq]
    refine (Fintype.sum_of_injective f hf _ _ (fun p hp => ?_) fun j => ?_).symm
    · rw [encode, Function.extend_apply' _ _ _ (by simpa using hp)]
      simp
    · rw [encode, hf.extend_apply]
  exact (pow_left_inj₀ (len_nonneg _) (len_nonneg _) two_ne_zero).1 h

theorem mulVec_encode (U : Matrix n n ℂ) (f : m → n) (hf : Function.Injective f) (xi : m → ℂ) :
    U *ᵥ encode f xi = U.submatrix id f *ᵥ xi := by
  ext i
  exact encode_sum f hf xi (fun p x => U i p * x) fun p => mul_zero _

theorem encode_mulVec (V : Matrix m m ℂ) (f : m → n) (hf : Function.Injective f) (xi : m → ℂ) :
    encode f (V *ᵥ xi) = (of fun p j => encode f (fun i => V i j) p : Matrix n m ℂ) *ᵥ xi := by
  ext p
  rw [mulVec, dotProduct]
  simp only [of_apply]
  by_cases hp : p ∈ Set.range f
  · obtain ⟨i, rfl⟩ := hp
    simp only [encode, hf.extend_apply]
    rfl
  · have h : ∀ x : m → ℂ, encode f x p = 0 := fun x => by
      rw [encode, Function.extend_apply' _ _ _ (by simpa using hp)]
      rfl
    simp only [h, zero_mul, Finset.sum_const_zero]

theorem frobenius (D : Matrix n m ℂ) (xi : m → ℂ) :
    len (D *ᵥ xi) ^ 2 ≤ (∑ j, ∑ p, ‖D p j‖ ^ 2) * len xi ^ 2 := by
  rw [len_sq, len_sq, Finset.sum_comm, Finset.sum_mul]
  refine Finset.sum_le_sum fun p _ => ?_
  have h1 : ‖(D *ᵥ xi) p‖ ≤ ∑ j, ‖D p j‖ * ‖xi j‖ := by
    rw [mulVec, dotProduct]
    refine (norm_sum_le _ _).trans (le_of_eq ?_)
    simp only [norm_mul]
  exact (pow_le_pow_left₀ (norm_nonneg _) h1 2).trans (Finset.sum_mul_sq_le_sq_mul_sq _ _ _)

theorem norm_sub_phase (a b c : ℂ) (hc : ‖c‖ = 1) :
    ‖a - c * b‖ ^ 2 = ‖a‖ ^ 2 + ‖b‖ ^ 2 - 2 * (star c * (a * star b)).re := by
  have h1 := ResonantInfid.re_mul_star a (c * b)
  rw [norm_mul, hc, one_mul] at h1
  have h2 : star c * (a * star b) = a * star (c * b) := by
    rw [star_mul]
    ring
  rw [h2, h1]
  ring

theorem phase_exists (t : ℂ) : ∃ c : ℂ, ‖c‖ = 1 ∧ star c * t = (‖t‖ : ℂ) := by
  by_cases h : t = 0
  · exact ⟨1, by simp, by simp [h]⟩
  · have hn : (‖t‖ : ℂ) ≠ 0 := by simpa using h
    refine ⟨t / ‖t‖, by rw [norm_div]; simp [h], ?_⟩
    rw [star_div₀, div_mul_eq_mul_div, mul_comm, Complex.star_def, Complex.mul_conj, Complex.normSq_eq_norm_sq,
      Complex.conj_ofReal, div_eq_iff hn]
    push_cast
    ring

/-- Up to a phase, the distance of a propagator from the ideal gate on the labels of the qubits is given by the trace. -/
theorem gate_distance (U : Matrix n n ℂ) (hU : Uᴴ * U = 1) (V : Matrix m m ℂ) (hV : Vᴴ * V = 1) (f : m → n)
    (hf : Function.Injective f) : ∃ c : ℂ, ‖c‖ = 1 ∧ ∀ xi : m → ℂ,
      len (U *ᵥ encode f xi - c • encode f (V *ᵥ xi)) ^ 2 ≤
        (2 * Fintype.card m - 2 * ‖(U.submatrix f f * Vᴴ).trace‖) * len xi ^ 2 := by
  obtain ⟨c, hc, ht⟩ := phase_exists (U.submatrix f f * Vᴴ).trace
  refine ⟨c, hc, fun xi => ?_⟩
  have e : U *ᵥ encode f xi - c • encode f (V *ᵥ xi) =
      (of fun p j => U p (f j) - c * encode f (fun i => V i j) p : Matrix n m ℂ) *ᵥ xi := by
    rw [mulVec_encode U f hf, encode_mulVec V f hf, ← smul_mulVec, ← sub_mulVec]
    rfl
  rw [e]
  refine (frobenius _ xi).trans (le_of_eq ?_)
  congr 1
  simp only [of_apply]
  have h1 : ∀ j, ∑ p, ‖U p (f j) - c * encode f (fun i => V i j) p‖ ^ 2 =
      2 - 2 * (star c * ∑ i, U (f i) (f j) * star (V i j)).re := by
    intro j
    simp only [norm_sub_phase _ _ _ hc, Finset.sum_sub_distrib, Finset.sum_add_distrib]
    rw [col_norm U hU (f j)]
    have h2 : ∑ p, ‖encode f (fun i => V i j) p‖ ^ 2 = 1 := by
      rw [← len_sq, encode_len f hf, len_sq, col_norm V hV j]
    have h3 : ∑ p, U p (f j) * star (encode f (fun i => V i j) p) = ∑ i, U (f i) (f j) * star (V i j) :=
      encode_sum f hf (fun i => V i j) (fun p x => U p (f j) * star x) fun p => by simp
    rw [h2, ← Finset.mul_sum, ← Complex.re_sum, ← Finset.mul_sum, h3]
    norm_num
  simp only [h1, Finset.sum_sub_distrib]
  rw [← Finset.mul_sum, ← Complex.re_sum, ← Finset.mul_sum]
  have h4 : ∑ j, ∑ i, U (f i) (f j) * star (V i j) = (U.submatrix f f * Vᴴ).trace := by
    rw [trace_mul_adj, Finset.sum_comm, Fintype.sum_prod_type]
    rfl
  rw [h4, ht]
  simp [mul_comm]

/-- The part of the states of the qubits that a propagator moves outside. -/
theorem leak_le [Nonempty m] (U : Matrix n n ℂ) (hU : Uᴴ * U = 1) (V : Matrix m m ℂ) (hV : Vᴴ * V = 1) (f : m → n)
    (hf : Function.Injective f) : (∑ j, outside f (U *ᵥ encode f (Pi.single j 1))) / Fintype.card m ≤
      1 - (‖(U.submatrix f f * Vᴴ).trace‖ / Fintype.card m) ^ 2 := by
  classical
  have hpos : (0 : ℝ) < Fintype.card m := by exact_mod_cast Fintype.card_pos
  have h1 : ∀ j, U *ᵥ encode f (Pi.single j 1) = fun p => U p (f j) := by
    intro j
    rw [mulVec_encode U f hf, mulVec_single_one]
    rfl
  have h2 : ∀ j, outside f (U *ᵥ encode f (Pi.single j 1)) = 1 - ∑ i, ‖U (f i) (f j)‖ ^ 2 := by
    intro j
    rw [h1, outside, ← col_norm U hU (f j)]
    have h3 : ∑ i, ‖U (f i) (f j)‖ ^ 2 = ∑ p, if p ∈ Set.range f then ‖U p (f j)‖ ^ 2 else 0 :=
      Fintype.sum_of_injective f hf _ _ (fun p hp => if_neg hp) fun i => by rw [if_pos ⟨i, rfl⟩]
    rw [h3, ← Finset.sum_sub_distrib]
    refine Finset.sum_congr rfl fun p _ => ?_
    split_ifs <;> simp
  simp only [h2, Finset.sum_sub_distrib]
  have h5 : ‖(U.submatrix f f * Vᴴ).trace‖ ^ 2 ≤ (∑ j, ∑ i, ‖U (f i) (f j)‖ ^ 2) * Fintype.card m := by
    rw [trace_mul_adj, Finset.sum_comm, ← Fintype.sum_prod_type' (f := fun i j => ‖U (f i) (f j)‖ ^ 2)]
    have h6 := Finset.sum_mul_sq_le_sq_mul_sq Finset.univ
      (fun x : m × m => ‖U (f x.1) (f x.2)‖) (fun x : m × m => ‖V x.1 x.2‖)
    have h7 : ∑ x : m × m, ‖V x.1 x.2‖ ^ 2 = Fintype.card m := by
      rw [Fintype.sum_prod_type' (f := fun i j => ‖V i j‖ ^ 2), Finset.sum_comm]
      simp [col_norm V hV]
    rw [h7] at h6
    refine (pow_le_pow_left₀ (norm_nonneg _) ((norm_sum_le _ _).trans (le_of_eq ?_)) 2).trans h6
    refine Finset.sum_congr rfl fun x _ => ?_
    rw [norm_mul, norm_star]
    rfl
  rw [sub_div, div_pow]
  have h8 : (∑ _j : m, (1 : ℝ)) / Fintype.card m = 1 := by
    simp [hpos.ne']
  rw [h8]
  refine sub_le_sub_left ?_ 1
  rw [div_le_div_iff₀ (by positivity) hpos]
  nlinarith [hpos]

/-- Errors of the gates add up, phases of the gates do not matter. -/
theorem run_phase (f : m → n) (props : String → Option (Matrix n n ℂ))
    (V : String → Matrix m m ℂ) (ε : String → ℝ) (s : List String)
    (h : ∀ g ∈ s, (V g)ᴴ * V g = 1 ∧ ∃ U, props g = some U ∧ Uᴴ * U = 1 ∧ ∃ c : ℂ, ‖c‖ = 1 ∧
      ∀ xi, len xi = 1 → len (U *ᵥ encode f xi - c • encode f (V g *ᵥ xi)) ≤ ε g)
    (xi : m → ℂ) (hxi : len xi = 1) (b : ℂ) (hb : ‖b‖ = 1) (chi : n → ℂ) :
    ∃ v, runSeq props s chi = some v ∧ len v = len chi ∧ len (circuit V s xi) = 1 ∧ ∃ c : ℂ, ‖c‖ = 1 ∧
      len (v - c • encode f (circuit V s xi)) ≤ len (chi - b • encode f xi) + (s.map ε).sum := by
  induction s generalizing xi b chi with
  | nil => exact ⟨chi, rfl, rfl, hxi, b, hb, by simp [circuit]⟩
  | cons g s ih =>
    obtain ⟨hV, U, h1, h2, c, hc, h3⟩ := h g List.mem_cons_self
    obtain ⟨v, h4, h5, h6, c', hc', h7⟩ := ih (fun g hg => h g (List.mem_cons_of_mem _ hg)) (V g *ᵥ xi)
      (by rw [len_unitary _ hV, hxi]) (b * c) (by rw [norm_mul, hb, hc, one_mul]) (U *ᵥ chi)
    refine ⟨v, by rw [runSeq, h1]; exact h4, by rw [h5, len_unitary _ h2], h6, c', hc', h7.trans ?_⟩
    have e : U *ᵥ chi - (b * c) • encode f (V g *ᵥ xi) =
        U *ᵥ (chi - b • encode f xi) + b • (U *ᵥ encode f xi - c • encode f (V g *ᵥ xi)) := by
      rw [mulVec_sub, mulVec_smul, smul_sub, smul_smul]
      abel
    have h8 : ∀ w : n → ℂ, len (b • w) = len w := by
      intro w
      unfold len
      rw [WithLp.toLp_smul, norm_smul, hb, one_mul]
    have h9 := len_add (U *ᵥ (chi - b • encode f xi)) (b • (U *ᵥ encode f xi - c • encode f (V g *ᵥ xi)))
    rw [← e, len_unitary _ h2, h8] at h9
    have h10 := h3 xi hxi
    rw [List.map_cons, List.sum_cons]
    linarith

/-- The populations of circuits of gates that are close to ideal gates on the labels of the qubits. -/
theorem pops_close (f : m → n) (hf : Function.Injective f) (props : String → Option (Matrix n n ℂ))
    (V : String → Matrix m m ℂ) (ε : String → ℝ) (seqs : List (List String))
    (h : ∀ s ∈ seqs, ∀ g ∈ s, (V g)ᴴ * V g = 1 ∧ ∃ U, props g = some U ∧ Uᴴ * U = 1 ∧ ∃ c : ℂ, ‖c‖ = 1 ∧
      ∀ xi, len xi = 1 → len (U *ᵥ encode f xi - c • encode f (V g *ᵥ xi)) ≤ ε g)
    (xi : m → ℂ) (hxi : ∑ j, ‖xi j‖ ^ 2 = 1) :
    ∃ pops, evaluateClosed props seqs (encode f xi) = some pops ∧ pops.length = seqs.length ∧
      ∀ (i : ℕ) (seq : List String) (pop : n → ℝ), seqs[i]? = some seq → pops[i]? = some pop →
        ∑ p, |pop p - ‖encode f (circuit V seq xi) p‖ ^ 2| ≤ 2 * (seq.map ε).sum := by
  have hlen : len xi = 1 := by
    have h1 := len_sq xi
    rw [hxi] at h1
    exact (pow_eq_one_iff_of_nonneg (len_nonneg _) two_ne_zero).1 h1
  obtain ⟨hev, -⟩ := C65_closed props seqs (encode f xi)
    (fun q hq g hg => let ⟨_, U, h1, h2, _⟩ := h q hq g hg; ⟨U, h1, h2⟩) (by rw [← len_sq, encode_len f hf, hlen, one_pow])
  refine ⟨_, hev, by simp, fun i seq pop hi hp => ?_⟩
  rw [List.getElem?_map, hi, Option.map_some, Option.some.injEq] at hp
  subst hp
  have hmem : seq ∈ seqs := List.mem_of_getElem? hi
  obtain ⟨v, h1, h2, h3, c, hc, h4⟩ := run_phase f props V ε seq (h seq hmem) xi hlen 1 norm_one (encode f xi)
  rw [runSeq_eq props seq _ fun g hg => let ⟨_, U, h1, _⟩ := h seq hmem g hg; ⟨U, h1⟩, Option.some_inj] at h1
  beta_reduce
  rw [h1]
  have h5 : ∀ w : n → ℂ, len (c • w) = len w := by
    intro w
    unfold len
    rw [WithLp.toLp_smul, norm_smul, hc, one_mul]
  have h6 := populations_close v (c • encode f (circuit V seq xi)) (by rw [h2, encode_len f hf, hlen])
    (by rw [h5, encode_len f hf, h3]) (seq.map ε).sum (h4.trans (le_of_eq (by
      rw [one_smul, sub_self]
      unfold len
      rw [WithLp.toLp_zero, norm_zero, zero_add])))
  simpa only [Pi.smul_apply, smul_eq_mul, norm_mul, hc, one_mul] using h6

end

/-! ## Theorems -/

/-- The propagator and the ideal gate have the right shapes and are unitary. -/
structure Fits (dims index : List ℕ) (ideal actual : Arr ℂ) : Prop where
  rows : actual.rows = dims.prod
  cols : actual.cols = dims.prod
  idealRows : ideal.rows = 2 ^ index.length
  idealCols : ideal.cols = 2 ^ index.length
  unitary : (actual.mat dims.prod dims.prod)ᴴ * actual.mat dims.prod dims.prod = 1
  idealUnitary : (ideal.mat (outDims dims index).prod (outDims dims index).prod)ᴴ *
    ideal.mat (outDims dims index).prod (outDims dims index).prod = 1

/-- The error of a gate for any state of the qubits, from its infidelity. -/
def errorOf (index : List ℕ) (x : ℝ) : ℝ := Real.sqrt (2 * 2 ^ index.length * x)

/-- **C229**: the value of `unitary_infid` bounds the error of the gate for every state of the qubits, not only on average
and not only within the computational space: up to a phase, the state after the propagator differs from that after the
ideal gate by at most the root of twice the dimension times the infidelity. -/
theorem C229_gate (ideal actual : Arr ℂ) (dims index : List ℕ) (hd : ∀ d ∈ dims, 2 ≤ d) (hne : index ≠ [])
    (hnd : index.Nodup) (hlt : ∀ i ∈ index, i < dims.length) (hfit : Fits dims index ideal actual) (x : ℝ)
    (hx : unitaryInfid ideal actual (some index) dims = some x) : ∃ c : ℂ, ‖c‖ = 1 ∧
      ∀ xi : Fin (outDims dims index).prod → ℂ, len xi = 1 →
        len (actual.mat dims.prod dims.prod *ᵥ encode (compEmb dims index hd) xi -
          c • encode (compEmb dims index hd)
            (ideal.mat (outDims dims index).prod (outDims dims index).prod *ᵥ xi)) ≤ errorOf index x := by
  obtain ⟨hr, hc, hir, hic, hU, hV⟩ := hfit
  have hp := outDims_prod dims index hnd hlt
  have hval := C61_value ideal actual dims index hd hne hnd hlt hr hc hir hic
  rw [hx, Option.some_inj] at hval
  obtain ⟨x', hx', h0, h1, -⟩ := C61_range ideal actual dims index hd hne hnd hlt hr hc hir hic hU hV
  obtain rfl : x = x' := Option.some.inj (hx.symm.trans hx')
  obtain ⟨c, hcn, h⟩ := gate_distance _ hU _ hV _ (compEmb_injective dims index hd)
  refine ⟨c, hcn, fun xi hxi => ?_⟩
  have h2 := h xi
  rw [hxi, one_pow, mul_one] at h2
  refine Real.le_sqrt_of_sq_le (h2.trans ?_)
  have hcard : (Fintype.card (Fin (outDims dims index).prod) : ℝ) = 2 ^ index.length := by
    rw [Fintype.card_fin, hp]
    push_cast
    rfl
  rw [hcard]
  have hpos : (0 : ℝ) < 2 ^ index.length := by positivity
  have ht0 := norm_nonneg ((actual.mat dims.prod dims.prod).submatrix (compEmb dims index hd)
        (compEmb dims index hd) * (ideal.mat (outDims dims index).prod
          (outDims dims index).prod)ᴴ).trace
  generalize ‖((actual.mat dims.prod dims.prod).submatrix (compEmb dims index hd)
        (compEmb dims index hd) * (ideal.mat (outDims dims index).prod
          (outDims dims index).prod)ᴴ).trace‖ = t at hval h2 ht0
  generalize (2 : ℝ) ^ index.length = d at *
  have e : t = d * (t / d) := by field_simp
  have h3 : (t / d) ^ 2 = 1 - x := by linarith
  have h4 : 0 ≤ t / d := by positivity
  have h5 : 1 - x ≤ t / d := by
    rcases le_or_gt (t / d) 1 with h6 | h6
    · nlinarith
    · linarith
  nlinarith

/-- **C229**: averaged over the labels of the qubits, the population that a gate moves out of the computational space is at
most the value of `unitary_infid`. -/
theorem C229_leakage (ideal actual : Arr ℂ) (dims index : List ℕ) (hd : ∀ d ∈ dims, 2 ≤ d) (hne : index ≠ [])
    (hnd : index.Nodup) (hlt : ∀ i ∈ index, i < dims.length) (hfit : Fits dims index ideal actual) (x : ℝ)
    (hx : unitaryInfid ideal actual (some index) dims = some x) :
    (∑ j, outside (compEmb dims index hd) (actual.mat dims.prod dims.prod *ᵥ
      encode (compEmb dims index hd) (Pi.single j 1))) / 2 ^ index.length ≤ x := by
  obtain ⟨hr, hc, hir, hic, hU, hV⟩ := hfit
  have hp := outDims_prod dims index hnd hlt
  have : Nonempty (Fin (outDims dims index).prod) := ⟨⟨0, by rw [hp]; positivity⟩⟩
  have hval := C61_value ideal actual dims index hd hne hnd hlt hr hc hir hic
  rw [hx, Option.some_inj] at hval
  have h := leak_le _ hU _ hV _ (compEmb_injective dims index hd)
  have hcard : (Fintype.card (Fin (outDims dims index).prod) : ℝ) = 2 ^ index.length := by
    rw [Fintype.card_fin, hp]
    push_cast
    rfl
  rw [hcard] at h
  rw [hval]
  exact h

/-- **C229**: let the propagators of some gates have values of `unitary_infid`. Then circuits of them can be evaluated from
every state of the qubits, and the sum of the errors of all populations, those of the higher levels included, is at most
twice the sum of the errors of the gates. -/
theorem C229_circuits (dims index : List ℕ) (hd : ∀ d ∈ dims, 2 ≤ d) (hne : index ≠ []) (hnd : index.Nodup)
    (hlt : ∀ i ∈ index, i < dims.length) (names : List String) (ideal actual : String → Arr ℂ) (x : String → ℝ)
    (hfit : ∀ g ∈ names, Fits dims index (ideal g) (actual g))
    (hx : ∀ g ∈ names, unitaryInfid (ideal g) (actual g) (some index) dims = some (x g))
    (props : String → Option (Matrix (Fin dims.prod) (Fin dims.prod) ℂ))
    (hprops : ∀ g ∈ names, props g = some ((actual g).mat dims.prod dims.prod))
    (seqs : List (List String)) (hseqs : ∀ s ∈ seqs, ∀ g ∈ s, g ∈ names)
    (xi : Fin (outDims dims index).prod → ℂ) (hxi : ∑ j, ‖xi j‖ ^ 2 = 1) :
    ∃ pops, evaluateClosed props seqs (encode (compEmb dims index hd) xi) = some pops ∧ pops.length = seqs.length ∧
      ∀ (i : ℕ) (seq : List String) (pop : Fin dims.prod → ℝ), seqs[i]? = some seq → pops[i]? = some pop →
        ∑ p, |pop p - ‖encode (compEmb dims index hd) (circuit (fun g =>
            (ideal g).mat (outDims dims index).prod (outDims dims index).prod) seq xi) p‖ ^ 2| ≤
          2 * (seq.map fun g => errorOf index (x g)).sum :=
  pops_close (compEmb dims index hd) (compEmb_injective dims index hd) props _ (fun g => errorOf index (x g)) seqs
    (fun s hs g hg => by
      have hg' := hseqs s hs g hg
      obtain ⟨c, hc, h⟩ := C229_gate (ideal g) (actual g) dims index hd hne hnd hlt (hfit g hg') (x g) (hx g hg')
      exact ⟨(hfit g hg').idealUnitary, _, hprops g hg', (hfit g hg').unitary, c, hc, h⟩) xi hxi

/-- A value that belongs to one of the gates of a mean of values that are not negative. -/
theorem mem_le_mean {α : Type} (R : α → ℝ → Prop) (l : List α) (v : ℝ) (h : IsMean R l v)
    (hR : ∀ a ∈ l, ∀ x, R a x → 0 ≤ x) (a : α) (ha : a ∈ l) : ∃ x, R a x ∧ x ≤ l.length * v := by
  obtain ⟨xs, hf, hne, hv⟩ := h
  obtain ⟨hlen, hg⟩ := List.forall₂_iff_get.1 hf
  have h0 : ∀ x ∈ xs, 0 ≤ x := by
    intro x hx
    obtain ⟨i, hi, rfl⟩ := List.getElem_of_mem hx
    exact hR _ (List.getElem_mem _) _ (hg i (by omega) hi)
  obtain ⟨i, hi, rfl⟩ := List.getElem_of_mem ha
  refine ⟨_, hg i hi (by omega), ?_⟩
  rw [mul_comm, hv]
  exact List.single_le_sum h0 _ (List.getElem_mem _)

/-- **C229**: the value `v` of the goal function `unitary_infid_set` for a set of gates bounds the errors of all circuits of
these gates: the sum of the errors of all populations is at most twice the number of gates in the circuit times the error
that belongs to the infidelity `names.length * v`. In particular a value of zero makes all circuits exact. -/
theorem C229_set (dims index : List ℕ) (hd : ∀ d ∈ dims, 2 ≤ d) (hne : index ≠ []) (hnd : index.Nodup)
    (hlt : ∀ i ∈ index, i < dims.length) (names : List String) (data : String → GateData) (ideal : String → Arr ℂ)
    (hideal : ∀ g ∈ names, getIdealGateIndex (data g).2.1 (data g).2.2 dims index = some (ideal g))
    (hfit : ∀ g ∈ names, Fits dims index (ideal g) (data g).1) (v : ℝ)
    (hv : unitaryInfidSet (names.map data) index dims = some v)
    (props : String → Option (Matrix (Fin dims.prod) (Fin dims.prod) ℂ))
    (hprops : ∀ g ∈ names, props g = some ((data g).1.mat dims.prod dims.prod))
    (seqs : List (List String)) (hseqs : ∀ s ∈ seqs, ∀ g ∈ s, g ∈ names)
    (xi : Fin (outDims dims index).prod → ℂ) (hxi : ∑ j, ‖xi j‖ ^ 2 = 1) :
    ∃ pops, evaluateClosed props seqs (encode (compEmb dims index hd) xi) = some pops ∧ pops.length = seqs.length ∧
      ∀ (i : ℕ) (seq : List String) (pop : Fin dims.prod → ℝ), seqs[i]? = some seq → pops[i]? = some pop →
        ∑ p, |pop p - ‖encode (compEmb dims index hd) (circuit (fun g =>
            (ideal g).mat (outDims dims index).prod (outDims dims index).prod) seq xi) p‖ ^ 2| ≤
          2 * (seq.length * errorOf index (names.length * v)) := by
  have hval : ∀ g ∈ names, ∃ x, unitaryInfid (ideal g) (data g).1 (some index) dims = some x ∧ x ≤ names.length * v := by
    intro g hg
    obtain ⟨x, ⟨P, h1, h2⟩, h3⟩ := mem_le_mean _ _ _ ((C171_unitary _ _ _ _).1 hv) (by
      intro a ha x hx
      obtain ⟨g', hg', rfl⟩ := List.mem_map.1 ha
      obtain ⟨P, h1, h2⟩ := hx
      rw [hideal g' hg', Option.some_inj] at h1
      subst h1
      obtain ⟨hr, hc, hir, hic, hU, hV⟩ := hfit g' hg'
      obtain ⟨x', hx', h0, -⟩ := C61_range _ _ dims index hd hne hnd hlt hr hc hir hic hU hV
      rw [h2, Option.some_inj] at hx'
      rwa [hx']) (data g) (List.mem_map_of_mem hg)
    rw [hideal g hg, Option.some_inj] at h1
    subst h1
    rw [List.length_map] at h3
    exact ⟨x, h2, h3⟩
  have hall : ∀ g, ∃ x, g ∈ names → unitaryInfid (ideal g) (data g).1 (some index) dims = some x ∧
      x ≤ names.length * v := by
    intro g
    by_cases hg : g ∈ names
    · obtain ⟨x, h⟩ := hval g hg
      exact ⟨x, fun _ => h⟩
    · exact ⟨0, fun h => absurd h hg⟩
  choose x hx using hall
  obtain ⟨pops, h1, h2, h3⟩ := C229_circuits dims index hd hne hnd hlt names ideal (fun g => (data g).1) x hfit
    (fun g hg => (hx g hg).1) props hprops seqs hseqs xi hxi
  refine ⟨pops, h1, h2, fun i seq pop hi hp => (h3 i seq pop hi hp).trans ?_⟩
  refine mul_le_mul_of_nonneg_left ?_ (by norm_num)
  have h4 := List.sum_le_card_nsmul (seq.map fun g => errorOf index (x g)) (errorOf index (names.length * v)) (by
    intro y hy
    obtain ⟨g, hg, rfl⟩ := List.mem_map.1 hy
    refine Real.sqrt_le_sqrt ?_
    have := (hx g (hseqs seq (List.mem_of_getElem? hi) g hg)).2
    exact mul_le_mul_of_nonneg_left this (by positivity))
  rwa [List.length_map, nsmul_eq_mul] at h4

/-- **C229** for `average_infid_set`: an average infidelity `v` is a unitary infidelity `(d + 1) / d * v`. -/
theorem C229_average (dims index : List ℕ) (hd : ∀ d ∈ dims, 2 ≤ d) (hne : index ≠ []) (hnd : index.Nodup)
    (hlt : ∀ i ∈ index, i < dims.length) (gates : List GateData)
    (hfit : ∀ g ∈ gates, ∃ P, getIdealGateIndex g.2.1 g.2.2 dims index = some P ∧ Fits dims index P g.1) (v : ℝ)
    (hv : averageInfidSet gates index dims = some v) :
    unitaryInfidSet gates index dims = some ((2 ^ index.length + 1) / 2 ^ index.length * v) := by
  rw [C171_average] at hv
  rw [C171_unitary]
  obtain ⟨ys, hf, hn, hs⟩ := hv
  refine ⟨ys.map fun y => (2 ^ index.length + 1) / 2 ^ index.length * y, ?_, hn, ?_⟩
  · rw [List.forall₂_map_right_iff]
    refine (List.forall₂_and_left (p := fun g => g ∈ gates) gates ys).2 ⟨fun g hg => hg, hf⟩ |>.imp ?_
    rintro g y ⟨hg, P, h1, h2⟩
    obtain ⟨Q, h3, hQ⟩ := hfit g hg
    rw [h1, Option.some_inj] at h3
    subst h3
    obtain ⟨a, b, h4, h5, h6⟩ := C63_value P g.1 dims index hd hne hnd hlt hQ.rows hQ.cols hQ.idealRows hQ.idealCols
    rw [h2, Option.some_inj] at h5
    subst h5
    refine ⟨P, h1, ?_⟩
    rw [h4, h6]
    congr 1
    field_simp
  · rw [List.sum_map_mul_left, List.map_id', ← hs]
    ring

theorem outDims_full (dims : List ℕ) : outDims dims (List.range dims.length) = List.replicate dims.length 2 := by
  unfold outDims
  rw [List.eq_replicate_iff]
  simp only [List.length_map, List.length_range, List.mem_map, List.mem_range, true_and]
  rintro b ⟨t, ht, rfl⟩
  rw [if_pos ht]

/-- The ideal gate of a named instruction with all qubits compared. -/
theorem named_ideal (g : Gate) (targets dims : List ℕ) (hne : dims ≠ []) (hnd : targets.Nodup)
    (hlt : ∀ t ∈ targets, t < dims.length) (hlen : targets.length = g.qubits) :
    ∃ P, getIdealGateIndex (some (idealFromName [g.name])) (some targets) dims (List.range dims.length) = some P ∧
      P.rows = 2 ^ (List.range dims.length).length ∧ P.cols = 2 ^ (List.range dims.length).length ∧
      (P.mat (outDims dims (List.range dims.length)).prod (outDims dims (List.range dims.length)).prod)ᴴ *
        P.mat (outDims dims (List.range dims.length)).prod (outDims dims (List.range dims.length)).prod = 1 ∧
      ∀ l m, Valid (List.replicate dims.length 2) l → Valid (List.replicate dims.length 2) m →
        P.e (flat (List.replicate dims.length 2) l) (flat (List.replicate dims.length 2) m) =
        if SameRest dims.length targets l m then
          g.arr.e (flat (List.replicate g.qubits 2) (tup targets l)) (flat (List.replicate g.qubits 2) (tup targets m))
        else 0 := by
  obtain ⟨A, h1, -, -, h4, h5⟩ := C57_named g targets dims hnd hlt hlen
  obtain ⟨P, h6, h7, h8, h9⟩ := (C171_ideal _ _ _ (List.range dims.length)).2.2 A h1 (by
    rw [Ne, List.range_eq_nil, List.length_eq_zero_iff]
    exact hne)
  rw [outDims_full] at h7 h8 h9
  refine ⟨P, h6, ?_, ?_, ?_, fun l m hl hm => by rw [h9 l m hl hm, h4 l m hl hm]⟩
  · simpa using h7
  · simpa using h8
  · have e : P.mat (List.replicate dims.length 2).prod (List.replicate dims.length 2).prod =
        A.mat (List.replicate dims.length 2).prod (List.replicate dims.length 2).prod :=
      ext_labels fun l m hl hm => h9 l m hl hm
    rw [outDims_full, e]
    exact h5

/-- **C229** for gates of the library with all qubits compared, as in the default of the goal functions: the value `v` of
`unitary_infid_set` bounds the errors of the populations of all circuits. Nothing is assumed of the ideal gates: they are
the matrices of the library on the targets. -/
theorem C229_named (dims : List ℕ) (hd : ∀ d ∈ dims, 2 ≤ d) (hne : dims ≠ []) (names : List String)
    (gate : String → Gate) (targets : String → List ℕ) (hnd : ∀ g ∈ names, (targets g).Nodup)
    (hlt : ∀ g ∈ names, ∀ t ∈ targets g, t < dims.length)
    (hlen : ∀ g ∈ names, (targets g).length = (gate g).qubits) (actual : String → Arr ℂ)
    (hact : ∀ g ∈ names, (actual g).rows = dims.prod ∧ (actual g).cols = dims.prod ∧
      ((actual g).mat dims.prod dims.prod)ᴴ * (actual g).mat dims.prod dims.prod = 1) :
    ∃ ideal : String → Arr ℂ,
      (∀ g ∈ names, ∀ l m, Valid (List.replicate dims.length 2) l → Valid (List.replicate dims.length 2) m →
        (ideal g).e (flat (List.replicate dims.length 2) l) (flat (List.replicate dims.length 2) m) =
          if SameRest dims.length (targets g) l m then
            (gate g).arr.e (flat (List.replicate (gate g).qubits 2) (tup (targets g) l))
              (flat (List.replicate (gate g).qubits 2) (tup (targets g) m))
          else 0) ∧
      (names ≠ [] → ∃ v, unitaryInfidSet (names.map fun g =>
        (actual g, some (idealFromName [(gate g).name]), some (targets g))) (List.range dims.length) dims = some v) ∧
      ∀ v, unitaryInfidSet (names.map fun g =>
        (actual g, some (idealFromName [(gate g).name]), some (targets g))) (List.range dims.length) dims = some v →
      ∀ (props : String → Option (Matrix (Fin dims.prod) (Fin dims.prod) ℂ)),
        (∀ g ∈ names, props g = some ((actual g).mat dims.prod dims.prod)) →
      ∀ (seqs : List (List String)), (∀ s ∈ seqs, ∀ g ∈ s, g ∈ names) →
      ∀ xi : Fin (outDims dims (List.range dims.length)).prod → ℂ, ∑ j, ‖xi j‖ ^ 2 = 1 →
      ∃ pops, evaluateClosed props seqs (encode (compEmb dims (List.range dims.length) hd) xi) = some pops ∧
        pops.length = seqs.length ∧
        ∀ (i : ℕ) (seq : List String) (pop : Fin dims.prod → ℝ), seqs[i]? = some seq → pops[i]? = some pop →
          ∑ p, |pop p - ‖encode (compEmb dims (List.range dims.length) hd) (circuit (fun g => (ideal g).mat
              (outDims dims (List.range dims.length)).prod (outDims dims (List.range dims.length)).prod) seq xi) p‖ ^ 2| ≤
            2 * (seq.length * Real.sqrt (2 * 2 ^ dims.length * (names.length * v))) := by
  have hall : ∀ g, ∃ P, g ∈ names →
      getIdealGateIndex (some (idealFromName [(gate g).name])) (some (targets g)) dims (List.range dims.length) = some P ∧
      P.rows = 2 ^ (List.range dims.length).length ∧ P.cols = 2 ^ (List.range dims.length).length ∧
      (P.mat (outDims dims (List.range dims.length)).prod (outDims dims (List.range dims.length)).prod)ᴴ *
        P.mat (outDims dims (List.range dims.length)).prod (outDims dims (List.range dims.length)).prod = 1 ∧
      ∀ l m, Valid (List.replicate dims.length 2) l → Valid (List.replicate dims.length 2) m →
        P.e (flat (List.replicate dims.length 2) l) (flat (List.replicate dims.length 2) m) =
        if SameRest dims.length (targets g) l m then
          (gate g).arr.e (flat (List.replicate (gate g).qubits 2) (tup (targets g) l))
            (flat (List.replicate (gate g).qubits 2) (tup (targets g) m))
        else 0 := by
    intro g
    by_cases hg : g ∈ names
    · obtain ⟨P, h⟩ := named_ideal (gate g) (targets g) dims hne (hnd g hg) (hlt g hg) (hlen g hg)
      exact ⟨P, fun _ => h⟩
    · exact ⟨eye 0 0, fun h => absurd h hg⟩
  choose ideal hideal using hall
  have hfit : ∀ g ∈ names, Fits dims (List.range dims.length) (ideal g) (actual g) := fun g hg =>
    ⟨(hact g hg).1, (hact g hg).2.1, (hideal g hg).2.1, (hideal g hg).2.2.1, (hact g hg).2.2, (hideal g hg).2.2.2.1⟩
  have hr : List.range dims.length ≠ [] := by
    rw [Ne, List.range_eq_nil, List.length_eq_zero_iff]
    exact hne
  refine ⟨ideal, fun g hg => (hideal g hg).2.2.2.2, fun hn => ?_, fun v hv props hprops seqs hseqs xi hxi => ?_⟩
  · have hval : ∀ g, ∃ x, g ∈ names → unitaryInfid (ideal g) (actual g) (some (List.range dims.length)) dims = some x := by
      intro g
      by_cases hg : g ∈ names
      · exact ⟨_, fun _ => C61_value (ideal g) (actual g) dims _ hd hr List.nodup_range (by simp) (hfit g hg).rows
          (hfit g hg).cols (hfit g hg).idealRows (hfit g hg).idealCols⟩
      · exact ⟨0, fun h => absurd h hg⟩
    choose x hx using hval
    refine ⟨(names.map x).sum / names.length, (C171_unitary _ _ _ _).2 ⟨names.map x, ?_, by simpa using hn, ?_⟩⟩
    · rw [List.forall₂_map_left_iff, List.forall₂_map_right_iff, List.forall₂_same]
      exact fun g hg => ⟨ideal g, (hideal g hg).1, hx g hg⟩
    · have : (names.length : ℝ) ≠ 0 := by
        rw [Ne, Nat.cast_eq_zero, List.length_eq_zero_iff]
        exact hn
      rw [List.length_map, div_mul_cancel₀ _ this]
  · have h := C229_set dims (List.range dims.length) hd hr List.nodup_range (by simp) names
      (fun g => (actual g, some (idealFromName [(gate g).name]), some (targets g))) ideal (fun g hg => (hideal g hg).1)
      hfit v hv props hprops seqs hseqs xi hxi
    unfold errorOf at h
    rwa [List.length_range] at h

/-- A gate on one transmon with three levels that should do nothing but turns the upper two levels into each other. -/
def exGate : Arr ℂ := ⟨3, 3, fun i j => if i = 0 ∧ j = 0 then 1 else if i = 0 ∨ j = 0 then 0 else if i = j then 4 / 5 else
  if i = 2 then 3 / 5 else -3 / 5⟩

theorem eye_one (N : ℕ) : (eye 2 2 : Arr ℂ).mat N N = 1 := by
  ext i j
  simp [Arr.mat, eye, Matrix.one_apply, Fin.ext_iff]

theorem exGate_fits : Fits [3] [0] (eye 2 2) exGate := by
  refine ⟨rfl, rfl, rfl, rfl, ?_, ?_⟩
  · change (exGate.mat 3 3)ᴴ * exGate.mat 3 3 = 1
    have h : ∀ a : ℝ, (starRingEnd ℂ) (a : ℂ) = a := Complex.conj_ofReal
    have h3 := h 3
    have h4 := h 4
    have h5 := h 5
    push_cast at h3 h4 h5
    ext i j
    fin_cases i <;> fin_cases j <;>
      simp [Matrix.mul_apply, Fin.sum_univ_three, Arr.mat, exGate, h3, h4, h5] <;> norm_num
  · rw [eye_one, conjTranspose_one, one_mul]

/-- Its infidelity: the leakage from the upper level of the qubit is 9 / 25, so that the bound of `C229_leakage` says
9 / 50 ≤ 19 / 100. -/
theorem exGate_infid : unitaryInfid (eye 2 2) exGate (some [0]) [3] = some (19 / 100) := by
  rw [C61_value (eye 2 2) exGate [3] [0] (by simp) (by simp) (by simp) (by simp) rfl rfl rfl rfl, eye_one,
    conjTranspose_one, mul_one]
  have h : ((exGate.mat [3].prod [3].prod).submatrix (compEmb [3] [0] (by simp)) (compEmb [3] [0] (by simp))).trace =
      (9 / 5 : ℂ) := by
    change ∑ i : Fin 2, exGate.e (flat [3] ((stateLabels [2]).getD i [])) (flat [3] ((stateLabels [2]).getD i [])) = _
    have h0 : flat [3] ((stateLabels [2]).getD 0 []) = 0 := by decide
    have h1 : flat [3] ((stateLabels [2]).getD 1 []) = 1 := by decide
    rw [Fin.sum_univ_two]
    change exGate.e (flat [3] ((stateLabels [2]).getD 0 [])) (flat [3] ((stateLabels [2]).getD 0 [])) +
      exGate.e (flat [3] ((stateLabels [2]).getD 1 [])) (flat [3] ((stateLabels [2]).getD 1 [])) = _
    rw [h0, h1]
    simp [exGate]
    norm_num
  rw [h]
  norm_num

/-- Circuits of this gate. -/
example (xi : Fin (outDims [3] [0]).prod → ℂ) (hxi : ∑ j, ‖xi j‖ ^ 2 = 1) : ∃ pop,
    evaluateClosed (fun _ => some (exGate.mat [3].prod [3].prod)) [["id"]] (encode (compEmb [3] [0] (by simp)) xi) =
      some [pop] ∧
    ∑ p, |pop p - ‖encode (compEmb [3] [0] (by simp)) xi p‖ ^ 2| ≤ 2 * Real.sqrt (19 / 25) := by
  obtain ⟨pops, h1, h2, h3⟩ := C229_circuits [3] [0] (by simp) (by simp) (by simp) (by simp) ["id"] (fun _ => eye 2 2)
    (fun _ => exGate) (fun _ => 19 / 100) (fun _ _ => exGate_fits) (fun _ _ => exGate_infid)
    (fun _ => some (exGate.mat [3].prod [3].prod)) (fun _ _ => rfl) [["id"]] (by simp) xi hxi
  obtain ⟨pop, rfl⟩ := List.length_eq_one_iff.1 h2
  refine ⟨pop, h1, ?_⟩
  have h4 := h3 0 ["id"] pop rfl rfl
  simp only [circuit, List.foldl_cons, List.foldl_nil, eye_one, one_mulVec] at h4
  refine h4.trans (le_of_eq ?_)
  simp only [errorOf, List.map_cons, List.map_nil, List.sum_cons, List.sum_nil, add_zero, List.length_cons,
    List.length_nil]
  norm_num

end C3.Experiment.GoalCircuits
