import Verif.Experiment.FromInstruction

/-!
# C223: from instructions to the populations of circuits

C219 gives the gate of one instruction. Here a set of instructions is played on the same chip, the gates are computed by
`compute_propagators` (c3/experiment.py:440-534) and sequences of them are evaluated by `evaluate_legacy`
(c3/experiment.py:273-302). The populations are compared with those of the circuit of rotations.
-/

set_option linter.unusedSectionVars false

noncomputable section

namespace C3.Experiment.Circuits

open Matrix Set C3.Propagation C3.Hilbert C3.Fidelity C3.Experiment C3.Experiment.Compute C3.Experiment.EndToEnd
  C3.Experiment.Resonant C3.Experiment.ResonantInfid C3.Experiment.FromInstruction

/-! ## Specification -/

/-- The state after a circuit: the gates act one after the other. -/
def circuit {n : Type*} [Fintype n] (R : String → Matrix n n ℂ) (s : List String) (psi : n → ℂ) : n → ℂ :=
  s.foldl (fun v g => R g *ᵥ v) psi

/-- Rotations of all qubits. -/
def rotations (dims : List ℕ) (θ φ : ℕ → ℝ) : Op dims := tens dims fun k => rot (θ k) (φ k)

/-- No part of the state is outside of the two lowest levels of the subsystems. -/
def Encoded (dims : List ℕ) (psi : Fin dims.prod → ℂ) : Prop := ∀ p, ¬ Computational dims p → psi p = 0

/-! ## Lemmas -/

/-- Length of a state. -/
def len {n : Type*} [Fintype n] (v : n → ℂ) : ℝ := ‖(WithLp.toLp 2 v : EuclideanSpace ℂ n)‖

section

variable {n : Type*} [Fintype n] [DecidableEq n]

theorem len_sq (v : n → ℂ) : len v ^ 2 = ∑ i, ‖v i‖ ^ 2 := by
  unfold len
  rw [EuclideanSpace.norm_sq_eq]

theorem len_nonneg (v : n → ℂ) : 0 ≤ len v := norm_nonneg _

theorem len_add (v w : n → ℂ) : len (v + w) ≤ len v + len w := by
  unfold len
  rw [WithLp.toLp_add]
  exact norm_add_le _ _

theorem len_unitary (U : Matrix n n ℂ) (hU : Uᴴ * U = 1) (v : n → ℂ) : len (U *ᵥ v) = len v := by
  have h : len (U *ᵥ v) ^ 2 = len v ^ 2 := by
    rw [len_sq, len_sq]
    have key : ∀ w : n → ℂ, ((∑ i, ‖w i‖ ^ 2 : ℝ) : ℂ) = star w ⬝ᵥ w := by
      intro w
      rw [dotProduct, Complex.ofReal_sum]
      refine Finset.sum_congr rfl fun i _ => ?_
      rw [Pi.star_apply, Complex.star_def, mul_comm, Complex.mul_conj, Complex.normSq_eq_norm_sq]
    have h2 : star (U *ᵥ v) ⬝ᵥ (U *ᵥ v) = star v ⬝ᵥ v := by
      rw [star_mulVec, ← dotProduct_mulVec, mulVec_mulVec, hU, one_mulVec]
    rw [← key, ← key] at h2
    exact_mod_cast h2
  exact (pow_left_inj₀ (len_nonneg _) (len_nonneg _) two_ne_zero).1 h

/-- A matrix whose entries are small, as far as the state needs them, makes a small state. -/
theorem len_entries (D : Matrix n n ℂ) (v : n → ℂ) (ε : ℝ) (h : ∀ p q, v q ≠ 0 → ‖D p q‖ ≤ ε) (hε : 0 ≤ ε) :
    len (D *ᵥ v) ≤ Fintype.card n * ε * len v := by
  have h1 : ∀ p, ‖(D *ᵥ v) p‖ ≤ ε * ∑ q, ‖v q‖ := by
    intro p
    rw [mulVec, dotProduct, Finset.mul_sum]
    refine (norm_sum_le _ _).trans (Finset.sum_le_sum fun q _ => ?_)
    rw [norm_mul]
    by_cases hq : v q = 0
    · simp [hq]
    · exact mul_le_mul_of_nonneg_right (h p q hq) (norm_nonneg _)
  have h2 : (∑ q, ‖v q‖) ^ 2 ≤ Fintype.card n * len v ^ 2 := by
    have h3 := Finset.sum_mul_sq_le_sq_mul_sq Finset.univ (fun _ : n => (1 : ℝ)) (fun q => ‖v q‖)
    rw [← len_sq] at h3
    simpa using h3
  have h3 : len (D *ᵥ v) ^ 2 ≤ (Fintype.card n * ε * len v) ^ 2 := by
    rw [len_sq]
    calc ∑ p, ‖(D *ᵥ v) p‖ ^ 2 ≤ ∑ _p : n, (ε * ∑ q, ‖v q‖) ^ 2 :=
          Finset.sum_le_sum fun p _ => pow_le_pow_left₀ (norm_nonneg _) (h1 p) 2
      _ = Fintype.card n * (ε ^ 2 * (∑ q, ‖v q‖) ^ 2) := by
          rw [Finset.sum_const, Finset.card_univ, nsmul_eq_mul, mul_pow]
      _ ≤ Fintype.card n * (ε ^ 2 * (Fintype.card n * len v ^ 2)) := by gcongr
      _ = _ := by ring
  exact le_of_sq_le_sq h3 (mul_nonneg (mul_nonneg (Nat.cast_nonneg _) hε) (len_nonneg _))

/-- Populations of states that are close together are close together. -/
theorem populations_close (v w : n → ℂ) (hv : len v = 1) (hw : len w = 1) (ε : ℝ) (h : len (v - w) ≤ ε) :
    ∑ i, |‖v i‖ ^ 2 - ‖w i‖ ^ 2| ≤ 2 * ε := by
  have h1 : ∀ i, |‖v i‖ ^ 2 - ‖w i‖ ^ 2| ≤ ‖(v - w) i‖ * ‖v i‖ + ‖(v - w) i‖ * ‖w i‖ := by
    intro i
    rw [sq_sub_sq, abs_mul, abs_of_nonneg (add_nonneg (norm_nonneg _) (norm_nonneg _)), ← mul_add, mul_comm]
    exact mul_le_mul_of_nonneg_right (abs_norm_sub_norm_le _ _) (add_nonneg (norm_nonneg _) (norm_nonneg _))
  have h2 : ∀ u : n → ℂ, len u = 1 → ∑ i, ‖(v - w) i‖ * ‖u i‖ ≤ ε := by
    intro u hu
    have h3 := Finset.sum_mul_sq_le_sq_mul_sq Finset.univ (fun i => ‖(v - w) i‖) (fun i => ‖u i‖)
    rw [← len_sq, ← len_sq, hu, one_pow, mul_one] at h3
    exact (le_abs_self _).trans ((abs_le_of_sq_le_sq h3 (len_nonneg _)).trans h)
  calc _ ≤ ∑ i, (‖(v - w) i‖ * ‖v i‖ + ‖(v - w) i‖ * ‖w i‖) := Finset.sum_le_sum fun i _ => h1 i
    _ = (∑ i, ‖(v - w) i‖ * ‖v i‖) + ∑ i, ‖(v - w) i‖ * ‖w i‖ := Finset.sum_add_distrib
    _ ≤ ε + ε := add_le_add (h2 v hv) (h2 w hw)
    _ = _ := by ring

end

theorem rot_unitary' (θ φ : ℝ) (d x y : ℕ) (hd : 2 ≤ d) (hx : x < d) (hy : y < d) :
    ∑ z ∈ Finset.range d, star (rot θ φ z x) * rot θ φ z y = if x = y then 1 else 0 := by
  have hzero : ∀ a b : ℕ, a < 2 → 2 ≤ b → rot θ φ a b = 0 ∧ rot θ φ b a = 0 := by
    intro a b ha hb
    constructor <;> unfold rot <;>
      rw [if_neg (by omega), if_neg (by omega), if_neg (by omega), if_neg (by omega)]
  have hbig : ∀ a b : ℕ, 2 ≤ a → 2 ≤ b → rot θ φ a b = if a = b then 1 else 0 := by
    intro a b ha hb
    unfold rot
    rw [if_neg (by omega), if_neg (by omega), if_neg (by omega)]
  obtain ⟨m, rfl⟩ := Nat.exists_eq_add_of_le hd
  rw [Finset.range_eq_Ico, ← Finset.sum_Ico_consecutive _ (Nat.zero_le 2) (by omega), ← Finset.range_eq_Ico]
  by_cases h1 : x < 2 <;> by_cases h2 : y < 2
  · rw [rot_unitary θ φ x y h1 h2, Finset.sum_eq_zero (s := Finset.Ico 2 (2 + m)), add_zero]
    intro z hz
    rw [(hzero y z h2 (Finset.mem_Ico.1 hz).1).2, mul_zero]
  · rw [if_neg (by omega), Finset.sum_eq_zero, Finset.sum_eq_zero, add_zero]
    · intro z hz
      rw [(hzero x z h1 (Finset.mem_Ico.1 hz).1).2, star_zero, zero_mul]
    · intro z hz
      rw [(hzero z y (Finset.mem_range.1 hz) (by omega)).1, mul_zero]
  · rw [if_neg (by omega), Finset.sum_eq_zero, Finset.sum_eq_zero, add_zero]
    · intro z hz
      rw [(hzero y z h2 (Finset.mem_Ico.1 hz).1).2, mul_zero]
    · intro z hz
      rw [(hzero z x (Finset.mem_range.1 hz) (by omega)).1, star_zero, zero_mul]
  · rw [Finset.sum_eq_zero (s := Finset.range 2), zero_add]
    · rw [Finset.sum_eq_single x]
      · rw [hbig x x (by omega) (by omega), hbig x y (by omega) (by omega), if_pos rfl, star_one, one_mul]
      · intro z hz hne
        rw [hbig z x (Finset.mem_Ico.1 hz).1 (by omega), if_neg hne, star_zero, zero_mul]
      · intro hz
        exact absurd (Finset.mem_Ico.2 ⟨by omega, hx⟩) hz
    · intro z hz
      rw [(hzero z x (Finset.mem_range.1 hz) (by omega)).1, star_zero, zero_mul]

theorem rotations_unitary (dims : List ℕ) (hd : ∀ d ∈ dims, 2 ≤ d) (θ φ : ℕ → ℝ) :
    (rotations dims θ φ)ᴴ * rotations dims θ φ = 1 := by
  unfold rotations
  rw [tens_adj, tens_mul, ← tens_one]
  refine tens_congr _ _ _ fun t ht x hx y hy => ?_
  refine rot_unitary' _ _ _ _ _ ?_ hx hy
  rw [List.getD_eq_getElem?_getD, List.getElem?_eq_getElem ht, Option.getD_some]
  exact hd _ (List.getElem_mem _)

theorem rotations_encoded (dims : List ℕ) (θ φ : ℕ → ℝ) (psi : Fin dims.prod → ℂ) (h : Encoded dims psi) :
    Encoded dims (rotations dims θ φ *ᵥ psi) := by
  intro p hp
  unfold Computational at hp
  push Not at hp
  obtain ⟨k, hk, hpk⟩ := hp
  rw [mulVec, dotProduct]
  refine Finset.sum_eq_zero fun q _ => ?_
  by_cases hq : Computational dims q
  · have hz : rotations dims θ φ p q = 0 := by
      simp only [rotations, tens, of_apply]
      refine Finset.prod_eq_zero (Finset.mem_range.2 hk) ?_
      have hqk := hq k hk
      unfold rot
      rw [if_neg (by omega), if_neg (by omega), if_neg (by omega), if_neg (by omega)]
    rw [hz, zero_mul]
  · rw [h q hq, mul_zero]

theorem circuit_len (dims : List ℕ) (hd : ∀ d ∈ dims, 2 ≤ d) (θ φ : String → ℕ → ℝ) (s : List String)
    (psi : Fin dims.prod → ℂ) : len (circuit (fun g => rotations dims (θ g) (φ g)) s psi) = len psi := by
  induction s generalizing psi with
  | nil => rfl
  | cons g s ih => exact (ih _).trans (len_unitary _ (rotations_unitary dims hd _ _) _)

/-- Errors of the gates add up. -/
theorem run_close (dims : List ℕ) (hd : ∀ d ∈ dims, 2 ≤ d) (θ φ : String → ℕ → ℝ)
    (props : String → Option (Op dims)) (ε : String → ℝ) (s : List String)
    (h : ∀ g ∈ s, ∃ V, props g = some V ∧ Vᴴ * V = 1 ∧
      ∀ p q, Computational dims q → ‖V p q - rotations dims (θ g) (φ g) p q‖ ≤ ε g)
    (hε : ∀ g ∈ s, 0 ≤ ε g) (psi chi : Fin dims.prod → ℂ) (hpsi : len psi = 1) (henc : Encoded dims psi) :
    ∃ v, runSeq props s chi = some v ∧ len v = len chi ∧
      len (v - circuit (fun g => rotations dims (θ g) (φ g)) s psi) ≤ len (chi - psi) + dims.prod * (s.map ε).sum := by
  induction s generalizing psi chi with
  | nil => exact ⟨chi, rfl, rfl, by simp [circuit]⟩
  | cons g s ih =>
    obtain ⟨V, hV, hu, hc⟩ := h g List.mem_cons_self
    have hR := rotations_unitary dims hd (θ g) (φ g)
    obtain ⟨v, h1, h2, h3⟩ := ih (fun g hg => h g (List.mem_cons_of_mem _ hg)) (fun g hg => hε g (List.mem_cons_of_mem _ hg))
      (rotations dims (θ g) (φ g) *ᵥ psi) (V *ᵥ chi) (by rw [len_unitary _ hR, hpsi])
      (rotations_encoded dims _ _ psi henc)
    refine ⟨v, ?_, ?_, ?_⟩
    · rw [runSeq, hV]
      exact h1
    · rw [h2, len_unitary _ hu]
    · refine h3.trans ?_
      have e : V *ᵥ chi - rotations dims (θ g) (φ g) *ᵥ psi = V *ᵥ (chi - psi) + (V - rotations dims (θ g) (φ g)) *ᵥ psi := by
        rw [mulVec_sub, sub_mulVec]
        abel
      have h4 := len_entries (V - rotations dims (θ g) (φ g)) psi (ε g) (fun p q hq => by
        rw [Matrix.sub_apply]
        exact hc p q (by
          by_contra hn
          exact hq (henc q hn))) (hε g List.mem_cons_self)
      rw [hpsi, mul_one, Fintype.card_fin] at h4
      have h5 := len_add (V *ᵥ (chi - psi)) ((V - rotations dims (θ g) (φ g)) *ᵥ psi)
      rw [len_unitary _ hu, ← e] at h5
      rw [List.map_cons, List.sum_cons, mul_add]
      linarith

theorem lookup_map (names : List String) (f : String → Pulse) (g : String) (h : g ∈ names) :
    (names.map fun g => (g, f g)).lookup g = some (f g) := by
  induction names with
  | nil => simp at h
  | cons a l ih =>
    rw [List.map_cons, List.lookup_cons]
    by_cases hg : g = a
    · subst hg
      simp
    · rw [beq_eq_false_iff_ne.2 hg]
      exact ih ((List.mem_cons.1 h).resolve_left hg)

theorem lookup_map_none (names : List String) (f : String → Pulse) (g : String) (h : g ∉ names) :
    (names.map fun g => (g, f g)).lookup g = none := by
  induction names with
  | nil => rfl
  | cons a l ih =>
    rw [List.map_cons, List.lookup_cons, beq_eq_false_iff_ne.2 fun e => h (by simp [e])]
    exact ih fun e => h (List.mem_cons_of_mem _ e)

/-- The gate of an instruction does not depend on the other instructions. -/
theorem physical_lookup {dims : List ℕ} (c : Chip dims) (ps ps' : List (String × Pulse)) (g : String)
    (h : ps.lookup g = ps'.lookup g) : physical (closed c ps) (.name "pwc") g = physical (closed c ps') (.name "pwc") g := by
  unfold physical closed
  simp only [h]

/-! ## Theorem -/

/-- **C223**: let the gates of a set each have an instruction that plays an envelope with a smooth shape on each line, on a
carrier at the frequency of its qubit. Then the propagators of all of them can be computed, sequences of them can be
evaluated, and the populations after a sequence are those of the circuit of rotations by the areas of the amplitudes. The
sum of the errors of all populations is at most twice the sum of the errors of the gates, times the dimension. -/
theorem C223_populations (dims : List ℕ) (hd : ∀ x ∈ dims, 2 ≤ x) (ω δ : ℕ → ℝ) (sub line : ℕ → String)
    (target : String → Option ℕ) (htar : ∀ k < dims.length, target (line k) = some k)
    (hlt : ∀ l q, target l = some q → q < dims.length) (κ : ℝ) (hκ : 0 < κ) (hsel : Selective dims ω δ κ)
    (names : List String) (d : String → ℕ → LineSet) (hω : ∀ g ∈ names, ∀ k, (d g k).omega = ω k)
    (A' : String → ℕ → ℝ → ℝ) (T a a' L : String → ℝ) (hT : ∀ g ∈ names, 0 < T g)
    (hA : ∀ g ∈ names, ∀ k < dims.length, ∀ t ∈ Icc 0 (T g),
      HasDerivWithinAt (d g k).ampl (A' g k t) (Icc 0 (T g)) t ∧ |(d g k).ampl t| ≤ a g ∧ |A' g k t| ≤ a' g)
    (hL : ∀ g ∈ names, ∀ k < dims.length, ∀ s ∈ Icc 0 (T g), ∀ t ∈ Icc 0 (T g),
      |A' g k s - A' g k t| ≤ L g * |s - t|) :
    ∃ C : String → ℝ, ∀ (ρ : ℝ) (M : String → ℕ) (K batch : ℕ), (∀ g ∈ names, 2 ≤ M g ∧ M g / T g = ρ) → 1 ≤ K →
      1 ≤ batch → ∃ pulse : String → Pulse,
      (∀ g ∈ names, instrPulse dims.length line (d g) (T g) (K * ρ) ρ = some (pulse g)) ∧
      ∀ s : Exp (Op dims), s.propMethod = none → s.optGates = none → ∃ table s',
        compute (closed (chipOf dims ω δ sub line target batch) (names.map fun g => (g, pulse g))) s = (.ok table, s') ∧
        ∀ (seqs : List (List String)) (psi : Fin dims.prod → ℂ), (∀ seq ∈ seqs, ∀ g ∈ seq, g ∈ names) →
          ∑ i, ‖psi i‖ ^ 2 = 1 → Encoded dims psi → ∃ pops, evaluateClosed s'.propagators seqs psi = some pops ∧
            pops.length = seqs.length ∧ ∀ (i : ℕ) (seq : List String) (pop : Fin dims.prod → ℝ), seqs[i]? = some seq →
              pops[i]? = some pop →
              ∑ p, |pop p - ‖circuit (fun g => rotations dims (fun k => ∫ t in (0 : ℝ)..T g, (d g k).ampl t)
                  fun k => (d g k).xy) seq psi p‖ ^ 2| ≤
                2 * (dims.prod * (seq.map fun g => gateError dims (T g) (a g) (a' g) κ (C g) (M g) K).sum) := by
  have hch : ∀ g, ∃ C : ℝ, g ∈ names → ∀ M K : ℕ, 2 ≤ M → 1 ≤ K → ∀ batch : ℕ, 1 ≤ batch → ∃ pulse V,
      instrPulse dims.length line (d g) (T g) ((K * M : ℕ) / T g) (M / T g) = some pulse ∧
      physical (closed (chipOf dims ω δ sub line target batch) [(g, pulse)]) (.name "pwc") g = .ok V ∧
      ∀ p q, Computational dims p ∨ Computational dims q →
        ‖V p q - rotations dims (fun k => ∫ t in (0 : ℝ)..T g, (d g k).ampl t) (fun k => (d g k).xy) p q‖ ≤
          gateError dims (T g) (a g) (a' g) κ C M K := by
    intro g
    by_cases hg : g ∈ names
    · have e : (fun k => (d g k).omega) = ω := funext (hω g hg)
      obtain ⟨C, hC⟩ := C219_gate dims (d g) δ sub line target htar (A' g) (T g) (a g) (a' g) (L g) κ (hT g hg) hκ
        (by rw [e]; exact hsel) (hA g hg) (hL g hg)
      rw [e] at hC
      exact ⟨C, fun _ M K hM hK batch hb => hC M K hM hK batch hb g⟩
    · exact ⟨0, fun h => absurd h hg⟩
  choose C hC using hch
  refine ⟨C, fun ρ M K batch hM hK hb => ?_⟩
  have hgate : ∀ g, ∃ pulse : Pulse, g ∈ names → instrPulse dims.length line (d g) (T g) (K * ρ) ρ = some pulse ∧ ∃ V,
      physical (closed (chipOf dims ω δ sub line target batch) [(g, pulse)]) (.name "pwc") g = .ok V ∧
      ∀ p q, Computational dims p ∨ Computational dims q →
        ‖V p q - rotations dims (fun k => ∫ t in (0 : ℝ)..T g, (d g k).ampl t) (fun k => (d g k).xy) p q‖ ≤
          gateError dims (T g) (a g) (a' g) κ (C g) (M g) K := by
    intro g
    by_cases hg : g ∈ names
    · obtain ⟨pulse, V, h1, h2, h3⟩ := hC g hg (M g) K (hM g hg).1 hK batch hb
      rw [Nat.cast_mul, mul_div_assoc, (hM g hg).2] at h1
      exact ⟨pulse, fun _ => ⟨h1, V, h2, h3⟩⟩
    · exact ⟨⟨[], [], 0, [], fun _ => none, 0⟩, fun h => absurd h hg⟩
  choose pulse hpulse using hgate
  refine ⟨pulse, fun g hg => (hpulse g hg).1, fun s hm hs => ?_⟩
  set c := chipOf dims ω δ sub line target batch with hc
  set w := closed c (names.map fun g => (g, pulse g)) with hw
  have hcw : c.WF := chipOf_wf dims ω δ sub line target hlt batch hb
  have hkeys : w.keys = names := by
    simp [hw, closed, Function.comp_def]
  have hww : w.WF := by
    intro g
    rw [hkeys]
    simp only [hw, closed]
    by_cases hg : g ∈ names
    · simp [hg, lookup_map names pulse g hg]
    · simp [hg, lookup_map_none names pulse g hg]
  have hval : ∀ g ∈ names, ∃ V, physical w (.name "pwc") g = .ok V ∧ Vᴴ * V = 1 ∧
      ∀ p q, Computational dims q →
        ‖V p q - rotations dims (fun k => ∫ t in (0 : ℝ)..T g, (d g k).ampl t) (fun k => (d g k).xy) p q‖ ≤
          gateError dims (T g) (a g) (a' g) κ (C g) (M g) K := by
    intro g hg
    obtain ⟨-, V, h2, h3⟩ := hpulse g hg
    have h4 : physical w (.name "pwc") g = .ok V := by
      rw [← h2]
      refine physical_lookup c _ _ g ?_
      rw [lookup_map names pulse g hg]
      simp
    exact ⟨V, h4, C199_unitary c hcw _ g V h4, fun p q hq => h3 p q (.inr hq)⟩
  obtain ⟨table, s', hcomp⟩ := (C68_succeeds_iff w hww s hm).2 (by
    rw [hs, Option.getD_none, hkeys]
    exact fun g hg => let ⟨V, h, _⟩ := hval g hg; ⟨V, h⟩)
  refine ⟨table, s', hcomp, fun seqs psi hseqs hpsi henc => ?_⟩
  have hprops : ∀ g ∈ names, ∃ V, s'.propagators g = some V ∧ Vᴴ * V = 1 ∧
      ∀ p q, Computational dims q →
        ‖V p q - rotations dims (fun k => ∫ t in (0 : ℝ)..T g, (d g k).ampl t) (fun k => (d g k).xy) p q‖ ≤
          gateError dims (T g) (a g) (a' g) κ (C g) (M g) K := by
    intro g hg
    obtain ⟨V, h1, h2, h3⟩ := hval g hg
    have hg' : g ∈ s.optGates.getD w.keys := by rwa [hs, Option.getD_none, hkeys]
    obtain ⟨v, h4, h5⟩ := (C68_selected w hww s hm table s' hcomp g).1 hg'
    rw [h1] at h4
    cases h4
    refine ⟨V, ?_, h2, h3⟩
    rw [(C68_stored w s hm table s' hcomp g).1, if_pos hg', h5]
  have hlen : len psi = 1 := by
    have h1 := len_sq psi
    rw [hpsi] at h1
    exact (pow_eq_one_iff_of_nonneg (len_nonneg _) two_ne_zero).1 h1
  obtain ⟨hev, -⟩ := C65_closed s'.propagators seqs psi
    (fun q hq g hg => let ⟨V, h1, h2, _⟩ := hprops g (hseqs q hq g hg); ⟨V, h1, h2⟩) hpsi
  refine ⟨_, hev, by simp, fun i seq pop hi hp => ?_⟩
  rw [List.getElem?_map, hi, Option.map_some, Option.some.injEq] at hp
  subst hp
  have hmem : seq ∈ seqs := List.mem_of_getElem? hi
  have hin := hseqs seq hmem
  -- a computational state exists, so that the errors are not negative
  obtain ⟨q0, hq0⟩ : ∃ q, Computational dims q := by
    by_contra hn
    push Not at hn
    have : ∑ i, ‖psi i‖ ^ 2 = 0 := Finset.sum_eq_zero fun i _ => by rw [henc i (hn i)]; simp
    rw [hpsi] at this
    exact one_ne_zero this
  obtain ⟨v, h1, h2, h3⟩ := run_close dims hd (fun g k => ∫ t in (0 : ℝ)..T g, (d g k).ampl t) (fun g k => (d g k).xy)
    s'.propagators (fun g => gateError dims (T g) (a g) (a' g) κ (C g) (M g) K) seq (fun g hg => hprops g (hin g hg))
    (fun g hg => by
      obtain ⟨V, -, -, h⟩ := hprops g (hin g hg)
      exact (norm_nonneg _).trans (h q0 q0 hq0)) psi psi hlen henc
  rw [runSeq_eq s'.propagators seq psi fun g hg => (hprops g (hin g hg)).imp fun V h => h.1, Option.some_inj] at h1
  beta_reduce
  rw [h1]
  refine populations_close v _ (h2.trans hlen) ((circuit_len dims hd _ _ seq psi).trans hlen) _ ?_
  refine h3.trans (le_of_eq ?_)
  have : len (psi - psi) = 0 := by
    rw [sub_self]
    unfold len
    rw [WithLp.toLp_zero, norm_zero]
  rw [this, zero_add]

/-- Two rectangular pulses on one transmon, a quarter and a half of a turn: the theorem applies to all sequences of them. -/
example : ∃ C : String → ℝ, ∀ M K : ℕ, 2 ≤ M → 1 ≤ K → ∃ pulse : String → Pulse, ∃ table s',
    compute (closed (chipOf [3] (fun _ => 5) (fun _ => -1) (fun _ => "Q1") (fun _ => "d1")
      (fun s => if s = "d1" then some 0 else none) 1) [("x90", pulse "x90"), ("x", pulse "x")])
      ⟨none, .name "pwc", none, none, true, fun _ => none⟩ = (.ok table, s') ∧
    ∃ pop, evaluateClosed s'.propagators [["x90", "x90", "x"]] (Pi.single ⟨0, by simp⟩ 1) = some [pop] ∧
      ∑ p, |pop p - ‖circuit (fun g => rotations [3] (fun _ => if g = "x" then Real.pi else Real.pi / 2) fun _ => 0)
        ["x90", "x90", "x"] (Pi.single ⟨0, by simp⟩ 1) p‖ ^ 2| ≤
        2 * (3 * (2 * gateError [3] 1 Real.pi 0 1 (C "x90") M K + gateError [3] 1 Real.pi 0 1 (C "x") M K)) := by
  have hpi := Real.pi_pos
  obtain ⟨C, hC⟩ := C223_populations [3] (by simp) (fun _ => 5) (fun _ => -1) (fun _ => "Q1") (fun _ => "d1")
    (fun s => if s = "d1" then some 0 else none) (by simp)
    (by
      intro l q h
      split_ifs at h
      simp only [Option.some_inj] at h
      subst h
      simp) 1 one_pos
    (by
      intro k hk
      obtain rfl : k = 0 := by simpa using hk
      refine ⟨by simp, by simp, fun l hl => ?_⟩
      have hl' : l = 0 ∨ l = 1 := by simp at hl; omega
      rcases hl' with rfl | rfl <;> norm_num)
    ["x90", "x"] (fun g _ => ⟨if g = "x" then Real.pi else Real.pi / 2, 0, fun _ => 1, 5, 1⟩) (by simp)
    (fun _ _ _ => 0) (fun _ => 1) (fun _ => Real.pi) (fun _ => 0) (fun _ => 0) (by simp)
    (by
      intro g _ k _ t _
      have e : (LineSet.mk (if g = "x" then Real.pi else Real.pi / 2) 0 (fun _ => 1) 5 1).ampl =
          fun _ => if g = "x" then Real.pi else Real.pi / 2 := by
        funext t
        simp [LineSet.ampl]
      rw [e]
      refine ⟨hasDerivWithinAt_const _ _ _, ?_, by simp⟩
      split_ifs
      · rw [abs_of_pos hpi]
      · rw [abs_of_pos (by positivity)]
        linarith)
    (by simp)
  refine ⟨C, fun M K hM hK => ?_⟩
  obtain ⟨pulse, -, h⟩ := hC M (fun _ => M) K 1 (by simp [hM]) hK le_rfl
  obtain ⟨table, s', h1, h2⟩ := h ⟨none, .name "pwc", none, none, true, fun _ => none⟩ rfl rfl
  obtain ⟨pops, h3, h4, h5⟩ := h2 [["x90", "x90", "x"]] (Pi.single ⟨0, by simp⟩ 1) (by simp)
    (by
      rw [Finset.sum_eq_single ⟨0, by simp⟩]
      · rw [Pi.single_eq_same, norm_one, one_pow]
      · intro b _ hb
        rw [Pi.single_eq_of_ne hb, norm_zero, zero_pow two_ne_zero]
      · exact fun h => absurd (Finset.mem_univ _) h)
    (by
      intro p hp
      refine Pi.single_eq_of_ne ?_ _
      rintro rfl
      refine hp fun k hk => ?_
      obtain rfl : k = 0 := by simpa using hk
      decide)
  obtain ⟨pop, rfl⟩ : ∃ pop, pops = [pop] := List.length_eq_one_iff.1 h4
  refine ⟨pulse, table, s', h1, pop, h3, ?_⟩
  have := h5 0 _ pop rfl rfl
  have e : ∀ g : String, (fun _ : ℕ => ∫ t in (0 : ℝ)..1,
      (LineSet.mk (if g = "x" then Real.pi else Real.pi / 2) 0 (fun _ => 1) 5 1).ampl t) =
        fun _ => if g = "x" then Real.pi else Real.pi / 2 := by
    intro g
    funext k
    simp [LineSet.ampl]
  simp only [e] at this
  refine this.trans (le_of_eq ?_)
  simp
  ring

end C3.Experiment.Circuits
