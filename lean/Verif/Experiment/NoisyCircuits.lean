import Verif.Experiment.Waiting

/-!
# C227: noisy circuits are close to the ideal ones if they are short against the decay times

C223 follows instructions to the populations of circuits of a closed system, C225 bounds the effect of collapse operators.
Here both are put together, and the strength of the decoherence is bounded by the decay times of the components
(`get_Lindbladian`, c3/libraries/chip.py:205-242, 425-467).
-/

set_option linter.unusedSectionVars false

noncomputable section

namespace C3.Experiment.NoisyCircuits

open Matrix Set C3.Propagation C3.Hilbert C3.Fidelity C3.Experiment C3.Experiment.Compute C3.Experiment.EndToEnd
  C3.Experiment.Resonant C3.Experiment.ResonantInfid C3.Experiment.FromInstruction C3.Experiment.Circuits
  C3.Experiment.WeakNoise C3.Experiment.Waiting
open scoped Matrix.Norms.L2Operator

variable {dims : List ℕ}

/-! ## Specification -/

/-- Decay amplitude of a component with `dim` levels: what relaxation and dephasing contribute, as roots of rates. -/
def amplitude (k : Kind) (d : Decay) (dim : ℕ) : ℝ :=
  (match d.t1 with
    | none => 0
    | some t1 => Real.sqrt (relaxRate k t1 * (dim - 1 : ℕ))) +
  match d.t2star with
    | none => 0
    | some t2 => Real.sqrt (2 / t2) * (dim - 1 : ℕ)

/-- Decay rate of a register: twice the sum of the squared amplitudes. -/
def rate (dims : List ℕ) (k : ℕ → Kind) (d : ℕ → Decay) : ℝ :=
  ((List.range dims.length).map fun i => 2 * amplitude (k i) (d i) (dims.getD i 0) ^ 2).sum

/-! ## Norms of the collapse operators -/

theorem norm_number (i : ℕ) (hi : i < dims.length) : ‖(ann dims i)ᴴ * ann dims i‖ ≤ (dims.getD i 0 - 1 : ℕ) := by
  rw [ann_number dims i hi, l2_opNorm_diagonal]
  refine (pi_norm_le_iff_of_nonneg (Nat.cast_nonneg _)).2 fun p => ?_
  rw [Complex.norm_natCast]
  have : levelAt dims i p < dims.getD i 0 := by
    obtain ⟨p, hp⟩ := p
    obtain ⟨l, hl, rfl⟩ := exists_flat dims p hp
    rw [levelAt_flat hl]
    exact valid_getD hl i hi
  exact_mod_cast Nat.le_sub_one_of_lt this

theorem norm_ann (i : ℕ) (hi : i < dims.length) : ‖ann dims i‖ ≤ Real.sqrt (dims.getD i 0 - 1 : ℕ) := by
  refine Real.le_sqrt_of_sq_le ?_
  rw [sq, ← l2_opNorm_conjTranspose_mul_self]
  exact norm_number i hi

theorem norm_collapse (k : Kind) (d : Decay) (hd : d.temp = none) (h1 : ∀ t1, d.t1 = some t1 → 0 < t1) (i : ℕ)
    (hi : i < dims.length) (L : Op dims) (hL : getLindbladian k d dims i = some L) :
    ‖L‖ ≤ amplitude k d (dims.getD i 0) := by
  have hT : tempUsed k d = none := by unfold tempUsed; rw [hd]
  have hr : ∀ x : ℝ, ‖((Real.sqrt x : ℝ) : ℂ)‖ = Real.sqrt x := fun x => by
    rw [Complex.norm_real, Real.norm_of_nonneg (Real.sqrt_nonneg _)]
  have e1 : ∀ t1, 0 < t1 → ‖((Real.sqrt (relaxRate k t1) : ℝ) : ℂ) • ann dims i‖ ≤
      Real.sqrt (relaxRate k t1 * (dims.getD i 0 - 1 : ℕ)) := by
    intro t1 ht
    rw [norm_smul, hr, Real.sqrt_mul (relaxRate_nonneg k t1 ht)]
    exact mul_le_mul_of_nonneg_left (norm_ann i hi) (Real.sqrt_nonneg _)
  have e2 : ∀ t2, ‖((Real.sqrt (0.5 / t2) : ℝ) : ℂ) • ((2 : ℂ) • ((ann dims i)ᴴ * ann dims i))‖ ≤
      Real.sqrt (2 / t2) * (dims.getD i 0 - 1 : ℕ) := by
    intro t2
    have h4 : Real.sqrt (2 / t2) = Real.sqrt (0.5 / t2) * 2 := by
      rw [show (2 : ℝ) / t2 = 0.5 / t2 * 2 ^ 2 by ring, Real.sqrt_mul' _ (by norm_num), Real.sqrt_sq (by norm_num)]
    rw [norm_smul, norm_smul, hr, h4, Complex.norm_ofNat, mul_assoc]
    gcongr
    exact norm_number i hi
  unfold getLindbladian at hL
  split at hL
  · simp at hL
  · rw [← Option.some.inj hL]
    unfold collapseList amplitude
    rw [hT]
    cases h1' : d.t1 with
    | none =>
      cases h2 : d.t2star with
      | none => simp
      | some t2 =>
        dsimp only
        rw [List.nil_append, List.sum_singleton, zero_add]
        exact e2 t2
    | some t1 =>
      cases h2 : d.t2star with
      | none =>
        dsimp only
        rw [List.append_nil, List.sum_singleton, add_zero]
        exact e1 t1 (h1 t1 h1')
      | some t2 =>
        dsimp only
        rw [List.singleton_append, List.sum_cons, List.sum_singleton]
        exact (norm_add_le _ _).trans (add_le_add (e1 t1 (h1 t1 h1')) (e2 t2))

/-! ## C227 -/

/-- **C227**: the strength of the decoherence of a register is at most the rate made of the decay times of its
components. -/
theorem C227_strength (c : Chip dims) (k : ℕ → Kind) (d : ℕ → Decay) (hc : FromComponents c k d)
    (hd : ∀ i < dims.length, (d i).temp = none) (h1 : ∀ i < dims.length, ∀ t1, (d i).t1 = some t1 → 0 < t1) :
    strength c.cols ≤ rate dims k d := by
  obtain ⟨L, hL, hcols⟩ := components c k d hc
  unfold strength rate
  rw [hcols, List.map_map, ← List.sum_map_mul_left]
  refine List.sum_le_sum fun i hi => ?_
  have hi := List.mem_range.1 hi
  have h := norm_collapse (k i) (d i) (hd i hi) (h1 i hi) i hi (L i) (hL i hi)
  have := pow_le_pow_left₀ (norm_nonneg _) h 2
  simp only [Function.comp_apply]
  linarith

/-- C227: for qubits with two levels and relaxation times only the rate is twice the sum of the inverse times. -/
theorem C227_qubits (n : ℕ) (t1 freq anhar : ℕ → ℝ) (h1 : ∀ i < n, 0 < t1 i) :
    rate (List.replicate n 2) (fun _ => .qubit) (fun i => onlyT1 (t1 i) (freq i) (anhar i)) =
      ((List.range n).map fun i => 2 / t1 i).sum := by
  unfold rate
  rw [List.length_replicate]
  congr 1
  refine List.map_congr_left fun i hi => ?_
  have hi := List.mem_range.1 hi
  have hd : (List.replicate n 2).getD i 0 = 2 := by
    rw [List.getD_eq_getElem?_getD, List.getElem?_replicate, if_pos hi]
    rfl
  rw [hd]
  unfold amplitude onlyT1
  dsimp only
  rw [add_zero, Real.sq_sqrt (mul_nonneg (relaxRate_nonneg _ _ (h1 i hi)) (Nat.cast_nonneg _))]
  unfold relaxRate
  push_cast
  ring

theorem play_names (names : List String) (pulse : String → Pulse) (g : String) (hg : g ∈ names) :
    (names.map fun g => (g, pulse g)).lookup g = some (pulse g) := by
  induction names with
  | nil => simp at hg
  | cons a l ih =>
    rw [List.map_cons, List.lookup_cons]
    by_cases h : g = a
    · subst h; simp
    · have : (g == a) = false := by simpa using h
      rw [this]
      exact ih ((List.mem_cons.1 hg).resolve_left h)

/-- **C227**: the populations after a sequence of gates, made of instructions, on a chip with collapse operators differ
from those of the circuit of ideal rotations by at most the sum of the errors of the gates (C223) and of the effect of the
decoherence over the length of the sequence. -/
theorem C227_circuits (dims : List ℕ) (hd : ∀ x ∈ dims, 2 ≤ x) (ω δ : ℕ → ℝ) (sub line : ℕ → String)
    (target : String → Option ℕ) (htar : ∀ k < dims.length, target (line k) = some k)
    (hlt : ∀ l q, target l = some q → q < dims.length) (κ : ℝ) (hκ : 0 < κ) (hsel : Selective dims ω δ κ)
    (names : List String) (d : String → ℕ → LineSet) (hω : ∀ g ∈ names, ∀ k, (d g k).omega = ω k)
    (A' : String → ℕ → ℝ → ℝ) (T a a' L : String → ℝ) (hT : ∀ g ∈ names, 0 < T g)
    (hA : ∀ g ∈ names, ∀ k < dims.length, ∀ t ∈ Icc 0 (T g),
      HasDerivWithinAt (d g k).ampl (A' g k t) (Icc 0 (T g)) t ∧ |(d g k).ampl t| ≤ a g ∧ |A' g k t| ≤ a' g)
    (hL : ∀ g ∈ names, ∀ k < dims.length, ∀ s ∈ Icc 0 (T g), ∀ t ∈ Icc 0 (T g),
      |A' g k s - A' g k t| ≤ L g * |s - t|) :
    ∃ C : String → ℝ, ∀ (ρ : ℝ) (M : String → ℕ) (K batch : ℕ), (∀ g ∈ names, 2 ≤ M g ∧ M g / T g = ρ) → 1 ≤ K →
      1 ≤ batch → ∃ pulse : String → Pulse,
      (∀ g ∈ names, instrPulse dims.length line (d g) (T g) (K * ρ) ρ = some (pulse g)) ∧
      ∀ (cols : List (Op dims)) (s : Exp (SOp dims)), s.propMethod = none → s.optGates = none → ∃ table s',
        compute (opened { chipOf dims ω δ sub line target batch with cols := cols }
          (names.map fun g => (g, pulse g))) s = (.ok table, s') ∧
        ∀ (seqs : List (List String)) (k : Fin dims.prod), (∀ seq ∈ seqs, ∀ g ∈ seq, g ∈ names) → Computational dims k →
          ∃ pops, evaluateOpen s'.propagators seqs (dmToVec (diagonal (Pi.single k 1))) = some pops ∧
            pops.length = seqs.length ∧ ∀ (i : ℕ) (seq : List String) (pop : Fin dims.prod → ℝ), seqs[i]? = some seq →
              pops[i]? = some pop → ∀ p,
              |pop p - ‖circuit (fun g => rotations dims (fun k => ∫ t in (0 : ℝ)..T g, (d g k).ampl t)
                  fun k => (d g k).xy) seq (Pi.single k 1) p‖ ^ 2| ≤
                2 * (dims.prod * (seq.map fun g => gateError dims (T g) (a g) (a' g) κ (C g) (M g) K).sum) +
                  (Real.exp (strength cols * (seq.map T).sum) - 1) := by
  obtain ⟨C, hC⟩ := C223_populations dims hd ω δ sub line target htar hlt κ hκ hsel names d hω A' T a a' L hT hA hL
  refine ⟨C, fun ρ M K batch hM hK hb => ?_⟩
  obtain ⟨pulse, hp, hs⟩ := hC ρ M K batch hM hK hb
  refine ⟨pulse, hp, fun cols s hs1 hs2 => ?_⟩
  -- lengths of the pulses
  have hpl : ∀ g ∈ names, (pulse g).dt * (pulse g).values.length = T g ∧ 0 ≤ (pulse g).dt := by
    intro g hg
    obtain ⟨h2, h3⟩ := hM g hg
    obtain ⟨sh, -, h4⟩ := instrPulse_eq dims.length line (d g) (T g) (hT g hg) (M g) K h2 hK
    have e := hp g hg
    rw [← h3, show (K : ℝ) * (M g / T g) = ((K * M g : ℕ) : ℝ) / T g by push_cast; ring, h4] at e
    rw [← Option.some.inj e]
    have hN : (0 : ℝ) < (K * M g : ℕ) := by
      have : 0 < K * M g := Nat.mul_pos hK (by omega)
      exact_mod_cast this
    refine ⟨?_, (div_pos (hT g hg) hN).le⟩
    simp only [List.length_map, List.length_range]
    field_simp
  set ps := names.map fun g => (g, pulse g) with hps
  have hlook : ∀ g p, ps.lookup g = some p → g ∈ names ∧ p = pulse g := by
    intro g p h
    have hg : g ∈ ps.map Prod.fst := (lookup_iff ps g).2 ⟨p, h⟩
    have hg : g ∈ names := by
      rw [hps, List.map_map] at hg
      obtain ⟨x, hx, rfl⟩ := List.mem_map.1 hg
      exact hx
    rw [hps, play_names names pulse g hg] at h
    exact ⟨hg, (Option.some.inj h).symm⟩
  have hplay : ∀ g ∈ names, playTime ps g = T g := by
    intro g hg
    unfold playTime
    rw [hps, play_names names pulse g hg]
    exact (hpl g hg).1
  set c : Chip dims := { chipOf dims ω δ sub line target batch with cols := cols } with hc
  have hwf : c.WF := by
    refine ⟨?_, hlt, hb⟩
    intro l hl
    obtain ⟨k, hk, rfl⟩ := List.mem_map.1 hl
    intro i hi
    rw [List.mem_singleton.1 hi]
    exact List.mem_range.1 hk
  obtain ⟨table, s', h1, h2⟩ := hs ⟨none, .name "pwc", none, none, false, fun _ => none⟩ rfl rfl
  have h1' : compute (closed c ps) ⟨none, .name "pwc", none, none, false, fun _ => none⟩ = (.ok table, s') := h1
  obtain ⟨table', t', h3, h4⟩ := C225_populations c hwf ps
    (fun g p h => by obtain ⟨hg, rfl⟩ := hlook g p h; exact (hpl g hg).2) _ s rfl hs1 ⟨rfl, hs2⟩ table s' h1'
  refine ⟨table', t', h3, fun seqs k hseqs hk => ?_⟩
  have hfst : ps.map Prod.fst = names := by
    rw [hps, List.map_map]
    exact List.map_id _
  obtain ⟨pops, pops', e1, e2, l1, l2, h5⟩ := h4 seqs k (by rw [hfst]; exact hseqs)
  obtain ⟨pops'', e3, l3, h6⟩ := h2 seqs (Pi.single k 1) hseqs (by
      rw [Finset.sum_eq_single k]
      · simp
      · intro j _ hj; simp [Pi.single_eq_of_ne hj]
      · simp) (fun p hp => by
      refine Pi.single_eq_of_ne ?_ _
      rintro rfl
      exact hp hk)
  rw [e1] at e3
  obtain rfl := Option.some.inj e3
  refine ⟨pops', e2, l2, fun i seq pop hi hpop p => ?_⟩
  have hlt' : i < seqs.length := (List.getElem?_eq_some_iff.1 hi).1
  have hpc : pops[i]? = some (pops[i]'(by omega)) := List.getElem?_eq_getElem _
  have b1 := h5 i seq _ pop hi hpc hpop p
  have b2 := h6 i seq _ hi hpc
  have b3 : ∀ x : Fin dims.prod → ℝ, |x p| ≤ ∑ q, |x q| := fun x =>
    Finset.single_le_sum (f := fun q => |x q|) (fun q _ => abs_nonneg _) (Finset.mem_univ p)
  have b4 := (b3 fun p => (pops[i]'(by omega)) p - ‖circuit (fun g => rotations dims
    (fun k => ∫ t in (0 : ℝ)..T g, (d g k).ampl t) fun k => (d g k).xy) seq (Pi.single k 1) p‖ ^ 2).trans b2
  have hsum : seq.map (playTime ps) = seq.map T :=
    List.map_congr_left fun g hg => hplay g (hseqs seq (List.mem_of_getElem? hi) g hg)
  rw [hsum] at b1
  have b5 := abs_sub_le (pop p) ((pops[i]'(by omega)) p) (‖circuit (fun g => rotations dims
    (fun k => ∫ t in (0 : ℝ)..T g, (d g k).ampl t) fun k => (d g k).xy) seq (Pi.single k 1) p‖ ^ 2)
  linarith

/-- C227: in terms of the decay times of the components. -/
theorem C227_times (c : Chip dims) (k : ℕ → Kind) (d : ℕ → Decay) (hc : FromComponents c k d)
    (hd : ∀ i < dims.length, (d i).temp = none) (h1 : ∀ i < dims.length, ∀ t1, (d i).t1 = some t1 → 0 < t1) (t : ℝ)
    (ht : 0 ≤ t) : Real.exp (strength c.cols * t) - 1 ≤ Real.exp (rate dims k d * t) - 1 ∧
      (rate dims k d * t ≤ 1 → Real.exp (strength c.cols * t) - 1 ≤ 2 * (rate dims k d * t)) := by
  have h := C227_strength c k d hc hd h1
  have e : Real.exp (strength c.cols * t) - 1 ≤ Real.exp (rate dims k d * t) - 1 := by
    have := Real.exp_le_exp.2 (mul_le_mul_of_nonneg_right h ht)
    linarith
  refine ⟨e, fun hx => e.trans ?_⟩
  have h0 : 0 ≤ rate dims k d * t := by
    refine mul_nonneg (List.sum_nonneg ?_) ht
    intro x hx
    obtain ⟨i, -, rfl⟩ := List.mem_map.1 hx
    positivity
  have := Real.abs_exp_sub_one_le (x := rate dims k d * t) (by rwa [abs_of_nonneg h0])
  rw [abs_of_nonneg h0] at this
  exact (le_abs_self _).trans this

/-- The example: two quarter turns and a half turn of a qubit with three levels that relaxes. -/
example : ∃ C : String → ℝ, ∀ M K : ℕ, 2 ≤ M → 1 ≤ K → ∃ pulse : String → Pulse, ∃ table s',
    compute (opened { chipOf [3] (fun _ => 5) (fun _ => -1) (fun _ => "Q1") (fun _ => "d1")
      (fun s => if s = "d1" then some 0 else none) 1 with
        cols := [((Real.sqrt (relaxRate .qubit 1000) : ℝ) : ℂ) • ann [3] 0] } [("x90", pulse "x90"), ("x", pulse "x")])
      ⟨none, .name "pwc", none, none, true, fun _ => none⟩ = (.ok table, s') ∧
    ∃ pop, evaluateOpen s'.propagators [["x90", "x90", "x"]] (dmToVec (diagonal (Pi.single ⟨0, by simp⟩ 1))) = some [pop] ∧
      ∀ p, |pop p - ‖circuit (fun g => rotations [3] (fun _ => if g = "x" then Real.pi else Real.pi / 2) fun _ => 0)
        ["x90", "x90", "x"] (Pi.single ⟨0, by simp⟩ 1) p‖ ^ 2| ≤
        2 * (3 * (2 * gateError [3] 1 Real.pi 0 1 (C "x90") M K + gateError [3] 1 Real.pi 0 1 (C "x") M K)) + 0.024 := by
  have hpi := Real.pi_pos
  obtain ⟨C, hC⟩ := C227_circuits [3] (by simp) (fun _ => 5) (fun _ => -1) (fun _ => "Q1") (fun _ => "d1")
    (fun s => if s = "d1" then some 0 else none) (by simp)
    (by
      intro l q h
      split_ifs at h
      simp only [Option.some_inj] at h
      subst h
      simp) 1 one_pos
    (by
      intro k hk
      obtain rfl : k = 0 := by simpa using hk
      refine ⟨by simp, by simp, fun l hl => ?_⟩
      have hl' : l = 0 ∨ l = 1 := by simp at hl; omega
      rcases hl' with rfl | rfl <;> norm_num)
    ["x90", "x"] (fun g _ => ⟨if g = "x" then Real.pi else Real.pi / 2, 0, fun _ => 1, 5, 1⟩) (by simp)
    (fun _ _ _ => 0) (fun _ => 1) (fun _ => Real.pi) (fun _ => 0) (fun _ => 0) (by simp)
    (by
      intro g _ k _ t _
      have e : (LineSet.mk (if g = "x" then Real.pi else Real.pi / 2) 0 (fun _ => 1) 5 1).ampl =
          fun _ => if g = "x" then Real.pi else Real.pi / 2 := by
        funext t
        simp [LineSet.ampl]
      rw [e]
      refine ⟨hasDerivWithinAt_const _ _ _, ?_, by simp⟩
      split_ifs
      · rw [abs_of_pos hpi]
      · rw [abs_of_pos (by positivity)]
        linarith)
    (by simp)
  refine ⟨C, fun M K hM hK => ?_⟩
  obtain ⟨pulse, -, h⟩ := hC M (fun _ => M) K 1 (by simp [hM]) hK le_rfl
  obtain ⟨table, s', h1, h2⟩ := h [((Real.sqrt (relaxRate .qubit 1000) : ℝ) : ℂ) • ann [3] 0]
    ⟨none, .name "pwc", none, none, true, fun _ => none⟩ rfl rfl
  obtain ⟨pops, h3, h4, h5⟩ := h2 [["x90", "x90", "x"]] ⟨0, by simp⟩ (by simp) (by
      intro k hk
      obtain rfl : k = 0 := by simpa using hk
      decide)
  obtain ⟨pop, rfl⟩ : ∃ pop, pops = [pop] := List.length_eq_one_iff.1 h4
  refine ⟨pulse, table, s', h1, pop, h3, fun p => ?_⟩
  have := h5 0 _ pop rfl rfl p
  have e : ∀ g : String, (fun _ : ℕ => ∫ t in (0 : ℝ)..1,
      (LineSet.mk (if g = "x" then Real.pi else Real.pi / 2) 0 (fun _ => 1) 5 1).ampl t) =
        fun _ => if g = "x" then Real.pi else Real.pi / 2 := by
    intro g
    funext k
    simp [LineSet.ampl]
  simp only [e] at this
  refine this.trans (add_le_add (le_of_eq ?_) ?_)
  · simp
    ring
  · have hr : rate [3] (fun _ => .qubit) (fun _ => onlyT1 1000 5 (-1)) = 0.004 := by
      unfold rate amplitude onlyT1
      have e3 : List.range [3].length = [0] := rfl
      rw [e3]
      simp only [List.map_cons, List.map_nil, List.sum_cons, List.sum_nil, List.getD_cons_zero, add_zero]
      rw [Real.sq_sqrt (mul_nonneg (relaxRate_nonneg _ _ (by norm_num)) (Nat.cast_nonneg _))]
      norm_num [relaxRate]
    have hc := (C227_times { chipOf [3] (fun _ => 5) (fun _ => -1) (fun _ => "Q1") (fun _ => "d1")
      (fun s => if s = "d1" then some 0 else none) 1 with
        cols := [((Real.sqrt (relaxRate .qubit 1000) : ℝ) : ℂ) • ann [3] 0] } (fun _ => .qubit)
      (fun _ => onlyT1 1000 5 (-1)) (by
        unfold FromComponents
        have e3 : List.range [3].length = [0] := rfl
        rw [e3, List.mapM_cons, List.mapM_nil, onlyT1_op]
        rfl) (fun _ _ => rfl) (by
        intro i _ t1 h
        cases h
        norm_num) 3 (by norm_num)).2
    rw [hr] at hc
    have hT : (["x90", "x90", "x"].map fun _ : String => (1 : ℝ)).sum = 3 := by
      simp only [List.map_cons, List.map_nil, List.sum_cons, List.sum_nil]
      norm_num
    rw [hT]
    refine (hc (by norm_num)).trans ?_
    norm_num

end C3.Experiment.NoisyCircuits
