import Verif.Fidelity.Average
import Verif.Gates.Sequences
import Verif.Fold.Props
import Mathlib.Analysis.SpecialFunctions.Pow.Real

/-!
# C104-C107: randomized benchmarking figures of merit

Models `orbit_infid`, `RB`, `leakage_RB` and `calculate_state_overlap`
(c3/libraries/fidelities.py:514-816). Random draws are arguments; the curve fit of scipy is an argument
(its result, or an exception).
-/

set_option linter.unusedSectionVars false

namespace C3.Fidelity

open Matrix Finset C3.Gates

/-! ## C104: ORBIT -/

/-- The average of a list (`tf_ave`, c3/utils/tf_utils.py:219-221; `add_n` of nothing raises). -/
noncomputable def tfAve (l : List ℝ) : Option ℝ := if l = [] then none else some (l.sum / l.length)

/-- c3/libraries/fidelities.py:753-790 `orbit_infid` without shots and noise; `U` a `dim` by `dim`
matrix with `dim > 0`. -/
noncomputable def orbitInfid {d : ℕ} (propagators : List (String × Matrix (Fin (d + 1)) (Fin (d + 1)) ℂ))
    (seqs : List (List String)) : Option ℝ :=
  match C3.Fold.evaluateSequences propagators seqs with
  | .error _ => none
  | .ok Us => tfAve (Us.map fun U => 1 - ‖(U *ᵥ Pi.single 0 1) 0‖ ^ 2)

theorem apply_basis {d : ℕ} (U : Matrix (Fin (d + 1)) (Fin (d + 1)) ℂ) :
    (U *ᵥ Pi.single 0 1) 0 = U 0 0 := by
  simp

theorem entry_le_one {d : ℕ} (U : Matrix (Fin (d + 1)) (Fin (d + 1)) ℂ) (hU : Uᴴ * U = 1) :
    ‖U 0 0‖ ^ 2 ≤ 1 := by
  rw [← col_norm U hU 0]
  exact single_le_sum (f := fun i => ‖U i 0‖ ^ 2) (fun _ _ => sq_nonneg _) (mem_univ 0)

theorem tfAve_range {l : List ℝ} (hne : l ≠ []) (h : ∀ x ∈ l, 0 ≤ x ∧ x ≤ 1) :
    ∃ x, tfAve l = some x ∧ 0 ≤ x ∧ x ≤ 1 ∧ (x = 0 ↔ ∀ y ∈ l, y = 0) := by
  unfold tfAve
  rw [if_neg hne]
  have hlen : (0 : ℝ) < l.length := by
    exact_mod_cast List.length_pos_iff.2 hne
  have hs : 0 ≤ l.sum := List.sum_nonneg fun x hx => (h x hx).1
  have hs1 : l.sum ≤ l.length := by
    have := List.sum_le_card_nsmul l 1 fun x hx => (h x hx).2
    simpa using this
  refine ⟨_, rfl, by positivity, by rw [div_le_one hlen]; exact hs1, ?_⟩
  rw [div_eq_zero_iff, or_iff_left hlen.ne']
  constructor
  · intro h0 y hy
    have := List.single_le_sum (fun x hx => (h x hx).1) y hy
    linarith [(h y hy).1]
  · intro h0
    exact List.sum_eq_zero h0

/-- Products of unitaries are unitary. -/
theorem seqProp_unitary {n : Type*} [Fintype n] [DecidableEq n] (val : String → Matrix n n ℂ)
    (s : List String) (h : ∀ g ∈ s, (val g)ᴴ * val g = 1) :
    (C3.Fold.seqProp val s)ᴴ * C3.Fold.seqProp val s = 1 := by
  induction s with
  | nil => simp [C3.Fold.seqProp, C3.Fold.timeOrdered]
  | cons a s ih =>
    rw [show a :: s = [a] ++ s from rfl, C3.Fold.C21_concat]
    have ha : C3.Fold.seqProp val [a] = val a := by simp [C3.Fold.seqProp, C3.Fold.timeOrdered]
    rw [ha, Matrix.conjTranspose_mul, Matrix.mul_assoc, ← Matrix.mul_assoc _ (C3.Fold.seqProp val s),
      ih fun g hg => h g (List.mem_cons_of_mem _ hg), Matrix.one_mul, h a List.mem_cons_self]

/-- C104: with unitary propagators the ORBIT figure of merit lies in [0, 1]; it is zero exactly if every
sequence returns the ground state to itself. -/
theorem C104_orbit_range {d : ℕ} (propagators : List (String × Matrix (Fin (d + 1)) (Fin (d + 1)) ℂ))
    (hp : propagators ≠ []) (hU : ∀ p ∈ propagators, p.2ᴴ * p.2 = 1) (seqs : List (List String))
    (hs : seqs ≠ []) (hk : ∀ s ∈ seqs, ∀ g ∈ s, ∃ U, propagators.lookup g = some U) :
    ∃ x, orbitInfid propagators seqs = some x ∧ 0 ≤ x ∧ x ≤ 1 ∧
      (x = 0 ↔ ∀ s ∈ seqs, ‖C3.Fold.seqProp (fun g => (propagators.lookup g).getD 1) s 0 0‖ = 1) := by
  unfold orbitInfid
  rw [C3.Fold.C21_sequences propagators hp seqs hk]
  simp only [apply_basis, List.map_map]
  have hun : ∀ s ∈ seqs, (C3.Fold.seqProp (fun g => (propagators.lookup g).getD 1) s)ᴴ *
      C3.Fold.seqProp (fun g => (propagators.lookup g).getD 1) s = 1 := by
    intro s hs
    apply seqProp_unitary
    intro g hg
    obtain ⟨U, hu⟩ := hk s hs g hg
    rw [hu]
    obtain ⟨l1, l2, hl, -⟩ := List.lookup_eq_some_iff.1 hu
    exact hU (g, U) (by rw [hl]; simp)
  obtain ⟨x, h1, h2, h3, h4⟩ := tfAve_range (l := List.map ((fun U => 1 - ‖U 0 0‖ ^ 2) ∘
      C3.Fold.seqProp fun g => (propagators.lookup g).getD 1) seqs) (by simpa using hs) (by
    intro x hx
    obtain ⟨s, hs, rfl⟩ := List.mem_map.1 hx
    have := entry_le_one _ (hun s hs)
    simp only [Function.comp_apply]
    have hnn := sq_nonneg (‖C3.Fold.seqProp (fun g => (propagators.lookup g).getD 1) s 0 0‖)
    exact ⟨by linarith, by linarith⟩)
  refine ⟨x, h1, h2, h3, h4.trans ?_⟩
  simp only [List.mem_map, Function.comp_apply, forall_exists_index, and_imp, forall_apply_eq_imp_iff₂]
  refine forall₂_congr fun s _ => ?_
  constructor
  · intro h
    have hsq : ‖C3.Fold.seqProp (fun g => (propagators.lookup g).getD 1) s 0 0‖ ^ 2 = 1 := by linarith
    exact (pow_eq_one_iff_of_nonneg (norm_nonneg _) two_ne_zero).1 hsq
  · intro h
    rw [h]
    norm_num

theorem seqProp_names (val : String → Matrix (Fin 2) (Fin 2) ℂ) (nm : G4 → String)
    (hv : ∀ c, val (nm c) = c.mat) (l : List G4) :
    C3.Fold.seqProp val (l.map nm) = runGates l := by
  rw [runGates_eq]
  unfold C3.Fold.seqProp C3.Fold.timeOrdered matmul
  rw [List.map_map, ← List.map_reverse]
  congr 2
  funext c
  exact hv c

/-- C104: with the ideal gates on the target qubit the ORBIT figure of merit is exactly zero, whatever
Clifford sequences of whatever length are drawn. -/
theorem C104_orbit_ideal (RB_length target : ℕ) (draws : List (List ℕ)) (hne : draws ≠ [])
    (hlen : ∀ d ∈ draws, d.length = RB_length - 1) (hpos : 0 < RB_length)
    (h : ∀ d ∈ draws, ∀ c ∈ d, c < 24)
    (propagators : List (String × Matrix (Fin 2) (Fin 2) ℂ))
    (hideal : ∀ c : G4, propagators.lookup (onTarget c.name target) = some c.mat) :
    ∃ S, singleLengthRB draws target = some S ∧ orbitInfid (d := 1) propagators S = some 0 := by
  obtain ⟨S, hS, hl, hs⟩ := C66_rb RB_length draws target hlen hpos h
  refine ⟨S, hS, ?_⟩
  have hp : propagators ≠ [] := by
    rintro rfl
    have := hideal .x90p
    simp at this
  have hk : ∀ s ∈ S, ∀ g ∈ s, ∃ U, propagators.lookup g = some U := by
    intro s hsm g hg
    obtain ⟨cl, -, -, rfl, -⟩ := hs s hsm
    obtain ⟨c, -, rfl⟩ := List.mem_map.1 hg
    exact ⟨_, hideal c⟩
  unfold orbitInfid
  rw [C3.Fold.C21_sequences propagators hp S hk]
  simp only [apply_basis, List.map_map]
  have hz : ∀ s ∈ S, ((fun U : Matrix (Fin 2) (Fin 2) ℂ => 1 - ‖U 0 0‖ ^ 2) ∘
      C3.Fold.seqProp fun g => (propagators.lookup g).getD 1) s = 0 := by
    intro s hsm
    obtain ⟨cl, -, -, rfl, hph⟩ := hs s hsm
    simp only [Function.comp_apply]
    rw [seqProp_names _ _ (fun c => by rw [hideal c]; rfl)]
    obtain ⟨c, hc, he⟩ := hph
    rw [he]
    simp [hc]
  rw [List.map_congr_left hz]
  have hSne : S ≠ [] := by
    rintro rfl
    apply hne
    simpa using hl.symm
  unfold tfAve
  rw [if_neg (by simpa using hSne)]
  simp

/-! ## C105: RB -/

/-- `single_length_RB` with anything as target that formats to `t`. -/
noncomputable def singleLengthRBStr (draws : List (List ℕ)) (t : String) : Option (List (List String)) :=
  draws.mapM fun choice => (singleRB choice).map fun gates =>
    gates.map fun c => c.name ++ "[" ++ t ++ "]"

theorem singleLengthRBStr_target (draws : List (List ℕ)) (target : ℕ) :
    singleLengthRBStr draws (toString target) = singleLengthRB draws target := rfl

/-- One data point of c3/libraries/fidelities.py:514-546 `RB`: `padding` is passed as the target of
`single_length_RB`. -/
noncomputable def rbPoint {d : ℕ} (propagators : List (String × Matrix (Fin (d + 1)) (Fin (d + 1)) ℂ))
    (draws : List (List ℕ)) (padding : String) : Option (List ℝ) := do
  let seqs ← singleLengthRBStr draws padding
  match C3.Fold.evaluateSequences propagators seqs with
  | .error _ => none
  | .ok Us => some (Us.map fun U => ‖(U *ᵥ Pi.single 0 1) 0‖ ^ 2)

/-- The number of Clifford gates of a sequence is positive, so the sequence has a gate. -/
theorem singleRB_ne (choice : List ℕ) (h : ∀ c ∈ choice, c < 24) :
    ∃ g gs, singleRB choice = some (g :: gs) := by
  obtain ⟨gates, h1, -, i, hi1, hi2, rfl⟩ := C59_rb choice h
  have hd : ∀ i, 1 ≤ i → i ≤ 24 → cliffordsDecomp.getD (i - 1) [] ≠ [] := by
    intro i h1 h2
    have : ∀ j < 24, cliffordsDecomp.getD j [] ≠ [] := by decide
    exact this _ (by omega)
  rw [h1]
  cases hg : (choice.map (· + 1) ++ [i]).flatMap fun c => cliffordsDecomp.getD (c - 1) [] with
  | nil =>
    rw [List.flatMap_eq_nil_iff] at hg
    exact absurd (hg i (by simp)) (hd i hi1 hi2)
  | cons g gs => exact ⟨g, gs, rfl⟩

/-- C105: with propagators identified by the usual names (gate and target qubits, so that no name ends
in "[]", "[left]" or "[right]") `RB` raises, with each of the paddings used in the library: the padding is
taken for the target. -/
theorem C105_rb_raises {d : ℕ} (propagators : List (String × Matrix (Fin (d + 1)) (Fin (d + 1)) ℂ))
    (padding : String) (draws : List (List ℕ)) (hne : draws ≠ [])
    (h : ∀ d ∈ draws, ∀ c ∈ d, c < 24)
    (hk : ∀ c : G4, propagators.lookup (c.name ++ "[" ++ padding ++ "]") = none) :
    rbPoint propagators draws padding = none := by
  unfold rbPoint
  cases hS : singleLengthRBStr draws padding with
  | none => rfl
  | some S =>
    simp only [Option.bind_eq_bind, Option.bind_some]
    obtain ⟨c, cs, rfl⟩ := List.exists_cons_of_ne_nil hne
    obtain ⟨g, gs, hg⟩ := singleRB_ne c (h c List.mem_cons_self)
    unfold singleLengthRBStr at hS
    rw [List.mapM_cons, hg] at hS
    simp only [Option.map_some, List.map_cons, Option.bind_eq_bind, Option.bind_some] at hS
    cases hm : cs.mapM fun choice => (singleRB choice).map fun gates =>
        gates.map fun c => c.name ++ "[" ++ padding ++ "]" with
    | none => rw [hm] at hS; simp at hS
    | some S' =>
      rw [hm] at hS
      simp only [Option.bind_some, Option.pure_def, Option.some.injEq] at hS
      subst hS
      by_cases hp : propagators = []
      · subst hp
        rfl
      · obtain ⟨g', -, he⟩ := C3.Fold.C21_unknown propagators hp _ _ (List.mem_cons_self) _
          (List.mem_cons_self) (hk g)
        rw [he]

example : ∀ c : G4, ([("rx90p[0]", (1 : Matrix (Fin 2) (Fin 2) ℂ)), ("ry90p[0]", 1), ("rx90m[0]", 1),
    ("ry90m[0]", 1)]).lookup (c.name ++ "[" ++ "" ++ "]") = none := by
  intro c
  cases c <;> rfl

/-- C105: what a data point would be: for every sequence the probability to stay in the ground state, the squared
modulus of the first entry of its product of propagators. -/
theorem C105_point {d : ℕ} (propagators : List (String × Matrix (Fin (d + 1)) (Fin (d + 1)) ℂ)) (draws : List (List ℕ))
    (padding : String) (l : List ℝ) (h : rbPoint propagators draws padding = some l) :
    ∃ seqs Us, singleLengthRBStr draws padding = some seqs ∧ C3.Fold.evaluateSequences propagators seqs = .ok Us ∧
      l = Us.map fun U => ‖U 0 0‖ ^ 2 := by
  unfold rbPoint at h
  cases hS : singleLengthRBStr draws padding with
  | none => rw [hS] at h; cases h
  | some S =>
    rw [hS] at h
    simp only [Option.bind_eq_bind, Option.bind_some] at h
    cases he : C3.Fold.evaluateSequences propagators S with
    | error e => rw [he] at h; cases h
    | ok Us =>
      rw [he] at h
      simp only [Option.some.injEq] at h
      refine ⟨S, Us, rfl, he, ?_⟩
      rw [← h]
      simp [Matrix.mulVec_single]

/-- c3/libraries/fidelities.py:588-590: the error per gate. -/
noncomputable def epg (r : ℝ) : ℝ :=
  let epc := 0.5 * (1 - r)
  1 - (1 - epc) ^ (1 / 4 : ℝ)

/-- C105: for every result of the fit (bounded by 0 and 1) the error per gate is in [0, 1/2), zero
exactly for `r = 1`, decreasing in `r`, and four such gates in a row have the fitted error per
Clifford. -/
theorem C105_epg (r : ℝ) (h0 : 0 ≤ r) (h1 : r ≤ 1) :
    0 ≤ epg r ∧ epg r < 1 / 2 ∧ (epg r = 0 ↔ r = 1) ∧ (1 - epg r) ^ 4 = (1 + r) / 2 ∧
      ∀ s, r < s → s ≤ 1 → epg s < epg r := by
  have hx : ∀ r, 1 - (0.5 : ℝ) * (1 - r) = (1 + r) / 2 := fun r => by ring
  have hpow : ∀ r : ℝ, 0 ≤ r → (((1 + r) / 2) ^ (1 / 4 : ℝ)) ^ 4 = (1 + r) / 2 := by
    intro r hr
    rw [← Real.rpow_natCast, ← Real.rpow_mul (by linarith)]
    norm_num
  unfold epg
  simp only [hx]
  have hle : ((1 + r) / 2) ^ (1 / 4 : ℝ) ≤ 1 := Real.rpow_le_one (by linarith) (by linarith) (by norm_num)
  have hnn : 0 ≤ ((1 + r) / 2) ^ (1 / 4 : ℝ) := Real.rpow_nonneg (by linarith) _
  have h4 := hpow r h0
  refine ⟨by linarith, ?_, ?_, ?_, ?_⟩
  · by_contra hcon
    push Not at hcon
    have hsm : ((1 + r) / 2) ^ (1 / 4 : ℝ) ≤ 1 / 2 := by linarith
    have := pow_le_pow_left₀ hnn hsm 4
    rw [h4] at this
    norm_num at this
    linarith
  · constructor
    · intro h
      have : ((1 + r) / 2) ^ (1 / 4 : ℝ) = 1 := by linarith
      rw [this] at h4
      linarith
    · rintro rfl
      norm_num
  · rw [sub_sub_cancel]
    exact h4
  · intro s hs hs1
    have := Real.rpow_lt_rpow (x := (1 + r) / 2) (y := (1 + s) / 2) (z := 1 / 4) (by linarith)
      (by linarith) (by norm_num)
    linarith

/-! ## C106: leakage RB -/

/-- One data point of `leakage_RB`: the entries of `surv_prob` and `comp_surv` for one sequence with
final populations `p`. `refit` tells whether the point is added after a failed fit
(c3/libraries/fidelities.py:689-690 and 740-741) or in the first pass (640-641). -/
noncomputable def leakagePoint {d : ℕ} (refit : Bool) (p : Fin (d + 2) → ℝ) : ℝ × ℝ :=
  if refit then (p 0, p 0) else (p 0, p 0 + p 1)

/-- The rows of `comp_surv` after a number of failed fits: `first` are the populations measured in the
first pass, `later` those added after failed fits. -/
noncomputable def leakageData {d : ℕ} (first later : List (List (Fin (d + 2) → ℝ))) :
    List (List ℝ) × List (List ℝ) :=
  let f := first.map fun row => row.map (leakagePoint false)
  let l := later.map fun row => row.map (leakagePoint true)
  ((f ++ l).map fun row => row.map (·.1), (f ++ l).map fun row => row.map (·.2))

/-- C106: if the first fit succeeds, the fitted data are the populations of the ground state and of the
computational space. -/
theorem C106_data_partial {d : ℕ} (first : List (List (Fin (d + 2) → ℝ))) :
    leakageData first [] = (first.map fun row => row.map fun p => p 0,
      first.map fun row => row.map fun p => p 0 + p 1) := by
  unfold leakageData leakagePoint
  simp [Function.comp_def]

/-- C106: the rows added after failed fits follow those of the first pass, in both tables. -/
theorem C106_order {d : ℕ} (first later : List (List (Fin (d + 2) → ℝ))) :
    (leakageData first later).1 = (first ++ later).map (fun row => row.map fun p => p 0) ∧
    (leakageData first later).2 = first.map (fun row => row.map fun p => p 0 + p 1) ++
      later.map (fun row => row.map fun p => p 0) := by
  unfold leakageData leakagePoint
  simp [Function.comp_def]

/-- C106: after a failed fit the added points of the computational population are those of the ground
state: a sequence that ends in state 1 counts as complete leakage. -/
theorem C106_false_refit : ∃ p : Fin 2 → ℝ, (∀ i, 0 ≤ p i) ∧ ∑ i, p i = 1 ∧
    (leakageData (d := 0) [] [[p]]).2 = [[0]] := by
  refine ⟨![0, 1], ?_, ?_, ?_⟩
  · intro i
    fin_cases i <;> simp
  · simp
  · simp [leakageData, leakagePoint]

/-- c3/libraries/fidelities.py:746-749. -/
noncomputable def leakageRates (rLeak aLeak r : ℝ) : ℝ × ℝ × ℝ :=
  let leakage := (1 - aLeak) * (1 - rLeak)
  let seepage := aLeak * (1 - rLeak)
  let fid := 0.5 * (r + 1 - leakage)
  (1 - fid, leakage, seepage)

/-- C106: for every fit result in the bounds leakage, seepage and error per Clifford are in [0, 1], and
leakage and seepage add up to `1 - r_leak`. -/
theorem C106_rates (rLeak aLeak r : ℝ) (h : 0 ≤ rLeak ∧ rLeak ≤ 1) (ha : 0 ≤ aLeak ∧ aLeak ≤ 1)
    (hr : 0 ≤ r ∧ r ≤ 1) :
    let x := leakageRates rLeak aLeak r
    (0 ≤ x.1 ∧ x.1 ≤ 1) ∧ (0 ≤ x.2.1 ∧ x.2.1 ≤ 1) ∧ (0 ≤ x.2.2 ∧ x.2.2 ≤ 1) ∧
      x.2.1 + x.2.2 = 1 - rLeak ∧ (x.1 = 0 ↔ r = 1 ∧ x.2.1 = 0) := by
  intro x
  have e1 : x.1 = 1 - 0.5 * (r + 1 - (1 - aLeak) * (1 - rLeak)) := rfl
  have e2 : x.2.1 = (1 - aLeak) * (1 - rLeak) := rfl
  have e3 : x.2.2 = aLeak * (1 - rLeak) := rfl
  rw [e1, e2, e3]
  have hl0 : 0 ≤ (1 - aLeak) * (1 - rLeak) := mul_nonneg (by linarith) (by linarith)
  have hl1 : (1 - aLeak) * (1 - rLeak) ≤ 1 := by nlinarith
  refine ⟨⟨by linarith, by linarith⟩, ⟨hl0, hl1⟩, ⟨mul_nonneg ha.1 (by linarith), by nlinarith⟩, by ring,
    ?_⟩
  constructor
  · intro h
    constructor <;> linarith
  · rintro ⟨rfl, h⟩
    rw [h]
    norm_num

/-! ## C107: overlap of states -/

/-- c3/libraries/fidelities.py:808-816 `calculate_state_overlap` for two square matrices with real
non-negative entries; `tf.sqrt` acts on each entry. -/
noncomputable def stateOverlapDm {n : Type*} [Fintype n] (r s : Matrix n n ℝ) : ℝ :=
  (((r.map Real.sqrt) * s * (r.map Real.sqrt)).map Real.sqrt).trace ^ 2

/-- C107: for states without coherences the overlap of a state with itself is one, and in general it is
the classical fidelity of the populations. -/
theorem C107_diagonal_partial {n : Type*} [Fintype n] [DecidableEq n] (p q : n → ℝ) (hp : ∀ i, 0 ≤ p i)
    (hq : ∀ i, 0 ≤ q i) :
    stateOverlapDm (Matrix.diagonal p) (Matrix.diagonal q) = (∑ i, √(p i * q i)) ^ 2 ∧
      (∑ i, p i = 1 → stateOverlapDm (Matrix.diagonal p) (Matrix.diagonal p) = 1) := by
  have hv : ∀ p q : n → ℝ, (∀ i, 0 ≤ p i) → (∀ i, 0 ≤ q i) →
      stateOverlapDm (Matrix.diagonal p) (Matrix.diagonal q) = (∑ i, √(p i * q i)) ^ 2 := by
    intro p q hp hq
    unfold stateOverlapDm
    rw [Matrix.diagonal_map (by simp), Matrix.diagonal_mul_diagonal, Matrix.diagonal_mul_diagonal,
      Matrix.diagonal_map (by simp), Matrix.trace_diagonal]
    congr 1
    apply sum_congr rfl
    intro i _
    congr 1
    have := Real.mul_self_sqrt (hp i)
    calc √(p i) * q i * √(p i) = √(p i) * √(p i) * q i := by ring
      _ = p i * q i := by rw [this]
  refine ⟨hv p q hp hq, fun h1 => ?_⟩
  rw [hv p p hp hp, sum_congr rfl fun i _ => Real.sqrt_mul_self (hp i), h1]
  norm_num

/-- C107: with coherences the root is taken of each entry instead of the matrix: the "overlap" of the
pure state (|0> + |1>)/√2 with itself is 4, its infidelity -3. -/
theorem C107_false_coherent :
    stateOverlapDm !![(1 / 2 : ℝ), 1 / 2; 1 / 2, 1 / 2] !![(1 / 2 : ℝ), 1 / 2; 1 / 2, 1 / 2] = 4 := by
  have hmap : (!![(1 / 2 : ℝ), 1 / 2; 1 / 2, 1 / 2]).map Real.sqrt =
      !![√(1 / 2), √(1 / 2); √(1 / 2), √(1 / 2)] := by
    ext i j
    fin_cases i <;> fin_cases j <;> rfl
  unfold stateOverlapDm
  rw [hmap, Matrix.mul_fin_two, Matrix.mul_fin_two]
  have h : √(1 / 2 : ℝ) * √(1 / 2) = 1 / 2 := Real.mul_self_sqrt (by norm_num)
  have h2 : (√(1 / 2 : ℝ) * (1 / 2) + √(1 / 2) * (1 / 2)) * √(1 / 2) +
      (√(1 / 2) * (1 / 2) + √(1 / 2) * (1 / 2)) * √(1 / 2) = 1 := by
    nlinarith
  rw [h2]
  rw [Matrix.trace_fin_two]
  simp
  norm_num

/-! ### The hypotheses of C61-C63 can be met -/

example : unitaryInfid (C3.Hilbert.eye 2 2) (C3.Hilbert.eye 3 3) (some [0]) [3] = some 0 := by
  have he : ∀ k N, (C3.Hilbert.eye k k : C3.Hilbert.Arr ℂ).mat N N = 1 := by
    intro k N
    ext i j
    simp [C3.Hilbert.Arr.mat, C3.Hilbert.eye, Matrix.one_apply, Fin.ext_iff]
  obtain ⟨x, hx, -, -, hz⟩ := C61_range (C3.Hilbert.eye 2 2) (C3.Hilbert.eye 3 3) [3] [0] (by simp)
    (by simp) (by simp) (by simp) rfl rfl rfl rfl (by rw [he, Matrix.conjTranspose_one, Matrix.one_mul])
    (by rw [he, Matrix.conjTranspose_one, Matrix.one_mul])
  rw [hx]
  congr 1
  rw [hz]
  refine ⟨1, by simp, ?_⟩
  rw [he, he, Matrix.submatrix_one _ (compEmb_injective _ _ _), one_smul]

end C3.Fidelity
