import Mathlib.Analysis.SpecialFunctions.Pow.Real
import Mathlib.Analysis.Calculus.FDeriv.Add
import Mathlib.Analysis.Calculus.FDeriv.Mul
import Mathlib.RingTheory.Polynomial.Bernstein
import Mathlib.Algebra.Order.Chebyshev
import Mathlib.Tactic.Linarith
import Mathlib.Tactic.NormNum
import Mathlib.Tactic.Ring
import Mathlib.Tactic.FieldSimp
import Mathlib.Tactic.Positivity

/-!
# C76, C114, C115: estimators of model learning

Models c3/libraries/estimators.py:20-68 (distances), 104-147 (Gaussian likelihoods), 150-168 (`g_LL_prime`,
`dv_g_LL_prime`, `g_LL_prime_combined`), 189-207 (`neg_loglkh_multinom_norm`, its likelihood taken as given)
and how c3/optimizers/modellearning.py:275-360, 362-444 combine them.

Simplified: values are reals; `none` stands for a result that is not a finite number (division by zero,
root of a negative number, mean of nothing).
-/

set_option linter.unusedSectionVars false

namespace C3.Optim.Est

/-! ## Model -/

/-- One measured value: experiment, simulation, standard deviation of the experiment, shots. -/
structure Pt where
  exp : ℝ
  sim : ℝ
  std : ℝ
  shots : ℝ

/-- `tf.reduce_mean`. -/
noncomputable def mean (l : List ℝ) : Option ℝ := if l = [] then none else some (l.sum / l.length)

/-- `tf.sqrt`. -/
noncomputable def tfSqrt (x : ℝ) : Option ℝ := if 0 ≤ x then some (Real.sqrt x) else none

/-- Division of floats. -/
noncomputable def fdiv (x y : ℝ) : Option ℝ := if y = 0 then none else some (x / y)

/-- All numbers finite. -/
def allSome : List (Option ℝ) → Option (List ℝ)
  | [] => some []
  | none :: _ => none
  | some x :: l => (allSome l).map (x :: ·)

/-- `tf.sqrt(sim_values * (1 - sim_values) / shots)`. -/
noncomputable def simStd (p : Pt) : Option ℝ := (fdiv (p.sim * (1 - p.sim)) p.shots).bind tfSqrt

/-- One entry of c3/libraries/estimators.py:157. -/
noncomputable def gTerm (p : Pt) : Option ℝ :=
  (simStd p).bind fun std => (fdiv ((p.exp - p.sim) ^ 2) (std ^ 2)).map fun q => (q - 1) / 2

/-- c3/libraries/estimators.py:154-157 `g_LL_prime`; the arguments are a list of sequences with a list of
values each, `reduce_mean` runs over all entries. -/
noncomputable def gLLPrime (seqs : List (List Pt)) : Option ℝ := (allSome (seqs.flatten.map gTerm)).bind mean

/-- The sum of `weights[ii] * gs[ii]`. -/
noncomputable def wsum (ws gs : List ℝ) : ℝ := (List.zipWith (· * ·) ws gs).sum

/-- c3/libraries/estimators.py:168-170 `g_LL_prime_combined`. -/
noncomputable def combined (gs : List (Option ℝ)) (ws : List ℝ) : Option ℝ :=
  (allSome gs).bind fun g => fdiv (wsum ws g) ws.sum

section Grad
variable {E : Type} [NormedAddCommGroup E] [NormedSpace ℝ E]

/-- c3/libraries/estimators.py:160-165 `dv_g_LL_prime`; gradients are linear maps on the parameters, the
argument `gs` is not used. -/
noncomputable def dvGLLPrime (dvs : List (E →L[ℝ] ℝ)) (ws : List ℝ) : E →L[ℝ] ℝ :=
  (ws.sum)⁻¹ • (List.zipWith (fun w (dv : E →L[ℝ] ℝ) => w • dv) ws dvs).sum
end Grad

/-- c3/libraries/estimators.py:189-203 `neg_loglkh_multinom_norm`: minus the mean over the sequences of the
normalised likelihood `ll`, minus 3/2. -/
noncomputable def negMultinomNorm {S : Type} (ll : S → Option ℝ) (seqs : List S) : Option ℝ :=
  ((allSome (seqs.map ll)).bind mean).map fun m => -m - 3 / 2

/-! ## Lemmas -/

theorem allSome_map_some (l : List ℝ) : allSome (l.map some) = some l := by
  induction l with
  | nil => rfl
  | cons x l ih => simp [allSome, ih]

theorem allSome_eq_some (l : List (Option ℝ)) (r : List ℝ) : allSome l = some r ↔ l = r.map some := by
  constructor
  · induction l generalizing r with
    | nil => intro h; simp [allSome] at h; subst h; rfl
    | cons a l ih =>
      intro h
      cases a with
      | none => simp [allSome] at h
      | some x =>
        simp only [allSome, Option.map_eq_some_iff] at h
        obtain ⟨r', h1, rfl⟩ := h
        rw [ih r' h1]; rfl
  · rintro rfl; exact allSome_map_some r

theorem allSome_none_of_mem (l : List (Option ℝ)) (h : none ∈ l) : allSome l = none := by
  cases hs : allSome l with
  | none => rfl
  | some r =>
    rw [allSome_eq_some] at hs
    rw [hs] at h
    simp at h

theorem allSome_append (l l' : List (Option ℝ)) :
    allSome (l ++ l') = (allSome l).bind fun r => (allSome l').map fun r' => r ++ r' := by
  induction l with
  | nil => simp [allSome]
  | cons a l ih =>
    cases a with
    | none => simp [allSome]
    | some x =>
      simp only [List.cons_append, allSome, ih]
      cases allSome l <;> cases allSome l' <;> simp

theorem mean_some (l : List ℝ) (h : l ≠ []) : mean l = some (l.sum / l.length) := by
  unfold mean; rw [if_neg h]

/-- The general fact behind pooling: weights proportional to the sizes. -/
theorem combined_pool {A : Type} (f : A → Option ℝ) (c : ℝ) (hc : c ≠ 0) (sets : List (List A))
    (hne : ∀ s ∈ sets, s ≠ []) (h0 : sets ≠ []) :
    combined (sets.map fun s => (allSome (s.map f)).bind mean) (sets.map fun s => c * (s.length : ℝ)) =
      (allSome (sets.flatten.map f)).bind mean := by
  by_cases hbad : ∃ s ∈ sets, allSome (s.map f) = none
  · obtain ⟨s, hs, hnone⟩ := hbad
    have h1 : combined (sets.map fun s => (allSome (s.map f)).bind mean)
        (sets.map fun s => c * (s.length : ℝ)) = none := by
      unfold combined
      rw [allSome_none_of_mem]
      · rfl
      · rw [List.mem_map]; exact ⟨s, hs, by rw [hnone]; rfl⟩
    have h2 : allSome (sets.flatten.map f) = none := by
      clear h1 hne h0
      induction sets with
      | nil => simp at hs
      | cons t sets ih =>
        rw [List.flatten_cons, List.map_append, allSome_append]
        rcases List.mem_cons.1 hs with rfl | hs
        · rw [hnone]; rfl
        · rw [ih hs]; cases allSome (t.map f) <;> rfl
    rw [h1, h2]; rfl
  · push Not at hbad
    -- all values finite
    have hval : ∀ s ∈ sets, ∃ r : List ℝ, s.map f = r.map some := by
      intro s hs
      cases h : allSome (s.map f) with
      | none => exact absurd h (hbad s hs)
      | some r => exact ⟨r, (allSome_eq_some _ _).1 h⟩
    obtain ⟨rs, hrs⟩ : ∃ rs : List (List ℝ), sets.map (fun s => s.map f) = rs.map (fun r => r.map some) := by
      clear hbad hne h0
      induction sets with
      | nil => exact ⟨[], rfl⟩
      | cons s sets ih =>
        obtain ⟨r, hr⟩ := hval s (by simp)
        obtain ⟨rs, hrs⟩ := ih (fun t ht => hval t (by simp [ht]))
        exact ⟨r :: rs, by simp [hr, hrs]⟩
    have hlen : sets.map (fun s => (s.length : ℝ)) = rs.map (fun r => (r.length : ℝ)) := by
      have := congrArg (List.map fun l : List (Option ℝ) => (l.length : ℝ)) hrs
      simpa [List.map_map, Function.comp_def] using this
    have hrne : ∀ r ∈ rs, r ≠ [] := by
      intro r hr he
      have : r.map some ∈ rs.map (fun r => r.map some) := List.mem_map.2 ⟨r, hr, rfl⟩
      rw [← hrs, List.mem_map] at this
      obtain ⟨s, hs, h⟩ := this
      rw [he] at h
      exact hne s hs (by simpa using h)
    have hr0 : rs ≠ [] := by
      rintro rfl
      apply h0; simpa using hrs
    have hflat : sets.flatten.map f = rs.flatten.map some := by
      rw [List.map_flatten, List.map_flatten, hrs]
    have hgs : (sets.map fun s => (allSome (s.map f)).bind mean) =
        (rs.map fun r => r.sum / (r.length : ℝ)).map some := by
      have h1 : (sets.map fun s => (allSome (s.map f)).bind mean) =
          (sets.map (fun s => s.map f)).map fun l => (allSome l).bind mean := by
        rw [List.map_map]; rfl
      rw [h1, hrs, List.map_map, List.map_map]
      refine List.map_congr_left fun r hr => ?_
      simp only [Function.comp, allSome_map_some, Option.bind_some]
      exact mean_some r (hrne r hr)
    have hws : (sets.map fun s => c * (s.length : ℝ)) = rs.map fun r => c * (r.length : ℝ) := by
      have h1 : (sets.map fun s => c * (s.length : ℝ)) = (sets.map (fun s => (s.length : ℝ))).map (c * ·) := by
        rw [List.map_map]; rfl
      rw [h1, hlen, List.map_map]; rfl
    unfold combined
    rw [hgs, hws, hflat, allSome_map_some, allSome_map_some, Option.bind_some, Option.bind_some]
    have hsumw : (rs.map fun r => c * (r.length : ℝ)).sum = c * (rs.flatten.length : ℝ) := by
      rw [List.sum_map_mul_left, List.length_flatten]
      congr 1
      rw [Nat.cast_list_sum, List.map_map]; rfl
    have hnum : wsum (rs.map fun r => c * (r.length : ℝ)) (rs.map fun r => r.sum / (r.length : ℝ)) =
        c * rs.flatten.sum := by
      unfold wsum
      clear hgs hws hflat hsumw hr0 hlen hrs
      induction rs with
      | nil => simp
      | cons r rs ih =>
        simp only [List.map_cons, List.zipWith_cons_cons, List.sum_cons, List.flatten_cons, List.sum_append]
        rw [ih (fun t ht => hrne t (by simp [ht]))]
        have : (r.length : ℝ) ≠ 0 := by
          have := hrne r (by simp)
          exact_mod_cast fun h => this (List.length_eq_zero_iff.1 h)
        field_simp
    have hfl : rs.flatten ≠ [] := by
      obtain ⟨r, rs', rfl⟩ := List.exists_cons_of_ne_nil hr0
      simp [hrne r (by simp)]
    have hlpos : (rs.flatten.length : ℝ) ≠ 0 := by
      exact_mod_cast fun h => hfl (List.length_eq_zero_iff.1 h)
    rw [hnum, hsumw, mean_some _ hfl]
    unfold fdiv
    rw [if_neg (mul_ne_zero hc hlpos), mul_div_mul_left _ _ hc]

/-! ## C76 -/

theorem sum_const_len (seqs : List (List Pt)) (c : ℕ) (h : ∀ q ∈ seqs, q.length = c) :
    seqs.flatten.length = c * seqs.length := by
  induction seqs with
  | nil => simp
  | cons q seqs ih =>
    rw [List.flatten_cons, List.length_append, h q (by simp), ih fun t ht => h t (by simp [ht]),
      List.length_cons]
    ring

/-- C76: for every way to distribute the measured sequences over parameter sets (none empty, every sequence
with the same number `c` of values, as `tf.stack` demands), combining the figures of the sets with the
sequence counts as weights gives the figure of merit of all data in one set; it is not a number in one
exactly when it is in the other. -/
theorem C76_pooled (sets : List (List (List Pt))) (c : ℕ) (hc : 0 < c)
    (hlen : ∀ s ∈ sets, ∀ q ∈ s, q.length = c) (hne : ∀ s ∈ sets, s ≠ []) (h0 : sets ≠ []) :
    combined (sets.map gLLPrime) (sets.map fun s => (s.length : ℝ)) = gLLPrime sets.flatten := by
  have hpool := combined_pool gTerm ((c : ℝ)⁻¹) (by positivity) (sets.map List.flatten) (by
    intro t ht
    obtain ⟨s, hs, rfl⟩ := List.mem_map.1 ht
    obtain ⟨q, s', rfl⟩ := List.exists_cons_of_ne_nil (hne s hs)
    have := hlen _ hs q (by simp)
    intro h
    rw [List.flatten_cons, List.append_eq_nil_iff] at h
    rw [h.1] at this; simp at this; omega) (by simpa using h0)
  have hw : (sets.map fun s => (s.length : ℝ)) =
      (sets.map List.flatten).map fun t => (c : ℝ)⁻¹ * (t.length : ℝ) := by
    rw [List.map_map]
    refine List.map_congr_left fun s hs => ?_
    simp only [Function.comp]
    rw [sum_const_len s c (hlen s hs)]
    push_cast
    have : (c : ℝ) ≠ 0 := by positivity
    field_simp
  have hg : sets.map gLLPrime = (sets.map List.flatten).map fun t => (allSome (t.map gTerm)).bind mean := by
    rw [List.map_map]; rfl
  rw [hw, hg, hpool]
  unfold gLLPrime
  rw [show (sets.map List.flatten).flatten = sets.flatten.flatten from List.flatten_flatten.symm]

/-- Two sets of one and two sequences with one value each. -/
example : ∃ sets : List (List (List Pt)), sets.length = 2 ∧ (∀ s ∈ sets, ∀ q ∈ s, q.length = 1) ∧
    (∀ s ∈ sets, s ≠ []) ∧ gLLPrime sets.flatten ≠ none := by
  refine ⟨[[[⟨1, 1 / 2, 0, 1⟩]], [[⟨0, 1 / 2, 0, 1⟩], [⟨1, 1 / 2, 0, 1⟩]]], rfl, by simp, by simp, ?_⟩
  have h : ∀ e : ℝ, gTerm ⟨e, 1 / 2, 0, 1⟩ ≠ none := by
    intro e
    unfold gTerm simStd fdiv tfSqrt
    norm_num
    exact Option.some_ne_none _
  simp only [gLLPrime, List.flatten_cons, List.cons_append, List.nil_append, List.flatten_nil, List.map_cons,
    List.map_nil, List.append_nil]
  obtain ⟨a, ha⟩ := Option.ne_none_iff_exists'.1 (h 1)
  obtain ⟨b, hb⟩ := Option.ne_none_iff_exists'.1 (h 0)
  rw [ha, hb]
  simp [allSome, mean]

/-- A parameter set without sequences spoils the combined figure: its mean is not a number. -/
theorem C76_empty_set (sets : List (List (List Pt))) (h : [] ∈ sets) (ws : List ℝ) :
    combined (sets.map gLLPrime) ws = none := by
  unfold combined
  rw [allSome_none_of_mem]
  · rfl
  · exact List.mem_map.2 ⟨[], h, by simp [gLLPrime, allSome, mean]⟩

/-- Nothing selected (as in `confirm` after learning from all points): not a number. -/
theorem C76_nothing : combined [] [] = none := by simp [combined, allSome, fdiv]

/-- Target "all": weights three times the counts and the multinomial figure with its offset 3/2 pool the
same way. -/
theorem C76_multinom {S : Type} (ll : S → Option ℝ) (sets : List (List S)) (hne : ∀ s ∈ sets, s ≠ [])
    (h0 : sets ≠ []) :
    combined (sets.map (negMultinomNorm ll)) (sets.map fun s => 3 * (s.length : ℝ)) =
      negMultinomNorm ll sets.flatten := by
  -- mean of the shifted terms
  have key : ∀ s : List S, negMultinomNorm ll s =
      (allSome (s.map fun x => (ll x).map fun v => -v - 3 / 2)).bind mean := by
    intro s
    unfold negMultinomNorm
    by_cases hb : none ∈ s.map ll
    · rw [allSome_none_of_mem _ hb, allSome_none_of_mem]
      · rfl
      · obtain ⟨x, hx, he⟩ := List.mem_map.1 hb
        exact List.mem_map.2 ⟨x, hx, by rw [he]; rfl⟩
    · cases hs : allSome (s.map ll) with
      | none =>
        exfalso
        apply hb
        clear hb
        induction s with
        | nil => simp [allSome] at hs
        | cons x s ih =>
          cases hx : ll x with
          | none => simp [hx]
          | some v =>
            simp only [List.map_cons, hx, allSome, Option.map_eq_none_iff] at hs
            exact List.mem_cons_of_mem _ (ih hs)
      | some r =>
        have hr := (allSome_eq_some _ _).1 hs
        have : s.map (fun x => (ll x).map fun v => -v - 3 / 2) = (r.map fun v => -v - 3 / 2).map some := by
          have h1 : s.map (fun x => (ll x).map fun v => -v - 3 / 2) =
              (s.map ll).map (Option.map fun v => -v - 3 / 2) := by rw [List.map_map]; rfl
          rw [h1, hr, List.map_map, List.map_map]; rfl
        rw [this, allSome_map_some, Option.bind_some, Option.bind_some]
        by_cases h : r = []
        · subst h; simp [mean]
        · rw [mean_some r h, mean_some _ (by simpa using h)]
          have hl : (r.length : ℝ) ≠ 0 := by exact_mod_cast fun h' => h (List.length_eq_zero_iff.1 h')
          have hsum : (r.map fun v => -v - 3 / 2).sum = -r.sum - 3 / 2 * r.length := by
            clear this hs hr h hl
            induction r with
            | nil => simp
            | cons v r ih => rw [List.map_cons, List.sum_cons, ih, List.sum_cons, List.length_cons]; push_cast; ring
          rw [hsum, List.length_map, Option.map_some]
          congr 1
          field_simp
  have hg : sets.map (negMultinomNorm ll) =
      sets.map fun s => (allSome (s.map fun x => (ll x).map fun v => -v - 3 / 2)).bind mean :=
    List.map_congr_left fun s _ => key s
  rw [hg, combined_pool (fun x => (ll x).map fun v => -v - 3 / 2) 3 (by norm_num) sets hne h0, key]

example : (∀ s ∈ [[(0 : ℝ)], [1, 2]], s ≠ []) ∧ [[(0 : ℝ)], [1, 2]] ≠ [] := by simp

section Grad
variable {E : Type} [NormedAddCommGroup E] [NormedSpace ℝ E]

theorem hasFDerivAt_zip (ws : List ℝ) (gs : List (E → ℝ)) (dvs : List (E →L[ℝ] ℝ)) (x : E)
    (h : List.Forall₂ (fun g dv => HasFDerivAt g dv x) gs dvs) :
    HasFDerivAt (fun y => wsum ws (gs.map fun g => g y))
      (List.zipWith (fun w (dv : E →L[ℝ] ℝ) => w • dv) ws dvs).sum x := by
  induction h generalizing ws with
  | nil =>
    simp only [wsum, List.map_nil, List.zipWith_nil_right, List.sum_nil]
    exact hasFDerivAt_const _ _
  | cons hg _ ih =>
    cases ws with
    | nil =>
      simp only [wsum, List.zipWith_nil_left, List.sum_nil]
      exact hasFDerivAt_const _ _
    | cons w ws =>
      have h2 := (hg.const_mul w).add (ih ws)
      simp only [wsum, List.map_cons, List.zipWith_cons_cons, List.sum_cons] at h2 ⊢
      exact h2

/-- C76, gradient: if `dvs` are the gradients of the figures `gs` of the sets at the parameters `x`, then
`dv_g_LL_prime` is the gradient of the combined figure, for every weights that do not sum to zero. -/
theorem C76_gradient (gs : List (E → ℝ)) (dvs : List (E →L[ℝ] ℝ)) (ws : List ℝ) (x : E) (hw : ws.sum ≠ 0)
    (h : List.Forall₂ (fun g dv => HasFDerivAt g dv x) gs dvs) :
    ∃ G : E → ℝ, (∀ y, combined (gs.map fun g => some (g y)) ws = some (G y)) ∧
      HasFDerivAt G (dvGLLPrime dvs ws) x := by
  refine ⟨fun y => wsum ws (gs.map fun g => g y) / ws.sum, fun y => ?_, ?_⟩
  · unfold combined
    have : (gs.map fun g => some (g y)) = (gs.map fun g => g y).map some := by rw [List.map_map]; rfl
    rw [this, allSome_map_some, Option.bind_some]
    unfold fdiv
    rw [if_neg hw]
  · have h1 := (hasFDerivAt_zip ws gs dvs x h).const_mul (ws.sum)⁻¹
    have he : (fun y => wsum ws (gs.map fun g => g y) / ws.sum) =
        fun y => (ws.sum)⁻¹ * wsum ws (gs.map fun g => g y) := by
      funext y; rw [div_eq_inv_mul]
    rw [he]
    exact h1

example : List.Forall₂ (fun (g : ℝ → ℝ) (dv : ℝ →L[ℝ] ℝ) => HasFDerivAt g dv 0) [fun y => y]
    [ContinuousLinearMap.id ℝ ℝ] := by
  refine List.Forall₂.cons ?_ List.Forall₂.nil
  exact hasFDerivAt_id (0 : ℝ)
end Grad

/-! ## C114: what the figure of merit measures -/

/-- A usable point: the simulated probability strictly between 0 and 1, a positive number of shots. -/
def Usable (p : Pt) : Prop := 0 < p.sim ∧ p.sim < 1 ∧ 0 < p.shots

theorem gTerm_usable (p : Pt) (h : Usable p) :
    gTerm p = some (((p.exp - p.sim) ^ 2 / (p.sim * (1 - p.sim) / p.shots) - 1) / 2) := by
  obtain ⟨h1, h2, h3⟩ := h
  have hpos : 0 < p.sim * (1 - p.sim) / p.shots := div_pos (mul_pos h1 (by linarith)) h3
  unfold gTerm simStd fdiv tfSqrt
  rw [if_neg h3.ne', Option.bind_some, if_pos hpos.le, Option.bind_some, Real.sq_sqrt hpos.le,
    if_neg hpos.ne']
  rfl

/-- The figure of merit of usable data is a number. It is at least -1/2, and -1/2 exactly if every simulated
value equals the measured one. -/
theorem C114_minimum (seqs : List (List Pt)) (hu : ∀ q ∈ seqs, ∀ p ∈ q, Usable p)
    (hne : seqs.flatten ≠ []) :
    ∃ g, gLLPrime seqs = some g ∧ -1 / 2 ≤ g ∧ (g = -1 / 2 ↔ ∀ q ∈ seqs, ∀ p ∈ q, p.exp = p.sim) := by
  have hu' : ∀ p ∈ seqs.flatten, Usable p := by
    intro p hp
    obtain ⟨q, hq, hp⟩ := List.mem_flatten.1 hp
    exact hu q hq p hp
  have hspec : (∀ q ∈ seqs, ∀ p ∈ q, p.exp = p.sim) ↔ ∀ p ∈ seqs.flatten, p.exp = p.sim := by
    simp only [List.mem_flatten]
    constructor
    · rintro h p ⟨q, hq, hp⟩; exact h q hq p hp
    · intro h q hq p hp; exact h p ⟨q, hq, hp⟩
  rw [hspec]
  unfold gLLPrime
  generalize seqs.flatten = l at *
  let D : Pt → ℝ := fun p => (p.exp - p.sim) ^ 2 / (p.sim * (1 - p.sim) / p.shots)
  have hD : ∀ p ∈ l, 0 ≤ D p ∧ (D p = 0 ↔ p.exp = p.sim) := by
    intro p hp
    obtain ⟨h1, h2, h3⟩ := hu' p hp
    have hpos : 0 < p.sim * (1 - p.sim) / p.shots := div_pos (mul_pos h1 (by linarith)) h3
    refine ⟨div_nonneg (sq_nonneg _) hpos.le, ?_⟩
    rw [div_eq_zero_iff, or_iff_left hpos.ne', sq_eq_zero_iff, sub_eq_zero]
  have hmap : l.map gTerm = (l.map fun p => (D p - 1) / 2).map some := by
    rw [List.map_map]
    exact List.map_congr_left fun p hp => gTerm_usable p (hu' p hp)
  have hsum : (l.map fun p => (D p - 1) / 2).sum = (l.map D).sum / 2 - l.length / 2 := by
    clear hmap hne hD hu' hspec
    induction l with
    | nil => simp
    | cons p l ih => rw [List.map_cons, List.sum_cons, ih, List.map_cons, List.sum_cons, List.length_cons]; push_cast; ring
  have hl : (0 : ℝ) < l.length := by exact_mod_cast List.length_pos_of_ne_nil hne
  have hval : ((l.map D).sum / 2 - l.length / 2) / l.length = (l.map D).sum / (2 * l.length) - 1 / 2 := by
    field_simp
  refine ⟨((l.map D).sum / 2 - l.length / 2) / l.length, ?_, ?_, ?_⟩
  · rw [hmap, allSome_map_some, Option.bind_some, mean_some _ (by simpa using hne), hsum, List.length_map]
  · rw [hval]
    have : 0 ≤ (l.map D).sum := List.sum_nonneg (by
      intro x hx
      obtain ⟨p, hp, rfl⟩ := List.mem_map.1 hx
      exact (hD p hp).1)
    have := div_nonneg this (by positivity : (0 : ℝ) ≤ 2 * l.length)
    linarith
  · rw [hval]
    have h0 : (l.map D).sum / (2 * l.length) - 1 / 2 = -1 / 2 ↔ (l.map D).sum = 0 := by
      constructor
      · intro h
        have : (l.map D).sum / (2 * l.length) = 0 := by linarith
        rcases div_eq_zero_iff.1 this with h | h
        · exact h
        · exact absurd h (by positivity)
      · intro h; rw [h]; norm_num
    rw [h0]
    clear h0 hval hl hsum hmap hne hspec hu'
    induction l with
    | nil => simp
    | cons p l ih =>
      have hp := hD p (by simp)
      have hl' : ∀ p ∈ l, 0 ≤ D p ∧ (D p = 0 ↔ p.exp = p.sim) := fun q hq => hD q (by simp [hq])
      have hrest : 0 ≤ (l.map D).sum := List.sum_nonneg (by
        intro x hx
        obtain ⟨q, hq, rfl⟩ := List.mem_map.1 hx
        exact (hl' q hq).1)
      have ih' : (l.map D).sum = 0 ↔ ∀ p ∈ l, p.exp = p.sim := ih hl'
      rw [List.map_cons, List.sum_cons, List.forall_mem_cons, ← ih', ← hp.2]
      constructor
      · intro h; constructor <;> linarith [hp.1]
      · rintro ⟨h1, h2⟩; rw [h1, h2]; norm_num

example : ∃ seqs : List (List Pt), (∀ q ∈ seqs, ∀ p ∈ q, Usable p) ∧ seqs.flatten ≠ [] :=
  ⟨[[⟨1, 1 / 2, 0, 1⟩]], by simp [Usable]; norm_num, by simp⟩

/-- A simulated probability of exactly 0 or 1 makes the figure of merit no number, even if the measurement
agrees with it; so a perfect model of a deterministic outcome cannot be recognised. -/
theorem C114_deterministic (seqs : List (List Pt)) (q : List Pt) (hq : q ∈ seqs) (p : Pt) (hp : p ∈ q)
    (h : p.sim = 0 ∨ p.sim = 1) : gLLPrime seqs = none := by
  unfold gLLPrime
  rw [allSome_none_of_mem]
  · rfl
  · refine List.mem_map.2 ⟨p, List.mem_flatten.2 ⟨q, hq, hp⟩, ?_⟩
    have h0 : p.sim * (1 - p.sim) = 0 := by rcases h with h | h <;> rw [h] <;> ring
    unfold gTerm simStd fdiv tfSqrt
    rw [h0]
    by_cases hs : p.shots = 0
    · rw [if_pos hs]; rfl
    · rw [if_neg hs]; simp

example : ∃ p : Pt, p.exp = p.sim ∧ p.sim = 1 := ⟨⟨1, 1, 0, 1⟩, rfl, rfl⟩

/-- Probability of `k` successes in `N` shots. -/
noncomputable def binom (N : ℕ) (p : ℝ) (k : ℕ) : ℝ := N.choose k * p ^ k * (1 - p) ^ (N - k)

/-- For the right model the figure of merit is zero on average: the mean of a term over the binomial
distribution of the measured frequency vanishes, for every probability and number of shots. -/
theorem C114_expectation (N : ℕ) (hN : 0 < N) (p : ℝ) (h0 : 0 < p) (h1 : p < 1) (std : ℝ) :
    ∃ t : ℕ → ℝ, (∀ k : ℕ, gTerm ⟨k / N, p, std, N⟩ = some (t k)) ∧
      ∑ k ∈ Finset.range (N + 1), binom N p k * t k = 0 := by
  have hN' : (0 : ℝ) < N := by exact_mod_cast hN
  refine ⟨_, fun k => gTerm_usable _ ⟨h0, h1, hN'⟩, ?_⟩
  simp only
  have hvar := congrArg (Polynomial.eval p) (bernsteinPolynomial.variance ℝ N)
  have hone := congrArg (Polynomial.eval p) (bernsteinPolynomial.sum ℝ N)
  simp only [Polynomial.eval_finsetSum, bernsteinPolynomial, Polynomial.eval_mul, Polynomial.eval_pow,
    Polynomial.eval_sub, Polynomial.eval_X, Polynomial.eval_natCast,
    Polynomial.eval_one, nsmul_eq_mul] at hvar hone
  have hq : p * (1 - p) ≠ 0 := (mul_pos h0 (by linarith)).ne'
  have key : ∀ k : ℕ, binom N p k * ((((k : ℝ) / N - p) ^ 2 / (p * (1 - p) / N) - 1) / 2) =
      ((N * p - k) ^ 2 * (N.choose k * p ^ k * (1 - p) ^ (N - k))) * (1 / (2 * N * (p * (1 - p)))) -
        (N.choose k * p ^ k * (1 - p) ^ (N - k)) * (1 / 2) := by
    intro k
    unfold binom
    have hp' : (1 - p) ≠ 0 := by linarith
    field_simp
    ring
  rw [Finset.sum_congr rfl fun k _ => key k, Finset.sum_sub_distrib, ← Finset.sum_mul, ← Finset.sum_mul,
    hvar, hone]
  have hp' : (1 - p) ≠ 0 := by linarith
  field_simp
  ring

example : (0 : ℝ) < 1 / 2 ∧ (1 / 2 : ℝ) < 1 ∧ 0 < 10 := by norm_num

/-! ## C115: relations between the estimators -/

/-- `tf.abs(exp - sim)`. -/
noncomputable def diff (p : Pt) : ℝ := |p.exp - p.sim|

/-- c3/libraries/estimators.py:19-23 `mean_dist`. -/
noncomputable def meanDist (l : List Pt) : Option ℝ := mean (l.map diff)

/-- c3/libraries/estimators.py:33-37 `rms_dist`. -/
noncomputable def rmsDist (l : List Pt) : Option ℝ := (mean (l.map fun p => diff p ^ 2)).bind tfSqrt

/-- c3/libraries/estimators.py:40-45 `mean_sim_stds_dist`. -/
noncomputable def meanSimStdsDist (l : List Pt) : Option ℝ :=
  (allSome (l.map fun p => (simStd p).bind fun s => fdiv (diff p) s)).bind mean

/-- c3/libraries/estimators.py:48-53 `rms_sim_stds_dist`. -/
noncomputable def rmsSimStdsDist (l : List Pt) : Option ℝ :=
  ((allSome (l.map fun p => (simStd p).bind fun s => (fdiv (diff p) s).map (· ^ 2))).bind mean).bind tfSqrt

/-- c3/libraries/estimators.py:70-74 `std_of_diffs`: `tf.math.reduce_std` is the root of the mean squared
deviation from the mean. -/
noncomputable def stdOfDiffs (l : List Pt) : Option ℝ :=
  (meanDist l).bind fun m => (mean (l.map fun p => (diff p - m) ^ 2)).bind tfSqrt

/-- `tfp.distributions.Normal(mean, std).log_prob(x)`. -/
noncomputable def normalLogProb (m s x : ℝ) : ℝ :=
  -((x - m) / s) ^ 2 / 2 - (Real.log s + Real.log (2 * Real.pi) / 2)

/-- C115: `normalLogProb` is the logarithm of the density of the normal distribution. -/
theorem C115_density (m s x : ℝ) (hs : 0 < s) :
    Real.exp (normalLogProb m s x) = (Real.sqrt (2 * Real.pi * s ^ 2))⁻¹ * Real.exp (-(x - m) ^ 2 / (2 * s ^ 2)) := by
  have h2 : (0 : ℝ) < 2 * Real.pi := by positivity
  unfold normalLogProb
  rw [sub_eq_add_neg, Real.exp_add, mul_comm]
  congr 1
  · rw [Real.exp_neg, Real.exp_add, Real.exp_log hs, Real.sqrt_mul h2.le, Real.sqrt_sq hs.le, mul_comm s]
    congr 2
    rw [← Real.log_sqrt h2.le, Real.exp_log (Real.sqrt_pos.2 h2)]
  · congr 1
    field_simp

/-- c3/libraries/estimators.py:122-135 `neg_loglkh_gauss_norm` on usable points (no degenerate standard
deviation). -/
noncomputable def negGaussNorm (l : List Pt) : Option ℝ :=
  ((allSome (l.map fun p => (simStd p).map fun s => normalLogProb p.sim s p.exp - normalLogProb p.sim s p.sim)).bind
    mean).map fun m => -m

/-- c3/libraries/estimators.py:138-151 `neg_loglkh_gauss_norm_sum`. -/
noncomputable def negGaussNormSum (l : List Pt) : Option ℝ :=
  (allSome (l.map fun p => (simStd p).map fun s => normalLogProb p.sim s p.exp - normalLogProb p.sim s p.sim)).map
    fun r => -r.sum

theorem simStd_usable (p : Pt) (h : Usable p) : simStd p = some (Real.sqrt (p.sim * (1 - p.sim) / p.shots)) ∧
    0 < Real.sqrt (p.sim * (1 - p.sim) / p.shots) ∧
    Real.sqrt (p.sim * (1 - p.sim) / p.shots) ^ 2 = p.sim * (1 - p.sim) / p.shots := by
  obtain ⟨h1, h2, h3⟩ := h
  have hpos : 0 < p.sim * (1 - p.sim) / p.shots := div_pos (mul_pos h1 (by linarith)) h3
  refine ⟨?_, Real.sqrt_pos.2 hpos, Real.sq_sqrt hpos.le⟩
  unfold simStd fdiv tfSqrt
  rw [if_neg h3.ne', Option.bind_some, if_pos hpos.le]

/-- Squared distance in units of the simulated standard deviation. -/
noncomputable def D (p : Pt) : ℝ := (p.exp - p.sim) ^ 2 / (p.sim * (1 - p.sim) / p.shots)

theorem sum_affine (l : List Pt) (f : Pt → ℝ) (a b : ℝ) :
    (l.map fun p => a * f p + b).sum = a * (l.map f).sum + b * l.length := by
  induction l with
  | nil => simp
  | cons p l ih => rw [List.map_cons, List.sum_cons, ih, List.map_cons, List.sum_cons, List.length_cons]; push_cast; ring

/-- On usable data the figure of merit, the rms distance in simulated standard deviations and the normalised
Gaussian likelihoods are the same information: `gauss_norm = g + 1/2`, `gauss_norm_sum = n (g + 1/2)`,
`rms_sim_stds² = 2 g + 1`. -/
theorem C115_relations (l : List Pt) (hne : l ≠ []) (hu : ∀ p ∈ l, Usable p) :
    ∃ g r, gLLPrime [l] = some g ∧ rmsSimStdsDist l = some r ∧ r ^ 2 = 2 * g + 1 ∧ 0 ≤ r ∧
      negGaussNorm l = some (g + 1 / 2) ∧ negGaussNormSum l = some (l.length * (g + 1 / 2)) := by
  have hl : (0 : ℝ) < l.length := by exact_mod_cast List.length_pos_of_ne_nil hne
  have hg : l.map gTerm = (l.map fun p => (1 / 2) * D p + (-1 / 2)).map some := by
    rw [List.map_map]
    refine List.map_congr_left fun p hp => ?_
    rw [gTerm_usable p (hu p hp)]
    simp only [Function.comp, D]
    congr 1
    ring
  have hr : (l.map fun p => (simStd p).bind fun s => (fdiv (diff p) s).map (· ^ 2)) = (l.map D).map some := by
    rw [List.map_map]
    refine List.map_congr_left fun p hp => ?_
    obtain ⟨h1, h2, h3⟩ := simStd_usable p (hu p hp)
    rw [h1, Option.bind_some, fdiv, if_neg h2.ne']
    simp only [Option.map_some, Function.comp, D, diff]
    rw [div_pow, h3, sq_abs]
  have hn : (l.map fun p => (simStd p).map fun s => normalLogProb p.sim s p.exp - normalLogProb p.sim s p.sim) =
      (l.map fun p => (-1 / 2) * D p + 0).map some := by
    rw [List.map_map]
    refine List.map_congr_left fun p hp => ?_
    obtain ⟨h1, h2, h3⟩ := simStd_usable p (hu p hp)
    rw [h1, Option.map_some]
    simp only [Function.comp, D, normalLogProb]
    congr 1
    rw [sub_self, zero_div, div_pow, h3]
    ring
  have hpos : 0 ≤ (l.map D).sum / l.length := by
    refine div_nonneg (List.sum_nonneg ?_) hl.le
    intro x hx
    obtain ⟨p, hp, rfl⟩ := List.mem_map.1 hx
    obtain ⟨h1, h2, h3⟩ := hu p hp
    exact div_nonneg (sq_nonneg _) (div_nonneg (mul_nonneg h1.le (by linarith)) h3.le)
  refine ⟨(1 / 2) * ((l.map D).sum / l.length) - 1 / 2, Real.sqrt ((l.map D).sum / l.length), ?_, ?_, ?_,
    Real.sqrt_nonneg _, ?_, ?_⟩
  · unfold gLLPrime
    rw [List.flatten_singleton, hg, allSome_map_some, Option.bind_some, mean_some _ (by simpa using hne),
      sum_affine, List.length_map]
    congr 1
    field_simp
    ring
  · unfold rmsSimStdsDist
    rw [hr, allSome_map_some, Option.bind_some, mean_some _ (by simpa using hne), Option.bind_some, tfSqrt,
      List.length_map, if_pos hpos]
  · rw [Real.sq_sqrt hpos]; ring
  · unfold negGaussNorm
    rw [hn, allSome_map_some, Option.bind_some, mean_some _ (by simpa using hne), sum_affine, List.length_map,
      Option.map_some]
    congr 1
    ring
  · unfold negGaussNormSum
    rw [hn, allSome_map_some, Option.map_some, sum_affine]
    congr 1
    field_simp
    ring

example : ∃ l : List Pt, l ≠ [] ∧ ∀ p ∈ l, Usable p :=
  ⟨[⟨1, 1 / 2, 0, 1⟩], by simp, by simp [Usable]; norm_num⟩

/-- `std_of_diffs² = rms_dist² - mean_dist²`, so the mean distance never exceeds the rms distance. -/
theorem C115_spread (l : List Pt) (hne : l ≠ []) :
    ∃ m r s, meanDist l = some m ∧ rmsDist l = some r ∧ stdOfDiffs l = some s ∧ s ^ 2 = r ^ 2 - m ^ 2 ∧
      0 ≤ m ∧ m ≤ r := by
  have hl : (0 : ℝ) < l.length := by exact_mod_cast List.length_pos_of_ne_nil hne
  have hm : meanDist l = some ((l.map diff).sum / l.length) := by
    unfold meanDist
    rw [mean_some _ (by simpa using hne), List.length_map]
  set m := (l.map diff).sum / l.length with hmdef
  have hnn : ∀ f : Pt → ℝ, (∀ p, 0 ≤ f p) → 0 ≤ (l.map f).sum / l.length := by
    intro f hf
    refine div_nonneg (List.sum_nonneg ?_) hl.le
    intro x hx
    obtain ⟨p, -, rfl⟩ := List.mem_map.1 hx
    exact hf p
  have hr0 := hnn (fun p => diff p ^ 2) fun p => sq_nonneg _
  have hs0 := hnn (fun p => (diff p - m) ^ 2) fun p => sq_nonneg _
  have hm0 : 0 ≤ m := hnn diff fun p => abs_nonneg _
  have hvar : (l.map fun p => (diff p - m) ^ 2).sum / l.length =
      (l.map fun p => diff p ^ 2).sum / l.length - m ^ 2 := by
    have h1 : ∀ l : List Pt, (l.map fun p => (diff p - m) ^ 2).sum =
        (l.map fun p => diff p ^ 2).sum - 2 * m * (l.map diff).sum + l.length * m ^ 2 := by
      intro l
      induction l with
      | nil => simp
      | cons p l ih =>
        simp only [List.map_cons, List.sum_cons, List.length_cons, ih]
        push_cast
        ring
    rw [h1]
    have : (l.map diff).sum = m * l.length := by rw [hmdef]; field_simp
    rw [this]
    field_simp
    ring
  refine ⟨m, Real.sqrt ((l.map fun p => diff p ^ 2).sum / l.length),
    Real.sqrt ((l.map fun p => (diff p - m) ^ 2).sum / l.length), hm, ?_, ?_, ?_, hm0, ?_⟩
  · unfold rmsDist
    rw [mean_some _ (by simpa using hne), Option.bind_some, List.length_map, tfSqrt, if_pos hr0]
  · unfold stdOfDiffs
    rw [hm, Option.bind_some, mean_some _ (by simpa using hne), Option.bind_some, List.length_map, tfSqrt,
      if_pos hs0]
  · rw [Real.sq_sqrt hs0, Real.sq_sqrt hr0, hvar]
  · refine Real.le_sqrt_of_sq_le ?_
    have := hvar ▸ hs0
    linarith

example : ∃ l : List Pt, l ≠ [] := ⟨[⟨1, 1 / 2, 0, 1⟩], by simp⟩

end C3.Optim.Est
