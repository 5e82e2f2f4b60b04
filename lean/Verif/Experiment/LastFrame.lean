import Verif.Experiment.Waiting
import Verif.Experiment.Cutting

/-!
# C262: the frame of the last gate cannot be seen

The whole chain of C199 for two experiments that play the same samples on the same chip, but differ in the frame rotation:
in its use, in the frequencies, frame changes and lengths it is computed from, and in the targets of the lines.
-/

set_option linter.unusedSectionVars false

noncomputable section

namespace C3.Experiment.LastFrame

open Matrix Finset C3.Propagation C3.Hilbert C3.Experiment C3.Experiment.Compute C3.Experiment.EndToEnd

variable {dims : List ℕ}

/-! ## Specification -/

/-- Chips with the same Hamiltonians and collapse operators. -/
structure SamePhysics (c c' : Chip dims) : Prop where
  sys : c.sys = c'.sys
  tr : c.tr = c'.tr
  cols : c.cols = c'.cols

/-- Pulses with the same samples. -/
structure SameSamples (p p' : Pulse) : Prop where
  chans : p.chans = p'.chans
  values : p.values = p'.values
  dt : p.dt = p'.dt

/-- Both tables have an instruction with these samples under the name. -/
def SameUnder (ps ps' : List (String × Pulse)) (g : String) : Prop :=
  ∃ p p', ps.lookup g = some p ∧ ps'.lookup g = some p' ∧ SameSamples p p'

/-! ## Lemmas -/

/-- Gates that give the same populations in every state. -/
def Unseen (U V : Op dims) : Prop := ∀ psi, popsClosed (U *ᵥ psi) = popsClosed (V *ᵥ psi)

def UnseenOpen (S T : SOp dims) : Prop := ∀ v, popsOpen (S *ᵥ v) = popsOpen (T *ᵥ v)

theorem phases_unseen (f : Fin dims.prod → ℂ) (hf : ∀ i, f i * star (f i) = 1) (U : Op dims) : Unseen (diagonal f * U) U := by
  intro psi
  funext i
  unfold popsClosed
  rw [← mulVec_mulVec, mulVec_diagonal, norm_mul]
  have h1 : ‖f i‖ * ‖f i‖ = 1 := by
    have := congrArg norm (hf i)
    rwa [norm_mul, norm_star, norm_one] at this
  rw [mul_pow, pow_two ‖f i‖, h1, one_mul]

theorem phases_unseen_open (f : Fin dims.prod → ℂ) (hf : ∀ i, f i * star (f i) = 1) (S : SOp dims) :
    UnseenOpen (tfSuper (diagonal f) * S) S := by
  intro v
  funext i
  rw [← mulVec_mulVec]
  set w := S *ᵥ v
  have e : ∀ w : Fin dims.prod × Fin dims.prod → ℂ, popsOpen w i = (unRow w i i).re := fun _ => rfl
  have hw : w = rowVec (unRow w) := rfl
  rw [e, e, hw, C26_super_row, unRow_rowVec, unRow_rowVec, diagonal_conjTranspose, mul_diagonal, diagonal_mul]
  have : f i * unRow w i i * star f i = f i * star (f i) * unRow w i i := by
    rw [Pi.star_apply]
    ring
  rw [this, hf, one_mul]

/-- The part of a gate before the frame rotation. -/
theorem closed_parts (c : Chip dims) (hc : c.WF) (ps : List (String × Pulse)) (g : String) (V : Op dims)
    (h : physical (closed c ps) (.name "pwc") g = .ok V) (p : Pulse) (hp : ps.lookup g = some p) :
    p.values ≠ [] ∧ ∃ ks, c.hks p = some ks ∧ Unseen V (Fold.timeOrdered (p.values.map (dUOfT c.h0 ks p.dt))) := by
  obtain ⟨q, ks, U, hq, hk, hU, hF⟩ := physical_closed c ps g V h
  rw [hp] at hq
  obtain rfl := Option.some.inj hq
  have hv : p.values ≠ [] := by
    intro hv
    rw [hv, List.length_nil, pwc_empty c.h0 ks p.dt c.batch hc.batch] at hU
    cases hU
  refine ⟨hv, ks, hk, ?_⟩
  rw [pwc_eq c.h0 ks p.dt p.values hv c.batch hc.batch] at hU
  rw [Option.some.inj hU]
  rcases hF with ⟨-, F, hF, rfl⟩ | ⟨-, rfl⟩
  · obtain ⟨f, rfl, hf⟩ := Waiting.frame_diagonal c hc p F hF
    exact phases_unseen f hf U
  · exact fun _ => rfl

theorem opened_parts (c : Chip dims) (hc : c.WF) (ps : List (String × Pulse)) (g : String) (V : SOp dims)
    (h : physical (opened c ps) (.name "pwc") g = .ok V) (p : Pulse) (hp : ps.lookup g = some p) :
    p.values ≠ [] ∧ ∃ ks, c.hks p = some ks ∧
      UnseenOpen V (Fold.timeOrdered (p.values.map (dUOfTLind c.h0 ks c.cols p.dt))) := by
  obtain ⟨q, ks, U, hq, hk, hU, hF⟩ := physical_opened c ps g V h
  rw [hp] at hq
  obtain rfl := Option.some.inj hq
  have hv : p.values ≠ [] := by
    intro hv
    rw [hv, List.length_nil, pwcLind_empty c.h0 ks c.cols p.dt c.batch hc.batch] at hU
    cases hU
  refine ⟨hv, ks, hk, ?_⟩
  rw [pwcLind_eq c.h0 ks c.cols p.dt p.values hv c.batch hc.batch] at hU
  rw [Option.some.inj hU]
  rcases hF with ⟨-, F, hF, rfl⟩ | ⟨-, rfl⟩
  · obtain ⟨f, rfl, hf⟩ := Waiting.frame_diagonal c hc p F hF
    exact phases_unseen_open f hf U
  · exact fun _ => rfl

theorem same_h0 (c c' : Chip dims) (h : SamePhysics c c') : c.h0 = c'.h0 := by
  unfold Chip.h0
  rw [h.sys, h.tr]

theorem same_hks (c c' : Chip dims) (h : SamePhysics c c') (p p' : Pulse) (hp : SameSamples p p') : c.hks p = c'.hks p' := by
  unfold Chip.hks
  rw [h.sys, h.tr, hp.chans]

/-! ## Gates -/

/-- C262 (gates of closed systems): whatever the frames, the gate leads from every state to the same populations. -/
theorem C262_gate (c c' : Chip dims) (hc : c.WF) (hc' : c'.WF) (h : SamePhysics c c') (ps ps' : List (String × Pulse))
    (g : String) (hg : SameUnder ps ps' g) (V V' : Op dims) (hV : physical (closed c ps) (.name "pwc") g = .ok V)
    (hV' : physical (closed c' ps') (.name "pwc") g = .ok V') (psi : Fin dims.prod → ℂ) :
    popsClosed (V *ᵥ psi) = popsClosed (V' *ᵥ psi) := by
  obtain ⟨p, p', hp, hp', hs⟩ := hg
  obtain ⟨-, ks, hk, h1⟩ := closed_parts c hc ps g V hV p hp
  obtain ⟨-, ks', hk', h2⟩ := closed_parts c' hc' ps' g V' hV' p' hp'
  rw [same_hks c c' h p p' hs, hk'] at hk
  obtain rfl := Option.some.inj hk
  rw [same_h0 c c' h, hs.values, hs.dt] at h1
  rw [h1, h2]

/-- C262 (gates of open systems). -/
theorem C262_gate_open (c c' : Chip dims) (hc : c.WF) (hc' : c'.WF) (h : SamePhysics c c') (ps ps' : List (String × Pulse))
    (g : String) (hg : SameUnder ps ps' g) (V V' : SOp dims) (hV : physical (opened c ps) (.name "pwc") g = .ok V)
    (hV' : physical (opened c' ps') (.name "pwc") g = .ok V') (v : Fin dims.prod × Fin dims.prod → ℂ) :
    popsOpen (V *ᵥ v) = popsOpen (V' *ᵥ v) := by
  obtain ⟨p, p', hp, hp', hs⟩ := hg
  obtain ⟨-, ks, hk, h1⟩ := opened_parts c hc ps g V hV p hp
  obtain ⟨-, ks', hk', h2⟩ := opened_parts c' hc' ps' g V' hV' p' hp'
  rw [same_hks c c' h p p' hs, hk'] at hk
  obtain rfl := Option.some.inj hk
  rw [same_h0 c c' h, h.cols, hs.values, hs.dt] at h1
  rw [h1, h2]

/-! ## Sequences -/

/-- The two tables were computed for the last gate with chips and pulses that differ in the frames only. -/
structure Differs {V : Type} [Monoid V] (wrld : Chip dims → List (String × Pulse) → World V) (props props' : String → Option V)
    (g : String) : Prop where
  source : ∃ (c c' : Chip dims) (ps ps' : List (String × Pulse)) (U U' : V), c.WF ∧ c'.WF ∧ SamePhysics c c' ∧ SameUnder ps ps' g ∧
    physical (wrld c ps) (.name "pwc") g = .ok U ∧ physical (wrld c' ps') (.name "pwc") g = .ok U' ∧
    props g = some U ∧ props' g = some U'

theorem run_congr {d : Type*} [Fintype d] [DecidableEq d] (props props' : String → Option (Matrix d d ℂ)) (s : List String)
    (h : ∀ k ∈ s, props k = props' k) (psi : d → ℂ) : runSeq props s psi = runSeq props' s psi := by
  induction s generalizing psi with
  | nil => rfl
  | cons k s ih =>
    rw [runSeq, runSeq, h k List.mem_cons_self]
    cases props' k with
    | none => rfl
    | some U => exact ih (fun k hk => h k (List.mem_cons_of_mem _ hk)) _

/-- C262 (closed systems): two tables of gates that agree but for the frame of `g` give the same populations for all
sequences that end with `g` and do not contain it otherwise. -/
theorem C262_closed (props props' : String → Option (Op dims)) (g : String) (hd : Differs closed props props' g)
    (seqs : List (List String)) (h : ∀ s ∈ seqs, ∀ k ∈ s, props k = props' k) (psi : Fin dims.prod → ℂ) :
    evaluateClosed props (seqs.map (· ++ [g])) psi = evaluateClosed props' (seqs.map (· ++ [g])) psi := by
  obtain ⟨c, c', ps, ps', U, U', hc, hc', hs, hu, h1, h2, h3, h4⟩ := hd.source
  unfold evaluateClosed
  rw [List.mapM_map, List.mapM_map]
  induction seqs with
  | nil => rfl
  | cons s l ih =>
    rw [List.mapM_cons, List.mapM_cons, ih fun t ht => h t (List.mem_cons_of_mem _ ht)]
    have e : Option.map popsClosed (runSeq props (s ++ [g]) psi) = Option.map popsClosed (runSeq props' (s ++ [g]) psi) := by
      rw [Cutting.run_append, Cutting.run_append, run_congr props props' s (h s List.mem_cons_self)]
      cases runSeq props' s psi with
      | none => rfl
      | some phi =>
        simp only [Option.bind_some, runSeq, h3, h4, Option.map_some]
        rw [C262_gate c c' hc hc' hs ps ps' g hu U U' h1 h2 phi]
    simp only [Function.comp, e]

/-- C262 (open systems). -/
theorem C262_open (props props' : String → Option (SOp dims)) (g : String) (hd : Differs opened props props' g)
    (seqs : List (List String)) (h : ∀ s ∈ seqs, ∀ k ∈ s, props k = props' k) (v : Fin dims.prod × Fin dims.prod → ℂ) :
    evaluateOpen props (seqs.map (· ++ [g])) v = evaluateOpen props' (seqs.map (· ++ [g])) v := by
  obtain ⟨c, c', ps, ps', U, U', hc, hc', hs, hu, h1, h2, h3, h4⟩ := hd.source
  unfold evaluateOpen
  rw [List.mapM_map, List.mapM_map]
  induction seqs with
  | nil => rfl
  | cons s l ih =>
    rw [List.mapM_cons, List.mapM_cons, ih fun t ht => h t (List.mem_cons_of_mem _ ht)]
    have e : Option.map popsOpen (runSeq props (s ++ [g]) v) = Option.map popsOpen (runSeq props' (s ++ [g]) v) := by
      rw [Cutting.run_append, Cutting.run_append, run_congr props props' s (h s List.mem_cons_self)]
      cases runSeq props' s v with
      | none => rfl
      | some w =>
        simp only [Option.bind_some, runSeq, h3, h4, Option.map_some]
        rw [C262_gate_open c c' hc hc' hs ps ps' g hu U U' h1 h2 w]
    simp only [Function.comp, e]

/-- C262: the tables of two experiments after successful computations, whatever was computed before. -/
theorem C262_computed {V : Type} [Monoid V] (wrld : Chip dims → List (String × Pulse) → World V)
    (hwf : ∀ c ps, (wrld c ps).WF) (s s' : Exp V) (hm : s.propMethod = none) (hm' : s'.propMethod = none)
    (hp : ∀ g, s.propagators g = none) (hp' : ∀ g, s'.propagators g = none) (es es' : List (Event V))
    (hw : ∀ f ∈ es, f.w.WF) (hw' : ∀ f ∈ es', f.w.WF) (c c' : Chip dims) (hc : c.WF) (hc' : c'.WF) (h : SamePhysics c c')
    (ps ps' : List (String × Pulse)) (sel sel' : Option (List Gate)) (o o' : Bool) (g : String) (hg : SameUnder ps ps' g)
    (hs : (⟨wrld c ps, sel, o⟩ : Event V).Succeeds) (hs' : (⟨wrld c' ps', sel', o'⟩ : Event V).Succeeds)
    (hin : g ∈ sel.getD (wrld c ps).keys) (hin' : g ∈ sel'.getD (wrld c' ps').keys) :
    Differs wrld (runEvents s (es ++ [⟨wrld c ps, sel, o⟩])).propagators
      (runEvents s' (es' ++ [⟨wrld c' ps', sel', o'⟩])).propagators g := by
  obtain ⟨U, hU⟩ := hs g hin
  obtain ⟨U', hU'⟩ := hs' g hin'
  refine ⟨c, c', ps, ps', U, U', hc, hc', h, hg, hU, hU', ?_, ?_⟩
  · refine Cutting.last_value s hm hp es _ ?_ hs g hin U hU
    intro f hf
    rcases List.mem_append.1 hf with hf | hf
    · exact hw f hf
    · rw [List.mem_singleton.1 hf]
      exact hwf c ps
  · refine Cutting.last_value s' hm' hp' es' _ ?_ hs' g hin' U' hU'
    intro f hf
    rcases List.mem_append.1 hf with hf | hf
    · exact hw' f hf
    · rw [List.mem_singleton.1 hf]
      exact hwf c' ps'

/-! ## Examples -/

def rx (f x : ℝ) : List (String × Pulse) := [("rx", ⟨["d"], [[1], [2]], 1, [("d", f)], fun _ => some x, 2⟩)]

theorem rx_same (f f' x x' : ℝ) : SameUnder (rx f x) (rx f' x') "rx" := ⟨_, _, rfl, rfl, rfl, rfl, rfl⟩

theorem rx_value (f x : ℝ) : ∃ V, physical (closed exChip (rx f x)) (.name "pwc") "rx" = .ok V :=
  C199_computed exChip exChip_wf (rx f x) "rx" _ rfl (by simp)
    (by
      intro k hk
      rw [List.mem_singleton.1 hk]
      exact ⟨_, rfl⟩)
    (fun l _ => ⟨⟨x, rfl⟩, 0, by simp, rfl⟩)

/-- The driven qubit with two different frames. -/
example : ∃ V V', physical (closed exChip (rx 5 0)) (.name "pwc") "rx" = .ok V ∧
    physical (closed exChip (rx 7 1)) (.name "pwc") "rx" = .ok V' ∧ ∀ psi, popsClosed (V *ᵥ psi) = popsClosed (V' *ᵥ psi) := by
  obtain ⟨V, hV⟩ := rx_value 5 0
  obtain ⟨V', hV'⟩ := rx_value 7 1
  exact ⟨V, V', hV, hV', C262_gate exChip exChip exChip_wf exChip_wf ⟨rfl, rfl, rfl⟩ _ _ "rx" (rx_same _ _ _ _) V V' hV hV'⟩

/-- Between two gates the frame can be seen: quarter turns about x with and without a half turn of the frame between them. -/
example : let X : Matrix (Fin 2) (Fin 2) ℂ := !![1, -Complex.I; -Complex.I, 1]
    let Z : Matrix (Fin 2) (Fin 2) ℂ := !![1, 0; 0, -1]
    (X * X) 0 0 = 0 ∧ (X * Z * X) 0 0 = 2 := by
  constructor
  · simp [Matrix.mul_apply, Fin.sum_univ_two]
  · simp [Matrix.mul_apply, Fin.sum_univ_two]
    norm_num

end C3.Experiment.LastFrame
