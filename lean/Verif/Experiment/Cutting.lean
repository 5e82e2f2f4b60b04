import Verif.Experiment.EndToEnd

/-!
# C260: a long pulse is the sequence of its pieces

The whole chain of C199 for an instruction and for instructions that play consecutive pieces of its samples.
-/

set_option linter.unusedSectionVars false

noncomputable section

namespace C3.Experiment.Cutting

open Matrix C3.Propagation C3.Hilbert C3.Experiment C3.Experiment.Compute C3.Experiment.EndToEnd

variable {dims : List ℕ}

/-! ## Specification -/

/-- The instructions `names` play consecutive pieces of the samples of the instruction `g`. -/
structure Cut (ps : List (String × Pulse)) (g : String) (names : List String) : Prop where
  pieces : ∃ p vs, ps.lookup g = some p ∧ p.values = vs.flatten ∧ names ≠ [] ∧
    List.Forall₂ (fun k v => v ≠ [] ∧ ∃ q, ps.lookup k = some q ∧ q.chans = p.chans ∧ q.dt = p.dt ∧ q.values = v) names vs

/-- A sequence with the pieces in place of the instruction. -/
def spell (g : String) (names : List String) (s : List String) : List String :=
  s.flatMap fun k => if k = g then names else [k]

/-! ## Lemmas -/

theorem timeOrdered_append {M : Type*} [Monoid M] (a b : List M) :
    Fold.timeOrdered (a ++ b) = Fold.timeOrdered b * Fold.timeOrdered a := by
  unfold Fold.timeOrdered
  rw [List.reverse_append, List.prod_append]

theorem timeOrdered_cons {M : Type*} [Monoid M] (a : M) (b : List M) :
    Fold.timeOrdered (a :: b) = Fold.timeOrdered b * a := by
  simp [Fold.timeOrdered]

theorem timeOrdered_flatten {M α : Type*} [Monoid M] (f : α → M) (vs : List (List α)) :
    Fold.timeOrdered (vs.flatten.map f) = Fold.timeOrdered (vs.map fun v => Fold.timeOrdered (v.map f)) := by
  induction vs with
  | nil => rfl
  | cons v vs ih => rw [List.flatten_cons, List.map_append, timeOrdered_append, ih, List.map_cons, timeOrdered_cons]

theorem chans_hks (c : Chip dims) (p q : Pulse) (h : q.chans = p.chans) : c.hks q = c.hks p := by
  unfold Chip.hks
  rw [h]

/-- The gate without frame rotation is the product of its slices, and fails only if a channel is unknown. -/
theorem closed_value (c : Chip dims) (hc : c.WF) (hf : c.useFR = false) (ps : List (String × Pulse)) (g : String) (p : Pulse)
    (hp : ps.lookup g = some p) (hv : p.values ≠ []) (m : Method) :
    physical (closed c ps) m g = match c.hks p with
      | none => .error .inner
      | some ks => .ok (Fold.timeOrdered (p.values.map (dUOfT c.h0 ks p.dt))) := by
  unfold physical closed
  simp only [hp, Option.map_some, hf]
  cases c.hks p with
  | none => rfl
  | some ks =>
    simp only
    rw [pwc_eq c.h0 ks p.dt p.values hv c.batch hc.batch]
    simp

theorem opened_value (c : Chip dims) (hc : c.WF) (hf : c.useFR = false) (ps : List (String × Pulse)) (g : String) (p : Pulse)
    (hp : ps.lookup g = some p) (hv : p.values ≠ []) (m : Method) :
    physical (opened c ps) m g = match c.hks p with
      | none => .error .inner
      | some ks => .ok (Fold.timeOrdered (p.values.map (dUOfTLind c.h0 ks c.cols p.dt))) := by
  unfold physical opened
  simp only [hp, Option.map_some, hf]
  cases c.hks p with
  | none => rfl
  | some ks =>
    simp only
    rw [pwcLind_eq c.h0 ks c.cols p.dt p.values hv c.batch hc.batch]
    simp

theorem flatten_ne {names : List String} {vs : List (List (List ℝ))} {P : String → List (List ℝ) → Prop} (hn : names ≠ [])
    (h : List.Forall₂ (fun k v => v ≠ [] ∧ P k v) names vs) : vs.flatten ≠ [] := by
  cases h with
  | nil => exact absurd rfl hn
  | cons hx _ =>
    intro e
    rw [List.flatten_cons, List.append_eq_nil_iff] at e
    exact hx.1 e.1

theorem forall₂_left {α β : Type*} {R : α → β → Prop} {l : List α} {l' : List β} (h : List.Forall₂ R l l') :
    ∀ a ∈ l, ∃ b, R a b := by
  induction h with
  | nil => simp
  | cons hx _ ih =>
    intro a ha
    rcases List.mem_cons.1 ha with rfl | ha
    · exact ⟨_, hx⟩
    · exact ih a ha

/-! ## Gates -/

/-- Propagators of pieces and of the whole: products, or all of them fail. -/
def Pieces {V : Type} [Monoid V] (val : String → Except Err V) (g : String) (names : List String) : Prop :=
  (∃ Vs, List.Forall₂ (fun k V => val k = .ok V) names Vs ∧ val g = .ok (Fold.timeOrdered Vs)) ∨
    (∀ k ∈ names, ∃ e, val k = .error e) ∧ ∃ e, val g = .error e

theorem pieces_of {V : Type} [Monoid V] (val : String → Except Err V) (g : String) (names : List String)
    (vs : List (List (List ℝ))) (f : List ℝ → V) (hg : val g = .ok (Fold.timeOrdered (vs.flatten.map f)))
    (h : List.Forall₂ (fun k v => val k = .ok (Fold.timeOrdered (v.map f))) names vs) : Pieces val g names := by
  refine .inl ⟨vs.map fun v => Fold.timeOrdered (v.map f), ?_, by rw [hg, timeOrdered_flatten]⟩
  clear hg
  induction h with
  | nil => exact .nil
  | cons hx _ ih => exact .cons hx ih

/-- C260 (closed systems): without frame rotation the propagator of an instruction is the product of the propagators of its
pieces, latest first; if one of them cannot be computed, none can. -/
theorem C260_closed (c : Chip dims) (hc : c.WF) (hf : c.useFR = false) (ps : List (String × Pulse)) (g : String)
    (names : List String) (h : Cut ps g names) (m : Method) : Pieces (physical (closed c ps) m) g names := by
  obtain ⟨p, vs, hp, hv, hn, hvs⟩ := h.pieces
  have hne : p.values ≠ [] := by rw [hv]; exact flatten_ne hn hvs
  have hg := closed_value c hc hf ps g p hp hne m
  have hk : List.Forall₂ (fun k v => physical (closed c ps) m k = match c.hks p with
      | none => .error .inner
      | some ks => .ok (Fold.timeOrdered (v.map (dUOfT c.h0 ks p.dt)))) names vs := by
    refine hvs.imp fun k v ⟨hv0, q, h1, h2, h3, h4⟩ => ?_
    rw [closed_value c hc hf ps k q h1 (by rw [h4]; exact hv0) m, chans_hks c p q h2, h3, h4]
  cases hks : c.hks p with
  | none =>
    rw [hks] at hg hk
    refine .inr ⟨fun k hm => ?_, _, hg⟩
    obtain ⟨v, hv⟩ := forall₂_left hk k hm
    exact ⟨_, hv⟩
  | some ks =>
    rw [hks] at hg hk
    exact pieces_of _ g names vs (dUOfT c.h0 ks p.dt) (by rw [hg, hv]) hk

/-- C260 (open systems). -/
theorem C260_opened (c : Chip dims) (hc : c.WF) (hf : c.useFR = false) (ps : List (String × Pulse)) (g : String)
    (names : List String) (h : Cut ps g names) (m : Method) : Pieces (physical (opened c ps) m) g names := by
  obtain ⟨p, vs, hp, hv, hn, hvs⟩ := h.pieces
  have hne : p.values ≠ [] := by rw [hv]; exact flatten_ne hn hvs
  have hg := opened_value c hc hf ps g p hp hne m
  have hk : List.Forall₂ (fun k v => physical (opened c ps) m k = match c.hks p with
      | none => .error .inner
      | some ks => .ok (Fold.timeOrdered (v.map (dUOfTLind c.h0 ks c.cols p.dt)))) names vs := by
    refine hvs.imp fun k v ⟨hv0, q, h1, h2, h3, h4⟩ => ?_
    rw [opened_value c hc hf ps k q h1 (by rw [h4]; exact hv0) m, chans_hks c p q h2, h3, h4]
  cases hks : c.hks p with
  | none =>
    rw [hks] at hg hk
    refine .inr ⟨fun k hm => ?_, _, hg⟩
    obtain ⟨v, hv⟩ := forall₂_left hk k hm
    exact ⟨_, hv⟩
  | some ks =>
    rw [hks] at hg hk
    exact pieces_of _ g names vs (dUOfTLind c.h0 ks c.cols p.dt) (by rw [hg, hv]) hk

/-! ## Sequences -/

section
variable {d : Type*} [Fintype d] [DecidableEq d]

theorem run_append (props : String → Option (Matrix d d ℂ)) (s t : List String) (psi : d → ℂ) :
    runSeq props (s ++ t) psi = (runSeq props s psi).bind (runSeq props t) := by
  induction s generalizing psi with
  | nil => rfl
  | cons k s ih =>
    rw [List.cons_append, runSeq, runSeq]
    cases props k with
    | none => rfl
    | some U => exact ih _

theorem run_pieces (props : String → Option (Matrix d d ℂ)) (names : List String) (Vs : List (Matrix d d ℂ))
    (h : List.Forall₂ (fun k V => props k = some V) names Vs) (psi : d → ℂ) :
    runSeq props names psi = some (Fold.timeOrdered Vs *ᵥ psi) := by
  induction h generalizing psi with
  | nil => simp [runSeq, Fold.timeOrdered]
  | cons hx _ ih =>
    rw [runSeq, hx]
    simp only
    rw [ih, timeOrdered_cons, mulVec_mulVec]

theorem run_spell (props : String → Option (Matrix d d ℂ)) (g : String) (names : List String) (Vs : List (Matrix d d ℂ))
    (h : List.Forall₂ (fun k V => props k = some V) names Vs) (hg : props g = some (Fold.timeOrdered Vs)) (s : List String)
    (psi : d → ℂ) : runSeq props (spell g names s) psi = runSeq props s psi := by
  induction s generalizing psi with
  | nil => rfl
  | cons k s ih =>
    have e : spell g names (k :: s) = (if k = g then names else [k]) ++ spell g names s := by
      unfold spell
      rw [List.flatMap_cons]
    rw [e, run_append]
    by_cases hk : k = g
    · subst hk
      rw [if_pos rfl, run_pieces props names Vs h, runSeq, hg]
      exact ih _
    · rw [if_neg hk]
      simp only [runSeq]
      cases props k with
      | none => rfl
      | some U => exact ih _

end

/-- The last computation before the evaluation included the instruction and its pieces. -/
def Covers {V : Type} (e : Event V) (g : String) (names : List String) : Prop :=
  g ∈ e.sel.getD e.w.keys ∧ ∀ k ∈ names, k ∈ e.sel.getD e.w.keys

theorem last_value {V : Type} [Monoid V] (s : Exp V) (hm : s.propMethod = none) (hp : ∀ g, s.propagators g = none)
    (es : List (Event V)) (e : Event V) (hw : ∀ f ∈ es ++ [e], f.w.WF) (hs : e.Succeeds) (g : String)
    (hg : g ∈ e.sel.getD e.w.keys) (v : V) (hv : physical e.w (.name "pwc") g = .ok v) :
    (runEvents s (es ++ [e])).propagators g = some v :=
  (C68_history s hm hp _ hw g v).2 ⟨es, e, [], rfl, hs, hg, hv, by simp⟩

theorem pieces_values {V : Type} [Monoid V] (s : Exp V) (hm : s.propMethod = none) (hp : ∀ g, s.propagators g = none)
    (es : List (Event V)) (e : Event V) (hw : ∀ f ∈ es ++ [e], f.w.WF) (hs : e.Succeeds) (g : String) (names : List String)
    (hc : Covers e g names) (h : Pieces (physical e.w (.name "pwc")) g names) :
    ∃ Vs, List.Forall₂ (fun k V => (runEvents s (es ++ [e])).propagators k = some V) names Vs ∧
      (runEvents s (es ++ [e])).propagators g = some (Fold.timeOrdered Vs) := by
  rcases h with ⟨Vs, h1, h2⟩ | ⟨-, err, h2⟩
  · refine ⟨Vs, ?_, last_value s hm hp es e hw hs g hc.1 _ h2⟩
    obtain ⟨l, hl⟩ := List.forall₂_iff_get.1 h1
    refine List.forall₂_iff_get.2 ⟨l, fun i a b => ?_⟩
    exact last_value s hm hp es e hw hs _ (hc.2 _ (List.get_mem _ _)) _ (hl i a b)
  · obtain ⟨v, hv⟩ := hs g hc.1
    rw [h2] at hv
    cases hv

/-- C260: after a computation of all of them, any sequence with the pieces in place of the instruction gives the same
populations, for all initial states (closed systems). -/
theorem C260_populations (s : Exp (Op dims)) (hm : s.propMethod = none) (hp : ∀ g, s.propagators g = none)
    (es : List (Event (Op dims))) (hw : ∀ f ∈ es, f.w.WF) (c : Chip dims) (hc : c.WF) (hf : c.useFR = false)
    (ps : List (String × Pulse)) (sel : Option (List Gate)) (overwrite : Bool)
    (hs : (⟨closed c ps, sel, overwrite⟩ : Event (Op dims)).Succeeds) (g : String) (names : List String) (h : Cut ps g names)
    (hcov : Covers (⟨closed c ps, sel, overwrite⟩ : Event (Op dims)) g names) (seqs : List (List String))
    (psi : Fin dims.prod → ℂ) :
    evaluateClosed (runEvents s (es ++ [⟨closed c ps, sel, overwrite⟩])).propagators (seqs.map (spell g names)) psi =
      evaluateClosed (runEvents s (es ++ [⟨closed c ps, sel, overwrite⟩])).propagators seqs psi := by
  obtain ⟨Vs, h1, h2⟩ := pieces_values s hm hp es ⟨closed c ps, sel, overwrite⟩ (by
    intro f hf
    rcases List.mem_append.1 hf with hf | hf
    · exact hw f hf
    · rw [List.mem_singleton.1 hf]
      exact closed_wf c ps) hs g names hcov (C260_closed c hc hf ps g names h _)
  unfold evaluateClosed
  rw [List.mapM_map]
  congr 1
  funext q
  simp only [Function.comp]
  rw [run_spell _ g names Vs h1 h2]

/-- C260: the same for open systems and density matrices. -/
theorem C260_populations_open (s : Exp (SOp dims)) (hm : s.propMethod = none) (hp : ∀ g, s.propagators g = none)
    (es : List (Event (SOp dims))) (hw : ∀ f ∈ es, f.w.WF) (c : Chip dims) (hc : c.WF) (hf : c.useFR = false)
    (ps : List (String × Pulse)) (sel : Option (List Gate)) (overwrite : Bool)
    (hs : (⟨opened c ps, sel, overwrite⟩ : Event (SOp dims)).Succeeds) (g : String) (names : List String) (h : Cut ps g names)
    (hcov : Covers (⟨opened c ps, sel, overwrite⟩ : Event (SOp dims)) g names) (seqs : List (List String)) (rho : Op dims) :
    evaluateOpen (runEvents s (es ++ [⟨opened c ps, sel, overwrite⟩])).propagators (seqs.map (spell g names)) (dmToVec rho) =
      evaluateOpen (runEvents s (es ++ [⟨opened c ps, sel, overwrite⟩])).propagators seqs (dmToVec rho) := by
  obtain ⟨Vs, h1, h2⟩ := pieces_values s hm hp es ⟨opened c ps, sel, overwrite⟩ (by
    intro f hf
    rcases List.mem_append.1 hf with hf | hf
    · exact hw f hf
    · rw [List.mem_singleton.1 hf]
      exact opened_wf c ps) hs g names hcov (C260_opened c hc hf ps g names h _)
  unfold evaluateOpen
  rw [List.mapM_map]
  congr 1
  funext q
  simp only [Function.comp]
  rw [run_spell _ g names Vs h1 h2]

/-! ## Examples -/

def pulse (vs : List (List ℝ)) : Pulse := ⟨["d"], vs, 1, [], fun _ => none, 2⟩

def table : List (String × Pulse) :=
  [("long", pulse [[1], [2], [3]]), ("first", pulse [[1], [2]]), ("last", pulse [[3]])]

theorem table_cut : Cut table "long" ["first", "last"] := by
  refine ⟨_, [[[1], [2]], [[3]]], rfl, rfl, by simp, ?_⟩
  exact .cons ⟨by simp, _, rfl, rfl, rfl, rfl⟩ (.cons ⟨by simp, _, rfl, rfl, rfl, rfl⟩ .nil)

example : spell "long" ["first", "last"] ["x", "long", "y"] = ["x", "first", "last", "y"] := by decide

/-- For the driven qubit without frame rotation the propagator of the long pulse is the product. -/
example : ∃ V W, physical (closed { exChip with useFR := false } table) (.name "pwc") "first" = .ok V ∧
    physical (closed { exChip with useFR := false } table) (.name "pwc") "last" = .ok W ∧
    physical (closed { exChip with useFR := false } table) (.name "pwc") "long" = .ok (W * V) := by
  have hc : ({ exChip with useFR := false } : Chip [2]).WF := ⟨exChip_wf.lines, exChip_wf.target, exChip_wf.batch⟩
  rcases C260_closed _ hc rfl table "long" ["first", "last"] table_cut (.name "pwc") with ⟨Vs, h1, h2⟩ | ⟨-, e, he⟩
  · cases h1 with
    | cons a h1 =>
      cases h1 with
      | cons b h1 =>
        cases h1
        refine ⟨_, _, a, b, ?_⟩
        rw [h2]
        simp [Fold.timeOrdered]
        rfl
  · rw [closed_value _ hc rfl table "long" (pulse [[1], [2], [3]]) rfl (by simp [pulse])] at he
    cases he

end C3.Experiment.Cutting
