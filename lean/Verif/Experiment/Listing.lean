import Verif.Experiment.Reorder

/-!
# C254: the order in which lines, channels, carriers, collapse operators and instructions are listed is arbitrary

The whole chain of C199 for two descriptions of the same chip and the same instructions that differ in the order of lists and
dictionaries only.
-/

set_option linter.unusedSectionVars false

noncomputable section

namespace C3.Experiment.Listing

open Matrix NormedSpace C3.Propagation C3.Hilbert C3.Experiment C3.Experiment.Compute C3.Experiment.EndToEnd

variable {dims : List ℕ}

/-! ## Specification -/

/-- The same chip with its lines and collapse operators listed in another order. -/
structure SameChip (c c' : Chip dims) : Prop where
  subs : c'.sys.subs = c.sys.subs
  lines : c'.sys.lines.Perm c.sys.lines
  names : (c.sys.lines.map Prod.fst).Nodup
  basis : c'.tr = c.tr
  decay : c'.cols.Perm c.cols
  target : c'.target = c.target
  frame : c'.useFR = c.useFR
  batch : c'.batch = c.batch

/-- The samples of the channels in another order. -/
def row (π : List ℕ) (v : List ℝ) : List ℝ := π.map fun i => v.getD i 0

/-- The same pulse with its channels and its carriers listed in another order. -/
structure SamePulse (p p' : Pulse) : Prop where
  rows : ∀ v ∈ p.values, v.length = p.chans.length
  order : ∃ π : List ℕ, π.Perm (List.range p.chans.length) ∧ p'.chans = π.map (fun i => p.chans.getD i "") ∧
    p'.values = p.values.map (row π)
  freqs : p'.freqs.Perm p.freqs
  dt : p'.dt = p.dt
  t : p'.t = p.t
  shifts : p'.shifts = p.shifts

/-- The same instructions as entries of dictionaries, inserted in any order. -/
def SameTable (ps ps' : List (String × Pulse)) : Prop :=
  ∀ g, (ps.lookup g = none ∧ ps'.lookup g = none) ∨
    ∃ p p', ps.lookup g = some p ∧ ps'.lookup g = some p' ∧ SamePulse p p'

/-- What an experiment reads is the same up to the order of the instructions. -/
structure SameWorld {V : Type} (w w' : World V) : Prop where
  keys : ∀ g, g ∈ w'.keys ↔ g ∈ w.keys
  instr : w'.instr = w.instr
  useFR : w'.useFR = w.useFR
  lind : w'.lind = w.lind
  dephasing : w'.dephasing = w.dephasing
  prop : w'.prop = w.prop
  frame : w'.frame = w.frame

/-! ## Lists -/

theorem lookup_iff {α : Type*} (l : List (String × α)) (hn : (l.map Prod.fst).Nodup) (k : String) (v : α) :
    l.lookup k = some v ↔ (k, v) ∈ l := by
  induction l with
  | nil => simp
  | cons a l ih =>
    rw [List.map_cons, List.nodup_cons] at hn
    obtain ⟨x, y⟩ := a
    rw [List.lookup_cons, List.mem_cons]
    by_cases h : k = x
    · subst h
      simp only [beq_self_eq_true, Option.some.injEq, Prod.mk.injEq, true_and]
      constructor
      · intro h
        exact .inl h.symm
      · rintro (h | h)
        · exact h.symm
        · exact absurd (List.mem_map_of_mem h) hn.1
    · have : (k == x) = false := by simpa using h
      simp only [this, ih hn.2, Prod.mk.injEq, h, false_and, false_or]

theorem lookup_perm {α : Type*} {l l' : List (String × α)} (h : l'.Perm l) (hn : (l.map Prod.fst).Nodup) (k : String) :
    l'.lookup k = l.lookup k := by
  have hn' : (l'.map Prod.fst).Nodup := (h.map Prod.fst).nodup_iff.2 hn
  refine Option.ext fun v => ?_
  rw [lookup_iff l' hn', lookup_iff l hn, h.mem_iff]

theorem lookup_none {α : Type*} (l : List (String × α)) (k : String) : k ∈ l.map Prod.fst ↔ l.lookup k ≠ none := by
  induction l with
  | nil => simp
  | cons a l ih =>
    obtain ⟨x, y⟩ := a
    rw [List.map_cons, List.mem_cons, List.lookup_cons, ih]
    by_cases h : k = x
    · subst h
      simp
    · have : (k == x) = false := by simpa using h
      simp [this, h]

theorem mapM_some {α β : Type} (f : α → Option β) (l : List α) (xs : List β) :
    l.mapM f = some xs ↔ List.Forall₂ (fun a x => f a = some x) l xs := by
  induction l generalizing xs with
  | nil =>
    rw [List.mapM_nil, List.forall₂_nil_left_iff]
    exact ⟨fun h => (Option.some.inj h).symm, fun h => by rw [h]; rfl⟩
  | cons a l ih =>
    rw [List.mapM_cons]
    constructor
    · intro h
      cases ha : f a with
      | none => rw [ha] at h; simp at h
      | some x =>
        rw [ha] at h
        cases hl : l.mapM f with
        | none => rw [hl] at h; simp at h
        | some ys =>
          rw [hl] at h
          have : x :: ys = xs := by simpa using h
          rw [← this]
          exact .cons ha ((ih ys).1 hl)
    · intro h
      cases h with
      | cons ha hl => rw [ha, (ih _).2 hl]; rfl

theorem mapM_none {α β : Type} (f : α → Option β) (l : List α) : l.mapM f = none ↔ ∃ a ∈ l, f a = none := by
  induction l with
  | nil => simp
  | cons a l ih =>
    rw [List.mapM_cons]
    cases ha : f a with
    | none => simp [ha]
    | some x =>
      cases hl : l.mapM f with
      | none => simpa [ha, hl] using ih
      | some ys => simpa [ha, hl] using ih

/-- A list is read in the order of its positions. -/
theorem map_getD {α : Type*} (l : List α) (d : α) : (List.range l.length).map (fun i => l.getD i d) = l := by
  apply List.ext_getElem (by simp)
  intro i h1 h2
  rw [List.getElem_map, List.getElem_range, List.getD_eq_getElem _ _ h2]

theorem zip_eq {α β : Type*} (l : List α) (m : List β) (a : α) (b : β) (h : l.length = m.length) :
    l.zip m = (List.range l.length).map fun i => (l.getD i a, m.getD i b) := by
  apply List.ext_getElem (by simp [h])
  intro i h1 h2
  simp at h1
  simp [h1]

/-! ## Chips and pulses -/

theorem h0_same (c c' : Chip dims) (h : SameChip c c') : c'.h0 = c.h0 := by
  unfold Chip.h0 Sys.drift Sys.hams
  rw [h.basis, h.subs]
  congr 1
  exact (((List.Perm.refl _).append (h.lines.filterMap _)).map _).sum_eq

theorem controls_same (c c' : Chip dims) (h : SameChip c c') (k : String) :
    (c'.sys.controls (ann dims)).lookup k = (c.sys.controls (ann dims)).lookup k := by
  unfold Sys.controls
  refine lookup_perm (h.lines.filterMap _) ?_ k
  have : ∀ l : List (String × Line), (l.map Prod.fst).Nodup →
      ((l.filterMap fun l => (l.2.control (ann dims)).map fun h => (l.1, h)).map Prod.fst).Nodup := by
    intro l hl
    refine hl.sublist ?_
    induction l with
    | nil => simp
    | cons a l ih =>
      rw [List.map_cons, List.nodup_cons] at hl
      rw [List.filterMap_cons]
      cases a.2.control (ann dims) with
      | none => exact (ih hl.2).trans (List.sublist_cons_self _ _)
      | some x => exact (ih hl.2).cons_cons _
  exact this _ h.names

theorem hks_same (c c' : Chip dims) (h : SameChip c c') (p p' : Pulse) (hp : SamePulse p p') :
    (c.hks p = none ∧ c'.hks p' = none) ∨ ∃ ks ks', c.hks p = some ks ∧ c'.hks p' = some ks' ∧
      ∀ v ∈ p.values, ∀ π : List ℕ, π.Perm (List.range p.chans.length) →
        p'.chans = π.map (fun i => p.chans.getD i "") →
        (((row π v).zip ks').map fun x => (x.1 : ℂ) • x.2).sum = ((v.zip ks).map fun x => (x.1 : ℂ) • x.2).sum := by
  obtain ⟨π, hπ, hc, -⟩ := hp.order
  have f : (fun k => ((c'.sys.controls (ann dims)).lookup k).map (dress c'.tr)) =
      fun k => ((c.sys.controls (ann dims)).lookup k).map (dress c.tr) := by
    funext k
    rw [controls_same c c' h, h.basis]
  unfold Chip.hks
  rw [f]
  have hperm : p'.chans.Perm p.chans := by
    rw [hc]
    have := hπ.map fun i => p.chans.getD i ""
    rwa [map_getD] at this
  cases hk : p.chans.mapM fun k => ((c.sys.controls (ann dims)).lookup k).map (dress c.tr) with
  | none =>
    refine .inl ⟨rfl, ?_⟩
    rw [mapM_none] at hk ⊢
    obtain ⟨a, ha, hn⟩ := hk
    exact ⟨a, hperm.mem_iff.2 ha, hn⟩
  | some ks =>
    cases hk' : p'.chans.mapM fun k => ((c.sys.controls (ann dims)).lookup k).map (dress c.tr) with
    | none =>
      rw [mapM_none] at hk'
      obtain ⟨a, ha, hn⟩ := hk'
      have : (p.chans.mapM fun k => ((c.sys.controls (ann dims)).lookup k).map (dress c.tr)) = none :=
        (mapM_none _ _).2 ⟨a, hperm.mem_iff.1 ha, hn⟩
      rw [hk] at this
      exact absurd this (by simp)
    | some ks' =>
      refine .inr ⟨ks, ks', rfl, rfl, fun v hv ρ hρ hcρ => ?_⟩
      rw [mapM_some] at hk hk'
      obtain ⟨l1, g1⟩ := List.forall₂_iff_get.1 hk
      obtain ⟨l2, g2⟩ := List.forall₂_iff_get.1 hk'
      have hlen : ρ.length = p.chans.length := by simpa using hρ.length_eq
      have hl' : p'.chans.length = ρ.length := by rw [hcρ, List.length_map]
      have hks : ks' = ρ.map fun i => ks.getD i 0 := by
        apply List.ext_getElem (by rw [List.length_map, ← l2, hl'])
        intro i h1 h2
        rw [List.length_map] at h2
        have hi : ρ[i] < p.chans.length := by
          have := hρ.mem_iff.1 (List.getElem_mem h2)
          rwa [List.mem_range] at this
        have a := g2 i (by omega) h1
        have b := g1 ρ[i] hi (by omega)
        simp only [List.get_eq_getElem] at a b
        have e : p'.chans[i]'(by omega) = p.chans[ρ[i]] := by
          simp only [hcρ, List.getElem_map]
          rw [List.getD_eq_getElem _ _ hi]
        rw [e, b, Option.some_inj] at a
        rw [List.getElem_map, List.getD_eq_getElem _ _ (by omega), a]
      have e1 : (row ρ v).zip ks' = ρ.map fun i => (v.getD i 0, ks.getD i 0) := by
        rw [hks]
        unfold row
        rw [List.zip_map', ]
      rw [e1, zip_eq v ks 0 0 (by rw [hp.rows v hv, l1]), hp.rows v hv]
      exact ((hρ.map _).map _).sum_eq

theorem frame_same (c c' : Chip dims) (h : SameChip c c') (p p' : Pulse) (hp : SamePulse p p') :
    c'.frame p' = c.frame p := by
  unfold Chip.frame frameRotation
  rw [h.target, hp.shifts, hp.t]
  have e : ∀ (l l' : List (String × ℝ)), l'.Perm l → ∀ acc : Op dims,
      frameExponent dims c.target p.shifts p.t l' acc = frameExponent dims c.target p.shifts p.t l acc := by
    intro l l' hl
    induction hl with
    | nil => exact fun _ => rfl
    | cons x _ ih =>
      intro acc
      rw [frameExponent, frameExponent]
      cases p.shifts x.1 with
      | none => rfl
      | some fc =>
        cases c.target x.1 with
        | none => rfl
        | some q => exact ih _
    | swap x y l =>
      intro acc
      rw [frameExponent, frameExponent]
      cases h1 : p.shifts x.1 <;> cases h2 : p.shifts y.1 <;> cases h3 : c.target x.1 <;> cases h4 : c.target y.1 <;>
        simp only [frameExponent, h1, h2, h3, h4]
      rw [add_right_comm]
    | trans _ _ ih1 ih2 => exact fun acc => (ih1 acc).trans (ih2 acc)
  rw [e _ _ hp.freqs]
  have e2 : (p'.freqs = []) = (p.freqs = []) := by
    rw [← List.length_eq_zero_iff, ← List.length_eq_zero_iff, hp.freqs.length_eq]
  simp only [e2]

theorem lind_perm {n : Type*} [Fintype n] [DecidableEq n] (h : Matrix n n ℂ) {l l' : List (Matrix n n ℂ)} (hl : l'.Perm l) :
    lindOpVec h l' = lindOpVec h l := by
  unfold lindOpVec
  rw [(hl.map _).sum_eq]

theorem batch_congr {α β γ : Type*} (f : List α → List γ) (f' : List β → List γ) (g : α → β) (l : List α)
    (h : ∀ m, m.Sublist l → f' (m.map g) = f m) (bs : ℕ) :
    Fold.batchPropagate f' (l.map g) bs = Fold.batchPropagate f l bs := by
  unfold Fold.batchPropagate
  rw [List.length_map]
  congr 1
  funext i
  rw [← List.map_drop, ← List.map_take, h]
  exact (List.take_sublist _ _).trans (List.drop_sublist _ _)

/-! ## Experiments -/

theorem keys_same {ps ps' : List (String × Pulse)} (h : SameTable ps ps') (g : String) :
    g ∈ ps'.map Prod.fst ↔ g ∈ ps.map Prod.fst := by
  rw [lookup_none, lookup_none]
  rcases h g with ⟨a, b⟩ | ⟨p, p', a, b, -⟩
  · rw [a, b]
  · simp [a, b]

theorem instr_same {ps ps' : List (String × Pulse)} (h : SameTable ps ps') (g : String) :
    ((ps'.lookup g).map fun p => (⟨p.values.length, !p.freqs.isEmpty⟩ : Instr)) =
      (ps.lookup g).map fun p => ⟨p.values.length, !p.freqs.isEmpty⟩ := by
  rcases h g with ⟨a, b⟩ | ⟨p, p', a, b, hp⟩
  · rw [a, b]
  · rw [a, b]
    obtain ⟨π, -, -, hv⟩ := hp.order
    have : p'.freqs.isEmpty = p.freqs.isEmpty := by
      rw [Bool.eq_iff_iff, List.isEmpty_iff_length_eq_zero, List.isEmpty_iff_length_eq_zero, hp.freqs.length_eq]
    simp only [Option.map_some, hv, List.length_map, this]

/-- C254 (closed systems): what an experiment reads is the same up to the order of the instructions. -/
theorem C254_closed (c c' : Chip dims) (hc : SameChip c c') (ps ps' : List (String × Pulse)) (hp : SameTable ps ps') :
    SameWorld (closed c ps) (closed c' ps') := by
  refine ⟨keys_same hp, funext fun g => instr_same hp g, hc.frame, rfl, rfl, ?_, ?_⟩
  · funext m g st
    simp only [closed]
    rcases hp g with ⟨a, b⟩ | ⟨p, p', a, b, h⟩
    · rw [a, b]
    · rw [a, b]
      simp only
      obtain ⟨π, hπ, hch, hv⟩ := h.order
      rcases hks_same c c' hc p p' h with ⟨k1, k2⟩ | ⟨ks, ks', k1, k2, k3⟩
      · rw [k1, k2]
      · rw [k1, k2]
        simp only
        rw [h0_same c c' hc, h.dt, hc.batch, hv]
        have : pwc c.h0 ks' p.dt (p.values.map (row π)) c.batch st = pwc c.h0 ks p.dt p.values c.batch st := by
          unfold pwc
          rw [batch_congr (propVectorized c.h0 ks p.dt)]
          intro l hl
          unfold propVectorized
          rw [List.map_map]
          refine List.map_congr_left fun v hv => ?_
          simp only [Function.comp]
          rw [k3 v (hl.subset hv) π hπ hch]
        rw [this]
  · funext m g
    simp only [closed]
    rcases hp g with ⟨a, b⟩ | ⟨p, p', a, b, h⟩
    · rw [a, b]
      rfl
    · rw [a, b]
      simp only [Option.bind_some]
      rw [frame_same c c' hc p p' h]

/-- C254 (open systems). -/
theorem C254_opened (c c' : Chip dims) (hc : SameChip c c') (ps ps' : List (String × Pulse)) (hp : SameTable ps ps') :
    SameWorld (opened c ps) (opened c' ps') := by
  refine ⟨keys_same hp, funext fun g => instr_same hp g, hc.frame, rfl, rfl, ?_, ?_⟩
  · funext m g st
    simp only [opened]
    rcases hp g with ⟨a, b⟩ | ⟨p, p', a, b, h⟩
    · rw [a, b]
    · rw [a, b]
      simp only
      obtain ⟨π, hπ, hch, hv⟩ := h.order
      rcases hks_same c c' hc p p' h with ⟨k1, k2⟩ | ⟨ks, ks', k1, k2, k3⟩
      · rw [k1, k2]
      · rw [k1, k2]
        simp only
        rw [h0_same c c' hc, h.dt, hc.batch, hv]
        have : pwcLind c.h0 ks' c'.cols p.dt (p.values.map (row π)) c.batch st =
            pwcLind c.h0 ks c.cols p.dt p.values c.batch st := by
          unfold pwcLind
          rw [batch_congr (propLind c.h0 ks c.cols p.dt)]
          intro l hl
          unfold propLind
          rw [List.map_map]
          refine List.map_congr_left fun v hv => ?_
          simp only [Function.comp]
          rw [k3 v (hl.subset hv) π hπ hch, lind_perm _ hc.decay]
        rw [this]
  · funext m g
    simp only [opened]
    rcases hp g with ⟨a, b⟩ | ⟨p, p', a, b, h⟩
    · rw [a, b]
      rfl
    · rw [a, b]
      simp only [Option.bind_some]
      rw [frame_same c c' hc p p' h]

section
variable {V : Type} [Monoid V]

theorem stack_same (w w' : World V) (h : SameWorld w w') : foldingStack w' = foldingStack w := by
  funext n
  unfold foldingStack
  rw [h.instr]
  have : (w'.keys.any fun g => (w.instr g).any fun i => i.steps == n) =
      w.keys.any fun g => (w.instr g).any fun i => i.steps == n := by
    rw [Bool.eq_iff_iff, List.any_eq_true, List.any_eq_true]
    simp only [h.keys]
  rw [this]

theorem gateProp_same (w w' : World V) (h : SameWorld w w') (s : Exp V) (g : Gate) : gateProp w' s g = gateProp w s g := by
  unfold gateProp
  rw [h.instr, h.useFR, h.lind, h.dephasing, h.prop, h.frame]

theorem gateLoop_same (w w' : World V) (h : SameWorld w w') (s : Exp V) (gs gs' : List Gate) (hg : ∀ g, g ∈ gs' ↔ g ∈ gs)
    (d : Gate → Option V) :
    (∃ r, gateLoop w s gs d = .ok r ∧ gateLoop w' s gs' d = .ok r) ∨
      ∃ e e', gateLoop w s gs d = .error e ∧ gateLoop w' s gs' d = .error e' := by
  cases h1 : gateLoop w s gs d with
  | ok r =>
    obtain ⟨a, b⟩ := gateLoop_ok w s gs d r h1
    obtain ⟨r', h2⟩ := gateLoop_total w' s gs' d fun g hm => by
      obtain ⟨v, hv, -⟩ := a g ((hg g).1 hm)
      exact ⟨v, by rw [gateProp_same w w' h, hv]⟩
    refine .inl ⟨r, rfl, ?_⟩
    rw [h2]
    congr 1
    obtain ⟨a', b'⟩ := gateLoop_ok w' s gs' d r' h2
    funext g
    by_cases hm : g ∈ gs
    · obtain ⟨v, hv, hr⟩ := a g hm
      obtain ⟨v', hv', hr'⟩ := a' g ((hg g).2 hm)
      rw [gateProp_same w w' h, hv, Except.ok.injEq] at hv'
      rw [hr, hr', hv']
    · rw [b g hm, b' g fun h => hm ((hg g).1 h)]
  | error e =>
    cases h2 : gateLoop w' s gs' d with
    | error e' => exact .inr ⟨e, e', rfl, rfl⟩
    | ok r =>
      obtain ⟨a, -⟩ := gateLoop_ok w' s gs' d r h2
      obtain ⟨r', h3⟩ := gateLoop_total w s gs d fun g hm => by
        obtain ⟨v, hv, -⟩ := a g ((hg g).2 hm)
        exact ⟨v, by rw [← gateProp_same w w' h, hv]⟩
      rw [h1] at h3
      exact absurd h3 (by simp)

/-- C254: `compute_propagators` leaves the same state behind; it returns the same propagators or raises in both cases. -/
theorem C254_compute (w w' : World V) (h : SameWorld w w') (s : Exp V) :
    (compute w' s).2 = (compute w s).2 ∧
      ((∃ d, (compute w s).1 = .ok d ∧ (compute w' s).1 = .ok d) ∨
        ∃ e e', (compute w s).1 = .error e ∧ (compute w' s).1 = .error e') := by
  unfold compute
  have hm : setPropMethod w' s.propMethod s = setPropMethod w s.propMethod s := by
    cases s.propMethod with
    | none => simp only [setPropMethod, stack_same w w' h]
    | some m => cases m <;> rfl
  rw [hm]
  cases setPropMethod w s.propMethod s with
  | error e => exact ⟨rfl, .inr ⟨e, e, rfl, rfl⟩⟩
  | ok s' =>
    simp only
    have hg : ∀ g, g ∈ gateIds w' s' ↔ g ∈ gateIds w s' := by
      intro g
      unfold gateIds
      cases s'.optGates with
      | none => exact h.keys g
      | some l => exact Iff.rfl
    rcases gateLoop_same w w' h s' _ _ hg fun _ => none with ⟨r, a, b⟩ | ⟨e, e', a, b⟩
    · rw [a, b]
      exact ⟨rfl, .inl ⟨r, rfl, rfl⟩⟩
    · rw [a, b]
      exact ⟨rfl, .inr ⟨e, e', rfl, rfl⟩⟩

theorem history_same (s : Exp V) (es es' : List (Event V))
    (h : List.Forall₂ (fun e e' => SameWorld e.w e'.w ∧ e'.sel = e.sel ∧ e'.overwrite = e.overwrite) es es') :
    runEvents s es' = runEvents s es := by
  induction h generalizing s with
  | nil => rfl
  | cons hab _ ih =>
    obtain ⟨a, b, c⟩ := hab
    rw [runEvents, runEvents, ih]
    congr 1
    rw [(C254_compute _ _ a _).1]
    congr 2
    unfold Event.enter
    rw [b, c]

end

/-- A call with both descriptions. -/
structure Call (dims : List ℕ) where
  chip : Chip dims
  chip' : Chip dims
  pulses : List (String × Pulse)
  pulses' : List (String × Pulse)
  sel : Option (List Gate)
  overwrite : Bool

structure Call.Ok (k : Call dims) : Prop where
  chip : SameChip k.chip k.chip'
  pulses : SameTable k.pulses k.pulses'

/-- C254 (closed systems): after every history with both descriptions the experiment is in the same state and reports the
same populations. -/
theorem C254_populations (s : Exp (Op dims)) (ks : List (Call dims)) (hk : ∀ k ∈ ks, k.Ok) (seqs : List (List String))
    (psi : Fin dims.prod → ℂ) :
    runEvents s (ks.map fun k => ⟨closed k.chip' k.pulses', k.sel, k.overwrite⟩) =
        runEvents s (ks.map fun k => ⟨closed k.chip k.pulses, k.sel, k.overwrite⟩) ∧
      evaluateClosed (runEvents s (ks.map fun k => ⟨closed k.chip' k.pulses', k.sel, k.overwrite⟩)).propagators seqs psi =
        evaluateClosed (runEvents s (ks.map fun k => ⟨closed k.chip k.pulses, k.sel, k.overwrite⟩)).propagators seqs psi := by
  have h : runEvents s (ks.map fun k => ⟨closed k.chip' k.pulses', k.sel, k.overwrite⟩) =
      runEvents s (ks.map fun k => ⟨closed k.chip k.pulses, k.sel, k.overwrite⟩) := by
    apply history_same
    rw [List.forall₂_map_left_iff, List.forall₂_map_right_iff, List.forall₂_same]
    exact fun k hm => ⟨C254_closed _ _ (hk k hm).chip _ _ (hk k hm).pulses, rfl, rfl⟩
  rw [h]
  exact ⟨rfl, rfl⟩

/-- C254 (open systems). -/
theorem C254_populations_open (s : Exp (SOp dims)) (ks : List (Call dims)) (hk : ∀ k ∈ ks, k.Ok) (seqs : List (List String))
    (v : Fin dims.prod × Fin dims.prod → ℂ) :
    runEvents s (ks.map fun k => ⟨opened k.chip' k.pulses', k.sel, k.overwrite⟩) =
        runEvents s (ks.map fun k => ⟨opened k.chip k.pulses, k.sel, k.overwrite⟩) ∧
      evaluateOpen (runEvents s (ks.map fun k => ⟨opened k.chip' k.pulses', k.sel, k.overwrite⟩)).propagators seqs v =
        evaluateOpen (runEvents s (ks.map fun k => ⟨opened k.chip k.pulses, k.sel, k.overwrite⟩)).propagators seqs v := by
  have h : runEvents s (ks.map fun k => ⟨opened k.chip' k.pulses', k.sel, k.overwrite⟩) =
      runEvents s (ks.map fun k => ⟨opened k.chip k.pulses, k.sel, k.overwrite⟩) := by
    apply history_same
    rw [List.forall₂_map_left_iff, List.forall₂_map_right_iff, List.forall₂_same]
    exact fun k hm => ⟨C254_opened _ _ (hk k hm).chip _ _ (hk k hm).pulses, rfl, rfl⟩
  rw [h]
  exact ⟨rfl, rfl⟩

/-! ## Example -/

/-- A qubit and a resonator with a coupling and two drives. -/
def exOne : Chip [2, 3] where
  sys := ⟨[("q", .qubit 2 5 0), ("r", .res 7)],
    [("d1", .drive .x [0]), ("g", .coupling .xx 2 0 1), ("d2", .drive .x [1])]⟩
  tr := none
  cols := [ann [2, 3] 0, ann [2, 3] 1]
  target k := if k = "d1" then some 0 else if k = "d2" then some 1 else none
  useFR := true
  batch := 1

/-- The same in another order. -/
def exTwo : Chip [2, 3] :=
  { exOne with
    sys := ⟨[("q", .qubit 2 5 0), ("r", .res 7)],
      [("g", .coupling .xx 2 0 1), ("d2", .drive .x [1]), ("d1", .drive .x [0])]⟩
    cols := [ann [2, 3] 1, ann [2, 3] 0] }

def exPulse : Pulse := ⟨["d1", "d2"], [[1, 2], [3, 4]], 1, [("d1", 5), ("d2", 7)], fun _ => some 0, 2⟩

def exPulse' : Pulse := ⟨["d2", "d1"], [[2, 1], [4, 3]], 1, [("d2", 7), ("d1", 5)], fun _ => some 0, 2⟩

theorem exChips : SameChip exOne exTwo := by
  refine ⟨rfl, ?_, by decide, rfl, .swap _ _ _, rfl, rfl, rfl⟩
  exact (List.perm_append_comm (l₁ := [("g", Line.coupling .xx 2 0 1), ("d2", .drive .x [1])]) (l₂ := [("d1", .drive .x [0])]))

theorem exPulses : SamePulse exPulse exPulse' := by
  refine ⟨?_, ⟨[1, 0], .swap _ _ _, rfl, rfl⟩, .swap _ _ _, rfl, rfl, rfl⟩
  intro v hv
  simp only [exPulse, List.mem_cons, List.not_mem_nil, or_false] at hv
  rcases hv with rfl | rfl <;> rfl

example : SameWorld (closed exOne [("a", exPulse), ("b", exPulse)]) (closed exTwo [("b", exPulse'), ("a", exPulse')]) := by
  refine C254_closed _ _ exChips _ _ fun g => ?_
  by_cases ha : g = "a"
  · subst ha
    exact .inr ⟨_, _, rfl, rfl, exPulses⟩
  · by_cases hb : g = "b"
    · subst hb
      exact .inr ⟨_, _, rfl, rfl, exPulses⟩
    · have h1 : (g == "a") = false := by simpa using ha
      have h2 : (g == "b") = false := by simpa using hb
      exact .inl ⟨by simp [List.lookup_cons, h1, h2], by simp [List.lookup_cons, h1, h2]⟩

end C3.Experiment.Listing
