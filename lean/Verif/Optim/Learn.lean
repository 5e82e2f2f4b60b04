import Verif.Optim.Logged

/-!
# Robust control, sensitivity sweeps and model learning (C146-C149)

c3/optimizers/optimalcontrol_robust.py, c3/optimizers/sensitivity.py:100-124,
c3/optimizers/modellearning.py:181-242, on top of the parameter map. The simulation itself is an arbitrary
function `f` of the parameter map and of what the model was last built from.
-/

set_option linter.unusedSectionVars false

noncomputable section

namespace C3.Optim

open C3 C3.Quantity C3.PMap

/-! ## Model: robust optimal control -/

/-- c3/optimizers/optimalcontrol_robust.py:40-47 `noise_instance` with 87-113 `goal_run`: set the noise
parameter, then the parameters proposed by the optimizer, then simulate. -/
def noiseInstance (f : PMap → ℝ) (x : List ℝ) (g : List String) (s : PMap) (v : List ℝ) :
    PMap × Except PErr ℝ :=
  match s.setParameters [v] [g] with
  | (s1, some e) => (s1, .error e)
  | (s1, none) =>
    match s1.setParametersScaled x with
    | (s2, some e) => (s2, .error e)
    | (s2, none) => (s2, .ok (f s2))

/-- c3/optimizers/optimalcontrol_robust.py:56-62: the loop over the values of one noise parameter; the state
left behind, the goals so far and the exception if there was one. -/
def noiseLoop (f : PMap → ℝ) (x : List ℝ) (g : List String) : PMap → List (List ℝ) →
    PMap × List ℝ × Option PErr
  | s, [] => (s, [], none)
  | s, v :: vs =>
    match noiseInstance f x g s v with
    | (s1, .error e) => (s1, [], some e)
    | (s1, .ok y) =>
      let r := noiseLoop f x g s1 vs
      (r.1, y :: r.2.1, r.2.2)

/-- c3/optimizers/optimalcontrol_robust.py:54-63: the loop over the noise parameters; afterwards the original
value is written back. -/
def robustGoals (f : PMap → ℝ) (x : List ℝ) : PMap → List (List (List ℝ) × List String) →
    PMap × List ℝ × Option PErr
  | s, [] => (s, [], none)
  | s, (vs, g) :: rest =>
    match s.getParameters [g] with
    | .error e => (s, [], some e)
    | .ok qs =>
      match noiseLoop f x g s vs with
      | (s1, ys, some e) => (s1, ys, some e)
      | (s1, ys, none) =>
        match s1.setParameters (qs.map Quantity.numpy) [g] with
        | (s2, some e) => (s2, ys, some e)
        | (s2, none) =>
          let r := robustGoals f x s2 rest
          (r.1, ys ++ r.2.1, r.2.2)

/-- c3/optimizers/optimalcontrol_robust.py:68-70: `tf.reduce_mean(goals)`; NaN without goals. -/
def robustGoal (f : PMap → ℝ) (x : List ℝ) (s : PMap) (noise : List (List (List ℝ) × List String)) :
    Except PErr (Option ℝ) :=
  match robustGoals f x s noise with
  | (_, _, some e) => .error e
  | (_, ys, none) => .ok (if ys = [] then none else some (ys.sum / ys.length))

/-- c3/optimizers/optimizer.py:243-275 with c3/optimizers/optimalcontrol.py:110-116: the goal function
without gradient is `goal_run`, which does not look at the noise map. -/
def robustPlain (f : PMap → ℝ) (x : List ℝ) (s : PMap) (_noise : List (List (List ℝ) × List String)) :
    Except PErr ℝ :=
  match fctToMin f s x with
  | .error e => .error e
  | .ok (_, _, y) => .ok y

/-- The evaluation counter: c3/optimizers/optimalcontrol_robust.py:42, 53: saved before the loops and set
to the saved value for every noise value; this `goal_run` does not count. -/
def robustCounter (n : ℕ) (noise : List (List (List ℝ) × List String)) : ℕ :=
  noise.foldl (fun c p => p.1.foldl (fun _ _ => n) c) n

/-! ## States between two calls -/

/-- A parameter map in order: quantities well formed, one object per identifier, the model built from the
current model parameters, and `set_opt_map` done. -/
structure Ready (s : PMap) : Prop where
  good : Good s
  distinct : ∀ k k' r, s.ref k = some r → s.ref k' = some r → k = k'
  fresh : ∀ k ∈ s.modelIds, ∀ r, s.ref k = some r → s.modelView r = s.heap r
  model : s.hasModel = true
  flag : (∃ g ∈ s.optMap, ∃ k ∈ g, k ∈ s.modelIds) → s.updateModel = true
  ne : ∀ g ∈ s.optMap, g ≠ []
  disj : DisjointGroups s s.optMap

/-- Nothing but values and the model changed. -/
structure SameShape (s s' : PMap) : Prop where
  ref : s'.ref = s.ref
  modelIds : s'.modelIds = s.modelIds
  optMap : s'.optMap = s.optMap
  hasModel : s'.hasModel = s.hasModel
  updateModel : s'.updateModel = s.updateModel
  len : ∀ k, s'.lenOf k = s.lenOf k

theorem SameShape.rfl' (s : PMap) : SameShape s s := ⟨rfl, rfl, rfl, rfl, rfl, fun _ => rfl⟩

theorem SameShape.trans {a b c : PMap} (h : SameShape a b) (h' : SameShape b c) : SameShape a c :=
  ⟨h'.ref.trans h.ref, h'.modelIds.trans h.modelIds, h'.optMap.trans h.optMap, h'.hasModel.trans h.hasModel,
    h'.updateModel.trans h.updateModel, fun k => (h'.len k).trans (h.len k)⟩

theorem setParameters_ok {s s' : PMap} {values : List (List ℝ)} {m : List (List String)} {ext : Bool}
    (h : s.setParameters values m ext = (s', none)) :
    ∃ t, s.runWrites (setWrites ext m values) = (t, none) ∧
      (((∃ g ∈ m, ∃ k ∈ g, k ∈ s.modelIds) ∧ s.hasModel = true ∧ s' = { t with modelView := t.heap }) ∨
        (¬ ((∃ g ∈ m, ∃ k ∈ g, k ∈ s.modelIds) ∧ s.hasModel = true) ∧ s' = t)) := by
  unfold setParameters at h
  split_ifs at h with hl
  · cases h
  rw [setGroups_eq] at h
  rcases hrw : s.runWrites (setWrites ext m values) with ⟨t, _ | e⟩
  · rw [hrw] at h
    simp only at h
    have hiff : ((m.any fun g => g.any fun k => s.modelIds.contains k) && s.hasModel) = true ↔
        (∃ g ∈ m, ∃ k ∈ g, k ∈ s.modelIds) ∧ s.hasModel = true := by
      simp [Bool.and_eq_true, List.any_eq_true]
    split_ifs at h with h2
    · simp only [Prod.mk.injEq, and_true] at h
      exact ⟨t, rfl, Or.inl ⟨(hiff.1 h2).1, (hiff.1 h2).2, h.symm⟩⟩
    · simp only [Prod.mk.injEq, and_true] at h
      exact ⟨t, rfl, Or.inr ⟨fun hc => h2 (hiff.2 hc), h.symm⟩⟩
  · rw [hrw] at h
    cases h

/-- What a successful run of single writes keeps. -/
theorem runWrites_shape {s t : PMap} (hg : Good s) {ws : List (String × Op)}
    (h : s.runWrites ws = (t, none)) : SameShape s t ∧ Good t ∧ t.modelView = s.modelView := by
  obtain ⟨_, _, _, _, hgt, h4, _⟩ := runWrites_spec s hg ws t none h
  refine ⟨⟨by rw [h4], by rw [h4], by rw [h4], by rw [h4], by rw [h4],
    fun k => lenOf_runWrites s hg ws t h k⟩, hgt, by rw [h4]⟩

theorem disjoint_congr {s s' : PMap} (h : s'.ref = s.ref) {m : List (List String)} :
    DisjointGroups s' m ↔ DisjointGroups s m := by
  unfold DisjointGroups
  rw [h]

/-- After a successful `set_parameters`: still in order, what is not named is untouched. -/
theorem ready_setAll {s s' : PMap} (hs : Ready s) {values : List (List ℝ)} {m : List (List String)}
    (h : s.setParameters values m = (s', none)) :
    Ready s' ∧ SameShape s s' ∧ ∀ k, (∀ g ∈ m, k ∉ g) → s'.read k = s.read k := by
  obtain ⟨t, h1, h2⟩ := setParameters_ok h
  obtain ⟨hsh, hgt, hmv⟩ := runWrites_shape hs.good h1
  have hheap : s'.heap = t.heap := by rcases h2 with ⟨_, _, rfl⟩ | ⟨_, rfl⟩ <;> rfl
  have hsh' : SameShape s s' := by
    rcases h2 with ⟨_, _, rfl⟩ | ⟨_, rfl⟩
    · exact ⟨hsh.ref, hsh.modelIds, hsh.optMap, hsh.hasModel, hsh.updateModel, hsh.len⟩
    · exact hsh
  have hframe : ∀ k r, s.ref k = some r → (∀ g ∈ m, k ∉ g) → s'.heap r = s.heap r := by
    intro k r hk hkg
    apply (C11_frame s s' hs.good values m false none h).2 k r hk
    intro g' hg' k' hk' hr
    exact hkg g' hg' (hs.distinct k' k r hr hk ▸ hk')
  refine ⟨⟨?_, ?_, ?_, ?_, ?_, ?_, ?_⟩, hsh', ?_⟩
  · intro k r hk
    rw [hheap]
    exact hgt k r (by rw [hsh.ref, ← hsh'.ref]; exact hk)
  · intro k k' r hk hk'
    rw [hsh'.ref] at hk hk'
    exact hs.distinct k k' r hk hk'
  · intro k hk r hr
    rcases h2 with ⟨_, _, rfl⟩ | ⟨hno, rfl⟩
    · rfl
    · rw [hsh.modelIds] at hk
      rw [hsh.ref] at hr
      have hkg : ∀ g ∈ m, k ∉ g := fun g hg hx => hno ⟨⟨g, hg, k, hx, hk⟩, hs.model⟩
      rw [hmv, hframe k r hr hkg, hs.fresh k hk r hr]
  · rw [hsh'.hasModel, hs.model]
  · rw [hsh'.optMap, hsh'.modelIds, hsh'.updateModel]
    exact hs.flag
  · rw [hsh'.optMap]
    exact hs.ne
  · rw [hsh'.optMap]
    exact (disjoint_congr hsh'.ref).2 hs.disj
  · intro k hkg
    unfold PMap.read
    rw [hsh'.ref]
    rcases hr : s.ref k with _ | r
    · rfl
    · simp [hframe k r hr hkg]

/-- After a successful `set_parameters` on one group the members read the value. -/
theorem ready_set {s s' : PMap} (hs : Ready s) {v : List ℝ} {g : List String}
    (h : s.setParameters [v] [g] = (s', none)) :
    Ready s' ∧ SameShape s s' ∧ (∀ k ∈ g, s'.read k = some v) ∧ ∀ k, k ∉ g → s'.read k = s.read k := by
  obtain ⟨h1, h2, h3⟩ := ready_setAll hs h
  refine ⟨h1, h2, ?_, fun k hk => h3 k (by simpa using hk)⟩
  intro k hk
  have hd : DisjointGroups s [g] := by simp [DisjointGroups]
  exact (C10_group_members s s' hs.good [v] [g] false hd h).2 0 (by simp) (by simp) k (by simpa using hk)

theorem mem_scaledWrites {s : PMap} {values : List ℝ} {m : List (List String)} {w : String × Op}
    (h : w ∈ s.scaledWrites values m) : ∃ g ∈ m, w.1 ∈ g := by
  induction m generalizing values with
  | nil => simp [scaledWrites] at h
  | cons g gs ih =>
    rw [scaledWrites, List.mem_append] at h
    rcases h with h | h
    · obtain ⟨k, hk, rfl⟩ := List.mem_map.1 h
      exact ⟨g, by simp, hk⟩
    · obtain ⟨g', hg', hw⟩ := ih h
      exact ⟨g', by simp [hg'], hw⟩

/-- The same for `set_parameters_scaled`. -/
theorem ready_scaled {s s' : PMap} (hs : Ready s) {x : List ℝ}
    (h : s.setParametersScaled x = (s', none)) :
    Ready s' ∧ SameShape s s' ∧ ∀ k, (∀ g ∈ s.optMap, k ∉ g) → s'.read k = s.read k := by
  have h0 := h
  unfold setParametersScaled at h
  rw [setScaledLoop_eq s hs.good x _ hs.ne] at h
  rcases hrw : s.runWrites (s.scaledWrites x s.optMap) with ⟨t, _ | e⟩
  swap
  · rw [hrw] at h
    cases h
  rw [hrw] at h
  simp only at h
  obtain ⟨hsh, hgt, hmv⟩ := runWrites_shape hs.good hrw
  have hcase : (s.updateModel = true ∧ s' = { t with modelView := t.heap }) ∨
      (s.updateModel = false ∧ s' = t) := by
    by_cases hu : s.updateModel = true
    · rw [if_pos hu, if_pos hs.model] at h
      exact Or.inl ⟨hu, by cases h; rfl⟩
    · rw [if_neg hu] at h
      exact Or.inr ⟨by simpa using hu, by cases h; rfl⟩
  have hheap : s'.heap = t.heap := by rcases hcase with ⟨_, rfl⟩ | ⟨_, rfl⟩ <;> rfl
  have hsh' : SameShape s s' := by
    rcases hcase with ⟨_, rfl⟩ | ⟨_, rfl⟩
    · exact ⟨hsh.ref, hsh.modelIds, hsh.optMap, hsh.hasModel, hsh.updateModel, hsh.len⟩
    · exact hsh
  have hframe : ∀ k r, s.ref k = some r → (∀ g ∈ s.optMap, k ∉ g) → s'.heap r = s.heap r := by
    intro k r hk hkg
    rw [hheap]
    apply runWrites_frame s hs.good _ t none hrw r
    intro w hw hr
    obtain ⟨g, hg, hwg⟩ := mem_scaledWrites hw
    exact hkg g hg (hs.distinct w.1 k r hr hk ▸ hwg)
  refine ⟨⟨?_, ?_, ?_, ?_, ?_, ?_, ?_⟩, hsh', ?_⟩
  · intro k r hk
    rw [hheap]
    exact hgt k r (by rw [hsh.ref, ← hsh'.ref]; exact hk)
  · intro k k' r hk hk'
    rw [hsh'.ref] at hk hk'
    exact hs.distinct k k' r hk hk'
  · intro k hk r hr
    rcases hcase with ⟨_, rfl⟩ | ⟨hu, rfl⟩
    · rfl
    · rw [hsh.modelIds] at hk
      rw [hsh.ref] at hr
      have hkg : ∀ g ∈ s.optMap, k ∉ g := by
        intro g hg hx
        have := hs.flag ⟨g, hg, k, hx, hk⟩
        rw [hu] at this
        cases this
      rw [hmv, hframe k r hr hkg, hs.fresh k hk r hr]
  · rw [hsh'.hasModel, hs.model]
  · rw [hsh'.optMap, hsh'.modelIds, hsh'.updateModel]
    exact hs.flag
  · rw [hsh'.optMap]
    exact hs.ne
  · rw [hsh'.optMap]
    exact (disjoint_congr hsh'.ref).2 hs.disj
  · intro k hkg
    unfold PMap.read
    rw [hsh'.ref]
    rcases hr : s.ref k with _ | r
    · rfl
    · simp [hframe k r hr hkg]

/-! ## C146 -/

/-- What a goal of the robust optimization should be evaluated at: noise parameter `g` at the value `v`, the
optimized parameters at `x`, everything else as before, the model built from these values. -/
structure NoisyState (s : PMap) (x : List ℝ) (g : List String) (v : List ℝ) (t : PMap) : Prop where
  noise : ∀ k ∈ g, t.read k = some v
  opt : t.getParametersScaled s.optMap = .ok x
  rest : ∀ k, k ∉ g → (∀ h ∈ s.optMap, k ∉ h) → t.read k = s.read k
  model : ∀ k ∈ s.modelIds, ∀ r, s.ref k = some r → t.modelView r = t.heap r

/-- Lengths and range of a proposal of the optimizer. -/
def Fits (s : PMap) (x : List ℝ) : Prop :=
  (∀ v ∈ x, -1 ≤ v ∧ v ≤ 1) ∧ x.length = (s.optMap.map fun g => s.lenOf (g.headD "")).sum

theorem Fits.congr {s s' : PMap} {x : List ℝ} (h : Fits s x) (hs : SameShape s s') : Fits s' x := by
  refine ⟨h.1, ?_⟩
  rw [h.2, hs.optMap]
  congr 1
  apply List.map_congr_left
  intro g _
  exact (hs.len _).symm

/-- Reads agree outside the optimized parameters. -/
def AgreeOff (s t : PMap) : Prop := ∀ k, (∀ h ∈ s.optMap, k ∉ h) → t.read k = s.read k

theorem noiseLoop_spec (f : PMap → ℝ) (x : List ℝ) (g : List String) (s0 s : PMap) (hs : Ready s)
    (hsh : SameShape s0 s) (hx : Fits s0 x) (hgo : ∀ k ∈ g, ∀ h ∈ s0.optMap, k ∉ h)
    (hag : ∀ k, k ∉ g → (∀ h ∈ s0.optMap, k ∉ h) → s.read k = s0.read k) (vs : List (List ℝ)) (s' : PMap)
    (ys : List ℝ) (h : noiseLoop f x g s vs = (s', ys, none)) :
    Ready s' ∧ SameShape s0 s' ∧ (∀ k, k ∉ g → (∀ h ∈ s0.optMap, k ∉ h) → s'.read k = s0.read k) ∧
      ∃ ts : List PMap, ys = ts.map f ∧ List.Forall₂ (NoisyState s0 x g) vs ts := by
  induction vs generalizing s ys with
  | nil =>
    simp only [noiseLoop, Prod.mk.injEq] at h
    obtain ⟨rfl, rfl, _⟩ := h
    exact ⟨hs, hsh, hag, [], rfl, List.Forall₂.nil⟩
  | cons v vs ih =>
    rw [noiseLoop] at h
    rcases hn : noiseInstance f x g s v with ⟨s1, e | y⟩
    · rw [hn] at h
      simp at h
    · rw [hn] at h
      simp only [Prod.mk.injEq] at h
      obtain ⟨h1, rfl, h3⟩ := h
      unfold noiseInstance at hn
      rcases ha : s.setParameters [v] [g] with ⟨sa, _ | e⟩
      swap
      · rw [ha] at hn
        simp at hn
      rw [ha] at hn
      simp only at hn
      rcases hb : sa.setParametersScaled x with ⟨sb, _ | e⟩
      swap
      · rw [hb] at hn
        simp at hn
      rw [hb] at hn
      simp only [Prod.mk.injEq, Except.ok.injEq] at hn
      obtain ⟨rfl, rfl⟩ := hn
      obtain ⟨ra, sha, na, fa⟩ := ready_set hs ha
      obtain ⟨rb, shb, fb⟩ := ready_scaled ra hb
      have hsa := hsh.trans sha
      have hsb := hsa.trans shb
      have hag' : ∀ k, k ∉ g → (∀ h ∈ s0.optMap, k ∉ h) → sb.read k = s0.read k := by
        intro k hk hko
        rw [fb k (by rw [hsa.optMap]; exact hko), fa k hk, hag k hk hko]
      obtain ⟨q1, q2, q3, ts, q4, q5⟩ := ih sb rb hsb hag' _ (Prod.ext h1 (Prod.ext rfl h3))
      refine ⟨q1, q2, q3, sb :: ts, congrArg (f sb :: ·) q4, List.Forall₂.cons ⟨?_, ?_, hag', ?_⟩ q5⟩
      · intro k hk
        rw [fb k (by rw [hsa.optMap]; exact hgo k hk), na k hk]
      · have hf := hx.congr hsa
        have := C13_set_get_scaled sa sb ra.good x ra.ne ra.disj hf.1 hf.2 hb
        rwa [hsb.optMap] at this
      · intro k hk r hr
        exact rb.fresh k (by rw [hsb.modelIds]; exact hk) r (by rw [hsb.ref]; exact hr)

/-- All pairs of a noise parameter and one of its values, in the order of the loops. -/
def noisePairs (noise : List (List (List ℝ) × List String)) : List (List String × List ℝ) :=
  noise.flatMap fun p => p.1.map fun v => (p.2, v)

theorem robust_spec (f : PMap → ℝ) (x : List ℝ) (s0 s : PMap) (hs : Ready s) (hsh : SameShape s0 s)
    (hx : Fits s0 x) (hag : AgreeOff s0 s) (noise : List (List (List ℝ) × List String))
    (hgo : ∀ p ∈ noise, ∀ k ∈ p.2, ∀ h ∈ s0.optMap, k ∉ h)
    (heq : ∀ p ∈ noise, ∀ k ∈ p.2, s0.read k = s0.read (p.2.headD "")) (s' : PMap) (ys : List ℝ)
    (h : robustGoals f x s noise = (s', ys, none)) :
    Ready s' ∧ AgreeOff s0 s' ∧ ∃ ts : List PMap, ys = ts.map f ∧
      List.Forall₂ (fun p t => NoisyState s0 x p.1 p.2 t) (noisePairs noise) ts := by
  induction noise generalizing s ys with
  | nil =>
    simp only [robustGoals, Prod.mk.injEq] at h
    obtain ⟨rfl, rfl, _⟩ := h
    exact ⟨hs, hag, [], rfl, List.Forall₂.nil⟩
  | cons p noise ih =>
    obtain ⟨vs, g⟩ := p
    rw [robustGoals] at h
    have hgo1 := hgo (vs, g) (by simp)
    have heq1 := heq (vs, g) (by simp)
    rcases hq : s.getParameters [g] with e | qs
    · rw [hq] at h
      simp at h
    rw [hq] at h
    simp only at h
    rcases hl : noiseLoop f x g s vs with ⟨s1, ys1, _ | e⟩
    swap
    · rw [hl] at h
      simp at h
    rw [hl] at h
    simp only at h
    rcases hw : s1.setParameters (qs.map Quantity.numpy) [g] with ⟨s2, _ | e⟩
    swap
    · rw [hw] at h
      simp at h
    rw [hw] at h
    simp only [Prod.mk.injEq] at h
    obtain ⟨h1, rfl, h3⟩ := h
    obtain ⟨r1, sh1, ag1, ts1, e1, e2⟩ := noiseLoop_spec f x g s0 s hs hsh hx hgo1
      (fun k _ hk => hag k hk) vs s1 ys1 hl
    -- the value read before the loop
    have hqs : ∃ k ks r, g = k :: ks ∧ s.ref k = some r ∧ qs = [s.heap r] := by
      cases g with
      | nil => simp [getParameters] at hq
      | cons k ks =>
        rw [getParameters] at hq
        rcases hr : s.ref k with _ | r
        · rw [hr] at hq
          simp at hq
        · rw [hr] at hq
          simp only [getParameters] at hq
          exact ⟨k, ks, r, rfl, hr, by simpa using hq.symm⟩
    obtain ⟨k0, ks, r0, rfl, hr0, rfl⟩ := hqs
    obtain ⟨r2, sh2, n2, f2⟩ := ready_set r1 hw
    have hread0 : s0.read k0 = some (s.heap r0).numpy := by
      rw [← hag k0 (fun h hh => hgo1 k0 (by simp) h hh)]
      simp [PMap.read, hr0]
    have hag2 : AgreeOff s0 s2 := by
      intro k hk
      by_cases hkg : k ∈ k0 :: ks
      · rw [n2 k hkg, heq1 k hkg]
        exact hread0.symm
      · rw [f2 k hkg, ag1 k hkg hk]
    obtain ⟨q1, q2, ts, q3, q4⟩ := ih s2 r2 (sh1.trans sh2) hag2 (fun p hp => hgo p (by simp [hp]))
      (fun p hp => heq p (by simp [hp])) _ (Prod.ext h1 (Prod.ext rfl h3))
    refine ⟨q1, q2, ts1 ++ ts, by rw [List.map_append, ← e1, ← q3], ?_⟩
    have hsplit : noisePairs ((vs, k0 :: ks) :: noise) =
        vs.map (fun v => (k0 :: ks, v)) ++ noisePairs noise := by simp [noisePairs]
    rw [hsplit]
    apply List.rel_append _ q4
    exact List.forall₂_map_left_iff.2 e2

/-- **C146**, what holds: with a gradient-based algorithm, if no call raises, the goal is the mean of the
goals at every value of every noise parameter, one noise parameter at a time, each with the proposed
control parameters and a model built from the values in force; afterwards every parameter that is not
optimized has its old value. (Noise parameters are not optimized themselves; members of a group of noise
parameters agree before.) Missing: algorithms without gradient, exceptions and the evaluation counter,
see the negations. -/
theorem C146_mean_partial (f : PMap → ℝ) (x : List ℝ) (s : PMap) (hs : Ready s) (hx : Fits s x)
    (noise : List (List (List ℝ) × List String)) (hgo : ∀ p ∈ noise, ∀ k ∈ p.2, ∀ h ∈ s.optMap, k ∉ h)
    (heq : ∀ p ∈ noise, ∀ k ∈ p.2, s.read k = s.read (p.2.headD "")) (s' : PMap) (ys : List ℝ)
    (h : robustGoals f x s noise = (s', ys, none)) :
    (∃ ts : List PMap, List.Forall₂ (fun p t => NoisyState s x p.1 p.2 t) (noisePairs noise) ts ∧
      robustGoal f x s noise = .ok (if ts = [] then none else some ((ts.map f).sum / ts.length))) ∧
    ∀ k, (∀ g ∈ s.optMap, k ∉ g) → s'.read k = s.read k := by
  obtain ⟨_, h2, ts, rfl, h4⟩ := robust_spec f x s s hs (SameShape.rfl' s) hx (fun _ _ => rfl) noise hgo heq
    s' ys h
  refine ⟨⟨ts, h4, ?_⟩, h2⟩
  simp [robustGoal, h, List.map_eq_nil_iff]

/-- **C146 is false** for algorithms without gradient: the noise map has no effect on the goal. -/
theorem C146_false_gradient_free (f : PMap → ℝ) (x : List ℝ) (s : PMap)
    (noise noise' : List (List (List ℝ) × List String)) :
    robustPlain f x s noise = robustPlain f x s noise' := rfl

/-! ### Example: one model parameter "m" and one control "a", limits 0 and 2 -/

/-- The model parameter at `m`, the control at `a`, the model built from `mv`. -/
def exAt (m a : ℝ) (mv : ℕ → Quantity) (o : List (List String) := [["a"]]) : PMap :=
  { exS with
    heap := fun r => if r = 0 then exR [m - 1] else if r = 1 then exR [a - 1] else exR [0]
    modelView := mv
    optMap := o }

/-- The same with the model up to date. -/
def exN (m a : ℝ) (o : List (List String) := [["a"]]) : PMap := exAt m a (exAt m a fun _ => exR [0]).heap o

theorem exR_call (v : List ℝ) (x : ℝ) (h0 : 0 ≤ x) (h2 : x ≤ 2) (hv : v.length = 1) :
    (Op.set [x]).call (exR v) = .ok (exR [x - 1]) := by
  have hl : (exR v).getLimits = (0, 2) := by simp [exR, getLimits]
  have := setValueRaw_of_mem (exR v) (exR_wf _) [x] (by
    intro y hy
    rw [List.mem_singleton] at hy
    subst hy
    rw [hl]
    exact ⟨h0, h2⟩)
  simp only [Op.call, setValue, Bool.false_eq_true, if_false]
  rw [if_neg (by simp [exR, hv]), this]
  simp [exR, hv]

theorem exR_refuse (v : List ℝ) (hv : v.length = 1) : (Op.set [5]).call (exR v) = .error .oob := by
  simp only [Op.call, setValue, Bool.false_eq_true, if_false]
  rw [if_neg (by simp [exR, hv])]
  unfold setValueRaw
  rw [if_neg (by simp [exR])]
  simp only
  rw [if_pos]
  refine ⟨_, List.mem_map_of_mem (List.mem_singleton.2 rfl), ?_⟩
  rw [refused_iff]
  norm_num [exR, closeTol]

theorem exAt_good (m a : ℝ) (mv : ℕ → Quantity) : Good (exAt m a mv) := by
  intro k r _
  simp only [exAt]
  split_ifs <;> exact exR_wf _

theorem exAt_distinct (m a : ℝ) (mv : ℕ → Quantity) (k k' : String) (r : ℕ)
    (hk : (exAt m a mv).ref k = some r) (hk' : (exAt m a mv).ref k' = some r) : k = k' := by
  simp only [exAt, exS] at hk hk'
  split_ifs at hk hk' <;> simp_all <;> omega

theorem exN_ready (m a : ℝ) : Ready (exN m a) := by
  refine ⟨exAt_good _ _ _, exAt_distinct _ _ _, ?_, rfl, ?_, by simp [exN, exAt],
    by simp [exN, exAt, DisjointGroups]⟩
  · intro k _ r _
    rfl
  · simp [exN, exAt, exS]

theorem exAt_read_m (m a : ℝ) (mv : ℕ → Quantity) (o : List (List String) := [["a"]]) :
    (exAt m a mv o).read "m" = some [m] := by
  simp [PMap.read, exAt, exS, numpy, getValue, exR]
  try ring

theorem exAt_read_a (m a : ℝ) (mv : ℕ → Quantity) (o : List (List String) := [["a"]]) :
    (exAt m a mv o).read "a" = some [a] := by
  simp [PMap.read, exAt, exS, numpy, getValue, exR]
  try ring

theorem exAt_m (m a x : ℝ) (mv : ℕ → Quantity) (h0 : 0 ≤ x) (h2 : x ≤ 2) (o : List (List String) := [["a"]]) :
    (exAt m a mv o).setParameters [[x]] [["m"]] = (exN x a o, none) := by
  have h := exR_call [m - 1] x h0 h2 rfl
  have hst := step_of_ok h
  simp only [setParameters, setGroups, setGroup, setOne, exAt, exS, exN]
  simp [h, hst]
  funext r
  by_cases h : r = 0
  · simp [h]
  · simp [h]

theorem exAt_a (m a x : ℝ) (mv : ℕ → Quantity) (h0 : 0 ≤ x) (h2 : x ≤ 2) (o : List (List String) := [["a"]]) :
    (exAt m a mv o).setParameters [[x]] [["a"]] = (exAt m x mv o, none) := by
  have h := exR_call [a - 1] x h0 h2 rfl
  have hst := step_of_ok h
  simp only [setParameters, setGroups, setGroup, setOne, exAt, exS]
  simp [h, hst]
  funext r
  by_cases h0 : r = 0
  · simp [h0]
  · by_cases h : r = 1
    · simp [h]
    · simp [h, h0]

theorem exAt_m_refuse (m a : ℝ) (mv : ℕ → Quantity) :
    (exAt m a mv).setParameters [[5]] [["m"]] = (exAt m a mv, some (.quantity "m" .oob)) := by
  have h := exR_refuse [m - 1] rfl
  have hst := step_of_error _ (exR_wf _) _ _ h
  simp only [setParameters, setGroups, setGroup, setOne, exAt, exS]
  simp [h, hst]

theorem exAt_scaled (m a v b : ℝ) (mv : ℕ → Quantity) (h0 : -1 ≤ v) (h2 : v ≤ 1) (hb : v = b - 1) :
    (exAt m a mv).setParametersScaled [v] = (exAt m b mv, none) := by
  have hf : foldOpt v = v := foldOpt_of_mem h0 h2
  subst hb
  simp [setParametersScaled, setScaledLoop, setScaledGroup, setOptValue, exAt, exS, exR, hf]
  funext r
  by_cases h0 : r = 0
  · simp [h0]
  · by_cases h : r = 1
    · simp [h]
    · simp [h, h0]

/-- **C146 is false** when a noise value is refused: with the noise values 3/2 and 5 for a parameter limited
to 0..2 the second one raises, and the map is left at the first one instead of the original value 1. -/
theorem C146_false_restore (f : PMap → ℝ) :
    ∃ t ys, robustGoals f [0] (exN 1 1) [([[3 / 2], [5]], ["m"])] = (t, ys, some (.quantity "m" .oob)) ∧
      t.read "m" = some [3 / 2] ∧ (exN 1 1).read "m" = some [1] := by
  refine ⟨exAt (3 / 2) 1 (exN (3 / 2) 1).heap, [f (exAt (3 / 2) 1 (exN (3 / 2) 1).heap)], ?_,
    exAt_read_m _ _ _, exAt_read_m _ _ _⟩
  have e : (exN 1 1).getParameters [["m"]] = .ok [exR [1 - 1]] := by
    simp [exN, exAt, exS, getParameters]
  have h1 := exAt_m 1 1 (3 / 2) (exAt 1 1 fun _ => exR [0]).heap (by norm_num) (by norm_num)
  have h2 := exAt_scaled (3 / 2) 1 0 1 (exAt (3 / 2) 1 fun _ => exR [0]).heap (by norm_num) (by norm_num)
    (by norm_num)
  have h3 := exAt_m_refuse (3 / 2) 1 (exAt (3 / 2) 1 fun _ => exR [0]).heap
  have h1' : (exN 1 1).setParameters [[3 / 2]] [["m"]] = (exN (3 / 2) 1, none) := h1
  have h2' : (exN (3 / 2) 1).setParametersScaled [0] =
      (exAt (3 / 2) 1 (exN (3 / 2) 1).heap, none) := h2
  have h3' : (exAt (3 / 2) 1 (exN (3 / 2) 1).heap).setParameters [[5]] [["m"]] =
      (exAt (3 / 2) 1 (exN (3 / 2) 1).heap, some (.quantity "m" .oob)) := h3
  simp only [robustGoals, e, noiseLoop, noiseInstance, h1', h2', h3']

/-- The example: the mean over the noise values is 7/4, the goal without noise is 1; the goal is the value of
the model parameter. -/
theorem C146_mean_example : ∃ f : PMap → ℝ,
    robustGoal f [0] (exN 1 1) [([[3 / 2], [2]], ["m"])] = .ok (some (7 / 4)) ∧
      robustPlain f [0] (exN 1 1) [([[3 / 2], [2]], ["m"])] = .ok 1 := by
  refine ⟨fun t => ((t.read "m").getD [0]).headD 0, ?_, ?_⟩
  · have e : (exN 1 1).getParameters [["m"]] = .ok [exR [1 - 1]] := by
      simp [exN, exAt, exS, getParameters]
    have h1 : (exN 1 1).setParameters [[3 / 2]] [["m"]] = (exN (3 / 2) 1, none) :=
      exAt_m 1 1 (3 / 2) _ (by norm_num) (by norm_num)
    have h2 : (exN (3 / 2) 1).setParametersScaled [0] = (exAt (3 / 2) 1 (exN (3 / 2) 1).heap, none) :=
      exAt_scaled (3 / 2) 1 0 1 _ (by norm_num) (by norm_num) (by norm_num)
    have h3 : (exAt (3 / 2) 1 (exN (3 / 2) 1).heap).setParameters [[2]] [["m"]] =
        (exN 2 1, none) := exAt_m _ _ 2 _ (by norm_num) (by norm_num)
    have h4 : (exN 2 1).setParametersScaled [0] = (exAt 2 1 (exN 2 1).heap, none) :=
      exAt_scaled 2 _ 0 1 _ (by norm_num) (by norm_num) (by norm_num)
    have h5 : (exAt 2 1 (exN 2 1).heap).setParameters [[1]] [["m"]] =
        (exN 1 1, none) := exAt_m _ _ 1 _ (by norm_num) (by norm_num)
    have hq : ([exR [(1 : ℝ) - 1]]).map Quantity.numpy = [[1]] := by
      simp [numpy, getValue, exR]
    unfold robustGoal
    simp only [robustGoals, e, noiseLoop, noiseInstance, h1, h2, h3, h4, hq, h5, exAt_read_m]
    rw [if_neg (by simp)]
    norm_num
  · have e : (exN 1 1).getParameters (exN 1 1).optMap = .ok [exR [1 - 1]] := by
      simp [exN, exAt, exS, getParameters]
    have h2 : (exN 1 1).setParametersScaled [0] = (exAt 1 1 (exN 1 1).heap, none) :=
      exAt_scaled 1 1 0 1 _ (by norm_num) (by norm_num) (by norm_num)
    simp [robustPlain, fctToMin, loggedPars, e, h2, exAt_read_m]

theorem C146_counter (n : ℕ) (noise : List (List (List ℝ) × List String)) : robustCounter n noise = n := by
  unfold robustCounter
  have h1 : ∀ (vs : List (List ℝ)), vs.foldl (fun _ _ => n) n = n := by
    intro vs
    induction vs with
    | nil => rfl
    | cons v vs ih => exact ih
  induction noise with
  | nil => rfl
  | cons p ps ih =>
    rw [List.foldl_cons, h1]
    exact ih

/-! ## Model: model learning and sensitivity analysis -/

/-- A measured parameter set: values of the gate parameters and the names they belong to. -/
abbrev DataSet := List (List ℝ) × List (List String)

/-- c3/optimizers/modellearning.py:218-242 `_one_par_sim_vals` up to the simulation: the model parameters are
set by `setter` (224-229: scaled in model learning, unscaled in the sensitivity analysis), the model is
built, then the gate parameters of the data set are written. -/
def oneParState (setter : PMap → PMap × Option PErr) (s : PMap) (d : DataSet) : PMap × Option PErr :=
  match setter s with
  | (s1, some e) => (s1, some e)
  | (s1, none) =>
    if s1.hasModel then { s1 with modelView := s1.heap }.setParameters d.1 d.2
    else (s1, some .attribute)

/-- c3/optimizers/modellearning.py:290-343: the loop of `goal_run` over the selected data sets; the states at
which the simulation runs. -/
def goalStates (setter : PMap → PMap × Option PErr) : PMap → List DataSet →
    PMap × List PMap × Option PErr
  | s, [] => (s, [], none)
  | s, d :: ds =>
    match oneParState setter s d with
    | (s1, some e) => (s1, [], some e)
    | (s1, none) =>
      let r := goalStates setter s1 ds
      (r.1, s1 :: r.2.1, r.2.2)

/-- c3/libraries/algorithms.py `sweep` on one parameter group: the goal function at every point. -/
def sweepStates (ds : List DataSet) (g : List String) : PMap → List (List ℝ) →
    PMap × List (List PMap) × Option PErr
  | s, [] => (s, [], none)
  | s, v :: vs =>
    match goalStates (fun s => s.setParameters [v] s.optMap) s ds with
    | (s1, ts, some e) => (s1, [ts], some e)
    | (s1, ts, none) =>
      let r := sweepStates ds g s1 vs
      (r.1, ts :: r.2.1, r.2.2)

/-- c3/optimizers/sensitivity.py:100-124 `sensitivity`: one sweep per group; line 105 assigns `opt_map`
directly. Nothing is written back between the sweeps. -/
def sensitivityStates (ds : List DataSet) : PMap → List (List String × List (List ℝ)) →
    PMap × List (List (List PMap)) × Option PErr
  | s, [] => (s, [], none)
  | s, (g, vs) :: rest =>
    match sweepStates ds g { s with optMap := [g] } vs with
    | (s1, ts, some e) => (s1, [ts], some e)
    | (s1, ts, none) =>
      let r := sensitivityStates ds s1 rest
      (r.1, ts :: r.2.1, r.2.2)

/-! ## C147 -/

/-- Quantities well formed, one object per identifier. -/
structure Core (s : PMap) : Prop where
  good : Good s
  distinct : ∀ k k' r, s.ref k = some r → s.ref k' = some r → k = k'

theorem Core.congr {s s' : PMap} (h : Core s) (hr : s'.ref = s.ref) (hh : s'.heap = s.heap) : Core s' := by
  refine ⟨?_, ?_⟩
  · intro k r hk
    rw [hh]
    exact h.good k r (hr ▸ hk)
  · intro k k' r hk hk'
    exact h.distinct k k' r (hr ▸ hk) (hr ▸ hk')

theorem core_set {s s' : PMap} (hs : Core s) {values : List (List ℝ)} {m : List (List String)}
    (h : s.setParameters values m = (s', none)) :
    Core s' ∧ SameShape s s' ∧ (∀ k r, s.ref k = some r → (∀ g ∈ m, k ∉ g) → s'.heap r = s.heap r) ∧
      ∀ k, (∀ g ∈ m, k ∉ g) → s'.read k = s.read k := by
  obtain ⟨t, h1, h2⟩ := setParameters_ok h
  obtain ⟨hsh, hgt, hmv⟩ := runWrites_shape hs.good h1
  have hheap : s'.heap = t.heap := by rcases h2 with ⟨_, _, rfl⟩ | ⟨_, rfl⟩ <;> rfl
  have hsh' : SameShape s s' := by
    rcases h2 with ⟨_, _, rfl⟩ | ⟨_, rfl⟩
    · exact ⟨hsh.ref, hsh.modelIds, hsh.optMap, hsh.hasModel, hsh.updateModel, hsh.len⟩
    · exact hsh
  have hframe : ∀ k r, s.ref k = some r → (∀ g ∈ m, k ∉ g) → s'.heap r = s.heap r := by
    intro k r hk hkg
    apply (C11_frame s s' hs.good values m false none h).2 k r hk
    intro g' hg' k' hk' hr
    exact hkg g' hg' (hs.distinct k' k r hr hk ▸ hk')
  refine ⟨⟨?_, ?_⟩, hsh', hframe, ?_⟩
  · intro k r hk
    rw [hheap]
    exact hgt k r (by rw [hsh.ref, ← hsh'.ref]; exact hk)
  · intro k k' r hk hk'
    rw [hsh'.ref] at hk hk'
    exact hs.distinct k k' r hk hk'
  · intro k hkg
    unfold PMap.read
    rw [hsh'.ref]
    rcases hr : s.ref k with _ | r
    · rfl
    · simp [hframe k r hr hkg]

/-- `k` is a gate parameter of some data set. -/
def InData (ds : List DataSet) (k : String) : Prop := ∃ d ∈ ds, ∃ g ∈ d.2, k ∈ g

/-- What one goal of a sweep is evaluated at, relative to the state `s` before: the swept group at the value,
the gate parameters of the data set at their values, everything else as in `s`. -/
structure SweepState (ds : List DataSet) (s : PMap) (g : List String) (v : List ℝ) (d : DataSet) (t : PMap) :
    Prop where
  swept : ∀ k ∈ g, ¬ InData ds k → t.read k = some v
  gates : DisjointGroups s d.2 → ∀ n (hn : n < d.2.length) (hn' : n < d.1.length), ∀ k ∈ d.2[n],
    t.read k = some d.1[n]
  rest : ∀ k, k ∉ g → ¬ InData ds k → t.read k = s.read k

theorem goalStates_spec (all : List DataSet) (g : List String) (v : List ℝ) (s0 : PMap) (ds : List DataSet)
    (hsub : ∀ d ∈ ds, d ∈ all) (s : PMap) (hs : Core s) (ho : s.optMap = [g]) (hr0 : s.ref = s0.ref)
    (hrest : ∀ k, k ∉ g → ¬ InData all k → s.read k = s0.read k) (s' : PMap) (ts : List PMap)
    (h : goalStates (fun s => s.setParameters [v] s.optMap) s ds = (s', ts, none)) :
    Core s' ∧ s'.optMap = [g] ∧ s'.ref = s0.ref ∧ List.Forall₂ (SweepState all s0 g v) ds ts ∧
      (∀ k, k ∉ g → ¬ InData all k → s'.read k = s0.read k) ∧
      (ds ≠ [] → ∀ k ∈ g, ¬ InData all k → s'.read k = some v) := by
  induction ds generalizing s ts with
  | nil =>
    simp only [goalStates, Prod.mk.injEq] at h
    obtain ⟨rfl, rfl, _⟩ := h
    exact ⟨hs, ho, hr0, .nil, hrest, fun h => absurd rfl h⟩
  | cons d ds ih =>
    rw [goalStates] at h
    rcases h1 : oneParState (fun s => s.setParameters [v] s.optMap) s d with ⟨s1, _ | e⟩
    swap
    · rw [h1] at h
      simp at h
    rw [h1] at h
    simp only [Prod.mk.injEq] at h
    obtain ⟨hh1, rfl, hh3⟩ := h
    unfold oneParState at h1
    simp only at h1
    rcases ha : s.setParameters [v] s.optMap with ⟨sa, _ | e⟩
    swap
    · rw [ha] at h1
      simp at h1
    rw [ha] at h1
    simp only at h1
    by_cases hm : sa.hasModel = true
    swap
    · rw [if_neg hm] at h1
      simp at h1
    rw [if_pos hm] at h1
    rw [ho] at ha
    obtain ⟨ca, sha, _, fa⟩ := core_set hs ha
    have hd1 : DisjointGroups s [g] := by simp [DisjointGroups]
    have na := (C10_group_members s sa hs.good [v] [g] false hd1 ha).2 0 (by simp) (by simp)
    have cb : Core { sa with modelView := sa.heap } := ca.congr rfl rfl
    have hrd : ∀ k, ({ sa with modelView := sa.heap } : PMap).read k = sa.read k := fun _ => rfl
    obtain ⟨c1, sh1, _, f1⟩ := core_set cb h1
    have hnd : ∀ k, ¬ InData all k → ∀ g ∈ d.2, k ∉ g := by
      intro k hk g' hg' hkg
      exact hk ⟨d, hsub d List.mem_cons_self, g', hg', hkg⟩
    have hrest1 : ∀ k, k ∉ g → ¬ InData all k → s1.read k = s0.read k := by
      intro k hk hi
      rw [f1 k (hnd k hi), hrd, fa k (by simpa using hk), hrest k hk hi]
    have hsw1 : ∀ k ∈ g, ¬ InData all k → s1.read k = some v := by
      intro k hk hi
      rw [f1 k (hnd k hi), hrd]
      exact na k (by simpa using hk)
    have href1 : s1.ref = s0.ref := by
      rw [sh1.ref]
      show sa.ref = _
      rw [sha.ref, hr0]
    have hst : SweepState all s0 g v d s1 := by
      refine ⟨hsw1, ?_, hrest1⟩
      intro hd n hn hn' k hk
      refine (C10_group_members _ s1 cb.good d.1 d.2 false ?_ h1).2 n hn hn' k hk
      refine (disjoint_congr ?_).2 hd
      show sa.ref = _
      rw [sha.ref, hr0]
    obtain ⟨q1, q2, q3, q4, q5, q6⟩ := ih (fun d' hd' => hsub d' (List.mem_cons_of_mem _ hd')) s1 c1
      (by rw [sh1.optMap]; show sa.optMap = _; rw [sha.optMap, ho]) href1 hrest1 _
      (Prod.ext hh1 (Prod.ext rfl hh3))
    refine ⟨q1, q2, q3, .cons hst q4, q5, fun _ k hk hi => ?_⟩
    by_cases hds : ds = []
    · subst hds
      simp only [goalStates] at hh1
      rw [← hh1]
      exact hsw1 k hk hi
    · exact q6 hds k hk hi

theorem sweepStates_spec (ds : List DataSet) (g : List String) (s0 : PMap) (vs : List (List ℝ)) (s : PMap)
    (hs : Core s) (ho : s.optMap = [g]) (hr0 : s.ref = s0.ref)
    (hrest : ∀ k, k ∉ g → ¬ InData ds k → s.read k = s0.read k) (s' : PMap) (ts : List (List PMap))
    (h : sweepStates ds g s vs = (s', ts, none)) :
    Core s' ∧ s'.ref = s0.ref ∧ List.Forall₂ (fun v t => List.Forall₂ (SweepState ds s0 g v) ds t) vs ts ∧
      (∀ k, k ∉ g → ¬ InData ds k → s'.read k = s0.read k) ∧
      (ds ≠ [] → ∀ w, vs.getLast? = some w → ∀ k ∈ g, ¬ InData ds k → s'.read k = some w) := by
  induction vs generalizing s ts with
  | nil =>
    simp only [sweepStates, Prod.mk.injEq] at h
    obtain ⟨rfl, rfl, _⟩ := h
    exact ⟨hs, hr0, .nil, hrest, by simp⟩
  | cons v vs ih =>
    rw [sweepStates] at h
    rcases h1 : goalStates (fun s => s.setParameters [v] s.optMap) s ds with ⟨s1, t1, _ | e⟩
    swap
    · rw [h1] at h
      simp at h
    rw [h1] at h
    simp only [Prod.mk.injEq] at h
    obtain ⟨hh1, rfl, hh3⟩ := h
    obtain ⟨c1, o1, r1, f1, rest1, sw1⟩ := goalStates_spec ds g v s0 ds (fun _ h => h) s hs ho hr0 hrest s1 t1 h1
    obtain ⟨q1, q2, q3, q4, q5⟩ := ih s1 c1 o1 r1 rest1 _ (Prod.ext hh1 (Prod.ext rfl hh3))
    refine ⟨q1, q2, .cons f1 q3, q4, ?_⟩
    intro hds w hw k hk hi
    cases vs with
    | nil =>
      simp only [sweepStates] at hh1
      simp only [List.getLast?_singleton, Option.some.injEq] at hw
      subst hw
      rw [← hh1]
      exact sw1 hds k hk hi
    | cons v' vs' =>
      rw [List.getLast?_cons_cons] at hw
      exact q5 hds w hw k hk hi

theorem sensitivity_spec (ds : List DataSet) (sw : List (List String × List (List ℝ))) (s : PMap)
    (hs : Core s) (s' : PMap) (ts : List (List (List PMap)))
    (h : sensitivityStates ds s sw = (s', ts, none)) :
    ts.length = sw.length ∧
    ∀ i (hi : i < sw.length) (hi' : i < ts.length), ∃ si : PMap, si.ref = s.ref ∧
      List.Forall₂ (fun v t => List.Forall₂ (SweepState ds si sw[i].1 v) ds t) sw[i].2 ts[i] ∧
      (∀ k, (∀ j (hj : j < i), k ∉ (sw[j]'(hj.trans hi)).1) → ¬ InData ds k → si.read k = s.read k) ∧
      (ds ≠ [] → ∀ j (hj : j < i), ∀ w, (sw[j]'(hj.trans hi)).2.getLast? = some w →
        ∀ k ∈ (sw[j]'(hj.trans hi)).1, ¬ InData ds k →
        (∀ j' (hj' : j' < i), j < j' → k ∉ (sw[j']'(hj'.trans hi)).1) → si.read k = some w) := by
  induction sw generalizing s ts with
  | nil =>
    simp only [sensitivityStates, Prod.mk.injEq] at h
    obtain ⟨_, rfl, _⟩ := h
    simp
  | cons p rest ih =>
    obtain ⟨g, vs⟩ := p
    rw [sensitivityStates] at h
    rcases h1 : sweepStates ds g { s with optMap := [g] } vs with ⟨s1, t1, _ | e⟩
    swap
    · rw [h1] at h
      simp at h
    rw [h1] at h
    simp only [Prod.mk.injEq] at h
    obtain ⟨hh1, rfl, hh3⟩ := h
    obtain ⟨c1, r1, f1, rest1, last1⟩ := sweepStates_spec ds g s vs { s with optMap := [g] } (hs.congr rfl rfl)
      rfl rfl (fun _ _ _ => rfl) s1 t1 h1
    obtain ⟨hl, ihh⟩ := ih s1 c1 _ (Prod.ext hh1 (Prod.ext rfl hh3))
    refine ⟨by simp [hl], ?_⟩
    intro i hi hi'
    cases i with
    | zero =>
      refine ⟨s, rfl, f1, fun k _ _ => rfl, ?_⟩
      intro _ j hj
      omega
    | succ i =>
      obtain ⟨si, a1, a2, a3, a4⟩ := ihh i (by simpa using hi) (by simpa using hi')
      refine ⟨si, a1.trans r1, a2, ?_, ?_⟩
      · intro k hk hd
        rw [a3 k (fun j hj => hk (j + 1) (by omega)) hd]
        exact rest1 k (hk 0 (by omega)) hd
      · intro hds j hj w hw k hk hd hlater
        cases j with
        | zero =>
          rw [a3 k (fun j hj => hlater (j + 1) (by omega) (by omega)) hd]
          exact last1 hds w hw k hk hd
        | succ j =>
          exact a4 hds j (by omega) w hw k hk hd (fun j' hj' hlt => hlater (j' + 1) (by omega) (by omega))

theorem forall₂_right {α β : Type} {R : α → β → Prop} {l : List α} {l' : List β} (h : List.Forall₂ R l l')
    {b : β} (hb : b ∈ l') : ∃ a, R a b := by
  induction h with
  | nil => cases hb
  | cons hab _ ih =>
    rcases List.mem_cons.1 hb with rfl | hb
    · exact ⟨_, hab⟩
    · exact ih hb

/-- **C147** (partial): in every sweep the swept group has the value of the point, the gate parameters those
of the data set, and every other parameter that was not swept before has the value from the beginning. What
is missing: parameters of earlier sweeps, see `C147_false_leftover`. -/
theorem C147_sweep_partial (ds : List DataSet) (sw : List (List String × List (List ℝ))) (s : PMap)
    (hs : Core s) (s' : PMap) (ts : List (List (List PMap)))
    (h : sensitivityStates ds s sw = (s', ts, none)) :
    ts.length = sw.length ∧ ∀ i (hi : i < sw.length) (hi' : i < ts.length),
      List.Forall₂ (fun v t => List.Forall₂ (fun d u => (∀ k ∈ sw[i].1, ¬ InData ds k → u.read k = some v) ∧
        (DisjointGroups s d.2 → ∀ n (hn : n < d.2.length) (hn' : n < d.1.length), ∀ k ∈ d.2[n],
          u.read k = some d.1[n]) ∧
        ∀ k, (∀ j (hj : j ≤ i), k ∉ (sw[j]'(hj.trans_lt hi)).1) → ¬ InData ds k → u.read k = s.read k) ds t)
        sw[i].2 ts[i] := by
  obtain ⟨hl, hh⟩ := sensitivity_spec ds sw s hs s' ts h
  refine ⟨hl, fun i hi hi' => ?_⟩
  obtain ⟨si, a0, a1, a2, _⟩ := hh i hi hi'
  refine a1.imp fun v t => List.Forall₂.imp fun d u hu => ⟨hu.swept, ?_, ?_⟩
  · intro hd
    exact hu.gates ((disjoint_congr a0).2 hd)
  · intro k hk hd
    rw [hu.rest k (hk i le_rfl) hd, a2 k (fun j hj => hk j hj.le) hd]

/-- **C147 is false**: after the first sweep its parameters stay at the last point of the sweep; all goals of
the second sweep are evaluated there, whatever the values were at the beginning. -/
theorem C147_false_leftover (ds : List DataSet) (hds : ds ≠ []) (g1 g2 : List String)
    (vs1 vs2 : List (List ℝ)) (w : List ℝ) (hw : vs1.getLast? = some w) (s : PMap) (hs : Core s) (s' : PMap)
    (ts : List (List (List PMap))) (h : sensitivityStates ds s [(g1, vs1), (g2, vs2)] = (s', ts, none))
    (k : String) (hk : k ∈ g1) (hk2 : k ∉ g2) (hd : ¬ InData ds k) :
    ∀ t ∈ ts.getD 1 [], ∀ u ∈ t, u.read k = some w := by
  obtain ⟨hl, hh⟩ := sensitivity_spec ds _ s hs s' ts h
  have hl2 : 1 < ts.length := by rw [hl]; simp
  obtain ⟨si, _, a1, _, a3⟩ := hh 1 (by simp) hl2
  have hsi : si.read k = some w := by
    refine a3 hds 0 (by omega) w hw k hk hd ?_
    intro j' hj' hlt
    omega
  intro t ht u hu
  have e : ts.getD 1 [] = ts[1] := by simp [List.getD, List.getElem?_eq_getElem hl2]
  rw [e] at ht
  obtain ⟨v, hv⟩ := forall₂_right a1 ht
  obtain ⟨d, hud⟩ := forall₂_right hv hu
  rw [hud.rest k hk2 hd, hsi]

theorem exN_core (m a : ℝ) : Core (exN m a) := ⟨exAt_good _ _ _, exAt_distinct _ _ _⟩

theorem oneParState_nil (setter : PMap → PMap × Option PErr) (s s1 : PMap) (h : setter s = (s1, none))
    (hm : s1.hasModel = true) : oneParState setter s ([], []) = ({ s1 with modelView := s1.heap }, none) := by
  simp [oneParState, h, hm, setParameters, setGroups]

/-- The example: sweep "m" over 3/2 and 2, then "a" over 1/2. In the second sweep "m" is 2, it was 1. -/
theorem C147_example : ∃ s' ts, sensitivityStates [([], [])] (exN 1 1) [(["m"], [[3 / 2], [2]]), (["a"], [[1 / 2]])] =
    (s', ts, none) ∧ ∃ u, ts.getD 1 [] = [[u]] ∧ u.read "a" = some [1 / 2] ∧ u.read "m" = some [2] ∧
      (exN 1 1).read "m" = some [1] := by
  have h1 : ({ exN 1 1 with optMap := [["m"]] } : PMap).setParameters [[3 / 2]] [["m"]] =
      (exN (3 / 2) 1 [["m"]], none) := exAt_m 1 1 (3 / 2) _ (by norm_num) (by norm_num) [["m"]]
  have h2 : (exN (3 / 2) 1 [["m"]]).setParameters [[2]] [["m"]] = (exN 2 1 [["m"]], none) :=
    exAt_m _ 1 2 _ (by norm_num) (by norm_num) [["m"]]
  have h3 : ({ exN 2 1 [["m"]] with optMap := [["a"]] } : PMap).setParameters [[1 / 2]] [["a"]] =
      (exAt 2 (1 / 2) (exAt 2 1 fun _ => exR [0]).heap, none) := exAt_a _ 1 (1 / 2) _ (by norm_num) (by norm_num)
  have p1 := oneParState_nil (fun s => s.setParameters [[3 / 2]] s.optMap) _ _ h1 rfl
  have p2 := oneParState_nil (fun s => s.setParameters [[2]] s.optMap) _ _ h2 rfl
  have p3 := oneParState_nil (fun s => s.setParameters [[1 / 2]] s.optMap) _ _ h3 rfl
  have e1 : ∀ x, ({ exN x 1 [["m"]] with modelView := (exN x 1 [["m"]]).heap } : PMap) = exN x 1 [["m"]] :=
    fun _ => rfl
  rw [e1] at p1 p2
  refine ⟨exN 2 (1 / 2), [[[exN (3 / 2) 1 [["m"]]], [exN 2 1 [["m"]]]], [[exN 2 (1 / 2)]]], ?_, exN 2 (1 / 2), rfl,
    exAt_read_a _ _ _, exAt_read_m _ _ _, exAt_read_m _ _ _⟩
  simp only [sensitivityStates, sweepStates, goalStates, p1, p2]
  rw [p3]
  rfl

/-! ## C148: the end of a model learning -/

/-- c3/optimizers/modellearning.py:181-216 `learn_model` and `confirm`: after the algorithm has evaluated the
points `xs` the validation runs at the parameters in the map; no best point is loaded. -/
def learnModel (f : PMap → ℝ) (s : PMap) (xs : List (List ℝ)) : Except PErr (List ℝ × ℝ) :=
  match evaluations f s (9876543210.123456789, none) xs with
  | .error e => .error e
  | .ok (s', _) =>
    match s'.getParametersScaled s'.optMap with
    | .error e => .error e
    | .ok x =>
      match s'.setParametersScaled x with
      | (_, some e) => .error e
      | (s'', none) => .ok (x, f s'')

theorem evaluations_last (f : PMap → ℝ) (s : PMap) (hs : Ready s) (b : ℝ × Option (List ℝ)) (xs : List (List ℝ))
    (x : List ℝ) (hx : Fits s x) (s' : PMap) (b' : ℝ × Option (List ℝ))
    (h : evaluations f s b (xs ++ [x]) = .ok (s', b')) :
    s'.getParametersScaled s'.optMap = .ok x := by
  induction xs generalizing s b with
  | nil =>
    simp only [List.nil_append, evaluations] at h
    unfold fctToMin at h
    rcases hl : loggedPars s x with e | pars
    · simp [hl] at h
    rcases hset : s.setParametersScaled x with ⟨t, _ | e⟩
    · simp only [hl, hset, Except.ok.injEq, Prod.mk.injEq] at h
      obtain ⟨rfl, _⟩ := h
      exact C13_set_get_scaled s t hs.good x hs.ne hs.disj hx.1 hx.2 hset
    · simp [hl, hset] at h
  | cons y ys ih =>
    simp only [List.cons_append, evaluations] at h
    rcases hf : fctToMin f s y with e | ⟨t, pars, g⟩
    · simp [hf] at h
    rw [hf] at h
    simp only at h
    have hset : s.setParametersScaled y = (t, none) := by
      unfold fctToMin at hf
      rcases hl : loggedPars s y with e | pars'
      · simp [hl] at hf
      rcases hset : s.setParametersScaled y with ⟨t', _ | e⟩
      · simp only [hl, hset, Except.ok.injEq, Prod.mk.injEq] at hf
        rw [hf.1]
      · simp [hl, hset] at hf
    obtain ⟨rt, sht, _⟩ := ready_scaled hs hset
    exact ih t rt _ (hx.congr sht) h

/-- **C148** (partial): the parameters that are validated at the end of a model learning are those of the last
evaluation. So they are the best ones if the last evaluation was the best. -/
theorem C148_validated_partial (f : PMap → ℝ) (s : PMap) (hs : Ready s) (xs : List (List ℝ)) (x : List ℝ)
    (hx : Fits s x) (y : List ℝ) (g : ℝ) (h : learnModel f s (xs ++ [x]) = .ok (y, g)) : y = x := by
  unfold learnModel at h
  rcases he : evaluations f s (9876543210.123456789, none) (xs ++ [x]) with e | ⟨s', b'⟩
  · simp [he] at h
  rw [he] at h
  simp only at h
  rw [evaluations_last f s hs _ xs x hx s' b' he] at h
  simp only at h
  split at h
  · cases h
  · cases h
    rfl

/-- **C148 is false**: with the goal (a - 1)² and the evaluations a = 1 and a = 3/2 the best goal is 0 at a = 1,
but the learning ends with a = 3/2, goal 1/4. -/
theorem C148_false_last : ∃ f : PMap → ℝ, learnModel f (exN 1 1) [[0], [1 / 2]] = .ok ([1 / 2], 1 / 4) ∧
    learnModel f (exN 1 1) [[0]] = .ok ([0], 0) := by
  refine ⟨fun t => (((t.read "a").getD [0]).headD 0 - 1) ^ 2, ?_, ?_⟩
  · have e : ∀ a mv, (exAt 1 a mv).getParameters [["a"]] = .ok [exR [a - 1]] := by
      intro a mv
      simp [exAt, exS, getParameters]
    have h1 : ∀ a mv, (exAt 1 a mv).setParametersScaled [0] = (exAt 1 1 mv, none) := fun a mv =>
      exAt_scaled 1 a 0 1 mv (by norm_num) (by norm_num) (by norm_num)
    have h2 : ∀ a mv, (exAt 1 a mv).setParametersScaled [1 / 2] = (exAt 1 (3 / 2) mv, none) := fun a mv =>
      exAt_scaled 1 a (1 / 2) (3 / 2) mv (by norm_num) (by norm_num) (by norm_num)
    have ho : ∀ a mv, (exAt 1 a mv).optMap = [["a"]] := fun _ _ => rfl
    have hg : ([exR [(3 : ℝ) / 2 - 1]].flatMap Quantity.getOptValue) = [1 / 2] := by
      simp [exR, getOptValue]
      norm_num
    simp only [learnModel, evaluations, fctToMin, loggedPars, exN, ho, e, h1, h2, getParametersScaled, hg,
      exAt_read_a]
    norm_num
  · have e : ∀ a mv, (exAt 1 a mv).getParameters [["a"]] = .ok [exR [a - 1]] := by
      intro a mv
      simp [exAt, exS, getParameters]
    have h1 : ∀ a mv, (exAt 1 a mv).setParametersScaled [0] = (exAt 1 1 mv, none) := fun a mv =>
      exAt_scaled 1 a 0 1 mv (by norm_num) (by norm_num) (by norm_num)
    have ho : ∀ a mv, (exAt 1 a mv).optMap = [["a"]] := fun _ _ => rfl
    have hg : ([exR [(1 : ℝ) - 1]].flatMap Quantity.getOptValue) = [0] := by
      simp [exR, getOptValue]
    simp only [learnModel, evaluations, fctToMin, loggedPars, exN, ho, e, h1, getParametersScaled, hg,
      exAt_read_a]
    norm_num

/-! ## C149: what a data set is simulated with -/

theorem getParametersScaled_congr (s s' : PMap) (m : List (List String)) (href : s'.ref = s.ref)
    (hh : ∀ g ∈ m, ∀ k ∈ g, ∀ r, s.ref k = some r → s'.heap r = s.heap r) :
    s'.getParametersScaled m = s.getParametersScaled m := by
  have : s'.getParameters m = s.getParameters m := by
    induction m with
    | nil => rfl
    | cons g gs ih =>
      cases g with
      | nil => rfl
      | cons k ks =>
        have ih' := ih fun g hg => hh g (List.mem_cons_of_mem _ hg)
        simp only [getParameters, href, ih']
        rcases hr : s.ref k with _ | r
        · rfl
        · simp only [hh (k :: ks) List.mem_cons_self k List.mem_cons_self r hr]
  simp only [getParametersScaled, this]

/-- **C149** (partial): a data set is simulated with the model parameters proposed by the optimizer, the gate
parameters of the data set and everything else as before, and the model is built from the current model
parameters, if no gate parameter is learned. -/
theorem C149_simulated_partial (s : PMap) (hs : Ready s) (x : List ℝ) (hx : Fits s x) (d : DataSet)
    (hdis : ∀ g ∈ d.2, ∀ k ∈ g, ∀ h ∈ s.optMap, k ∉ h) (hd : DisjointGroups s d.2) (t : PMap)
    (h : oneParState (fun s => s.setParametersScaled x) s d = (t, none)) :
    t.getParametersScaled s.optMap = .ok x ∧
    d.1.length = d.2.length ∧ (∀ n (hn : n < d.2.length) (hn' : n < d.1.length), ∀ k ∈ d.2[n], t.read k = some d.1[n]) ∧
    (∀ k, (∀ g ∈ s.optMap, k ∉ g) → (∀ g ∈ d.2, k ∉ g) → t.read k = s.read k) ∧
    ∀ k ∈ s.modelIds, ∀ r, s.ref k = some r → t.modelView r = t.heap r := by
  unfold oneParState at h
  simp only at h
  rcases ha : s.setParametersScaled x with ⟨sa, _ | e⟩
  swap
  · rw [ha] at h
    simp at h
  rw [ha] at h
  simp only at h
  obtain ⟨ra, sha, fa⟩ := ready_scaled hs ha
  rw [if_pos ra.model] at h
  have rb : Ready { sa with modelView := sa.heap } :=
    ⟨ra.good, ra.distinct, fun _ _ _ _ => rfl, ra.model, ra.flag, ra.ne, ra.disj⟩
  obtain ⟨rt, sht, ft⟩ := ready_setAll rb h
  obtain ⟨_, _, hp, _⟩ := core_set ⟨rb.good, rb.distinct⟩ h
  have hg := C10_group_members _ t rb.good d.1 d.2 false ((disjoint_congr sha.ref).2 hd) h
  refine ⟨?_, hg.1, hg.2, ?_, ?_⟩
  · have e1 := C13_set_get_scaled s sa hs.good x hs.ne hs.disj hx.1 hx.2 ha
    rw [sha.optMap] at e1
    rw [← e1]
    refine getParametersScaled_congr sa t s.optMap sht.ref ?_
    intro g hg k hk r hr
    exact hp k r hr fun g' hg' hk' => hdis g' hg' k hk' g hg hk
  · intro k hk hk'
    rw [ft k hk']
    exact fa k hk
  · intro k hk r hr
    refine rt.fresh k ?_ r ?_
    · rw [sht.modelIds]
      show k ∈ sa.modelIds
      rw [sha.modelIds]
      exact hk
    · rw [sht.ref]
      show sa.ref k = _
      rw [sha.ref]
      exact hr

/-- **C149 is false** if a learned parameter is also a gate parameter of the data set: the data set wins and
the proposal of the optimizer has no effect on it. -/
theorem C149_false_overlap (s : PMap) (hs : Ready s) (x : List ℝ) (d : DataSet) (hd : DisjointGroups s d.2)
    (t : PMap) (h : oneParState (fun s => s.setParametersScaled x) s d = (t, none)) (n : ℕ)
    (hn : n < d.2.length) (hn' : n < d.1.length) (k : String) (hk : k ∈ d.2[n]) : t.read k = some d.1[n] := by
  unfold oneParState at h
  simp only at h
  rcases ha : s.setParametersScaled x with ⟨sa, _ | e⟩
  swap
  · rw [ha] at h
    simp at h
  rw [ha] at h
  simp only at h
  obtain ⟨ra, sha, fa⟩ := ready_scaled hs ha
  rw [if_pos ra.model] at h
  have hgood : Good { sa with modelView := sa.heap } := ra.good
  exact (C10_group_members _ t hgood d.1 d.2 false ((disjoint_congr sha.ref).2 hd) h).2 n hn hn' k hk

/-- The example: the optimizer proposes a = 1, the data set has a = 2. -/
example : ∃ t, oneParState (fun s => s.setParametersScaled [0]) (exN 1 1) ([[2]], [["a"]]) = (t, none) ∧
    t.read "a" = some [2] := by
  have h1 : (exN 1 1).setParametersScaled [0] = (exN 1 1, none) :=
    exAt_scaled 1 1 0 1 _ (by norm_num) (by norm_num) (by norm_num)
  have h2 : ({ exN 1 1 with modelView := (exN 1 1).heap } : PMap).setParameters [[2]] [["a"]] =
      (exAt 1 2 (exAt 1 1 fun _ => exR [0]).heap, none) := exAt_a 1 1 2 _ (by norm_num) (by norm_num)
  refine ⟨exAt 1 2 (exAt 1 1 fun _ => exR [0]).heap, ?_, exAt_read_a _ _ _⟩
  have hm : (exN 1 1).hasModel = true := rfl
  simp only [oneParState, h1, hm, if_true]
  exact h2

/-- The example: the optimizer learns "a", the data set gives "m" (any other parameter). -/
example : ∃ t, oneParState (fun s => s.setParametersScaled [1 / 2]) (exN 1 1) ([[2]], [["m"]]) = (t, none) ∧
    t.read "a" = some [3 / 2] ∧ t.read "m" = some [2] := by
  have h1 : (exN 1 1).setParametersScaled [1 / 2] = (exAt 1 (3 / 2) (exAt 1 1 fun _ => exR [0]).heap, none) :=
    exAt_scaled 1 1 (1 / 2) (3 / 2) _ (by norm_num) (by norm_num) (by norm_num)
  have h2 : ({ exAt 1 (3 / 2) (exAt 1 1 fun _ => exR [0]).heap with
      modelView := (exAt 1 (3 / 2) (exAt 1 1 fun _ => exR [0]).heap).heap } : PMap).setParameters [[2]] [["m"]] =
      (exN 2 (3 / 2), none) := exAt_m 1 (3 / 2) 2 _ (by norm_num) (by norm_num)
  refine ⟨exN 2 (3 / 2), ?_, exAt_read_a _ _ _, exAt_read_m _ _ _⟩
  have hm : (exAt 1 (3 / 2) (exAt 1 1 fun _ => exR [0]).heap).hasModel = true := rfl
  simp only [oneParState, h1, hm, if_true]
  exact h2

end C3.Optim
