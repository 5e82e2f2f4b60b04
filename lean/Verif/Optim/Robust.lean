import Verif.Optim.Folded

/-!
# C244: the gradient and the spread of robust optimal control

`noise_instance` and `goal_run_with_grad` of `OptimalControlRobust` (c3/optimizers/optimalcontrol_robust.py:40-70) with the
gradients of the tapes, the individual goals and their standard deviation. The goals alone are C146.

Simplified: the gradient of a tape is the derivative of the goal by the proposal, with the noise parameter already set
(`t.watch` comes after `set_parameters`), see C243 for what the tape computes at limits; `gradient_std` is only logged.
-/

set_option linter.unusedSectionVars false

noncomputable section

namespace C3.Optim.Robust

open C3 C3.Quantity C3.PMap C3.Optim C3.Optim.Folded

variable {n : ℕ}

/-- The gradient with respect to the proposal. -/
abbrev Grad (n : ℕ) := (Fin n → ℝ) →L[ℝ] ℝ

/-! ## Model -/

/-- c3/optimizers/optimalcontrol_robust.py:40-47 `noise_instance`. -/
def instanceG (f : PMap → ℝ) (x : Fin n → ℝ) (g : List String) (s : PMap) (v : List ℝ) :
    PMap × Except PErr (ℝ × Grad n) :=
  match s.setParameters [v] [g] with
  | (s1, some e) => (s1, .error e)
  | (s1, none) =>
    match s1.setParametersScaled (List.ofFn x) with
    | (s2, some e) => (s2, .error e)
    | (s2, none) => (s2, .ok (f s2, fderiv ℝ (goalAt f s1) x))

/-- c3/optimizers/optimalcontrol_robust.py:56-62: the loop over the values of one noise parameter. -/
def loopG (f : PMap → ℝ) (x : Fin n → ℝ) (g : List String) : PMap → List (List ℝ) →
    PMap × List (ℝ × Grad n) × Option PErr
  | s, [] => (s, [], none)
  | s, v :: vs =>
    match instanceG f x g s v with
    | (s1, .error e) => (s1, [], some e)
    | (s1, .ok y) =>
      let r := loopG f x g s1 vs
      (r.1, y :: r.2.1, r.2.2)

/-- c3/optimizers/optimalcontrol_robust.py:54-63: the loop over the noise parameters. -/
def robustG (f : PMap → ℝ) (x : Fin n → ℝ) : PMap → List (List (List ℝ) × List String) →
    PMap × List (ℝ × Grad n) × Option PErr
  | s, [] => (s, [], none)
  | s, (vs, g) :: rest =>
    match s.getParameters [g] with
    | .error e => (s, [], some e)
    | .ok qs =>
      match loopG f x g s vs with
      | (s1, ys, some e) => (s1, ys, some e)
      | (s1, ys, none) =>
        match s1.setParameters (qs.map Quantity.numpy) [g] with
        | (s2, some e) => (s2, ys, some e)
        | (s2, none) =>
          let r := robustG f x s2 rest
          (r.1, ys ++ r.2.1, r.2.2)

/-- `tf.reduce_mean` of a list. -/
def mean {V : Type*} [AddCommMonoid V] [Module ℝ V] (l : List V) : V := (l.length : ℝ)⁻¹ • l.sum

/-- `np.std` of a list. -/
def std (l : List ℝ) : ℝ := √(mean (l.map fun y => (y - mean l) ^ 2))

/-- What `goal_run_with_grad` returns and logs (c3/optimizers/optimalcontrol_robust.py:65-70). -/
structure Report (n : ℕ) where
  goal : ℝ
  grad : Grad n
  individual : List ℝ
  goalStd : ℝ

/-- c3/optimizers/optimalcontrol_robust.py:49-70 `goal_run_with_grad`; without goals the means are NaN. -/
def goalRunWithGrad (f : PMap → ℝ) (x : Fin n → ℝ) (s : PMap) (noise : List (List (List ℝ) × List String)) :
    PMap × Except PErr (Option (Report n)) :=
  match robustG f x s noise with
  | (s', _, some e) => (s', .error e)
  | (s', l, none) => (s', .ok (if l = [] then none else
      some ⟨mean (l.map Prod.fst), mean (l.map Prod.snd), l.map Prod.fst, std (l.map Prod.fst)⟩))

/-! ## Specification -/

/-- The simulation sees the values of the parameters and the values the model was built from. -/
def Sees (f : PMap → ℝ) (F : (String → Option (List ℝ)) → (String → Option (List ℝ)) → ℝ) : Prop :=
  ∀ t : PMap, f t = F t.read fun k => if k ∈ t.modelIds then (t.ref k).map fun r => (t.modelView r).numpy else none

/-- The value of a parameter: the noise parameter has its value, optimized ones that of the proposal, the others are as
before. -/
def noisyRead (s : PMap) (g : List String) (v x : List ℝ) (k : String) : Option (List ℝ) :=
  if k ∈ g then some v
  else match (s.optMap.zip x).find? fun p => k ∈ p.1 with
    | some p => (s.ref k).map fun r => [(s.heap r).getOtherValue (foldOpt p.2)]
    | none => s.read k

/-- The goal at a proposal with one noise parameter at one value and an up to date model. -/
def noisyGoal (F : (String → Option (List ℝ)) → (String → Option (List ℝ)) → ℝ) (s : PMap) (g : List String) (v : List ℝ)
    (x : Fin n → ℝ) : ℝ :=
  F (noisyRead s g v (List.ofFn x)) fun k => if k ∈ s.modelIds then noisyRead s g v (List.ofFn x) k else none

/-- All members of the group take the value. -/
def Accepts (s : PMap) (g : List String) (v : List ℝ) : Prop :=
  ∀ k ∈ g, ∃ r, s.ref k = some r ∧ ∃ q', (Op.set v).call (s.heap r) = .ok q'

/-- A noise map that makes sense: the groups are not empty and not optimized, their members have the same value, and the
values are accepted, also the one that is written back. -/
structure NoiseOk (s : PMap) (p : List (List ℝ) × List String) : Prop where
  ne : p.2 ≠ []
  free : ∀ k ∈ p.2, ∀ h ∈ s.optMap, k ∉ h
  eq : ∀ k ∈ p.2, s.read k = s.read (p.2.headD "")
  values : ∀ v ∈ p.1, Accepts s p.2 v
  orig : ∃ v, s.read (p.2.headD "") = some v ∧ Accepts s p.2 v

/-! ## Proofs -/

/-- Only values changed. -/
structure Like (s0 s : PMap) : Prop where
  shape : SameShape s0 s
  heap : ∀ k r, s0.ref k = some r → ∃ a, s.heap r = { s0.heap r with value := a }

theorem call_set {q q' : Quantity} {v : List ℝ} (h : (Op.set v).call q = .ok q') (a : List ℝ) :
    (Op.set v).call { q with value := a } =
      .ok { q with value := v.map fun y => 2 * (y * q.pref - q.offset) / q.scale - 1 } := by
  simp only [Op.call, setValue, Bool.false_eq_true, if_false] at h ⊢
  split_ifs at h ⊢ with h1
  unfold setValueRaw at h ⊢
  split_ifs at h ⊢ with h2
  simp only at h ⊢
  split_ifs at h ⊢
  rfl

theorem set_like {s0 s : PMap} (hs : Ready s) (hl : Like s0 s) {g : List String} {v : List ℝ} (ha : Accepts s0 g v) :
    ∃ s', s.setParameters [v] [g] = (s', none) ∧ Like s0 s' := by
  classical
  let nv : String → List ℝ := fun k => match s0.ref k with
    | some r => v.map fun y => 2 * (y * (s0.heap r).pref - (s0.heap r).offset) / (s0.heap r).scale - 1
    | none => []
  obtain ⟨t, h1, h2, h3⟩ := runWrites_values s (g.map fun k => (k, Op.set v, nv k)) (by
    intro w hw
    obtain ⟨k, hk, rfl⟩ := List.mem_map.1 hw
    obtain ⟨r, hr, q', hq⟩ := ha k hk
    obtain ⟨a, hh⟩ := hl.heap k r hr
    refine ⟨r, by rw [hl.shape.ref]; exact hr, fun b => ?_⟩
    rw [hh]
    have := call_set hq b
    simp only [nv, hr]
    exact this)
  have hw : setWrites false [g] [v] = (g.map fun k => (k, Op.set v, nv k)).map fun w => (w.1, w.2.1) := by
    simp [setWrites, Function.comp_def]
  have hht : ∀ k r, s0.ref k = some r → ∃ a, t.heap r = { s0.heap r with value := a } := by
    intro k r hr
    obtain ⟨a, hh⟩ := hl.heap k r hr
    by_cases hex : ∃ k' ∈ g, s0.ref k' = some r
    · obtain ⟨k', hk', hr'⟩ := hex
      refine ⟨nv k', ?_⟩
      rw [(h3 r).2 (nv k') ⟨(k', Op.set v, nv k'), List.mem_map.2 ⟨k', hk', rfl⟩, by rw [hl.shape.ref]; exact hr'⟩ ?_, hh]
      intro w hw hwr
      obtain ⟨k2, -, rfl⟩ := List.mem_map.1 hw
      rw [hl.shape.ref] at hwr
      simp only [nv]
      rw [show s0.ref k2 = some r from hwr, hr']
    · refine ⟨a, ?_⟩
      rw [(h3 r).1, hh]
      intro w hw hwr
      obtain ⟨k2, hk2, rfl⟩ := List.mem_map.1 hw
      rw [hl.shape.ref] at hwr
      exact hex ⟨k2, hk2, hwr⟩
  have hset : ∃ s', s.setParameters [v] [g] = (s', none) ∧ s'.heap = t.heap := by
    unfold setParameters
    rw [if_neg (by simp), setGroups_eq, hw, h1]
    simp only
    split_ifs
    · exact ⟨_, rfl, rfl⟩
    · exact ⟨_, rfl, rfl⟩
  obtain ⟨s', e, eh⟩ := hset
  obtain ⟨-, sh, -, -⟩ := ready_set hs e
  refine ⟨s', e, hl.shape.trans sh, fun k r hr => ?_⟩
  rw [eh]
  exact hht k r hr

theorem scalar_like {s0 s : PMap} (h0 : ScalarMap s0) (hs : Ready s) (hl : Like s0 s) : ScalarMap s := by
  refine ⟨hs.good, hs.ne, ?_, hs.disj, ?_, fun _ => hs.model⟩
  · intro g hg k hk
    rw [hl.shape.optMap] at hg
    obtain ⟨r, hr, hlen⟩ := h0.dfd g hg k hk
    obtain ⟨a, hh⟩ := hl.heap k r hr
    exact ⟨r, by rw [hl.shape.ref]; exact hr, by rw [hh]; exact hlen⟩
  · intro g hg k hk k' hk' r r' hr hr'
    rw [hl.shape.optMap] at hg
    rw [hl.shape.ref] at hr hr'
    obtain ⟨a, hh⟩ := hl.heap k r hr
    obtain ⟨b, hh'⟩ := hl.heap k' r' hr'
    rw [hh, hh']
    exact h0.lim g hg k hk k' hk' r r' hr hr'

theorem scaled_like {s0 s : PMap} (h0 : ScalarMap s0) (hs : Ready s) (hl : Like s0 s) (x : List ℝ)
    (hx : x.length = s0.optMap.length) :
    ∃ s', s.setParametersScaled x = (s', none) ∧ Like s0 s' ∧ Ready s' ∧
      (∀ k, (∀ g ∈ s0.optMap, k ∉ g) → s'.read k = s.read k) ∧
      ∀ p ∈ s0.optMap.zip x, ∀ k ∈ p.1,
        s'.read k = (s0.ref k).map fun r => [(s0.heap r).getOtherValue (foldOpt p.2)] := by
  obtain ⟨s', e1, e2, e3⟩ := setScaled_spec s (scalar_like h0 hs hl) x (by rw [hl.shape.optMap]; exact hx)
  obtain ⟨hr, hsh, hf⟩ := ready_scaled hs e1
  rw [hl.shape.optMap] at e3 hf
  rw [hl.shape.ref] at e3
  refine ⟨s', e1, ⟨hl.shape.trans hsh, ?_⟩, hr, hf, ?_⟩
  · intro k r hk
    obtain ⟨a, hh⟩ := hl.heap k r hk
    by_cases hex : ∃ p ∈ s0.optMap.zip x, ∃ k' ∈ p.1, s0.ref k' = some r
    · obtain ⟨p, hp, k', hk', hr'⟩ := hex
      exact ⟨_, by rw [(e3 r).2 p hp k' hk' hr', hh]⟩
    · refine ⟨a, ?_⟩
      rw [(e3 r).1, hh]
      intro g hg k' hk' hr'
      obtain ⟨i, hi, rfl⟩ := List.getElem_of_mem hg
      refine hex ⟨(s0.optMap[i], x[i]'(by rw [hx]; exact hi)), ?_, k', hk', hr'⟩
      refine List.mem_iff_getElem.2 ⟨i, by simp [hx, hi], by simp⟩
  · intro p hp k hk
    unfold PMap.read
    rw [hsh.ref, hl.shape.ref]
    rcases hr' : s0.ref k with _ | r
    · rfl
    · obtain ⟨a, hh⟩ := hl.heap k r hr'
      rw [Option.map_some, Option.map_some, (e3 r).2 p hp k hk hr', numpy_scalar, hh]
      rfl

/-- One evaluation with noise, from any state that was reached from `s0`. -/
theorem instance_eq {f : PMap → ℝ} {F : (String → Option (List ℝ)) → (String → Option (List ℝ)) → ℝ} (hF : Sees f F)
    {s0 s : PMap} (h0 : ScalarMap s0) (hs : Ready s) (hl : Like s0 s) (g : List String) (v : List ℝ) (ha : Accepts s0 g v)
    (hfree : ∀ k ∈ g, ∀ h ∈ s0.optMap, k ∉ h)
    (hag : ∀ k, k ∉ g → (∀ h ∈ s0.optMap, k ∉ h) → s.read k = s0.read k)
    (hn : n = s0.optMap.length) (x : Fin n → ℝ) :
    ∃ s', instanceG f x g s v = (s', .ok (noisyGoal F s0 g v x, fderiv ℝ (noisyGoal F s0 g v) x)) ∧ Ready s' ∧ Like s0 s' ∧
      ∀ k, k ∉ g → (∀ h ∈ s0.optMap, k ∉ h) → s'.read k = s0.read k := by
  obtain ⟨s1, e1, l1⟩ := set_like hs hl ha
  obtain ⟨r1, -, n1, f1⟩ := ready_set hs e1
  have key : ∀ y : Fin n → ℝ, ∃ s2, s1.setParametersScaled (List.ofFn y) = (s2, none) ∧ Like s0 s2 ∧ Ready s2 ∧
      f s2 = noisyGoal F s0 g v y ∧ ∀ k, k ∉ g → (∀ h ∈ s0.optMap, k ∉ h) → s2.read k = s0.read k := by
    intro y
    obtain ⟨s2, e2, l2, r2, f2, o2⟩ := scaled_like h0 r1 l1 (List.ofFn y) (by simp [hn])
    have hread : s2.read = noisyRead s0 g v (List.ofFn y) := by
      funext k
      unfold noisyRead
      by_cases hk : k ∈ g
      · rw [if_pos hk, f2 k (hfree k hk), n1 k hk]
      · rw [if_neg hk]
        rcases hfd : (s0.optMap.zip (List.ofFn y)).find? fun p => k ∈ p.1 with _ | p
        · have hno : ∀ h ∈ s0.optMap, k ∉ h := by
            intro h hh hkh
            obtain ⟨i, hi, rfl⟩ := List.getElem_of_mem hh
            have hi' : i < (List.ofFn y).length := by simp [hn, hi]
            have := List.find?_eq_none.1 hfd (s0.optMap[i], (List.ofFn y)[i])
              (List.mem_iff_getElem.2 ⟨i, by rw [List.length_zip]; exact lt_min hi hi', by simp⟩)
            exact this (by simpa using hkh)
          rw [hfd, f2 k hno, f1 k hk, hag k hk hno]
        · have hp := List.mem_of_find?_eq_some hfd
          have hkp : k ∈ p.1 := by simpa using List.find?_some hfd
          rw [hfd]
          exact o2 p hp k hkp
    refine ⟨s2, e2, l2, r2, ?_, ?_⟩
    · rw [hF s2, noisyGoal, hread]
      congr 1
      funext k
      rw [l2.shape.modelIds]
      split_ifs with hk
      · rw [← hread]
        unfold PMap.read
        rcases hr : s2.ref k with _ | r
        · rfl
        · rw [Option.map_some, Option.map_some, r2.fresh k (by rw [l2.shape.modelIds]; exact hk) r hr]
      · rfl
    · intro k hk hno
      rw [f2 k hno, f1 k hk, hag k hk hno]
  obtain ⟨s2, e2, l2, r2, v2, a2⟩ := key x
  refine ⟨s2, ?_, r2, l2, a2⟩
  have hfun : goalAt (n := n) f s1 = noisyGoal F s0 g v := by
    funext y
    obtain ⟨s3, e3, -, -, v3, -⟩ := key y
    unfold goalAt
    rw [e3]
    exact v3
  unfold instanceG
  rw [e1]
  simp only
  rw [e2]
  simp only
  rw [v2, hfun]

theorem loop_eq {f : PMap → ℝ} {F : (String → Option (List ℝ)) → (String → Option (List ℝ)) → ℝ} (hF : Sees f F)
    {s0 s : PMap} (h0 : ScalarMap s0) (hs : Ready s) (hl : Like s0 s) (g : List String) (vs : List (List ℝ))
    (ha : ∀ v ∈ vs, Accepts s0 g v) (hfree : ∀ k ∈ g, ∀ h ∈ s0.optMap, k ∉ h)
    (hag : ∀ k, k ∉ g → (∀ h ∈ s0.optMap, k ∉ h) → s.read k = s0.read k)
    (hn : n = s0.optMap.length) (x : Fin n → ℝ) :
    ∃ s', loopG f x g s vs = (s', vs.map fun v => (noisyGoal F s0 g v x, fderiv ℝ (noisyGoal F s0 g v) x), none) ∧
      Ready s' ∧ Like s0 s' ∧ ∀ k, k ∉ g → (∀ h ∈ s0.optMap, k ∉ h) → s'.read k = s0.read k := by
  induction vs generalizing s with
  | nil => exact ⟨s, rfl, hs, hl, hag⟩
  | cons v vs ih =>
    obtain ⟨s1, e1, r1, l1, a1⟩ := instance_eq hF h0 hs hl g v (ha v (by simp)) hfree hag hn x
    obtain ⟨s2, e2, r2, l2, a2⟩ := ih r1 l1 (fun v hv => ha v (by simp [hv])) a1
    refine ⟨s2, ?_, r2, l2, a2⟩
    rw [loopG, e1]
    simp only [e2, List.map_cons]

theorem robust_eq {f : PMap → ℝ} {F : (String → Option (List ℝ)) → (String → Option (List ℝ)) → ℝ} (hF : Sees f F)
    {s0 s : PMap} (h0 : ScalarMap s0) (hs : Ready s) (hl : Like s0 s) (noise : List (List (List ℝ) × List String))
    (hok : ∀ p ∈ noise, NoiseOk s0 p) (hag : ∀ k, (∀ h ∈ s0.optMap, k ∉ h) → s.read k = s0.read k)
    (hn : n = s0.optMap.length) (x : Fin n → ℝ) :
    ∃ s', robustG f x s noise = (s', (noisePairs noise).map fun p =>
        (noisyGoal F s0 p.1 p.2 x, fderiv ℝ (noisyGoal F s0 p.1 p.2) x), none) ∧
      Ready s' ∧ Like s0 s' ∧ ∀ k, (∀ h ∈ s0.optMap, k ∉ h) → s'.read k = s0.read k := by
  induction noise generalizing s with
  | nil => exact ⟨s, rfl, hs, hl, hag⟩
  | cons p noise ih =>
    obtain ⟨vs, g⟩ := p
    have hp := hok (vs, g) (by simp)
    obtain ⟨s1, e1, r1, l1, a1⟩ := loop_eq hF h0 hs hl g vs hp.values hp.free (fun k _ hk => hag k hk) hn x
    cases g with
    | nil => exact absurd rfl hp.ne
    | cons k0 ks =>
      have hread0 : s.read k0 = s0.read k0 := hag k0 (hp.free k0 (by simp))
      obtain ⟨v0, hv0, hacc⟩ := hp.orig
      have hv0 : s0.read k0 = some v0 := hv0
      obtain ⟨r0, hr0⟩ : ∃ r0, s.ref k0 = some r0 := by
        rcases h : s.ref k0 with _ | r
        · rw [← hread0] at hv0
          simp [PMap.read, h] at hv0
        · exact ⟨r, rfl⟩
      have hget : s.getParameters [k0 :: ks] = .ok [s.heap r0] := by
        simp [getParameters, hr0]
      have hv1 : (s.heap r0).numpy = v0 := by
        rw [← hread0] at hv0
        simpa [PMap.read, hr0] using hv0
      obtain ⟨s2, e2, l2⟩ := set_like r1 l1 hacc
      obtain ⟨r2, -, n2, f2⟩ := ready_set r1 e2
      have a2 : ∀ k, (∀ h ∈ s0.optMap, k ∉ h) → s2.read k = s0.read k := by
        intro k hk
        by_cases hkg : k ∈ k0 :: ks
        · rw [n2 k hkg, hp.eq k hkg]
          exact hv0.symm
        · rw [f2 k hkg, a1 k hkg hk]
      obtain ⟨s3, e3, r3, l3, a3⟩ := ih r2 l2 (fun p hp => hok p (by simp [hp])) a2
      refine ⟨s3, ?_, r3, l3, a3⟩
      rw [robustG, hget]
      simp only [e1, List.map_cons, List.map_nil, hv1, e2, e3]
      simp [noisePairs, Function.comp_def]

/-! ### Properties -/

/-- **C244**: the goals are those of the proposal at every value of every noise parameter, one at a time, with the model up to
date, and afterwards every parameter that is not optimized has its old value. The goal returned is their mean. -/
theorem C244_report_partial {f : PMap → ℝ} {F : (String → Option (List ℝ)) → (String → Option (List ℝ)) → ℝ} (hF : Sees f F)
    (s : PMap) (h0 : ScalarMap s) (hs : Ready s) (noise : List (List (List ℝ) × List String)) (hne : noisePairs noise ≠ [])
    (hok : ∀ p ∈ noise, NoiseOk s p) (hn : n = s.optMap.length) (x : Fin n → ℝ) :
    ∃ s' rep, goalRunWithGrad f x s noise = (s', .ok (some rep)) ∧
      rep.individual = (noisePairs noise).map (fun p => noisyGoal F s p.1 p.2 x) ∧
      rep.goal = (((noisePairs noise).map fun p => noisyGoal F s p.1 p.2 x).sum) / (noisePairs noise).length ∧
      ∀ k, (∀ h ∈ s.optMap, k ∉ h) → s'.read k = s.read k := by
  obtain ⟨s', e, -, -, a⟩ := robust_eq hF h0 hs ⟨SameShape.rfl' s, fun k r _ => ⟨_, rfl⟩⟩ noise hok (fun _ _ => rfl) hn x
  refine ⟨s', _, by rw [goalRunWithGrad, e]; simp only [List.map_eq_nil_iff, if_neg hne]; rfl, ?_, ?_, a⟩
  · simp [Function.comp_def]
  · simp [mean, Function.comp_def, div_eq_inv_mul]

/-- **C244**: the gradient returned is the gradient of the goal returned, as functions of the proposal. -/
theorem C244_gradient_partial {f : PMap → ℝ} {F : (String → Option (List ℝ)) → (String → Option (List ℝ)) → ℝ}
    (hF : Sees f F) (s : PMap) (h0 : ScalarMap s) (hs : Ready s) (noise : List (List (List ℝ) × List String))
    (hne : noisePairs noise ≠ []) (hok : ∀ p ∈ noise, NoiseOk s p) (hn : n = s.optMap.length) (x : Fin n → ℝ)
    (hd : ∀ p ∈ noisePairs noise, DifferentiableAt ℝ (noisyGoal (n := n) F s p.1 p.2) x) :
    ∃ (goal : (Fin n → ℝ) → ℝ) (grad : Grad n),
      (∀ y, ∃ s' rep, goalRunWithGrad f y s noise = (s', .ok (some rep)) ∧ rep.goal = goal y) ∧
      (∃ s' rep, goalRunWithGrad f x s noise = (s', .ok (some rep)) ∧ rep.grad = grad) ∧ HasFDerivAt goal grad x := by
  refine ⟨fun y => mean ((noisePairs noise).map fun p => noisyGoal F s p.1 p.2 y),
    mean ((noisePairs noise).map fun p => fderiv ℝ (noisyGoal F s p.1 p.2) x), ?_, ?_, ?_⟩
  · intro y
    obtain ⟨s', e, -, -, a⟩ := robust_eq hF h0 hs ⟨SameShape.rfl' s, fun k r _ => ⟨_, rfl⟩⟩ noise hok (fun _ _ => rfl) hn y
    refine ⟨s', _, by rw [goalRunWithGrad, e]; simp only [List.map_eq_nil_iff, if_neg hne]; rfl, ?_⟩
    simp [Function.comp_def]
  · obtain ⟨s', e, -, -, a⟩ := robust_eq hF h0 hs ⟨SameShape.rfl' s, fun k r _ => ⟨_, rfl⟩⟩ noise hok (fun _ _ => rfl) hn x
    refine ⟨s', _, by rw [goalRunWithGrad, e]; simp only [List.map_eq_nil_iff, if_neg hne]; rfl, ?_⟩
    simp [Function.comp_def]
  · have key : ∀ l : List (List String × List ℝ), (∀ p ∈ l, DifferentiableAt ℝ (noisyGoal (n := n) F s p.1 p.2) x) →
        HasFDerivAt (fun y => (l.map fun p => noisyGoal F s p.1 p.2 y).sum)
          (l.map fun p => fderiv ℝ (noisyGoal F s p.1 p.2) x).sum x := by
      intro l hl
      induction l with
      | nil => simpa using hasFDerivAt_const (0 : ℝ) x
      | cons p ps ih =>
        simp only [List.map_cons, List.sum_cons]
        exact (hl p (by simp)).hasFDerivAt.add (ih fun q hq => hl q (by simp [hq]))
    have := (key _ hd).fun_const_smul ((noisePairs noise).length : ℝ)⁻¹
    unfold mean
    simpa only [List.length_map] using this

theorem mean_sub_sq (l : List ℝ) (hl : l ≠ []) : mean (l.map fun y => (y - mean l) ^ 2) = mean (l.map fun y => y ^ 2) - mean l ^ 2 := by
  have key : ∀ (m : ℝ) (l : List ℝ), (l.map fun y => (y - m) ^ 2).sum =
      (l.map fun y => y ^ 2).sum - 2 * m * l.sum + l.length * m ^ 2 := by
    intro m l
    induction l with
    | nil => simp
    | cons a l ih => simp only [List.map_cons, List.sum_cons, ih, List.length_cons]; push_cast; ring
  have hN : (l.length : ℝ) ≠ 0 := by simpa using hl
  unfold mean
  simp only [List.length_map, smul_eq_mul]
  rw [key]
  field_simp
  ring

/-- **C244**: the spread logged: the mean square of the goals is the square of the goal plus that of the spread; no goal is
further from the mean than the spread times the root of their number; and it is zero exactly if all goals are the mean. -/
theorem C244_std (l : List ℝ) (hl : l ≠ []) :
    std l ^ 2 = mean (l.map fun y => y ^ 2) - mean l ^ 2 ∧ (∀ y ∈ l, |y - mean l| ≤ √l.length * std l) ∧
      (std l = 0 ↔ ∀ y ∈ l, y = mean l) := by
  have hN : (0 : ℝ) < l.length := by exact_mod_cast List.length_pos_iff.2 hl
  have hnn : 0 ≤ mean (l.map fun y => (y - mean l) ^ 2) := by
    unfold mean
    refine mul_nonneg (by positivity) (List.sum_nonneg ?_)
    intro z hz
    obtain ⟨y, -, rfl⟩ := List.mem_map.1 hz
    positivity
  have hle : ∀ y ∈ l, (y - mean l) ^ 2 ≤ l.length * std l ^ 2 := by
    intro y hy
    unfold std
    rw [Real.sq_sqrt hnn]
    have : (l.length : ℝ) * mean (l.map fun y => (y - mean l) ^ 2) = (l.map fun y => (y - mean l) ^ 2).sum := by
      conv_lhs => rw [mean]
      simp only [List.length_map, smul_eq_mul]
      field_simp
    rw [this]
    refine List.single_le_sum (l := l.map fun y => (y - mean l) ^ 2) ?_ _ (List.mem_map.2 ⟨y, hy, rfl⟩)
    intro z hz
    obtain ⟨y, -, rfl⟩ := List.mem_map.1 hz
    positivity
  refine ⟨?_, ?_, ?_⟩
  · rw [std, Real.sq_sqrt hnn, mean_sub_sq l hl]
  · intro y hy
    refine abs_le_of_sq_le_sq ?_ (by unfold std; positivity)
    rw [mul_pow, Real.sq_sqrt hN.le]
    exact hle y hy
  · constructor
    · intro h y hy
      have := hle y hy
      rw [h] at this
      have h0 : (y - mean l) ^ 2 = 0 := le_antisymm (by simpa using this) (sq_nonneg _)
      have := pow_eq_zero_iff (two_ne_zero) |>.1 h0
      linarith
    · intro h
      have : (l.map fun y => (y - mean l) ^ 2) = l.map fun _ => (0 : ℝ) :=
        List.map_congr_left fun y hy => by simp [sub_eq_zero.2 (h y hy)]
      unfold std
      rw [this]
      simp [mean]

/-! ### A noise parameter that is optimized -/

/-- **C244 is false** for a noise parameter that is optimized as well: the proposal overwrites the noise, so all goals are that
without noise and the spread is zero, and the value that is written back is not that of the proposal. Here the control is 3/2,
the proposal is 1, the noise values are 1/2 and 2, and the goal is the value of the control. -/
theorem C244_false_optimized : ∃ s' rep, goalRunWithGrad readA ![0] (exN 1 (3 / 2)) [([[1 / 2], [2]], ["a"])] = (s', .ok (some rep)) ∧
    rep.individual = [1, 1] ∧ rep.goalStd = 0 ∧ s'.read "a" = some [3 / 2] := by
  have e : (exN 1 (3 / 2)).getParameters [["a"]] = .ok [exR [3 / 2 - 1]] := by
    simp [exN, exAt, exS, getParameters]
  have ho : List.ofFn ![(0 : ℝ)] = [0] := by simp
  set mv := (exAt 1 (3 / 2) fun _ => exR [0]).heap with hmv
  have h1 : (exN 1 (3 / 2)).setParameters [[1 / 2]] [["a"]] = (exAt 1 (1 / 2) mv, none) :=
    exAt_a 1 (3 / 2) (1 / 2) mv (by norm_num) (by norm_num)
  have h2 : (exAt 1 (1 / 2) mv).setParametersScaled [0] = (exAt 1 1 mv, none) :=
    exAt_scaled 1 (1 / 2) 0 1 mv (by norm_num) (by norm_num) (by norm_num)
  have h3 : (exAt 1 1 mv).setParameters [[2]] [["a"]] = (exAt 1 2 mv, none) := exAt_a 1 1 2 mv (by norm_num) (by norm_num)
  have h4 : (exAt 1 2 mv).setParametersScaled [0] = (exAt 1 1 mv, none) :=
    exAt_scaled 1 2 0 1 mv (by norm_num) (by norm_num) (by norm_num)
  have hq : ([exR [(3 / 2 : ℝ) - 1]]).map Quantity.numpy = [[3 / 2]] := by
    simp [numpy, getValue, exR]
  have h5 : (exAt 1 1 mv).setParameters [[3 / 2]] [["a"]] = (exAt 1 (3 / 2) mv, none) :=
    exAt_a 1 1 (3 / 2) mv (by norm_num) (by norm_num)
  have hr : readA (exAt 1 1 mv) = 1 := by simp [readA, exAt_read_a]
  set G1 : Grad 1 := fderiv ℝ (goalAt readA (exAt 1 (1 / 2) mv)) ![0]
  set G2 : Grad 1 := fderiv ℝ (goalAt readA (exAt 1 2 mv)) ![0]
  refine ⟨exAt 1 (3 / 2) mv, ⟨mean [1, 1], mean [G1, G2], [1, 1], std [1, 1]⟩, ?_, rfl, by norm_num [std, mean], exAt_read_a _ _ _⟩
  simp only [goalRunWithGrad, robustG, e, loopG, instanceG, h1, ho, h2, h3, h4, hq, h5, hr]
  simp [G1, G2]

/-! ### Example: noise on the model parameter -/

theorem exN_scalar (m a : ℝ) : ScalarMap (exN m a) := by
  refine ⟨(exN_ready m a).good, (exN_ready m a).ne, ?_, (exN_ready m a).disj, ?_, fun _ => rfl⟩
  · intro g hg k hk
    have hg : g = ["a"] := by simpa [exN, exAt] using hg
    subst hg
    have hk : k = "a" := by simpa using hk
    subst hk
    exact ⟨1, by simp [exN, exAt, exS], by simp [exN, exAt, exR]⟩
  · intro g hg k hk k' hk' r r' hr hr'
    have hg : g = ["a"] := by simpa [exN, exAt] using hg
    subst hg
    have hk : k = "a" := by simpa using hk
    have hk' : k' = "a" := by simpa using hk'
    subst hk hk'
    rw [hr] at hr'
    cases hr'
    rfl

theorem exN_noise : NoiseOk (exN 1 1) ([[3 / 2], [2]], ["m"]) := by
  have hr : (exN 1 1).ref "m" = some 0 := by simp [exN, exAt, exS]
  have hh : (exN 1 1).heap 0 = exR [1 - 1] := by simp [exN, exAt]
  have hacc : ∀ y : ℝ, 0 ≤ y → y ≤ 2 → Accepts (exN 1 1) ["m"] [y] := by
    intro y h0 h2 k hk
    have hk : k = "m" := by simpa using hk
    subst hk
    exact ⟨0, hr, _, by rw [hh]; exact exR_call _ y h0 h2 rfl⟩
  refine ⟨by simp, ?_, ?_, ?_, ?_⟩
  · intro k hk h hh
    have hk : k = "m" := by simpa using hk
    have hh : h = ["a"] := by simpa [exN, exAt] using hh
    subst hk hh
    decide
  · intro k hk
    have hk : k = "m" := by simpa using hk
    subst hk
    rfl
  · intro v hv
    have hv : v = [3 / 2] ∨ v = [2] := by simpa using hv
    rcases hv with rfl | rfl
    · exact hacc _ (by norm_num) (by norm_num)
    · exact hacc _ (by norm_num) (by norm_num)
  · exact ⟨[1], exAt_read_m _ _ _, hacc 1 (by norm_num) (by norm_num)⟩

/-- The hypotheses are met, with a goal that depends on the noise: the value of the model parameter, with mean 7/4. -/
example : ∃ s' rep, goalRunWithGrad (n := 1) (fun t => ((t.read "m").getD [0]).headD 0) ![0] (exN 1 1)
    [([[3 / 2], [2]], ["m"])] = (s', .ok (some rep)) ∧ rep.individual = [3 / 2, 2] ∧ rep.goal = 7 / 4 := by
  obtain ⟨s', rep, h1, h2, h3, -⟩ := C244_report_partial (n := 1) (f := fun t => ((t.read "m").getD [0]).headD 0)
    (F := fun v _ => ((v "m").getD [0]).headD 0) (fun _ => rfl) (exN 1 1) (exN_scalar 1 1) (exN_ready 1 1)
    [([[3 / 2], [2]], ["m"])] (by simp [noisePairs]) (by simpa using exN_noise) rfl ![0]
  refine ⟨s', rep, h1, ?_, ?_⟩
  · rw [h2]; simp [noisePairs, noisyGoal, noisyRead]
  · rw [h3]; norm_num [noisePairs, noisyGoal, noisyRead]

end C3.Optim.Robust
