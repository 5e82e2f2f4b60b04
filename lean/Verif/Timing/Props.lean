import Verif.Timing.Model
import Mathlib.Tactic.Linarith
import Mathlib.Tactic.NormNum
import Mathlib.Tactic.Ring

/-!
# C53, C54: trigger timing and automatic gate length
-/

set_option linter.unusedSectionVars false

namespace C3.Timing

/-! ## Specification -/

/-- Every trigger exists and the triggers have no cycle (`rank` decreases along them). -/
def Acyclic (I : TInstr) (rank : String × String → ℕ) : Prop :=
  ∀ k c j, I.comp k = some c → c.trigger = some j → (I.comp j).isSome ∧ rank j < rank k

/-- The keys `chan-name` of different components differ (true if no name contains a hyphen). -/
def KeysDistinct (I : TInstr) : Prop :=
  ∀ k k', (I.comp k).isSome → (I.comp k').isSome → cacheKey k = cacheKey k' → k = k'

/-- Length of a component: the cut if there is one, otherwise the length of the envelope. -/
def TComp.length (c : TComp) : Option ℝ := c.cut <|> c.tFinal

/-- End of a component that starts at `s`: after its length, or at `last` if it has none. -/
noncomputable def specEnd (last : ℝ) (c : TComp) (s : ℝ) : ℝ := ((c.length).map (s + ·)).getD last

/-- The delay option, zero if absent. -/
noncomputable def specDelay (c : TComp) : ℝ := c.delay.getD 0

theorem endOf_spec (t : ℝ) (m : Bool) (c : TComp) (s : ℝ) :
    endOf t m c s = specEnd (if m then s else t) c s := by
  unfold endOf specEnd TComp.length
  cases c.cut <;> cases c.tFinal <;> cases m <;> rfl

theorem delayOf_spec (c : TComp) : delayOf c = specDelay c := rfl

/-- The intended schedule: an untriggered component starts its delay after the start of the
instruction, a triggered one its delay after the end of the trigger; it ends after its length, or with
the instruction if it has no length. -/
structure IsSchedule (I : TInstr) (start stop : String × String → ℝ) : Prop where
  untriggered : ∀ k c, I.comp k = some c → c.trigger = none → start k = I.tStart + specDelay c
  triggered : ∀ k c j, I.comp k = some c → c.trigger = some j → start k = stop j + specDelay c
  ends : ∀ k c, I.comp k = some c → stop k = specEnd I.tEnd c (start k)

/-- What the code computes instead: the start of the instruction is added for every trigger. -/
structure IsCodeSchedule (I : TInstr) (start stop : String × String → ℝ) : Prop where
  untriggered : ∀ k c, I.comp k = some c → c.trigger = none → start k = I.tStart + specDelay c
  triggered : ∀ k c j, I.comp k = some c → c.trigger = some j →
    start k = I.tStart + specDelay c + stop j
  ends : ∀ k c, I.comp k = some c → stop k = specEnd I.tEnd c (start k)

/-- All entries of the cache are those of the schedule. -/
def CacheOK (I : TInstr) (start stop : String × String → ℝ) (cache : Cache) : Prop :=
  ∀ k, (I.comp k).isSome → ∀ r, cache (cacheKey k) = some r → r = (start k, stop k)

theorem update_cacheOK (I : TInstr) (hk : KeysDistinct I) (start stop : String × String → ℝ)
    (cache : Cache) (hc : CacheOK I start stop cache) (k : String × String)
    (hks : (I.comp k).isSome) :
    CacheOK I start stop (Function.update cache (cacheKey k) (some (start k, stop k))) := by
  intro k' hk' r hr
  by_cases h : cacheKey k' = cacheKey k
  · have := hk k' k hk' hks h
    subst this
    simp at hr
    exact hr.symm
  · rw [Function.update_of_ne h] at hr
    exact hc k' hk' r hr

theorem getTimings_spec (I : TInstr) (rank : String × String → ℕ) (hac : Acyclic I rank)
    (hk : KeysDistinct I) (start stop : String × String → ℝ) (hs : IsCodeSchedule I start stop)
    (fuel : ℕ) (cache : Cache) (hc : CacheOK I start stop cache) (k : String × String)
    (hks : (I.comp k).isSome) (hf : rank k < fuel) :
    ∃ cache', getTimings I fuel cache k false = .ok ((start k, stop k), cache') ∧
      CacheOK I start stop cache' := by
  induction fuel generalizing k cache with
  | zero => omega
  | succ fuel ih =>
    rw [getTimings]
    cases hck : cache (cacheKey k) with
    | some r =>
      refine ⟨cache, ?_, hc⟩
      rw [hc k hks r hck]
    | none =>
      obtain ⟨c, hcomp⟩ := Option.isSome_iff_exists.1 hks
      rw [hcomp]
      simp only
      cases htr : c.trigger with
      | none =>
        simp only
        refine ⟨_, ?_, update_cacheOK I hk start stop cache hc k hks⟩
        rw [delayOf_spec, ← hs.untriggered k c hcomp htr, endOf_spec, if_neg Bool.false_ne_true, ← hs.ends k c hcomp]
      | some j =>
        obtain ⟨hj, hr⟩ := hac k c j hcomp htr
        obtain ⟨cache', h1, h2⟩ := ih cache hc j hj (by omega)
        simp only [h1]
        refine ⟨_, ?_, update_cacheOK I hk start stop cache' h2 k hks⟩
        rw [delayOf_spec, ← hs.triggered k c j hcomp htr, endOf_spec, if_neg Bool.false_ne_true, ← hs.ends k c hcomp]

/-- C53 (exact): `get_timings` returns the schedule of the code for every component, for all
instructions with acyclic triggers, whatever is already cached. -/
theorem C53_get_timings (I : TInstr) (rank : String × String → ℕ) (hac : Acyclic I rank)
    (hk : KeysDistinct I) (start stop : String × String → ℝ) (hs : IsCodeSchedule I start stop)
    (fuel : ℕ) (cache : Cache) (hc : CacheOK I start stop cache) (k : String × String)
    (hks : (I.comp k).isSome) (hf : rank k < fuel) :
    ∃ cache', getTimings I fuel cache k false = .ok ((start k, stop k), cache') ∧
      CacheOK I start stop cache' :=
  getTimings_spec I rank hac hk start stop hs fuel cache hc k hks hf

/-- One step of the recursion for the start times of the code. -/
noncomputable def startStep (I : TInstr) (rank : String × String → ℕ) (k : String × String)
    (rec : ∀ j, rank j < rank k → ℝ) : ℝ :=
  match I.comp k with
  | none => 0
  | some c =>
    match c.trigger with
    | none => I.tStart + specDelay c
    | some j =>
      if h : rank j < rank k then
        match I.comp j with
        | none => 0
        | some cj => I.tStart + specDelay c + specEnd I.tEnd cj (rec j h)
      else 0

/-- The schedule of the code exists for acyclic triggers, so the theorems about it are not
vacuous. -/
theorem exists_codeSchedule (I : TInstr) (rank : String × String → ℕ) (hac : Acyclic I rank) :
    ∃ start stop, IsCodeSchedule I start stop := by
  let start : String × String → ℝ :=
    WellFounded.fix (measure rank).wf fun k rec => startStep I rank k rec
  have heq : ∀ k, start k = startStep I rank k fun j _ => start j := fun k =>
    WellFounded.fix_eq (measure rank).wf (fun k rec => startStep I rank k rec) k
  let stop : String × String → ℝ := fun k =>
    match I.comp k with
    | none => 0
    | some c => specEnd I.tEnd c (start k)
  refine ⟨start, stop, ?_, ?_, ?_⟩
  · intro k c hc ht
    rw [heq, startStep, hc]
    simp only [ht]
  · intro k c j hc ht
    obtain ⟨hj, hr⟩ := hac k c j hc ht
    obtain ⟨cj, hcj⟩ := Option.isSome_iff_exists.1 hj
    rw [heq, startStep, hc]
    simp only [ht, hr, dite_true, hcj, stop]
  · intro k c hc
    simp only [stop, hc]

/-- If the instruction starts at time zero, the schedule of the code is the intended one. -/
theorem codeSchedule_zero (I : TInstr) (h0 : I.tStart = 0) (start stop : String × String → ℝ) :
    IsCodeSchedule I start stop ↔ IsSchedule I start stop := by
  constructor
  · intro h
    refine ⟨h.untriggered, ?_, h.ends⟩
    intro k c j hc ht
    rw [h.triggered k c j hc ht, h0]
    ring
  · intro h
    refine ⟨h.untriggered, ?_, h.ends⟩
    intro k c j hc ht
    rw [h.triggered k c j hc ht, h0]
    ring

/-- C53 for instructions that start at zero (the default; setting `t_start` is deprecated): every
component is scheduled as intended. -/
theorem C53_trigger_timing_partial (I : TInstr) (h0 : I.tStart = 0) (rank : String × String → ℕ)
    (hac : Acyclic I rank) (hk : KeysDistinct I) (start stop : String × String → ℝ)
    (hs : IsSchedule I start stop) (fuel : ℕ) (k : String × String) (hks : (I.comp k).isSome)
    (hf : rank k < fuel) :
    ∃ cache', getTimings I fuel (fun _ => none) k false = .ok ((start k, stop k), cache') := by
  obtain ⟨c, h1, -⟩ := C53_get_timings I rank hac hk start stop
    ((codeSchedule_zero I h0 start stop).2 hs) fuel (fun _ => none)
    (fun _ _ _ h => by simp at h) k hks hf
  exact ⟨c, h1⟩

/-- Two envelopes, the second triggered by the first; the instruction starts at time 1. -/
noncomputable def lateInstr : TInstr where
  chans := [("d", ["a", "b"])]
  comp := fun k => if k = ("d", "a") then some ⟨none, none, none, some 5⟩
    else if k = ("d", "b") then some ⟨none, some ("d", "a"), none, some 5⟩ else none
  tStart := 1
  tEnd := 11

/-- C53 is false for other start times: the second component of `lateInstr` starts at 7, although the
first one ends at 6 and there is no delay. -/
theorem C53_false_start_counted_twice :
    (getTimings lateInstr 2 (fun _ => none) ("d", "a") false).map Prod.fst = .ok (1, 6) ∧
      (getTimings lateInstr 2 (fun _ => none) ("d", "b") false).map Prod.fst = .ok (7, 12) := by
  constructor
  · simp [getTimings, lateInstr, endOf, delayOf, Except.map]
    norm_num
  · simp [getTimings, lateInstr, endOf, delayOf, Except.map]
    norm_num

/-! ## Gate length -/

/-- Every component that triggers another one has a length of its own. -/
def TriggersHaveLength (I : TInstr) : Prop :=
  ∀ k c j cj, I.comp k = some c → c.trigger = some j → I.comp j = some cj →
    cj.cut.isSome ∨ cj.tFinal.isSome

/-- End of a component if components without a length take no time. -/
noncomputable def minStop (I : TInstr) (start : String × String → ℝ) (k : String × String) : ℝ :=
  match I.comp k with
  | none => 0
  | some c => specEnd (start k) c (start k)

/-- A cache filled with `minimal_time=True` entries. -/
def MinCacheOK (I : TInstr) (start : String × String → ℝ) (cache : Cache) : Prop :=
  ∀ k, (I.comp k).isSome → ∀ r, cache (cacheKey k) = some r → r = (start k, minStop I start k)

theorem endOf_minimal (t t' : ℝ) (m m' : Bool) (c : TComp) (s : ℝ)
    (h : c.cut.isSome ∨ c.tFinal.isSome) : endOf t m c s = endOf t' m' c s := by
  unfold endOf
  cases hc : c.cut with
  | some x => rfl
  | none =>
    cases hf : c.tFinal with
    | some x => rfl
    | none => simp [hc, hf] at h

theorem specEnd_length (t t' : ℝ) (c : TComp) (s : ℝ) (h : c.cut.isSome ∨ c.tFinal.isSome) :
    specEnd t c s = specEnd t' c s := by
  have := endOf_minimal t t' false false c s h
  rwa [endOf_spec, endOf_spec] at this

theorem update_minCacheOK (I : TInstr) (hk : KeysDistinct I) (start : String × String → ℝ)
    (cache : Cache) (hc : MinCacheOK I start cache) (k : String × String)
    (hks : (I.comp k).isSome) :
    MinCacheOK I start (Function.update cache (cacheKey k) (some (start k, minStop I start k))) := by
  intro k' hk' r hr
  by_cases h : cacheKey k' = cacheKey k
  · have := hk k' k hk' hks h
    subst this
    simp at hr
    exact hr.symm
  · rw [Function.update_of_ne h] at hr
    exact hc k' hk' r hr

theorem getTimings_min (I : TInstr) (rank : String × String → ℕ) (hac : Acyclic I rank)
    (hk : KeysDistinct I) (htl : TriggersHaveLength I) (start stop : String × String → ℝ)
    (hs : IsCodeSchedule I start stop)
    (fuel : ℕ) (cache : Cache) (hc : MinCacheOK I start cache) (k : String × String)
    (c : TComp) (hcomp : I.comp k = some c) (hf : rank k < fuel) (m : Bool)
    (hm : m = true ∨ c.cut.isSome ∨ c.tFinal.isSome) :
    ∃ cache', getTimings I fuel cache k m = .ok ((start k, minStop I start k), cache') ∧
      MinCacheOK I start cache' := by
  induction fuel generalizing k cache m c with
  | zero => omega
  | succ fuel ih =>
    have hks : (I.comp k).isSome := by rw [hcomp]; rfl
    have hstop : ∀ s, endOf I.tEnd m c s = endOf I.tEnd true c s := by
      intro s
      rcases hm with rfl | hm
      · rfl
      · exact endOf_minimal _ _ _ _ c s hm
    have hmin : minStop I start k = endOf I.tEnd m c (start k) := by
      rw [hstop, minStop, hcomp, endOf_spec, if_pos rfl]
    rw [getTimings]
    cases hck : cache (cacheKey k) with
    | some r =>
      refine ⟨cache, ?_, hc⟩
      rw [hc k hks r hck]
    | none =>
      rw [hcomp]
      simp only
      cases htr : c.trigger with
      | none =>
        simp only
        refine ⟨_, ?_, update_minCacheOK I hk start cache hc k hks⟩
        rw [hmin, delayOf_spec, ← hs.untriggered k c hcomp htr]
      | some j =>
        obtain ⟨hj, hr⟩ := hac k c j hcomp htr
        obtain ⟨cj, hcj⟩ := Option.isSome_iff_exists.1 hj
        have hl := htl k c j cj hcomp htr hcj
        obtain ⟨cache', h1, h2⟩ := ih cache hc j cj hcj (by omega) false (Or.inr hl)
        simp only [h1]
        refine ⟨_, ?_, update_minCacheOK I hk start cache' h2 k hks⟩
        have hjs : minStop I start j = stop j := by
          rw [minStop, hcj, hs.ends j cj hcj]
          exact specEnd_length _ _ cj _ hl
        rw [hmin, hjs, delayOf_spec, ← hs.triggered k c j hcomp htr]

/-- The components listed in the instruction. -/
def compKeys (I : TInstr) : List (String × String) :=
  I.chans.flatMap fun cn => cn.2.map fun n => (cn.1, n)

/-- Fold of minima and maxima over components. -/
noncomputable def span (I : TInstr) (start : String × String → ℝ) (ks : List (String × String))
    (a : WithTop ℝ) (b : WithBot ℝ) : WithTop ℝ × WithBot ℝ :=
  (ks.foldl (fun a k => min a (start k : WithTop ℝ)) a,
    ks.foldl (fun b k => max b (minStop I start k : WithBot ℝ)) b)

theorem lengthComps_spec (I : TInstr) (rank : String × String → ℕ) (hac : Acyclic I rank)
    (hk : KeysDistinct I) (htl : TriggersHaveLength I) (start stop : String × String → ℝ)
    (hs : IsCodeSchedule I start stop) (fuel : ℕ) (chan : String) (names : List String)
    (hex : ∀ n ∈ names, (I.comp (chan, n)).isSome ∧ rank (chan, n) < fuel) (cache : Cache)
    (hc : MinCacheOK I start cache) (a : WithTop ℝ) (b : WithBot ℝ) :
    lengthComps I fuel chan names cache a b =
      .ok (span I start (names.map fun n => (chan, n)) a b) := by
  induction names generalizing cache a b with
  | nil => rfl
  | cons n ns ih =>
    obtain ⟨h1, h2⟩ := hex n (by simp)
    obtain ⟨c, hcomp⟩ := Option.isSome_iff_exists.1 h1
    obtain ⟨cache', e1, e2⟩ := getTimings_min I rank hac hk htl start stop hs fuel cache hc
      (chan, n) c hcomp h2 true (Or.inl rfl)
    rw [lengthComps, e1]
    simp only
    rw [ih (fun m hm => hex m (by simp [hm])) cache' e2]
    simp [span]

theorem fullLength_spec (I : TInstr) (rank : String × String → ℕ) (hac : Acyclic I rank)
    (hk : KeysDistinct I) (htl : TriggersHaveLength I) (start stop : String × String → ℝ)
    (hs : IsCodeSchedule I start stop) (fuel : ℕ) (cs : List (String × List String))
    (hex : ∀ cn ∈ cs, ∀ n ∈ cn.2, (I.comp (cn.1, n)).isSome ∧ rank (cn.1, n) < fuel)
    (a : WithTop ℝ) (b : WithBot ℝ) :
    fullLength I fuel cs a b =
      .ok (span I start (cs.flatMap fun cn => cn.2.map fun n => (cn.1, n)) a b) := by
  induction cs generalizing a b with
  | nil => rfl
  | cons cn cs ih =>
    obtain ⟨chan, names⟩ := cn
    rw [fullLength, lengthComps_spec I rank hac hk htl start stop hs fuel chan names
      (hex (chan, names) (by simp)) (fun _ => none) (fun _ _ _ h => by simp at h)]
    simp only
    rw [ih fun cn hcn => hex cn (by simp [hcn])]
    simp [span, List.flatMap_cons, List.foldl_append]

theorem foldl_max_spec (f : String × String → ℝ) (ks : List (String × String)) (b : WithBot ℝ) :
    (b ≤ ks.foldl (fun b k => max b (f k : WithBot ℝ)) b ∧
      ∀ k ∈ ks, (f k : WithBot ℝ) ≤ ks.foldl (fun b k => max b (f k : WithBot ℝ)) b) ∧
    (ks.foldl (fun b k => max b (f k : WithBot ℝ)) b = b ∨
      ∃ k ∈ ks, ks.foldl (fun b k => max b (f k : WithBot ℝ)) b = f k) := by
  induction ks generalizing b with
  | nil => simp
  | cons a ks ih =>
    obtain ⟨⟨h1, h2⟩, h3⟩ := ih (max b (f a : WithBot ℝ))
    simp only [List.foldl_cons]
    refine ⟨⟨le_trans (le_max_left _ _) h1, ?_⟩, ?_⟩
    · intro k hk
      rcases List.mem_cons.1 hk with rfl | hk
      · exact le_trans (le_max_right _ _) h1
      · exact h2 k hk
    · rcases h3 with h3 | ⟨k, hk, h3⟩
      · rw [h3]
        rcases max_choice b (f a : WithBot ℝ) with h | h
        · exact Or.inl h
        · exact Or.inr ⟨a, by simp, h⟩
      · exact Or.inr ⟨k, by simp [hk], h3⟩

/-- C53: the gate end reported by `get_full_gate_length` is the latest end of all components
(components without a length of their own count as taking no time). -/
theorem C53_gate_length (I : TInstr) (rank : String × String → ℕ) (hac : Acyclic I rank)
    (hk : KeysDistinct I) (htl : TriggersHaveLength I) (start stop : String × String → ℝ)
    (hs : IsCodeSchedule I start stop) (fuel : ℕ)
    (hex : ∀ k ∈ compKeys I, (I.comp k).isSome ∧ rank k < fuel) (hne : compKeys I ≠ []) :
    ∃ a t, getFullGateLength I fuel = .ok (a, some t) ∧
      (∀ k ∈ compKeys I, minStop I start k ≤ t) ∧ ∃ k ∈ compKeys I, minStop I start k = t := by
  have h := fullLength_spec I rank hac hk htl start stop hs fuel I.chans (by
    intro cn hcn n hn
    exact hex (cn.1, n) (List.mem_flatMap.2 ⟨cn, hcn, List.mem_map.2 ⟨n, hn, rfl⟩⟩)) ⊤ ⊥
  unfold getFullGateLength
  rw [h]
  obtain ⟨⟨-, h2⟩, h3⟩ := foldl_max_spec (minStop I start) (compKeys I) ⊥
  have hb : (span I start (compKeys I) ⊤ ⊥).2 =
      (compKeys I).foldl (fun b k => max b (minStop I start k : WithBot ℝ)) ⊥ := rfl
  obtain ⟨k0, hk0⟩ := List.exists_mem_of_ne_nil _ hne
  rcases h3 with h3 | ⟨k, hkm, h3⟩
  · have := h2 k0 hk0
    rw [h3] at this
    simp at this
  · refine ⟨(span I start (compKeys I) ⊤ ⊥).1, minStop I start k, ?_, ?_, k, hkm, rfl⟩
    · show Except.ok (span I start (compKeys I) ⊤ ⊥) = _
      rw [← Prod.mk.eta (p := span I start (compKeys I) ⊤ ⊥), hb, h3]
      rfl
    · intro k' hk'
      have := h2 k' hk'
      rw [h3] at this
      exact_mod_cast this

/-! ## C54 -/

/-- Changing the end of the instruction. -/
def withEnd (I : TInstr) (t : ℝ) : TInstr := { I with tEnd := t }

/-- The start times do not depend on the end of the instruction if all triggers have a length. -/
theorem start_withEnd (I : TInstr) (rank : String × String → ℕ) (hac : Acyclic I rank)
    (htl : TriggersHaveLength I) (t : ℝ) (start stop start' stop' : String × String → ℝ)
    (hs : IsCodeSchedule I start stop) (hs' : IsCodeSchedule (withEnd I t) start' stop')
    (k : String × String) (hks : (I.comp k).isSome) : start k = start' k := by
  induction hr : rank k using Nat.strong_induction_on generalizing k with
  | _ r ih =>
    obtain ⟨c, hc⟩ := Option.isSome_iff_exists.1 hks
    cases ht : c.trigger with
    | none => rw [hs.untriggered k c hc ht, hs'.untriggered k c hc ht]; rfl
    | some j =>
      obtain ⟨hj, hrj⟩ := hac k c j hc ht
      obtain ⟨cj, hcj⟩ := Option.isSome_iff_exists.1 hj
      rw [hs.triggered k c j hc ht, hs'.triggered k c j hc ht, hs.ends j cj hcj,
        hs'.ends j cj hcj, ih (rank j) (by omega) j hj rfl]
      show I.tStart + specDelay c + _ = I.tStart + specDelay c + _
      rw [specEnd_length I.tEnd t cj _ (htl k c j cj hc ht hcj)]
      rfl

theorem minStop_withEnd (I : TInstr) (t : ℝ) (start : String × String → ℝ) (k : String × String) :
    minStop (withEnd I t) start k = minStop I start k := by
  unfold minStop withEnd
  cases I.comp k with
  | none => rfl
  | some c => rfl

/-- C54: if every triggering component has a length of its own, `auto_adjust_t_end` ends after at
most two rounds; the new end is the latest end of a component times `1 + buffer`, so for a
non-negative buffer and end every component ends within the gate. Missing: triggers without a length
(`C54_false_never_ends`). -/
theorem C54_auto_adjust_partial (I : TInstr) (rank : String × String → ℕ) (hac : Acyclic I rank)
    (hk : KeysDistinct I) (htl : TriggersHaveLength I) (fuel : ℕ)
    (hex : ∀ k ∈ compKeys I, (I.comp k).isSome ∧ rank k < fuel) (hne : compKeys I ≠ [])
    (buffer : ℝ) (hb : 0 ≤ buffer) (start stop : String × String → ℝ)
    (hs : IsCodeSchedule I start stop) :
    ∃ t, autoAdjust buffer fuel 2 I = some (.ok (withEnd I (t * (1 + buffer)))) ∧
      (∃ k ∈ compKeys I, minStop I start k = t) ∧
      (0 ≤ t → ∀ k ∈ compKeys I, minStop I start k ≤ t * (1 + buffer)) := by
  obtain ⟨a, t, h1, h2, k1, hk1, h3⟩ := C53_gate_length I rank hac hk htl start stop hs fuel hex hne
  refine ⟨t, ?_, ⟨k1, hk1, h3⟩, ?_⟩
  · rw [autoAdjust, h1]
    simp only
    by_cases he : I.tEnd = t
    · rw [if_pos he]
      rfl
    · rw [if_neg he]
      -- second round
      have hac' : Acyclic (withEnd I t) rank := hac
      obtain ⟨start', stop', hs'⟩ := exists_codeSchedule (withEnd I t) rank hac'
      obtain ⟨a', t', g1, g2, k2, hk2, g3⟩ := C53_gate_length (withEnd I t) rank hac' hk htl start'
        stop' hs' fuel hex hne
      have hst : ∀ k ∈ compKeys I, minStop (withEnd I t) start' k = minStop I start k := by
        intro k hkm
        rw [minStop_withEnd]
        unfold minStop
        rw [start_withEnd I rank hac htl t start stop start' stop' hs hs' k (hex k hkm).1]
      have ht' : t' = t := by
        apply le_antisymm
        · rw [← g3, hst k2 hk2]
          exact h2 k2 hk2
        · have := g2 k1 hk1
          rw [hst k1 hk1, h3] at this
          exact this
      show autoAdjust buffer fuel 1 (withEnd I t) = _
      rw [autoAdjust, g1]
      simp only
      rw [if_pos (show (withEnd I t).tEnd = t' from ht'.symm)]
      rw [ht']
      rfl
  · intro ht k hkm
    have := h2 k hkm
    nlinarith

/-- The keys of a two-channel instruction: a carrier, and an envelope triggered by it. -/
noncomputable def carrierInstr (tEnd : ℝ) : TInstr where
  chans := [("d", ["env"]), ("e", ["carrier"])]
  comp := fun k => if k = ("d", "env") then some ⟨none, some ("e", "carrier"), none, some 5⟩
    else if k = ("e", "carrier") then some ⟨none, none, none, none⟩ else none
  tStart := 0
  tEnd := tEnd

theorem carrier_length (t : ℝ) (ht : 0 ≤ t) (fuel : ℕ) :
    (getFullGateLength (carrierInstr t) (fuel + 2)).map Prod.snd = .ok (some (t + 5)) := by
  simp [getFullGateLength, fullLength, lengthComps, carrierInstr, getTimings, endOf, delayOf,
    Except.map]
  show Except.ok (max ((t + 5 : ℝ) : WithBot ℝ) ((0 : ℝ) : WithBot ℝ)) =
    Except.ok ((t + 5 : ℝ) : WithBot ℝ)
  rw [max_eq_left]
  exact_mod_cast (by linarith : (0 : ℝ) ≤ t + 5)

/-- C54 is false in general: an envelope triggered by a component without a length of its own (for
example a carrier) always ends after the end of the instruction, and `auto_adjust_t_end` never
ends. -/
theorem C54_false_never_ends (buffer t : ℝ) (ht : 0 ≤ t) (fuel iters : ℕ) :
    autoAdjust buffer (fuel + 2) iters (carrierInstr t) = none := by
  induction iters generalizing t with
  | zero => rfl
  | succ n ih =>
    have h := carrier_length t ht fuel
    rw [autoAdjust]
    cases hg : getFullGateLength (carrierInstr t) (fuel + 2) with
    | error e => rw [hg] at h; simp [Except.map] at h
    | ok r =>
    rw [hg] at h
    obtain ⟨a, b⟩ := r
    injection h with h
    simp only at h
    subst h
    simp only
    rw [if_neg (by show ¬ t = t + 5; linarith)]
    exact ih (t + 5) (by linarith)

/-- The hypotheses of the positive theorems are met by `lateInstr`. -/
example : Acyclic lateInstr (fun k => if k = ("d", "a") then 0 else 1) ∧
    TriggersHaveLength lateInstr := by
  constructor
  · intro k c j hc ht
    simp only [lateInstr] at hc ⊢
    split at hc
    · simp at hc; subst hc; simp at ht
    · split at hc
      · rename_i h1 h2
        simp at hc; subst hc; simp at ht; subst ht; subst h2; simp
      · simp at hc
  · intro k c j cj hc ht hcj
    simp only [lateInstr] at hc hcj
    split at hc
    · simp at hc; subst hc; simp at ht
    · split at hc
      · simp at hc; subst hc; simp at ht; subst ht; simp at hcj; subst hcj; simp
      · simp at hc

end C3.Timing
