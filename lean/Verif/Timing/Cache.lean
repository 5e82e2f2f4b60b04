import Verif.Timing.Props

/-!
# C133: timings and the calls made before

`Instruction.get_timings` remembers what it returned in `self._timings`
(c3/signal/gates.py:283-285, 319). Only `get_full_gate_length` (for every channel, line 326) and
`get_awg_signal` (line 344) forget it.
-/

namespace C3.Timing

/-! ## Model: what `get_full_gate_length` leaves behind -/

/-- c3/signal/gates.py:327-328: the cache after the loop over the components of one channel. -/
noncomputable def compsCache (I : TInstr) (fuel : ℕ) (chan : String) : List String → Cache → Except TErr Cache
  | [], cache => .ok cache
  | n :: ns, cache =>
    match getTimings I fuel cache (chan, n) true with
    | .error e => .error e
    | .ok (_, cache') => compsCache I fuel chan ns cache'

/-- c3/signal/gates.py:325-328: the cache after the loop over the channels. -/
noncomputable def lengthCache (I : TInstr) (fuel : ℕ) : List (String × List String) → Cache → Except TErr Cache
  | [], cache => .ok cache
  | (chan, names) :: cs, _ =>
    match compsCache I fuel chan names (fun _ => none) with
    | .error e => .error e
    | .ok cache' => lengthCache I fuel cs cache'

/-! ## Lemmas -/

/-- What was returned once is returned again, whatever the instruction is now. -/
theorem getTimings_cached (I : TInstr) (fuel : ℕ) (cache : Cache) (k : String × String) (m : Bool) (r : ℝ × ℝ)
    (h : cache (cacheKey k) = some r) : getTimings I (fuel + 1) cache k m = .ok (r, cache) := by
  rw [getTimings, h]

/-- Every answer is remembered. -/
theorem getTimings_stores (I : TInstr) (fuel : ℕ) (cache cache' : Cache) (k : String × String) (m : Bool)
    (r : ℝ × ℝ) (h : getTimings I fuel cache k m = .ok (r, cache')) : cache' (cacheKey k) = some r := by
  cases fuel with
  | zero => simp [getTimings] at h
  | succ fuel =>
    rw [getTimings] at h
    cases hc : cache (cacheKey k) with
    | some r' =>
      rw [hc] at h
      simp only [Except.ok.injEq, Prod.mk.injEq] at h
      rw [← h.1, ← h.2, hc]
    | none =>
      rw [hc] at h
      simp only at h
      split at h
      · cases h
      · split at h
        · simp only [Except.ok.injEq, Prod.mk.injEq] at h
          rw [← h.2, ← h.1]
          simp
        · split at h
          · cases h
          · simp only [Except.ok.injEq, Prod.mk.injEq] at h
            rw [← h.2, ← h.1]
            simp

/-- Answers are never forgotten by further questions. -/
theorem getTimings_keeps (I : TInstr) (fuel : ℕ) (cache cache' : Cache) (k : String × String) (m : Bool)
    (r : ℝ × ℝ) (h : getTimings I fuel cache k m = .ok (r, cache')) (key : String) (r' : ℝ × ℝ)
    (hr : cache key = some r') : ∃ r'', cache' key = some r'' := by
  induction fuel generalizing cache cache' k m r with
  | zero => simp [getTimings] at h
  | succ fuel ih =>
    rw [getTimings] at h
    cases hc : cache (cacheKey k) with
    | some r0 =>
      rw [hc] at h
      simp only [Except.ok.injEq, Prod.mk.injEq] at h
      exact ⟨r', by rw [← h.2, hr]⟩
    | none =>
      rw [hc] at h
      simp only at h
      split at h
      · cases h
      · split at h
        · simp only [Except.ok.injEq, Prod.mk.injEq] at h
          rw [← h.2]
          by_cases he : key = cacheKey k
          · exact ⟨_, by rw [he, Function.update_self]⟩
          · exact ⟨r', by rw [Function.update_of_ne he, hr]⟩
        · split at h
          · cases h
          · rename_i rj c1 hj
            simp only [Except.ok.injEq, Prod.mk.injEq] at h
            obtain ⟨r1, h1⟩ := ih _ _ _ _ _ hj hr
            rw [← h.2]
            by_cases he : key = cacheKey k
            · exact ⟨_, by rw [he, Function.update_self]⟩
            · exact ⟨r1, by rw [Function.update_of_ne he, h1]⟩

/-- The cache after one channel holds the minimal timings. -/
theorem compsCache_spec (I : TInstr) (rank : String × String → ℕ) (hac : Acyclic I rank)
    (hk : KeysDistinct I) (htl : TriggersHaveLength I) (start stop : String × String → ℝ)
    (hs : IsCodeSchedule I start stop) (fuel : ℕ) (chan : String) (names : List String)
    (hex : ∀ n ∈ names, (I.comp (chan, n)).isSome ∧ rank (chan, n) < fuel) (cache : Cache)
    (hc : MinCacheOK I start cache) :
    ∃ cache', compsCache I fuel chan names cache = .ok cache' ∧ MinCacheOK I start cache' ∧
      (∀ n ∈ names, cache' (cacheKey (chan, n)) = some (start (chan, n), minStop I start (chan, n))) ∧
      ∀ key r, cache key = some r → ∃ r', cache' key = some r' := by
  induction names generalizing cache with
  | nil => exact ⟨cache, rfl, hc, by simp, fun _ r h => ⟨r, h⟩⟩
  | cons n ns ih =>
    obtain ⟨h1, h2⟩ := hex n (by simp)
    obtain ⟨c, hcomp⟩ := Option.isSome_iff_exists.1 h1
    obtain ⟨c1, e1, e2⟩ := getTimings_min I rank hac hk htl start stop hs fuel cache hc
      (chan, n) c hcomp h2 true (Or.inl rfl)
    obtain ⟨c2, f1, f2, f3, f4⟩ := ih (fun m hm => hex m (by simp [hm])) c1 e2
    refine ⟨c2, ?_, f2, ?_, ?_⟩
    · rw [compsCache, e1]; exact f1
    · intro m hm
      rcases List.mem_cons.1 hm with rfl | hm
      · obtain ⟨r', hr'⟩ := f4 _ _ (getTimings_stores I fuel cache c1 _ _ _ e1)
        rw [hr', f2 _ h1 _ hr']
      · exact f3 m hm
    · intro key r hr
      obtain ⟨r1, hr1⟩ := getTimings_keeps I fuel cache c1 _ _ _ e1 key r hr
      exact f4 key r1 hr1

theorem lengthCache_append (I : TInstr) (fuel : ℕ) (cs : List (String × List String)) (chan : String)
    (names : List String) (cache c1 : Cache) (h : lengthCache I fuel cs cache = .ok c1) :
    lengthCache I fuel (cs ++ [(chan, names)]) cache = compsCache I fuel chan names fun _ => none := by
  induction cs generalizing cache with
  | nil =>
    simp only [List.nil_append, lengthCache]
    cases compsCache I fuel chan names fun _ => none <;> rfl
  | cons cn cs ih =>
    obtain ⟨ch, ns⟩ := cn
    simp only [List.cons_append, lengthCache] at h ⊢
    cases hc : compsCache I fuel ch ns fun _ => none with
    | error e => rw [hc] at h; cases h
    | ok c2 =>
      rw [hc] at h
      exact ih c2 h

/-! ## C133 -/

/-- **C133**, what holds: right after `get_awg_signal` has emptied the memory, and for as long as the
instruction does not change, every question for the timings of a component is answered according to
the schedule, in any order and number. Missing: questions after `get_full_gate_length` and after
parameter changes, see the negations. -/
theorem C133_questions_partial (I : TInstr) (rank : String × String → ℕ) (hac : Acyclic I rank)
    (hk : KeysDistinct I) (start stop : String × String → ℝ) (hs : IsCodeSchedule I start stop)
    (fuel : ℕ) (ks : List (String × String)) (hks : ∀ k ∈ ks, (I.comp k).isSome ∧ rank k < fuel) :
    ∃ cache', ks.foldlM (fun (p : List (ℝ × ℝ) × Cache) k =>
        match getTimings I fuel p.2 k false with
        | .error e => Except.error e
        | .ok (r, c) => .ok (p.1 ++ [r], c)) ([], fun _ => none) =
      .ok (ks.map fun k => (start k, stop k), cache') := by
  have key : ∀ (ks : List (String × String)) (l : List (ℝ × ℝ)) (cache : Cache),
      (∀ k ∈ ks, (I.comp k).isSome ∧ rank k < fuel) → CacheOK I start stop cache →
      ∃ cache', ks.foldlM (fun (p : List (ℝ × ℝ) × Cache) k =>
        match getTimings I fuel p.2 k false with
        | .error e => Except.error e
        | .ok (r, c) => .ok (p.1 ++ [r], c)) (l, cache) =
      .ok (l ++ ks.map fun k => (start k, stop k), cache') := by
    intro ks
    induction ks with
    | nil => intro l cache _ _; exact ⟨cache, by simp [pure, Except.pure]⟩
    | cons k ks ih =>
      intro l cache h hc
      obtain ⟨c1, h1, h2⟩ := C53_get_timings I rank hac hk start stop hs fuel cache hc k
        (h k (by simp)).1 (h k (by simp)).2
      obtain ⟨c2, h3⟩ := ih (l ++ [(start k, stop k)]) c1 (fun k' hk' => h k' (by simp [hk'])) h2
      refine ⟨c2, ?_⟩
      rw [List.foldlM_cons]
      simp only [h1, bind, Except.bind]
      rw [h3]
      simp
  obtain ⟨c, h⟩ := key ks [] (fun _ => none) hks (fun _ _ _ h => by simp at h)
  exact ⟨c, by simpa using h⟩

/-- **C133 is false** after `get_full_gate_length`: a component of the last channel without a length of
its own then ends when it starts instead of at the end of the instruction. -/
theorem C133_false_after_length (I : TInstr) (rank : String × String → ℕ) (hac : Acyclic I rank)
    (hk : KeysDistinct I) (htl : TriggersHaveLength I) (start stop : String × String → ℝ)
    (hs : IsCodeSchedule I start stop) (fuel : ℕ) (cs : List (String × List String)) (chan : String)
    (names : List String) (hch : I.chans = cs ++ [(chan, names)])
    (hex : ∀ k ∈ compKeys I, (I.comp k).isSome ∧ rank k < fuel) (cache : Cache) (n : String) (hn : n ∈ names)
    (c : TComp) (hc : I.comp (chan, n) = some c) (hl : c.length = none) (hlt : start (chan, n) ≠ I.tEnd) :
    ∃ cache', lengthCache I fuel I.chans cache = .ok cache' ∧
      getTimings I (fuel + 1) cache' (chan, n) false = .ok ((start (chan, n), start (chan, n)), cache') ∧
      stop (chan, n) ≠ start (chan, n) := by
  have hall : ∀ cs' : List (String × List String), (∀ cn ∈ cs', ∀ m ∈ cn.2, (I.comp (cn.1, m)).isSome ∧
      rank (cn.1, m) < fuel) → ∀ c0, ∃ c1, lengthCache I fuel cs' c0 = .ok c1 := by
    intro cs'
    induction cs' with
    | nil => intro _ c0; exact ⟨c0, rfl⟩
    | cons cn cs' ih =>
      intro h c0
      obtain ⟨ch, ns⟩ := cn
      obtain ⟨c2, h2, -⟩ := compsCache_spec I rank hac hk htl start stop hs fuel ch ns
        (h (ch, ns) (by simp)) (fun _ => none) (fun _ _ _ h => by simp at h)
      obtain ⟨c3, h3⟩ := ih (fun cn hcn => h cn (by simp [hcn])) c2
      exact ⟨c3, by rw [lengthCache, h2]; exact h3⟩
  have hin : ∀ cn ∈ I.chans, ∀ m ∈ cn.2, (I.comp (cn.1, m)).isSome ∧ rank (cn.1, m) < fuel := by
    intro cn hcn m hm
    exact hex (cn.1, m) (List.mem_flatMap.2 ⟨cn, hcn, List.mem_map.2 ⟨m, hm, rfl⟩⟩)
  obtain ⟨c1, h1⟩ := hall cs (fun cn hcn => hin cn (by rw [hch]; simp [hcn])) cache
  obtain ⟨c2, h2, -, h4, -⟩ := compsCache_spec I rank hac hk htl start stop hs fuel chan names
    (hin (chan, names) (by rw [hch]; simp)) (fun _ => none) (fun _ _ _ h => by simp at h)
  refine ⟨c2, ?_, ?_, ?_⟩
  · rw [hch, lengthCache_append I fuel cs chan names cache c1 h1, h2]
  · rw [getTimings_cached I fuel c2 (chan, n) false _ (h4 n hn)]
    simp [minStop, hc, specEnd, hl]
  · rw [hs.ends _ c hc]
    simpa [specEnd, hl] using Ne.symm hlt

/-- **C133 is false** after a parameter change: once the timings of a component were asked for, a new
delay or length does not change the answer. -/
theorem C133_false_after_change (I I' : TInstr) (fuel fuel' : ℕ) (cache cache' : Cache) (k : String × String)
    (m m' : Bool) (r : ℝ × ℝ) (h : getTimings I fuel cache k m = .ok (r, cache')) :
    getTimings I' (fuel' + 1) cache' k m' = .ok (r, cache') :=
  getTimings_cached I' fuel' cache' k m' r (getTimings_stores I fuel cache cache' k m r h)

/-- An instruction from 0 to 10 with a pulse and its carrier on one channel. -/
noncomputable def pulseInstr : TInstr where
  chans := [("d", ["env", "carrier"])]
  comp := fun k => if k = ("d", "env") then some ⟨none, none, none, some 5⟩
    else if k = ("d", "carrier") then some ⟨none, none, none, none⟩ else none
  tStart := 0
  tEnd := 10

/-- The hypotheses of `C133_false_after_length` can be met. -/
example : ∃ cache', lengthCache pulseInstr 1 pulseInstr.chans (fun _ => none) = .ok cache' ∧
    getTimings pulseInstr 2 cache' ("d", "carrier") false = .ok ((0, 0), cache') ∧
    getTimings pulseInstr 2 (fun _ => none) ("d", "carrier") false =
      .ok ((0, 10), Function.update (fun _ => none) "d-carrier" (some (0, 10))) := by
  refine ⟨Function.update (Function.update (fun _ => none) "d-env" (some (0, 5))) "d-carrier" (some (0, 0)), ?_, ?_, ?_⟩
  · simp [lengthCache, compsCache, pulseInstr, getTimings, delayOf, endOf, cacheKey]
  · simp [getTimings, cacheKey]
  · simp [getTimings, pulseInstr, delayOf, endOf, cacheKey]

end C3.Timing
