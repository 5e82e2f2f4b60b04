import Verif.Devices.Mix
import Verif.Devices.Convolve
import Verif.Devices.Grid
import Mathlib.Data.List.Infix
import Mathlib.Analysis.SpecialFunctions.Trigonometric.Basic
import Mathlib.Analysis.SpecialFunctions.Sqrt
import Mathlib.Tactic.Ring
import Mathlib.Tactic.Linarith
import Mathlib.Tactic.NormNum
import Mathlib.Tactic.Push

/-!
# C191-C193: noise devices in a chain, linear flux tuning, the deprecated response filter

Models c3/generator/devices.py:942-997 (`LONoise`, `Additive_Noise`, `DC_Noise`), 1039-1059 (`DC_Offset`),
528-581 (`FluxTuningLinear`) and 585-643 (`Response`), in chains of devices with one input
(c3/generator/generator.py:172-229).

The random numbers of a device are given from outside: `draw k i` is the number drawn for sample `i` of
component `k`. For `Additive_Noise` they are arbitrary, for `DC_Noise` the same for all samples of a component,
for `Pink_Noise` see C143. A signal is a list of pairs of a key and samples, as in `Verif.Devices.Mix`; here the
writes to the dictionary are done one by one.
-/

namespace C3.Devices.Noise

open C3.Devices

noncomputable section

/-! ## Dictionaries -/

/-- `d[k] = v` -/
def put (s : Sig) (k : String) (v : List ℝ) : Sig :=
  if s.any (fun kv => kv.1 = k) then s.map fun kv => if kv.1 = k then (k, v) else kv else s ++ [(k, v)]

/-- A dictionary has no key twice. -/
def Dict (s : Sig) : Prop := (s.map Prod.fst).Nodup

theorem get_put (s : Sig) (k : String) (v : List ℝ) (x : String) :
    (put s k v).get x = if k = x then some v else s.get x := by
  unfold put
  by_cases h : s.any (fun kv => kv.1 = k)
  · rw [if_pos h]
    unfold Sig.get
    induction s with
    | nil => simp at h
    | cons a s ih =>
      by_cases hak : a.1 = k
      · by_cases hx : k = x
        · simp [hak, hx]
        · simp only [List.map_cons, hak, if_true, List.find?_cons, hx, decide_false]
          by_cases hs : s.any (fun kv => kv.1 = k)
          · have := ih hs
            simpa [hx] using this
          · have : (s.map fun kv => if kv.1 = k then (k, v) else kv) = s := by
              conv_rhs => rw [← List.map_id s]
              apply List.map_congr_left
              intro kv hkv
              have : kv.1 ≠ k := by
                intro hc
                exact hs (by simpa using ⟨kv.2, by rw [← hc]; exact hkv⟩)
              simp [this]
            rw [this, if_neg not_false]
      · have hs : s.any (fun kv => kv.1 = k) := by simpa [hak] using h
        have := ih hs
        by_cases hax : a.1 = x
        · have hkx : k ≠ x := fun hc => hak (hax.trans hc.symm)
          rw [List.map_cons, if_neg hak]
          simp [hax, hkx]
        · simpa [hak, hax] using this
  · rw [if_neg h]
    unfold Sig.get
    induction s with
    | nil => by_cases hx : k = x <;> simp [hx]
    | cons a s ih =>
      have h1 : a.1 ≠ k := by intro hc; exact h (by simp [hc])
      have h2 : ¬ s.any (fun kv => kv.1 = k) := by intro hc; exact h (by rw [List.any_cons, hc]; simp)
      have := ih h2
      by_cases hax : a.1 = x
      · have hkx : k ≠ x := fun hc => h1 (hax.trans hc.symm)
        simp [hax, hkx]
      · simpa [hax] using this

theorem keys_put (s : Sig) (k : String) (v : List ℝ) :
    (put s k v).map Prod.fst = if k ∈ s.map Prod.fst then s.map Prod.fst else s.map Prod.fst ++ [k] := by
  unfold put
  by_cases h : s.any (fun kv => kv.1 = k)
  · have hk : k ∈ s.map Prod.fst := by
      rw [List.any_eq_true] at h
      obtain ⟨kv, h1, h2⟩ := h
      exact List.mem_map.2 ⟨kv, h1, by simpa using h2⟩
    rw [if_pos h, if_pos hk, List.map_map]
    apply List.map_congr_left
    intro kv _
    by_cases hc : kv.1 = k <;> simp [hc]
  · have hk : k ∉ s.map Prod.fst := by
      intro hc
      obtain ⟨kv, h1, h2⟩ := List.mem_map.1 hc
      exact h (List.any_eq_true.2 ⟨kv, h1, by simpa using h2⟩)
    rw [if_neg h, if_neg hk]
    simp

theorem dict_put (s : Sig) (k : String) (v : List ℝ) (h : Dict s) : Dict (put s k v) := by
  unfold Dict at *
  rw [keys_put]
  by_cases hk : k ∈ s.map Prod.fst
  · rw [if_pos hk]; exact h
  · rw [if_neg hk, List.nodup_append]
    refine ⟨h, by simp, ?_⟩
    intro a ha b hb
    rw [List.mem_singleton] at hb
    subst hb
    exact fun hc => hk (hc ▸ ha)

theorem get_of_mem (s : Sig) (h : Dict s) (k : String) (v : List ℝ) (hm : (k, v) ∈ s) : s.get k = some v := by
  unfold Sig.get
  induction s with
  | nil => simp at hm
  | cons a s ih =>
    unfold Dict at h
    rw [List.map_cons, List.nodup_cons] at h
    rcases List.mem_cons.1 hm with rfl | hm
    · simp
    · have : a.1 ≠ k := by
        intro hc
        exact h.1 (hc ▸ List.mem_map.2 ⟨(k, v), hm, rfl⟩)
      simpa [this] using ih h.2 hm

theorem mem_of_get (s : Sig) (k : String) (v : List ℝ) (h : s.get k = some v) : (k, v) ∈ s := by
  unfold Sig.get at h
  rw [Option.map_eq_some_iff] at h
  obtain ⟨kv, h1, h2⟩ := h
  have h3 := List.find?_some h1
  have h4 := List.mem_of_find?_eq_some h1
  simp only [decide_eq_true_eq] at h3
  rw [← h3, ← h2]
  exact h4

/-! ## Devices -/

/-- Exceptions. -/
inductive Err
  | keyError
  | notImplemented
  deriving DecidableEq

/-- `"noise" in k` -/
def hasNoise (k : String) : Bool := decide ("noise".toList <:+: k.toList)

/-- `"noise" + ("-" + k if k != "values" else "")` (devices.py:992). -/
def noiseKey (k : String) : String := "noise" ++ (if k ≠ "values" then "-" ++ k else "")

/-- C191: the noise is reported as "noise" for the values and as "noise-inphase" for the component "inphase". -/
theorem C191_key (k : String) : noiseKey "values" = "noise" ∧ (k ≠ "values" → noiseKey k = "noise-" ++ k) := by
  refine ⟨by decide +kernel, fun h => ?_⟩
  rw [noiseKey, if_pos h, show "noise-" = "noise" ++ "-" by decide, String.append_assoc]

/-- The components a noise device works on (devices.py:985). -/
def IsComponent (k : String) : Prop := k ≠ "ts" ∧ hasNoise k = false

instance (k : String) : Decidable (IsComponent k) := by unfold IsComponent; infer_instance

/-- devices.py:986-991 with `get_noise` of 976-978: the noise of component `k` with samples `v`. -/
def noiseOf (amp : ℝ) (draw : String → ℕ → ℝ) (k : String) (v : List ℝ) : List ℝ :=
  open scoped Classical in
  if amp < 1e-17 then v.map fun _ => 0 else (List.range v.length).map fun i => amp * draw k i

/-- devices.py:984-995, the loop. -/
def noiseLoop (noise : String → List ℝ → List ℝ) : Sig → Sig → Sig
  | [], out => out
  | (k, v) :: rest, out =>
    if IsComponent k then
      noiseLoop noise rest
        (put (put out (noiseKey k) (noise k v)) k (List.zipWith (· + ·) v (noise k v)))
    else noiseLoop noise rest out

/-- Devices with one input. -/
inductive Dev
  /-- `Additive_Noise`, `DC_Noise`, `Pink_Noise` -/
  | noise (amp : ℝ) (draw : String → ℕ → ℝ)
  /-- `DC_Offset` -/
  | offset (a : ℝ)
  /-- `VoltsToHertz` -/
  | v2hz (c : ℝ)
  /-- `LONoise` -/
  | loNoise

/-- `process`. `LONoise` defines `proces` (devices.py:953), so that the method of the base class is called
(devices.py:124-148). -/
def Dev.process : Dev → Sig → Except Err Sig
  | .noise amp draw, s =>
    match s.get "ts" with
    | none => .error .keyError
    | some ts => .ok (noiseLoop (noiseOf amp draw) s [("ts", ts)])
  | .offset a, s => .ok (dcOffset a s)
  | .v2hz c, s =>
    match voltsToHertz c s with
    | none => .error .keyError
    | some t => .ok t
  | .loNoise, _ => .error .notImplemented

/-- generator.py:172-229 for a chain in which every device has one input. -/
def run : List Dev → Sig → Except Err Sig
  | [], s => .ok s
  | d :: ds, s =>
    match d.process s with
    | .error e => .error e
    | .ok t => run ds t

/-- `DC_Noise.get_noise` (devices.py:1004-1008): one number for all samples. -/
def dcDraw (z : String → ℝ) : String → ℕ → ℝ := fun k _ => z k

/-! ## Keys -/

theorem hasNoise_noiseKey (k : String) : hasNoise (noiseKey k) = true := by
  unfold hasNoise noiseKey
  rw [decide_eq_true_eq, String.toList_append]
  exact (List.prefix_append _ _).isInfix

theorem noiseKey_inj (k k' : String) (h : noiseKey k = noiseKey k') : k = k' := by
  unfold noiseKey at h
  have h1 := congrArg String.toList h
  rw [String.toList_append, String.toList_append] at h1
  have h2 := List.append_cancel_left h1
  by_cases hk : k = "values" <;> by_cases hk' : k' = "values"
  · rw [hk, hk']
  · simp [hk, hk'] at h2
  · simp [hk, hk'] at h2
  · simp [hk, hk'] at h2
    exact String.toList_inj.1 h2

theorem component_ne_noiseKey {k : String} (h : IsComponent k) (k' : String) : k ≠ noiseKey k' := by
  intro hc
  have := h.2
  rw [hc, hasNoise_noiseKey] at this
  exact absurd this (by decide)

theorem ts_ne_noiseKey (k : String) : "ts" ≠ noiseKey k := by
  intro hc
  have := hasNoise_noiseKey k
  rw [← hc] at this
  exact absurd this (by decide)

/-! ## C191 -/

theorem loop_other (noise : String → List ℝ → List ℝ) (x : String) : ∀ (s out : Sig),
    (∀ kv ∈ s, IsComponent kv.1 → kv.1 ≠ x ∧ noiseKey kv.1 ≠ x) →
      (noiseLoop noise s out).get x = out.get x
  | [], _, _ => rfl
  | (k, v) :: rest, out, h => by
    have hr : ∀ kv ∈ rest, IsComponent kv.1 → kv.1 ≠ x ∧ noiseKey kv.1 ≠ x :=
      fun kv hkv => h kv (List.mem_cons_of_mem _ hkv)
    rw [noiseLoop]
    by_cases hc : IsComponent k
    · obtain ⟨h1, h2⟩ := h (k, v) (by simp) hc
      rw [if_pos hc, loop_other noise x rest _ hr, get_put, if_neg h1, get_put, if_neg h2]
    · rw [if_neg hc, loop_other noise x rest _ hr]

theorem loop_component (noise : String → List ℝ → List ℝ) (k : String) (v : List ℝ) (hc : IsComponent k) :
    ∀ (s out : Sig), Dict s → (k, v) ∈ s →
      (noiseLoop noise s out).get k = some (List.zipWith (· + ·) v (noise k v)) ∧
      (noiseLoop noise s out).get (noiseKey k) = some (noise k v)
  | [], _, _, h => by simp at h
  | (k', v') :: rest, out, hd, h => by
    unfold Dict at hd
    rw [List.map_cons, List.nodup_cons] at hd
    rcases List.mem_cons.1 h with heq | hm
    · obtain ⟨rfl, rfl⟩ := Prod.mk.inj heq
      have hr : ∀ x, (x = k ∨ x = noiseKey k) → ∀ kv ∈ rest, IsComponent kv.1 → kv.1 ≠ x ∧ noiseKey kv.1 ≠ x := by
        rintro x hx ⟨a, b⟩ hkv hca
        have hne : a ≠ k := fun hcc => hd.1 (hcc ▸ List.mem_map.2 ⟨(a, b), hkv, rfl⟩)
        rcases hx with rfl | rfl
        · exact ⟨hne, fun hcc => component_ne_noiseKey hc a hcc.symm⟩
        · exact ⟨component_ne_noiseKey hca k, fun hcc => hne (noiseKey_inj _ _ hcc)⟩
      rw [noiseLoop, if_pos hc, loop_other noise k rest _ (hr k (Or.inl rfl)),
        loop_other noise (noiseKey k) rest _ (hr _ (Or.inr rfl))]
      constructor
      · rw [get_put, if_pos rfl]
      · rw [get_put, if_neg (component_ne_noiseKey hc k), get_put, if_pos rfl]
    · rw [noiseLoop]
      by_cases hc' : IsComponent k'
      · rw [if_pos hc']; exact loop_component noise k v hc rest _ hd.2 hm
      · rw [if_neg hc']; exact loop_component noise k v hc rest _ hd.2 hm

theorem dict_loop (noise : String → List ℝ → List ℝ) : ∀ (s out : Sig), Dict out → Dict (noiseLoop noise s out)
  | [], _, h => h
  | (k, v) :: rest, out, h => by
    rw [noiseLoop]
    by_cases hc : IsComponent k
    · rw [if_pos hc]; exact dict_loop noise rest _ (dict_put _ _ _ (dict_put _ _ _ h))
    · rw [if_neg hc]; exact dict_loop noise rest _ h

theorem noiseOf_length (amp : ℝ) (draw : String → ℕ → ℝ) (k : String) (v : List ℝ) :
    (noiseOf amp draw k v).length = v.length := by
  unfold noiseOf
  split_ifs <;> simp

/-- **C191**, one device: for every signal with time stamps, a noise device keeps the time stamps and the number of
samples, and every component `k` (every key that is neither the time nor a record of noise) leaves as its input
plus the noise recorded under its own key. The noise is the amplitude times the number drawn for the sample if the
amplitude is at least `1e-17` and zero otherwise. -/
theorem C191_record (amp : ℝ) (draw : String → ℕ → ℝ) (s : Sig) (hd : Dict s) (ts : List ℝ)
    (hts : s.get "ts" = some ts) :
    ∃ out, (Dev.noise amp draw).process s = .ok out ∧ Dict out ∧ out.get "ts" = some ts ∧
      ∀ k v, IsComponent k → s.get k = some v → ∃ r, out.get (noiseKey k) = some r ∧ r.length = v.length ∧
        out.get k = some (List.zipWith (· + ·) v r) ∧
        ∀ i < v.length, r.getD i 0 = open scoped Classical in if amp < 1e-17 then 0 else amp * draw k i := by
  refine ⟨noiseLoop (noiseOf amp draw) s [("ts", ts)], by simp [Dev.process, hts],
    dict_loop _ _ _ (by simp [Dict]), ?_, ?_⟩
  · rw [loop_other]
    · simp [Sig.get]
    · intro kv _ hc
      exact ⟨hc.1, fun h => ts_ne_noiseKey _ h.symm⟩
  · intro k v hc hv
    obtain ⟨h1, h2⟩ := loop_component (noiseOf amp draw) k v hc s [("ts", ts)] hd (mem_of_get _ _ _ hv)
    refine ⟨_, h2, noiseOf_length _ _ _ _, h1, ?_⟩
    intro i hi
    unfold noiseOf
    split_ifs with ha
    · rw [List.getD_eq_getElem _ _ (by simpa using hi)]; simp
    · rw [List.getD_eq_getElem _ _ (by simpa using hi)]; simp

/-- A device without noise. -/
def Dev.silent : Dev → Dev
  | .noise _ draw => .noise 0 draw
  | d => d

/-- The kinds of devices that add noise. -/
def Dev.IsNoise : Dev → Prop
  | .noise _ _ => True
  | _ => False

theorem process_dict (d : Dev) (s out : Sig) (hd : Dict s) (h : d.process s = .ok out) : Dict out := by
  cases d with
  | noise amp draw =>
    simp only [Dev.process] at h
    cases hts : s.get "ts" with
    | none => simp [hts] at h
    | some ts =>
      simp only [hts, Except.ok.injEq] at h
      rw [← h]
      exact dict_loop _ _ _ (by simp [Dict])
  | offset a =>
    simp only [Dev.process, Except.ok.injEq] at h
    rw [← h]
    unfold Dict dcOffset at *
    rw [List.map_map]
    exact hd
  | v2hz c =>
    simp only [Dev.process, voltsToHertz] at h
    cases hv : s.get "values" with
    | none => simp [hv] at h
    | some v =>
      cases hts : s.get "ts" with
      | none => simp [hv, hts] at h
      | some ts =>
        simp only [hv, hts, Option.bind_eq_bind, Option.bind_some, Option.pure_def, Except.ok.injEq] at h
        rw [← h]
        simp [Dict]
  | loNoise => simp [Dev.process] at h

theorem run_dict : ∀ (ds : List Dev) (s out : Sig), Dict s → run ds s = .ok out → Dict out
  | [], s, out, hd, h => by
    simp only [run, Except.ok.injEq] at h
    rw [← h]; exact hd
  | d :: ds, s, out, hd, h => by
    simp only [run] at h
    cases hp : d.process s with
    | error e => simp [hp] at h
    | ok t =>
      simp only [hp] at h
      exact run_dict ds t out (process_dict d s t hd hp) h

theorem run_append : ∀ (as bs : List Dev) (s : Sig),
    run (as ++ bs) s = match run as s with
      | .error e => .error e
      | .ok t => run bs t
  | [], bs, s => rfl
  | a :: as, bs, s => by
    simp only [List.cons_append, run]
    cases a.process s with
    | error e => rfl
    | ok t => exact run_append as bs t

theorem silent_eq (d : Dev) (h : ¬ d.IsNoise) : d.silent = d := by
  cases d <;> simp_all [Dev.silent, Dev.IsNoise]

/-- **C191**, what holds for a chain: if the only noise device is the last one, the noise recorded in the generated
signal is for every component the difference to the signal of the same chain without noise, and the time stamps
agree. Missing: chains with a device behind the noise or with several noise devices, see the negations. -/
theorem C191_chain_partial (pre : List Dev) (hpre : ∀ d ∈ pre, ¬ d.IsNoise) (amp : ℝ) (draw : String → ℕ → ℝ)
    (s out : Sig) (hd : Dict s) (h : run (pre ++ [Dev.noise amp draw]) s = .ok out) :
    ∃ clean, run ((pre ++ [Dev.noise amp draw]).map Dev.silent) s = .ok clean ∧ out.get "ts" = clean.get "ts" ∧
      ∀ k v, IsComponent k → clean.get k = some v →
        ∃ r, out.get (noiseKey k) = some r ∧ r.length = v.length ∧ out.get k = some (List.zipWith (· + ·) v r) := by
  have hmap : (pre ++ [Dev.noise amp draw]).map Dev.silent = pre ++ [Dev.noise 0 draw] := by
    rw [List.map_append]
    congr 1
    conv_rhs => rw [← List.map_id pre]
    exact List.map_congr_left fun d hdm => silent_eq d (hpre d hdm)
  rw [hmap]
  rw [run_append] at h ⊢
  cases hr : run pre s with
  | error e => simp [hr] at h
  | ok t =>
    simp only [hr] at h ⊢
    have hdt := run_dict pre s t hd hr
    cases hts : t.get "ts" with
    | none => simp [run, Dev.process, hts] at h
    | some ts =>
      obtain ⟨o1, p1, d1, t1, r1⟩ := C191_record amp draw t hdt ts hts
      obtain ⟨o2, p2, d2, t2, r2⟩ := C191_record 0 draw t hdt ts hts
      have : out = o1 := by simpa [run, p1] using h.symm
      subst this
      refine ⟨o2, by simp [run, p2], by rw [t1, t2], ?_⟩
      intro k v hc hv
      have hk : ∃ w, t.get k = some w := by
        cases htk : t.get k with
        | some w => exact ⟨w, rfl⟩
        | none =>
          exfalso
          have ho2 : o2 = noiseLoop (noiseOf 0 draw) t [("ts", ts)] := by
            simpa [Dev.process, hts] using p2.symm
          have : o2.get k = none := by
            rw [ho2, loop_other]
            · simp [Sig.get, hc.1.symm]
            · intro kv hkv hcc
              refine ⟨?_, fun hcc => component_ne_noiseKey hc _ hcc.symm⟩
              intro hcc
              rw [← hcc, get_of_mem t hdt kv.1 kv.2 hkv] at htk
              simp at htk
          rw [this] at hv
          simp at hv
      obtain ⟨w, hw⟩ := hk
      obtain ⟨a, a1, a2, a3, _⟩ := r1 k w hc hw
      obtain ⟨b, b1, b2, b3, b4⟩ := r2 k w hc hw
      have hvw : v = w := by
        rw [hv] at b3
        rw [Option.some.inj b3]
        apply List.ext_getElem
        · simp [b2]
        · intro i h1 h2
          have := b4 i h2
          rw [if_pos (by norm_num), List.getD_eq_getElem _ _ (by omega)] at this
          rw [List.getElem_zipWith, this, add_zero]
      rw [hvw]
      exact ⟨a, a1, a2, a3⟩

/-- C191: a noise device of amplitude below `1e-17`, also of negative amplitude, does not change any component. -/
theorem C191_silent (amp : ℝ) (ha : amp < 1e-17) (draw : String → ℕ → ℝ) (s : Sig) (hd : Dict s) (ts : List ℝ)
    (hts : s.get "ts" = some ts) (k : String) (v : List ℝ) (hc : IsComponent k) (hv : s.get k = some v) :
    ∃ out, (Dev.noise amp draw).process s = .ok out ∧ out.get k = some v := by
  obtain ⟨out, p, _, _, r⟩ := C191_record amp draw s hd ts hts
  obtain ⟨a, _, a2, a3, a4⟩ := r k v hc hv
  refine ⟨out, p, ?_⟩
  rw [a3]
  congr 1
  apply List.ext_getElem
  · simp [a2]
  · intro i h1 h2
    have := a4 i h2
    rw [if_pos ha, List.getD_eq_getElem _ _ (by omega)] at this
    rw [List.getElem_zipWith, this, add_zero]

/-- C191: `DC_Noise` shifts all samples of a component by the same number. -/
theorem C191_dc (amp : ℝ) (ha : 1e-17 ≤ amp) (z : String → ℝ) (s : Sig) (hd : Dict s) (ts : List ℝ)
    (hts : s.get "ts" = some ts) (k : String) (v : List ℝ) (hc : IsComponent k) (hv : s.get k = some v) :
    ∃ out, (Dev.noise amp (dcDraw z)).process s = .ok out ∧ out.get k = some (v.map (· + amp * z k)) := by
  obtain ⟨out, p, _, _, r⟩ := C191_record amp (dcDraw z) s hd ts hts
  obtain ⟨a, _, a2, a3, a4⟩ := r k v hc hv
  refine ⟨out, p, ?_⟩
  rw [a3]
  congr 1
  apply List.ext_getElem
  · simp [a2]
  · intro i h1 h2
    have hi : i < v.length := by simpa using h2
    have := a4 i hi
    rw [if_neg (not_lt.2 ha), List.getD_eq_getElem _ _ (by omega)] at this
    rw [List.getElem_zipWith, this, List.getElem_map]
    rfl

theorem isComponent_values : IsComponent "values" := by decide

theorem noiseKey_values : noiseKey "values" = "noise" := by simp [noiseKey]

/-- **C191 is false** for two noise devices: the second forgets the record of the first. Whenever both add something
to the first sample, the recorded noise is not the difference to the signal without noise. -/
theorem C191_false_two (a b : ℝ) (ha : 1e-17 ≤ a) (da db : String → ℕ → ℝ)
    (hz : da "values" 0 ≠ 0) (x : ℝ) (v ts : List ℝ) :
    ∃ out r w, run [.noise a da, .noise b db] [("values", x :: v), ("ts", ts)] = .ok out ∧
      out.get "noise" = some r ∧ out.get "values" = some w ∧ r.getD 0 0 ≠ w.getD 0 0 - x := by
  obtain ⟨o1, p1, d1, t1, r1⟩ := C191_record a da [("values", x :: v), ("ts", ts)] (by simp [Dict]) ts (by simp [Sig.get])
  obtain ⟨u, u1, u2, u3, u4⟩ := r1 "values" (x :: v) isComponent_values (by simp [Sig.get])
  obtain ⟨o2, p2, d2, t2, r2⟩ := C191_record b db o1 d1 ts t1
  obtain ⟨q, q1, q2, q3, q4⟩ := r2 "values" _ isComponent_values u3
  refine ⟨o2, q, _, by simp only [run, p1, p2], by rw [← noiseKey_values]; exact q1, q3, ?_⟩
  have hu := u4 0 (by simp)
  rw [if_neg (not_lt.2 ha)] at hu
  cases u with
  | nil => simp at u2
  | cons u0 us =>
    cases q with
    | nil => simp at q2
    | cons q0 qs =>
      simp only [List.getD_cons_zero, List.zipWith_cons_cons] at hu ⊢
      intro hc
      have : u0 = 0 := by linarith
      rw [this] at hu
      have ha0 : a ≠ 0 := by intro h0; rw [h0] at ha; norm_num at ha
      exact (mul_ne_zero ha0 hz) hu.symm

/-- **C191 is false** for an offset behind the noise: the record of the noise is shifted like the signal. -/
theorem C191_false_offset (a : ℝ) (d : String → ℕ → ℝ) (o : ℝ) (ho : o ≠ 0) (x : ℝ) (v ts : List ℝ) :
    ∃ out r w clean cw, run [.noise a d, .offset o] [("values", x :: v), ("ts", ts)] = .ok out ∧
      run [.noise 0 d, .offset o] [("values", x :: v), ("ts", ts)] = .ok clean ∧
      out.get "noise" = some r ∧ out.get "values" = some w ∧ clean.get "values" = some cw ∧
      r.getD 0 0 = w.getD 0 0 - cw.getD 0 0 + o ∧ r.getD 0 0 ≠ w.getD 0 0 - cw.getD 0 0 := by
  obtain ⟨o1, p1, d1, t1, r1⟩ := C191_record a d [("values", x :: v), ("ts", ts)] (by simp [Dict]) ts (by simp [Sig.get])
  obtain ⟨u, u1, u2, u3, u4⟩ := r1 "values" (x :: v) isComponent_values (by simp [Sig.get])
  obtain ⟨o2, p2, d2, t2, r2⟩ := C191_record 0 d [("values", x :: v), ("ts", ts)] (by simp [Dict]) ts (by simp [Sig.get])
  obtain ⟨q, q1, q2, q3, q4⟩ := r2 "values" (x :: v) isComponent_values (by simp [Sig.get])
  rw [noiseKey_values] at u1
  refine ⟨dcOffset o o1, u.map (· + o), _, dcOffset o o2, _, by simp only [run, p1]; rfl,
    by simp only [run, p2]; rfl, by rw [C52_offset_partial, u1]; rfl,
    by rw [C52_offset_partial, u3]; rfl, by rw [C52_offset_partial, q3]; rfl, ?_⟩
  have hq := q4 0 (by simp)
  rw [if_pos (by norm_num)] at hq
  cases u with
  | nil => simp at u2
  | cons u0 us =>
    cases q with
    | nil => simp at q2
    | cons q0 qs =>
      simp only [List.getD_cons_zero, List.zipWith_cons_cons, List.map_cons] at hq ⊢
      rw [hq]
      refine ⟨by ring, fun hc => ho (by linarith)⟩

/-- **C191 is false** for a conversion behind the noise: the generated signal has no record of the noise at all. -/
theorem C191_false_converted (a c : ℝ) (d : String → ℕ → ℝ) (x : ℝ) (v ts : List ℝ) :
    ∃ out, run [.noise a d, .v2hz c] [("values", x :: v), ("ts", ts)] = .ok out ∧ out.get "noise" = none ∧
      ∃ w, out.get "values" = some w ∧
        w.getD 0 0 = c * (x + open scoped Classical in if a < 1e-17 then 0 else a * d "values" 0) := by
  obtain ⟨o1, p1, d1, t1, r1⟩ := C191_record a d [("values", x :: v), ("ts", ts)] (by simp [Dict]) ts (by simp [Sig.get])
  obtain ⟨u, u1, u2, u3, u4⟩ := r1 "values" (x :: v) isComponent_values (by simp [Sig.get])
  refine ⟨[("values", (List.zipWith (· + ·) (x :: v) u).map (· * c)), ("ts", ts)],
    by simp only [run, p1]; simp only [Dev.process, C52_volts_to_hertz c o1 _ _ u3 t1], by simp [Sig.get],
    (List.zipWith (· + ·) (x :: v) u).map (· * c), by simp [Sig.get], ?_⟩
  have hu := u4 0 (by simp)
  cases u with
  | nil => simp at u2
  | cons u0 us =>
    simp only [List.getD_cons_zero, List.zipWith_cons_cons, List.map_cons] at hu ⊢
    rw [hu]
    ring

/-- **C191 is false** for `LONoise`: no chain with such a device generates a signal. -/
theorem C191_false_lo_noise (pre post : List Dev) (s out : Sig) :
    run (pre ++ .loNoise :: post) s ≠ .ok out := by
  rw [run_append]
  cases run pre s <;> simp [run, Dev.process]

/-- A chain for which `C191_chain_partial` applies. -/
example : ∃ out, run ([.v2hz 2, .offset 1] ++ [.noise 1 fun _ i => i]) [("values", [3, 4]), ("ts", [0, 1])] = .ok out ∧
    out.get "values" = some [7, 10] ∧ out.get "noise" = some [0, 1] := by
  refine ⟨noiseLoop (noiseOf 1 fun _ i => i) [("values", [7, 9]), ("ts", [1, 2])] [("ts", [1, 2])], ?_, ?_, ?_⟩
  · have h1 := C52_volts_to_hertz 2 [("values", [3, 4]), ("ts", [0, 1])] [3, 4] [0, 1] (by simp [Sig.get])
      (by simp [Sig.get])
    simp only [List.cons_append, List.nil_append, run, Dev.process, h1, dcOffset]
    norm_num [Sig.get]
    rfl
  · rw [(loop_component _ "values" [7, 9] isComponent_values _ _ (by simp [Dict]) (by simp)).1]
    norm_num [noiseOf, List.range_succ]
  · rw [← noiseKey_values, (loop_component _ "values" [7, 9] isComponent_values _ _ (by simp [Dict]) (by simp)).2]
    norm_num [noiseOf, List.range_succ]

/-! ## C192: linear flux tuning -/

/-- The parameters of a `FluxTuningLinear` device, each may be missing. -/
structure Tuning where
  /-- `phi_0` -/
  phi0 : Option ℝ
  /-- `Phi` -/
  Phi : Option ℝ
  /-- `omega_0` -/
  omega0 : Option ℝ
  /-- `phi`, not documented -/
  phi : Option ℝ
  /-- `d`, not documented -/
  d : Option ℝ

/-- devices.py:543-550: the constructor accepts the parameters. -/
def Tuning.accepted (p : Tuning) : Prop := p.phi0.isSome ∧ p.Phi.isSome ∧ p.omega0.isSome

/-- devices.py:566-580 `FluxTuningLinear.frequency`. -/
def Tuning.frequency (p : Tuning) (signal : ℝ) : Except Err ℝ :=
  match p.phi with
  | none => .error .keyError
  | some phi =>
    match p.omega0 with
    | none => .error .keyError
    | some omega0 =>
      let minFreq := match p.d with
        | some d => omega0 * Real.sqrt (Real.sqrt
            (Real.cos (Real.pi * 0.5) ^ 2 + d ^ 2 * Real.sin (Real.pi * 0.5) ^ 2))
        | none => 0
      .ok (2 * (signal - phi) * (minFreq - omega0))

/-- C192: each of the three documented parameters is asked for. -/
theorem C192_required (p : Tuning) : p.accepted ↔
    ∃ phi0 Phi omega0, p.phi0 = some phi0 ∧ p.Phi = some Phi ∧ p.omega0 = some omega0 := by
  unfold Tuning.accepted
  simp only [Option.isSome_iff_exists]
  exact ⟨fun ⟨⟨a, ha⟩, ⟨b, hb⟩, c, hc⟩ => ⟨a, b, c, ha, hb, hc⟩, fun ⟨a, b, c, ha, hb, hc⟩ => ⟨⟨a, ha⟩, ⟨b, hb⟩, c, hc⟩⟩

/-- The ratio of the lowest and the highest frequency of a SQUID with asymmetry `d`; no asymmetry is zero. -/
def lowest (d : Option ℝ) : ℝ := Real.sqrt |d.getD 0|

/-- **C192 is false** for the documented parameters: the constructor asks for `phi_0`, `Phi` and `omega_0`, but with
these alone no frequency can be computed, because the flux is looked up as `phi`. -/
theorem C192_false_documented (phi0 Phi omega0 : ℝ) (d : Option ℝ) (signal : ℝ) :
    Tuning.accepted ⟨some phi0, some Phi, some omega0, none, d⟩ ∧
      Tuning.frequency ⟨some phi0, some Phi, some omega0, none, d⟩ signal = .error .keyError := by
  simp [Tuning.accepted, Tuning.frequency]

/-- **C192**, what holds: with an additional parameter `phi` the result is linear in the signal, falls from the full
range `ω0 (1 - √|d|)` of the SQUID half a flux quantum below `phi` to zero at `phi`. Missing: the offset that would
make it a frequency, see the negations. -/
theorem C192_linear_partial (phi0 Phi : Option ℝ) (omega0 phi : ℝ) (d : Option ℝ) (signal : ℝ) :
    Tuning.frequency ⟨phi0, Phi, some omega0, some phi, d⟩ signal =
      .ok (2 * (phi - signal) * (omega0 - omega0 * lowest d)) := by
  have hc : Real.cos (Real.pi * 0.5) = 0 := by
    rw [show Real.pi * 0.5 = Real.pi / 2 by ring, Real.cos_pi_div_two]
  have hs : Real.sin (Real.pi * 0.5) = 1 := by
    rw [show Real.pi * 0.5 = Real.pi / 2 by ring, Real.sin_pi_div_two]
  cases d with
  | none => simp only [Tuning.frequency, lowest, Option.getD_none, abs_zero, Real.sqrt_zero]; congr 1; ring
  | some d =>
    simp only [Tuning.frequency, lowest, Option.getD_some, hc, hs]
    rw [show (0 : ℝ) ^ 2 + d ^ 2 * 1 ^ 2 = d ^ 2 by ring, Real.sqrt_sq_eq_abs]
    congr 1
    ring

/-- **C192 is false**: for every SQUID that can be tuned at all (`|d| < 1`, `ω0 > 0`) the frequency at `phi` is zero,
not the maximum `ω0`, and it leaves the range between zero and the maximum on both sides. -/
theorem C192_false_range (phi0 Phi : Option ℝ) (omega0 phi : ℝ) (d : Option ℝ) (h0 : 0 < omega0)
    (hd : |d.getD 0| < 1) :
    Tuning.frequency ⟨phi0, Phi, some omega0, some phi, d⟩ phi = .ok 0 ∧
      (∀ s > phi, ∃ f, Tuning.frequency ⟨phi0, Phi, some omega0, some phi, d⟩ s = .ok f ∧ f < 0) ∧
      ∃ s < phi, ∃ f, Tuning.frequency ⟨phi0, Phi, some omega0, some phi, d⟩ s = .ok f ∧ omega0 < f := by
  have hl : lowest d < 1 := by
    unfold lowest
    rw [Real.sqrt_lt' one_pos]
    linarith
  have hr : 0 < omega0 - omega0 * lowest d := by nlinarith
  refine ⟨by rw [C192_linear_partial]; simp, fun s hs => ⟨_, C192_linear_partial _ _ _ _ _ _, by nlinarith⟩, ?_⟩
  refine ⟨phi - omega0 / (omega0 - omega0 * lowest d), ?_, _, C192_linear_partial _ _ _ _ _ _, ?_⟩
  · have := div_pos h0 hr
    linarith
  · rw [show 2 * (phi - (phi - omega0 / (omega0 - omega0 * lowest d))) * (omega0 - omega0 * lowest d) =
      2 * (omega0 / (omega0 - omega0 * lowest d) * (omega0 - omega0 * lowest d)) by ring,
      div_mul_cancel₀ _ (ne_of_gt hr)]
    linarith

/-- **C192 is false** for the flux bias: neither `phi_0` nor `Phi` has any effect. -/
theorem C192_false_bias (p : Tuning) (a b : Option ℝ) (signal : ℝ) :
    ({ p with phi0 := a, Phi := b } : Tuning).frequency signal = p.frequency signal := rfl

/-- A device as it would have to be set up. -/
example : Tuning.frequency ⟨some 1, some 0, some 5, some 0, none⟩ (-1 / 2) = .ok 5 := by
  rw [C192_linear_partial]
  norm_num [lowest]

/-! ## C193: the deprecated response filter -/

/-- devices.py:618-626, the unnormalised response of `Response`; `n` is the number of samples. -/
def riseFunOld (rise res : ℝ) (n : ℕ) : List ℝ :=
  let cen := (rise + 1 / res) / 2
  let sigma := rise / 4
  (List.range n).map fun k : ℕ =>
    Real.exp (-(((0 : ℝ) + rise / ((n - 1 : ℕ) : ℝ) * (k : ℝ) - cen) ^ 2) / (2 * sigma * sigma)) -
      Real.exp (-((-1 - cen) ^ 2) / (2 * sigma * sigma))

/-- devices.py:611: the number of samples of the response. -/
def riseSamples (rise res : ℝ) : ℕ := ⌊rise * res⌋₊

/-- One component of `Response.process` (devices.py:627-635). -/
def respond (rise res : ℝ) (sig : List ℝ) : List ℝ :=
  (tfConvolveLegacy (sig.map Complex.ofReal)
    ((normalised (riseFunOld rise res (riseSamples rise res))).map Complex.ofReal)).map Complex.re

/-- devices.py:599-641 `Response.process`; `none` is an exception of `linspace` or a missing key. -/
def response (rise res tStart tEnd : ℝ) (s : Sig) : Option Sig := do
  let _ ← tfLinspace 0 rise (riseSamples rise res)
  let i ← s.get "inphase"
  let q ← s.get "quadrature"
  let ts ← createTs res tStart tEnd true
  pure [("inphase", respond rise res i), ("quadrature", respond rise res q), ("ts", ts)]

/-- One component of `ResponseFFT.process` (devices.py:689-694), as in C94. -/
def respondFft (rise res : ℝ) (sig : List ℝ) : List ℝ :=
  (tfConvolve (sig.map Complex.ofReal)
    ((normalised (riseFun rise res (riseSamples rise res))).map Complex.ofReal)).map Complex.re

theorem riseFunOld_length (rise res : ℝ) (n : ℕ) : (riseFunOld rise res n).length = n := by
  simp [riseFunOld]

theorem riseFunOld_nonneg (rise res : ℝ) (n : ℕ) (hr : 0 < rise) (hres : 0 < res) :
    ∀ r ∈ riseFunOld rise res n, 0 ≤ r := by
  intro r hmem
  simp only [riseFunOld, List.mem_map, List.mem_range] at hmem
  obtain ⟨k, hk, rfl⟩ := hmem
  rw [sub_nonneg, Real.exp_le_exp]
  have hs : 0 < 2 * (rise / 4) * (rise / 4) := by positivity
  apply div_le_div_of_nonneg_right _ hs.le
  rw [neg_le_neg_iff]
  have hinv0 : 0 < 1 / res := by positivity
  have ht0 : 0 ≤ rise / ((n - 1 : ℕ) : ℝ) * (k : ℝ) := by positivity
  have ht1 : rise / ((n - 1 : ℕ) : ℝ) * (k : ℝ) ≤ rise := by
    rcases Nat.eq_zero_or_pos (n - 1) with h0 | h0
    · rw [h0]; simp; exact hr.le
    · have : (0 : ℝ) < ((n - 1 : ℕ) : ℝ) := by exact_mod_cast h0
      rw [div_mul_eq_mul_div, div_le_iff₀ this]
      have hk' : (k : ℝ) ≤ ((n - 1 : ℕ) : ℝ) := by exact_mod_cast (by omega)
      nlinarith
  set t := rise / ((n - 1 : ℕ) : ℝ) * (k : ℝ) with htdef
  have e1 : 0 ≤ (1 + (rise + 1 / res) / 2) - (0 + t - (rise + 1 / res) / 2) := by linarith
  have e2 : 0 ≤ (1 + (rise + 1 / res) / 2) + (0 + t - (rise + 1 / res) / 2) := by linarith
  nlinarith [mul_nonneg e1 e2]

/-- The first sample of the response is positive. -/
theorem riseFunOld_pos (rise res : ℝ) (n : ℕ) (hr : 0 < rise) (hres : 0 < res) (hn : 0 < n) :
    0 < (riseFunOld rise res n).sum := by
  have hmem : Real.exp (-(((0 : ℝ) + rise / ((n - 1 : ℕ) : ℝ) * ((0 : ℕ) : ℝ) - (rise + 1 / res) / 2) ^ 2) /
      (2 * (rise / 4) * (rise / 4))) - Real.exp (-((-1 - (rise + 1 / res) / 2) ^ 2) / (2 * (rise / 4) * (rise / 4)))
      ∈ riseFunOld rise res n := by
    simp only [riseFunOld, List.mem_map, List.mem_range]
    exact ⟨0, hn, rfl⟩
  refine lt_of_lt_of_le ?_ (List.single_le_sum (riseFunOld_nonneg rise res n hr hres) _ hmem)
  rw [sub_pos, Real.exp_lt_exp]
  have hs : 0 < 2 * (rise / 4) * (rise / 4) := by positivity
  apply div_lt_div_of_pos_right _ hs
  have hinv0 : 0 < 1 / res := by positivity
  simp only [Nat.cast_zero, mul_zero]
  nlinarith

theorem riseSamples_pos (rise res : ℝ) (h : 1 ≤ rise * res) : 0 < riseSamples rise res :=
  Nat.floor_pos.2 h

/-- **C193**: for every rise time of at least one sample the filter returns for every sample of the input the
causal convolution with the normalised response, delayed by one sample. -/
theorem C193_convolution (rise res : ℝ) (h : 1 ≤ rise * res) (sig : List ℝ) :
    respond rise res sig = (List.range sig.length).map fun m =>
      if m = 0 then 0 else linConv sig (normalised (riseFunOld rise res (riseSamples rise res))) (m - 1) := by
  unfold respond
  rw [C51_legacy_delayed]
  · rw [List.map_map, List.length_map]
    apply List.map_congr_left
    intro m _
    simp only [Function.comp]
    split_ifs
    · simp
    · rw [linConv_ofReal, Complex.ofReal_re]
  · intro hc
    have := congrArg List.length hc
    simp only [List.length_map, normalised, riseFunOld_length, List.length_nil] at this
    exact absurd this (ne_of_gt (riseSamples_pos rise res h))

/-- C193: the filter never amplifies. -/
theorem C193_no_overshoot (rise res : ℝ) (hr : 0 < rise) (hres : 0 < res) (h : 1 ≤ rise * res) (sig : List ℝ) (c : ℝ)
    (hc : ∀ x ∈ sig, |x| ≤ c) (hc0 : 0 ≤ c) : ∀ y ∈ respond rise res sig, |y| ≤ c := by
  rw [C193_convolution rise res h]
  intro y hy
  obtain ⟨m, -, rfl⟩ := List.mem_map.1 hy
  split_ifs
  · simpa using hc0
  · have hpos := riseFunOld_nonneg rise res (riseSamples rise res) hr hres
    apply linConv_abs_le _ _ c hc hc0 _
      (normalised_sum _ (ne_of_gt (riseFunOld_pos rise res _ hr hres (riseSamples_pos rise res h))))
    intro r hr'
    obtain ⟨q, hq, rfl⟩ := List.mem_map.1 hr'
    exact div_nonneg (hpos q hq) (List.sum_nonneg hpos)

/-- C193: unit gain. A constant signal is reproduced once the filter is filled. -/
theorem C193_unit_gain (rise res : ℝ) (hr : 0 < rise) (hres : 0 < res) (h : 1 ≤ rise * res) (c : ℝ) (N m : ℕ)
    (hm : m < N) (hfull : riseSamples rise res ≤ m) : (respond rise res (List.replicate N c))[m]? = some c := by
  have hn := riseSamples_pos rise res h
  have hg := C94_unit_gain c N (riseFunOld rise res (riseSamples rise res))
    (ne_of_gt (riseFunOld_pos rise res _ hr hres hn)) (m - 1) (by omega) (by rw [riseFunOld_length]; omega)
  rw [C51_real_part, List.getElem?_map, List.length_replicate, List.getElem?_range (by omega)] at hg
  rw [C193_convolution rise res h, List.getElem?_map, List.length_replicate, List.getElem?_range hm]
  simp only [Option.map_some, Option.some.injEq] at hg ⊢
  rw [if_neg (by omega)]
  exact hg

/-- **C193**, the time stamps, what holds: if the samples of the input belong to the resolution of the filter, every
sample has its time stamp. Missing: other resolutions, see the negation. -/
theorem C193_time_partial (rise res tStart tEnd : ℝ) (s out : Sig) (i q : List ℝ) (hi : s.get "inphase" = some i)
    (hq : s.get "quadrature" = some q) (h : 1 ≤ rise * res) (hl : i.length = sliceNum res tStart tEnd)
    (hlq : q.length = sliceNum res tStart tEnd) (ho : response rise res tStart tEnd s = some out) :
    ∃ i' q' ts, out.get "inphase" = some i' ∧ out.get "quadrature" = some q' ∧ out.get "ts" = some ts ∧
      i'.length = ts.length ∧ q'.length = ts.length ∧ createTs res tStart tEnd true = some ts := by
  have hn := riseSamples_pos rise res h
  have hlin : tfLinspace 0 rise (riseSamples rise res) ≠ none := by
    unfold tfLinspace
    rw [if_neg (ne_of_gt hn)]
    simp
  obtain ⟨l, hl0⟩ := Option.ne_none_iff_exists'.1 hlin
  cases hts : createTs res tStart tEnd true with
  | none => simp [response, hl0, hi, hq, hts] at ho
  | some ts =>
    simp only [response, hl0, hi, hq, hts, Option.bind_eq_bind, Option.bind_some, Option.pure_def,
      Option.some.injEq] at ho
    have hlen : ts.length = sliceNum res tStart tEnd := by
      simp only [createTs, tfLinspace, if_true] at hts
      split_ifs at hts with h0
      rw [← Option.some.inj hts]
      simp
    have hr : ∀ x, (respond rise res x).length = x.length := by
      intro x
      rw [C193_convolution rise res h]
      simp
    refine ⟨respond rise res i, respond rise res q, ts, by rw [← ho]; simp [Sig.get], by rw [← ho]; simp [Sig.get],
      by rw [← ho]; simp [Sig.get], by rw [hr, hl, hlen], by rw [hr, hlq, hlen], rfl⟩

/-- **C193 is false** for other resolutions: the time stamps are those of the filter's own resolution, the samples
those of the input. Behind a source of twice the resolution there are two samples for every time stamp. -/
theorem C193_false_resolution (rise tStart : ℝ) (hrise : 1 ≤ rise * 1) (n : ℕ) (hn : 0 < n) (s : Sig) (i q : List ℝ)
    (hi : s.get "inphase" = some i) (hq : s.get "quadrature" = some q)
    (hl : i.length = sliceNum 2 tStart (tStart + n)) :
    ∃ out i' ts, response rise 1 tStart (tStart + n) s = some out ∧ out.get "inphase" = some i' ∧
      out.get "ts" = some ts ∧ i'.length = 2 * ts.length ∧ i'.length ≠ ts.length := by
  have hpos := riseSamples_pos rise 1 hrise
  have hlin : tfLinspace 0 rise (riseSamples rise 1) ≠ none := by
    unfold tfLinspace
    rw [if_neg (ne_of_gt hpos)]
    simp
  obtain ⟨l, hl0⟩ := Option.ne_none_iff_exists'.1 hlin
  have h1 : sliceNum 1 tStart (tStart + n) = n := by
    unfold sliceNum
    rw [show tStart - (tStart + n) = -(n : ℝ) by ring, abs_neg, abs_of_nonneg (by positivity), mul_one,
      Nat.floor_natCast]
  have h2 : sliceNum 2 tStart (tStart + n) = 2 * n := by
    unfold sliceNum
    rw [show tStart - (tStart + n) = -(n : ℝ) by ring, abs_neg, abs_of_nonneg (by positivity),
      show (n : ℝ) * 2 = ((2 * n : ℕ) : ℝ) by push_cast; ring, Nat.floor_natCast]
  have hts : ∃ ts, createTs 1 tStart (tStart + n) true = some ts ∧ ts.length = n := by
    simp only [createTs, tfLinspace, if_true, h1]
    rw [if_neg (ne_of_gt hn)]
    exact ⟨_, rfl, by simp⟩
  obtain ⟨ts, hts, hlen⟩ := hts
  have hr : (respond rise 1 i).length = i.length := by
    rw [C193_convolution rise 1 hrise]
    simp
  refine ⟨[("inphase", respond rise 1 i), ("quadrature", respond rise 1 q), ("ts", ts)], respond rise 1 i, ts,
    by simp [response, hl0, hi, hq, hts], by simp [Sig.get], by simp [Sig.get], by rw [hr, hl, h2, hlen], ?_⟩
  rw [hr, hl, h2, hlen]
  omega

/-- C193: a rise time shorter than one sample cannot be used, the computation of the response raises. -/
theorem C193_too_short (rise res tStart tEnd : ℝ) (h : rise * res < 1) (s : Sig) :
    response rise res tStart tEnd s = none := by
  have : riseSamples rise res = 0 := Nat.floor_eq_zero.2 h
  simp [response, tfLinspace, this]

/-- **C193 is false** as a replacement for `ResponseFFT` (and the other way round): the deprecated filter always
starts with zero, the new one passes on a part of the first sample. -/
theorem C193_false_same (rise res : ℝ) (hr : 0 < rise) (hres : 1 ≤ res) (h : 1 ≤ rise * res) (x : ℝ) (hx : x ≠ 0)
    (sig : List ℝ) (h0 : 0 < (riseFun rise res (riseSamples rise res)).getD 0 0) :
    respond rise res (x :: sig) ≠ respondFft rise res (x :: sig) := by
  intro hc
  have h1 := congrArg (fun l : List ℝ => l.getD 0 0) hc
  simp only [C193_convolution rise res h] at h1
  unfold respondFft at h1
  rw [C51_real_part] at h1
  simp only [List.length_cons, List.range_succ_eq_map, List.map_cons, List.getD_cons_zero, if_true] at h1
  unfold linConv at h1
  simp only [zero_add, Finset.sum_range_one, Nat.sub_self] at h1
  have hn : at0 (normalised (riseFun rise res (riseSamples rise res))) 0 ≠ 0 := by
    unfold at0 normalised
    cases hl : riseFun rise res (riseSamples rise res) with
    | nil => rw [hl] at h0; simp at h0
    | cons a l =>
      have hpos := riseFun_nonneg rise res (riseSamples rise res) hr hres
      rw [hl] at h0 hpos
      simp only [List.getD_cons_zero] at h0
      simp only [List.map_cons, List.getD_cons_zero]
      have hs : 0 < (a :: l).sum := lt_of_lt_of_le h0 (List.single_le_sum hpos a (by simp))
      exact ne_of_gt (div_pos h0 hs)
  exact mul_ne_zero hx hn h1.symm

/-- The hypotheses of C193 hold for a rise time of two samples. -/
example : 1 ≤ (2 : ℝ) * 1 ∧ riseSamples 2 1 = 2 := by
  constructor
  · norm_num
  · unfold riseSamples
    rw [show (2 : ℝ) * 1 = ((2 : ℕ) : ℝ) by norm_num, Nat.floor_natCast]

end

end C3.Devices.Noise
