import Verif.Config.Dict
import Mathlib.Data.List.Nodup
import Mathlib.Tactic.Linarith

/-!
# Identifiers of parameters (C134, C135)

Model of `ParameterMap.__init__` and `__initialize_parameters` (c3/parametermap.py:24-68),
`Instruction.get_optimizable_parameters` (c3/signal/gates.py:259-280), `get_parameter`
(c3/parametermap.py:225-244) and `get_not_opt_params` (c3/parametermap.py:179-185). Quantities are object
numbers.
-/

namespace C3.Ids

open C3.Config

/-! ## Model -/

/-- A subsystem, coupling, task or device with its parameters. -/
structure Component where
  name : String
  params : List (String × ℕ)

/-- A component of a gate with its parameters and the options that are quantities. -/
structure GateComp where
  name : String
  params : List (String × ℕ)
  options : List (String × ℕ)

structure Gate where
  key : String
  chans : List (String × List GateComp)

/-- c3/parametermap.py:36-42: the dictionaries of the model and of the generator are merged, keyed by
name. -/
def merge (couplings subsystems tasks devices : List Component) : List (String × Component) :=
  dupdate (dupdate (dupdate (dupdate [] (couplings.map fun c => (c.name, c)))
    (subsystems.map fun c => (c.name, c))) (tasks.map fun c => (c.name, c))) (devices.map fun c => (c.name, c))

/-- c3/parametermap.py:51-56, the identifiers of the components before joining. -/
def compIds (cs : List (String × Component)) : List (List String × ℕ) :=
  cs.flatMap fun kc => kc.2.params.map fun p => ([kc.2.name, p.1], p.2)

/-- c3/signal/gates.py:259-280 `get_optimizable_parameters`. -/
def gateIds (g : Gate) : List (List String × ℕ) :=
  g.chans.flatMap fun ch => ch.2.flatMap fun c =>
    (c.params.map fun p => ([g.key, ch.1, c.name, p.1], p.2)) ++
      c.options.map fun p => ([g.key, ch.1, c.name, p.1], p.2)

/-- c3/parametermap.py:49-68 `self._pars`. -/
def pars (cs : List (String × Component)) (gates : List Gate) : List (String × ℕ) :=
  dupdate [] ((compIds cs ++ gates.flatMap gateIds).map fun i => ("-".intercalate i.1, i.2))

/-- c3/parametermap.py:56, 68 `self._par_ids_model`. -/
def modelIds (cs : List (String × Component)) : List String :=
  (compIds cs).map fun i => "-".intercalate i.1

/-- c3/parametermap.py:225-244 `get_parameter`. -/
def getParameter (ps : List (String × ℕ)) (id : List String) : Option ℕ := dget ps ("-".intercalate id)

/-- c3/parametermap.py:179-185 `get_not_opt_params`: `del` of a missing key is a `KeyError`. -/
def notOpt (ps : List (String × ℕ)) : List String → Except String (List (String × ℕ))
  | [] => .ok ps
  | k :: ks => if (dget ps k).isSome then notOpt (ps.filter fun p => p.1 ≠ k) ks else .error k

/-! ## Specification -/

/-- A name without the separator. -/
def Plain (s : String) : Prop := '-' ∉ s.toList

/-- What dictionaries guarantee for the gates: distinct keys at every level, and options that do not
share a name with a parameter. -/
structure GatesOK (gates : List Gate) : Prop where
  keys : (gates.map Gate.key).Nodup
  chans : ∀ g ∈ gates, (g.chans.map Prod.fst).Nodup
  comps : ∀ g ∈ gates, ∀ ch ∈ g.chans, (ch.2.map GateComp.name).Nodup
  pars : ∀ g ∈ gates, ∀ ch ∈ g.chans, ∀ c ∈ ch.2, ((c.params ++ c.options).map Prod.fst).Nodup

/-- No name contains the separator. -/
structure GatesPlain (gates : List Gate) : Prop where
  key : ∀ g ∈ gates, Plain g.key
  chan : ∀ g ∈ gates, ∀ ch ∈ g.chans, Plain ch.1
  comp : ∀ g ∈ gates, ∀ ch ∈ g.chans, ∀ c ∈ ch.2, Plain c.name
  par : ∀ g ∈ gates, ∀ ch ∈ g.chans, ∀ c ∈ ch.2, ∀ p ∈ c.params ++ c.options, Plain p.1

/-! ## Lemmas -/

/-- Joining with "-" is injective on names without "-". -/
theorem join_inj {a b : List String} (ha : a ≠ []) (hb : b ≠ []) (pa : ∀ s ∈ a, Plain s) (pb : ∀ s ∈ b, Plain s)
    (h : "-".intercalate a = "-".intercalate b) : a = b := by
  have h1 : ("-".intercalate a).toList = ("-".intercalate b).toList := by rw [h]
  rw [String.toList_intercalate, String.toList_intercalate] at h1
  have hd : "-".toList = ['-'] := rfl
  rw [hd] at h1
  have e : ∀ l : List String, l ≠ [] → (∀ s ∈ l, Plain s) →
      (['-'].intercalate (l.map String.toList)).splitOn '-' = l.map String.toList := by
    intro l hl hp
    apply List.splitOn_intercalate
    · intro x hx
      obtain ⟨s, hs, rfl⟩ := List.mem_map.1 hx
      exact hp s hs
    · simpa using hl
  have h2 := e a ha pa
  rw [h1, e b hb pb] at h2
  exact (List.map_injective_iff.2 (fun _ _ h => String.toList_injective h) h2).symm

theorem foldl_dset_keyed {V : Type} (l : List V) (f : V → String) (d : List (String × V))
    (h : ((d.map Prod.fst) ++ l.map f).Nodup) :
    dupdate d (l.map fun v => (f v, v)) = d ++ l.map fun v => (f v, v) := by
  induction l generalizing d with
  | nil => simp [dupdate]
  | cons v l ih =>
    have hn : f v ∉ d.map Prod.fst := by
      intro hm
      rw [List.nodup_append] at h
      exact h.2.2 _ hm _ (by simp) rfl
    have hset : ∀ (d : List (String × V)), f v ∉ d.map Prod.fst → dset d (f v) v = d ++ [(f v, v)] := by
      intro d
      induction d with
      | nil => intro _; rfl
      | cons p d ih =>
        intro hp
        obtain ⟨k, w⟩ := p
        simp only [List.map_cons, List.mem_cons, not_or] at hp
        simp [dset, Ne.symm hp.1, ih hp.2]
    have := ih (d ++ [(f v, v)]) (by simpa [List.append_assoc] using h)
    simp only [dupdate, List.map_cons, List.foldl_cons] at this ⊢
    rw [hset d hn, this]
    simp

/-- With distinct names nothing is lost in merging. -/
theorem merge_eq (c s t d : List Component) (h : ((c ++ s ++ t ++ d).map Component.name).Nodup) :
    merge c s t d = (c ++ s ++ t ++ d).map fun x => (x.name, x) := by
  have hsub : ∀ l : List Component, l.Sublist (c ++ s ++ t ++ d) → (l.map Component.name).Nodup :=
    fun l hl => h.sublist (hl.map _)
  have hcomp : (fun x : Component => x.name) = Component.name := rfl
  unfold merge
  rw [foldl_dset_keyed c Component.name [] (by simpa using hsub c (by simp [List.append_assoc])),
    foldl_dset_keyed s Component.name, foldl_dset_keyed t Component.name, foldl_dset_keyed d Component.name]
  · simp
  · simpa [List.map_map, Function.comp_def] using h
  · have := hsub (c ++ s ++ t) (by simp)
    simpa [List.map_map, Function.comp_def] using this
  · have := hsub (c ++ s) (by simp [List.append_assoc])
    simpa [List.map_map, Function.comp_def] using this

/-- The tuples of a gate are distinct. -/
theorem gateIds_nodup (gates : List Gate) (h : GatesOK gates) :
    ((gates.flatMap gateIds).map Prod.fst).Nodup := by
  rw [List.map_flatMap, List.nodup_flatMap]
  constructor
  · intro g hg
    unfold gateIds
    rw [List.map_flatMap, List.nodup_flatMap]
    constructor
    · intro ch hch
      rw [List.map_flatMap, List.nodup_flatMap]
      constructor
      · intro c hc
        have := h.pars g hg ch hch c hc
        rw [List.map_append, List.map_map, List.map_map]
        have e : List.map (Prod.fst ∘ fun p : String × ℕ => ([g.key, ch.1, c.name, p.1], p.2)) c.params ++
            List.map (Prod.fst ∘ fun p : String × ℕ => ([g.key, ch.1, c.name, p.1], p.2)) c.options =
            ((c.params ++ c.options).map Prod.fst).map fun n => [g.key, ch.1, c.name, n] := by
          simp [List.map_map, Function.comp_def]
        rw [e]
        exact this.map fun a b hab => by simpa using hab
      · have hp := List.pairwise_map.1 (h.comps g hg ch hch)
        refine hp.imp ?_
        intro c c' hne x hx hx'
        simp only [List.map_append, List.map_map, List.mem_append, List.mem_map, Function.comp_def] at hx hx'
        apply hne
        rcases hx with ⟨p, _, rfl⟩ | ⟨p, _, rfl⟩ <;> rcases hx' with ⟨p', _, he⟩ | ⟨p', _, he⟩ <;>
          simp at he <;> exact he.1.symm
    · have hp := List.pairwise_map.1 (h.chans g hg)
      refine hp.imp ?_
      intro c c' hne x hx hx'
      simp only [List.map_flatMap, List.mem_flatMap, List.map_append, List.map_map, List.mem_append, List.mem_map,
        Function.comp_def] at hx hx'
      apply hne
      rcases hx with ⟨a, _, ⟨p, _, rfl⟩ | ⟨p, _, rfl⟩⟩ <;> rcases hx' with ⟨a', _, ⟨p', _, he⟩ | ⟨p', _, he⟩⟩ <;>
        simp at he <;> exact he.1.symm
  · have hp := List.pairwise_map.1 h.keys
    refine hp.imp ?_
    intro c c' hne x hx hx'
    simp only [gateIds, List.map_flatMap, List.mem_flatMap, List.map_append, List.map_map, List.mem_append, List.mem_map,
      Function.comp_def] at hx hx'
    apply hne
    rcases hx with ⟨b, _, a, _, ⟨p, _, rfl⟩ | ⟨p, _, rfl⟩⟩ <;>
      rcases hx' with ⟨b', _, a', _, ⟨p', _, he⟩ | ⟨p', _, he⟩⟩ <;>
      simp at he <;> exact he.1.symm

theorem compIds_nodup (cs : List Component) (h : (cs.map Component.name).Nodup)
    (hp : ∀ c ∈ cs, (c.params.map Prod.fst).Nodup) :
    ((compIds (cs.map fun x => (x.name, x))).map Prod.fst).Nodup := by
  unfold compIds
  rw [List.flatMap_map, List.map_flatMap, List.nodup_flatMap]
  constructor
  · intro c hc
    rw [List.map_map]
    have : List.map (Prod.fst ∘ fun p : String × ℕ => ([c.name, p.1], p.2)) c.params =
        (c.params.map Prod.fst).map fun n => [c.name, n] := by simp [List.map_map, Function.comp_def]
    rw [this]
    exact (hp c hc).map fun a b hab => by simpa using hab
  · refine (List.pairwise_map.1 h).imp ?_
    intro c c' hne x hx hx'
    simp only [List.map_map, List.mem_map, Function.comp_def] at hx hx'
    obtain ⟨p, _, rfl⟩ := hx
    obtain ⟨p', _, he⟩ := hx'
    simp at he
    exact hne he.1.symm

theorem gateIds_mem {g : Gate} {i : List String × ℕ} :
    i ∈ gateIds g ↔ ∃ ch ∈ g.chans, ∃ c ∈ ch.2, ∃ p ∈ c.params ++ c.options, i = ([g.key, ch.1, c.name, p.1], p.2) := by
  unfold gateIds
  simp only [List.mem_flatMap, List.mem_append, List.mem_map]
  constructor
  · rintro ⟨ch, h1, c, h2, ⟨p, h3, rfl⟩ | ⟨p, h3, rfl⟩⟩
    · exact ⟨ch, h1, c, h2, p, Or.inl h3, rfl⟩
    · exact ⟨ch, h1, c, h2, p, Or.inr h3, rfl⟩
  · rintro ⟨ch, h1, c, h2, p, h3 | h3, rfl⟩
    · exact ⟨ch, h1, c, h2, Or.inl ⟨p, h3, rfl⟩⟩
    · exact ⟨ch, h1, c, h2, Or.inr ⟨p, h3, rfl⟩⟩

/-! ## C134 -/

/-- What a parameter map is made of, with names that do not clash. -/
structure Clean (c s t d : List Component) (gates : List Gate) : Prop where
  names : ((c ++ s ++ t ++ d).map Component.name).Nodup
  params : ∀ x ∈ c ++ s ++ t ++ d, (x.params.map Prod.fst).Nodup
  plain : ∀ x ∈ c ++ s ++ t ++ d, Plain x.name ∧ ∀ p ∈ x.params, Plain p.1
  gatesOK : GatesOK gates
  gatesPlain : GatesPlain gates

theorem keys_nodup {c s t d : List Component} {gates : List Gate} (h : Clean c s t d gates) :
    Distinct ((compIds (merge c s t d) ++ gates.flatMap gateIds).map fun i => ("-".intercalate i.1, i.2)) := by
  unfold Distinct
  rw [List.map_map]
  have e : (Prod.fst ∘ fun i : List String × ℕ => ("-".intercalate i.1, i.2)) = (fun n => "-".intercalate n) ∘ Prod.fst := rfl
  rw [e, ← List.map_map, merge_eq c s t d h.names, List.map_append]
  have hplainC : ∀ n ∈ (compIds ((c ++ s ++ t ++ d).map fun x => (x.name, x))).map Prod.fst,
      n.length = 2 ∧ ∀ x ∈ n, Plain x := by
    intro n hn
    unfold compIds at hn
    simp only [List.flatMap_map, List.mem_map, List.mem_flatMap] at hn
    obtain ⟨i, ⟨x, hx, p, hp, rfl⟩, rfl⟩ := hn
    refine ⟨rfl, ?_⟩
    intro y hy
    have := h.plain x (by simpa using hx)
    rcases List.mem_cons.1 hy with rfl | hy
    · exact this.1
    · rw [List.mem_singleton.1 hy]
      exact this.2 p hp
  have hplainG : ∀ n ∈ (gates.flatMap gateIds).map Prod.fst, n.length = 4 ∧ ∀ x ∈ n, Plain x := by
    intro n hn
    simp only [List.mem_map, List.mem_flatMap] at hn
    obtain ⟨i, ⟨g, hg, hi⟩, rfl⟩ := hn
    obtain ⟨ch, h1, cc, h2, p, h3, rfl⟩ := gateIds_mem.1 hi
    refine ⟨rfl, ?_⟩
    intro y hy
    simp only [List.mem_cons, List.not_mem_nil, or_false] at hy
    rcases hy with rfl | rfl | rfl | rfl
    · exact h.gatesPlain.key g hg
    · exact h.gatesPlain.chan g hg ch h1
    · exact h.gatesPlain.comp g hg ch h1 cc h2
    · exact h.gatesPlain.par g hg ch h1 cc h2 p h3
  have hall : ∀ n ∈ (compIds ((c ++ s ++ t ++ d).map fun x => (x.name, x))).map Prod.fst ++
      (gates.flatMap gateIds).map Prod.fst, n ≠ [] ∧ ∀ x ∈ n, Plain x := by
    intro n hn
    rcases List.mem_append.1 hn with hn | hn
    · obtain ⟨h1, h2⟩ := hplainC n hn
      exact ⟨by rintro rfl; simp at h1, h2⟩
    · obtain ⟨h1, h2⟩ := hplainG n hn
      exact ⟨by rintro rfl; simp at h1, h2⟩
  refine List.Nodup.map_on ?_ ?_
  · intro a ha b hb hab
    exact join_inj (hall a ha).1 (hall b hb).1 (hall a ha).2 (hall b hb).2 hab
  · rw [List.nodup_append]
    refine ⟨compIds_nodup _ h.names h.params, gateIds_nodup gates h.gatesOK, ?_⟩
    intro a ha b hb hab
    have h1 := (hplainC a ha).1
    rw [hab, (hplainG b hb).1] at h1
    omega

/-- **C134**, what holds: if no name contains "-", no two components share a name and options do not
share their name with a parameter, every parameter of every component and gate is found under its
identifier, every identifier found belongs to one of them, and the identifiers that count as model
parameters are exactly those of the components. Missing: see the negations. -/
theorem C134_found_partial (c s t d : List Component) (gates : List Gate) (h : Clean c s t d gates) :
    (∀ x ∈ c ++ s ++ t ++ d, ∀ p ∈ x.params,
      getParameter (pars (merge c s t d) gates) [x.name, p.1] = some p.2) ∧
    (∀ g ∈ gates, ∀ ch ∈ g.chans, ∀ x ∈ ch.2, ∀ p ∈ x.params ++ x.options,
      getParameter (pars (merge c s t d) gates) [g.key, ch.1, x.name, p.1] = some p.2 ∧
      "-".intercalate [g.key, ch.1, x.name, p.1] ∉ modelIds (merge c s t d)) ∧
    (∀ k r, dget (pars (merge c s t d) gates) k = some r →
      (∃ x ∈ c ++ s ++ t ++ d, ∃ p ∈ x.params, k = "-".intercalate [x.name, p.1] ∧ r = p.2) ∨
      ∃ g ∈ gates, ∃ ch ∈ g.chans, ∃ x ∈ ch.2, ∃ p ∈ x.params ++ x.options,
        k = "-".intercalate [g.key, ch.1, x.name, p.1] ∧ r = p.2) := by
  have hd := keys_nodup h
  have hp : pars (merge c s t d) gates = (compIds (merge c s t d) ++ gates.flatMap gateIds).map
      fun i => ("-".intercalate i.1, i.2) := dupdate_nil _ hd
  have hget : ∀ k r, dget (pars (merge c s t d) gates) k = some r ↔
      ∃ i ∈ compIds (merge c s t d) ++ gates.flatMap gateIds, k = "-".intercalate i.1 ∧ r = i.2 := by
    intro k r
    rw [hp, dget_mem hd, List.mem_map]
    constructor
    · rintro ⟨i, hi, he⟩
      simp only [Prod.mk.injEq] at he
      exact ⟨i, hi, he.1.symm, he.2.symm⟩
    · rintro ⟨i, hi, rfl, rfl⟩
      exact ⟨i, hi, rfl⟩
  have hc : ∀ i, i ∈ compIds (merge c s t d) ↔ ∃ x ∈ c ++ s ++ t ++ d, ∃ p ∈ x.params, i = ([x.name, p.1], p.2) := by
    intro i
    rw [merge_eq c s t d h.names]
    unfold compIds
    simp only [List.flatMap_map, List.mem_flatMap, List.mem_map]
    constructor
    · rintro ⟨x, hx, p, hp, rfl⟩
      exact ⟨x, hx, p, hp, rfl⟩
    · rintro ⟨x, hx, p, hp, rfl⟩
      exact ⟨x, hx, p, hp, rfl⟩
  refine ⟨?_, ?_, ?_⟩
  · intro x hx p hp
    unfold getParameter
    rw [hget]
    exact ⟨([x.name, p.1], p.2), List.mem_append_left _ ((hc _).2 ⟨x, hx, p, hp, rfl⟩), rfl, rfl⟩
  · intro g hg ch hch x hx p hpm
    have hmem : ([g.key, ch.1, x.name, p.1], p.2) ∈ gates.flatMap gateIds :=
      List.mem_flatMap.2 ⟨g, hg, gateIds_mem.2 ⟨ch, hch, x, hx, p, hpm, rfl⟩⟩
    constructor
    · unfold getParameter
      rw [hget]
      exact ⟨_, List.mem_append_right _ hmem, rfl, rfl⟩
    · intro hm
      unfold modelIds at hm
      obtain ⟨i, hi, he⟩ := List.mem_map.1 hm
      unfold Distinct at hd
      rw [List.map_map, List.map_append, List.nodup_append] at hd
      refine hd.2.2 ("-".intercalate i.1) (List.mem_map.2 ⟨i, hi, rfl⟩) _ (List.mem_map.2 ⟨_, hmem, rfl⟩) ?_
      exact he
  · intro k r hk
    obtain ⟨i, hi, rfl, rfl⟩ := (hget k r).1 hk
    rcases List.mem_append.1 hi with hi | hi
    · obtain ⟨x, hx, p, hp, rfl⟩ := (hc i).1 hi
      exact Or.inl ⟨x, hx, p, hp, rfl, rfl⟩
    · obtain ⟨g, hg, hi⟩ := List.mem_flatMap.1 hi
      obtain ⟨ch, h1, x, h2, p, h3, rfl⟩ := gateIds_mem.1 hi
      exact Or.inr ⟨g, hg, ch, h1, x, h2, p, h3, rfl, rfl⟩

/-- **C134 is false** if a device of the generator is called like a component of the model: the
parameters of the model component disappear from the map. -/
theorem C134_false_device (a b : Component) (hn : a.name = b.name) (p : String)
    (hb : ∀ q ∈ b.params, "-".intercalate [b.name, q.1] ≠ "-".intercalate [a.name, p]) :
    getParameter (pars (merge [] [a] [] [b]) []) [a.name, p] = none := by
  have hm : merge [] [a] [] [b] = [(b.name, b)] := by simp [merge, dupdate, dset, hn]
  unfold getParameter pars
  rw [hm, dget_eq_none]
  intro hk
  have key : ∀ (l : List (String × ℕ)) (d : List (String × ℕ)) (k : String),
      k ∈ (dupdate d l).map Prod.fst → k ∈ d.map Prod.fst ∨ k ∈ l.map Prod.fst := by
    intro l
    induction l with
    | nil => intro d k h; exact Or.inl h
    | cons x l ih =>
      intro d k h
      rcases ih (dset d x.1 x.2) k h with h | h
      · rw [dset_keys] at h
        split at h
        · exact Or.inl h
        · rcases List.mem_append.1 h with h | h
          · exact Or.inl h
          · exact Or.inr (by simp at h; simp [h])
      · exact Or.inr (List.mem_cons_of_mem _ h)
  rcases key _ _ _ hk with h | h
  · simp at h
  · simp only [compIds, List.flatMap_cons, List.flatMap_nil, List.append_nil, List.map_map, List.mem_map,
      Function.comp_def] at h
    obtain ⟨q, hq, he⟩ := h
    exact hb q hq he

/-- **C134 is false** if names contain "-": two parameters of different gates share their identifier and
only the later one can be reached. -/
theorem C134_false_dash : ∃ (g1 g2 : Gate), GatesOK [g1, g2] ∧
    getParameter (pars [] [g1, g2]) ["g", "d-1", "env", "amp"] = some 1 ∧
    getParameter (pars [] [g1, g2]) ["g-d", "1", "env", "amp"] = some 1 ∧
    (["g", "d-1", "env", "amp"], 0) ∈ gateIds g1 ∧ (["g-d", "1", "env", "amp"], 1) ∈ gateIds g2 := by
  refine ⟨⟨"g", [("d-1", [⟨"env", [("amp", 0)], []⟩])]⟩, ⟨"g-d", [("1", [⟨"env", [("amp", 1)], []⟩])]⟩, ?_, ?_, ?_, ?_, ?_⟩
  · constructor <;> simp
  · decide +kernel
  · decide +kernel
  · simp [gateIds]
  · simp [gateIds]

/-- **C134 is false** if an option is called like a parameter of the envelope: the identifier names the
option, the parameter cannot be reached. -/
theorem C134_false_option : ∃ g : Gate, (["g", "d1", "env", "delay"], 0) ∈ gateIds g ∧
    getParameter (pars [] [g]) ["g", "d1", "env", "delay"] = some 1 := by
  refine ⟨⟨"g", [("d1", [⟨"env", [("delay", 0)], [("delay", 1)]⟩])]⟩, ?_, ?_⟩
  · simp [gateIds]
  · decide +kernel

/-! ## C135 -/

/-- **C135**, what holds: for an optimisation map that names every identifier once, the parameters that
are not optimised are exactly the others, in the same order. Missing: identifiers in two groups, see the
negation. -/
theorem C135_rest_partial (ps : List (String × ℕ)) (ids : List String) (hn : ids.Nodup)
    (hk : ∀ k ∈ ids, k ∈ ps.map Prod.fst) :
    notOpt ps ids = .ok (ps.filter fun p => p.1 ∉ ids) := by
  induction ids generalizing ps with
  | nil => simp [notOpt]
  | cons k ks ih =>
    rw [List.nodup_cons] at hn
    have h1 : (dget ps k).isSome = true := by
      rw [← Option.ne_none_iff_isSome, Ne, dget_eq_none, not_not]
      exact hk k (by simp)
    rw [notOpt, if_pos h1, ih _ hn.2, List.filter_filter]
    · congr 1
      apply List.filter_congr
      intro p _
      simp only [List.mem_cons, not_or, ne_eq]
      by_cases h : p.1 = k <;> simp [h]
    · intro k' hk'
      obtain ⟨p, hp, rfl⟩ := List.mem_map.1 (hk k' (by simp [hk']))
      refine List.mem_map.2 ⟨p, List.mem_filter.2 ⟨hp, ?_⟩, rfl⟩
      simp only [ne_eq, decide_eq_true_eq]
      rintro rfl
      exact hn.1 hk'

/-- **C135 is false** if an identifier occurs twice: `KeyError`. -/
theorem C135_false_twice (ps : List (String × ℕ)) (k : String) (rest : List String)
    (hk : k ∈ ps.map Prod.fst) : notOpt ps (k :: k :: rest) = .error k := by
  have h1 : (dget ps k).isSome = true := by
    rw [← Option.ne_none_iff_isSome, Ne, dget_eq_none, not_not]
    exact hk
  have h2 : dget (ps.filter fun p => p.1 ≠ k) k = none := by
    rw [dget_eq_none]
    intro h
    obtain ⟨p, hp, rfl⟩ := List.mem_map.1 h
    simp at hp
  rw [notOpt, if_pos h1, notOpt, h2]
  rfl

/-- An unknown identifier is refused. -/
theorem C135_unknown (ps : List (String × ℕ)) (k : String) (rest : List String)
    (hk : k ∉ ps.map Prod.fst) : notOpt ps (k :: rest) = .error k := by
  rw [notOpt, dget_eq_none.2 hk]
  rfl

/-! ## Examples -/

def exComp : Component := ⟨"Q1", [("freq", 0), ("anhar", 1)]⟩
def exDev : Component := ⟨"AWG", [("resolution", 2)]⟩
def exGate : Gate := ⟨"rx[0]", [("d1", [⟨"gauss", [("amp", 3)], [("delay", 4)]⟩])]⟩

example : Clean [] [exComp] [] [exDev] [exGate] := by
  refine ⟨by decide, by decide, ?_, ⟨by decide, by decide, by decide, by decide⟩, ⟨?_, ?_, ?_, ?_⟩⟩ <;>
    simp [Plain, exComp, exDev, exGate] <;> rintro a b (⟨rfl, rfl⟩ | ⟨rfl, rfl⟩) <;> decide

example : getParameter (pars (merge [] [exComp] [] [exDev]) [exGate]) ["rx[0]", "d1", "gauss", "delay"] = some 4 := by
  decide +kernel

example : notOpt [("a", 0), ("b", 1), ("c", 2)] ["b"] = .ok [("a", 0), ("c", 2)] := by
  simp [notOpt, dget]

end C3.Ids
