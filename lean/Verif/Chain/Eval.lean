import Verif.Chain.Props
import Mathlib.Data.List.Flatten
import Mathlib.Tactic.Ring

/-!
# C46, C47: the signal of a channel is the value of its device graph; malformed chains are refused
-/

set_option linter.unusedSectionVars false

namespace C3.Chain

variable {α V : Type*} [DecidableEq α]

/-! ## Specification -/

/-- `val` assigns to every device of the chain the value of its function on the values of its
sources. -/
def IsEval (c : SigChain α) (process : α → List V → V) (val : α → V) : Prop :=
  ∀ x ∈ c.nodes, val x = process x ((c.preds x).map val)

/-- A device whose output no other device of the chain uses. -/
def IsSink (c : SigChain α) (s : α) : Prop := s ∈ c.nodes ∧ ∀ x ∈ c.nodes, s ∉ c.preds x

/-! ## Evaluation in topological order -/

theorem exists_last (l : List α) (h : l ≠ []) : ∃ s, l.getLast? = some s :=
  ⟨l.getLast h, List.getLast?_eq_some_getLast h⟩

theorem collect_eq (stack : α → Option V) (val : α → V) (l : List α)
    (h : ∀ p ∈ l, stack p = some (val p)) : collect stack l = some (l.map val) := by
  induction l with
  | nil => rfl
  | cons a l ih =>
    simp only [collect, h a (by simp), ih (fun p hp => h p (by simp [hp])), List.map_cons]

theorem runOrder_eq (preds : α → List α) (process : α → List V → V) (val : α → V)
    (done todo : List α) (stack : α → Option V) (out : Option V)
    (ht : Topological preds (done ++ todo))
    (hv : ∀ x ∈ todo, val x = process x ((preds x).map val))
    (hs : ∀ x ∈ done, stack x = some (val x)) (ho : out = (done.getLast?).map val) :
    ∃ stack', runOrder preds process stack out todo =
        some (stack', ((done ++ todo).getLast?).map val) ∧
      ∀ x ∈ done ++ todo, stack' x = some (val x) := by
  induction todo generalizing done stack out with
  | nil => exact ⟨stack, by simp [runOrder, ho], by simpa using hs⟩
  | cons a todo ih =>
    have hp : ∀ p ∈ preds a, p ∈ done := ht done a todo rfl
    have hc := collect_eq stack val (preds a) fun p h => hs p (hp p h)
    have hva := hv a (by simp)
    obtain ⟨stack', h1, h2⟩ := ih (done ++ [a]) (Function.update stack a (some (val a)))
      (some (val a)) (by simpa using ht) (fun x hx => hv x (by simp [hx]))
      (by
        intro x hx
        by_cases hxa : x = a
        · simp [hxa]
        · rw [Function.update_of_ne hxa]
          exact hs x (by simpa [hxa] using hx))
      (by simp)
    refine ⟨stack', ?_, by simpa using h2⟩
    rw [runOrder, hc]
    simp only [← hva]
    rw [h1]
    simp

/-- The values computed along a topological order do solve the recursion equations, whatever the
device functions: a graph accepted by the sorting has an evaluation. -/
theorem exists_eval (preds : α → List α) (process : α → List V → V) (l : List α) (v0 : V)
    (hnd : l.Nodup) (ht : Topological preds l) :
    ∃ val : α → V, ∀ x ∈ l, val x = process x ((preds x).map val) := by
  induction l using List.reverseRecOn with
  | nil => exact ⟨fun _ => v0, by simp⟩
  | append_singleton l a ih =>
    have hnd' := List.nodup_append.1 hnd
    obtain ⟨val, hval⟩ := ih hnd'.1 (by
      intro l₁ x l₂ h p hp
      exact ht l₁ x (l₂ ++ [a]) (by rw [h]; simp) p hp)
    have ha : a ∉ l := fun h => hnd'.2.2 a h a (by simp) rfl
    have key : ∀ x, (∀ p ∈ preds x, p ∈ l) →
        (preds x).map (Function.update val a (process a ((preds a).map val))) =
          (preds x).map val := by
      intro x hx
      apply List.map_congr_left
      intro p hp
      rw [Function.update_of_ne]
      rintro rfl
      exact ha (hx p hp)
    refine ⟨Function.update val a (process a ((preds a).map val)), ?_⟩
    intro x hx
    rcases List.mem_append.1 hx with hx | hx
    · have hxa : x ≠ a := fun h => ha (h ▸ hx)
      rw [Function.update_of_ne hxa, key x, hval x hx]
      obtain ⟨l₁, l₂, hl⟩ := List.append_of_mem hx
      intro p hp
      rw [hl]
      exact List.mem_append_left _ (ht l₁ x (l₂ ++ [a]) (by rw [hl]; simp) p hp)
    · simp at hx
      subst hx
      rw [Function.update_self, key x]
      exact ht l x [] rfl

/-- The evaluation is unique on the devices of the chain. -/
theorem eval_unique (preds : α → List α) (process : α → List V → V) (l : List α)
    (ht : Topological preds l) (v w : α → V) (hv : ∀ x ∈ l, v x = process x ((preds x).map v))
    (hw : ∀ x ∈ l, w x = process x ((preds x).map w)) : ∀ x ∈ l, v x = w x := by
  induction l using List.reverseRecOn with
  | nil => simp
  | append_singleton l a ih =>
    have ih' := ih (by
      intro l₁ x l₂ h p hp
      exact ht l₁ x (l₂ ++ [a]) (by rw [h]; simp) p hp) (fun x hx => hv x (by simp [hx]))
      (fun x hx => hw x (by simp [hx]))
    intro x hx
    rcases List.mem_append.1 hx with hx | hx
    · exact ih' x hx
    · simp at hx
      subst hx
      rw [hv x (by simp), hw x (by simp)]
      congr 1
      apply List.map_congr_left
      intro p hp
      exact ih' p (ht l x [] rfl p hp)

/-- The last device of a topological order feeds no other device. -/
theorem last_is_sink (c : SigChain α) (hn : c.nodes.Nodup) (order : List α)
    (hperm : order.Perm c.nodes) (ht : Topological c.preds order) (s : α)
    (hs : order.getLast? = some s) : IsSink c s := by
  have hsm : s ∈ order := List.mem_of_getLast? hs
  refine ⟨hperm.mem_iff.1 hsm, ?_⟩
  intro x hx hp
  have hnd : order.Nodup := hperm.nodup_iff.2 hn
  have h1 := topological_index c.preds order hnd ht s x (hperm.mem_iff.2 hx) hp
  have h2 := List.idxOf_lt_length_iff.2 (hperm.mem_iff.2 hx)
  obtain ⟨init, hinit⟩ : ∃ init, order = init ++ [s] := by
    exact ⟨_, (List.dropLast_append_getLast? s hs).symm⟩
  rw [hinit] at h1 h2 hnd
  have hsi : s ∉ init := fun h => (List.nodup_append.1 hnd).2.2 s h s (by simp) rfl
  rw [List.idxOf_append_of_notMem hsi] at h1
  simp at h1 h2
  omega

/-- C46: `generate_signals` never misses an input of an accepted chain, and its result is the value
of the last device in the recursive evaluation of the graph. The last device is one that feeds no
other device. -/
theorem C46_signal_is_graph_value (c : SigChain α) (hn : c.nodes.Nodup) (hne : c.nodes ≠ [])
    (order : List α) (h : topo c = .ok order) (process : α → List V → V) (val : α → V)
    (hval : IsEval c process val) :
    ∃ s, order.getLast? = some s ∧ IsSink c s ∧
      generate c.preds process order = some (val s) := by
  obtain ⟨hperm, ht⟩ := C44_devices_after_inputs c hn order h
  have hone : order ≠ [] := by
    rintro rfl
    exact hne (List.nil_perm.1 hperm)
  obtain ⟨s, hs⟩ : ∃ s, order.getLast? = some s := exists_last order hone
  refine ⟨s, hs, last_is_sink c hn order hperm ht s hs, ?_⟩
  obtain ⟨st, h1, -⟩ := runOrder_eq c.preds process val [] order (fun _ => none) none
    (by simpa using ht) (fun x hx => hval x (hperm.mem_iff.1 hx)) (by simp) rfl
  unfold generate
  rw [h1]
  simp [hs]

/-- C46: every accepted chain has exactly one evaluation (so the previous theorem is about a value
that exists and is determined by the graph and the devices alone). -/
theorem C46_graph_value_exists_unique (c : SigChain α) (hn : c.nodes.Nodup) (order : List α)
    (h : topo c = .ok order) (process : α → List V → V) (v0 : V) :
    (∃ val, IsEval c process val) ∧
      ∀ v w, IsEval c process v → IsEval c process w → ∀ x ∈ c.nodes, v x = w x := by
  obtain ⟨hperm, ht⟩ := C44_devices_after_inputs c hn order h
  have hnd : order.Nodup := hperm.nodup_iff.2 hn
  constructor
  · obtain ⟨val, hv⟩ := exists_eval c.preds process order v0 hnd ht
    exact ⟨val, fun x hx => hv x (hperm.mem_iff.2 hx)⟩
  · intro v w hv hw x hx
    exact eval_unique c.preds process order ht v w (fun y hy => hv y (hperm.mem_iff.1 hy))
      (fun y hy => hw y (hperm.mem_iff.1 hy)) x (hperm.mem_iff.2 hx)

/-- C46: if only one device of the chain is not used by another one, any two orders in which devices
run after their inputs give the same signal. -/
theorem C46_independent_of_order (c : SigChain α) (hn : c.nodes.Nodup) (o₁ o₂ : List α)
    (hp₁ : o₁.Perm c.nodes) (hp₂ : o₂.Perm c.nodes) (ht₁ : Topological c.preds o₁)
    (ht₂ : Topological c.preds o₂) (hu : ∀ s t, IsSink c s → IsSink c t → s = t)
    (process : α → List V → V) :
    generate c.preds process o₁ = generate c.preds process o₂ := by
  by_cases hne : o₁ = []
  · subst hne
    have : o₂ = [] := List.perm_nil.1 (hp₂.trans hp₁.symm)
    rw [this]
  have hne2 : o₂ ≠ [] := by
    rintro rfl
    exact hne (List.perm_nil.1 (hp₁.trans hp₂.symm))
  obtain ⟨s, hs⟩ : ∃ s, o₁.getLast? = some s := exists_last o₁ hne
  obtain ⟨t, hT⟩ : ∃ s, o₂.getLast? = some s := exists_last o₂ hne2
  have hst := hu s t (last_is_sink c hn o₁ hp₁ ht₁ s hs) (last_is_sink c hn o₂ hp₂ ht₂ t hT)
  subst hst
  by_cases hV : IsEmpty V
  · -- no values: both runs must fail in the same way
    cases h1 : generate c.preds process o₁ with
    | some v => exact hV.elim v
    | none =>
      cases h2 : generate c.preds process o₂ with
      | some v => exact hV.elim v
      | none => rfl
  · rw [not_isEmpty_iff] at hV
    obtain ⟨v0⟩ := hV
    obtain ⟨val, hv⟩ := exists_eval c.preds process o₁ v0 (hp₁.nodup_iff.2 hn) ht₁
    obtain ⟨st, h1, -⟩ := runOrder_eq c.preds process val [] o₁ (fun _ => none) none
      (by simpa using ht₁) hv (by simp) rfl
    obtain ⟨st2, h2, -⟩ := runOrder_eq c.preds process val [] o₂ (fun _ => none) none
      (by simpa using ht₂) (fun x hx => hv x (hp₁.mem_iff.2 (hp₂.mem_iff.1 hx))) (by simp) rfl
    unfold generate
    rw [h1, h2]
    simp [hs, hT]

/-- A non-trivial instance: LO and AWG with DAC feeding a mixer; "devices" that write their name. -/
example : generate (fun x => if x = "dac" then ["awg"] else if x = "mixer" then ["lo", "dac"] else [])
    (fun x ins => x ++ "(" ++ ",".intercalate ins ++ ")") ["awg", "dac", "lo", "mixer"] =
    some "mixer(lo(),dac(awg()))" := by decide +kernel

/-! ## C47 -/

/-- Specification of a well formed chain: every device exists, gets as many sources as it has inputs,
all sources exist and have one common resolution. -/
structure WellFormed (devs : α → Option Dev) (c : SigChain α) : Prop where
  known : ∀ x ∈ c.nodes, ∃ d, devs x = some d ∧ d.inputs = (c.preds x).length
  sources : ∀ x ∈ c.nodes, ∃ res, ∀ p ∈ c.preds x, ∃ d, devs p = some d ∧ d.resolution = res

/-- Sum of outputs minus inputs of all devices. -/
def balance (devs : α → Option Dev) (l : List α) : ℤ :=
  (l.map fun x => match devs x with
    | none => 0
    | some d => d.outputs - d.inputs).sum

theorem checkSources_ok (devs : α → Option Dev) (id : α) (res : ℚ) (l : List α) :
    checkSources devs id res l = .ok () ↔
      ∀ p ∈ l, ∃ d, devs p = some d ∧ d.resolution = res := by
  induction l with
  | nil => simp [checkSources]
  | cons s l ih =>
    rw [checkSources]
    cases hd : devs s with
    | none => simp [hd]
    | some d =>
      simp only [List.forall_mem_cons, hd, Option.some.injEq, exists_eq_left']
      by_cases hr : res = d.resolution
      · rw [if_neg (by simpa using hr), ih]
        simp [hr]
      · rw [if_pos (by simpa using hr)]
        simp [Ne.symm hr]

theorem checkInputs_ok (devs : α → Option Dev) (id : α) (l : List α) :
    checkInputs devs id l = .ok () ↔
      ∃ res, ∀ p ∈ l, ∃ d, devs p = some d ∧ d.resolution = res := by
  unfold checkInputs
  cases l with
  | nil => simp
  | cons s l =>
    cases hd : devs s with
    | none => simp [hd]
    | some d =>
      simp only [hd]
      rw [checkSources_ok]
      constructor
      · intro h
        exact ⟨_, h⟩
      · rintro ⟨res, h⟩
        obtain ⟨d', h1, h2⟩ := h s (by simp)
        rw [hd] at h1
        simp only [Option.some.injEq] at h1
        subst h1
        rw [h2]
        exact h

theorem checkNodes_ok (devs : α → Option Dev) (preds : α → List α) (l : List α) (k r : ℤ) :
    checkNodes devs preds k l = .ok r ↔
      (∀ x ∈ l, ∃ d, devs x = some d ∧ d.inputs = (preds x).length) ∧
      (∀ x ∈ l, ∃ res, ∀ p ∈ preds x, ∃ d, devs p = some d ∧ d.resolution = res) ∧
      r = k + balance devs l := by
  induction l generalizing k with
  | nil => simp [checkNodes, balance, eq_comm]
  | cons a l ih =>
    rw [checkNodes]
    simp only [List.forall_mem_cons]
    cases hi : checkInputs devs a (preds a) with
    | error e =>
      simp only [reduceCtorEq, false_iff]
      rintro ⟨-, ⟨h, -⟩, -⟩
      rw [← checkInputs_ok devs a] at h
      rw [hi] at h
      simp at h
    | ok u =>
      have hi' := (checkInputs_ok devs a (preds a)).1 hi
      cases hd : devs a with
      | none => simp
      | some d =>
        simp only [Option.some.injEq, exists_eq_left']
        by_cases hn : d.inputs = ((preds a).length : ℤ)
        · rw [if_neg (by simpa using hn), ih]
          simp only [hn, hi', true_and, balance, List.map_cons, List.sum_cons, hd]
          constructor
          · rintro ⟨h1, h2, h3⟩
            exact ⟨h1, h2, by rw [h3]; ring⟩
          · rintro ⟨h1, h2, h3⟩
            exact ⟨h1, h2, by rw [h3]; ring⟩
        · rw [if_pos (by simpa using hn)]
          simp [hn]

/-- C47 (exact): the chain of a channel is accepted if and only if it is well formed, the sum of
outputs minus inputs is one, and it can be sorted. -/
theorem C47_accepted_iff (devs : α → Option Dev) (c : SigChain α) (order : List α) :
    checkChain devs c = .ok order ↔
      WellFormed devs c ∧ balance devs c.nodes = 1 ∧ topo c = .ok order := by
  unfold checkChain
  cases hk : checkNodes devs c.preds 0 c.nodes with
  | error e =>
    simp only [reduceCtorEq, false_iff]
    rintro ⟨hw, hb, -⟩
    have := (checkNodes_ok devs c.preds c.nodes 0 (balance devs c.nodes)).2
      ⟨hw.known, hw.sources, by simp⟩
    rw [hk] at this
    simp at this
  | ok r =>
    have h := (checkNodes_ok devs c.preds c.nodes 0 r).1 hk
    simp only
    have hb : balance devs c.nodes = r := by rw [h.2.2]; simp
    by_cases hr : r = 1
    · rw [if_neg (by simpa using hr), hb]
      exact ⟨fun ho => ⟨⟨h.1, h.2.1⟩, hr, ho⟩, fun ho => ho.2.2⟩
    · rw [if_pos (by simpa using hr), hb]
      simp [hr]

theorem sinks_length (nodes : List α) (preds : α → List α) (hn : nodes.Nodup)
    (hnd : (nodes.flatMap preds).Nodup) (hsub : ∀ p ∈ nodes.flatMap preds, p ∈ nodes) :
    (nodes.filter fun x => x ∉ nodes.flatMap preds).length + (nodes.flatMap preds).length =
      nodes.length := by
  have hp : (nodes.filter fun x => x ∈ nodes.flatMap preds).Perm (nodes.flatMap preds) := by
    rw [List.perm_ext_iff_of_nodup (hn.filter _) hnd]
    intro a
    rw [List.mem_filter]
    constructor
    · intro h
      simpa only [decide_eq_true_eq] using h.2
    · intro h
      exact ⟨hsub a h, by simpa only [decide_eq_true_eq] using h⟩
  rw [← hp.length_eq, add_comm]
  have := List.length_eq_length_filter_add (l := nodes)
    (fun x => decide (x ∈ nodes.flatMap preds))
  rw [this]
  congr 2
  apply List.filter_congr
  intro x _
  exact decide_not

/-- C47: if the devices of an accepted chain have one output each and no output is used twice, there
is exactly one device whose output is left, and that is where the signal of the channel comes from.
Missing for the full claim: chains where an output is used by several devices
(`C47_false_two_outputs_left`). -/
theorem C47_exactly_one_output_left_partial (devs : α → Option Dev) (c : SigChain α)
    (hn : c.nodes.Nodup) (order : List α) (h : checkChain devs c = .ok order)
    (hout : ∀ x ∈ c.nodes, ∀ d, devs x = some d → d.outputs = 1)
    (hfan : (c.nodes.flatMap c.preds).Nodup) :
    ∃ s, IsSink c s ∧ (∀ t, IsSink c t → t = s) ∧ order.getLast? = some s := by
  obtain ⟨hw, hb, ho⟩ := (C47_accepted_iff devs c order).1 h
  obtain ⟨hperm, ht⟩ := C44_devices_after_inputs c hn order ho
  have hacc := ((C45_accepted_iff c hn).1 ⟨order, ho⟩).1
  have hsub : ∀ p ∈ c.nodes.flatMap c.preds, p ∈ c.nodes := by
    intro p hp
    obtain ⟨x, hx, hpx⟩ := List.mem_flatMap.1 hp
    exact (hacc x hx).2 p hpx
  have hlen := sinks_length c.nodes c.preds hn hfan hsub
  have hbal : ∀ l : List α, (∀ x ∈ l, x ∈ c.nodes) →
      balance devs l = (l.length : ℤ) - ((l.flatMap c.preds).length : ℤ) := by
    intro l hl
    induction l with
    | nil => simp [balance]
    | cons a l ih =>
      obtain ⟨d, hd, hi⟩ := hw.known a (hl a (by simp))
      have h1 := hout a (hl a (by simp)) d hd
      have ih' := ih fun x hx => hl x (by simp [hx])
      simp only [balance, List.map_cons, List.sum_cons, hd] at ih' ⊢
      rw [ih', hi, h1, List.flatMap_cons, List.length_append, List.length_cons]
      push_cast
      ring
  have h1 := hbal c.nodes (fun _ h => h)
  rw [hb] at h1
  have hl1 : (c.nodes.filter fun x => x ∉ c.nodes.flatMap c.preds).length = 1 := by omega
  obtain ⟨s, hs⟩ := List.length_eq_one_iff.1 hl1
  have hsink : ∀ t, IsSink c t ↔ t = s := by
    intro t
    have : t ∈ (c.nodes.filter fun x => x ∉ c.nodes.flatMap c.preds) ↔ t = s := by
      rw [hs]; simp
    rw [← this, List.mem_filter, decide_eq_true_eq, List.mem_flatMap]
    unfold IsSink
    simp only [not_exists, not_and]
  have hone : order ≠ [] := by
    rintro rfl
    have := List.nil_perm.1 hperm
    rw [this] at hl1
    simp at hl1
  obtain ⟨u, hu⟩ : ∃ u, order.getLast? = some u := exists_last order hone
  have := (hsink u).1 (last_is_sink c hn order hperm ht u hu)
  subst this
  exact ⟨u, (hsink u).2 rfl, fun t h => (hsink t).1 h, hu⟩

/-- Oscillator whose output goes to two filters. -/
def fanChain : SigChain String where
  nodes := ["lo", "f1", "f2"]
  preds := fun x => if x = "lo" then [] else ["lo"]

/-- All three devices have the standard attributes (outputs 1; oscillator without input). -/
def fanDevs (x : String) : Option Dev :=
  if x = "lo" then some ⟨1, 0, 1⟩ else if x = "f1" ∨ x = "f2" then some ⟨1, 1, 1⟩ else none

/-- C47 is false as stated: `outputs - inputs` adds up to one for this chain, so it is accepted,
although two devices have an unused output. -/
theorem C47_false_two_outputs_left :
    checkChain fanDevs fanChain = .ok ["lo", "f2", "f1"] ∧
      IsSink fanChain "f1" ∧ IsSink fanChain "f2" := by
  refine ⟨by decide +kernel, ?_, ?_⟩ <;> · unfold IsSink; decide +kernel

/-- ... and which of the two signals is used depends on the order of the dictionary. -/
theorem C47_false_depends_on_dictionary_order :
    checkChain fanDevs ⟨["lo", "f2", "f1"], fanChain.preds⟩ = .ok ["lo", "f1", "f2"] ∧
      generate fanChain.preds (fun x _ => x) ["lo", "f2", "f1"] = some "f1" ∧
      generate fanChain.preds (fun x _ => x) ["lo", "f1", "f2"] = some "f2" := by
  refine ⟨by decide +kernel, by decide +kernel, by decide +kernel⟩

/-- Standard devices: LO, AWG, DAC and mixer. -/
def stdDevs (x : String) : Option Dev :=
  if x = "lo" then some ⟨1, 0, 1⟩ else if x = "awg" then some ⟨1, 0, 1⟩ else
  if x = "dac" then some ⟨1, 1, 1⟩ else if x = "mixer" then some ⟨1, 2, 1⟩ else none

/-- The hypotheses of the positive theorem are met by the standard chain. -/
example : (checkChain stdDevs ⟨["lo", "awg", "dac", "mixer"], fun x => if x = "dac" then ["awg"] else
    if x = "mixer" then ["lo", "dac"] else []⟩).toOption = some ["awg", "dac", "lo", "mixer"] := by
  decide +kernel

/-- An unknown source and a wrong number of inputs are refused. -/
example : checkChain stdDevs ⟨["lo", "dac"], fun x => if x = "dac" then ["nodev"] else []⟩ =
    .error (.keyError "nodev") := by decide +kernel
example : checkChain stdDevs ⟨["lo", "mixer"], fun x => if x = "mixer" then ["lo"] else []⟩ =
    .error (.inputs "mixer") := by decide +kernel

end C3.Chain
