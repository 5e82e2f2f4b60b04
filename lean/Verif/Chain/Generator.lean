import Verif.Chain.Eval

/-!
# C242: the chains of a generator, the signals of an instruction and the callback

`Generator.__init__`, `set_chains`, `__check_signal_chains` (c3/generator/generator.py:36-91) and `generate_signals`
(c3/generator/generator.py:171-229) for several channels. Checking and running one chain are the models of C44-C47.

Simplified: the attributes of the devices do not change; device functions are pure (see C48); the keys of dictionaries
are not repeated; a chain that is accepted is not empty, so the variable `output` of another channel is never used.
-/

set_option linter.unusedSectionVars false

namespace C3.Chain

variable {κ α V : Type*} [DecidableEq κ] [DecidableEq α]

/-! ## Model -/

/-- The attributes of a `Generator` (c3/generator/generator.py:43-50). -/
structure Gen (κ α : Type*) where
  devs : α → Option Dev
  chains : List (κ × SigChain α)
  sorted : κ → Option (List α)

/-- `self.chains[chan]`. -/
def Gen.chain (g : Gen κ α) (k : κ) : Option (SigChain α) := (g.chains.find? fun p => p.1 = k).map Prod.snd

/-- c3/generator/generator.py:57-91 `__check_signal_chains`: the sorted chains left behind and the exception. -/
def checkAll (devs : α → Option Dev) : (κ → Option (List α)) → List (κ × SigChain α) →
    (κ → Option (List α)) × Option (κ × ChainErr α)
  | s, [] => (s, none)
  | s, (k, c) :: rest =>
    match checkChain devs c with
    | .error e => (s, some (k, e))
    | .ok o => checkAll devs (Function.update s k (some o)) rest

/-- c3/generator/generator.py:52-55 `set_chains`: the generator left behind and the exception. -/
def Gen.setChains (g : Gen κ α) (cs : List (κ × SigChain α)) : Gen κ α × Option (κ × ChainErr α) :=
  match cs with
  | [] => (g, none)
  | _ :: _ =>
    let r := checkAll g.devs g.sorted cs
    ({ g with chains := cs, sorted := r.1 }, r.2)

/-- c3/generator/generator.py:36-50 `Generator.__init__`. -/
def Gen.init (devs : α → Option Dev) (cs : List (κ × SigChain α)) : Gen κ α × Option (κ × ChainErr α) :=
  Gen.setChains { devs := devs, chains := [], sorted := fun _ => none } cs

/-- c3/generator/generator.py:199-217: the loop over the devices of a channel. The list is what the callback is
called with; `false` is a `KeyError`. -/
def play (devs : α → Option Dev) (c : SigChain α) (process : α → List V → V) :
    (α → Option V) → List α → List (α × V) × Bool
  | _, [] => ([], true)
  | stack, x :: xs =>
    if x ∈ c.nodes then
      match collect stack (c.preds x), devs x with
      | some ins, some _ =>
        let v := process x ins
        let r := play devs c process (Function.update stack x (some v)) xs
        ((x, v) :: r.1, r.2)
      | _, _ => ([], false)
    else ([], false)

/-- c3/generator/generator.py:190-221: the loop over the channels of an instruction: the calls of the callback and
the dictionary `gen_signal`, `none` for an exception. -/
def genLoop (g : Gen κ α) (process : κ → α → List V → V) : List κ → List (κ × α × V) × Option (List (κ × V))
  | [] => ([], some [])
  | k :: ks =>
    match g.chain k, g.sorted k with
    | some c, some o =>
      let r := play g.devs c (process k) (fun _ => none) o
      let calls := r.1.map fun p => (k, p)
      match r.2, r.1.getLast? with
      | true, some p =>
        let q := genLoop g process ks
        (calls ++ q.1, q.2.map fun d => (k, p.2) :: d)
      | _, _ => (calls, none)
    | _, _ => ([], none)

/-- c3/generator/generator.py:171-229 `generate_signals`; `crosstalk` is the device of that name, if there is one. -/
def generateSignals (g : Gen κ α) (process : κ → α → List V → V)
    (crosstalk : Option (List (κ × V) → List (κ × V))) (chans : List κ) :
    List (κ × α × V) × Option (List (κ × V)) :=
  let r := genLoop g process chans
  (r.1, r.2.map fun d => match crosstalk with
    | some f => f d
    | none => d)

/-! ## Specification -/

/-- Every channel has its chain, checked, and the order of its devices. -/
def Gen.Consistent (g : Gen κ α) : Prop :=
  ∀ k c, g.chain k = some c → ∃ o, g.sorted k = some o ∧ checkChain g.devs c = .ok o

/-- The chains are those of the dictionary. -/
def Gen.Has (g : Gen κ α) (cs : List (κ × SigChain α)) : Prop :=
  (∀ k c, (k, c) ∈ cs → g.chain k = some c) ∧ ∀ k, k ∉ cs.map Prod.fst → g.chain k = none

/-! ## Proofs -/

theorem find_mem (cs : List (κ × SigChain α)) (hn : (cs.map Prod.fst).Nodup) (k : κ) (c : SigChain α) :
    (cs.find? fun p => p.1 = k).map Prod.snd = some c ↔ (k, c) ∈ cs := by
  induction cs with
  | nil => simp
  | cons p cs ih =>
    obtain ⟨k', c'⟩ := p
    rw [List.map_cons, List.nodup_cons] at hn
    by_cases h : k' = k
    · subst h
      have : (k', c) ∉ cs := fun hm => hn.1 (List.mem_map.2 ⟨_, hm, rfl⟩)
      simp [this, eq_comm]
    · rw [List.find?_cons_of_neg (by simpa using h), ih hn.2]
      simp [Ne.symm h]

theorem checkAll_frame (devs : α → Option Dev) (s : κ → Option (List α)) (cs : List (κ × SigChain α)) (k : κ)
    (hk : k ∉ cs.map Prod.fst) : (checkAll devs s cs).1 k = s k := by
  induction cs generalizing s with
  | nil => rfl
  | cons p cs ih =>
    obtain ⟨k', c'⟩ := p
    simp only [List.map_cons, List.mem_cons, not_or] at hk
    rw [checkAll]
    rcases checkChain devs c' with e | o
    · rfl
    · simp only
      rw [ih _ hk.2, Function.update_of_ne hk.1]

theorem checkAll_ok (devs : α → Option Dev) (s : κ → Option (List α)) (cs : List (κ × SigChain α))
    (hn : (cs.map Prod.fst).Nodup) (h : (checkAll devs s cs).2 = none) (k : κ) (c : SigChain α) (hk : (k, c) ∈ cs) :
    ∃ o, (checkAll devs s cs).1 k = some o ∧ checkChain devs c = .ok o := by
  induction cs generalizing s with
  | nil => simp at hk
  | cons p cs ih =>
    obtain ⟨k', c'⟩ := p
    rw [List.map_cons, List.nodup_cons] at hn
    rw [checkAll] at h ⊢
    rcases hc : checkChain devs c' with e | o
    · rw [hc] at h; simp at h
    · rw [hc] at h
      simp only at h ⊢
      rcases List.mem_cons.1 hk with hk | hk
      · cases hk
        exact ⟨o, by rw [checkAll_frame _ _ _ _ hn.1, Function.update_self], hc⟩
      · exact ih _ hn.2 h hk

/-- **C242**: chains that are accepted replace the old ones as a whole, and every channel then has its devices in the order
of its own chain. Missing: chains that are refused, see `C242_false_refused`. -/
theorem C242_set_partial (g g' : Gen κ α) (cs : List (κ × SigChain α)) (hn : (cs.map Prod.fst).Nodup) (hne : cs ≠ [])
    (h : g.setChains cs = (g', none)) : g'.Consistent ∧ g'.Has cs ∧ g'.devs = g.devs := by
  cases cs with
  | nil => exact absurd rfl hne
  | cons p cs =>
    simp only [Gen.setChains, Prod.mk.injEq] at h
    obtain ⟨rfl, h2⟩ := h
    refine ⟨?_, ⟨?_, ?_⟩, rfl⟩
    · intro k c hk
      exact checkAll_ok g.devs g.sorted _ hn h2 k c ((find_mem _ hn k c).1 hk)
    · intro k c hk
      exact (find_mem _ hn k c).2 hk
    · intro k hk
      have : (p :: cs).find? (fun q => q.1 = k) = none := by
        rw [List.find?_eq_none]
        intro q hq hqk
        exact hk (List.mem_map.2 ⟨q, hq, by simpa using hqk⟩)
      simp only [Gen.chain, this, Option.map_none]

/-- C242: chains are accepted exactly if every single one is. -/
theorem C242_accepted_iff (devs : α → Option Dev) (cs : List (κ × SigChain α)) :
    (Gen.init devs cs).2 = none ↔ ∀ p ∈ cs, ∃ o, checkChain devs p.2 = .ok o := by
  have key : ∀ (s : κ → Option (List α)), (checkAll devs s cs).2 = none ↔ ∀ p ∈ cs, ∃ o, checkChain devs p.2 = .ok o := by
    induction cs with
    | nil => simp [checkAll]
    | cons p cs ih =>
      intro s
      obtain ⟨k, c⟩ := p
      rw [checkAll]
      rcases hc : checkChain devs c with e | o
      · simp [hc]
      · simp [hc, ih]
  cases cs with
  | nil => simp [Gen.init, Gen.setChains]
  | cons p cs =>
    rw [← key fun _ => none]
    rfl

theorem play_eq (devs : α → Option Dev) (c : SigChain α) (process : α → List V → V) (val : α → V)
    (hd : ∀ x ∈ c.nodes, ∃ d, devs x = some d) (done todo : List α) (stack : α → Option V)
    (hm : ∀ x ∈ todo, x ∈ c.nodes) (ht : Topological c.preds (done ++ todo))
    (hv : ∀ x ∈ todo, val x = process x ((c.preds x).map val)) (hs : ∀ x ∈ done, stack x = some (val x)) :
    play devs c process stack todo = (todo.map fun x => (x, val x), true) := by
  induction todo generalizing done stack with
  | nil => rfl
  | cons a todo ih =>
    have hc := collect_eq stack val (c.preds a) fun p h => hs p (ht done a todo rfl p h)
    obtain ⟨d, hd'⟩ := hd a (hm a (by simp))
    have hva := hv a (by simp)
    have h1 := ih (done ++ [a]) (Function.update stack a (some (val a))) (fun x hx => hm x (by simp [hx]))
      (by simpa using ht) (fun x hx => hv x (by simp [hx]))
      (by
        intro x hx
        by_cases hxa : x = a
        · simp [hxa]
        · rw [Function.update_of_ne hxa]
          exact hs x (by simpa [hxa] using hx))
    rw [play, if_pos (hm a (by simp)), hc, hd']
    simp only [← hva, h1, List.map_cons]

/-- **C242**: after chains were accepted, an instruction gets a signal for each of its channels and for no other: the value of
the device graph of that channel at a device that feeds no other one, whatever the other channels do. The callback is called
once for every device of these channels, after the calls for its sources, with the value of the device. A crosstalk device
acts on all signals at the end. -/
theorem C242_signals [Inhabited α] (g : Gen κ α) (hg : g.Consistent) (process : κ → α → List V → V)
    (crosstalk : Option (List (κ × V) → List (κ × V))) (chans : List κ) (ch : κ → SigChain α)
    (hch : ∀ k ∈ chans, g.chain k = some (ch k)) (hn : ∀ k ∈ chans, (ch k).nodes.Nodup) (val : κ → α → V)
    (hval : ∀ k ∈ chans, IsEval (ch k) (process k) (val k)) :
    ∃ (order : κ → List α) (out : κ → α),
      (∀ k ∈ chans, (order k).Perm (ch k).nodes ∧ Topological (ch k).preds (order k) ∧ IsSink (ch k) (out k)) ∧
      generateSignals g process crosstalk chans =
        (chans.flatMap fun k => (order k).map fun x => (k, x, val k x),
          some ((crosstalk.getD id) (chans.map fun k => (k, val k (out k))))) := by
  have one : ∀ k ∈ chans, ∃ (o : List α) (s : α), g.sorted k = some o ∧ o.Perm (ch k).nodes ∧
      Topological (ch k).preds o ∧ IsSink (ch k) s ∧ o.getLast? = some s ∧
      play g.devs (ch k) (process k) (fun _ => none) o = (o.map fun x => (x, val k x), true) := by
    intro k hk
    obtain ⟨o, h1, h2⟩ := hg k _ (hch k hk)
    obtain ⟨hw, hb, ho⟩ := (C47_accepted_iff g.devs (ch k) o).1 h2
    obtain ⟨hperm, ht⟩ := C44_devices_after_inputs (ch k) (hn k hk) o ho
    have hone : o ≠ [] := by
      rintro rfl
      have := List.nil_perm.1 hperm
      rw [this] at hb
      simp [balance] at hb
    obtain ⟨s, hs⟩ := exists_last o hone
    refine ⟨o, s, h1, hperm, ht, last_is_sink (ch k) (hn k hk) o hperm ht s hs, hs, ?_⟩
    exact play_eq g.devs (ch k) (process k) (val k)
      (fun x hx => (hw.known x hx).imp fun _ h => h.1) [] o _ (fun x hx => hperm.mem_iff.1 hx) (by simpa using ht)
      (fun x hx => hval k hk x (hperm.mem_iff.1 hx)) (by simp)
  set order : κ → List α := fun k => (g.sorted k).getD [] with hor
  set out : κ → α := fun k => (order k).getLast?.getD default with hout
  have all : ∀ k ∈ chans, g.sorted k = some (order k) ∧ (order k).Perm (ch k).nodes ∧
      Topological (ch k).preds (order k) ∧ IsSink (ch k) (out k) ∧ (order k).getLast? = some (out k) ∧
      play g.devs (ch k) (process k) (fun _ => none) (order k) = ((order k).map fun x => (x, val k x), true) := by
    intro k hk
    obtain ⟨o, s, h1, h2, h3, h4, h5, h6⟩ := one k hk
    have e1 : order k = o := by simp [hor, h1]
    have e2 : out k = s := by simp [hout, e1, h5]
    rw [e1, e2]
    exact ⟨h1, h2, h3, h4, h5, h6⟩
  refine ⟨order, out, fun k hk => ⟨(all k hk).2.1, (all k hk).2.2.1, (all k hk).2.2.2.1⟩, ?_⟩
  have loop : genLoop g process chans = (chans.flatMap fun k => (order k).map fun x => (k, x, val k x),
      some (chans.map fun k => (k, val k (out k)))) := by
    clear one
    clear_value order out
    induction chans with
    | nil => rfl
    | cons k ks ih =>
      obtain ⟨h1, -, -, -, h5, h6⟩ := all k (by simp)
      have ih' := ih (fun k hk => hch k (by simp [hk])) (fun k hk => hn k (by simp [hk]))
        (fun k hk => hval k (by simp [hk])) (fun k hk => all k (by simp [hk]))
      rw [genLoop, hch k (by simp), h1]
      simp only [h6, List.getLast?_map, h5, Option.map_some, ih', List.map_map, List.flatMap_cons, List.map_cons]
      rfl
  unfold generateSignals
  rw [loop]
  cases crosstalk <;> rfl

/-- C242: an instruction with a channel that has no chain is refused. -/
theorem C242_unknown (g : Gen κ α) (process : κ → α → List V → V) (crosstalk : Option (List (κ × V) → List (κ × V)))
    (chans : List κ) (k : κ) (hk : k ∈ chans) (hc : g.chain k = none) :
    (generateSignals g process crosstalk chans).2 = none := by
  have : (genLoop g process chans).2 = none := by
    induction chans with
    | nil => simp at hk
    | cons a ks ih =>
      rw [genLoop]
      by_cases ha : a = k
      · subst ha
        rw [hc]
      · have hks : k ∈ ks := by
          rcases List.mem_cons.1 hk with h | h
          · exact absurd h.symm ha
          · exact h
        rcases g.chain a with _ | c
        · rfl
        rcases g.sorted a with _ | o
        · rfl
        simp only
        split
        · simp [ih hks]
        · rfl
  simp [generateSignals, this]

/-- C242: without chains nothing is done: an empty dictionary does not remove the chains. -/
theorem C242_empty (g : Gen κ α) : g.setChains [] = (g, none) := rfl

/-! ### Refused chains -/

/-- An oscillator `lo`, a generator `awg` and a mixer of the two. -/
def mixed : SigChain String where
  nodes := ["lo", "awg", "mixer"]
  preds := fun x => if x = "mixer" then ["lo", "awg"] else []

/-- The sources of the mixer exchanged, and an oscillator too many. -/
def loose : SigChain String where
  nodes := ["lo", "awg", "mixer", "lo2"]
  preds := fun x => if x = "mixer" then ["awg", "lo"] else []

/-- The standard devices with a second oscillator. -/
def genDevs (x : String) : Option Dev := if x = "lo2" then some ⟨1, 0, 1⟩ else stdDevs x

/-- Devices that write their name and inputs. -/
def writeOut (_ : String) (x : String) (ins : List String) : String := x ++ "(" ++ ",".intercalate ins ++ ")"

/-- The generator with the chain `mixed` on two channels. -/
def twoLines : Gen String String := (Gen.init genDevs [("d1", mixed), ("d2", mixed)]).1

/-- **C242 is false**: chains that are refused with an exception replace the old ones nevertheless. Here the new chain of the
first channel has an output too many; afterwards the signal of that channel is that of the refused chain, run in the order of
the old one, and the second channel has no chain any more. -/
theorem C242_false_refused :
    (Gen.init genDevs [("d1", mixed), ("d2", mixed)]).2 = none ∧
      (generateSignals twoLines writeOut none ["d1", "d2"]).2 =
        some [("d1", "mixer(lo(),awg())"), ("d2", "mixer(lo(),awg())")] ∧
      (twoLines.setChains [("d1", loose)]).2 = some ("d1", .outputs) ∧
      (generateSignals (twoLines.setChains [("d1", loose)]).1 writeOut none ["d1"]).2 =
        some [("d1", "mixer(awg(),lo())")] ∧
      (generateSignals (twoLines.setChains [("d1", loose)]).1 writeOut none ["d2"]).2 = none := by
  refine ⟨by decide +kernel, by decide +kernel, by decide +kernel, by decide +kernel, by decide +kernel⟩

/-- The hypotheses of `C242_signals` are met, and the callback sees every device once. -/
example : (generateSignals twoLines writeOut none ["d1"]).1 =
    [("d1", "awg", "awg()"), ("d1", "lo", "lo()"), ("d1", "mixer", "mixer(lo(),awg())")] := by decide +kernel

example : twoLines.Consistent :=
  (C242_set_partial { devs := genDevs, chains := [], sorted := fun _ => none } twoLines [("d1", mixed), ("d2", mixed)]
    (by decide) (by simp) (by
      rw [Prod.ext_iff]
      exact ⟨rfl, by decide +kernel⟩)).1

end C3.Chain
