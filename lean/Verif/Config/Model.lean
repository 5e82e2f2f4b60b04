import Verif.Config.Dict
import Mathlib.Data.Real.Basic
import Mathlib.Tactic.NormNum

/-!
# Models: components and configuration files (C131, C132)

Model of `Model.__init__`, `set_components`, `set_tasks`, `fromdict`, `asdict` (c3/model.py:43-61, 119-139,
240-306) with the dictionaries of the components (c3/libraries/chip.py:88-97, 1132-1151, c3/c3objs.py:48-52).
Matrices are left out: they are computed from what is modelled here (c3/model.py:141-216). That a quantity
survives its dictionary is C06, that files keep dictionaries is C127.
-/

namespace C3.Config.Mdl

variable {Q : Type}

/-- A subsystem: class, name, parameters, dimension. -/
structure Sub (Q : Type) where
  cls : String
  name : String
  params : List (String × Q)
  dim : ℕ

/-- A coupling or drive. `hfunc` is the name of the Hamiltonian function. -/
structure Line (Q : Type) where
  cls : String
  name : String
  params : List (String × Q)
  hfunc : String
  connected : List String
  isDrive : Bool

/-- A task. -/
structure Task (Q : Type) where
  cls : String
  name : String
  params : List (String × Q)

/-- Settings of a model (c3/model.py:44-47). -/
structure Flags where
  dressed : Bool
  lindbladian : Bool
  useFR : Bool
  dephasing : ℝ

/-- c3/model.py:44-47. -/
def Flags.initial : Flags := ⟨true, false, true, 0⟩

structure Mod (Q : Type) where
  subs : List (String × Sub Q)
  lines : List (String × Line Q)
  tasks : List (String × Task Q)
  /-- `drive_line` of the subsystems -/
  driven : List (String × String)
  maxEx : Option ℕ
  flags : Flags

inductive Err where
  | key (k : String)
  | unknownDevice
  | sameName
  | type
  deriving DecidableEq

/-- c3/model.py:43-61 without components. -/
def Mod.empty : Mod Q := ⟨[], [], [], [], none, .initial⟩

/-- c3/model.py:109-117: every subsystem of the drive gets its name. -/
def connectDrive (subs : List (String × Sub Q)) (name : String) :
    List String → List (String × String) → Except Err (List (String × String))
  | [], d => .ok d
  | c :: cs, d =>
    match dget subs c with
    | none => .error (.key c)
    | some _ => connectDrive subs name cs (dset d c name)

/-- c3/model.py:122-128, the loop over the couplings. -/
def addLines (m : Mod Q) : List (Line Q) → Except Err (Mod Q)
  | [] => .ok m
  | l :: ls =>
    let m1 := { m with lines := dset m.lines l.name l }
    match if l.isDrive then connectDrive m.subs l.name l.connected m.driven else .ok m.driven with
    | .error e => .error e
    | .ok d =>
      if l.connected.all fun c => (dget m.subs c).isSome then addLines { m1 with driven := d } ls
      else .error .unknownDevice

/-- c3/model.py:119-135 `set_components`. Iterating over `couplings=None` is a type error. -/
def setComponents (m : Mod Q) (subs : List (Sub Q)) (lines : Option (List (Line Q))) (maxEx : Option ℕ) :
    Except Err (Mod Q) :=
  let m1 := { m with subs := subs.foldl (fun d s => dset d s.name s) m.subs }
  match lines with
  | none => .error .type
  | some ls =>
    match addLines m1 ls with
    | .error e => .error e
    | .ok m2 =>
      if m2.lines.any fun p => (dget m2.subs p.1).isSome then .error .sameName
      else .ok { m2 with maxEx := maxEx }

/-- c3/model.py:137-139 `set_tasks`. -/
def setTasks (m : Mod Q) (ts : List (Task Q)) : Mod Q :=
  { m with tasks := ts.foldl (fun d t => dset d t.name t) m.tasks }

/-- The dictionary of a model (c3/model.py:288-306): the names of the components are the keys. -/
structure Cfg (Q : Type) where
  qubits : List (String × Sub Q)
  couplings : List (String × Line Q)
  tasks : List (String × Task Q)
  dressed : Option Bool
  maxEx : Option ℕ

/-- c3/model.py:288-306 `asdict`. -/
def Mod.asdict (m : Mod Q) : Cfg Q := ⟨m.subs, m.lines, m.tasks, none, m.maxEx⟩

/-- c3/model.py:240-279 `fromdict` on a new model. `hams` are the registered Hamiltonian functions. -/
def fromdict (hams : List String) (c : Cfg Q) : Except Err (Mod Q) :=
  let subs := c.qubits.map fun p => { p.2 with name := p.1 }
  let lines := c.couplings.map fun p => { p.2 with name := p.1 }
  match lines.find? fun l => l.hfunc ∉ hams with
  | some l => .error (.key l.hfunc)
  | none =>
    let m0 := setTasks Mod.empty (c.tasks.map fun p => { p.2 with name := p.1 })
    let m1 := { m0 with flags := { m0.flags with dressed := c.dressed.getD m0.flags.dressed } }
    match setComponents m1 subs (some lines) (some 0) with
    | .error e => .error e
    | .ok m2 => .ok { m2 with maxEx := c.maxEx }

/-! ## Lemmas -/

theorem foldl_dset {V W : Type} (f : W → String) (g : W → V) (l : List W) (d : List (String × V)) :
    l.foldl (fun d x => dset d (f x) (g x)) d = dupdate d (l.map fun x => (f x, g x)) := by
  unfold dupdate
  rw [List.foldl_map]

/-- A dictionary of components is keyed by their names. -/
def Keyed {V : Type} (name : V → String) (d : List (String × V)) : Prop :=
  Distinct d ∧ ∀ p ∈ d, name p.2 = p.1

/-- What `addLines` gives when it succeeds. -/
theorem addLines_spec (m : Mod Q) (ls : List (Line Q)) (m' : Mod Q) (h : addLines m ls = .ok m') :
    m'.subs = m.subs ∧ m'.tasks = m.tasks ∧ m'.flags = m.flags ∧ m'.maxEx = m.maxEx ∧
      m'.lines = dupdate m.lines (ls.map fun l => (l.name, l)) ∧
      ∀ l ∈ ls, ∀ c ∈ l.connected, (dget m.subs c).isSome = true := by
  induction ls generalizing m with
  | nil =>
    simp only [addLines, Except.ok.injEq] at h
    subst h
    exact ⟨rfl, rfl, rfl, rfl, rfl, by simp⟩
  | cons l ls ih =>
    simp only [addLines] at h
    cases hd : (if l.isDrive then connectDrive m.subs l.name l.connected m.driven else .ok m.driven) with
    | error e => rw [hd] at h; cases h
    | ok d =>
      rw [hd] at h
      simp only at h
      split at h
      · rename_i hc
        obtain ⟨h1, h2, h3, h4, h5, h6⟩ := ih _ h
        refine ⟨h1, h2, h3, h4, ?_, ?_⟩
        · rw [h5]; rfl
        · intro l' hl' c hc'
          rcases List.mem_cons.1 hl' with rfl | hl'
          · exact List.all_eq_true.1 hc c hc'
          · exact h6 l' hl' c hc'
      · cases h

/-! ## C132 -/

/-- **C132**, what holds: when a model is built, every coupling and drive connects existing subsystems and no
coupling shares its name with a subsystem; with distinct names all components are in the model, in the given
order. Missing: components of one kind with the same name, see the negation. -/
theorem C132_components_partial (subs : List (Sub Q)) (ls : List (Line Q)) (maxEx : Option ℕ) (m : Mod Q)
    (h : setComponents Mod.empty subs (some ls) maxEx = .ok m) :
    (∀ l ∈ ls, ∀ c ∈ l.connected, ∃ s ∈ subs, s.name = c) ∧
    (∀ l ∈ ls, ∀ s ∈ subs, l.name ≠ s.name) ∧
    ((subs.map Sub.name).Nodup → m.subs.map Prod.snd = subs) ∧
    ((ls.map Line.name).Nodup → m.lines.map Prod.snd = ls) := by
  unfold setComponents at h
  simp only at h
  cases ha : addLines { (Mod.empty : Mod Q) with subs := subs.foldl (fun d s => dset d s.name s) (Mod.empty : Mod Q).subs } ls with
  | error e => rw [ha] at h; cases h
  | ok m2 =>
    rw [ha] at h
    simp only at h
    obtain ⟨h1, _, _, _, h5, h6⟩ := addLines_spec _ _ _ ha
    split at h
    · cases h
    · rename_i hn
      simp only [Except.ok.injEq] at h
      subst h
      have hsub : m2.subs = dupdate [] (subs.map fun s => (s.name, s)) := by
        rw [h1]
        simp only [Mod.empty]
        exact foldl_dset Sub.name id subs []
      have hin : ∀ c, (dget m2.subs c).isSome = true ↔ ∃ s ∈ subs, s.name = c := by
        intro c
        rw [hsub]
        clear * -
        have key : ∀ (l : List (Sub Q)) (d : List (String × Sub Q)),
            (dget (dupdate d (l.map fun s => (s.name, s))) c).isSome = true ↔
              (dget d c).isSome = true ∨ ∃ s ∈ l, s.name = c := by
          intro l
          induction l with
          | nil => intro d; simp [dupdate]
          | cons s l ih =>
            intro d
            have := ih (dset d s.name s)
            simp only [dupdate, List.map_cons, List.foldl_cons] at this ⊢
            rw [this, dget_dset]
            by_cases hs : s.name = c
            · simp [hs]
            · simp [hs]
        rw [key subs []]
        simp [dget]
      have hlk : ∀ l ∈ ls, l.name ∈ m2.lines.map Prod.fst := by
        intro l hl
        rw [h5]
        simp only [Mod.empty]
        clear * - hl
        have key : ∀ (r : List (Line Q)) (d : List (String × Line Q)), (l ∈ r ∨ l.name ∈ d.map Prod.fst) →
            l.name ∈ (dupdate d (r.map fun x => (x.name, x))).map Prod.fst := by
          intro r
          induction r with
          | nil =>
            intro d h
            rcases h with h | h
            · simp at h
            · exact h
          | cons x r ih =>
            intro d h
            refine ih (dset d x.name x) ?_
            rcases h with h | h
            · rcases List.mem_cons.1 h with rfl | h
              · right
                rw [dset_keys]
                split <;> simp_all
              · exact Or.inl h
            · right
              rw [dset_keys]
              split <;> simp_all
        exact key ls [] (Or.inl hl)
      refine ⟨?_, ?_, ?_, ?_⟩
      · intro l hl c hc
        have := h6 l hl c hc
        rw [← h1, hin] at this
        exact this
      · intro l hl s hs he
        apply hn
        rw [List.any_eq_true]
        obtain ⟨p, hp, hpe⟩ := List.mem_map.1 (hlk l hl)
        refine ⟨p, hp, ?_⟩
        rw [hin]
        exact ⟨s, hs, by rw [hpe, he]⟩
      · intro hd
        simp only [hsub]
        rw [dupdate_nil _ (by unfold Distinct; simpa [List.map_map, Function.comp_def] using hd)]
        simp [List.map_map, Function.comp_def]
      · intro hd
        simp only [h5, Mod.empty]
        rw [dupdate_nil _ (by unfold Distinct; simpa [List.map_map, Function.comp_def] using hd)]
        simp [List.map_map, Function.comp_def]

/-- **C132 is false** for two subsystems with the same name: the first one is dropped without a message and
the Hilbert space is smaller than asked for. -/
theorem C132_false_duplicate (a b : Sub Q) (h : a.name = b.name) (maxEx : Option ℕ) :
    ∃ m, setComponents Mod.empty [a, b] (some []) maxEx = .ok m ∧ m.subs = [(b.name, b)] := by
  refine ⟨_, rfl, ?_⟩
  simp [Mod.empty, dset, h]

/-- **C132 is false** without couplings: `Model(subsystems)` raises. -/
theorem C132_false_no_couplings (subs : List (Sub Q)) (maxEx : Option ℕ) :
    setComponents Mod.empty subs none maxEx = .error .type := rfl

theorem connectDrive_get (subs : List (String × Sub Q)) (name : String) (cs : List String)
    (d e : List (String × String)) (h : connectDrive subs name cs d = .ok e) (c : String) :
    dget e c = if c ∈ cs then some name else dget d c := by
  induction cs generalizing d with
  | nil =>
    simp only [connectDrive, Except.ok.injEq] at h
    simp [h]
  | cons a cs ih =>
    simp only [connectDrive] at h
    split at h
    · cases h
    · rw [ih _ h, dget_dset]
      by_cases h1 : c ∈ cs
      · simp [h1]
      · by_cases h2 : a = c
        · simp [h2]
        · simp [h1, h2, Ne.symm h2]

theorem addLines_driven (ls : List (Line Q)) (m m' : Mod Q) (h : addLines m ls = .ok m') (c : String) :
    dget m'.driven c = (((ls.filter fun l => l.isDrive && l.connected.contains c).getLast?.map Line.name).or
      (dget m.driven c)) := by
  induction ls generalizing m with
  | nil =>
    simp only [addLines, Except.ok.injEq] at h
    simp [h]
  | cons l ls ih =>
    simp only [addLines] at h
    cases hd : (if l.isDrive then connectDrive m.subs l.name l.connected m.driven else .ok m.driven) with
    | error e => rw [hd] at h; cases h
    | ok d =>
      rw [hd] at h
      simp only at h
      split at h
      · rw [ih _ h]
        have e : dget d c = if l.isDrive && l.connected.contains c then some l.name else dget m.driven c := by
          cases hi : l.isDrive with
          | false =>
            rw [hi] at hd
            simp only [Bool.false_eq_true, if_false, Except.ok.injEq] at hd
            simp [hd]
          | true =>
            rw [hi] at hd
            simp only [if_true] at hd
            rw [connectDrive_get _ _ _ _ _ hd]
            simp
        simp only
        rw [e]
        by_cases hc : (l.isDrive && l.connected.contains c) = true
        · rw [List.filter_cons, if_pos hc, if_pos hc, List.getLast?_cons]
          cases (ls.filter fun l => l.isDrive && l.connected.contains c).getLast? <;> simp
        · rw [List.filter_cons, if_neg hc, if_neg hc]
      · cases h

/-- C132: the drive line noted at a subsystem is the last drive in the list that is connected to it; a subsystem
without drive has none. -/
theorem C132_driven (subs : List (Sub Q)) (ls : List (Line Q)) (maxEx : Option ℕ) (m : Mod Q)
    (h : setComponents Mod.empty subs (some ls) maxEx = .ok m) (c : String) :
    dget m.driven c = (ls.filter fun l => l.isDrive && l.connected.contains c).getLast?.map Line.name := by
  unfold setComponents at h
  simp only at h
  cases ha : addLines { (Mod.empty : Mod Q) with subs := subs.foldl (fun d s => dset d s.name s) (Mod.empty : Mod Q).subs } ls with
  | error e => rw [ha] at h; cases h
  | ok m2 =>
    have hx := addLines_driven ls _ m2 ha c
    have hm : m.driven = m2.driven := by
      rw [ha] at h
      simp only at h
      split at h
      · cases h
      · simp only [Except.ok.injEq] at h
        rw [← h]
    rw [hm, hx]
    simp [Mod.empty, dget]

/-- A drive on a subsystem that does not exist is refused. -/
theorem C132_refused (subs : List (Sub Q)) (ls : List (Line Q)) (maxEx : Option ℕ) (l : Line Q) (hl : l ∈ ls)
    (c : String) (hc : c ∈ l.connected) (hn : ∀ s ∈ subs, s.name ≠ c) :
    ∃ e, setComponents Mod.empty subs (some ls) maxEx = .error e := by
  cases h : setComponents Mod.empty subs (some ls) maxEx with
  | error e => exact ⟨e, rfl⟩
  | ok m =>
    obtain ⟨s, hs, he⟩ := (C132_components_partial subs ls maxEx m h).1 l hl c hc
    exact absurd he (hn s hs)

/-! ## C131 -/

theorem rename_keyed {V : Type} (name : V → String) (set : V → String → V) (d : List (String × V))
    (hk : Keyed name d) (hset : ∀ v, set v (name v) = v) :
    (d.map fun p => set p.2 p.1) = d.map Prod.snd := by
  apply List.map_congr_left
  intro p hp
  rw [← hk.2 p hp, hset]

theorem rebuild_keyed {V : Type} (name : V → String) (d : List (String × V)) (hk : Keyed name d) :
    dupdate [] ((d.map Prod.snd).map fun v => (name v, v)) = d := by
  have : (d.map Prod.snd).map (fun v => (name v, v)) = d := by
    rw [List.map_map]
    conv_rhs => rw [← List.map_id d]
    apply List.map_congr_left
    intro p hp
    simp [hk.2 p hp]
  rw [this, dupdate_nil _ hk.1]

/-- **C131**, what holds: a model that was built with registered Hamiltonian functions is read back from its
dictionary with the same subsystems, couplings, tasks and excitation limit. Missing: the settings, see the
negation. -/
theorem C131_roundtrip_partial (hams : List String) (m : Mod Q) (hs : Keyed Sub.name m.subs)
    (hl : Keyed Line.name m.lines) (ht : Keyed Task.name m.tasks)
    (hh : ∀ p ∈ m.lines, p.2.hfunc ∈ hams)
    (hc : ∀ p ∈ m.lines, ∀ c ∈ p.2.connected, (dget m.subs c).isSome = true)
    (hn : ∀ p ∈ m.lines, dget m.subs p.1 = none) :
    ∃ m', fromdict hams m.asdict = .ok m' ∧ m'.subs = m.subs ∧ m'.lines = m.lines ∧ m'.tasks = m.tasks ∧
      m'.maxEx = m.maxEx ∧ m'.flags = .initial := by
  have e1 : (m.subs.map fun p => ({ p.2 with name := p.1 } : Sub Q)) = m.subs.map Prod.snd :=
    rename_keyed Sub.name (fun v n => { v with name := n }) _ hs (fun _ => rfl)
  have e2 : (m.lines.map fun p => ({ p.2 with name := p.1 } : Line Q)) = m.lines.map Prod.snd :=
    rename_keyed Line.name (fun v n => { v with name := n }) _ hl (fun _ => rfl)
  have e3 : (m.tasks.map fun p => ({ p.2 with name := p.1 } : Task Q)) = m.tasks.map Prod.snd :=
    rename_keyed Task.name (fun v n => { v with name := n }) _ ht (fun _ => rfl)
  have hdrive : ∀ (cs : List String) (n : String) (d : List (String × String)),
      (∀ c ∈ cs, (dget m.subs c).isSome = true) → ∃ d', connectDrive m.subs n cs d = .ok d' := by
    intro cs n
    induction cs with
    | nil => intro d _; exact ⟨d, rfl⟩
    | cons c cs ih =>
      intro d h
      have h1 := h c List.mem_cons_self
      simp only [connectDrive]
      cases hg : dget m.subs c with
      | none => rw [hg] at h1; cases h1
      | some s => exact ih _ fun c' hc' => h c' (List.mem_cons_of_mem _ hc')
  have hadd : ∀ (ls : List (Line Q)) (x : Mod Q), x.subs = m.subs →
      (∀ l ∈ ls, ∀ c ∈ l.connected, (dget m.subs c).isSome = true) → ∃ x', addLines x ls = .ok x' := by
    intro ls
    induction ls with
    | nil => intro x _ _; exact ⟨x, rfl⟩
    | cons l ls ih =>
      intro x hx h
      have hl1 := h l List.mem_cons_self
      obtain ⟨d', hd'⟩ : ∃ d', (if l.isDrive then connectDrive x.subs l.name l.connected x.driven else .ok x.driven) = .ok d' := by
        split
        · rw [hx]; exact hdrive _ _ _ hl1
        · exact ⟨_, rfl⟩
      simp only [addLines, hd']
      rw [if_pos (by rw [List.all_eq_true, hx]; exact hl1)]
      exact ih _ hx fun l' hl' => h l' (List.mem_cons_of_mem _ hl')
  unfold fromdict
  simp only [Mod.asdict, e1, e2, e3]
  have hfind : (m.lines.map Prod.snd).find? (fun l => decide (l.hfunc ∉ hams)) = none := by
    rw [List.find?_eq_none]
    intro l hl'
    obtain ⟨p, hp, rfl⟩ := List.mem_map.1 hl'
    simpa using hh p hp
  rw [hfind]
  simp only
  have hsub : (m.subs.map Prod.snd).foldl (fun d s => dset d s.name s) [] = m.subs := by
    exact (foldl_dset Sub.name id _ []).trans (rebuild_keyed Sub.name m.subs hs)
  have htask : (m.tasks.map Prod.snd).foldl (fun d t => dset d t.name t) [] = m.tasks := by
    exact (foldl_dset Task.name id _ []).trans (rebuild_keyed Task.name m.tasks ht)
  unfold setComponents
  simp only [setTasks, Mod.empty, hsub, htask]
  obtain ⟨x', hx'⟩ := hadd (m.lines.map Prod.snd)
    { subs := m.subs, lines := [], tasks := m.tasks, driven := [], maxEx := none, flags := { Flags.initial with dressed := Option.getD none Flags.initial.dressed } }
    rfl (by
      intro l hl' c hc'
      obtain ⟨p, hp, rfl⟩ := List.mem_map.1 hl'
      exact hc p hp c hc')
  rw [hx']
  obtain ⟨a1, a2, a3, _, a5, _⟩ := addLines_spec _ _ _ hx'
  have hlines : x'.lines = m.lines := by
    rw [a5]
    exact rebuild_keyed Line.name m.lines hl
  simp only
  rw [if_neg]
  · exact ⟨_, rfl, a1, hlines, a2, rfl, a3⟩
  · rw [List.any_eq_true]
    rintro ⟨p, hp, h⟩
    rw [hlines] at hp
    rw [a1] at h
    simp [hn p hp] at h

/-- C131: the settings of a model that is read: closed dynamics, with frame rotation, no dephasing, and dressed unless
the file says otherwise. -/
theorem C131_settings (hams : List String) (c : Cfg Q) (m : Mod Q) (h : fromdict hams c = .ok m) :
    m.flags.lindbladian = false ∧ m.flags.useFR = true ∧ m.flags.dephasing = 0 ∧
      (c.dressed = none → m.flags.dressed = true) ∧ ∀ b, c.dressed = some b → m.flags.dressed = b := by
  have hf : m.flags = { Flags.initial with dressed := c.dressed.getD Flags.initial.dressed } := by
    unfold fromdict at h
    simp only at h
    split at h
    · cases h
    · split at h
      · cases h
      · rename_i m2 h2
        simp only [Except.ok.injEq] at h
        subst h
        unfold setComponents at h2
        simp only at h2
        split at h2
        · cases h2
        · rename_i m3 h3
          split at h2
          · cases h2
          · simp only [Except.ok.injEq] at h2
            subst h2
            have hl : ∀ (ls : List (Line Q)) (a b : Mod Q), addLines a ls = .ok b → b.flags = a.flags := by
              intro ls
              induction ls with
              | nil => intro a b hab; simp only [addLines, Except.ok.injEq] at hab; rw [hab]
              | cons l ls ih =>
                intro a b hab
                rw [addLines] at hab
                simp only at hab
                split at hab
                · cases hab
                · split at hab
                  · exact (ih _ _ hab).trans rfl
                  · cases hab
            exact hl _ _ _ h3
  rw [hf]
  refine ⟨rfl, rfl, rfl, fun h => by simp [h, Flags.initial], fun b h => by simp [h]⟩

/-- **C131 is false** for the settings: a model that does not use the dressed basis, is an open system, does
not use the rotating frame or has a dephasing strength is different after reading. -/
theorem C131_false_settings (hams : List String) (m m' : Mod Q) (hs : Keyed Sub.name m.subs)
    (hl : Keyed Line.name m.lines) (ht : Keyed Task.name m.tasks)
    (hh : ∀ p ∈ m.lines, p.2.hfunc ∈ hams)
    (hc : ∀ p ∈ m.lines, ∀ c ∈ p.2.connected, (dget m.subs c).isSome = true)
    (hn : ∀ p ∈ m.lines, dget m.subs p.1 = none) (hf : m.flags ≠ .initial)
    (h : fromdict hams m.asdict = .ok m') : m'.flags ≠ m.flags := by
  obtain ⟨x, h1, _, _, _, _, h2⟩ := C131_roundtrip_partial hams m hs hl ht hh hc hn
  rw [h1] at h
  simp only [Except.ok.injEq] at h
  subst h
  rw [h2]
  exact Ne.symm hf

/-- The reader does look for the setting the writer leaves out. -/
theorem C131_reads_dressed (hams : List String) (c : Cfg Q) (m : Mod Q) (b : Bool) (hd : c.dressed = some b)
    (h : fromdict hams c = .ok m) : m.flags.dressed = b := by
  unfold fromdict at h
  simp only at h
  split at h
  · cases h
  · rename_i hfind
    cases hs : setComponents { setTasks Mod.empty (c.tasks.map fun p => ({ p.2 with name := p.1 } : Task Q)) with flags := { (setTasks Mod.empty (c.tasks.map fun p => ({ p.2 with name := p.1 } : Task Q))).flags with dressed := c.dressed.getD (setTasks Mod.empty (c.tasks.map fun p => ({ p.2 with name := p.1 } : Task Q))).flags.dressed } } (c.qubits.map fun p => ({ p.2 with name := p.1 } : Sub Q)) (some (c.couplings.map fun p => ({ p.2 with name := p.1 } : Line Q))) (some 0) with
    | error e => rw [hs] at h; cases h
    | ok m2 =>
      rw [hs] at h
      simp only [Except.ok.injEq] at h
      subst h
      unfold setComponents at hs
      simp only at hs
      split at hs
      · cases hs
      · rename_i x hx
        obtain ⟨_, _, a3, _, _, _⟩ := addLines_spec _ _ _ hx
        split at hs
        · cases hs
        · simp only [Except.ok.injEq] at hs
          subst hs
          simp only [a3, hd, Option.getD_some]

/-! ## Examples -/

/-- Two qubits with a coupling and a drive. -/
def exQ1 : Sub ℕ := ⟨"Qubit", "Q1", [("freq", 5)], 3⟩
def exQ2 : Sub ℕ := ⟨"Qubit", "Q2", [("freq", 6)], 3⟩
def exC : Line ℕ := ⟨"Coupling", "Q1-Q2", [("strength", 1)], "int_XX", ["Q1", "Q2"], false⟩
def exD : Line ℕ := ⟨"Drive", "d1", [], "x_drive", ["Q1"], true⟩

def exM : Mod ℕ where
  subs := [("Q1", exQ1), ("Q2", exQ2)]
  lines := [("Q1-Q2", exC), ("d1", exD)]
  tasks := []
  driven := [("Q1", "d1")]
  maxEx := some 2
  flags := { Flags.initial with dressed := false }

/-- Such a model is what `set_components` builds. -/
example : ∃ m, setComponents Mod.empty [exQ1, exQ2] (some [exC, exD]) (some 2) = .ok m ∧ m.subs = exM.subs ∧
    m.lines = exM.lines ∧ m.driven = exM.driven ∧ m.maxEx = exM.maxEx := ⟨_, rfl, rfl, rfl, rfl, rfl⟩

/-- C131 and C132 are not vacuous. -/
example : ∃ m', fromdict ["int_XX", "x_drive"] exM.asdict = .ok m' ∧ m'.subs = exM.subs ∧ m'.flags ≠ exM.flags :=
  ⟨_, rfl, rfl, by simp [exM, Flags.initial, Mod.asdict, setTasks, Mod.empty]⟩

example : ∃ e, setComponents Mod.empty [exQ1] (some [exC]) (some 0) = .error e :=
  C132_refused [exQ1] [exC] (some 0) exC (by simp) "Q2" (by simp [exC]) (by simp [exQ1])

end C3.Config.Mdl
