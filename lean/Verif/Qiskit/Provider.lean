import Mathlib.Data.List.Nodup
import Mathlib.Data.List.Dedup
import Mathlib.Data.List.ReduceOption
import Mathlib.Tactic.Linarith

/-!
# C210: the backends a Qiskit provider hands out, their options and their jobs

Models c3/qiskit/c3_provider.py:8-98, c3/qiskit/c3_job.py:6-44, c3/qiskit/c3_options.py:8-36 and
c3/qiskit/c3_backend.py:394-415, 486-494.

Simplified: a backend is the number of its object together with its name; the constructor of a class gives an object or
raises. `get_backend` is that of Qiskit's `ProviderV1`.
-/

namespace C3.Qiskit.Provider

/-! ## Model -/

/-- A backend object. -/
structure Backend where
  obj : ℕ
  name : String
  deriving DecidableEq

inductive Err where
  /-- `QiskitError`: a backend cannot be made -/
  | cannotMake
  /-- `QiskitBackendNotFoundError` -/
  | notFound
  /-- `AttributeError`: an option the backend does not have -/
  | badOption (field : String)
  deriving DecidableEq

/-- A class of backends: what its constructor gives (`none` if it raises). -/
abbrev Cls := Option Backend

/-- `d[k] = v` on an ordered dictionary: an existing entry is replaced in place. -/
def put (d : List (String × Backend)) (k : String) (b : Backend) : List (String × Backend) :=
  match d with
  | [] => [(k, b)]
  | (k', b') :: d => if k' = k then (k, b) :: d else (k', b') :: put d k b

/-- c3/qiskit/c3_provider.py:52-95 `_verify_backends`. -/
def verify : List (String × Backend) → List Cls → Except Err (List (String × Backend))
  | d, [] => .ok d
  | _, none :: _ => .error .cannotMake
  | d, some b :: cs => verify (put d b.name b) cs

/-- c3/qiskit/c3_provider.py:20-24 `__init__`. -/
def make (cs : List Cls) : Except Err (List (String × Backend)) := verify [] cs

/-- c3/qiskit/c3_provider.py:26-50 `backends`; `filters` is not used. -/
def backends (d : List (String × Backend)) (name : Option String) (_filters : Option (Backend → Bool)) :
    Except Err (List Backend) :=
  match name with
  | none => .ok (d.map Prod.snd)
  | some n =>
    if n = "" then .ok (d.map Prod.snd)
    else match d.lookup n with
      | some b => .ok [b]
      | none => .error .notFound

/-- `ProviderV1.get_backend`: exactly one backend has to match. -/
def getBackend (d : List (String × Backend)) (name : Option String) : Except Err Backend :=
  match backends d name none with
  | .error e => .error e
  | .ok [b] => .ok b
  | .ok _ => .error .notFound

/-- The options of a backend. -/
structure Options (V : Type) where
  params : V
  optMap : V
  shots : V
  memory : V
  initial : V

/-- `setattr` of Qiskit's `Options`; `none` if there is no such option. -/
def Options.set {V : Type} (o : Options V) (f : String) (v : V) : Option (Options V) :=
  match f with
  | "params" => some { o with params := v }
  | "opt_map" => some { o with optMap := v }
  | "shots" => some { o with shots := v }
  | "memory" => some { o with memory := v }
  | "initial_statevector" => some { o with initial := v }
  | _ => none

/-- c3/qiskit/c3_options.py:21-36 `to_dict`. -/
def Options.toDict {V : Type} (o : Options V) : List (String × V) :=
  [("params", o.params), ("opt_map", o.optMap), ("shots", o.shots), ("memory", o.memory), ("initial_statevector", o.initial)]

/-- c3/qiskit/c3_backend.py:394-402 `_set_options`: all names are checked first. -/
def Options.update {V : Type} (o : Options V) (kw : List (String × V)) : Except Err (Options V) :=
  match kw.find? fun p => (o.set p.1 p.2).isNone with
  | some p => .error (.badOption p.1)
  | none => .ok (kw.foldl (fun o p => (o.set p.1 p.2).getD o) o)

inductive Status where
  | initializing | running | done | error
  deriving DecidableEq

/-- c3/qiskit/c3_job.py:18-44: a job holds its result. -/
structure Job (R : Type) where
  res : R

def Job.submit {R : Type} (_j : Job R) : Option Unit := none
def Job.result {R : Type} (j : Job R) : R := j.res
def Job.status {R : Type} (_j : Job R) : Status := .done

/-- c3/qiskit/c3_backend.py:273-283: `run` computes the result before the job is made; if this raises there is no job. -/
def runJob {R E : Type} (compute : Except E R) : Except E (Job R) := compute.map Job.mk

/-! ## C210 -/

theorem put_keys (d : List (String × Backend)) (k : String) (b : Backend) :
    (put d k b).map Prod.fst = if k ∈ d.map Prod.fst then d.map Prod.fst else d.map Prod.fst ++ [k] := by
  induction d with
  | nil => simp [put]
  | cons p d ih =>
    obtain ⟨k', b'⟩ := p
    unfold put
    by_cases h : k' = k
    · simp [h]
    · rw [if_neg h, List.map_cons, ih]
      have : k ≠ k' := fun e => h e.symm
      by_cases hm : k ∈ d.map Prod.fst
      · simp [hm]
      · simp only [List.map_cons, List.mem_cons, hm, this, or_self, if_false, List.cons_append]

theorem put_lookup (d : List (String × Backend)) (k n : String) (b : Backend) :
    (put d k b).lookup n = if n = k then some b else d.lookup n := by
  induction d with
  | nil =>
    by_cases h : n = k
    · simp [put, h]
    · have : (n == k) = false := by simpa using h
      simp [put, h]
  | cons p d ih =>
    obtain ⟨k', b'⟩ := p
    unfold put
    by_cases h : k' = k
    · subst h
      by_cases hn : n = k'
      · simp [hn]
      · have : (n == k') = false := by simpa using hn
        simp [List.lookup_cons, this, hn]
    · rw [if_neg h, List.lookup_cons, List.lookup_cons, ih]
      by_cases hn : n = k'
      · subst hn
        simp [h]
      · have : (n == k') = false := by simpa using hn
        simp [this]

theorem verify_ok (d : List (String × Backend)) (cs : List Cls) :
    (∃ d', verify d cs = .ok d') ↔ none ∉ cs := by
  induction cs generalizing d with
  | nil => simp [verify]
  | cons c cs ih =>
    cases c with
    | none => simp [verify]
    | some b => simp [verify, ih]

theorem verify_lookup (d d' : List (String × Backend)) (cs : List Cls) (h : verify d cs = .ok d') (n : String) :
    d'.lookup n = match (cs.reduceOption.reverse.find? fun b => b.name == n) with
      | some b => some b
      | none => d.lookup n := by
  induction cs generalizing d with
  | nil =>
    simp only [verify, Except.ok.injEq] at h
    simp [h, List.reduceOption]
  | cons c cs ih =>
    cases c with
    | none => simp [verify] at h
    | some b =>
      rw [verify] at h
      rw [ih _ h, List.reduceOption_cons_of_some, List.reverse_cons, List.find?_append, put_lookup]
      cases cs.reduceOption.reverse.find? fun b => b.name == n with
      | some b' => simp
      | none =>
        by_cases hn : n = b.name
        · simp [hn]
        · have : (b.name == n) = false := by simpa using fun e => hn e.symm
          simp [this, hn]

theorem verify_names (d d' : List (String × Backend)) (cs : List Cls) (h : verify d cs = .ok d')
    (hd : (d.map Prod.fst).Nodup) (hn : ∀ p ∈ d, p.1 = p.2.name) :
    (d'.map Prod.fst).Nodup ∧ ∀ p ∈ d', p.1 = p.2.name := by
  induction cs generalizing d with
  | nil =>
    simp only [verify, Except.ok.injEq] at h
    subst h
    exact ⟨hd, hn⟩
  | cons c cs ih =>
    cases c with
    | none => simp [verify] at h
    | some b =>
      rw [verify] at h
      refine ih _ h ?_ ?_
      · rw [put_keys]
        split
        · exact hd
        · next hm =>
          rw [List.nodup_append]
          refine ⟨hd, by simp, ?_⟩
          intro a ha c hc
          rw [List.mem_singleton.1 hc]
          exact fun e => hm (e ▸ ha)
      · clear ih h hd
        induction d with
        | nil =>
          intro p hp
          simp only [put, List.mem_singleton] at hp
          subst hp
          rfl
        | cons q d ih =>
          obtain ⟨k', b'⟩ := q
          intro p hp
          unfold put at hp
          split at hp
          · rcases List.mem_cons.1 hp with rfl | hp
            · rfl
            · exact hn p (by simp [hp])
          · rcases List.mem_cons.1 hp with rfl | hp
            · exact hn _ (by simp)
            · exact ih (fun p hp => hn p (by simp [hp])) p hp

theorem mem_lookup (d : List (String × Backend)) (hd : (d.map Prod.fst).Nodup) (n : String) (b : Backend) :
    (n, b) ∈ d ↔ d.lookup n = some b := by
  induction d with
  | nil => simp
  | cons p d ih =>
    obtain ⟨k, c⟩ := p
    simp only [List.map_cons, List.nodup_cons] at hd
    rw [List.lookup_cons]
    by_cases hn : n = k
    · subst hn
      simp only [List.mem_cons, Prod.mk.injEq, true_and, beq_self_eq_true, Option.some.injEq]
      constructor
      · rintro (h | h)
        · exact h.symm
        · exact absurd (List.mem_map.2 ⟨_, h, rfl⟩) hd.1
      · intro h
        exact Or.inl h.symm
    · have : (n == k) = false := by simpa using hn
      simp only [List.mem_cons, Prod.mk.injEq, hn, false_and, false_or, this]
      exact ih hd.2

/-- **C210**: a provider can be made exactly if every class can be instantiated. -/
theorem C210_made (cs : List Cls) : (∃ d, make cs = .ok d) ↔ none ∉ cs := verify_ok [] cs

/-- **C210**: if the names are distinct, a provider lists every backend once. -/
theorem C210_all (cs : List Cls) (d : List (String × Backend)) (h : make cs = .ok d) (f : Option (Backend → Bool))
    (hnd : (cs.reduceOption.map Backend.name).Nodup) :
    ∃ bs, backends d none f = .ok bs ∧ bs.Nodup ∧ ∀ b, b ∈ bs ↔ some b ∈ cs := by
  obtain ⟨h1, h2⟩ := verify_names [] d cs h (by simp) (by simp)
  have key : ∀ b, b ∈ d.map Prod.snd ↔ some b ∈ cs := by
    intro b
    rw [← List.reduceOption_mem_iff]
    constructor
    · intro hb
      obtain ⟨⟨n, b'⟩, hm, rfl⟩ := List.mem_map.1 hb
      have := (mem_lookup d h1 n b').1 hm
      rw [verify_lookup [] d cs h] at this
      cases hf : cs.reduceOption.reverse.find? fun b => b.name == n with
      | none => simp [hf] at this
      | some c =>
        simp only [hf, Option.some.injEq] at this
        subst this
        exact List.mem_reverse.1 (List.mem_of_find?_eq_some hf)
    · intro hb
      refine List.mem_map.2 ⟨(b.name, b), (mem_lookup d h1 _ _).2 ?_, rfl⟩
      rw [verify_lookup [] d cs h]
      cases hf : cs.reduceOption.reverse.find? fun c => c.name == b.name with
      | none =>
        have := List.find?_eq_none.1 hf b (List.mem_reverse.2 hb)
        simp at this
      | some c =>
        have hc := List.mem_reverse.1 (List.mem_of_find?_eq_some hf)
        have hn : c.name = b.name := by simpa using List.find?_some hf
        rw [List.inj_on_of_nodup_map hnd hc hb hn]
  refine ⟨_, rfl, ?_, key⟩
  have : (d.map Prod.snd).map Backend.name = d.map Prod.fst := by
    rw [List.map_map]
    exact List.map_congr_left fun p hp => (h2 p hp).symm
  exact List.Nodup.of_map Backend.name (this ▸ h1)

/-- **C210**: a name gives the backend of this name, the last one if several classes use it, and an unknown one raises. All
calls give the same object. -/
theorem C210_named (cs : List Cls) (d : List (String × Backend)) (h : make cs = .ok d) (n : String) (hn : n ≠ "")
    (f : Option (Backend → Bool)) :
    (∀ b, backends d (some n) f = .ok [b] ↔ cs.reduceOption.reverse.find? (fun b => b.name == n) = some b) ∧
    (backends d (some n) f = .error .notFound ↔ ∀ b, some b ∈ cs → b.name ≠ n) ∧
    (∀ b, getBackend d (some n) = .ok b ↔ backends d (some n) f = .ok [b]) := by
  have hl := verify_lookup [] d cs h n
  have hfn : (cs.reduceOption.reverse.find? (fun b => b.name == n)) = none ↔ ∀ b, some b ∈ cs → b.name ≠ n := by
    rw [List.find?_eq_none]
    simp [List.reduceOption_mem_iff]
  cases hf : cs.reduceOption.reverse.find? fun b => b.name == n with
  | none =>
    rw [hf] at hl
    have hl' : d.lookup n = none := hl
    simp only [getBackend, backends, hn, if_false, hl']
    refine ⟨by simp, ?_, by simp⟩
    simpa using hfn.1 hf
  | some b =>
    rw [hf] at hl
    have hl' : d.lookup n = some b := hl
    simp only [getBackend, backends, hn, if_false, hl']
    refine ⟨by simp, ?_, by simp⟩
    have := mt hfn.2 (by rw [hf]; simp)
    simpa using this

/-- **C210 is false** for filters: a condition on the backends has no effect. -/
theorem C210_false_filters (cs : List Cls) (d : List (String × Backend)) (_h : make cs = .ok d) (n : Option String)
    (f g : Option (Backend → Bool)) : backends d n f = backends d n g := rfl

/-- The provider of the library: one backend, found by its name; a filter that refuses it does not hide it. -/
theorem C210_false_witness : ∃ d, make [some ⟨0, "c3_qasm_physics_simulator"⟩] = .ok d ∧
    getBackend d (some "c3_qasm_physics_simulator") = .ok ⟨0, "c3_qasm_physics_simulator"⟩ ∧
    getBackend d none = .ok ⟨0, "c3_qasm_physics_simulator"⟩ ∧
    getBackend d (some "qasm_simulator") = .error .notFound ∧
    backends d none (some fun _ => false) = .ok [⟨0, "c3_qasm_physics_simulator"⟩] :=
  ⟨_, rfl, by decide, by decide, by decide, by decide⟩

theorem lookup_if {V : Type} (k a : String) (v : V) (l : List (String × V)) :
    ((a, v) :: l).lookup k = if k = a then some v else l.lookup k := by
  rw [List.lookup_cons]
  by_cases h : k = a
  · simp [h]
  · have : (k == a) = false := by simpa using h
    simp [this, h]

/-- An option is found in the dictionary under its name, and it is what was set last; the others stay. -/
theorem set_toDict {V : Type} (o o' : Options V) (f : String) (v : V) (h : o.set f v = some o') (k : String) :
    o'.toDict.lookup k = if k = f then some v else o.toDict.lookup k := by
  unfold Options.set at h
  split at h <;> first
    | (simp only [Option.some.injEq] at h
       subst h
       simp only [Options.toDict, lookup_if]
       by_cases h1 : k = "params" <;> by_cases h2 : k = "opt_map" <;> by_cases h3 : k = "shots" <;>
         by_cases h4 : k = "memory" <;> by_cases h5 : k = "initial_statevector" <;>
         simp_all)
    | exact absurd h (by simp)

theorem set_fields {V : Type} (o : Options V) (f : String) (v : V) :
    o.set f v = none ↔ f ∉ o.toDict.map Prod.fst := by
  unfold Options.set
  split <;> simp_all [Options.toDict]

/-- **C210** (options): an unknown option is refused and nothing is stored; otherwise the dictionary holds for every option
the value passed last, or the one it had. -/
theorem C210_options {V : Type} (o : Options V) (kw : List (String × V)) :
    ((∃ p ∈ kw, p.1 ∉ ["params", "opt_map", "shots", "memory", "initial_statevector"]) →
      ∃ f, f ∈ kw.map Prod.fst ∧ f ∉ ["params", "opt_map", "shots", "memory", "initial_statevector"] ∧
        o.update kw = .error (.badOption f)) ∧
    ((∀ p ∈ kw, p.1 ∈ ["params", "opt_map", "shots", "memory", "initial_statevector"]) →
      ∃ o', o.update kw = .ok o' ∧
        ∀ k, o'.toDict.lookup k = match kw.reverse.lookup k with | some v => some v | none => o.toDict.lookup k) := by
  have hf : ∀ (o : Options V) (p : String × V), (o.set p.1 p.2).isNone = true ↔
      p.1 ∉ ["params", "opt_map", "shots", "memory", "initial_statevector"] := by
    intro o p
    rw [Option.isNone_iff_eq_none, set_fields]
    rfl
  constructor
  · rintro ⟨p, hp, hpn⟩
    cases hfd : kw.find? fun p => (o.set p.1 p.2).isNone with
    | none => exact absurd ((hf o p).2 hpn) (List.find?_eq_none.1 hfd p hp)
    | some q =>
      refine ⟨q.1, List.mem_map.2 ⟨q, List.mem_of_find?_eq_some hfd, rfl⟩, (hf o q).1 (by simpa using List.find?_some (p := fun p : String × V => (o.set p.1 p.2).isNone) hfd), ?_⟩
      simp [Options.update, hfd]
  · intro hk
    have hfd : (kw.find? fun p => (o.set p.1 p.2).isNone) = none := by
      rw [List.find?_eq_none]
      exact fun p hp h => (hf o p).1 h (hk p hp)
    refine ⟨kw.foldl (fun o p => (o.set p.1 p.2).getD o) o, by simp [Options.update, hfd], ?_⟩
    clear hfd
    induction kw generalizing o with
    | nil => simp
    | cons p kw ih =>
      intro k
      rw [List.foldl_cons, ih _ (fun q hq => hk q (by simp [hq])) k, List.reverse_cons, List.lookup_append]
      cases hl : kw.reverse.lookup k with
      | some v => simp
      | none =>
        cases hs : o.set p.1 p.2 with
        | none => exact absurd (hk p (by simp)) ((hf o p).1 (by rw [hs]; rfl))
        | some o' =>
          simp only [Option.getD_some, Option.none_or]
          rw [set_toDict o o' p.1 p.2 hs k, List.lookup_cons]
          by_cases hkp : k = p.1
          · simp [hkp]
          · have : (k == p.1) = false := by simpa using hkp
            simp [this, hkp]

/-- **C210** (jobs): there is a job exactly if the computation went through, and then its result is there at once. -/
theorem C210_job {R E : Type} (compute : Except E R) (j : Job R) :
    (runJob compute = .ok j ↔ compute = .ok j.result) ∧ (runJob compute = .ok j → j.status = .done) := by
  refine ⟨?_, fun _ => rfl⟩
  cases compute with
  | error e => simp [runJob, Except.map]
  | ok r =>
    obtain ⟨x⟩ := j
    simp [runJob, Except.map, Job.result]

example : (⟨0, 0, 1024, 0, 0⟩ : Options ℕ).update [("shots", 5), ("memory", 1), ("shots", 7)] = .ok ⟨0, 0, 7, 1, 0⟩ ∧
    (⟨0, 0, 1024, 0, 0⟩ : Options ℕ).update [("shots", 5), ("shot", 1)] = .error (.badOption "shot") := ⟨rfl, rfl⟩

end C3.Qiskit.Provider
