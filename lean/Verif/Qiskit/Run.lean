import Verif.Gates.Tables
import Mathlib.Analysis.SpecialFunctions.Trigonometric.Basic
import Mathlib.Tactic.NormNum
import Mathlib.Tactic.Linarith

/-!
# C161 to C164: running circuits on the Qiskit backend

Sanitising of circuits, parameter updates from run options and from gates, and the matrices of the
gates handed to Qiskit (c3/qiskit/c3_backend.py, c3/qiskit/c3_gates.py).
-/

namespace C3.Qiskit.Run

/-- One instruction of a circuit as `to_dict` gives it: name, qubits, and for an update gate the values and the
opt_map in `params`. -/
structure Instr (V K : Type) where
  name : String
  qubits : List ℕ
  vals : List V
  ids : List K

/-- The experiment behind the backend. `set` is `pmap.set_parameters` with the parameters it leaves behind and
whether it came through; `compute` is `compute_propagators`; `eval` is `evaluate` and `process`, `none` for
a `KeyError`. Simplification: `compute` does not raise. -/
structure Dev (P V K G R : Type) where
  qubits : ℕ
  set : List V → List K → P → P × Bool
  compute : P → G
  eval : G → List (Instr V K) → Option R

/-- What lives on between calls: parameters, propagators and the two run options. -/
structure St (P V K G : Type) where
  pars : P
  props : G
  params : Option (List V)
  optMap : Option (List K)

inductive Err where
  | missingMap   -- KeyError: opt_map missing
  | setFailed    -- raised by set_parameters
  | tooFew       -- not enough qubits
  | index        -- IndexError of `sanitized_instructions[-1]`
  | gate         -- C3QiskitError: unsupported gate
deriving DecidableEq

variable {P V K G R : Type}

/-- c3/qiskit/c3_backend.py:482 `UNSUPPORTED_OPERATIONS`. -/
def unsupported : List String := ["measure", "barrier"]

/-- c3/qiskit/c3_backend.py:171-204 `sanitize_instructions`. -/
def sanitize (c : List (Instr V K)) : List (Instr V K) := c.filter fun i => !(unsupported.contains i.name)

/-- c3/qiskit/c3_backend.py:150-169 `locate_measurements`. -/
def measurements (c : List (Instr V K)) : List ℕ :=
  (c.zipIdx.filter fun p => p.1.name == "measure").map Prod.snd

/-- A circuit: `config.n_qubits` and its instructions. -/
structure Circ (V K : Type) where
  n : ℕ
  body : List (Instr V K)

/-- c3/qiskit/c3_backend.py:496-589 `run_experiment`: the populations and whether counts are rounded to shots. -/
def runExperiment (d : Dev P V K G R) (s : St P V K G) (c : Circ V K) :
    St P V K G × Except Err (R × Bool) :=
  if d.qubits < c.n then (s, .error .tooFew)
  else
    let san := sanitize c.body
    match san.getLast? with
    | none => (s, .error .index)
    | some l =>
      if l.name = "param_update" then
        match d.set l.vals l.ids s.pars with
        | (p, false) => (⟨p, s.props, s.params, s.optMap⟩, .error .setFailed)
        | (p, true) =>
          let s' : St P V K G := ⟨p, d.compute p, s.params, s.optMap⟩
          match d.eval s'.props san.dropLast with
          | none => (s', .error .gate)
          | some r => (s', .ok (r, !(measurements c.body).isEmpty))
      else
        match d.eval s.props san with
        | none => (s, .error .gate)
        | some r => (s, .ok (r, !(measurements c.body).isEmpty))

/-- The loop over `qobj.experiments` (c3/qiskit/c3_backend.py:326-327). -/
def runAll (d : Dev P V K G R) : St P V K G → List (Circ V K) → St P V K G × Except Err (List (R × Bool))
  | s, [] => (s, .ok [])
  | s, c :: cs =>
    match runExperiment d s c with
    | (s', .error e) => (s', .error e)
    | (s', .ok r) =>
      match runAll d s' cs with
      | (s'', .error e) => (s'', .error e)
      | (s'', .ok rs) => (s'', .ok (r :: rs))

/-- A call of `run`: the options passed (`none`: not passed) and the circuits. -/
structure Call (V K : Type) where
  params : Option (List V)
  optMap : Option (List K)
  circs : List (Circ V K)

/-- Python truth of a list option: neither `None` nor empty. -/
def truthy {α : Type} (o : Option (List α)) : Option (List α) :=
  match o with
  | some (x :: xs) => some (x :: xs)
  | _ => none

/-- c3/qiskit/c3_backend.py:305-327 the part of `_run_job` after the checks. -/
def runJob (d : Dev P V K G R) (s : St P V K G) (cs : List (Circ V K)) :
    St P V K G × Except Err (List (R × Bool)) :=
  match truthy s.params with
  | none => runAll d ⟨s.pars, d.compute s.pars, s.params, s.optMap⟩ cs
  | some ps =>
    match truthy s.optMap with
    | none => (s, .error .missingMap)
    | some ks =>
      match d.set ps ks s.pars with
      | (p, false) => (⟨p, s.props, none, none⟩, .error .setFailed)
      | (p, true) => runAll d ⟨p, d.compute p, none, none⟩ cs

/-- c3/qiskit/c3_backend.py:218-283, 394-404 `run`: options passed are stored, then the job runs. -/
def run (d : Dev P V K G R) (s : St P V K G) (c : Call V K) : St P V K G × Except Err (List (R × Bool)) :=
  runJob d ⟨s.pars, s.props, c.params.or s.params, c.optMap.or s.optMap⟩ c.circs

/-- The state after a history of calls, failed ones included. -/
def runs (d : Dev P V K G R) (s : St P V K G) (cs : List (Call V K)) : St P V K G :=
  cs.foldl (fun s c => (run d s c).1) s

/-! ## Specification -/

/-- The gates of a circuit: what is neither a measurement nor a barrier. -/
def IsGate (i : Instr V K) : Prop := i.name ≠ "measure" ∧ i.name ≠ "barrier"

instance : DecidablePred (IsGate (V := V) (K := K)) := fun _ => inferInstanceAs (Decidable (_ ∧ _))

def gates (c : List (Instr V K)) : List (Instr V K) := c.filter fun i => decide (IsGate i)

theorem sanitize_eq (c : List (Instr V K)) : sanitize c = gates c := by
  unfold sanitize gates
  refine List.filter_congr fun i _ => ?_
  by_cases h1 : i.name = "measure" <;> by_cases h2 : i.name = "barrier" <;>
    simp [unsupported, IsGate, h1, h2]

theorem measurements_iff (c : List (Instr V K)) (k : ℕ) :
    k ∈ measurements c ↔ ∃ i, c[k]? = some i ∧ i.name = "measure" := by
  unfold measurements
  constructor
  · intro h
    obtain ⟨⟨i, j⟩, hm, hj⟩ := List.mem_map.1 h
    obtain ⟨hm, hn⟩ := List.mem_filter.1 hm
    have := List.mem_zipIdx_iff_getElem?.1 hm
    exact ⟨i, by rw [← hj]; exact this, by simpa using hn⟩
  · rintro ⟨i, hi, hn⟩
    refine List.mem_map.2 ⟨(i, k), List.mem_filter.2 ⟨List.mem_zipIdx_iff_getElem?.2 hi, ?_⟩, rfl⟩
    simp [hn]

theorem measured_iff (c : List (Instr V K)) :
    (!(measurements c).isEmpty) = true ↔ ∃ i ∈ c, i.name = "measure" := by
  rw [Bool.not_eq_true', List.isEmpty_eq_false_iff_exists_mem]
  constructor
  · rintro ⟨k, hk⟩
    obtain ⟨i, hi, hn⟩ := (measurements_iff c k).1 hk
    exact ⟨i, List.mem_of_getElem? hi, hn⟩
  · rintro ⟨i, hi, hn⟩
    obtain ⟨k, hk⟩ := List.getElem?_of_mem hi
    exact ⟨k, (measurements_iff c k).2 ⟨i, hk, hn⟩⟩

/-! ## C161 -/

/-- The positions returned by `locate_measurements` are those of the measurements, in increasing order. -/
theorem C161_located (c : List (Instr V K)) :
    (measurements c).Pairwise (· < ·) ∧
    ∀ k, k ∈ measurements c ↔ ∃ i, c[k]? = some i ∧ i.name = "measure" := by
  refine ⟨?_, measurements_iff c⟩
  unfold measurements
  have h : (c.zipIdx.map Prod.snd).Pairwise (· < ·) := by
    rw [List.zipIdx_map_snd]
    exact List.pairwise_lt_range'
  exact (h.sublist ((List.filter_sublist).map _))

/-- C161 for circuits that have a gate and no update gate at the end: the populations are those of the gates in
order, with measurements and barriers left out wherever they stand, and counts are rounded to shots exactly
if the circuit has a measurement. Missing: circuits without gates, `C161_false_empty`; measurements before
the last gate, `C161_false_middle`. -/
theorem C161_gates_partial (d : Dev P V K G R) (s : St P V K G) (c : Circ V K) (hn : c.n ≤ d.qubits)
    (l : Instr V K) (hl : (gates c.body).getLast? = some l) (hu : l.name ≠ "param_update") (r : R)
    (hr : d.eval s.props (gates c.body) = some r) :
    ∃ m, runExperiment d s c = (s, .ok (r, m)) ∧ (m = true ↔ ∃ i ∈ c.body, i.name = "measure") := by
  refine ⟨!(measurements c.body).isEmpty, ?_, measured_iff _⟩
  unfold runExperiment
  rw [if_neg (by omega)]
  simp only [sanitize_eq, hl, if_neg hu, hr]

/-- A gate that is not available is refused and changes nothing. -/
theorem C161_unknown (d : Dev P V K G R) (s : St P V K G) (c : Circ V K) (hn : c.n ≤ d.qubits)
    (l : Instr V K) (hl : (gates c.body).getLast? = some l) (hu : l.name ≠ "param_update")
    (hr : d.eval s.props (gates c.body) = none) : runExperiment d s c = (s, .error .gate) := by
  unfold runExperiment
  rw [if_neg (by omega)]
  simp only [sanitize_eq, hl, if_neg hu, hr]

/-- A circuit is refused for its size exactly if it has more qubits than the device; nothing changes. -/
theorem C161_size (d : Dev P V K G R) (s : St P V K G) (c : Circ V K) :
    (runExperiment d s c).2 = .error .tooFew ↔ d.qubits < c.n := by
  unfold runExperiment
  constructor
  · intro h
    by_contra hn
    rw [if_neg hn] at h
    simp only at h
    split at h
    · simp at h
    · split at h
      · split at h
        · simp at h
        · revert h
          split <;> simp
      · revert h
        split <;> simp
  · intro h
    rw [if_pos h]

/-- C161 fails: a circuit of measurements and barriers only, the empty circuit among them, raises an index error
instead of reporting the initial state. -/
theorem C161_false_empty (d : Dev P V K G R) (s : St P V K G) (c : Circ V K) (hn : c.n ≤ d.qubits)
    (h : ∀ i ∈ c.body, ¬ IsGate i) : runExperiment d s c = (s, .error .index) := by
  unfold runExperiment
  rw [if_neg (by omega)]
  have : gates c.body = [] := by
    unfold gates
    rw [List.filter_eq_nil_iff]
    intro i hi
    simp [h i hi]
  simp only [sanitize_eq, this, List.getLast?_nil]

example : ∀ i ∈ [(⟨"measure", [0], [], []⟩ : Instr ℝ String), ⟨"barrier", [0], [], []⟩], ¬ IsGate i := by
  simp [IsGate]

/-- A measurement in the middle reports the state at the end: moving it there changes no result. -/
theorem C161_deferred (d : Dev P V K G R) (s : St P V K G) (n : ℕ) (a b : List (Instr V K))
    (m : Instr V K) (hm : m.name = "measure") :
    runExperiment d s ⟨n, a ++ m :: b⟩ = runExperiment d s ⟨n, a ++ b ++ [m]⟩ := by
  have hg : gates (a ++ m :: b) = gates (a ++ b ++ [m]) := by
    simp [gates, List.filter_append, IsGate, hm]
  have h1 : (!(measurements (a ++ m :: b)).isEmpty) = true :=
    (measured_iff _).2 ⟨m, by simp, hm⟩
  have h2 : (!(measurements (a ++ b ++ [m])).isEmpty) = true :=
    (measured_iff _).2 ⟨m, by simp, hm⟩
  unfold runExperiment
  simp only [sanitize_eq, hg, h1, h2]

/-- A classical bit as device: gate `x` flips it, other gates are unknown; the result is the probability of one. -/
def bit : Dev Unit ℝ String Unit ℝ where
  qubits := 1
  set := fun _ _ p => (p, true)
  compute := fun _ => ()
  eval := fun _ c => if c.all (fun i => i.name == "x") then some (if c.length % 2 = 1 then 1 else 0) else none

/-- C161 fails: counts of a measurement before a gate are those after the gate. The circuit measures the bit, which
is zero, then flips it; one is reported, as if the measurement came last. -/
theorem C161_false_middle :
    (runExperiment bit ⟨(), (), none, none⟩
      ⟨1, [⟨"x", [0], [], []⟩, ⟨"x", [0], [], []⟩, ⟨"measure", [0], [], []⟩, ⟨"x", [0], [], []⟩]⟩).2 =
      .ok (1, true) ∧
    (runExperiment bit ⟨(), (), none, none⟩
      ⟨1, [⟨"x", [0], [], []⟩, ⟨"x", [0], [], []⟩, ⟨"measure", [0], [], []⟩]⟩).2 = .ok (0, true) := by
  constructor <;> simp [runExperiment, sanitize, unsupported, bit, measurements, List.zipIdx]

/-! ## C162: parameter updates -/

/-- Does the circuit end in an update gate (measurements and barriers not counted)? -/
def update (c : Circ V K) : Option (Instr V K) :=
  match (gates c.body).getLast? with
  | some l => if l.name = "param_update" then some l else none
  | none => none

/-- Specification: the results if every circuit is evaluated with the propagators of the current parameters, and an
update gate at the end of a circuit changes the parameters before that circuit and for good. -/
inductive Results (d : Dev P V K G R) : P → List (Circ V K) → P → List R → Prop
  | nil (p : P) : Results d p [] p []
  | plain {p q : P} {c : Circ V K} {cs : List (Circ V K)} {r : R} {rs : List R} :
      update c = none → d.eval (d.compute p) (gates c.body) = some r → Results d p cs q rs →
      Results d p (c :: cs) q (r :: rs)
  | upd {p p' q : P} {c : Circ V K} {cs : List (Circ V K)} {u : Instr V K} {r : R} {rs : List R} :
      update c = some u → d.set u.vals u.ids p = (p', true) →
      d.eval (d.compute p') (gates c.body).dropLast = some r → Results d p' cs q rs →
      Results d p (c :: cs) q (r :: rs)

theorem runAll_results (d : Dev P V K G R) (cs : List (Circ V K)) :
    ∀ (s s' : St P V K G) (rs : List (R × Bool)), s.props = d.compute s.pars →
      runAll d s cs = (s', .ok rs) →
      Results d s.pars cs s'.pars (rs.map Prod.fst) ∧ s'.props = d.compute s'.pars ∧
        s'.params = s.params ∧ s'.optMap = s.optMap := by
  induction cs with
  | nil =>
    intro s s' rs hs h
    simp only [runAll, Prod.mk.injEq, Except.ok.injEq] at h
    obtain ⟨rfl, rfl⟩ := h
    exact ⟨.nil _, hs, rfl, rfl⟩
  | cons c cs ih =>
    intro s s' rs hs h
    rw [runAll] at h
    split at h
    · simp at h
    · rename_i s1 r1 h1
      split at h
      · simp at h
      · rename_i s2 rs2 h2
        simp only [Prod.mk.injEq, Except.ok.injEq] at h
        obtain ⟨rfl, rfl⟩ := h
        unfold runExperiment at h1
        split at h1
        · simp at h1
        · simp only [sanitize_eq] at h1
          split at h1
          · simp at h1
          · rename_i l hl
            split at h1
            · rename_i hn
              split at h1
              · simp at h1
              · rename_i p' hset
                split at h1
                · simp at h1
                · rename_i r hr
                  simp only [Prod.mk.injEq, Except.ok.injEq] at h1
                  obtain ⟨rfl, rfl⟩ := h1
                  obtain ⟨hR, hp, ho⟩ := ih _ _ _ rfl h2
                  refine ⟨.upd (u := l) ?_ hset hr hR, hp, ho⟩
                  simp only [update, hl, if_pos hn]
            · rename_i hn
              split at h1
              · simp at h1
              · rename_i r hr
                simp only [Prod.mk.injEq, Except.ok.injEq] at h1
                obtain ⟨rfl, rfl⟩ := h1
                obtain ⟨hR, hp, ho⟩ := ih _ _ _ hs h2
                refine ⟨.plain ?_ ?_ hR, hp, ho⟩
                · simp only [update, hl, if_neg hn]
                · rw [← hs]; exact hr

/-- C162, propagators: in any history of calls, failed ones included, a call that returns has evaluated every
circuit with the propagators of the parameters in force: those left by earlier calls, changed by the options of
this call, then by update gates. -/
theorem C162_fresh (d : Dev P V K G R) (s0 : St P V K G) (hist : List (Call V K)) (c : Call V K)
    (s' : St P V K G) (rs : List (R × Bool)) (h : run d (runs d s0 hist) c = (s', .ok rs)) :
    ∃ p, ((truthy (c.params.or (runs d s0 hist).params) = none ∧ p = (runs d s0 hist).pars) ∨
        ∃ ps ks, truthy (c.params.or (runs d s0 hist).params) = some ps ∧
          truthy (c.optMap.or (runs d s0 hist).optMap) = some ks ∧
          d.set ps ks (runs d s0 hist).pars = (p, true)) ∧
      Results d p c.circs s'.pars (rs.map Prod.fst) ∧ s'.props = d.compute s'.pars := by
  unfold run runJob at h
  generalize runs d s0 hist = s at h ⊢
  simp only at h
  split at h
  · rename_i ht
    obtain ⟨h1, h2, _⟩ := runAll_results d _ _ _ _ rfl h
    exact ⟨_, .inl ⟨ht, rfl⟩, h1, h2⟩
  · rename_i ps ht
    split at h
    · simp at h
    · rename_i ks hk
      split at h
      · simp at h
      · rename_i p hset
        obtain ⟨h1, h2, _⟩ := runAll_results d _ _ _ _ rfl h
        exact ⟨p, .inr ⟨ps, ks, ht, hk, hset⟩, h1, h2⟩

/-- C162, options: parameters passed to `run` with their map are set once. The call itself uses them, and the next
call without options starts from the parameters left behind and sets nothing. -/
theorem C162_once (d : Dev P V K G R) (s : St P V K G) (v : V) (vs : List V) (k : K) (ks : List K)
    (cs : List (Circ V K)) (s' : St P V K G) (rs : List (R × Bool))
    (h : run d s ⟨some (v :: vs), some (k :: ks), cs⟩ = (s', .ok rs)) :
    (∃ p, d.set (v :: vs) (k :: ks) s.pars = (p, true) ∧ Results d p cs s'.pars (rs.map Prod.fst)) ∧
    ∀ cs', run d s' ⟨none, none, cs'⟩ = runAll d ⟨s'.pars, d.compute s'.pars, none, none⟩ cs' := by
  unfold run runJob at h
  simp only [Option.some_or, truthy] at h
  split at h
  · simp at h
  · rename_i p hset
    obtain ⟨h1, h2, h3, h4⟩ := runAll_results d _ _ _ _ rfl h
    refine ⟨⟨p, hset, h1⟩, fun cs' => ?_⟩
    simp only [run, runJob, h3, h4, Option.none_or, truthy]

/-- C162 for jobs without update gates and calls without options: every circuit is evaluated with the parameters
left by the history, so its result does not depend on the other circuits of the job. Missing: see the three
theorems below. -/
theorem C162_independent_partial (d : Dev P V K G R) (p q : P) (cs : List (Circ V K)) (rs : List R)
    (hu : ∀ c ∈ cs, update c = none) (h : Results d p cs q rs) :
    q = p ∧ cs.map (fun c => d.eval (d.compute p) (gates c.body)) = rs.map some := by
  induction h with
  | nil => simp
  | plain hc hr _ ih =>
    obtain ⟨h1, h2⟩ := ih fun c hc => hu c (by simp [hc])
    exact ⟨h1, by simp [hr, h2]⟩
  | upd hc _ _ _ _ =>
    have := hu _ (List.mem_cons_self ..)
    rw [this] at hc
    cases hc

/-- A device with one parameter, reported by every circuit: `set` writes the first value. -/
def meter : Dev ℝ ℝ String ℝ ℝ where
  qubits := 1
  set := fun vs _ p => (vs.headD p, true)
  compute := id
  eval := fun g _ => some g

def xCirc : Circ ℝ String := ⟨1, [⟨"x", [0], [], []⟩]⟩

def updCirc (v : ℝ) : Circ ℝ String := ⟨1, [⟨"x", [0], [], []⟩, ⟨"param_update", [0], [v], ["amp"]⟩]⟩

/-- C162 fails: a circuit with an update gate changes the circuits after it in the job, and later jobs; the same
circuit gives different results before and after it. -/
theorem C162_false_leak (s : St ℝ ℝ String ℝ) (v : ℝ) (h1 : s.params = none) :
    (run meter s ⟨none, none, [xCirc, updCirc v, xCirc]⟩).2 =
      .ok [(s.pars, false), (v, false), (v, false)] ∧
    (run meter (run meter s ⟨none, none, [updCirc v]⟩).1 ⟨none, none, [xCirc]⟩).2 = .ok [(v, false)] := by
  constructor <;>
    simp [run, runJob, runAll, runExperiment, sanitize, unsupported, meter, measurements, List.zipIdx, xCirc,
      updCirc, truthy, h1]

/-- C162 fails: the comment in `_run_job` says that run options override updates by gates; the gate wins. -/
theorem C162_false_override (s : St ℝ ℝ String ℝ) (v w : ℝ) :
    (run meter s ⟨some [v], some ["amp"], [updCirc w]⟩).2 = .ok [(w, false)] := by
  simp [run, runJob, runAll, runExperiment, sanitize, unsupported, meter, measurements, List.zipIdx,
      updCirc, truthy]

/-- C162 fails: parameters passed without their map raise, and stay in the options. Every later call that passes no
options raises too, however many there are. -/
theorem C162_false_sticky (d : Dev P V K G R) (s : St P V K G) (v : V) (vs : List V)
    (hs : truthy s.optMap = none) (cs : List (Circ V K)) (later : List (Call V K))
    (hl : ∀ c ∈ later, c.params = none ∧ c.optMap = none) (cs' : List (Circ V K)) :
    (run d s ⟨some (v :: vs), none, cs⟩).2 = .error .missingMap ∧
    (run d (runs d s (⟨some (v :: vs), none, cs⟩ :: later)) ⟨none, none, cs'⟩).2 = .error .missingMap := by
  have h0 : run d s ⟨some (v :: vs), none, cs⟩ =
      (⟨s.pars, s.props, some (v :: vs), s.optMap⟩, .error .missingMap) := by
    simp only [run, runJob, Option.some_or, Option.none_or, truthy]
    unfold truthy at hs
    simp only [hs]
  refine ⟨by rw [h0], ?_⟩
  have key : ∀ (later : List (Call V K)) (t : St P V K G), t.params = some (v :: vs) →
      truthy t.optMap = none → (∀ c ∈ later, c.params = none ∧ c.optMap = none) →
      (runs d t later).params = some (v :: vs) ∧ truthy (runs d t later).optMap = none := by
    intro later
    induction later with
    | nil => intro t h1 h2 _; exact ⟨h1, h2⟩
    | cons c later ih =>
      intro t h1 h2 hl
      obtain ⟨hp, ho⟩ := hl c (by simp)
      have : run d t c = (⟨t.pars, t.props, t.params, t.optMap⟩, .error .missingMap) := by
        simp only [run, runJob, hp, ho, Option.none_or]
        rw [h2, h1]
        simp [truthy]
      show (runs d (run d t c).1 later).params = _ ∧ truthy (runs d (run d t c).1 later).optMap = none
      rw [this]
      exact ih _ h1 h2 fun c' hc' => hl c' (by simp [hc'])
  have h1 := key later ⟨s.pars, s.props, some (v :: vs), s.optMap⟩ rfl hs hl
  have : runs d s (⟨some (v :: vs), none, cs⟩ :: later) =
      runs d ⟨s.pars, s.props, some (v :: vs), s.optMap⟩ later := by
    show runs d (run d s _).1 later = _
    rw [h0]
  rw [this]
  simp only [run, runJob, Option.none_or]
  rw [h1.1, h1.2]
  simp [truthy]

example : ∃ s : St ℝ ℝ String ℝ, truthy s.optMap = none := ⟨⟨0, 0, none, none⟩, rfl⟩

/-! ## C163: gates handed to Qiskit -/

open Matrix Complex C3.Gates

/-- `RXGate(θ).to_matrix()` of Qiskit. -/
noncomputable def qiskitRX (θ : ℝ) : Matrix (Fin 2) (Fin 2) ℂ :=
  !![(Real.cos (θ / 2) : ℂ), -I * (Real.sin (θ / 2) : ℂ); -I * (Real.sin (θ / 2) : ℂ), (Real.cos (θ / 2) : ℂ)]

/-- `RYGate(θ).to_matrix()` of Qiskit. -/
noncomputable def qiskitRY (θ : ℝ) : Matrix (Fin 2) (Fin 2) ℂ :=
  !![(Real.cos (θ / 2) : ℂ), -(Real.sin (θ / 2) : ℂ); (Real.sin (θ / 2) : ℂ), (Real.cos (θ / 2) : ℂ)]

/-- `RZGate(θ).to_matrix()` of Qiskit. -/
noncomputable def qiskitRZ (θ : ℝ) : Matrix (Fin 2) (Fin 2) ℂ :=
  !![Complex.exp (-I * (θ / 2)), 0; 0, Complex.exp (I * (θ / 2))]

/-- Name and matrix of the rotation classes (c3/qiskit/c3_gates.py:12-82). -/
noncomputable def rotationGates : List (String × Matrix (Fin 2) (Fin 2) ℂ) :=
  [("rx90p", qiskitRX (Real.pi / 2)), ("rx90m", qiskitRX (-Real.pi / 2)), ("rxp", qiskitRX Real.pi),
   ("ry90p", qiskitRY (Real.pi / 2)), ("ry90m", qiskitRY (-Real.pi / 2)), ("ryp", qiskitRY Real.pi),
   ("rz90p", qiskitRZ (Real.pi / 2)), ("rz90m", qiskitRZ (-Real.pi / 2)), ("rzp", qiskitRZ Real.pi)]

theorem cos4 : ((Real.cos (Real.pi / 2 / 2) : ℝ) : ℂ) = r2 := by
  rw [show Real.pi / 2 / 2 = Real.pi / 4 by ring, Real.cos_pi_div_four, r2]
  congr 1
  rw [eq_div_iff (by positivity), div_mul_eq_mul_div, Real.mul_self_sqrt (by norm_num)]
  norm_num

theorem sin4 : ((Real.sin (Real.pi / 2 / 2) : ℝ) : ℂ) = r2 := by
  rw [← cos4, show Real.pi / 2 / 2 = Real.pi / 4 by ring, Real.cos_pi_div_four, Real.sin_pi_div_four]

theorem rz_eq (θ : ℝ) : qiskitRZ θ =
    !![(Real.cos (θ / 2) : ℂ) - I * (Real.sin (θ / 2) : ℂ), 0;
       0, (Real.cos (θ / 2) : ℂ) + I * (Real.sin (θ / 2) : ℂ)] := by
  unfold qiskitRZ
  have h1 : Complex.exp (-I * (θ / 2)) = (Real.cos (θ / 2) : ℂ) - I * (Real.sin (θ / 2) : ℂ) := by
    rw [show (-I * (θ / 2) : ℂ) = -((θ / 2 : ℝ) : ℂ) * I by push_cast; ring, Complex.exp_mul_I,
      Complex.cos_neg, Complex.sin_neg, Complex.ofReal_cos, Complex.ofReal_sin]
    ring
  have h2 : Complex.exp (I * (θ / 2)) = (Real.cos (θ / 2) : ℂ) + I * (Real.sin (θ / 2) : ℂ) := by
    rw [show (I * (θ / 2) : ℂ) = ((θ / 2 : ℝ) : ℂ) * I by push_cast; ring, Complex.exp_mul_I,
      Complex.ofReal_cos, Complex.ofReal_sin]
    ring
  rw [h1, h2]

/-- C163: the rotation gate under each name has in Qiskit exactly the matrix that the library table has under the
same name, global phase included. -/
theorem C163_rotations : rotationGates =
    [("rx90p", Gate.rx90p.mat), ("rx90m", Gate.rx90m.mat), ("rxp", Gate.rxp.mat), ("ry90p", Gate.ry90p.mat),
     ("ry90m", Gate.ry90m.mat), ("ryp", Gate.ryp.mat), ("rz90p", Gate.rz90p.mat), ("rz90m", Gate.rz90m.mat),
     ("rzp", Gate.rzp.mat)] := by
  have hc := cos4
  have hs := sin4
  have hc' : ((Real.cos (-Real.pi / 2 / 2) : ℝ) : ℂ) = r2 := by
    rw [show -Real.pi / 2 / 2 = -(Real.pi / 2 / 2) by ring, Real.cos_neg, hc]
  have hs' : ((Real.sin (-Real.pi / 2 / 2) : ℝ) : ℂ) = -r2 := by
    rw [show -Real.pi / 2 / 2 = -(Real.pi / 2 / 2) by ring, Real.sin_neg, Complex.ofReal_neg, hs]
  have hc1 : ((Real.cos (Real.pi / 2) : ℝ) : ℂ) = 0 := by simp
  have hs1 : ((Real.sin (Real.pi / 2) : ℝ) : ℂ) = 1 := by simp
  have e1 : qiskitRX (Real.pi / 2) = Gate.rx90p.mat := by
    show qiskitRX (Real.pi / 2) = (r2 • !![1, -I; -I, 1] : Matrix (Fin 2) (Fin 2) ℂ)
    unfold qiskitRX; rw [hc, hs]
    ext i j; fin_cases i <;> fin_cases j <;> simp [mul_comm]
  have e2 : qiskitRX (-Real.pi / 2) = Gate.rx90m.mat := by
    show qiskitRX (-Real.pi / 2) = (r2 • !![1, I; I, 1] : Matrix (Fin 2) (Fin 2) ℂ)
    unfold qiskitRX; rw [hc', hs']
    ext i j; fin_cases i <;> fin_cases j <;> simp [mul_comm]
  have e3 : qiskitRX Real.pi = Gate.rxp.mat := by
    show qiskitRX Real.pi = (!![0, -I; -I, 0] : Matrix (Fin 2) (Fin 2) ℂ)
    unfold qiskitRX; rw [hc1, hs1]
    ext i j; fin_cases i <;> fin_cases j <;> simp
  have e4 : qiskitRY (Real.pi / 2) = Gate.ry90p.mat := by
    show qiskitRY (Real.pi / 2) = (r2 • !![1, -1; 1, 1] : Matrix (Fin 2) (Fin 2) ℂ)
    unfold qiskitRY; rw [hc, hs]
    ext i j; fin_cases i <;> fin_cases j <;> simp
  have e5 : qiskitRY (-Real.pi / 2) = Gate.ry90m.mat := by
    show qiskitRY (-Real.pi / 2) = (r2 • !![1, 1; -1, 1] : Matrix (Fin 2) (Fin 2) ℂ)
    unfold qiskitRY; rw [hc', hs']
    ext i j; fin_cases i <;> fin_cases j <;> simp
  have e6 : qiskitRY Real.pi = Gate.ryp.mat := by
    show qiskitRY Real.pi = (!![0, -1; 1, 0] : Matrix (Fin 2) (Fin 2) ℂ)
    unfold qiskitRY; rw [hc1, hs1]
  have e7 : qiskitRZ (Real.pi / 2) = Gate.rz90p.mat := by
    show qiskitRZ (Real.pi / 2) = (r2 • !![1 - I, 0; 0, 1 + I] : Matrix (Fin 2) (Fin 2) ℂ)
    rw [rz_eq]; rw [hc, hs]
    ext i j; fin_cases i <;> fin_cases j <;> simp <;> ring
  have e8 : qiskitRZ (-Real.pi / 2) = Gate.rz90m.mat := by
    show qiskitRZ (-Real.pi / 2) = (r2 • !![1 + I, 0; 0, 1 - I] : Matrix (Fin 2) (Fin 2) ℂ)
    rw [rz_eq]; rw [hc', hs']
    ext i j; fin_cases i <;> fin_cases j <;> simp <;> ring
  have e9 : qiskitRZ Real.pi = Gate.rzp.mat := by
    show qiskitRZ Real.pi = (!![-I, 0; 0, I] : Matrix (Fin 2) (Fin 2) ℂ)
    rw [rz_eq]; rw [hc1, hs1]
    ext i j; fin_cases i <;> fin_cases j <;> simp
  simp only [rotationGates, e1, e2, e3, e4, e5, e6, e7, e8, e9]
  rfl

/-! ## C164: which qubit controls -/

/-- The two-qubit gate is the controlled version of `V`, the first target (the more significant digit of the
index) being the control: it does nothing if that qubit is zero and applies `V` to the other if it is one. -/
def ControlFirst (U : Matrix (Fin 4) (Fin 4) ℂ) (V : Matrix (Fin 2) (Fin 2) ℂ) : Prop :=
  ∀ a b c d : Fin 2, U (finProdFinEquiv (a, b)) (finProdFinEquiv (c, d)) =
    if a = c then (if a = 0 then (if b = d then 1 else 0) else V b d) else 0

/-- The same with the second target as control. -/
def ControlSecond (U : Matrix (Fin 4) (Fin 4) ℂ) (V : Matrix (Fin 2) (Fin 2) ℂ) : Prop :=
  ∀ a b c d : Fin 2, U (finProdFinEquiv (a, b)) (finProdFinEquiv (c, d)) =
    if b = d then (if b = 0 then (if a = c then 1 else 0) else V a c) else 0

/-- C164: `crxp`, `crzp` and `cz` are the rotations rxp, rzp and Z of the second target controlled by the first. -/
theorem C164_first_partial :
    ControlFirst Gate.crxp.mat Gate.rxp.mat ∧ ControlFirst Gate.crzp.mat Gate.rzp.mat ∧
    ControlFirst Gate.cz.mat !![1, 0; 0, -1] := by
  refine ⟨?_, ?_, ?_⟩ <;> intro a b c d <;> fin_cases a <;> fin_cases b <;> fin_cases c <;> fin_cases d <;>
    simp [Gate.mat, finProdFinEquiv, Matrix.diagonal, Fin.ext_iff] <;> rfl

/-- C164 fails for `cx`: it is X on the first target controlled by the second, and not X on the second target
controlled by the first. -/
theorem C164_false_cx :
    ControlSecond Gate.cx.mat Gate.x.mat ∧ ¬ ControlFirst Gate.cx.mat Gate.x.mat := by
  constructor
  · intro a b c d
    fin_cases a <;> fin_cases b <;> fin_cases c <;> fin_cases d <;>
      simp [Gate.mat, finProdFinEquiv]
  · intro h
    have := h 0 1 0 1
    simp [Gate.mat, finProdFinEquiv] at this

end C3.Qiskit.Run
