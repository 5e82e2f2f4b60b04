import Verif.Experiment.GoalCircuits
import Verif.Experiment.OpenGoal
import Verif.Optim.Logged

/-!
# C235: the gates after an optimization

`OptimalControl.optimize_controls` (c3/optimizers/optimalcontrol.py:164-198) evaluates the goal function at the points the algorithm
proposes and loads the best of them into the parameter map at the end. The experiment keeps the propagators of the last evaluation.
Here both are followed to the circuits that are evaluated afterwards.
-/

set_option linter.unusedSectionVars false

noncomputable section

namespace C3.Experiment.Optimized

open Matrix C3.Hilbert C3.Fidelity C3.Gates C3.Experiment C3.Experiment.Circuits C3.Experiment.GoalCircuits
  C3.Experiment.OpenGoal C3.Optim C3.PMap C3.Propagation

/-! ## Model -/

/-- The dictionary of propagators: names of gates with their matrices. -/
abbrev Props := List (String × Arr ℂ)

/-- The objects an optimization works on: the parameter map and `exp.propagators` (c3/experiment.py:62). -/
structure Session where
  pmap : PMap
  props : Props

/-- What is fixed during the optimization: the gates that are computed (`opt_gates`, without repetition), the propagator of a gate
for the state of the parameter map (c3/experiment.py:440-534, signals of the generator and Hamiltonians of the model both come from
the map) and the goal function of the propagators (c3/optimizers/optimalcontrol.py:216-226). `none` is an exception. -/
structure Setup where
  names : List String
  gate : PMap → String → Arr ℂ
  fid : Props → Option ℝ

inductive RErr where
  | opt (e : OErr)
  /-- the goal function raised an exception -/
  | goal

/-- The dictionary that `compute_propagators` builds (c3/experiment.py:440-524). -/
def Setup.dict (S : Setup) (s : PMap) : Props := S.names.map fun g => (g, S.gate s g)

/-- c3/experiment.py:440-534 `compute_propagators` with `overwrite_propagators` (line 527-529). -/
def computePropagators (S : Setup) (st : Session) : Session := { st with props := S.dict st.pmap }

/-- c3/optimizers/optimalcontrol.py:200-228 `goal_run`, executed eagerly: set the parameters, compute the propagators, which the
experiment keeps, and the goal function of them. -/
def goalRun (S : Setup) (st : Session) (x : List ℝ) : Except RErr (Session × ℝ) :=
  match st.pmap.setParametersScaled x with
  | (_, some e) => .error (.opt (.pmap e))
  | (s, none) =>
    let st' := computePropagators S { st with pmap := s }
    match S.fid st'.props with
    | none => .error .goal
    | some v => .ok (st', v)

open scoped Classical in
/-- c3/optimizers/optimizer.py:243-275 and 173-186: the evaluations of an algorithm at the points `xs`, with the best goal so far
and the parameters logged for it. -/
def runs (S : Setup) : Session → ℝ × Option (List ℝ) → List (List ℝ) → Except RErr (Session × ℝ × Option (List ℝ))
  | st, b, [] => .ok (st, b)
  | st, b, x :: xs =>
    match loggedPars st.pmap x with
    | .error e => .error (.opt (.pmap e))
    | .ok pars =>
      match goalRun S st x with
      | .error e => .error e
      | .ok (st', v) => runs S st' (if v < b.1 then (v, some pars) else b) xs

/-- c3/optimizers/optimalcontrol.py:164-198 `optimize_controls` for an algorithm that evaluates `xs`: the best point is loaded into
the parameter map, the propagators are left alone. -/
def optimize (S : Setup) (st : Session) (xs : List (List ℝ)) : Except RErr Session :=
  match runs S st (9876543210.123456789, none) xs with
  | .error e => .error e
  | .ok (_, _, none) => .error (.opt .noFile)
  | .ok (st', _, some pars) =>
    match st'.pmap.loadValues (st'.pmap.optMap, pars.map fun v => [v]) false with
    | (_, some e) => .error (.opt (.pmap e))
    | (s, none) => .ok { st' with pmap := s }

/-- The propagator `evaluate` looks up (c3/experiment.py:298), for a closed system. -/
def closedProps (N : ℕ) (p : Props) (g : String) : Option (Matrix (Fin N) (Fin N) ℂ) := (p.lookup g).map fun U => U.mat N N

/-- The same for an open system. -/
def openProps (N : ℕ) (p : Props) (g : String) : Option (Matrix (Fin N × Fin N) (Fin N × Fin N) ℂ) :=
  (p.lookup g).map fun U => superMat N U

/-- The goal function `unitary_infid_set` (c3/libraries/fidelities.py:187-219) of a dictionary of propagators. -/
def closedGoal (instr : String → Option (Arr ℂ) × Option (List ℕ)) (index dims : List ℕ) (p : Props) : Option ℝ :=
  unitaryInfidSet (p.map fun e => (e.2, instr e.1)) index dims

/-- The goal function `lindbladian_unitary_infid_set` (c3/libraries/fidelities.py:252-285). -/
def openGoal (instr : String → Option (Arr ℂ) × Option (List ℕ)) (index dims : List ℕ) (p : Props) : Option ℝ :=
  lindUnitaryInfidSet (p.map fun e => (e.2, instr e.1)) index dims

/-! ## Specification -/

/-- The map as it is when the point `x` is evaluated. -/
abbrev at' (s : PMap) (x : List ℝ) : PMap := (s.setParametersScaled x).1

/-- The assumptions on an optimization: scalar parameters, proposals within the limits, and the map knows whether parameters of the
model are optimized. -/
structure Proper (s : PMap) (xs : List (List ℝ)) : Prop where
  scalar : ScalarMap s
  len : ∀ x ∈ xs, x.length = s.optMap.length
  range : ∀ x ∈ xs, ∀ y ∈ x, -1 ≤ y ∧ y ≤ 1
  flag : s.updateModel = true ↔ (∃ g ∈ s.optMap, ∃ k ∈ g, k ∈ s.modelIds) ∧ s.hasModel = true

/-! ## Lemmas -/

theorem lookup_dict (S : Setup) (s : PMap) (g : String) (hg : g ∈ S.names) : (S.dict s).lookup g = some (S.gate s g) := by
  unfold Setup.dict
  generalize S.names = l at hg
  induction l with
  | nil => simp at hg
  | cons a l ih =>
    rw [List.map_cons, List.lookup_cons]
    by_cases h : g = a
    · subst h; simp
    · rw [show (g == a) = false by simpa using h]
      exact ih ((List.mem_cons.1 hg).resolve_left h)

/-- The evaluations as seen by the parameter map, and the propagators along with them. -/
theorem runs_eq (S : Setup) (f : PMap → ℝ) (hf : ∀ s, S.fid (S.dict s) = some (f s)) (xs : List (List ℝ)) (st : Session)
    (b : ℝ × Option (List ℝ)) :
    runs S st b xs = match evaluations f st.pmap b xs with
      | .error e => .error (.opt (.pmap e))
      | .ok (s, b') => .ok (⟨s, if xs = [] then st.props else S.dict s⟩, b') := by
  induction xs generalizing st b with
  | nil => simp [runs, evaluations]
  | cons x xs ih =>
    unfold runs evaluations fctToMin
    cases hp : loggedPars st.pmap x with
    | error e => rfl
    | ok pars =>
      simp only
      unfold goalRun
      rcases hset : st.pmap.setParametersScaled x with ⟨s1, e | e⟩
      · simp only [computePropagators, hf]
        rw [ih]
        simp only
        rcases hev : evaluations f s1 (if f s1 < b.1 then (f s1, some pars) else b) xs with e | ⟨s2, b2⟩
        · rfl
        · simp only [List.cons_ne_nil, if_false]
          split
          · rename_i h
            subst h
            simp only [evaluations, Except.ok.injEq, Prod.mk.injEq] at hev
            rw [hev.1]
          · rfl
      · rfl

theorem optimize_eq (S : Setup) (f : PMap → ℝ) (hf : ∀ s, S.fid (S.dict s) = some (f s)) (xs : List (List ℝ)) (st : Session) :
    (∀ s, optimizeControls f st.pmap xs = .ok s → ∃ p, optimize S st xs = .ok ⟨s, p⟩) ∧
      ∀ st', optimize S st xs = .ok st' → optimizeControls f st.pmap xs = .ok st'.pmap := by
  unfold optimize optimizeControls
  rw [runs_eq S f hf]
  rcases evaluations f st.pmap (9876543210.123456789, none) xs with e | ⟨s2, b1, _ | pars⟩
  · simp
  · simp
  · simp only
    rcases s2.loadValues (s2.optMap, pars.map fun v => [v]) false with ⟨s3, _ | e⟩
    · simp only [Except.ok.injEq, Session.mk.injEq]
      exact ⟨fun s h => ⟨_, h, rfl⟩, fun st' h => by rw [← h]⟩
    · simp

/-- The map after the last evaluation. -/
theorem evaluations_last (f : PMap → ℝ) (s : PMap) (hs : ScalarMap s) (xs : List (List ℝ)) (z : List ℝ)
    (hx : ∀ x ∈ xs ++ [z], x.length = s.optMap.length) (cur : PMap)
    (hcur : cur = s ∨ ∃ x, x.length = s.optMap.length ∧ s.setParametersScaled x = (cur, none)) (b : ℝ × Option (List ℝ))
    (last : PMap) (b' : ℝ × Option (List ℝ)) (h : evaluations f cur b (xs ++ [z]) = .ok (last, b')) : last = at' s z := by
  induction xs generalizing cur b with
  | nil =>
    have hz := hx z (by simp)
    rw [List.nil_append] at h
    unfold evaluations fctToMin at h
    have hset : cur.setParametersScaled z = s.setParametersScaled z := by
      rcases hcur with rfl | ⟨y, hy, hc⟩
      · rfl
      · exact setScaled_last s cur hs y z hy hz hc
    rw [hset] at h
    obtain ⟨s1, h1, -, -⟩ := setScaled_spec s hs z hz
    rw [h1] at h
    rcases hl : loggedPars cur z with e | pars
    · rw [hl] at h; simp at h
    · rw [hl] at h
      simp only [evaluations, Except.ok.injEq, Prod.mk.injEq] at h
      rw [at', h1, ← h.1]
  | cons x xs ih =>
    have hxl := hx x (by simp)
    rw [List.cons_append] at h
    unfold evaluations fctToMin at h
    have hset : cur.setParametersScaled x = s.setParametersScaled x := by
      rcases hcur with rfl | ⟨y, hy, hc⟩
      · rfl
      · exact setScaled_last s cur hs y x hy hxl hc
    rw [hset] at h
    obtain ⟨s1, h1, -, -⟩ := setScaled_spec s hs x hxl
    rw [h1] at h
    rcases hl : loggedPars cur x with e | pars
    · rw [hl] at h; simp at h
    · rw [hl] at h
      simp only at h
      exact ih (fun x' hx' => hx x' (List.mem_cons_of_mem _ hx')) s1 (Or.inr ⟨x, hxl, h1⟩) _ h

theorem errorOf_mono (index : List ℕ) {a b : ℝ} (h : a ≤ b) : errorOf index a ≤ errorOf index b :=
  Real.sqrt_le_sqrt (mul_le_mul_of_nonneg_left h (by positivity))

theorem mean_le_one (names : List String) (hn : names ≠ []) (x : String → ℝ) (hx : ∀ g ∈ names, x g ≤ 1) :
    (names.map x).sum / names.length ≤ 1 := by
  have hlen : (0 : ℝ) < names.length := by
    rw [Nat.cast_pos, List.length_pos_iff]
    exact hn
  rw [div_le_one hlen]
  have := List.sum_le_card_nsmul (names.map x) 1 (by
    intro y hy
    obtain ⟨g, hg, rfl⟩ := List.mem_map.1 hy
    exact hx g hg)
  simpa using this

theorem mean_mul (names : List String) (hn : names ≠ []) (a : ℝ) : a / names.length * names.length = a := by
  have hlen : (names.length : ℝ) ≠ 0 := by
    rw [Ne, Nat.cast_eq_zero, List.length_eq_zero_iff]
    exact hn
  exact div_mul_cancel₀ _ hlen

/-- The goal function of closed systems has a value, at most one. -/
theorem closed_value (S : Setup) (dims index : List ℕ) (hd : ∀ d ∈ dims, 2 ≤ d) (hne : index ≠ []) (hnd : index.Nodup)
    (hlt : ∀ i ∈ index, i < dims.length) (instr : String → Option (Arr ℂ) × Option (List ℕ))
    (hfid : S.fid = closedGoal instr index dims) (ideal : String → Arr ℂ)
    (hideal : ∀ g ∈ S.names, getIdealGateIndex (instr g).1 (instr g).2 dims index = some (ideal g))
    (hfit : ∀ s, ∀ g ∈ S.names, Fits dims index (ideal g) (S.gate s g)) (hn : S.names ≠ []) (s : PMap) :
    ∃ w, S.fid (S.dict s) = some w ∧ w ≤ 1 := by
  have hg : ∀ g, ∃ x, g ∈ S.names → unitaryInfid (ideal g) (S.gate s g) (some index) dims = some x ∧ x ≤ 1 := by
    intro g
    by_cases hg : g ∈ S.names
    · obtain ⟨hr, hc, hir, hic, hU, hV⟩ := hfit s g hg
      obtain ⟨x', hx', -, h1, -⟩ := C61_range _ _ dims index hd hne hnd hlt hr hc hir hic hU hV
      exact ⟨x', fun _ => ⟨hx', h1⟩⟩
    · exact ⟨0, fun h => absurd h hg⟩
  choose x hx using hg
  refine ⟨(S.names.map x).sum / S.names.length, ?_, mean_le_one _ hn x fun g hg => (hx g hg).2⟩
  rw [hfid, closedGoal, Setup.dict, List.map_map]
  refine (C171_unitary _ _ _ _).2 ⟨S.names.map x, ?_, by simpa using hn, ?_⟩
  · rw [List.forall₂_map_left_iff, List.forall₂_map_right_iff, List.forall₂_same]
    exact fun g hg => ⟨ideal g, hideal g hg, (hx g hg).1⟩
  · rw [List.length_map, mean_mul _ hn]

/-- The goal function of open systems has a value, at most one. -/
theorem open_value (S : Setup) (dims index : List ℕ) (hd : ∀ d ∈ dims, 2 ≤ d) (hne : index ≠ []) (hnd : index.Nodup)
    (hlt : ∀ i ∈ index, i < dims.length) (instr : String → Option (Arr ℂ) × Option (List ℕ))
    (hfid : S.fid = openGoal instr index dims) (ideal : String → Arr ℂ)
    (hideal : ∀ g ∈ S.names, getIdealGate (instr g).1 (instr g).2 dims = some (ideal g))
    (hfit : ∀ s, ∀ g ∈ S.names, FitsOpen dims index (ideal g) (S.gate s g)) (hn : S.names ≠ []) (s : PMap) :
    ∃ w, S.fid (S.dict s) = some w ∧ w ≤ 1 := by
  have hg : ∀ g, ∃ x, g ∈ S.names → lindUnitaryInfid (ideal g) (S.gate s g) index dims = some x ∧ x ≤ 1 := by
    intro g
    by_cases hg : g ∈ S.names
    · obtain ⟨x', hx', h1, -, -⟩ := C233_leakage _ _ dims index hd hne hnd hlt (hfit s g hg)
      exact ⟨x', fun _ => ⟨hx', h1⟩⟩
    · exact ⟨0, fun h => absurd h hg⟩
  choose x hx using hg
  refine ⟨(S.names.map x).sum / S.names.length, ?_, mean_le_one _ hn x fun g hg => (hx g hg).2⟩
  rw [hfid, openGoal, Setup.dict, List.map_map]
  refine (C171_lindblad _ _ _ _).2 ⟨S.names.map x, ?_, by simpa using hn, ?_⟩
  · rw [List.forall₂_map_left_iff, List.forall₂_map_right_iff, List.forall₂_same]
    exact fun g hg => ⟨ideal g, hideal g hg, (hx g hg).1⟩
  · rw [List.length_map, mean_mul _ hn]

/-! ## C235 -/

/-- **C235**: the propagators the experiment holds after an optimization are those of the last point that was evaluated. -/
theorem C235_stored (S : Setup) (f : PMap → ℝ) (hf : ∀ s, S.fid (S.dict s) = some (f s)) (st : Session) (xs : List (List ℝ))
    (z : List ℝ) (hp : Proper st.pmap (xs ++ [z])) (st' : Session) (h : optimize S st (xs ++ [z]) = .ok st') :
    st'.props = S.dict (at' st.pmap z) := by
  unfold optimize at h
  rw [runs_eq S f hf] at h
  rcases hev : evaluations f st.pmap (9876543210.123456789, none) (xs ++ [z]) with e | ⟨s2, b1, _ | pars⟩
  · rw [hev] at h; simp at h
  · rw [hev] at h; simp at h
  · rw [hev] at h
    simp only at h
    rw [if_neg (by simp)] at h
    rcases hl : s2.loadValues (s2.optMap, pars.map fun v => [v]) false with ⟨s3, _ | e⟩
    · rw [hl] at h
      simp only [Except.ok.injEq] at h
      rw [← h, evaluations_last f st.pmap hp.scalar xs z hp.len st.pmap (Or.inl rfl) _ s2 _ hev]
    · rw [hl] at h
      simp at h

/-- **C235**, what holds: after an optimization and once the propagators are computed again, the experiment holds the gates of a
point that was evaluated and the goal function of them is the smallest of all evaluations. Missing: without computing them again
they are those of the last point, see `C235_false_stale`. -/
theorem C235_gates_partial (S : Setup) (f : PMap → ℝ) (hf : ∀ s, S.fid (S.dict s) = some (f s)) (st : Session)
    (xs : List (List ℝ)) (hp : Proper st.pmap xs) (hsome : ∃ x ∈ xs, f (at' st.pmap x) < 9876543210.123456789) :
    ∃ st' x, optimize S st xs = .ok st' ∧ x ∈ xs ∧ st'.pmap = at' st.pmap x ∧
      (computePropagators S st').props = S.dict (at' st.pmap x) ∧
      S.fid (computePropagators S st').props = some (f (at' st.pmap x)) ∧ ∀ y ∈ xs, f (at' st.pmap x) ≤ f (at' st.pmap y) := by
  obtain ⟨fin, x, h1, h2, -, h4, -, h6⟩ := C112_map_partial f st.pmap hp.scalar xs hp.len hp.range hsome
  obtain ⟨p, h7⟩ := (optimize_eq S f hf xs st).1 fin h1
  have h8 := h6 hp.flag
  subst h8
  exact ⟨_, x, h7, h2, rfl, rfl, hf _, h4⟩

/-- **C235**: nothing has to be computed again when the last point was better than all others. -/
theorem C235_last (S : Setup) (f : PMap → ℝ) (hf : ∀ s, S.fid (S.dict s) = some (f s)) (st : Session)
    (xs : List (List ℝ)) (z : List ℝ) (hp : Proper st.pmap (xs ++ [z])) (hsome : f (at' st.pmap z) < 9876543210.123456789)
    (hbest : ∀ x ∈ xs, f (at' st.pmap z) < f (at' st.pmap x)) :
    ∃ st', optimize S st (xs ++ [z]) = .ok st' ∧ st'.pmap = at' st.pmap z ∧ computePropagators S st' = st' := by
  obtain ⟨st', x, h1, h2, h3, h4, -, h6⟩ := C235_gates_partial S f hf st (xs ++ [z]) hp ⟨z, by simp, hsome⟩
  have hx : x = z := by
    rcases List.mem_append.1 h2 with h | h
    · exact absurd (h6 z (by simp)) (not_le.2 (hbest x h))
    · simpa using h
  subst hx
  refine ⟨st', h1, h3, ?_⟩
  have h7 := C235_stored S f hf st xs x hp st' h1
  unfold computePropagators
  rw [h3, ← h7, ← h3]

/-- **C235**, what holds for circuits of a closed system: if the goal function `unitary_infid_set` was at most `v` at some point that
was evaluated, then after the optimization, with the propagators computed again, all circuits of the gates have populations close to
the ideal ones. The number of evaluations and what the algorithm proposed do not matter. Missing: as for the gates. -/
theorem C235_circuits_partial (S : Setup) (dims index : List ℕ) (hd : ∀ d ∈ dims, 2 ≤ d) (hne : index ≠ []) (hnd : index.Nodup)
    (hlt : ∀ i ∈ index, i < dims.length) (instr : String → Option (Arr ℂ) × Option (List ℕ))
    (hfid : S.fid = closedGoal instr index dims) (ideal : String → Arr ℂ)
    (hideal : ∀ g ∈ S.names, getIdealGateIndex (instr g).1 (instr g).2 dims index = some (ideal g))
    (hfit : ∀ s, ∀ g ∈ S.names, Fits dims index (ideal g) (S.gate s g)) (hn : S.names ≠ [])
    (st : Session) (xs : List (List ℝ)) (hp : Proper st.pmap xs) (x0 : List ℝ) (hx0 : x0 ∈ xs) (v : ℝ)
    (hv : S.fid (S.dict (at' st.pmap x0)) = some v) :
    ∃ st', optimize S st xs = .ok st' ∧
      ∀ (seqs : List (List String)), (∀ s ∈ seqs, ∀ g ∈ s, g ∈ S.names) →
      ∀ xi : Fin (outDims dims index).prod → ℂ, ∑ j, ‖xi j‖ ^ 2 = 1 →
      ∃ pops, evaluateClosed (closedProps dims.prod (computePropagators S st').props) seqs (encode (compEmb dims index hd) xi) =
          some pops ∧ pops.length = seqs.length ∧
        ∀ (i : ℕ) (seq : List String) (pop : Fin dims.prod → ℝ), seqs[i]? = some seq → pops[i]? = some pop →
          ∑ p, |pop p - ‖encode (compEmb dims index hd) (circuit (fun g =>
              (ideal g).mat (outDims dims index).prod (outDims dims index).prod) seq xi) p‖ ^ 2| ≤
            2 * (seq.length * errorOf index (S.names.length * v)) := by
  choose f hf using closed_value S dims index hd hne hnd hlt instr hfid ideal hideal hfit hn
  obtain ⟨st', x, h1, h2, h3, h4, h5, h6⟩ := C235_gates_partial S f (fun s => (hf s).1) st xs hp ⟨x0, hx0, by
    have := (hf (at' st.pmap x0)).2
    norm_num
    linarith⟩
  refine ⟨st', h1, fun seqs hseqs xi hxi => ?_⟩
  have hle : f (at' st.pmap x) ≤ v := by
    have h7 := (hf (at' st.pmap x0)).1
    rw [hv, Option.some_inj] at h7
    rw [h7]
    exact h6 x0 hx0
  obtain ⟨pops, e1, e2, e3⟩ := C229_set dims index hd hne hnd hlt S.names (fun g => (S.gate (at' st.pmap x) g, instr g)) ideal
    hideal (hfit _) (f (at' st.pmap x)) (by
      have := (hf (at' st.pmap x)).1
      rw [hfid, closedGoal, Setup.dict, List.map_map] at this
      exact this) (closedProps dims.prod (computePropagators S st').props) (fun g hg => by
      rw [closedProps, h4, lookup_dict S _ g hg]
      rfl) seqs hseqs xi hxi
  refine ⟨pops, e1, e2, fun i seq pop hi hpop => (e3 i seq pop hi hpop).trans ?_⟩
  refine mul_le_mul_of_nonneg_left (mul_le_mul_of_nonneg_left (errorOf_mono index ?_) (by positivity)) (by positivity)
  exact mul_le_mul_of_nonneg_left hle (by positivity)

/-- **C235**, what holds for circuits of an open system, with the goal function `lindbladian_unitary_infid_set` and real start
states. Missing: as for the gates. -/
theorem C235_open_partial (S : Setup) (dims index : List ℕ) (hd : ∀ d ∈ dims, 2 ≤ d) (hne : index ≠ []) (hnd : index.Nodup)
    (hlt : ∀ i ∈ index, i < dims.length) (instr : String → Option (Arr ℂ) × Option (List ℕ))
    (hfid : S.fid = openGoal instr index dims) (ideal : String → Arr ℂ)
    (hideal : ∀ g ∈ S.names, getIdealGate (instr g).1 (instr g).2 dims = some (ideal g))
    (hfit : ∀ s, ∀ g ∈ S.names, FitsOpen dims index (ideal g) (S.gate s g)) (hn : S.names ≠ [])
    (st : Session) (xs : List (List ℝ)) (hp : Proper st.pmap xs) (x0 : List ℝ) (hx0 : x0 ∈ xs) (v : ℝ)
    (hv : S.fid (S.dict (at' st.pmap x0)) = some v) :
    ∃ st', optimize S st xs = .ok st' ∧
      ∀ (seqs : List (List String)), (∀ s ∈ seqs, ∀ g ∈ s, g ∈ S.names) →
      ∀ xi : Fin (outDims dims index).prod → ℂ, ∑ j, ‖xi j‖ ^ 2 = 1 → (∀ j, star (xi j) = xi j) →
      ∃ pops, evaluateOpen (openProps dims.prod (computePropagators S st').props) seqs
          (dmToVec (stateToDm (encode (compEmb dims index hd) xi))) = some pops ∧ pops.length = seqs.length ∧
        ∀ (i : ℕ) (seq : List String) (pop : Fin dims.prod → ℝ), seqs[i]? = some seq → pops[i]? = some pop →
          ∑ p, |pop p - ‖encode (compEmb dims index hd) (circuit (fun g =>
              (ideal g).mat (outDims dims index).prod (outDims dims index).prod) seq xi) p‖ ^ 2| ≤
            seq.length * errorOpen index (S.names.length * v) := by
  choose f hf using open_value S dims index hd hne hnd hlt instr hfid ideal hideal hfit hn
  obtain ⟨st', x, h1, h2, h3, h4, h5, h6⟩ := C235_gates_partial S f (fun s => (hf s).1) st xs hp ⟨x0, hx0, by
    have := (hf (at' st.pmap x0)).2
    norm_num
    linarith⟩
  refine ⟨st', h1, fun seqs hseqs xi hxi hreal => ?_⟩
  have hle : f (at' st.pmap x) ≤ v := by
    have h7 := (hf (at' st.pmap x0)).1
    rw [hv, Option.some_inj] at h7
    rw [h7]
    exact h6 x0 hx0
  obtain ⟨pops, e1, e2, e3⟩ := C233_set dims index hd hne hnd hlt S.names (fun g => (S.gate (at' st.pmap x) g, instr g)) ideal
    hideal (hfit _) (f (at' st.pmap x)) (by
      have := (hf (at' st.pmap x)).1
      rw [hfid, openGoal, Setup.dict, List.map_map] at this
      exact this) (openProps dims.prod (computePropagators S st').props) (fun g hg => by
      rw [openProps, h4, lookup_dict S _ g hg]
      rfl) seqs hseqs xi hxi hreal
  refine ⟨pops, e1, e2, fun i seq pop hi hpop => (e3 i seq pop hi hpop).trans ?_⟩
  refine mul_le_mul_of_nonneg_left (mul_le_mul_of_nonneg_left (Real.sqrt_le_sqrt ?_) (by norm_num)) (by positivity)
  exact mul_le_mul_of_nonneg_left (mul_le_mul_of_nonneg_left hle (by positivity)) (by positivity)

/-! ## The propagators that are left -/

/-- The exchange of the two states of a qubit. -/
def flip : Arr ℂ := ⟨2, 2, fun i j => if i = j then 0 else 1⟩

open scoped Classical in
/-- One qubit with one gate that should do nothing: it does nothing when the parameter is one and exchanges the states otherwise. -/
def exSetup : Setup where
  names := ["id"]
  gate s _ := if s.read "a" = some [1] then eye 2 2 else flip
  fid := closedGoal (fun _ => (some (idealFromName [Gate.id.name]), some [0])) [0] [2]

theorem flip_fits (P : Arr ℂ) (hr : P.rows = 2) (hc : P.cols = 2)
    (hU : (P.mat (outDims [2] [0]).prod (outDims [2] [0]).prod)ᴴ * P.mat (outDims [2] [0]).prod (outDims [2] [0]).prod = 1)
    (s : PMap) (g : String) : Fits [2] [0] P (exSetup.gate s g) := by
  by_cases h : s.read "a" = some [1]
  · simp only [exSetup, h, if_true]
    refine ⟨rfl, rfl, hr, hc, ?_, hU⟩
    rw [eye_one, conjTranspose_one, one_mul]
  · simp only [exSetup, h, if_false]
    refine ⟨rfl, rfl, hr, hc, ?_, hU⟩
    change (flip.mat 2 2)ᴴ * flip.mat 2 2 = 1
    ext i j
    fin_cases i <;> fin_cases j <;> simp [Matrix.mul_apply, Fin.sum_univ_two, Arr.mat, flip]

theorem exIdeal : ∃ P : Arr ℂ, getIdealGateIndex (some (idealFromName [Gate.id.name])) (some [0]) [2] [0] = some P ∧
    P.rows = 2 ∧ P.cols = 2 ∧ P.mat (outDims [2] [0]).prod (outDims [2] [0]).prod = 1 := by
  obtain ⟨P, h1, h2, h3, -, h5⟩ := named_ideal .id [0] [2] (by simp) (by simp) (by simp) rfl
  refine ⟨P, h1, h2, h3, ?_⟩
  change P.mat 2 2 = 1
  have e : ∀ i j : ℕ, i < 2 → j < 2 → P.e i j = if i = j then 1 else 0 := by
    intro i j hi hj
    have h := h5 [i] [j] (by simpa [Valid] using hi) (by simpa [Valid] using hj)
    rw [if_pos (by simp [SameRest])] at h
    simp only [List.length_singleton, List.replicate_one, Gate.qubits, tup, List.map_cons, List.map_nil, List.getD_cons_zero,
      flat, List.prod_nil, mul_one, add_zero] at h
    rw [h]
    interval_cases i <;> interval_cases j <;> simp [Gate.arr, Gate.mat, Gate.qubits] <;> rfl
  ext i j
  simp [Arr.mat, e i j i.2 j.2, Matrix.one_apply, Fin.ext_iff]

theorem exValue (s : PMap) : exSetup.fid (exSetup.dict s) = some (if s.read "a" = some [1] then 0 else 1) := by
  obtain ⟨P, h1, h2, h3, h4⟩ := exIdeal
  have e0 : @Eq (Fin 2) (compEmb [2] [0] (by simp) (0 : Fin 2)) 0 := Fin.ext (by
    change flat [2] ((stateLabels [2]).getD 0 []) = 0
    decide)
  have e1 : @Eq (Fin 2) (compEmb [2] [0] (by simp) (1 : Fin 2)) 1 := Fin.ext (by
    change flat [2] ((stateLabels [2]).getD 1 []) = 1
    decide)
  have hfit := flip_fits P h2 h3 (by rw [h4, conjTranspose_one, one_mul]) s "id"
  have hv := C61_value P (exSetup.gate s "id") [2] [0] (by simp) (by simp) (by simp) (by simp) hfit.rows hfit.cols h2 h3
  rw [h4, conjTranspose_one, mul_one] at hv
  have key : ∀ E : Fin 2 → Fin 2, E 0 = 0 → E 1 = 1 → ((exSetup.gate s "id").mat 2 2 |>.submatrix E E).trace =
      if s.read "a" = some [1] then 2 else 0 := by
    intro E h0 h1
    by_cases h : s.read "a" = some [1]
    · simp [exSetup, h, Matrix.trace, Arr.mat, eye]
    · simp [exSetup, h, Matrix.trace, Arr.mat, flip]
  have hval : unitaryInfid P (exSetup.gate s "id") (some [0]) [2] = some (if s.read "a" = some [1] then 0 else 1) := by
    refine hv.trans ?_
    have := key (compEmb [2] [0] (by simp)) e0 e1
    refine (congrArg (fun t : ℂ => some (1 - (‖t‖ / 2 ^ [0].length) ^ 2)) this).trans ?_
    split <;> norm_num
  change unitaryInfidSet ([("id", exSetup.gate s "id")].map fun e =>
    (e.2, some (idealFromName [Gate.id.name]), some [0])) [0] [2] = _
  refine (C171_unitary _ _ _ _).2 ⟨[if s.read "a" = some [1] then 0 else 1], ?_, by simp [exSetup], by
    simp [exSetup]⟩
  exact .cons ⟨P, h1, hval⟩ .nil

theorem exRead (y : ℝ) (h1 : -1 ≤ y) (h2 : y ≤ 1) : (at' exOne [y]).read "a" = some [y + 1] := by
  obtain ⟨s', e1, e2, e3⟩ := setScaled_spec exOne exOne_scalar [y] rfl
  have hh := (e3 1).2 (["a"], y) (by simp [exOne]) "a" (by simp) (by simp [exOne, PMap.exS])
  have href : s'.ref = exOne.ref := by rw [e2]
  rw [at', e1]
  unfold PMap.read
  rw [href]
  have : exOne.ref "a" = some 1 := by simp [exOne, PMap.exS]
  rw [this, Option.map_some, hh, numpy_scalar, Quantity.foldOpt_of_mem h1 h2]
  simp [exOne, PMap.exS, PMap.exR, Quantity.getOtherValue]

theorem exProper : Proper exOne [[0], [1]] := by
  refine ⟨exOne_scalar, by simp [exOne], ?_, ?_⟩
  · intro x hx y hy
    fin_cases hx <;> simp at hy <;> subst hy <;> norm_num
  · simp [exOne, PMap.exS]

/-- **C235**: the propagators are not those of the best point. Here the first of two evaluations is perfect and the second is as bad
as possible. The optimization ends with the parameters of the first, but circuits evaluated with the experiment as it is left end in
the wrong state with certainty; when the propagators are computed again they end in the right one. -/
theorem C235_false_stale (p0 : Props) : ∃ st', optimize exSetup ⟨exOne, p0⟩ [[0], [1]] = .ok st' ∧
    exSetup.fid (exSetup.dict st'.pmap) = some 0 ∧ exSetup.fid st'.props = some 1 ∧
    evaluateClosed (closedProps 2 st'.props) [["id"]] (Pi.single 0 1) = some [Pi.single 1 1] ∧
    evaluateClosed (closedProps 2 (computePropagators exSetup st').props) [["id"]] (Pi.single 0 1) = some [Pi.single 0 1] := by
  obtain ⟨st', x, h1, h2, h3, h4, h5, h6⟩ := C235_gates_partial exSetup _ exValue ⟨exOne, p0⟩ [[0], [1]] exProper
    ⟨[0], by simp, by split <;> norm_num⟩
  have r0 := exRead 0 (by norm_num) (by norm_num)
  have r1 := exRead 1 (by norm_num) (by norm_num)
  have n1 : (at' exOne [1]).read "a" ≠ some [1] := by rw [r1]; norm_num
  have p1 : (at' exOne [0]).read "a" = some [1] := by rw [r0]; norm_num
  have hx : x = [0] := by
    rcases List.mem_cons.1 h2 with h | h
    · exact h
    · rw [List.mem_singleton] at h
      subst h
      have := h6 [0] (by simp)
      rw [if_neg n1, if_pos p1] at this
      norm_num at this
  subst hx
  have h7 := C235_stored exSetup _ exValue ⟨exOne, p0⟩ [[0]] [1] exProper st' h1
  have g0 : exSetup.dict st'.pmap = [("id", eye 2 2)] := by
    rw [h3]
    simp only [Setup.dict, exSetup, p1, if_true, List.map_cons, List.map_nil]
  have g1 : st'.props = [("id", flip)] := by
    rw [h7]
    simp only [Setup.dict, exSetup, n1, if_false, List.map_cons, List.map_nil]
  refine ⟨st', h1, ?_, ?_, ?_, ?_⟩
  · rw [exValue, h3, if_pos p1]
  · rw [h7, exValue, if_neg n1]
  · rw [g1]
    simp only [evaluateClosed, List.mapM_cons, List.mapM_nil, runSeq, closedProps, List.lookup, beq_self_eq_true, Option.map_some,
      Option.bind_eq_bind, Option.bind_some, Option.pure_def]
    congr 2
    funext i
    fin_cases i <;> simp [popsClosed, Matrix.mulVec, dotProduct, Fin.sum_univ_two, Arr.mat, flip]
  · change evaluateClosed (closedProps 2 (exSetup.dict st'.pmap)) _ _ = _
    rw [g0]
    simp only [evaluateClosed, List.mapM_cons, List.mapM_nil, runSeq, closedProps, List.lookup, beq_self_eq_true, Option.map_some,
      Option.bind_eq_bind, Option.bind_some, Option.pure_def]
    congr 2
    funext i
    fin_cases i <;> simp [popsClosed, Matrix.mulVec, dotProduct, Fin.sum_univ_two, Arr.mat, eye]

/-- The bound for this qubit: the perfect point was evaluated, so that circuits are ideal once the propagators are computed again. -/
example (p0 : Props) : ∃ st', optimize exSetup ⟨exOne, p0⟩ [[0], [1]] = .ok st' ∧ ∀ (seq : List String), (∀ g ∈ seq, g = "id") →
    ∀ xi : Fin (outDims [2] [0]).prod → ℂ, ∑ j, ‖xi j‖ ^ 2 = 1 → ∃ pop,
      evaluateClosed (closedProps [2].prod (computePropagators exSetup st').props) [seq] (encode (compEmb [2] [0] (by simp)) xi) =
        some [pop] ∧ ∀ p, pop p = ‖encode (compEmb [2] [0] (by simp)) xi p‖ ^ 2 := by
  obtain ⟨P, i1, i2, i3, i4⟩ := exIdeal
  obtain ⟨st', h1, h2⟩ := C235_circuits_partial exSetup [2] [0] (by simp) (by simp) (by simp) (by simp)
    (fun _ => (some (idealFromName [Gate.id.name]), some [0])) rfl (fun _ => P)
    (fun _ _ => i1) (fun s g _ => flip_fits P i2 i3 (by rw [i4, conjTranspose_one, one_mul]) s g) (by simp [exSetup])
    ⟨exOne, p0⟩ [[0], [1]] exProper [0] (by simp) 0 (by
      rw [exValue, if_pos]
      rw [exRead 0 (by norm_num) (by norm_num)]
      norm_num)
  refine ⟨st', h1, fun seq hseq xi hxi => ?_⟩
  obtain ⟨pops, e1, e2, e3⟩ := h2 [seq] (by
    intro s hs g hg
    rw [List.mem_singleton] at hs
    subst hs
    simp [exSetup, hseq g hg]) xi hxi
  obtain ⟨pop, rfl⟩ := List.length_eq_one_iff.1 e2
  refine ⟨pop, e1, fun p => ?_⟩
  have h5 := e3 0 seq pop rfl rfl
  have h6 : circuit (fun _ => P.mat (outDims [2] [0]).prod (outDims [2] [0]).prod) seq xi = xi := by
    rw [i4]
    unfold circuit
    clear * -
    induction seq with
    | nil => rfl
    | cons g gs ih => rw [List.foldl_cons, one_mulVec]; exact ih
  rw [h6] at h5
  simp only [errorOf, mul_zero, Real.sqrt_zero] at h5
  have h7 := (Finset.sum_eq_zero_iff_of_nonneg fun _ _ => abs_nonneg _).1 (le_antisymm h5 (Finset.sum_nonneg fun _ _ => abs_nonneg _))
    p (Finset.mem_univ p)
  exact sub_eq_zero.1 (abs_eq_zero.1 h7)

end C3.Experiment.Optimized
