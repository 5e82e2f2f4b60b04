import Verif.Optim.Robust
import Verif.Optim.Estimators

/-!
# C246: what a small goal of model learning says about the learned model

`goal_run` of `ModelLearning` (c3/optimizers/modellearning.py:275-360) simulates every selected data set (C149), takes
`g_LL_prime` for each (c3/libraries/estimators.py:154-157) and combines them with the numbers of sequences as weights
(c3/libraries/estimators.py:168-170).

Simplified: targets other than `"all"`; the data sets are those that were selected, in order, each with the map of its
target; the sequences are those after the cut to `seqs_per_point`. What the sequences of a data set show is a function of
the values of the parameters and of those the model was built from.
-/

noncomputable section

namespace C3.Optim.Predict

open C3 C3.Quantity C3.PMap C3.Optim C3.Optim.Robust C3.Optim.Est

/-! ## Model -/

/-- What the simulation sees: the values of the parameters, and those the model was built from. -/
abbrev View := (String → Option (List ℝ)) × (String → Option (List ℝ))

/-- A data set: gate parameters with their map, values and shots for each sequence, and the simulation. -/
structure Data where
  set : DataSet
  measured : List (List (ℝ × ℝ))
  sim : View → List (List ℝ)

/-- The values that the experiment and the model have. -/
def view (t : PMap) : View :=
  (t.read, fun k => if k ∈ t.modelIds then (t.ref k).map fun r => (t.modelView r).numpy else none)

/-- Measured and simulated values side by side. -/
def points (d : Data) (v : View) : List (List Pt) :=
  List.zipWith (List.zipWith fun m y => ⟨m.1, y, 0, m.2⟩) d.measured (d.sim v)

/-- The goals of the data sets combined, c3/optimizers/modellearning.py:317-343. -/
def combine (ds : List Data) (vs : List View) : Option ℝ :=
  combined (List.zipWith (fun d v => gLLPrime (points d v)) ds vs) (ds.map fun d => (d.measured.length : ℝ))

/-- c3/optimizers/modellearning.py:275-360 `goal_run`. -/
def goalRun (ds : List Data) (s : PMap) (x : List ℝ) : PMap × Except PErr (Option ℝ) :=
  match goalStates (fun s => s.setParametersScaled x) s (ds.map Data.set) with
  | (s', _, some e) => (s', .error e)
  | (s', ts, none) => (s', .ok (combine ds (ts.map view)))

/-! ## Specification -/

/-- The value of a parameter for a data set: gate parameters as in the data, learned parameters as proposed, the others as
before the learning. -/
def dataRead (s : PMap) (x : List ℝ) (d : DataSet) (k : String) : Option (List ℝ) :=
  match (d.2.zip d.1).find? fun p => k ∈ p.1 with
  | some p => some p.2
  | none => match (s.optMap.zip x).find? fun p => k ∈ p.1 with
    | some p => (s.ref k).map fun r => [(s.heap r).getOtherValue (foldOpt p.2)]
    | none => s.read k

/-- The view that belongs to it, with an up to date model. -/
def dataView (s : PMap) (x : List ℝ) (d : DataSet) : View :=
  (dataRead s x d, fun k => if k ∈ s.modelIds then dataRead s x d k else none)

/-- The map of a data set names the parameter. -/
def Names (d : DataSet) (k : String) : Prop := ∃ g ∈ d.2, k ∈ g

/-- Learning that makes sense: scalar parameters are learned, and no data set gives a gate parameter twice. -/
structure LearnOk (s : PMap) (ds : List Data) : Prop where
  ready : Ready s
  scalar : ScalarMap s
  disj : ∀ d ∈ ds, DisjointGroups s d.set.2

/-- All data sets set the same gate parameters. -/
def SameKeys (ds : List Data) : Prop := ∀ d ∈ ds, ∀ d' ∈ ds, ∀ k, Names d.set k → Names d'.set k

/-- States reached by evaluating the goal. -/
inductive Reached (ds : List Data) (s : PMap) : PMap → Prop
  | start : Reached ds s s
  | step (t t' : PMap) (y : List ℝ) (g : Option ℝ) : Reached ds s t → y.length = s.optMap.length →
      goalRun ds t y = (t', .ok g) → Reached ds s t'

/-! ## Proofs about the states -/

theorem call_like {q q' : Quantity} {v : List ℝ} (h : (Op.set v).call q = .ok q') : ∃ a, q' = { q with value := a } := by
  simp only [Op.call, setValue, Bool.false_eq_true, if_false] at h
  split_ifs at h with h1
  unfold setValueRaw at h
  split_ifs at h with h2
  simp only at h
  split_ifs at h
  cases h
  exact ⟨_, rfl⟩

theorem writes_like (ws : List (String × Op)) (hw : ∀ w ∈ ws, ∃ v, w.2 = Op.set v) (s t : PMap)
    (h : s.runWrites ws = (t, none)) : ∀ r, ∃ a, t.heap r = { s.heap r with value := a } := by
  induction ws generalizing s with
  | nil =>
    obtain rfl : s = t := congrArg Prod.fst h
    exact fun r => ⟨(s.heap r).value, rfl⟩
  | cons w ws ih =>
    obtain ⟨k, o⟩ := w
    obtain ⟨v, rfl⟩ : ∃ v, o = Op.set v := hw (k, o) (by simp)
    rw [runWrites] at h
    rcases hk : s.write k (Op.set v) with ⟨s1, _ | e⟩
    · rw [hk] at h
      obtain ⟨r0, q', -, hc, rfl⟩ := write_none hk
      have h1 := ih (fun w hm => hw w (by simp [hm])) _ h
      intro r
      obtain ⟨a, ha⟩ := h1 r
      rw [ha]
      by_cases hr : r = r0
      · subst hr
        obtain ⟨b, hb⟩ := call_like hc
        exact ⟨a, by simp [hb]⟩
      · exact ⟨a, by simp [hr]⟩
    · rw [hk] at h
      simp at h

theorem set_all_like {s0 s s' : PMap} (hs : Ready s) (hl : Like s0 s) {values : List (List ℝ)} {m : List (List String)}
    (h : s.setParameters values m = (s', none)) : Like s0 s' := by
  obtain ⟨-, sh, -⟩ := ready_setAll hs h
  obtain ⟨t, h1, h2⟩ := setParameters_ok h
  have hheap : s'.heap = t.heap := by rcases h2 with ⟨_, _, rfl⟩ | ⟨_, rfl⟩ <;> rfl
  have h3 := writes_like _ (by
    intro w hw
    unfold setWrites at hw
    obtain ⟨p, -, hp⟩ := List.mem_flatMap.1 hw
    obtain ⟨k, -, rfl⟩ := List.mem_map.1 hp
    exact ⟨p.2, by simp⟩) s t h1
  refine ⟨hl.shape.trans sh, fun k r hr => ?_⟩
  obtain ⟨a, ha⟩ := hl.heap k r hr
  obtain ⟨b, hb⟩ := h3 r
  exact ⟨b, by rw [hheap, hb, ha]⟩

/-- What is off the learned parameters and the gate parameters stays as it was. -/
def Off (s0 : PMap) (d : DataSet) (s : PMap) : Prop :=
  ∀ k, ¬ Names d k → (∀ h ∈ s0.optMap, k ∉ h) → s.read k = s0.read k

/-- One data set, from any state that was reached. -/
theorem one_eq {s0 s : PMap} (h0 : ScalarMap s0) (hs : Ready s) (hl : Like s0 s) (d : DataSet)
    (hd : DisjointGroups s0 d.2) (hoff : Off s0 d s)
    (x : List ℝ) (hx : x.length = s0.optMap.length) (t : PMap)
    (h : oneParState (fun s => s.setParametersScaled x) s d = (t, none)) :
    view t = dataView s0 x d ∧ Ready t ∧ Like s0 t ∧ Off s0 d t := by
  obtain ⟨s1, e1, l1, r1, f1, o1⟩ := scaled_like h0 hs hl x hx
  unfold oneParState at h
  simp only at h
  rw [e1] at h
  simp only at h
  rw [if_pos r1.model] at h
  have r2 : Ready { s1 with modelView := s1.heap } :=
    ⟨r1.good, r1.distinct, fun _ _ _ _ => rfl, r1.model, r1.flag, r1.ne, r1.disj⟩
  have l2 : Like s0 { s1 with modelView := s1.heap } :=
    ⟨⟨l1.shape.ref, l1.shape.modelIds, l1.shape.optMap, l1.shape.hasModel, l1.shape.updateModel, l1.shape.len⟩, l1.heap⟩
  obtain ⟨r3, sh3, f3⟩ := ready_setAll r2 h
  have l3 := set_all_like r2 l2 h
  have hd' : DisjointGroups ({ s1 with modelView := s1.heap } : PMap) d.2 := (disjoint_congr l2.shape.ref).2 hd
  obtain ⟨hlen, n3⟩ := C10_group_members _ t r2.good d.1 d.2 false hd' h
  have f3' : ∀ k, ¬ Names d k → t.read k = s1.read k := fun k hk => f3 k fun g hg hkg => hk ⟨g, hg, hkg⟩
  have hread : t.read = dataRead s0 x d := by
    funext k
    unfold dataRead
    rcases hfd : (d.2.zip d.1).find? fun p => k ∈ p.1 with _ | p
    · have hno : ¬ Names d k := by
        rintro ⟨g, hg, hkg⟩
        obtain ⟨i, hi, rfl⟩ := List.getElem_of_mem hg
        have hi' : i < d.1.length := by omega
        have := List.find?_eq_none.1 hfd (d.2[i], d.1[i])
          (List.mem_iff_getElem.2 ⟨i, by rw [List.length_zip]; exact lt_min hi hi', by simp⟩)
        exact this (by simpa using hkg)
      rw [hfd, f3' k hno]
      simp only
      rcases hfo : (s0.optMap.zip x).find? fun p => k ∈ p.1 with _ | p
      · have hnoo : ∀ h ∈ s0.optMap, k ∉ h := by
          intro h hh hkh
          obtain ⟨i, hi, rfl⟩ := List.getElem_of_mem hh
          have hi' : i < x.length := by rw [hx]; exact hi
          have := List.find?_eq_none.1 hfo (s0.optMap[i], x[i])
            (List.mem_iff_getElem.2 ⟨i, by rw [List.length_zip]; exact lt_min hi hi', by simp⟩)
          exact this (by simpa using hkh)
        rw [hfo, f1 k hnoo]
        exact hoff k hno hnoo
      · rw [hfo]
        exact o1 p (List.mem_of_find?_eq_some hfo) k (by simpa using List.find?_some hfo)
    · rw [hfd]
      have hp := List.mem_of_find?_eq_some hfd
      have hkp : k ∈ p.1 := by simpa using List.find?_some hfd
      obtain ⟨i, hi, rfl⟩ := List.mem_iff_getElem.1 hp
      rw [List.length_zip] at hi
      have h1 : i < d.2.length := lt_of_lt_of_le hi (min_le_left _ _)
      have h2 : i < d.1.length := lt_of_lt_of_le hi (min_le_right _ _)
      rw [List.getElem_zip] at hkp ⊢
      exact n3 i h1 h2 k hkp
  refine ⟨?_, r3, l3, ?_⟩
  · unfold view dataView
    rw [← hread]
    congr 1
    funext k
    rw [l3.shape.modelIds]
    split_ifs with hk
    · unfold PMap.read
      rcases hr : t.ref k with _ | r
      · rfl
      · rw [Option.map_some, Option.map_some, r3.fresh k (by rw [l3.shape.modelIds]; exact hk) r hr]
    · rfl
  · intro k hk hno
    rw [f3' k hk, f1 k hno]
    exact hoff k hk hno

theorem states_eq {s0 : PMap} (h0 : ScalarMap s0) (x : List ℝ) (hx : x.length = s0.optMap.length) (ds : List DataSet)
    (hd : ∀ d ∈ ds, DisjointGroups s0 d.2)
    (hkeys : ∀ d ∈ ds, ∀ d' ∈ ds, ∀ k, Names d k → Names d' k) (s : PMap) (hs : Ready s) (hl : Like s0 s)
    (hoff : ∀ d ∈ ds, Off s0 d s) (s' : PMap) (ts : List PMap)
    (h : goalStates (fun s => s.setParametersScaled x) s ds = (s', ts, none)) :
    ts.map view = ds.map (dataView s0 x) ∧ Ready s' ∧ Like s0 s' ∧ ∀ d ∈ ds, Off s0 d s' := by
  induction ds generalizing s ts with
  | nil =>
    simp only [goalStates, Prod.mk.injEq] at h
    obtain ⟨rfl, rfl, _⟩ := h
    exact ⟨rfl, hs, hl, by simp⟩
  | cons d ds ih =>
    rw [goalStates] at h
    rcases h1 : oneParState (fun s => s.setParametersScaled x) s d with ⟨s1, _ | e⟩
    swap
    · rw [h1] at h
      simp at h
    rw [h1] at h
    simp only [Prod.mk.injEq] at h
    obtain ⟨hh1, rfl, hh3⟩ := h
    obtain ⟨v1, r1, l1, o1⟩ := one_eq h0 hs hl d (hd d (by simp)) (hoff d (by simp)) x hx s1 h1
    have o1' : ∀ d' ∈ ds, Off s0 d' s1 := by
      intro d' hd' k hk hno
      exact o1 k (fun hn => hk (hkeys d (by simp) d' (by simp [hd']) k hn)) hno
    obtain ⟨q1, q2, q3, q4⟩ := ih (fun d' h => hd d' (by simp [h]))
      (fun a ha b hb => hkeys a (by simp [ha]) b (by simp [hb])) s1 r1 l1 o1' _ (Prod.ext hh1 (Prod.ext rfl hh3))
    refine ⟨by rw [List.map_cons, List.map_cons, v1, q1], q2, q3, ?_⟩
    intro d' hd'
    rcases List.mem_cons.1 hd' with rfl | hd'
    · cases ds with
      | nil =>
        simp only [goalStates] at hh1
        rw [← hh1]
        exact o1
      | cons e ds =>
        intro k hk hno
        exact q4 e (by simp) k (fun hn => hk (hkeys e (by simp) d' (by simp) k hn)) hno
    · exact q4 d' hd'

/-! ## Proofs about the goal -/

theorem zipWith_map {A B C : Type} (f : A → B → C) (h : A → B) (l : List A) :
    List.zipWith f l (l.map h) = l.map fun a => f a (h a) := by
  induction l with
  | nil => rfl
  | cons a l ih => rw [List.map_cons, List.zipWith_cons_cons, ih, List.map_cons]

theorem run_eq {s0 : PMap} {ds : List Data} (hok : LearnOk s0 ds) (hkeys : SameKeys ds) (s : PMap) (hs : Ready s)
    (hl : Like s0 s) (hoff : ∀ d ∈ ds, Off s0 d.set s) (x : List ℝ) (hx : x.length = s0.optMap.length) (s' : PMap)
    (g : Option ℝ) (h : goalRun ds s x = (s', .ok g)) :
    g = combine ds (ds.map fun d => dataView s0 x d.set) ∧ Ready s' ∧ Like s0 s' ∧ ∀ d ∈ ds, Off s0 d.set s' := by
  unfold goalRun at h
  rcases hst : goalStates (fun s => s.setParametersScaled x) s (ds.map Data.set) with ⟨s1, ts, _ | e⟩
  · rw [hst] at h
    simp only [Prod.mk.injEq, Except.ok.injEq] at h
    obtain ⟨rfl, rfl⟩ := h
    obtain ⟨q1, q2, q3, q4⟩ := states_eq hok.scalar x hx (ds.map Data.set)
      (by rintro d hd; obtain ⟨e, he, rfl⟩ := List.mem_map.1 hd; exact hok.disj e he)
      (by
        rintro d hd d' hd'
        obtain ⟨e, he, rfl⟩ := List.mem_map.1 hd
        obtain ⟨e', he', rfl⟩ := List.mem_map.1 hd'
        exact hkeys e he e' he')
      s hs hl (by rintro d hd; obtain ⟨e, he, rfl⟩ := List.mem_map.1 hd; exact hoff e he) s1 ts hst
    rw [q1, List.map_map]
    exact ⟨rfl, q2, q3, fun d hd => q4 d.set (List.mem_map.2 ⟨d, hd, rfl⟩)⟩
  · rw [hst] at h
    simp at h

/-- The squared deviation in units of the shot noise that the simulated value has. -/
def chi (p : Pt) : ℝ := p.shots * (p.exp - p.sim) ^ 2 / (p.sim * (1 - p.sim))

theorem gTerm_chi (p : Pt) (h : Usable p) : gTerm p = some ((chi p - 1) / 2) := by
  rw [gTerm_usable p h]
  congr 3
  obtain ⟨h1, h2, h3⟩ := h
  have : 1 - p.sim ≠ 0 := by linarith
  unfold chi
  field_simp

theorem goal_sum (l : List Pt) (hl : l ≠ []) (hu : ∀ p ∈ l, Usable p) (g : ℝ)
    (h : (allSome (l.map gTerm)).bind mean = some g) : (l.map chi).sum = l.length * (2 * g + 1) := by
  have hmap : l.map gTerm = (l.map fun p => (chi p - 1) / 2).map some := by
    rw [List.map_map]
    exact List.map_congr_left fun p hp => gTerm_chi p (hu p hp)
  rw [hmap, allSome_map_some, Option.bind_some, Est.mean_some _ (by simpa using hl), Option.some.injEq, List.length_map] at h
  have hsum : (l.map fun p => (chi p - 1) / 2).sum = ((l.map chi).sum - l.length) / 2 := by
    clear hmap h hl hu
    induction l with
    | nil => simp
    | cons p l ih =>
      rw [List.map_cons, List.sum_cons, ih, List.map_cons, List.sum_cons, List.length_cons]
      push_cast
      ring
  have hn : (0 : ℝ) < l.length := by exact_mod_cast List.length_pos_of_ne_nil hl
  rw [hsum, div_eq_iff hn.ne'] at h
  linarith

theorem chi_nonneg (p : Pt) (h : Usable p) : 0 ≤ chi p := by
  obtain ⟨h1, h2, h3⟩ := h
  have : 0 < 1 - p.sim := by linarith
  unfold chi
  positivity

/-! ## C246 -/

/-- **C246** (partial: gate parameters that only some data sets set are left over, `C246_false_leftover`): after any number of
evaluations the goal at a proposal is that of the measured values with the simulation of each data set at its gate
parameters, the proposal, and everything else as before the learning. -/
theorem C246_function_partial (s : PMap) (ds : List Data) (hok : LearnOk s ds) (hkeys : SameKeys ds) (t : PMap)
    (ht : Reached ds s t) (x : List ℝ) (hx : x.length = s.optMap.length) (t' : PMap) (g : Option ℝ)
    (h : goalRun ds t x = (t', .ok g)) : g = combine ds (ds.map fun d => dataView s x d.set) := by
  have key : Ready t ∧ Like s t ∧ ∀ d ∈ ds, Off s d.set t := by
    clear h
    induction ht with
    | start => exact ⟨hok.ready, ⟨SameShape.rfl' s, fun _ r _ => ⟨(s.heap r).value, rfl⟩⟩, fun _ _ _ _ _ => rfl⟩
    | step t t1 y g1 _ hy h1 ih => exact (run_eq hok hkeys t ih.1 ih.2.1 ih.2.2 y hy t1 g1 h1).2
  exact (run_eq hok hkeys t key.1 key.2.1 key.2.2 x hx t' g h).1

/-- **C246**: the goal is a mean over all points: their squared deviations, in units of the shot noise of the simulated
value, sum up to the number of points times `2 g + 1`. -/
theorem C246_sum (ds : List Data) (vs : List View) (c : ℕ) (hc : 0 < c)
    (hlen : ∀ s ∈ List.zipWith points ds vs, ∀ q ∈ s, q.length = c)
    (hrows : List.Forall₂ (fun d v => d.measured ≠ [] ∧ (points d v).length = d.measured.length) ds vs) (h0 : ds ≠ [])
    (hu : ∀ p ∈ (List.zipWith points ds vs).flatten.flatten, Usable p) (g : ℝ) (h : combine ds vs = some g) :
    ((List.zipWith points ds vs).flatten.flatten.map chi).sum =
      (List.zipWith points ds vs).flatten.flatten.length * (2 * g + 1) := by
  have e1 : List.zipWith (fun d v => gLLPrime (points d v)) ds vs = (List.zipWith points ds vs).map gLLPrime := by
    rw [List.map_zipWith]
  have e2 : (ds.map fun d => (d.measured.length : ℝ)) = (List.zipWith points ds vs).map fun s => (s.length : ℝ) := by
    clear hlen h0 hu h e1
    induction hrows with
    | nil => rfl
    | cons h1 _ ih => rw [List.map_cons, List.zipWith_cons_cons, List.map_cons, ih, h1.2]
  have hne : ∀ s ∈ List.zipWith points ds vs, s ≠ [] := by
    clear hlen h0 hu h e1 e2
    induction hrows with
    | nil => simp
    | cons h1 _ ih =>
      rw [List.zipWith_cons_cons, List.forall_mem_cons]
      refine ⟨fun h => h1.1 ?_, ih⟩
      rw [← List.length_eq_zero_iff, ← h1.2, h, List.length_nil]
  have hne0 : List.zipWith points ds vs ≠ [] := by
    cases hrows with
    | nil => exact absurd rfl h0
    | cons _ _ => simp
  unfold combine at h
  rw [e1, e2, C76_pooled _ c hc hlen hne hne0] at h
  refine goal_sum _ ?_ hu g h
  intro hnil
  obtain ⟨s, rest, hs⟩ := List.exists_cons_of_ne_nil hne0
  obtain ⟨q, s', hq⟩ := List.exists_cons_of_ne_nil (hne s (by rw [hs]; simp))
  have hl := hlen s (by rw [hs]; simp) q (by rw [hq]; simp)
  rw [hs, hq] at hnil
  simp at hnil
  rw [hnil.1] at hl
  simp at hl
  omega

/-- **C246**: so a goal `g` bounds the deviation of every point. -/
theorem C246_each (ds : List Data) (vs : List View) (c : ℕ) (hc : 0 < c)
    (hlen : ∀ s ∈ List.zipWith points ds vs, ∀ q ∈ s, q.length = c)
    (hrows : List.Forall₂ (fun d v => d.measured ≠ [] ∧ (points d v).length = d.measured.length) ds vs) (h0 : ds ≠ [])
    (hu : ∀ p ∈ (List.zipWith points ds vs).flatten.flatten, Usable p) (g : ℝ) (h : combine ds vs = some g) (p : Pt)
    (hp : p ∈ (List.zipWith points ds vs).flatten.flatten) :
    |p.exp - p.sim| ≤ √((List.zipWith points ds vs).flatten.flatten.length * (2 * g + 1) * (p.sim * (1 - p.sim) / p.shots)) := by
  have hs := C246_sum ds vs c hc hlen hrows h0 hu g h
  have h1 : chi p ≤ ((List.zipWith points ds vs).flatten.flatten.map chi).sum := by
    refine List.single_le_sum (fun y hy => ?_) _ (List.mem_map.2 ⟨p, hp, rfl⟩)
    obtain ⟨q, hq, rfl⟩ := List.mem_map.1 hy
    exact chi_nonneg q (hu q hq)
  rw [hs] at h1
  obtain ⟨u1, u2, u3⟩ := hu p hp
  have u4 : 0 < 1 - p.sim := by linarith
  refine Real.abs_le_sqrt ?_
  calc (p.exp - p.sim) ^ 2 = chi p * (p.sim * (1 - p.sim) / p.shots) := by
        unfold chi
        field_simp
    _ ≤ _ := mul_le_mul_of_nonneg_right h1 (by positivity)

/-- **C246**: and the root mean squared deviation: with at least `N` shots per point it is at most
`√((2 g + 1) / (4 N))`. -/
theorem C246_rms (ds : List Data) (vs : List View) (c : ℕ) (hc : 0 < c)
    (hlen : ∀ s ∈ List.zipWith points ds vs, ∀ q ∈ s, q.length = c)
    (hrows : List.Forall₂ (fun d v => d.measured ≠ [] ∧ (points d v).length = d.measured.length) ds vs) (h0 : ds ≠ [])
    (hu : ∀ p ∈ (List.zipWith points ds vs).flatten.flatten, Usable p) (g : ℝ) (h : combine ds vs = some g) (N : ℝ)
    (hN : 0 < N) (hshots : ∀ p ∈ (List.zipWith points ds vs).flatten.flatten, N ≤ p.shots)
    (hne : (List.zipWith points ds vs).flatten.flatten ≠ []) :
    ∃ r, rmsDist (List.zipWith points ds vs).flatten.flatten = some r ∧ r ≤ √((2 * g + 1) / (4 * N)) := by
  have hs := C246_sum ds vs c hc hlen hrows h0 hu g h
  generalize (List.zipWith points ds vs).flatten.flatten = l at *
  have hn : (0 : ℝ) < l.length := by exact_mod_cast List.length_pos_of_ne_nil hne
  have hsum : 4 * N * (l.map fun p => diff p ^ 2).sum ≤ (l.map chi).sum := by
    clear hs hne hn
    induction l with
    | nil => simp
    | cons p l ih =>
      rw [List.map_cons, List.sum_cons, List.map_cons, List.sum_cons, mul_add]
      refine add_le_add ?_ (ih (fun q hq => hu q (by simp [hq])) fun q hq => hshots q (by simp [hq]))
      obtain ⟨u1, u2, u3⟩ := hu p (by simp)
      have u4 : 0 < 1 - p.sim := by linarith
      have u5 := hshots p (by simp)
      unfold chi diff
      rw [sq_abs, le_div_iff₀ (by positivity)]
      have u6 : 4 * (p.sim * (1 - p.sim)) ≤ 1 := by nlinarith [sq_nonneg (2 * p.sim - 1)]
      have u7 := sq_nonneg (p.exp - p.sim)
      calc 4 * N * (p.exp - p.sim) ^ 2 * (p.sim * (1 - p.sim))
          = N * (p.exp - p.sim) ^ 2 * (4 * (p.sim * (1 - p.sim))) := by ring
        _ ≤ N * (p.exp - p.sim) ^ 2 * 1 := mul_le_mul_of_nonneg_left u6 (by positivity)
        _ ≤ p.shots * (p.exp - p.sim) ^ 2 := by nlinarith
  have hnn : 0 ≤ (l.map fun p => diff p ^ 2).sum := List.sum_nonneg (by
    intro y hy
    obtain ⟨q, -, rfl⟩ := List.mem_map.1 hy
    exact sq_nonneg _)
  refine ⟨√((l.map fun p => diff p ^ 2).sum / l.length), ?_, Real.sqrt_le_sqrt ?_⟩
  · unfold rmsDist
    rw [Est.mean_some _ (by simpa using hne), Option.bind_some, tfSqrt, List.length_map, if_pos (by positivity)]
  · rw [div_le_div_iff₀ hn (by positivity)]
    rw [hs] at hsum
    linarith

/-! ## Leftovers -/

/-- Data without gate parameters, whose simulation depends on `m`. -/
def first : Data :=
  ⟨([], []), [[(1 / 2, 1)]], fun v => [[if v.1 "m" = some [1] then 1 / 2 else 1 / 4]]⟩

/-- Data with `m` as gate parameter. -/
def second : Data := ⟨([[2]], [["m"]]), [[(1 / 2, 1)]], fun _ => [[1 / 2]]⟩

theorem single_goal (y : ℝ) (h0 : 0 < y) (h1 : y < 1) :
    gLLPrime [[⟨1 / 2, y, 0, 1⟩]] = some (((1 / 2 - y) ^ 2 / (y * (1 - y) / 1) - 1) / 2) := by
  have h : gTerm ⟨1 / 2, y, 0, 1⟩ = _ := gTerm_usable ⟨1 / 2, y, 0, 1⟩ ⟨h0, h1, one_pos⟩
  have e : [[(⟨1 / 2, y, 0, 1⟩ : Pt)]].flatten.map gTerm = [gTerm ⟨1 / 2, y, 0, 1⟩] := rfl
  unfold gLLPrime
  rw [e, h]
  simp only [allSome, Option.map_some, Option.bind_some]
  rw [Est.mean_some _ (by simp)]
  simp

theorem two_goals (a b : ℝ) : combined [some a, some b] [1, 1] = some ((a + b) / 2) := by
  simp only [combined, allSome, Option.map_some, Option.bind_some, fdiv, wsum]
  simp
  norm_num

theorem run_example (m a : ℝ) (mv : ℕ → Quantity) :
    goalRun [first, second] (exAt m a mv) [0] =
      (exN 2 1, .ok (some (if m = 1 then -1 / 2 else -5 / 12))) := by
  have h1 : ∀ m a mv, (exAt m a mv).setParametersScaled [0] = (exAt m 1 mv, none) := fun m a mv =>
    exAt_scaled m a 0 1 mv (by norm_num) (by norm_num) (by norm_num)
  have h2 : ∀ mv, (exAt m 1 mv).setParameters [] [] = (exAt m 1 mv, none) := by
    intro mv
    simp [setParameters, setGroups]
  have hm : ∀ m a mv, (exAt m a mv).hasModel = true := fun _ _ _ => rfl
  have h3 : ∀ mv, (exAt m 1 mv).setParameters [[2]] [["m"]] = (exN 2 1, none) := fun mv =>
    exAt_m m 1 2 mv (by norm_num) (by norm_num)
  have s1 : oneParState (fun s => s.setParametersScaled [0]) (exAt m a mv) first.set =
      (exAt m 1 (exAt m 1 mv).heap, none) := by
    simp only [oneParState, h1, hm, if_true]
    exact h2 _
  have s2 : ∀ mv, oneParState (fun s => s.setParametersScaled [0]) (exAt m 1 mv) second.set = (exN 2 1, none) := by
    intro mv
    simp only [oneParState, h1, hm, if_true]
    exact h3 _
  unfold goalRun
  simp only [List.map_cons, List.map_nil, goalStates, s1, s2]
  refine Prod.ext rfl ?_
  simp only
  congr 1
  have r1 : (view (exAt m 1 (exAt m 1 mv).heap)).1 "m" = some [m] := exAt_read_m _ _ _
  simp only [combine, points, first, second, List.zipWith_cons_cons, List.zipWith_nil_right, r1, List.map_cons, List.map_nil,
    List.length_singleton, Nat.cast_one]
  rw [single_goal (1 / 2) (by norm_num) (by norm_num)]
  by_cases hm1 : m = 1
  · subst hm1
    rw [if_pos rfl, if_pos rfl, single_goal (1 / 2) (by norm_num) (by norm_num), two_goals]
    norm_num
  · rw [if_neg hm1, if_neg (by simpa using hm1), single_goal (1 / 4) (by norm_num) (by norm_num), two_goals]
    norm_num

/-- C246 fails if the targets have different gate parameters: what a data set has set is left for those that do not set
it. Here the same proposal, evaluated twice, has two goals: the first data set is simulated once with the parameter as it
was, and then with the value from the second data set. -/
theorem C246_false_leftover : ∃ t, goalRun [first, second] (exN 1 1) [0] = (t, .ok (some (-1 / 2))) ∧
    goalRun [first, second] t [0] = (t, .ok (some (-5 / 12))) := by
  refine ⟨exN 2 1, ?_, ?_⟩
  · unfold exN
    rw [run_example, if_pos rfl]
    rfl
  · unfold exN
    rw [run_example, if_neg (by norm_num)]
    rfl

/-! ## Example -/

/-- One data set with one point that is reproduced: the goal is -1/2, and by the bound the deviation is zero. -/
example (v : View) : combine [second] [v] = some (-1 / 2) ∧ ∃ r, rmsDist [⟨1 / 2, 1 / 2, 0, 1⟩] = some r ∧ r ≤ 0 := by
  have hg : combine [second] [v] = some (-1 / 2) := by
    simp only [combine, points, second, List.zipWith_cons_cons, List.zipWith_nil_right, List.map_cons, List.map_nil,
      List.length_singleton, Nat.cast_one]
    rw [single_goal (1 / 2) (by norm_num) (by norm_num)]
    simp only [combined, allSome, Option.map_some, Option.bind_some, fdiv, wsum]
    simp
  refine ⟨hg, ?_⟩
  have hz : List.zipWith points [second] [v] = [[[⟨1 / 2, 1 / 2, 0, 1⟩]]] := rfl
  obtain ⟨r, h1, h2⟩ := C246_rms [second] [v] 1 one_pos (by rw [hz]; simp) (.cons ⟨by simp [second], rfl⟩ .nil) (by simp)
    (by rw [hz]; simp [Usable]; norm_num) _ hg 1 one_pos (by rw [hz]; simp) (by rw [hz]; simp)
  refine ⟨r, h1, h2.trans (le_of_eq ?_)⟩
  norm_num

theorem exN_scalar (m a : ℝ) : ScalarMap (exN m a) := by
  have hr := exN_ready m a
  refine ⟨hr.good, hr.ne, ?_, hr.disj, ?_, fun _ => rfl⟩
  · intro g hg k hk
    obtain rfl : g = ["a"] := List.mem_singleton.1 hg
    obtain rfl : k = "a" := List.mem_singleton.1 hk
    exact ⟨1, rfl, rfl⟩
  · intro g hg k hk k' hk' r r' h h'
    obtain rfl : g = ["a"] := List.mem_singleton.1 hg
    obtain rfl : k = "a" := List.mem_singleton.1 hk
    obtain rfl : k' = "a" := List.mem_singleton.1 hk'
    rw [h] at h'
    cases h'
    rfl

/-- Learning one parameter from two data sets with the same gate parameter is as assumed. -/
example : LearnOk (exN 1 1) [second, { second with set := ([[1]], [["m"]]) }] ∧
    SameKeys [second, { second with set := ([[1]], [["m"]]) }] := by
  refine ⟨⟨exN_ready 1 1, exN_scalar 1 1, ?_⟩, ?_⟩
  · intro d hd
    have : d.set.2 = [["m"]] := by
      rcases List.mem_cons.1 hd with rfl | hd
      · rfl
      · rw [List.mem_singleton.1 hd]
    rw [this]
    simp [DisjointGroups]
  · intro d hd d' hd' k hk
    have key : ∀ d ∈ [second, { second with set := ([[1]], [["m"]]) }], d.set.2 = [["m"]] := by
      intro d hd
      rcases List.mem_cons.1 hd with rfl | hd
      · rfl
      · rw [List.mem_singleton.1 hd]
    unfold Names at hk ⊢
    rw [key d' hd']
    rw [key d hd] at hk
    exact hk

end C3.Optim.Predict
