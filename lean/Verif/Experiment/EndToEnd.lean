import Verif.Experiment.Compute
import Verif.Experiment.Evaluate
import Verif.Experiment.Readout
import Verif.Hilbert.System
import Verif.Hilbert.Frame

/-!
# C199: From the parameters of the chip and the pulses to probabilities

Puts together the models of the parts: Hamiltonians of the chip (c3/model.py, C35), propagation in slices
(c3/libraries/propagation.py:258-341 `pwc`, C22, C89), frame rotation (c3/model.py:536-578, C37), the loop over the gates
(c3/experiment.py:440-534, C68), the evaluation of sequences (c3/experiment.py:273-302, C65) and the readout
(c3/experiment.py:355-407, C67).

Simplified: the samples of the channels of a gate are given (C46, C55); collapse operators are arbitrary matrices; no
limit on excitations (C138) and no dephasing channel (which raises, C125).
-/

set_option linter.unusedSectionVars false

noncomputable section

namespace C3.Experiment.EndToEnd

open Matrix Finset C3.Propagation C3.Hilbert C3.Experiment C3.Experiment.Compute
open scoped ComplexOrder

/-! ## Model -/

/-- Operators on the register. -/
abbrev Op (dims : List ℕ) := Matrix (Fin dims.prod) (Fin dims.prod) ℂ

/-- Operators on vectorised density matrices of the register. -/
abbrev SOp (dims : List ℕ) := Matrix (Fin dims.prod × Fin dims.prod) (Fin dims.prod × Fin dims.prod) ℂ

/-- What a gate sends to the chip: channels, their values at each sample, the sampling step, and for the frame rotation
the carrier frequencies, frame changes and the length. -/
structure Pulse where
  chans : List String
  values : List (List ℝ)
  dt : ℝ
  freqs : List (String × ℝ)
  shifts : String → Option ℝ
  t : ℝ

/-- A model with its settings: components, dressed basis if used, collapse operators, the subsystem each line drives,
use of the frame rotation, slices per batch. -/
structure Chip (dims : List ℕ) where
  sys : Sys
  tr : Option (Op dims)
  cols : List (Op dims)
  target : String → Option ℕ
  useFR : Bool
  batch : ℕ

variable {dims : List ℕ}

/-- The drift Hamiltonian in the chosen basis. -/
def Chip.h0 (c : Chip dims) : Op dims := dress c.tr (c.sys.drift (ann dims))

/-- The control Hamiltonians of the channels of a gate; an unknown channel raises. -/
def Chip.hks (c : Chip dims) (p : Pulse) : Option (List (Op dims)) :=
  p.chans.mapM fun k => ((c.sys.controls (ann dims)).lookup k).map (dress c.tr)

/-- The frame rotation of a gate. -/
def Chip.frame (c : Chip dims) (p : Pulse) : Option (Op dims) := frameRotation dims c.target p.shifts p.t p.freqs

/-- What the closed-system computation of propagators reads. -/
def closed (c : Chip dims) (ps : List (String × Pulse)) : World (Op dims) where
  keys := ps.map Prod.fst
  instr g := (ps.lookup g).map fun p => ⟨p.values.length, !p.freqs.isEmpty⟩
  useFR := c.useFR
  lind := false
  dephasing := false
  prop _ g stack :=
    match ps.lookup g with
    | none => .error .unknownGate
    | some p =>
      match c.hks p with
      | none => .error .inner
      | some hks =>
        match pwc c.h0 hks p.dt p.values c.batch stack with
        | none => .error .inner
        | some U => .ok U
  frame _ g :=
    match (ps.lookup g).bind c.frame with
    | none => .error .inner
    | some F => .ok F

/-- What the open-system computation of propagators reads. -/
def opened (c : Chip dims) (ps : List (String × Pulse)) : World (SOp dims) where
  keys := ps.map Prod.fst
  instr g := (ps.lookup g).map fun p => ⟨p.values.length, !p.freqs.isEmpty⟩
  useFR := c.useFR
  lind := true
  dephasing := false
  prop _ g stack :=
    match ps.lookup g with
    | none => .error .unknownGate
    | some p =>
      match c.hks p with
      | none => .error .inner
      | some hks =>
        match pwcLind c.h0 hks c.cols p.dt p.values c.batch stack with
        | none => .error .inner
        | some S => .ok S
  frame _ g :=
    match (ps.lookup g).bind c.frame with
    | none => .error .inner
    | some F => .ok (tfSuper F)

/-- c3/experiment.py:619-624: populations as a column. -/
def column {N : ℕ} (p : Fin N → ℝ) : Arr ℝ := ⟨N, 1, fun i _ => if h : i < N then p ⟨i, h⟩ else 0⟩

/-! ## Specification -/

/-- A chip as `Model` builds it: couplings, drives and carriers refer to its subsystems. -/
structure Chip.WF (c : Chip dims) : Prop where
  lines : ∀ l ∈ c.sys.lines, l.2.WF dims.length
  target : ∀ l q, c.target l = some q → q < dims.length
  batch : 1 ≤ c.batch

/-- Every gate that occurs has a propagator. -/
def Available {V : Type} (props : String → Option V) (seqs : List (List String)) : Prop :=
  ∀ s ∈ seqs, ∀ g ∈ s, ∃ U, props g = some U

/-! ## Lemmas -/

theorem lookup_iff {α : Type} (ps : List (String × α)) (g : String) :
    g ∈ ps.map Prod.fst ↔ ∃ p, ps.lookup g = some p := by
  induction ps with
  | nil => simp
  | cons a ps ih =>
    rw [List.lookup_cons, List.map_cons, List.mem_cons, ih]
    cases h : g == a.1 with
    | true => simp [eq_of_beq h]
    | false => simp [ne_of_beq_false h]

theorem closed_wf (c : Chip dims) (ps : List (String × Pulse)) : (closed c ps).WF := by
  intro g
  simp only [closed, lookup_iff, Option.map_eq_some_iff]
  constructor
  · rintro ⟨p, h⟩; exact ⟨_, p, h, rfl⟩
  · rintro ⟨_, p, h, _⟩; exact ⟨p, h⟩

theorem opened_wf (c : Chip dims) (ps : List (String × Pulse)) : (opened c ps).WF := by
  intro g
  simp only [opened, lookup_iff, Option.map_eq_some_iff]
  constructor
  · rintro ⟨p, h⟩; exact ⟨_, p, h, rfl⟩
  · rintro ⟨_, p, h, _⟩; exact ⟨p, h⟩

theorem h0_herm (c : Chip dims) (hc : c.WF) : c.h0.IsHermitian := (C35_model dims c.sys hc.lines c.tr).1

theorem lookup_mem {α : Type} (l : List (String × α)) (k : String) (v : α) (h : l.lookup k = some v) :
    (k, v) ∈ l := by
  induction l with
  | nil => simp at h
  | cons a l ih =>
    rw [List.lookup_cons] at h
    cases hk : k == a.1 with
    | true =>
      rw [hk] at h
      simp only [Option.some.injEq] at h
      rw [eq_of_beq hk, ← h]
      exact List.mem_cons_self
    | false =>
      rw [hk] at h
      exact List.mem_cons_of_mem _ (ih h)

theorem mapM_mem {α β : Type} (f : α → Option β) (l : List α) (r : List β) (h : l.mapM f = some r) :
    ∀ b ∈ r, ∃ a ∈ l, f a = some b := by
  induction l generalizing r with
  | nil =>
    simp only [List.mapM_nil, Option.pure_def, Option.some.injEq] at h
    subst h
    simp
  | cons a l ih =>
    rw [List.mapM_cons] at h
    cases ha : f a with
    | none => rw [ha] at h; simp at h
    | some b =>
      cases hl : l.mapM f with
      | none => rw [ha, hl] at h; simp at h
      | some r' =>
        rw [ha, hl] at h
        simp only [Option.bind_eq_bind, Option.bind_some, Option.pure_def, Option.some.injEq] at h
        subst h
        intro x hx
        rcases List.mem_cons.1 hx with rfl | hx
        · exact ⟨a, List.mem_cons_self, ha⟩
        · obtain ⟨y, hy, hfy⟩ := ih r' hl x hx
          exact ⟨y, List.mem_cons_of_mem _ hy, hfy⟩

theorem hks_herm (c : Chip dims) (hc : c.WF) (p : Pulse) (hks : List (Op dims)) (h : c.hks p = some hks) :
    ∀ H ∈ hks, H.IsHermitian := by
  intro H hH
  obtain ⟨k, _, hk⟩ := mapM_mem _ _ _ h H hH
  rw [Option.map_eq_some_iff] at hk
  obtain ⟨C, hC, rfl⟩ := hk
  exact (C35_model dims c.sys hc.lines c.tr).2 _ (lookup_mem _ _ _ hC)

theorem frame_unitary (c : Chip dims) (hc : c.WF) (p : Pulse) (F : Op dims) (h : c.frame p = some F) :
    Fᴴ * F = 1 := by
  have hok : FramesOk dims c.target p.shifts p.freqs := by
    intro l hl
    constructor
    · by_contra hn
      have : p.shifts l.1 = none := by
        cases hs : p.shifts l.1 with
        | none => rfl
        | some x => exact absurd ⟨x, hs⟩ hn
      have := C37_unknown dims c.target p.shifts p.t p.freqs l hl (Or.inr this)
      unfold Chip.frame at h
      rw [this] at h
      simp at h
    · cases ht : c.target l.1 with
      | none =>
        have := C37_unknown dims c.target p.shifts p.t p.freqs l hl (Or.inl ht)
        unfold Chip.frame at h
        rw [this] at h
        simp at h
      | some q => exact ⟨q, hc.target _ _ ht, rfl⟩
  obtain ⟨F', h1, h2, -⟩ := C37_unitary dims c.target p.shifts p.t p.freqs hok
  unfold Chip.frame at h
  rw [h1] at h
  rw [← Option.some.inj h]
  exact h2

theorem tfSuper_trace (U : Op dims) (hU : Uᴴ * U = 1) : tfSuper U ∈ tracePreserving (Fin dims.prod) := by
  intro v
  have hv : v = rowVec (unRow v) := rfl
  rw [hv, C26_super_row]
  have h1 : ∀ A : Op dims, vecTrace (rowVec A) = A.trace := fun A => rfl
  rw [h1, h1, Matrix.trace_mul_comm, ← Matrix.mul_assoc, hU, Matrix.one_mul]

theorem tfSuper_positive (U : Op dims) : tfSuper U ∈ positiveMaps (Fin dims.prod) := by
  intro rho h
  rw [C26_super_row]
  exact h.mul_mul_conjTranspose_same U

/-- The only way to a gate value: known gate, known channels, result of the propagation, frame rotation. -/
theorem physical_closed (c : Chip dims) (ps : List (String × Pulse)) (g : String) (V : Op dims)
    (h : physical (closed c ps) (.name "pwc") g = .ok V) :
    ∃ p hks U, ps.lookup g = some p ∧ c.hks p = some hks ∧
      pwc c.h0 hks p.dt p.values c.batch (Fold.stackFor p.values.length) = some U ∧
      ((c.useFR = true ∧ ∃ F, c.frame p = some F ∧ V = F * U) ∨ (c.useFR = false ∧ V = U)) := by
  unfold physical closed at h
  simp only at h
  cases hp : ps.lookup g with
  | none => simp [hp] at h
  | some p =>
    simp only [hp, Option.map_some] at h
    cases hk : c.hks p with
    | none => simp [hk] at h
    | some hks =>
      simp only [hk] at h
      cases hU : pwc c.h0 hks p.dt p.values c.batch (Fold.stackFor p.values.length) with
      | none => simp [hU] at h
      | some U =>
        simp only [hU] at h
        refine ⟨p, hks, U, rfl, hk, hU, ?_⟩
        cases hf : c.useFR with
        | false =>
          simp [hf] at h
          exact Or.inr ⟨rfl, h.symm⟩
        | true =>
          cases hF : c.frame p with
          | none => simp [hf, hF] at h
          | some F =>
            simp [hf, hF] at h
            exact Or.inl ⟨rfl, F, rfl, h.symm⟩

theorem physical_opened (c : Chip dims) (ps : List (String × Pulse)) (g : String) (V : SOp dims)
    (h : physical (opened c ps) (.name "pwc") g = .ok V) :
    ∃ p hks S, ps.lookup g = some p ∧ c.hks p = some hks ∧
      pwcLind c.h0 hks c.cols p.dt p.values c.batch (Fold.stackFor p.values.length) = some S ∧
      ((c.useFR = true ∧ ∃ F, c.frame p = some F ∧ V = tfSuper F * S) ∨ (c.useFR = false ∧ V = S)) := by
  unfold physical opened at h
  simp only at h
  cases hp : ps.lookup g with
  | none => simp [hp] at h
  | some p =>
    simp only [hp, Option.map_some] at h
    cases hk : c.hks p with
    | none => simp [hk] at h
    | some hks =>
      simp only [hk] at h
      cases hU : pwcLind c.h0 hks c.cols p.dt p.values c.batch (Fold.stackFor p.values.length) with
      | none => simp [hU] at h
      | some U =>
        simp only [hU] at h
        refine ⟨p, hks, U, rfl, hk, hU, ?_⟩
        cases hf : c.useFR with
        | false =>
          simp [hf] at h
          exact Or.inr ⟨rfl, h.symm⟩
        | true =>
          cases hF : c.frame p with
          | none => simp [hf, hF] at h
          | some F =>
            simp [hf, hF] at h
            exact Or.inl ⟨rfl, F, rfl, h.symm⟩

theorem pwc_empty (h0 : Op dims) (hks : List (Op dims)) (dt : ℝ) (bs : ℕ) (hbs : 1 ≤ bs) :
    pwc h0 hks dt [] bs (Fold.stackFor 0) = none := by
  have : (bs - 1) / bs = 0 := Nat.div_eq_of_lt (by omega)
  have h0' : Fold.stackFor 0 = [] := by unfold Fold.stackFor; simp
  simp [pwc, Fold.batchPropagate, this, h0', Fold.matmulN]

theorem pwcLind_empty (h0 : Op dims) (hks cols : List (Op dims)) (dt : ℝ) (bs : ℕ) (hbs : 1 ≤ bs) :
    pwcLind h0 hks cols dt [] bs (Fold.stackFor 0) = none := by
  have : (bs - 1) / bs = 0 := Nat.div_eq_of_lt (by omega)
  have h0' : Fold.stackFor 0 = [] := by unfold Fold.stackFor; simp
  simp [pwcLind, Fold.batchPropagate, this, h0', Fold.matmulN]

/-! ## Theorems -/

/-- C199, gates of a closed system: whatever the parameters of the chip, the samples and the frame, a propagator that is
computed is unitary. -/
theorem C199_unitary (c : Chip dims) (hc : c.WF) (ps : List (String × Pulse)) (g : String) (V : Op dims)
    (h : physical (closed c ps) (.name "pwc") g = .ok V) : Vᴴ * V = 1 := by
  obtain ⟨p, hks, U, -, hk, hU, hF⟩ := physical_closed c ps g V h
  have hUu : Uᴴ * U = 1 := by
    by_cases hv : p.values = []
    · rw [hv] at hU
      rw [List.length_nil, pwc_empty c.h0 hks p.dt c.batch hc.batch] at hU
      simp at hU
    · obtain ⟨U', h1, h2⟩ := C22_gate_unitary c.h0 hks p.dt (h0_herm c hc) (hks_herm c hc p hks hk) p.values hv c.batch
        hc.batch
      rw [h2] at hU
      rw [← Option.some.inj hU]
      exact Matrix.mem_unitaryGroup_iff'.1 h1
  rcases hF with ⟨-, F, hF, rfl⟩ | ⟨-, rfl⟩
  · rw [conjTranspose_mul, Matrix.mul_assoc, ← Matrix.mul_assoc Fᴴ, frame_unitary c hc p F hF, Matrix.one_mul, hUu]
  · exact hUu

/-- C199, gates of an open system: whatever the parameters of the chip, collapse operators, samples and frame, a
propagator that is computed maps density matrices to density matrices. -/
theorem C199_channel (c : Chip dims) (hc : c.WF) (ps : List (String × Pulse))
    (hdt : ∀ g p, ps.lookup g = some p → 0 ≤ p.dt) (g : String) (V : SOp dims)
    (h : physical (opened c ps) (.name "pwc") g = .ok V) :
    V ∈ tracePreserving (Fin dims.prod) ∧ V ∈ positiveMaps (Fin dims.prod) := by
  obtain ⟨p, hks, S, hp, hk, hU, hF⟩ := physical_opened c ps g V h
  have hS : S ∈ tracePreserving (Fin dims.prod) ∧ S ∈ positiveMaps (Fin dims.prod) := by
    by_cases hv : p.values = []
    · rw [hv] at hU
      rw [List.length_nil, pwcLind_empty c.h0 hks c.cols p.dt c.batch hc.batch] at hU
      simp at hU
    · rw [pwcLind_eq c.h0 hks c.cols p.dt p.values hv c.batch hc.batch] at hU
      rw [← Option.some.inj hU]
      constructor
      · apply timeOrdered_mem
        intro x hx
        obtain ⟨v, _, rfl⟩ := List.mem_map.1 hx
        exact fun w => C25_slice_trace c.h0 hks c.cols p.dt v w
      · apply timeOrdered_mem
        intro x hx
        obtain ⟨v, _, rfl⟩ := List.mem_map.1 hx
        exact exp_mem_positiveMaps _ (isHermitian_hamAt _ _ (h0_herm c hc) fun q hq =>
          hks_herm c hc p hks hk _ (List.of_mem_zip hq).2) c.cols p.dt (hdt g p hp)
  rcases hF with ⟨-, F, hF, rfl⟩ | ⟨-, rfl⟩
  · exact ⟨mul_mem (tfSuper_trace F (frame_unitary c hc p F hF)) hS.1, mul_mem (tfSuper_positive F) hS.2⟩
  · exact hS

/-- C199 for closed systems: after any history of computing propagators, with chip parameters, pulses, selections and
settings changing between the calls and calls that raise among them, evaluating any sequences of available gates from
any state gives one probability distribution per sequence. -/
theorem C199_closed (s : Exp (Op dims)) (hm : s.propMethod = none) (hp : ∀ g, s.propagators g = none)
    (es : List (Event (Op dims))) (he : ∀ e ∈ es, ∃ c : Chip dims, c.WF ∧ ∃ ps, e.w = closed c ps)
    (seqs : List (List String)) (ha : Available (runEvents s es).propagators seqs) (psi : Fin dims.prod → ℂ)
    (hpsi : ∑ i, ‖psi i‖ ^ 2 = 1) :
    ∃ ps, evaluateClosed (runEvents s es).propagators seqs psi = some ps ∧ ps.length = seqs.length ∧
      ∀ p ∈ ps, IsProb p := by
  have hu : ∀ g U, (runEvents s es).propagators g = some U → Uᴴ * U = 1 := by
    intro g U h
    have hw : ∀ e ∈ es, e.w.WF := fun e hm => by
      obtain ⟨c, _, ps, h⟩ := he e hm
      rw [h]
      exact closed_wf c ps
    obtain ⟨pre, e, post, rfl, -, -, h1, -⟩ := (C68_history s hm hp es hw g U).1 h
    obtain ⟨c, hc, ps, h2⟩ := he e (by simp)
    rw [h2] at h1
    exact C199_unitary c hc ps g U h1
  obtain ⟨h1, h2⟩ := C65_closed (runEvents s es).propagators seqs psi
    (fun q hq g hg => by
      obtain ⟨U, hU⟩ := ha q hq g hg
      exact ⟨U, hU, hu g U hU⟩) hpsi
  refine ⟨_, h1, by simp, ?_⟩
  intro p hp
  obtain ⟨q, hq, rfl⟩ := List.mem_map.1 hp
  exact h2 q hq

/-- C199 for open systems. -/
theorem C199_open (s : Exp (SOp dims)) (hm : s.propMethod = none) (hp : ∀ g, s.propagators g = none)
    (es : List (Event (SOp dims))) (he : ∀ e ∈ es, ∃ c : Chip dims, c.WF ∧ ∃ ps : List (String × Pulse),
      (∀ g p, ps.lookup g = some p → 0 ≤ p.dt) ∧ e.w = opened c ps)
    (seqs : List (List String)) (ha : Available (runEvents s es).propagators seqs) (rho : Op dims)
    (hrho : IsDensity rho) :
    ∃ ps, evaluateOpen (runEvents s es).propagators seqs (dmToVec rho) = some ps ∧ ps.length = seqs.length ∧
      ∀ p ∈ ps, IsProb p := by
  refine C65_open _ seqs rho (fun q hq g hg => ?_) hrho
  obtain ⟨U, hU⟩ := ha q hq g hg
  have hw : ∀ e ∈ es, e.w.WF := fun e hm => by
    obtain ⟨c, _, ps, _, h⟩ := he e hm
    rw [h]
    exact opened_wf c ps
  obtain ⟨pre, e, post, rfl, -, -, h1, -⟩ := (C68_history s hm hp es hw g U).1 hU
  obtain ⟨c, hc, ps, hdt, h2⟩ := he e (by simp)
  rw [h2] at h1
  exact ⟨U, hU, C199_channel c hc ps hdt g U h1⟩

/-- C199, readout: passing such a distribution through a confusion matrix with entries between zero and one, one row
per subsystem, gives a distribution over the readout results. -/
theorem C199_readout (rows : List (List ℝ)) (h : ∀ r ∈ rows, ∀ x ∈ r, 0 ≤ x ∧ x ≤ 1)
    (hd : rows.map List.length = dims) (p : Fin dims.prod → ℝ) (hp : IsProb p) :
    ∃ q, confuse rows (column p) = .ok q ∧ q.rows = 2 ^ dims.length ∧ q.cols = 1 ∧ ProbCol q.rows fun i => q.e i 0 := by
  have hc : ProbCol (column p).rows fun i => (column p).e i 0 := by
    constructor
    · intro i hi
      have hi' : i < dims.prod := hi
      simp only [column, dif_pos hi']
      exact hp.1 _
    · rw [← hp.2]
      change ∑ i ∈ range dims.prod, (if h : i < dims.prod then p ⟨i, h⟩ else 0) = _
      rw [Finset.sum_range]
      exact Finset.sum_congr rfl fun i _ => by simp
  obtain ⟨q, h1, h2, h3, h4⟩ := C67_probability rows h (column p) (by rw [hd]; rfl) 0 hc
  refine ⟨q, h1, ?_, h3, h4⟩
  rw [h2, ← hd, List.length_map]

/-- C199: propagators are computed for every gate with at least one sample on drive lines of the chip, whose carriers
belong to subsystems. -/
theorem C199_computed (c : Chip dims) (hc : c.WF) (ps : List (String × Pulse)) (g : String) (p : Pulse)
    (hp : ps.lookup g = some p) (hv : p.values ≠ [])
    (hk : ∀ k ∈ p.chans, ∃ H, (c.sys.controls (ann dims)).lookup k = some H)
    (hf : FramesOk dims c.target p.shifts p.freqs) : ∃ V, physical (closed c ps) (.name "pwc") g = .ok V := by
  have hks : ∃ hks, c.hks p = some hks := by
    unfold Chip.hks
    generalize p.chans = l at hk
    induction l with
    | nil => exact ⟨[], rfl⟩
    | cons a l ih =>
      obtain ⟨H, hH⟩ := hk a List.mem_cons_self
      obtain ⟨r, hr⟩ := ih fun k hk' => hk k (List.mem_cons_of_mem _ hk')
      exact ⟨dress c.tr H :: r, by rw [List.mapM_cons, hr, hH]; rfl⟩
  obtain ⟨hks, hks'⟩ := hks
  obtain ⟨U, -, hU⟩ := C22_gate_unitary c.h0 hks p.dt (h0_herm c hc) (hks_herm c hc p hks hks') p.values hv c.batch
    hc.batch
  obtain ⟨F, hF, -⟩ := C37_unitary dims c.target p.shifts p.t p.freqs hf
  unfold physical closed
  simp only [hp, Option.map_some, hks', hU]
  cases c.useFR with
  | false => exact ⟨U, by simp⟩
  | true => exact ⟨F * U, by simp [Chip.frame, hF]⟩

/-- C199, short gates: a gate without samples cannot be computed. -/
theorem C199_no_samples (c : Chip dims) (hc : c.WF) (ps : List (String × Pulse)) (g : String) (p : Pulse)
    (hp : ps.lookup g = some p) (hv : p.values = []) (V : Op dims) :
    physical (closed c ps) (.name "pwc") g ≠ .ok V := by
  intro h
  obtain ⟨p', hks, U, hp', -, hU, -⟩ := physical_closed c ps g V h
  rw [hp] at hp'
  rw [← Option.some.inj hp', hv, List.length_nil, pwc_empty c.h0 hks p.dt c.batch hc.batch] at hU
  simp at hU

/-- A driven qubit with one gate. -/
def exChip : Chip [2] := ⟨⟨[("q", .qubit 2 5 0)], [("d", .drive .x [0])]⟩, none, [], fun _ => some 0, true, 1⟩

theorem exChip_wf : exChip.WF := by
  refine ⟨?_, ?_, le_rfl⟩
  · intro l hl
    simp only [exChip, List.mem_singleton] at hl
    subst hl
    intro i hi
    simp at hi
    simp [hi]
  · intro l q h
    simp only [exChip, Option.some.injEq] at h
    subst h
    simp

example : ∃ V, physical (closed exChip [("rx", ⟨["d"], [[1], [2]], 1, [("d", 5)], fun _ => some 0, 2⟩)])
    (.name "pwc") "rx" = .ok V ∧ Vᴴ * V = 1 := by
  obtain ⟨V, h⟩ := C199_computed exChip exChip_wf
    [("rx", ⟨["d"], [[1], [2]], 1, [("d", 5)], fun _ => some 0, 2⟩)] "rx" _ rfl (by simp)
    (by
      intro k hk
      rw [List.mem_singleton.1 hk]
      exact ⟨_, rfl⟩)
    (fun l _ => ⟨⟨0, rfl⟩, 0, by simp, rfl⟩)
  exact ⟨V, h, C199_unitary exChip exChip_wf _ _ V h⟩

end C3.Experiment.EndToEnd
