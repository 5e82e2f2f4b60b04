import Verif.Hilbert.Hams
import Mathlib.Analysis.SpecialFunctions.Trigonometric.Basic
import Mathlib.Analysis.SpecialFunctions.Pow.Real

/-!
# C35, C39: Hamiltonians of the model

`get_Hamiltonian` of the chip elements (c3/libraries/chip.py), `Model.update_Hamiltonians`,
`Model.get_Hamiltonian` (c3/model.py).

Components are addressed by name; the names in `connected` are already resolved to positions
(`set_components` refuses unknown names, c3/model.py:119-135). Exceptions are `Except` values.
Hamiltonians over time are functions of the sample number (TensorFlow broadcasts the constant ones).
-/

set_option linter.unusedSectionVars false

namespace C3.Hilbert

open Matrix

/-! ## Model -/

/-- Chip elements. -/
inductive Sub where
  | qubit (dim : ℕ) (freq anhar : ℝ)
  | res (freq : ℝ)
  | transmon (dim : ℕ) (freq anhar phi phi0 d : ℝ)
  | snail (dim : ℕ) (freq anhar beta : ℝ)

/-- Library functions of two annihilators. -/
inductive IntFun where
  | xx | yy

/-- Library functions of one annihilator. -/
inductive DriveFun where
  | x | y | z | res | duff | third

/-- Lines between chip elements. -/
inductive Line where
  | coupling (f : IntFun) (strength : ℝ) (c₁ c₂ : ℕ)
  | drive (f : DriveFun) (conn : List ℕ)
  | couplingDrive (f : IntFun) (c₁ c₂ : ℕ)

inductive HErr where
  | notImplemented
  | unknownChannel
deriving DecidableEq

/-- c3/libraries/chip.py:355-372 `Transmon.get_factor` (`d` resolved). -/
noncomputable def squidFactor (phi phi0 d : ℝ) : ℝ :=
  Real.sqrt (Real.sqrt (Real.cos (Real.pi * phi / phi0) ^ 2 +
    d ^ 2 * Real.sin (Real.pi * phi / phi0) ^ 2))

/-- c3/libraries/chip.py:378-383 `Transmon.get_freq`. -/
noncomputable def transmonFreq (freq anhar phi phi0 d sig : ℝ) : ℝ :=
  (freq - anhar) * squidFactor (phi + sig) phi0 d + anhar

section
variable {n : Type*} [Fintype n] [DecidableEq n]

/-- Change of basis with an optional transformation, c3/libraries/chip.py:50-69. -/
def dress (tr : Option (Matrix n n ℂ)) (h : Matrix n n ℂ) : Matrix n n ℂ :=
  match tr with
  | none => h
  | some t => tᴴ * h * t

noncomputable def IntFun.ham : IntFun → Matrix n n ℂ → Matrix n n ℂ → Matrix n n ℂ
  | .xx => intXX
  | .yy => intYY

noncomputable def DriveFun.ham : DriveFun → Matrix n n ℂ → Matrix n n ℂ
  | .x => xDrive
  | .y => yDrive
  | .z => zDrive
  | .res => resonator
  | .duff => duffing
  | .third => thirdOrder

/-- `get_Hamiltonian` without signal: c3/libraries/chip.py:169-189 (qubit), 266-276 (resonator),
405-423 (transmon), 1097-1118 (SNAIL). -/
noncomputable def Sub.ham (tr : Option (Matrix n n ℂ)) (a : Matrix n n ℂ) : Sub → Matrix n n ℂ
  | .qubit dim freq anhar =>
    let h := (freq : ℂ) • dress tr (resonator a)
    if dim > 2 then h + (anhar : ℂ) • dress tr (duffing a) else h
  | .res freq => (freq : ℂ) • dress tr (resonator a)
  | .transmon dim freq anhar phi phi0 d =>
    let h := ((transmonFreq freq anhar phi phi0 d 0 : ℝ) : ℂ) • dress tr (resonator a)
    if dim > 2 then h + (anhar : ℂ) • dress tr (duffing a) else h
  | .snail dim freq anhar beta =>
    let h := (freq : ℂ) • dress tr (resonator a) + (beta : ℂ) • dress tr (thirdOrder a)
    if dim > 2 then h + (anhar : ℂ) • dress tr (duffing a) else h

/-- `get_Hamiltonian` with the samples of a signal. Only the transmon implements it. -/
noncomputable def Sub.hamSig (tr : Option (Matrix n n ℂ)) (a : Matrix n n ℂ) (sig : ℕ → ℝ) :
    Sub → Except HErr (ℕ → Matrix n n ℂ)
  | .transmon dim freq anhar phi phi0 d => .ok fun k =>
    let h := ((transmonFreq freq anhar phi phi0 d (sig k) : ℝ) : ℂ) • dress tr (resonator a)
    if dim > 2 then h + (anhar : ℂ) • dress tr (duffing a) else h
  | _ => .error .notImplemented

/-- c3/libraries/chip.py:1194-1202 and 1217-1238: drift part of a line (`Coupling`s only, c3/model.py:437-438). -/
noncomputable def Line.drift (ann : ℕ → Matrix n n ℂ) : Line → Option (Matrix n n ℂ)
  | .coupling f s c₁ c₂ => some ((s : ℂ) • f.ham (ann c₁) (ann c₂))
  | _ => none

/-- c3/libraries/chip.py:1217-1221, 1253-1254 `init_Hs` of drives: the control Hamiltonian. -/
noncomputable def Line.control (ann : ℕ → Matrix n n ℂ) : Line → Option (Matrix n n ℂ)
  | .coupling .. => none
  | .drive f conn => some ((conn.map fun i => f.ham (ann i)).sum)
  | .couplingDrive f c₁ c₂ => some (f.ham (ann c₁) (ann c₂))

/-- `get_Hamiltonian` of a line with the samples of a signal (c3/libraries/chip.py:1194-1202, 1223-1238). -/
noncomputable def Line.hamSig (tr : Option (Matrix n n ℂ)) (ann : ℕ → Matrix n n ℂ)
    (sig : ℕ → ℝ) (l : Line) : Except HErr (ℕ → Matrix n n ℂ) :=
  match l.control ann with
  | none => .error .notImplemented
  | some h => .ok fun k => (sig k : ℂ) • dress tr h

/-- The parts of the model that matter for Hamiltonians. -/
structure Sys where
  subs : List (String × Sub)
  lines : List (String × Line)

/-- c3/model.py:430-441: the dictionary of (constant) Hamiltonians, optionally dressed
(c3/model.py:511-514). The annihilator of the `i`-th subsystem is `ann i`. -/
noncomputable def Sys.hams (s : Sys) (tr : Option (Matrix n n ℂ)) (ann : ℕ → Matrix n n ℂ) :
    List (String × Matrix n n ℂ) :=
  ((s.subs.zipIdx.map fun p => (p.1.1, dress tr (p.1.2.ham none (ann p.2)))) ++
    s.lines.filterMap fun l => (l.2.drift ann).map fun h => (l.1, dress tr h))

/-- c3/model.py:442: `sum(hamiltonians.values())`. -/
noncomputable def Sys.drift (s : Sys) (ann : ℕ → Matrix n n ℂ) : Matrix n n ℂ :=
  ((s.hams none ann).map Prod.snd).sum

/-- c3/model.py:439-440: the control Hamiltonians. -/
noncomputable def Sys.controls (s : Sys) (ann : ℕ → Matrix n n ℂ) : List (String × Matrix n n ℂ) :=
  s.lines.filterMap fun l => (l.2.control ann).map fun h => (l.1, h)

/-- Assignment to a dictionary entry. -/
def dictSet {α : Type*} (d : List (String × α)) (k : String) (v : α) : List (String × α) :=
  if k ∈ d.map Prod.fst then d.map fun p => if p.1 = k then (k, v) else p else d ++ [(k, v)]

/-- c3/model.py:387-398: the new entry for a driven channel. -/
noncomputable def Sys.driven (s : Sys) (tr : Option (Matrix n n ℂ)) (ann : ℕ → Matrix n n ℂ)
    (key : String) (sig : ℕ → ℝ) : Except HErr (ℕ → Matrix n n ℂ) :=
  match s.subs.zipIdx.find? (fun p => p.1.1 == key) with
  | some p => p.1.2.hamSig tr (ann p.2) sig
  | none =>
    match s.lines.find? (fun l => l.1 == key) with
    | some l => l.2.hamSig tr ann sig
    | none => .error .unknownChannel

/-- c3/model.py:387-398: the loop over the signals. -/
noncomputable def Sys.sigLoop (s : Sys) (tr : Option (Matrix n n ℂ)) (ann : ℕ → Matrix n n ℂ) :
    List (String × (ℕ → ℝ)) → List (String × (ℕ → Matrix n n ℂ)) →
    Except HErr (List (String × (ℕ → Matrix n n ℂ)))
  | [], hs => .ok hs
  | (key, sig) :: rest, hs => do
    let h ← s.driven tr ann key sig
    s.sigLoop tr ann rest (dictSet hs key h)

/-- c3/model.py:374-412 `get_Hamiltonian(signal)` without excitation cut. -/
noncomputable def Sys.getHamiltonian (s : Sys) (tr : Option (Matrix n n ℂ))
    (ann : ℕ → Matrix n n ℂ) (signal : List (String × (ℕ → ℝ))) :
    Except HErr (ℕ → Matrix n n ℂ) := do
  let hs ← s.sigLoop tr ann signal ((s.hams tr ann).map fun p => (p.1, fun _ => p.2))
  return fun k => (hs.map fun p => p.2 k).sum

end

/-! ## C35 -/

section
variable {n : Type*} [Fintype n] [DecidableEq n]

theorem smul_real_herm (c : ℝ) {h : Matrix n n ℂ} (hh : h.IsHermitian) :
    ((c : ℂ) • h).IsHermitian := by
  unfold Matrix.IsHermitian
  rw [Matrix.conjTranspose_smul, hh]
  simp

theorem dress_herm (tr : Option (Matrix n n ℂ)) {h : Matrix n n ℂ} (hh : h.IsHermitian) :
    (dress tr h).IsHermitian := by
  cases tr with
  | none => exact hh
  | some t => exact Matrix.isHermitian_conjTranspose_mul_mul t hh

theorem sub_ham_herm (tr : Option (Matrix n n ℂ)) (a : Matrix n n ℂ) (s : Sub) :
    (s.ham tr a).IsHermitian := by
  have r := fun c : ℝ => smul_real_herm c (dress_herm tr (resonator_herm a))
  have d := fun c : ℝ => smul_real_herm c (dress_herm tr (duffing_herm a))
  have t := fun c : ℝ => smul_real_herm c (dress_herm tr (thirdOrder_herm a))
  cases s <;> simp only [Sub.ham]
  · split
    · exact (r _).add (d _)
    · exact r _
  · exact r _
  · split
    · exact (r _).add (d _)
    · exact r _
  · split
    · exact ((r _).add (t _)).add (d _)
    · exact (r _).add (t _)

theorem sum_herm (l : List (Matrix n n ℂ)) (h : ∀ m ∈ l, m.IsHermitian) : l.sum.IsHermitian := by
  induction l with
  | nil => simp
  | cons a l ih =>
    rw [List.sum_cons]
    exact (h a List.mem_cons_self).add (ih fun m hm => h m (List.mem_cons_of_mem _ hm))

/-- All interactions between the annihilators are Hermitian. True for the model's annihilators
(`C35_interactions`). -/
def Interacting (N : ℕ) (ann : ℕ → Matrix n n ℂ) : Prop :=
  ∀ i < N, ∀ j < N, (intXX (ann i) (ann j)).IsHermitian ∧ (intYY (ann i) (ann j)).IsHermitian

/-- The lines connect existing subsystems. -/
def Line.WF (N : ℕ) : Line → Prop
  | .coupling _ _ c₁ c₂ => c₁ < N ∧ c₂ < N
  | .drive _ conn => ∀ i ∈ conn, i < N
  | .couplingDrive _ c₁ c₂ => c₁ < N ∧ c₂ < N

theorem int_herm {N : ℕ} {ann : ℕ → Matrix n n ℂ} (hint : Interacting N ann) (f : IntFun)
    {i j : ℕ} (hi : i < N) (hj : j < N) : (f.ham (ann i) (ann j)).IsHermitian := by
  cases f
  · exact (hint i hi j hj).1
  · exact (hint i hi j hj).2

theorem drive_herm (f : DriveFun) (a : Matrix n n ℂ) : (f.ham a).IsHermitian := by
  obtain ⟨h1, h2, h3, h4, h5, h6⟩ := C35_single a
  cases f <;> assumption

theorem line_drift_herm {N : ℕ} {ann : ℕ → Matrix n n ℂ} (hint : Interacting N ann) (l : Line)
    (hl : l.WF N) (h : Matrix n n ℂ) (hh : l.drift ann = some h) : h.IsHermitian := by
  cases l with
  | coupling f s c₁ c₂ =>
    simp only [Line.drift, Option.some.injEq] at hh
    subst hh
    exact smul_real_herm s (int_herm hint f hl.1 hl.2)
  | drive f c => simp [Line.drift] at hh
  | couplingDrive f c₁ c₂ => simp [Line.drift] at hh

theorem line_control_herm {N : ℕ} {ann : ℕ → Matrix n n ℂ} (hint : Interacting N ann) (l : Line)
    (hl : l.WF N) (h : Matrix n n ℂ) (hh : l.control ann = some h) : h.IsHermitian := by
  cases l with
  | coupling f s c₁ c₂ => simp [Line.control] at hh
  | drive f c =>
    simp only [Line.control, Option.some.injEq] at hh
    subst hh
    apply sum_herm
    intro m hm
    obtain ⟨i, _, rfl⟩ := List.mem_map.1 hm
    exact drive_herm f _
  | couplingDrive f c₁ c₂ =>
    simp only [Line.control, Option.some.injEq] at hh
    subst hh
    exact int_herm hint f hl.1 hl.2

theorem hams_herm {N : ℕ} {ann : ℕ → Matrix n n ℂ} (hint : Interacting N ann) (s : Sys)
    (hs : ∀ l ∈ s.lines, l.2.WF N) (tr : Option (Matrix n n ℂ)) :
    ∀ p ∈ s.hams tr ann, p.2.IsHermitian := by
  intro p hp
  unfold Sys.hams at hp
  rw [List.mem_append] at hp
  rcases hp with hp | hp
  · obtain ⟨q, _, rfl⟩ := List.mem_map.1 hp
    exact dress_herm tr (sub_ham_herm none _ _)
  · obtain ⟨l, hl, hp⟩ := List.mem_filterMap.1 hp
    obtain ⟨h, hh, rfl⟩ := Option.map_eq_some_iff.1 hp
    exact dress_herm tr (line_drift_herm hint l.2 (hs l hl) h hh)

end

/-- C35: drift and control Hamiltonians of every model built from the library are Hermitian, bare and
dressed, for all real parameters. -/
theorem C35_model (dims : List ℕ) (s : Sys) (hs : ∀ l ∈ s.lines, l.2.WF dims.length)
    (tr : Option (Matrix (Fin dims.prod) (Fin dims.prod) ℂ)) :
    (dress tr (s.drift (ann dims))).IsHermitian ∧
      ∀ p ∈ s.controls (ann dims), (dress tr p.2).IsHermitian := by
  have hint : Interacting dims.length (ann dims) := fun i hi j hj => C35_interactions dims i j hi hj
  constructor
  · apply dress_herm
    apply sum_herm
    intro m hm
    obtain ⟨p, hp, rfl⟩ := List.mem_map.1 hm
    exact hams_herm hint s hs none p hp
  · intro p hp
    obtain ⟨l, hl, hp⟩ := List.mem_filterMap.1 hp
    obtain ⟨h, hh, rfl⟩ := Option.map_eq_some_iff.1 hp
    exact dress_herm tr (line_control_herm hint l.2 (hs l hl) h hh)

/-! ## C39 -/

section
variable {n : Type*} [Fintype n] [DecidableEq n]

theorem dress_add (tr : Option (Matrix n n ℂ)) (a b : Matrix n n ℂ) :
    dress tr (a + b) = dress tr a + dress tr b := by
  cases tr <;> simp [dress, Matrix.mul_add, Matrix.add_mul]

theorem dress_smul (tr : Option (Matrix n n ℂ)) (c : ℂ) (a : Matrix n n ℂ) :
    dress tr (c • a) = c • dress tr a := by
  cases tr <;> simp [dress]

theorem dress_zero (tr : Option (Matrix n n ℂ)) : dress tr (0 : Matrix n n ℂ) = 0 := by
  cases tr <;> simp [dress]

theorem dress_sum (tr : Option (Matrix n n ℂ)) (l : List (Matrix n n ℂ)) :
    dress tr l.sum = (l.map (dress tr)).sum := by
  induction l with
  | nil => simp [dress_zero]
  | cons a l ih => simp [dress_add, ih]

theorem dictSet_new {α : Type*} (d : List (String × α)) (k : String) (v : α)
    (h : k ∉ d.map Prod.fst) : dictSet d k v = d ++ [(k, v)] := by
  unfold dictSet
  rw [if_neg h]

theorem find_line {s : Sys} (hnd : (s.lines.map Prod.fst).Nodup) {l : String × Line}
    (hl : l ∈ s.lines) : s.lines.find? (fun q => q.1 == l.1) = some l := by
  generalize s.lines = L at *
  induction L with
  | nil => simp at hl
  | cons a L ih =>
    rw [List.map_cons, List.nodup_cons] at hnd
    rw [List.find?_cons]
    rcases List.mem_cons.1 hl with rfl | hl
    · simp
    · have : (a.1 == l.1) = false := by
        simp only [beq_eq_false_iff_ne]
        intro h
        exact hnd.1 (h ▸ List.mem_map_of_mem hl)
      rw [this]
      exact ih hnd.2 hl

theorem no_sub {s : Sys} {key : String} (h : key ∉ s.subs.map Prod.fst) :
    s.subs.zipIdx.find? (fun p => p.1.1 == key) = none := by
  rw [List.find?_eq_none]
  intro p hp
  simp only [beq_iff_eq]
  rintro rfl
  exact h (List.mem_map_of_mem (List.fst_mem_of_mem_zipIdx hp))

/-- Names of the constant Hamiltonians. -/
theorem hams_names (s : Sys) (tr : Option (Matrix n n ℂ)) (ann : ℕ → Matrix n n ℂ) (k : String)
    (hk : k ∈ (s.hams tr ann).map Prod.fst) :
    k ∈ s.subs.map Prod.fst ∨ ∃ l ∈ s.lines, l.1 = k ∧ (l.2.drift ann).isSome := by
  unfold Sys.hams at hk
  rw [List.map_append, List.mem_append] at hk
  rcases hk with hk | hk
  · left
    rw [List.map_map] at hk
    obtain ⟨q, hq, rfl⟩ := List.mem_map.1 hk
    exact List.mem_map_of_mem (List.fst_mem_of_mem_zipIdx hq)
  · right
    obtain ⟨p, hp, rfl⟩ := List.mem_map.1 hk
    obtain ⟨l, hl, hp⟩ := List.mem_filterMap.1 hp
    obtain ⟨h, hh, rfl⟩ := Option.map_eq_some_iff.1 hp
    exact ⟨l, hl, rfl, by simp [hh]⟩

theorem control_no_drift (l : Line) (ann : ℕ → Matrix n n ℂ) (h : Matrix n n ℂ)
    (hh : l.control ann = some h) : l.drift ann = none := by
  cases l <;> simp_all [Line.control, Line.drift]

/-- The constant Hamiltonians with some entries replaced. -/
def over {α : Type*} (B : List (String × α)) (ov : String → Option (ℕ → α)) :
    List (String × (ℕ → α)) :=
  B.map fun p => (p.1, (ov p.1).getD fun _ => p.2)

theorem over_names {α : Type*} (B : List (String × α)) (ov : String → Option (ℕ → α)) :
    (over B ov).map Prod.fst = B.map Prod.fst := by
  simp [over, Function.comp_def]

theorem dictSet_over {α : Type*} (B : List (String × α)) (ov : String → Option (ℕ → α))
    (D : List (String × (ℕ → α))) (key : String) (h : ℕ → α) (hB : key ∈ B.map Prod.fst)
    (hD : key ∉ D.map Prod.fst) :
    dictSet (over B ov ++ D) key h =
      over B (fun k => if k = key then some h else ov k) ++ D := by
  unfold dictSet
  rw [if_pos (by rw [List.map_append, over_names]; exact List.mem_append_left _ hB),
    List.map_append]
  congr 1
  · unfold over
    rw [List.map_map]
    apply List.map_congr_left
    intro p _
    simp only [Function.comp]
    by_cases hp : p.1 = key <;> simp [hp]
  · conv_rhs => rw [← List.map_id D]
    apply List.map_congr_left
    intro p hp
    rw [if_neg]
    · rfl
    · rintro rfl
      exact hD (List.mem_map_of_mem hp)

/-- The value of a driven subsystem, if the key belongs to one that can be driven. -/
noncomputable def Sys.subSig (s : Sys) (tr : Option (Matrix n n ℂ)) (ann : ℕ → Matrix n n ℂ)
    (key : String) (sig : ℕ → ℝ) : Option (ℕ → Matrix n n ℂ) :=
  match s.subs.zipIdx.find? (fun p => p.1.1 == key) with
  | some p => (p.1.2.hamSig tr (ann p.2) sig).toOption
  | none => none

/-- The control Hamiltonian with the given name. -/
noncomputable def Sys.controlOf (s : Sys) (ann : ℕ → Matrix n n ℂ) (key : String) :
    Option (Matrix n n ℂ) :=
  match s.lines.find? (fun l => l.1 == key) with
  | some l => l.2.control ann
  | none => none

/-- A signal of this name is supported: it names a tunable transmon or a drive line. -/
def Sys.Drivable (s : Sys) (key : String) : Prop :=
  (∃ dim f a p p0 d, (key, Sub.transmon dim f a p p0 d) ∈ s.subs) ∨
    ∃ l, (key, l) ∈ s.lines ∧ ∀ f g c₁ c₂, l ≠ .coupling f g c₁ c₂

/-- Names are unique, as enforced by dictionaries and by `set_components` (c3/model.py:130-131). -/
def Sys.WF (s : Sys) : Prop :=
  (s.subs.map Prod.fst).Nodup ∧ (s.lines.map Prod.fst).Nodup ∧
    ∀ l ∈ s.lines, l.1 ∉ s.subs.map Prod.fst

theorem sigLoop_eq (s : Sys) (tr : Option (Matrix n n ℂ)) (ann : ℕ → Matrix n n ℂ)
    (hwf : s.WF) (sigs : List (String × (ℕ → ℝ)))
    (hok : ∀ q ∈ sigs, (∃ v, s.subSig tr ann q.1 q.2 = some v ∧ q.1 ∈ s.subs.map Prod.fst) ∨
      (q.1 ∉ s.subs.map Prod.fst ∧ ∃ h, s.controlOf ann q.1 = some h))
    (hkeys : (sigs.map Prod.fst).Nodup) (ov : String → Option (ℕ → Matrix n n ℂ))
    (D : List (String × (ℕ → Matrix n n ℂ)))
    (hfresh : ∀ q ∈ sigs, q.1 ∉ D.map Prod.fst) :
    s.sigLoop tr ann sigs (over (s.hams tr ann) ov ++ D) = .ok
      (over (s.hams tr ann) (fun k => match sigs.find? (fun q => q.1 == k) with
          | some q => if k ∈ s.subs.map Prod.fst then s.subSig tr ann k q.2 else ov k
          | none => ov k) ++
        (D ++ sigs.filterMap fun q => if q.1 ∈ s.subs.map Prod.fst then none else
          (s.controlOf ann q.1).map fun h => (q.1, fun k => (q.2 k : ℂ) • dress tr h))) := by
  induction sigs generalizing ov D with
  | nil => simp [Sys.sigLoop]
  | cons q sigs ih =>
    have hq := hok q List.mem_cons_self
    rw [List.map_cons, List.nodup_cons] at hkeys
    have hne : ∀ q' ∈ sigs, q'.1 ≠ q.1 := fun q' hq' h =>
      hkeys.1 (h ▸ List.mem_map_of_mem (f := Prod.fst) hq')
    have hnone : sigs.find? (fun q' => q'.1 == q.1) = none := by
      rw [List.find?_eq_none]
      intro q' hq'
      simpa using hne q' hq'
    simp only [Sys.sigLoop]
    rcases hq with ⟨v, hv, hmem⟩ | ⟨hmem, h, hh⟩
    · have hd : s.driven tr ann q.1 q.2 = .ok v := by
        unfold Sys.subSig at hv
        unfold Sys.driven
        split at hv
        · next p hp =>
          revert hv
          cases p.1.2.hamSig tr (ann p.2) q.2 <;> simp [Except.toOption]
        · simp at hv
      rw [hd]
      change s.sigLoop tr ann sigs (dictSet _ _ _) = _
      have hB : q.1 ∈ (s.hams tr ann).map Prod.fst := by
        unfold Sys.hams
        rw [List.map_append, List.map_map]
        apply List.mem_append_left
        have : (s.subs.zipIdx.map fun p => p.1.1) = s.subs.map Prod.fst := by
          rw [← List.zipIdx_map_fst 0 s.subs, List.map_map]
          simp [Function.comp_def]
        change q.1 ∈ s.subs.zipIdx.map fun p => p.1.1
        rw [this]
        exact hmem
      rw [dictSet_over _ _ _ _ _ hB (hfresh q List.mem_cons_self),
        ih (fun q' hq' => hok q' (List.mem_cons_of_mem _ hq')) hkeys.2 _ _
          (fun q' hq' => hfresh q' (List.mem_cons_of_mem _ hq'))]
      congr 2
      · congr 1
        funext k
        rw [List.find?_cons]
        by_cases hk : k = q.1
        · subst hk
          rw [hnone]
          simp [hmem, hv]
        · have : (q.1 == k) = false := by simpa using fun h => hk h.symm
          rw [this]
          simp [hk]
      · rw [List.filterMap_cons, if_pos hmem]
    · have hd : s.driven tr ann q.1 q.2 = .ok fun k => (q.2 k : ℂ) • dress tr h := by
        unfold Sys.driven
        rw [no_sub hmem]
        unfold Sys.controlOf at hh
        simp only
        split at hh
        · next l hl => simp only [Line.hamSig, hh]
        · simp at hh
      rw [hd]
      change s.sigLoop tr ann sigs (dictSet _ _ _) = _
      have hB : q.1 ∉ (over (s.hams tr ann) ov ++ D).map Prod.fst := by
        rw [List.map_append, over_names, List.mem_append]
        rintro (hb | hb)
        · rcases hams_names s tr ann _ hb with hb | ⟨l, hl, hn, hdr⟩
          · exact hmem hb
          · unfold Sys.controlOf at hh
            rw [← hn, find_line hwf.2.1 hl] at hh
            rw [control_no_drift _ _ _ hh] at hdr
            simp at hdr
        · exact hfresh q List.mem_cons_self hb
      rw [dictSet_new _ _ _ hB, List.append_assoc,
        ih (fun q' hq' => hok q' (List.mem_cons_of_mem _ hq')) hkeys.2]
      · congr 2
        · congr 1
          funext k
          rw [List.find?_cons]
          by_cases hk : k = q.1
          · subst hk
            rw [hnone]
            simp [hmem]
          · have : (q.1 == k) = false := by simpa using fun h => hk h.symm
            rw [this]
        · rw [List.filterMap_cons, if_neg hmem, hh]
          simp
      · intro q' hq'
        rw [List.map_append, List.mem_append]
        rintro (h | h)
        · exact hfresh q' (List.mem_cons_of_mem _ hq') h
        · simp only [List.map_cons, List.map_nil, List.mem_singleton] at h
          exact hne q' hq' h

/-- Specification: a transmon biased by an additional flux. Other elements are not changed. -/
def Sub.bias (x : ℝ) : Sub → Sub
  | .transmon dim f a p p0 d => .transmon dim f a (p + x) p0 d
  | s => s

/-- Specification: the system in which the transmons with a signal have the additional flux given by
sample `k` of the signal. -/
def Sys.biased (s : Sys) (sigs : List (String × (ℕ → ℝ))) (k : ℕ) : Sys :=
  { s with subs := s.subs.map fun p => (p.1, match sigs.find? (fun q => q.1 == p.1) with
    | some q => p.2.bias (q.2 k)
    | none => p.2) }

theorem find_sub {s : Sys} (hnd : (s.subs.map Prod.fst).Nodup) {p : (String × Sub) × ℕ}
    (hp : p ∈ s.subs.zipIdx) : s.subs.zipIdx.find? (fun q => q.1.1 == p.1.1) = some p := by
  have h2 : (s.subs.zipIdx.map fun q => q.1.1) = s.subs.map Prod.fst := by
    rw [← List.zipIdx_map_fst 0 s.subs, List.map_map]
    simp [Function.comp_def]
  rw [← h2] at hnd
  generalize s.subs.zipIdx = L at *
  clear h2
  induction L with
  | nil => simp at hp
  | cons a L ih =>
    rw [List.map_cons, List.nodup_cons] at hnd
    rw [List.find?_cons]
    rcases List.mem_cons.1 hp with rfl | hp
    · simp
    · have : (a.1.1 == p.1.1) = false := by
        simp only [beq_eq_false_iff_ne]
        intro h
        exact hnd.1 (h ▸ List.mem_map_of_mem (f := fun q : (String × Sub) × ℕ => q.1.1) hp)
      rw [this]
      exact ih hnd.2 hp

theorem hamSig_bias (tr : Option (Matrix n n ℂ)) (a : Matrix n n ℂ) (sig : ℕ → ℝ) (sub : Sub)
    (v : ℕ → Matrix n n ℂ) (h : (sub.hamSig tr a sig).toOption = some v) (k : ℕ) :
    v k = dress tr ((sub.bias (sig k)).ham none a) := by
  cases sub with
  | transmon dim f an p p0 d =>
    simp only [Sub.hamSig, Except.toOption, Option.some.injEq] at h
    subst h
    simp only [Sub.bias, Sub.ham, transmonFreq, add_zero]
    split
    · rw [dress_add, dress_smul, dress_smul]
      rfl
    · rw [dress_smul]
      rfl
  | qubit | res | snail => simp [Sub.hamSig, Except.toOption] at h

theorem drivable_ok (s : Sys) (tr : Option (Matrix n n ℂ)) (ann : ℕ → Matrix n n ℂ) (hwf : s.WF)
    (key : String) (sig : ℕ → ℝ) (h : s.Drivable key) :
    (∃ v, s.subSig tr ann key sig = some v ∧ key ∈ s.subs.map Prod.fst) ∨
      (key ∉ s.subs.map Prod.fst ∧ ∃ h, s.controlOf ann key = some h) := by
  rcases h with ⟨dim, f, a, p, p0, d, hm⟩ | ⟨l, hl, hc⟩
  · left
    obtain ⟨i, hi, he⟩ := List.getElem_of_mem hm
    have hz : ((key, Sub.transmon dim f a p p0 d), i) ∈ s.subs.zipIdx := by
      rw [List.mem_zipIdx_iff_getElem?]
      rw [List.getElem?_eq_getElem hi, he]
    have := find_sub hwf.1 hz
    have h2 : (s.subSig tr ann key sig).isSome := by
      unfold Sys.subSig
      rw [this]
      rfl
    obtain ⟨v, hv⟩ := Option.isSome_iff_exists.1 h2
    exact ⟨v, hv, List.mem_map_of_mem (f := Prod.fst) hm⟩
  · right
    refine ⟨hwf.2.2 _ hl, ?_⟩
    unfold Sys.controlOf
    have := find_line hwf.2.1 hl
    rw [this]
    cases l with
    | coupling f g c₁ c₂ => exact absurd rfl (hc f g c₁ c₂)
    | drive f conn => exact ⟨_, rfl⟩
    | couplingDrive f c₁ c₂ => exact ⟨_, rfl⟩

/-- C39: for any set of signals on drive lines and tunable transmons the Hamiltonian at every sample
is the drift of the system with the flux signals added to the transmons, plus the sum over the
driven lines of the value times the control Hamiltonian of the line. In the dressed basis everything
is transformed. -/
theorem C39_signal (s : Sys) (tr : Option (Matrix n n ℂ)) (ann : ℕ → Matrix n n ℂ)
    (hwf : s.WF) (sigs : List (String × (ℕ → ℝ))) (hkeys : (sigs.map Prod.fst).Nodup)
    (hok : ∀ q ∈ sigs, s.Drivable q.1) :
    ∃ H, s.getHamiltonian tr ann sigs = .ok H ∧ ∀ k, H k = dress tr ((s.biased sigs k).drift ann +
      (sigs.filterMap fun q => (s.controlOf ann q.1).map fun h => (q.2 k : ℂ) • h).sum) := by
  have hloop := sigLoop_eq s tr ann hwf sigs
    (fun q hq => drivable_ok s tr ann hwf q.1 q.2 (hok q hq)) hkeys (fun _ => none) []
    (by simp)
  have hover : over (s.hams tr ann) (fun _ => none) ++ [] =
      (s.hams tr ann).map fun p => (p.1, fun _ => p.2) := by
    simp [over]
  rw [hover, List.nil_append] at hloop
  refine ⟨_, by
    unfold Sys.getHamiltonian
    rw [hloop]
    rfl, fun k => ?_⟩
  simp only [List.map_append, List.sum_append]
  rw [dress_add]
  congr 1
  · -- constant part with overrides
    unfold Sys.drift
    rw [dress_sum]
    congr 1
    unfold over Sys.hams Sys.biased
    simp only [List.map_append, List.map_map, List.zipIdx_map]
    congr 1
    · apply List.map_congr_left
      intro p hp
      have hmem : p.1.1 ∈ s.subs.map Prod.fst :=
        List.mem_map_of_mem (List.fst_mem_of_mem_zipIdx hp)
      simp only [Function.comp, Prod.map, id, dress, if_pos hmem]
      cases hf : sigs.find? (fun q => q.1 == p.1.1) with
      | none => simp
      | some q =>
        simp only
        have hq := List.mem_of_find?_eq_some hf
        have hqn : q.1 = p.1.1 := by simpa using List.find?_some hf
        rcases drivable_ok s tr ann hwf q.1 q.2 (hok q hq) with ⟨v, hv, -⟩ | ⟨hno, -⟩
        · rw [hqn] at hv
          rw [hv]
          simp only [Option.getD_some]
          unfold Sys.subSig at hv
          rw [find_sub hwf.1 hp] at hv
          exact hamSig_bias tr _ _ _ v hv k
        · rw [hqn] at hno
          exact absurd hmem hno
    · rw [List.map_filterMap, List.map_filterMap]
      apply List.filterMap_congr
      intro l hl
      cases hd : l.2.drift ann with
      | none => rfl
      | some h =>
        simp only [Option.map_some, Option.some.injEq, Function.comp, dress]
        cases hf : sigs.find? (fun q => q.1 == l.1) with
        | none => rfl
        | some q => simp only [if_neg (hwf.2.2 l hl), Option.getD_none]
  · rw [dress_sum, List.map_filterMap, List.map_filterMap]
    congr 1
    apply List.filterMap_congr
    intro q hq
    rcases drivable_ok s tr ann hwf q.1 q.2 (hok q hq) with ⟨v, hv, hmem⟩ | ⟨hno, h, hh⟩
    · have hnone : s.controlOf ann q.1 = none := by
        unfold Sys.controlOf
        split
        · next l hl =>
          have hln : l.1 = q.1 := by simpa using List.find?_some hl
          exact absurd hmem (hln ▸ hwf.2.2 l (List.mem_of_find?_eq_some hl))
        · rfl
      rw [if_pos hmem, hnone]
      rfl
    · rw [if_neg hno, hh]
      simp only [Option.map_some, dress_smul]

/-- C39: a signal on anything else (fixed-frequency elements, couplings, unknown names) raises. -/
theorem C39_refused (s : Sys) (tr : Option (Matrix n n ℂ)) (ann : ℕ → Matrix n n ℂ)
    (sigs : List (String × (ℕ → ℝ))) (q : String × (ℕ → ℝ)) (hq : q ∈ sigs)
    (hno : ¬ s.Drivable q.1) : ∃ e, s.getHamiltonian tr ann sigs = .error e := by
  have hd : ∃ e, s.driven tr ann q.1 q.2 = .error e := by
    unfold Sys.driven
    split
    · next p hp =>
      have hm := List.fst_mem_of_mem_zipIdx (List.mem_of_find?_eq_some hp)
      have hn : p.1.1 = q.1 := by simpa using List.find?_some hp
      cases hs : p.1.2 with
      | transmon dim f a ph p0 d =>
        exact absurd (Or.inl ⟨dim, f, a, ph, p0, d, by rw [← hn, ← hs]; exact hm⟩) hno
      | qubit | res | snail => exact ⟨_, rfl⟩
    · split
      · next l hl =>
        have hm := List.mem_of_find?_eq_some hl
        have hn : l.1 = q.1 := by simpa using List.find?_some hl
        cases hs : l.2 with
        | coupling f g c₁ c₂ => exact ⟨_, rfl⟩
        | drive f conn =>
          exact absurd (Or.inr ⟨l.2, by rw [← hn]; exact hm, by rw [hs]; simp⟩) hno
        | couplingDrive f c₁ c₂ =>
          exact absurd (Or.inr ⟨l.2, by rw [← hn]; exact hm, by rw [hs]; simp⟩) hno
      · exact ⟨_, rfl⟩
  have hl : ∀ hs, ∃ e, s.sigLoop tr ann sigs hs = .error e := by
    induction sigs with
    | nil => simp at hq
    | cons q' sigs ih =>
      intro hs
      simp only [Sys.sigLoop]
      rcases List.mem_cons.1 hq with rfl | hq
      · obtain ⟨e, he⟩ := hd
        rw [he]
        exact ⟨e, rfl⟩
      · cases s.driven tr ann q'.1 q'.2 with
        | error e => exact ⟨e, rfl⟩
        | ok h => exact ih hq _
  obtain ⟨e, he⟩ := hl _
  refine ⟨e, ?_⟩
  unfold Sys.getHamiltonian
  rw [he]
  rfl

/-- C39: a channel that is neither a subsystem nor a line raises. -/
theorem C39_unknown (s : Sys) (tr : Option (Matrix n n ℂ)) (ann : ℕ → Matrix n n ℂ)
    (key : String) (sig : ℕ → ℝ) (rest : List (String × (ℕ → ℝ)))
    (h1 : key ∉ s.subs.map Prod.fst) (h2 : key ∉ s.lines.map Prod.fst) :
    s.getHamiltonian tr ann ((key, sig) :: rest) = .error .unknownChannel := by
  unfold Sys.getHamiltonian Sys.sigLoop Sys.driven
  rw [no_sub h1]
  have : s.lines.find? (fun l => l.1 == key) = none := by
    rw [List.find?_eq_none]
    intro p hp
    simp only [beq_iff_eq]
    rintro rfl
    exact h2 (List.mem_map_of_mem hp)
  rw [this]
  rfl

/-- C39: without signals the Hamiltonian is the drift. -/
theorem C39_no_signal (s : Sys) (tr : Option (Matrix n n ℂ)) (ann : ℕ → Matrix n n ℂ)
    (hwf : s.WF) :
    ∃ H, s.getHamiltonian tr ann [] = .ok H ∧ ∀ k, H k = dress tr (s.drift ann) := by
  obtain ⟨H, h1, h2⟩ := C39_signal s tr ann hwf [] (by simp) (by simp)
  refine ⟨H, h1, fun k => ?_⟩
  have := h2 k
  simpa [Sys.biased] using this

/-- C35: with real signals the time-dependent Hamiltonian is Hermitian at every sample. -/
theorem C35_with_signal (dims : List ℕ) (s : Sys) (hs : ∀ l ∈ s.lines, l.2.WF dims.length)
    (hwf : s.WF) (tr : Option (Matrix (Fin dims.prod) (Fin dims.prod) ℂ))
    (sigs : List (String × (ℕ → ℝ))) (hkeys : (sigs.map Prod.fst).Nodup)
    (hok : ∀ q ∈ sigs, s.Drivable q.1) :
    ∃ H, s.getHamiltonian tr (ann dims) sigs = .ok H ∧ ∀ k, (H k).IsHermitian := by
  obtain ⟨H, h1, h2⟩ := C39_signal s tr (ann dims) hwf sigs hkeys hok
  refine ⟨H, h1, fun k => ?_⟩
  rw [h2 k]
  apply dress_herm
  have hint : Interacting dims.length (ann dims) := fun i hi j hj => C35_interactions dims i j hi hj
  apply Matrix.IsHermitian.add
  · exact (C35_model dims (s.biased sigs k) hs none).1
  · apply sum_herm
    intro m hm
    obtain ⟨q, hq, hm⟩ := List.mem_filterMap.1 hm
    obtain ⟨h, hh, rfl⟩ := Option.map_eq_some_iff.1 hm
    unfold Sys.controlOf at hh
    split at hh
    · next l hl =>
      exact smul_real_herm _ (line_control_herm hint l.2 (hs l (List.mem_of_find?_eq_some hl)) h hh)
    · simp at hh

end

/-- A small system: a tunable transmon coupled to a driven qubit. -/
noncomputable def exSys : Sys where
  subs := [("t", .transmon 3 5 (-1) 0 1 0), ("q", .qubit 2 5 0)]
  lines := [("d", .drive .x [1]), ("c", .coupling .xx 1 0 1)]

/-- The hypotheses are satisfiable. -/
example : exSys.WF ∧ (∀ l ∈ exSys.lines, l.2.WF 2) ∧ exSys.Drivable "t" ∧ exSys.Drivable "d" ∧
    ¬ exSys.Drivable "q" ∧ ¬ exSys.Drivable "c" := by
  refine ⟨?_, ?_, ?_, ?_, ?_, ?_⟩ <;> simp [exSys, Sys.WF, Line.WF, Sys.Drivable]

end C3.Hilbert
