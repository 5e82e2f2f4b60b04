import Mathlib.LinearAlgebra.Matrix.ConjTranspose
import Mathlib.Data.Complex.Basic
import Mathlib.Data.Matrix.Mul
import Mathlib.Tactic.NormNum

/-!
# C196: switching frame and open dynamics of a model

Models c3/model.py:43-61 (the state after construction), 313-335 (`set_dressed`, `set_lindbladian`), 352-366
(`get_Hamiltonians`, without excitation limit, see C138), 417-421 (`get_Lindbladians`), 423-453 (`update_model`,
`update_Hamiltonians`, `update_Lindbladians`), 504-536 (`update_dressed`), and of the components
c3/libraries/chip.py:216-242, 434-467 (a qubit or transmon without `t1` and `t2star` raises), 285-287
(a resonator returns `None`).

Simplified: the operators of the components are arbitrary functions of the parameters (see C30, C31, C39) and the
transformation into the dressed basis an arbitrary function of the drift (see C36). Exceptions leave the attributes
that were already assigned, as in Python.
-/

namespace C3.Chip.Switch

open Matrix

variable {N : ℕ} {Par : Type}

/-- Square matrices of the model. -/
abbrev Op (N : ℕ) := Matrix (Fin N) (Fin N) ℂ

/-! ## Model -/

/-- What `get_Lindbladian` of a component does: return an operator, raise, or return `None`. -/
inductive Decay (N : ℕ) (Par : Type) where
  | op (L : Par → Op N)
  | missing
  | none

/-- The parts of the model that do not change: Hamiltonians, control Hamiltonians, components, and the matrix
`transform` computed from the drift. -/
structure Parts (N : ℕ) (Par : Type) where
  drift : Par → Op N
  controls : Par → List (Op N)
  subs : List (Decay N Par)
  transform : Op N → Op N

/-- The attributes of the model object. `none` where an attribute was never assigned. -/
structure St (N : ℕ) (Par : Type) where
  par : Par
  lindbladian : Bool
  dressed : Bool
  drift : Option (Op N)
  controls : List (Op N)
  colOps : Option (List (Option (Op N)))
  dDrift : Option (Op N)
  dControls : List (Op N)
  dColOps : Option (List (Option (Op N)))

inductive Err where
  | noDecay      -- "No T1 or T2 provided"
  | valueError   -- tf.matmul with None
  | attribute    -- attribute never assigned
deriving DecidableEq

/-- c3/model.py:446-451 `update_Lindbladians`: the list of collapse operators. -/
def colList (par : Par) : List (Decay N Par) → Except Err (List (Option (Op N)))
  | [] => .ok []
  | .missing :: _ => .error .noDecay
  | .op L :: r => match colList par r with
    | .error e => .error e
    | .ok l => .ok (some (L par) :: l)
  | .none :: r => match colList par r with
    | .error e => .error e
    | .ok l => .ok (none :: l)

/-- `tf.matmul(tf.matmul(tf.linalg.adjoint(transform), h), transform)`. -/
def rotate (T h : Op N) : Op N := Tᴴ * h * T

/-- c3/model.py:526-534: the loop over the collapse operators in `update_dressed`. -/
def rotateCols (T : Op N) : List (Option (Op N)) → Except Err (List (Option (Op N)))
  | [] => .ok []
  | none :: _ => .error .valueError
  | some L :: r => match rotateCols T r with
    | .error e => .error e
    | .ok l => .ok (some (rotate T L) :: l)

/-- c3/model.py:430-444 `update_Hamiltonians`. -/
def updateHamiltonians (w : Parts N Par) (s : St N Par) : St N Par :=
  { s with drift := some (w.drift s.par), controls := w.controls s.par }

/-- c3/model.py:504-534 `update_dressed`. -/
def updateDressed (w : Parts N Par) (s : St N Par) : St N Par × Option Err :=
  match s.drift with
  | none => (s, some .attribute)
  | some d =>
    let T := w.transform d
    let s := { s with dDrift := some (rotate T d), dControls := s.controls.map (rotate T) }
    if s.lindbladian then
      match s.colOps with
      | none => (s, some .attribute)
      | some cs => match rotateCols T cs with
        | .error e => (s, some e)
        | .ok l => ({ s with dColOps := some l }, none)
    else (s, none)

/-- c3/model.py:423-428 `update_model`. -/
def updateModel (w : Parts N Par) (s : St N Par) : St N Par × Option Err :=
  let s := updateHamiltonians w s
  if s.lindbladian then
    match colList s.par w.subs with
    | .error e => (s, some e)
    | .ok l =>
      let s := { s with colOps := some l }
      if s.dressed then updateDressed w s else (s, none)
  else if s.dressed then updateDressed w s else (s, none)

/-- What users do with a model: write its parameters (which updates it, c3/parametermap.py:381-395), choose the frame,
switch the dynamics. -/
inductive Act (Par : Type) where
  | write (p : Par)
  | setDressed (b : Bool)
  | setLindbladian (b : Bool)

def act (w : Parts N Par) (s : St N Par) : Act Par → St N Par × Option Err
  | .write p => updateModel w { s with par := p }
  | .setDressed b => updateModel w { s with dressed := b }
  | .setLindbladian b => updateModel w { s with lindbladian := b }

/-- The attributes before the first update (c3/model.py:43-61). -/
def fresh (p : Par) : St N Par := ⟨p, false, true, none, [], none, none, [], none⟩

/-- A constructed model (c3/model.py:196: the constructor updates). -/
def built (w : Parts N Par) (p : Par) : St N Par := (updateModel w (fresh p)).1

/-- A run of several actions, exceptions being caught by the user. -/
def acts (w : Parts N Par) (s : St N Par) (as : List (Act Par)) : St N Par := as.foldl (fun s a => (act w s a).1) s

/-- c3/model.py:353-366 `get_Hamiltonians`. -/
def getHamiltonians (s : St N Par) : Option (Op N) × List (Op N) :=
  if s.dressed then (s.dDrift, s.dControls) else (s.drift, s.controls)

/-- c3/model.py:417-421 `get_Lindbladians`. -/
def getLindbladians (s : St N Par) : Option (List (Option (Op N))) :=
  if s.dressed then s.dColOps else s.colOps

/-! ## Specification -/

/-- An operator of the model in the chosen frame: as it is, or in the basis given by the columns of `T`. -/
def inFrame (dressed : Bool) (T h : Op N) : Op N := if dressed then Tᴴ * h * T else h

/-- The Hamiltonians belong to the present parameters and frame. -/
def HamiltoniansRight (w : Parts N Par) (s : St N Par) : Prop :=
  getHamiltonians s = (some (inFrame s.dressed (w.transform (w.drift s.par)) (w.drift s.par)),
    (w.controls s.par).map (inFrame s.dressed (w.transform (w.drift s.par))))

/-- Every component has a collapse operator, and it belongs to the present parameters and frame. -/
def CollapseRight (w : Parts N Par) (s : St N Par) : Prop :=
  ∃ Ls : List (Par → Op N), w.subs = Ls.map .op ∧ getLindbladians s =
    some (Ls.map fun L => some (inFrame s.dressed (w.transform (w.drift s.par)) (L s.par)))

/-- Every component has decay times. -/
def Decaying (w : Parts N Par) : Prop := ∃ Ls : List (Par → Op N), w.subs = Ls.map .op

/-! ## Theorems -/

theorem colList_op (p : Par) (Ls : List (Par → Op N)) :
    colList p (Ls.map .op) = .ok (Ls.map fun L => some (L p)) := by
  induction Ls with
  | nil => rfl
  | cons L Ls ih => simp [colList, ih]

theorem rotateCols_some (T : Op N) (l : List (Op N)) :
    rotateCols T (l.map some) = .ok (l.map fun L => some (rotate T L)) := by
  induction l with
  | nil => rfl
  | cons L l ih => simp [rotateCols, ih]

theorem inFrame_false (T : Op N) : inFrame false T = id := by
  funext h
  simp [inFrame]

theorem inFrame_true (T : Op N) : inFrame true T = rotate T := by
  funext h
  simp [inFrame, rotate]

/-- C196: an update of a model in closed dynamics, or with decay times everywhere, does not raise, leaves parameters and
settings as they are, and all operators belong to them. -/
theorem C196_update (w : Parts N Par) (s : St N Par) (h : s.lindbladian = true → Decaying w) :
    (updateModel w s).2 = none ∧ (updateModel w s).1.par = s.par ∧ (updateModel w s).1.dressed = s.dressed ∧
      (updateModel w s).1.lindbladian = s.lindbladian ∧ HamiltoniansRight w (updateModel w s).1 ∧
      (s.lindbladian = true → CollapseRight w (updateModel w s).1) := by
  obtain ⟨par, lind, dr, drift, ctrls, cols, dd, dc, dcols⟩ := s
  cases lind with
  | false =>
    cases dr <;>
    simp [updateModel, updateHamiltonians, updateDressed, HamiltoniansRight, getHamiltonians, inFrame_false,
      inFrame_true]
  | true =>
    obtain ⟨Ls, hL⟩ := h rfl
    have hc := colList_op par Ls
    have hr : rotateCols (w.transform (w.drift par)) (Ls.map fun L => some (L par)) =
        .ok (Ls.map fun L => some (rotate (w.transform (w.drift par)) (L par))) := by
      have := rotateCols_some (w.transform (w.drift par)) (Ls.map fun L => L par)
      rw [List.map_map, List.map_map] at this
      exact this
    cases dr with
    | false =>
      simp only [updateModel, updateHamiltonians, hL, hc]
      refine ⟨rfl, rfl, rfl, rfl, ?_, fun _ => ⟨Ls, hL, ?_⟩⟩
      · simp [HamiltoniansRight, getHamiltonians, inFrame_false]
      · simp [getLindbladians, inFrame_false]
    | true =>
      simp only [updateModel, updateHamiltonians, hL, hc, updateDressed, hr]
      refine ⟨rfl, rfl, rfl, rfl, ?_, fun _ => ⟨Ls, hL, ?_⟩⟩
      · simp [HamiltoniansRight, getHamiltonians, inFrame_true]
      · simp [getLindbladians, inFrame_true]

/-- **C196**, what holds: if every component has decay times, then after any sequence of parameter changes, changes of
frame and switches of the dynamics nothing has raised, and Hamiltonians and collapse operators belong to the present
parameters and frame. Missing: models with a resonator or with components without decay times. -/
theorem C196_all_partial (w : Parts N Par) (hw : Decaying w) (p : Par) (as : List (Act Par)) :
    HamiltoniansRight w (acts w (built w p) as) ∧
      ((acts w (built w p) as).lindbladian = true → CollapseRight w (acts w (built w p) as)) ∧
      ∀ a, (act w (acts w (built w p) as) a).2 = none := by
  have key : ∀ s a, (act w s a).2 = none ∧ HamiltoniansRight w (act w s a).1 ∧
      ((act w s a).1.lindbladian = true → CollapseRight w (act w s a).1) := by
    intro s a
    cases a <;>
    · refine ⟨(C196_update w _ fun _ => hw).1, (C196_update w _ fun _ => hw).2.2.2.2.1, fun h => ?_⟩
      refine (C196_update w _ fun _ => hw).2.2.2.2.2 ?_
      rw [act, (C196_update w _ fun _ => hw).2.2.2.1] at h
      exact h
  refine ⟨?_, ?_, fun a => (key _ a).1⟩
  · rcases List.eq_nil_or_concat as with rfl | ⟨as, a, rfl⟩
    · exact (C196_update w (fresh p) fun _ => hw).2.2.2.2.1
    · rw [List.concat_eq_append, acts, List.foldl_append]
      exact (key _ a).2.1
  · rcases List.eq_nil_or_concat as with rfl | ⟨as, a, rfl⟩
    · intro h
      have h2 : (built w p).lindbladian = false := (C196_update w (fresh p) fun _ => hw).2.2.2.1
      exact absurd h (by simp [acts, h2])
    · rw [List.concat_eq_append, acts, List.foldl_append]
      exact (key _ a).2.2

/-- C196: in closed dynamics the same holds for every model. -/
theorem C196_closed (w : Parts N Par) (p : Par) (as : List (Act Par)) (h : ∀ a ∈ as, a ≠ .setLindbladian true) :
    HamiltoniansRight w (acts w (built w p) as) ∧ (acts w (built w p) as).lindbladian = false := by
  have hb : HamiltoniansRight w (built w p) ∧ (built w p).lindbladian = false := by
    have := C196_update w (fresh p) (by simp [fresh])
    exact ⟨this.2.2.2.2.1, this.2.2.2.1⟩
  revert hb
  generalize built w p = s
  unfold acts
  induction as generalizing s with
  | nil => exact id
  | cons a as ih =>
    rintro ⟨_, hs⟩
    refine ih (fun a ha => h a (List.mem_cons_of_mem _ ha)) _ ?_
    have ha := h a List.mem_cons_self
    cases a with
    | write q =>
      have := C196_update w { s with par := q } (by simp [hs])
      exact ⟨this.2.2.2.2.1, this.2.2.2.1.trans hs⟩
    | setDressed b =>
      have := C196_update w { s with dressed := b } (by simp [hs])
      exact ⟨this.2.2.2.2.1, this.2.2.2.1.trans hs⟩
    | setLindbladian b =>
      cases b with
      | true => exact absurd rfl ha
      | false =>
        have := C196_update w { s with lindbladian := false } (by simp)
        exact ⟨this.2.2.2.2.1, this.2.2.2.1⟩

/-- C196: switching back to closed dynamics repairs every model, whatever happened before. -/
theorem C196_repair (w : Parts N Par) (s : St N Par) :
    (act w s (.setLindbladian false)).2 = none ∧ HamiltoniansRight w (act w s (.setLindbladian false)).1 := by
  have := C196_update w { s with lindbladian := false } (by simp)
  exact ⟨this.1, this.2.2.2.2.1⟩

theorem colList_missing (p : Par) (l : List (Decay N Par)) (h : .missing ∈ l) : colList p l = .error .noDecay := by
  induction l with
  | nil => simp at h
  | cons d l ih =>
    cases d with
    | missing => rfl
    | op L =>
      have : Decay.missing ∈ l := by simpa using h
      simp [colList, ih this]
    | none =>
      have : Decay.missing ∈ l := by simpa using h
      simp [colList, ih this]

/-- **C196 is false** with a qubit without decay times: switching on the open dynamics raises, but the setting stays. -/
theorem C196_false_missing (w : Parts N Par) (h : .missing ∈ w.subs) (s : St N Par) :
    (act w s (.setLindbladian true)).2 = some .noDecay ∧
      (act w s (.setLindbladian true)).1.lindbladian = true := by
  simp [act, updateModel, updateHamiltonians, colList_missing _ _ h]

/-- **C196 is false** with a qubit without decay times: from then on every change of a parameter raises, and in the
dressed frame the Hamiltonians stay those of the old parameters. -/
theorem C196_false_stale (w : Parts N Par) (h : .missing ∈ w.subs) (p q : Par)
    (hne : rotate (w.transform (w.drift p)) (w.drift p) ≠ rotate (w.transform (w.drift q)) (w.drift q)) :
    let s := acts w (built w p) [.setLindbladian true, .write q]
    s.par = q ∧ s.drift = some (w.drift q) ∧ getHamiltonians s = getHamiltonians (built w p) ∧
      ¬ HamiltoniansRight w s := by
  have hc := fun p => colList_missing p w.subs h
  simp only [acts, List.foldl, act, updateModel, updateHamiltonians, hc, built, fresh, updateDressed,
    getHamiltonians, HamiltoniansRight, inFrame]
  refine ⟨rfl, rfl, rfl, ?_⟩
  simp only [if_true, Bool.false_eq_true, if_false]
  intro hx
  exact hne (Option.some.inj (Prod.ext_iff.1 hx).1)

theorem colList_ok_none (p : Par) (l : List (Decay N Par)) (h : .none ∈ l) (hm : .missing ∉ l) :
    ∃ cs, colList p l = .ok cs ∧ none ∈ cs ∧ ∀ T : Op N, rotateCols T cs = .error .valueError := by
  have hok : ∀ l : List (Decay N Par), .missing ∉ l → ∃ cs, colList p l = .ok cs := by
    intro l hm
    induction l with
    | nil => exact ⟨[], rfl⟩
    | cons d l ih =>
      obtain ⟨cs, hcs⟩ := ih (fun hc => hm (List.mem_cons_of_mem _ hc))
      cases d with
      | missing => simp at hm
      | op L => exact ⟨some (L p) :: cs, by simp [colList, hcs]⟩
      | none => exact ⟨Option.none :: cs, by simp [colList, hcs]⟩
  induction l with
  | nil => simp at h
  | cons d l ih =>
    have hm' : .missing ∉ l := fun hc => hm (List.mem_cons_of_mem _ hc)
    cases d with
    | missing => simp at hm
    | op L =>
      obtain ⟨cs, c1, c2, c3⟩ := ih (by simpa using h) hm'
      exact ⟨some (L p) :: cs, by simp [colList, c1], List.mem_cons_of_mem _ c2, fun T => by simp [rotateCols, c3]⟩
    | none =>
      obtain ⟨cs, hcs⟩ := hok l hm'
      exact ⟨Option.none :: cs, by simp [colList, hcs], List.mem_cons_self, fun T => rfl⟩

/-- **C196 is false** with a resonator: in the dressed frame (the default) switching on the open dynamics raises, in
the bare frame it leaves a list of collapse operators that contains `None`. -/
theorem C196_false_resonator (w : Parts N Par) (h : .none ∈ w.subs) (hm : .missing ∉ w.subs) (s : St N Par) :
    (s.dressed = true → (act w s (.setLindbladian true)).2 = some .valueError) ∧
      (s.dressed = false → (act w s (.setLindbladian true)).2 = none ∧
        ∃ cs, getLindbladians (act w s (.setLindbladian true)).1 = some cs ∧ none ∈ cs) := by
  obtain ⟨cs, c1, c2, c3⟩ := colList_ok_none s.par w.subs h hm
  obtain ⟨par, lind, dr, drift, ctrls, cols, dd, dc, dcols⟩ := s
  constructor
  · rintro rfl
    simp [act, updateModel, updateHamiltonians, updateDressed, c1, c3]
  · rintro rfl
    simp [act, updateModel, updateHamiltonians, c1, getLindbladians, c2]

/-- Models for which the theorems apply. -/
example : Decaying (⟨fun _ => 1, fun _ => [], [.op fun _ => 1], id⟩ : Parts 2 ℕ) := ⟨[fun _ => 1], rfl⟩
example : Decay.missing ∈ (⟨fun _ => 1, fun _ => [], [.missing], id⟩ : Parts 2 ℕ).subs := by simp
example : rotate (1 : Op 1) 1 ≠ rotate (1 : Op 1) 0 := by
  intro h
  have := congrFun (congrFun h 0) 0
  simp [rotate] at this

end C3.Chip.Switch
