import Verif.Experiment.EndToEnd
import Verif.Hilbert.Local
import Mathlib.LinearAlgebra.Matrix.Reindex
import Mathlib.Analysis.CStarAlgebra.Matrix

/-!
# C252: the order in which chip elements are listed is arbitrary

The whole chain of C199 for two chips with the same elements in different orders. The states are numbered in another way,
everything else is the same: propagators, exceptions, populations.
-/

set_option linter.unusedSectionVars false

noncomputable section

namespace C3.Experiment.Reorder

open Matrix NormedSpace C3.Propagation C3.Hilbert C3.Experiment C3.Experiment.Compute C3.Experiment.EndToEnd
open scoped Matrix.Norms.L2Operator

variable {dims dims' : List ℕ}

/-! ## Specification -/

/-- The same numbers of levels in another order: what is at place `t` of the first list is at place `σ t` of the second. -/
structure SameDims (σ : Equiv.Perm ℕ) (dims dims' : List ℕ) : Prop where
  length : dims'.length = dims.length
  places : ∀ t, t < dims.length ↔ σ t < dims.length
  levels : ∀ t < dims.length, dims'.getD (σ t) 0 = dims.getD t 0

/-- A renumbering of the states that keeps the level of every element. -/
def Renumbers (σ : Equiv.Perm ℕ) (e : Fin dims.prod ≃ Fin dims'.prod) : Prop :=
  ∀ p, ∀ t < dims.length, levelAt dims' (σ t) (e p) = levelAt dims t p

/-- A line between elements at other places. -/
def moved (σ : Equiv.Perm ℕ) : Line → Line
  | .coupling f g c₁ c₂ => .coupling f g (σ c₁) (σ c₂)
  | .drive f conn => .drive f (conn.map σ)
  | .couplingDrive f c₁ c₂ => .couplingDrive f (σ c₁) (σ c₂)

/-- An operator for the other numbering of the states. -/
def re {n m : Type*} [Fintype n] [DecidableEq n] [Fintype m] [DecidableEq m] (e : n ≃ m) :
    Matrix n n ℂ ≃ₐ[ℂ] Matrix m m ℂ := reindexAlgEquiv ℂ ℂ e

/-- The same chip with its elements listed in another order. -/
structure SameChip (σ : Equiv.Perm ℕ) (e : Fin dims.prod ≃ Fin dims'.prod) (c : Chip dims) (c' : Chip dims') : Prop where
  subs : c'.sys.subs.zipIdx.Perm (c.sys.subs.zipIdx.map fun p => (p.1, σ p.2))
  lines : c'.sys.lines = c.sys.lines.map fun l => (l.1, moved σ l.2)
  basis : c'.tr = c.tr.map (re e)
  decay : c'.cols.Perm (c.cols.map (re e))
  target : ∀ k, c'.target k = (c.target k).map σ
  frame : c'.useFR = c.useFR
  batch : c'.batch = c.batch

/-- Everything an experiment reads, with other values of the propagators. -/
def worldMap {V W : Type} (f : V → W) (w : World V) : World W where
  keys := w.keys
  instr := w.instr
  useFR := w.useFR
  lind := w.lind
  dephasing := w.dephasing
  prop m g st := (w.prop m g st).map f
  frame b g := (w.frame b g).map f

def expMap {V W : Type} (f : V → W) (s : Exp V) : Exp W :=
  ⟨s.propMethod, s.propagation, s.stack, s.optGates, s.overwrite, fun g => (s.propagators g).map f⟩

def eventMap {V W : Type} (f : V → W) (e : Event V) : Event W := ⟨worldMap f e.w, e.sel, e.overwrite⟩

/-! ## States -/

/-- C252: there is exactly one way to renumber the states. -/
theorem C252_states (σ : Equiv.Perm ℕ) (h : SameDims σ dims dims') :
    ∃! e : Fin dims.prod ≃ Fin dims'.prod, Renumbers σ e := by
  have back : ∀ t, t < dims.length → σ.symm t < dims.length := by
    intro t ht
    rw [h.places, σ.apply_symm_apply]
    exact ht
  have h1 : ∀ p : Fin dims.prod, ∃ q : Fin dims'.prod, ∀ t < dims'.length, levelAt dims' t q = levelAt dims (σ.symm t) p := by
    intro p
    refine exists_pos _ fun t ht => ?_
    rw [h.length] at ht
    have := h.levels (σ.symm t) (back t ht)
    rw [σ.apply_symm_apply] at this
    rw [this]
    exact levelAt_lt p _ (back t ht)
  have h2 : ∀ q : Fin dims'.prod, ∃ p : Fin dims.prod, ∀ t < dims.length, levelAt dims t p = levelAt dims' (σ t) q := by
    intro q
    refine exists_pos _ fun t ht => ?_
    rw [← h.levels t ht]
    refine levelAt_lt q _ ?_
    rw [h.length]
    exact (h.places t).1 ht
  choose f hf using h1
  choose g hg using h2
  refine ⟨⟨f, g, fun p => pos_ext fun t ht => ?_, fun q => pos_ext fun t ht => ?_⟩, fun p t ht => ?_, ?_⟩
  · rw [hg _ t ht, hf _ _ (by rw [h.length]; exact (h.places t).1 ht), σ.symm_apply_apply]
  · rw [hf _ t ht, hg _ _ (back t (h.length ▸ ht)), σ.apply_symm_apply]
  · change levelAt dims' (σ t) (f p) = _
    rw [hf _ _ (by rw [h.length]; exact (h.places t).1 ht), σ.symm_apply_apply]
  · intro e he
    ext p : 1
    refine pos_ext fun t ht => ?_
    change _ = levelAt dims' t (f p)
    rw [hf _ t ht]
    have := he p (σ.symm t) (back t (h.length ▸ ht))
    rw [σ.apply_symm_apply] at this
    exact this

/-! ## Operators -/

section
variable {n m : Type*} [Fintype n] [DecidableEq n] [Fintype m] [DecidableEq m]

theorem re_apply (e : n ≃ m) (A : Matrix n n ℂ) (i j : n) : re e A (e i) (e j) = A i j := by
  change A (e.symm (e i)) (e.symm (e j)) = _
  rw [e.symm_apply_apply, e.symm_apply_apply]

theorem re_conj (e : n ≃ m) (A : Matrix n n ℂ) : re e Aᴴ = (re e A)ᴴ := rfl

theorem re_trans (e : n ≃ m) (A : Matrix n n ℂ) : re e Aᵀ = (re e A)ᵀ := rfl

theorem re_exp (e : n ≃ m) (A : Matrix n n ℂ) : re e (exp A) = exp (re e A) := by
  let : NormedAlgebra ℚ (Matrix n n ℂ) := NormedAlgebra.restrictScalars ℚ ℂ _
  refine map_exp (re e) ?_ A
  exact LinearMap.continuous_of_finiteDimensional (re e).toLinearMap

theorem re_kron (e : n ≃ m) (A B : Matrix n n ℂ) :
    re (e.prodCongr e) (kroneckerMap (· * ·) A B) = kroneckerMap (· * ·) (re e A) (re e B) := rfl

theorem re_super (e : n ≃ m) (A : Matrix n n ℂ) : re (e.prodCongr e) (tfSuper A) = tfSuper (re e A) := by
  unfold tfSuper spre spost
  rw [map_mul, re_kron, re_kron, re_trans, re_conj, map_one]

theorem re_dress (e : n ≃ m) (tr : Option (Matrix n n ℂ)) (A : Matrix n n ℂ) :
    re e (dress tr A) = dress (tr.map (re e)) (re e A) := by
  cases tr with
  | none => rfl
  | some t =>
    change re e (tᴴ * A * t) = (re e t)ᴴ * re e A * re e t
    rw [map_mul, map_mul, re_conj]

theorem re_sub (e : n ≃ m) (s : Sub) (a : Matrix n n ℂ) : re e (s.ham none a) = s.ham none (re e a) := by
  cases s <;> simp only [Sub.ham, dress, resonator, duffing, thirdOrder] <;> try split
  all_goals simp only [map_add, map_smul, map_mul, map_sub, map_one, re_conj]

theorem re_int (e : n ≃ m) (f : IntFun) (a b : Matrix n n ℂ) : re e (f.ham a b) = f.ham (re e a) (re e b) := by
  cases f <;> simp only [IntFun.ham, intXX, intYY, map_add, map_mul, map_sub, map_neg, re_conj]

theorem re_drive (e : n ≃ m) (f : DriveFun) (a : Matrix n n ℂ) : re e (f.ham a) = f.ham (re e a) := by
  cases f <;> simp only [DriveFun.ham, xDrive, yDrive, zDrive, resonator, duffing, thirdOrder, map_add, map_smul, map_mul,
    map_sub, map_one, re_conj]

end

theorem re_ann (σ : Equiv.Perm ℕ) (h : SameDims σ dims dims') (e : Fin dims.prod ≃ Fin dims'.prod) (he : Renumbers σ e)
    (i : ℕ) (hi : i < dims.length) : re e (ann dims i) = ann dims' (σ i) := by
  classical
  have hi' : σ i < dims'.length := by
    rw [h.length]
    exact (h.places i).1 hi
  ext p q
  obtain ⟨p, rfl⟩ := e.surjective p
  obtain ⟨q, rfl⟩ := e.surjective q
  rw [re_apply, ann_apply i hi, ann_apply (σ i) hi']
  have h1 : (∀ t < dims'.length, t ≠ σ i → levelAt dims' t (e p) = levelAt dims' t (e q)) ↔
      ∀ t < dims.length, t ≠ i → levelAt dims t p = levelAt dims t q := by
    constructor
    · intro hh t ht hne
      rw [← he p t ht, ← he q t ht]
      exact hh _ (by rw [h.length]; exact (h.places t).1 ht) fun hc => hne (σ.injective hc)
    · intro hh t ht hne
      rw [h.length] at ht
      have ht' : σ.symm t < dims.length := by
        rw [h.places, σ.apply_symm_apply]
        exact ht
      have := hh (σ.symm t) ht' fun hc => hne (by rw [← hc, σ.apply_symm_apply])
      rw [← he p _ ht', ← he q _ ht', σ.apply_symm_apply] at this
      exact this
  simp only [h1, he p i hi, he q i hi]

/-! ## Hamiltonians -/

section
variable (σ : Equiv.Perm ℕ) (hd : SameDims σ dims dims') (e : Fin dims.prod ≃ Fin dims'.prod) (he : Renumbers σ e)
  (c : Chip dims) (c' : Chip dims') (hc : c.WF) (hn : c.sys.subs.length ≤ dims.length) (h : SameChip σ e c c')

include hd he

theorem line_drift (l : Line) (hl : l.WF dims.length) :
    (moved σ l).drift (ann dims') = (l.drift (ann dims)).map (re e) := by
  cases l with
  | coupling f g c₁ c₂ =>
    simp only [moved, Line.drift, Option.map_some, map_smul, re_int, re_ann σ hd e he c₁ hl.1, re_ann σ hd e he c₂ hl.2]
  | drive f conn => rfl
  | couplingDrive f c₁ c₂ => rfl

theorem line_control (l : Line) (hl : l.WF dims.length) :
    (moved σ l).control (ann dims') = (l.control (ann dims)).map (re e) := by
  cases l with
  | coupling f g c₁ c₂ => rfl
  | drive f conn =>
    simp only [moved, Line.control, Option.map_some, map_list_sum, List.map_map]
    congr 2
    refine List.map_congr_left fun i hi => ?_
    simp only [Function.comp, re_drive, re_ann σ hd e he i (hl i hi)]
  | couplingDrive f c₁ c₂ =>
    simp only [moved, Line.control, Option.map_some, re_int, re_ann σ hd e he c₁ hl.1, re_ann σ hd e he c₂ hl.2]

include hc hn h

theorem h0_eq : c'.h0 = re e c.h0 := by
  unfold Chip.h0
  rw [re_dress, h.basis]
  congr 1
  unfold Sys.drift Sys.hams
  rw [List.map_append, List.map_append, List.sum_append, List.sum_append, map_add, map_list_sum, map_list_sum]
  congr 1
  · rw [List.map_map, ((h.subs.map _).sum_eq), List.map_map, List.map_map, List.map_map]
    congr 1
    refine List.map_congr_left fun p hp => ?_
    have hi : p.2 < dims.length := lt_of_lt_of_le (by simpa using (List.mem_zipIdx hp).2.1) hn
    simp only [Function.comp]
    change p.1.2.ham none (ann dims' (σ p.2)) = re e (p.1.2.ham none (ann dims p.2))
    rw [re_sub, re_ann σ hd e he p.2 hi]
  · rw [h.lines, List.filterMap_map, List.map_filterMap, List.map_filterMap, List.map_filterMap]
    congr 1
    apply List.filterMap_congr
    intro l hl
    simp only [Function.comp, line_drift σ hd e he l.2 (hc.lines l hl)]
    cases l.2.drift (ann dims) <;> rfl

theorem controls_eq (k : String) :
    (c'.sys.controls (ann dims')).lookup k = ((c.sys.controls (ann dims)).lookup k).map (re e) := by
  unfold Sys.controls
  rw [h.lines]
  have hl := hc.lines
  revert hl
  generalize c.sys.lines = ls
  intro hl
  induction ls with
  | nil => rfl
  | cons a ls ih =>
    have ih := ih fun l hm => hl l (List.mem_cons_of_mem _ hm)
    have ha := line_control σ hd e he a.2 (hl a List.mem_cons_self)
    rw [List.map_cons, List.filterMap_cons, List.filterMap_cons]
    simp only [ha]
    cases a.2.control (ann dims) with
    | none => exact ih
    | some H =>
      simp only [Option.map_some, List.lookup_cons]
      cases k == a.1
      · exact ih
      · rfl

theorem hks_eq (p : Pulse) : c'.hks p = (c.hks p).map fun l => l.map (re e) := by
  unfold Chip.hks
  induction p.chans with
  | nil => rfl
  | cons k ks ih =>
    rw [List.mapM_cons, List.mapM_cons, ih, controls_eq σ hd e he c c' hc hn h, h.basis]
    cases (c.sys.controls (ann dims)).lookup k with
    | none => rfl
    | some H =>
      cases ks.mapM fun k => ((c.sys.controls (ann dims)).lookup k).map (dress c.tr) with
      | none => rfl
      | some l =>
        simp only [Option.map_some, Option.bind_eq_bind, Option.bind_some, Option.pure_def, List.map_cons, re_dress]

theorem frame_eq (p : Pulse) : c'.frame p = (c.frame p).map (re e) := by
  have key : ∀ (l : List (String × ℝ)) (acc : Op dims),
      frameExponent dims' c'.target p.shifts p.t l (re e acc) =
        (frameExponent dims c.target p.shifts p.t l acc).map (re e) := by
    intro l
    induction l with
    | nil => intro acc; rfl
    | cons x l ih =>
      intro acc
      rw [frameExponent, frameExponent, h.target]
      cases p.shifts x.1 with
      | none => rfl
      | some fc =>
        cases hq : c.target x.1 with
        | none => rfl
        | some q =>
          simp only [Option.map_some]
          rw [← ih, map_add, map_smul, map_mul, re_conj, re_ann σ hd e he q (hc.target _ _ hq)]
  unfold Chip.frame frameRotation
  have := key p.freqs 0
  rw [map_zero] at this
  rw [this]
  cases frameExponent dims c.target p.shifts p.t p.freqs 0 with
  | none => rfl
  | some x =>
    simp only [Option.map_some]
    split
    · rw [map_one]
    · rw [re_exp]

end

/-! ## Propagation -/

theorem evens_map {α β : Type*} (f : α → β) : ∀ l : List α, Fold.evens (l.map f) = (Fold.evens l).map f
  | [] => rfl
  | [_] => rfl
  | a :: b :: l => by simp only [List.map_cons, Fold.evens, evens_map f l]

theorem odds_map {α β : Type*} (f : α → β) : ∀ l : List α, Fold.odds (l.map f) = (Fold.odds l).map f
  | [] => rfl
  | [_] => rfl
  | a :: b :: l => by simp only [List.map_cons, Fold.odds, odds_map f l]

theorem matmulEven_map {V W : Type*} [Monoid V] [Monoid W] (f : V →* W) (a b : List V) :
    Fold.matmulEven (a.map f) (b.map f) = (Fold.matmulEven a b).map fun l => l.map f := by
  unfold Fold.matmulEven
  rw [List.length_map, List.length_map]
  split
  · rw [Option.map_some, List.map_zipWith, List.zipWith_map]
    simp only [map_mul]
  · rfl

theorem layer_map {V W : Type*} [Monoid V] [Monoid W] (f : V →* W) (b : Bool) (l : List V) :
    Fold.layer b (l.map f) = (Fold.layer b l).map fun l => l.map f := by
  unfold Fold.layer
  rw [odds_map, evens_map]
  cases b with
  | true => exact matmulEven_map f _ _
  | false =>
    simp only [Bool.false_eq_true, if_false]
    unfold Fold.matmulOdd
    rw [List.getLast?_map, ← List.map_dropLast, matmulEven_map]
    cases (Fold.evens l).getLast? with
    | none => rfl
    | some x =>
      cases Fold.matmulEven (Fold.odds l) (Fold.evens l).dropLast with
      | none => rfl
      | some y => simp

theorem matmulN_map {V W : Type*} [Monoid V] [Monoid W] (f : V →* W) (st : List Bool) (l : List V) :
    Fold.matmulN (l.map f) st = (Fold.matmulN l st).map f := by
  induction st generalizing l with
  | nil => simp [Fold.matmulN]
  | cons b st ih =>
    rw [Fold.matmulN, Fold.matmulN, layer_map]
    cases Fold.layer b l with
    | none => rfl
    | some l' => exact ih l'

theorem batch_map {α β γ : Type*} (f : List α → List β) (f' : List α → List γ) (g : β → γ) (h : ∀ l, f' l = (f l).map g)
    (l : List α) (bs : ℕ) : Fold.batchPropagate f' l bs = (Fold.batchPropagate f l bs).map g := by
  unfold Fold.batchPropagate
  rw [List.map_flatMap]
  congr 1
  funext i
  rw [h]

section
variable {n m : Type*} [Fintype n] [DecidableEq n] [Fintype m] [DecidableEq m]

theorem ham_re (e : n ≃ m) (h0 : Matrix n n ℂ) (hks : List (Matrix n n ℂ)) (v : List ℝ) :
    re e h0 + ((v.zip (hks.map (re e))).map fun p => (p.1 : ℂ) • p.2).sum =
      re e (h0 + ((v.zip hks).map fun p => (p.1 : ℂ) • p.2).sum) := by
  rw [map_add, map_list_sum, List.map_map, List.zip_map_right, List.map_map]
  congr 2

theorem pwc_re (e : n ≃ m) (h0 : Matrix n n ℂ) (hks : List (Matrix n n ℂ)) (dt : ℝ) (vs : List (List ℝ)) (bs : ℕ)
    (st : List Bool) : pwc (re e h0) (hks.map (re e)) dt vs bs st = (pwc h0 hks dt vs bs st).map (re e) := by
  unfold pwc
  rw [batch_map (propVectorized h0 hks dt) _ (re e)]
  · exact matmulN_map (re e : Matrix n n ℂ →* Matrix m m ℂ) st _
  · intro l
    unfold propVectorized
    rw [List.map_map]
    refine List.map_congr_left fun v _ => ?_
    simp only [Function.comp, ham_re]
    rw [re_exp, map_smul, map_smul]

theorem lind_re (e : n ≃ m) (h : Matrix n n ℂ) (cols : List (Matrix n n ℂ)) (cols' : List (Matrix m m ℂ))
    (hp : cols'.Perm (cols.map (re e))) : lindOpVec (re e h) cols' = re (e.prodCongr e) (lindOpVec h cols) := by
  unfold lindOpVec
  rw [(hp.map _).sum_eq, map_add, map_smul, map_sub, re_kron, re_kron, map_one, re_trans, map_list_sum, List.map_map,
    List.map_map]
  congr 2
  refine List.map_congr_left fun L _ => ?_
  simp only [Function.comp, map_sub, map_smul, map_mul, re_conj, re_kron, map_one, re_trans]

theorem pwcLind_re (e : n ≃ m) (h0 : Matrix n n ℂ) (hks cols : List (Matrix n n ℂ)) (cols' : List (Matrix m m ℂ))
    (hp : cols'.Perm (cols.map (re e))) (dt : ℝ) (vs : List (List ℝ)) (bs : ℕ) (st : List Bool) :
    pwcLind (re e h0) (hks.map (re e)) cols' dt vs bs st = (pwcLind h0 hks cols dt vs bs st).map (re (e.prodCongr e)) := by
  unfold pwcLind
  rw [batch_map (propLind h0 hks cols dt) _ (re (e.prodCongr e))]
  · exact matmulN_map (re (e.prodCongr e) : Matrix (n × n) (n × n) ℂ →* Matrix (m × m) (m × m) ℂ) st _
  · intro l
    unfold propLind
    rw [List.map_map]
    refine List.map_congr_left fun v _ => ?_
    simp only [Function.comp, ham_re]
    rw [re_exp, map_smul, lind_re e _ cols cols' hp]

end

/-! ## Experiments -/

/-- C252 (closed systems): for the chip with another order `compute_propagators` finds the same, in the other numbering;
exceptions included. -/
theorem C252_closed (σ : Equiv.Perm ℕ) (hd : SameDims σ dims dims') (e : Fin dims.prod ≃ Fin dims'.prod)
    (he : Renumbers σ e) (c : Chip dims) (c' : Chip dims') (hc : c.WF) (hn : c.sys.subs.length ≤ dims.length)
    (h : SameChip σ e c c') (ps : List (String × Pulse)) : closed c' ps = worldMap (re e) (closed c ps) := by
  unfold closed worldMap
  congr 1
  · exact h.frame
  · funext m g st
    dsimp only
    cases ps.lookup g with
    | none => rfl
    | some p =>
      simp only
      rw [hks_eq σ hd e he c c' hc hn h]
      cases c.hks p with
      | none => rfl
      | some hks =>
        simp only [Option.map_some]
        rw [h0_eq σ hd e he c c' hc hn h, h.batch, pwc_re]
        cases pwc c.h0 hks p.dt p.values c.batch st <;> rfl
  · funext m g
    dsimp only
    cases ps.lookup g with
    | none => rfl
    | some p =>
      simp only [Option.bind_some]
      rw [frame_eq σ hd e he c c' hc hn h]
      cases c.frame p <;> rfl

/-- C252 (open systems). -/
theorem C252_opened (σ : Equiv.Perm ℕ) (hd : SameDims σ dims dims') (e : Fin dims.prod ≃ Fin dims'.prod)
    (he : Renumbers σ e) (c : Chip dims) (c' : Chip dims') (hc : c.WF) (hn : c.sys.subs.length ≤ dims.length)
    (h : SameChip σ e c c') (ps : List (String × Pulse)) :
    opened c' ps = worldMap (re (e.prodCongr e)) (opened c ps) := by
  unfold opened worldMap
  congr 1
  · exact h.frame
  · funext m g st
    dsimp only
    cases ps.lookup g with
    | none => rfl
    | some p =>
      simp only
      rw [hks_eq σ hd e he c c' hc hn h]
      cases c.hks p with
      | none => rfl
      | some hks =>
        simp only [Option.map_some]
        rw [h0_eq σ hd e he c c' hc hn h, h.batch, pwcLind_re e _ _ c.cols _ h.decay]
        cases pwcLind c.h0 hks c.cols p.dt p.values c.batch st <;> rfl
  · funext m g
    dsimp only
    cases ps.lookup g with
    | none => rfl
    | some p =>
      simp only [Option.bind_some]
      rw [frame_eq σ hd e he c c' hc hn h]
      cases c.frame p with
      | none => rfl
      | some F => simp only [Option.map_some, Except.map, re_super]

section
variable {V W : Type} [Monoid V] [Monoid W] (f : V →* W)

theorem gateProp_map (w : World V) (s : Exp V) (g : Gate) :
    gateProp (worldMap f w) (expMap f s) g = (gateProp w s g).map f := by
  unfold gateProp
  simp only [worldMap, expMap, bind, Except.bind]
  cases w.instr g with
  | none => rfl
  | some i =>
    cases s.stack with
    | none => rfl
    | some st =>
      simp only
      cases st i.steps with
      | none => rfl
      | some l =>
        simp only
        cases w.prop s.propagation g l with
        | error er => rfl
        | ok U =>
          simp only [Except.map]
          by_cases hf : w.useFR = true
          · simp only [hf, if_true]
            cases w.frame w.lind g with
            | error er => rfl
            | ok F =>
              simp only [← map_mul]
              split_ifs <;> rfl
          · by_cases h1 : w.dephasing = true <;> by_cases h2 : w.lind = true <;> by_cases h3 : i.lines = true <;>
              simp [hf, h1, h2, h3]

theorem gateLoop_map (w : World V) (s : Exp V) (gs : List Gate) (d : Gate → Option V) :
    gateLoop (worldMap f w) (expMap f s) gs (fun g => (d g).map f) =
      (gateLoop w s gs d).map fun d g => (d g).map f := by
  induction gs generalizing d with
  | nil => rfl
  | cons g gs ih =>
    simp only [gateLoop, bind, Except.bind, gateProp_map]
    cases gateProp w s g with
    | error er => rfl
    | ok U =>
      simp only [Except.map]
      have := ih fun h => if h = g then some U else d h
      refine Eq.trans ?_ this
      congr 1
      funext k
      split <;> rfl

theorem compute_map (w : World V) (s : Exp V) :
    (compute (worldMap f w) (expMap f s)).2 = expMap f (compute w s).2 := by
  unfold compute
  have hm : setPropMethod (worldMap f w) (expMap f s).propMethod (expMap f s) =
      (setPropMethod w s.propMethod s).map (expMap f) := by
    change setPropMethod (worldMap f w) s.propMethod (expMap f s) = _
    cases s.propMethod with
    | none => rfl
    | some m =>
      cases m with
      | name k =>
        simp only [setPropMethod]
        split <;> rfl
      | fn k => rfl
  rw [hm]
  cases setPropMethod w s.propMethod s with
  | error er => rfl
  | ok s' =>
    simp only [Except.map]
    have hl := gateLoop_map f w s' (gateIds w s') fun _ => none
    have hl' : gateLoop (worldMap f w) (expMap f s') (gateIds (worldMap f w) (expMap f s')) (fun _ => none) =
        (gateLoop w s' (gateIds w s') fun _ => none).map fun d g => (d g).map f := hl
    rw [hl']
    cases gateLoop w s' (gateIds w s') fun _ => none with
    | error er => rfl
    | ok d =>
      obtain ⟨a, b, st, og, ow, pr⟩ := s'
      cases ow with
      | true => rfl
      | false =>
        simp only [Except.map, expMap]
        congr 1
        funext g
        change ((d g).map f).or ((pr g).map f) = ((d g).or (pr g)).map f
        cases d g <;> rfl

theorem runEvents_map (s : Exp V) (es : List (Event V)) :
    runEvents (expMap f s) (es.map (eventMap f)) = expMap f (runEvents s es) := by
  induction es generalizing s with
  | nil => rfl
  | cons e es ih =>
    rw [List.map_cons, runEvents, runEvents, ← ih]
    congr 1
    exact compute_map f e.w (e.enter s)

end

theorem runSeq_re {n m : Type*} [Fintype n] [DecidableEq n] [Fintype m] [DecidableEq m] (e : n ≃ m)
    (props : String → Option (Matrix n n ℂ)) (q : List String) (psi : n → ℂ) :
    runSeq (fun g => (props g).map (re e)) q (psi ∘ e.symm) = (runSeq props q psi).map fun v => v ∘ e.symm := by
  induction q generalizing psi with
  | nil => rfl
  | cons g q ih =>
    rw [runSeq, runSeq]
    cases props g with
    | none => rfl
    | some U =>
      simp only [Option.map_some]
      rw [← ih]
      congr 1
      refine (submatrix_mulVec_equiv U (psi ∘ e.symm) e.symm e.symm).trans ?_
      congr 2
      funext i
      simp

theorem mapM_re {α β γ : Type} (f : α → Option β) (f' : α → Option γ) (k : β → γ) (l : List α)
    (h : ∀ a, f' a = (f a).map k) : l.mapM f' = (l.mapM f).map fun x => x.map k := by
  induction l with
  | nil => rfl
  | cons a l ih =>
    rw [List.mapM_cons, List.mapM_cons, ih, h]
    cases f a with
    | none => rfl
    | some b =>
      cases l.mapM f with
      | none => rfl
      | some bs => rfl

/-- What an event of a history needs: both chips, the pulses, the selection and the flag. -/
structure Call (dims dims' : List ℕ) where
  chip : Chip dims
  chip' : Chip dims'
  pulses : List (String × Pulse)
  sel : Option (List Gate)
  overwrite : Bool

/-- The two chips of a call are the same in different orders. -/
structure Call.Ok (σ : Equiv.Perm ℕ) (e : Fin dims.prod ≃ Fin dims'.prod) (k : Call dims dims') : Prop where
  wf : k.chip.WF
  size : k.chip.sys.subs.length ≤ dims.length
  same : SameChip σ e k.chip k.chip'

/-- C252 (closed systems): after every history the populations of all sequences are the same in both orders: that of a
state is that of the renumbered state. -/
theorem C252_populations (σ : Equiv.Perm ℕ) (hd : SameDims σ dims dims') (e : Fin dims.prod ≃ Fin dims'.prod)
    (he : Renumbers σ e) (s : Exp (Op dims)) (ks : List (Call dims dims')) (hk : ∀ k ∈ ks, k.Ok σ e)
    (seqs : List (List String)) (psi : Fin dims.prod → ℂ) :
    evaluateClosed (runEvents (expMap (re e) s)
        (ks.map fun k => ⟨closed k.chip' k.pulses, k.sel, k.overwrite⟩)).propagators seqs (psi ∘ e.symm) =
      (evaluateClosed (runEvents s (ks.map fun k => ⟨closed k.chip k.pulses, k.sel, k.overwrite⟩)).propagators seqs
        psi).map fun P => P.map fun p => p ∘ e.symm := by
  have h1 : (ks.map fun k => (⟨closed k.chip' k.pulses, k.sel, k.overwrite⟩ : Event (Op dims'))) =
      (ks.map fun k => ⟨closed k.chip k.pulses, k.sel, k.overwrite⟩).map (eventMap (re e)) := by
    rw [List.map_map]
    refine List.map_congr_left fun k h => ?_
    simp only [Function.comp, eventMap]
    rw [C252_closed σ hd e he k.chip k.chip' (hk k h).wf (hk k h).size (hk k h).same]
  have h2 := runEvents_map (re e : Op dims →* Op dims') s
    (ks.map fun k => ⟨closed k.chip k.pulses, k.sel, k.overwrite⟩)
  have h3 : runEvents (expMap (re e) s) (ks.map fun k => ⟨closed k.chip' k.pulses, k.sel, k.overwrite⟩) =
      expMap (re e) (runEvents s (ks.map fun k => ⟨closed k.chip k.pulses, k.sel, k.overwrite⟩)) := by
    rw [h1]
    exact h2
  rw [h3]
  unfold evaluateClosed
  refine mapM_re _ _ (fun p => p ∘ e.symm) seqs fun q => ?_
  have h4 := runSeq_re e (runEvents s (ks.map fun k => ⟨closed k.chip k.pulses, k.sel, k.overwrite⟩)).propagators q psi
  have h5 := congrArg (Option.map popsClosed) h4
  refine h5.trans ?_
  cases runSeq (runEvents s (ks.map fun k => ⟨closed k.chip k.pulses, k.sel, k.overwrite⟩)).propagators q psi with
  | none => rfl
  | some v => rfl

/-- C252 (open systems). -/
theorem C252_populations_open (σ : Equiv.Perm ℕ) (hd : SameDims σ dims dims') (e : Fin dims.prod ≃ Fin dims'.prod)
    (he : Renumbers σ e) (s : Exp (SOp dims)) (ks : List (Call dims dims')) (hk : ∀ k ∈ ks, k.Ok σ e)
    (seqs : List (List String)) (rho : Op dims) :
    evaluateOpen (runEvents (expMap (re (e.prodCongr e)) s)
        (ks.map fun k => ⟨opened k.chip' k.pulses, k.sel, k.overwrite⟩)).propagators seqs (dmToVec (re e rho)) =
      (evaluateOpen (runEvents s (ks.map fun k => ⟨opened k.chip k.pulses, k.sel, k.overwrite⟩)).propagators seqs
        (dmToVec rho)).map fun P => P.map fun p => p ∘ e.symm := by
  have h1 : (ks.map fun k => (⟨opened k.chip' k.pulses, k.sel, k.overwrite⟩ : Event (SOp dims'))) =
      (ks.map fun k => ⟨opened k.chip k.pulses, k.sel, k.overwrite⟩).map (eventMap (re (e.prodCongr e))) := by
    rw [List.map_map]
    refine List.map_congr_left fun k h => ?_
    simp only [Function.comp, eventMap]
    rw [C252_opened σ hd e he k.chip k.chip' (hk k h).wf (hk k h).size (hk k h).same]
  have h2 := runEvents_map (re (e.prodCongr e) : SOp dims →* SOp dims') s
    (ks.map fun k => ⟨opened k.chip k.pulses, k.sel, k.overwrite⟩)
  have h3 : runEvents (expMap (re (e.prodCongr e)) s) (ks.map fun k => ⟨opened k.chip' k.pulses, k.sel, k.overwrite⟩) =
      expMap (re (e.prodCongr e)) (runEvents s (ks.map fun k => ⟨opened k.chip k.pulses, k.sel, k.overwrite⟩)) := by
    rw [h1]
    exact h2
  rw [h3]
  unfold evaluateOpen
  refine mapM_re _ _ (fun p => p ∘ e.symm) seqs fun q => ?_
  have h4 := runSeq_re (e.prodCongr e)
    (runEvents s (ks.map fun k => ⟨opened k.chip k.pulses, k.sel, k.overwrite⟩)).propagators q (dmToVec rho)
  have h5 : dmToVec (re e rho) = dmToVec rho ∘ (e.prodCongr e).symm := rfl
  rw [h5]
  refine (congrArg (Option.map popsOpen) h4).trans ?_
  cases runSeq (runEvents s (ks.map fun k => ⟨opened k.chip k.pulses, k.sel, k.overwrite⟩)).propagators q (dmToVec rho) with
  | none => rfl
  | some v => rfl

/-! ## Example: a qubit and a three-level transmon in both orders -/

def exAB : Chip [2, 3] :=
  ⟨⟨[("a", .qubit 2 5 0), ("b", .transmon 3 6 1 0 1 0)], [("c", .coupling .xx 1 0 1), ("d", .drive .x [1])]⟩, none, [],
    fun _ => some 1, true, 1⟩

def exBA : Chip [3, 2] :=
  ⟨⟨[("b", .transmon 3 6 1 0 1 0), ("a", .qubit 2 5 0)], [("c", .coupling .xx 1 1 0), ("d", .drive .x [0])]⟩, none, [],
    fun _ => some 0, true, 1⟩

theorem exDims : SameDims (Equiv.swap 0 1) [2, 3] [3, 2] := by
  refine ⟨rfl, fun t => ?_, fun t ht => ?_⟩
  · change t < 2 ↔ Equiv.swap 0 1 t < 2
    rw [Equiv.swap_apply_def]
    split_ifs <;> omega
  · change t < 2 at ht
    obtain rfl | rfl : t = 0 ∨ t = 1 := by omega
    · rw [Equiv.swap_apply_left]
      rfl
    · rw [Equiv.swap_apply_right]
      rfl

/-- The two chips are the same in different orders, so a renumbering exists and takes the propagators of one to those of
the other. -/
example (ps : List (String × Pulse)) : ∃ e : Fin [2, 3].prod ≃ Fin [3, 2].prod, Renumbers (Equiv.swap 0 1) e ∧
    closed exBA ps = worldMap (re e) (closed exAB ps) := by
  obtain ⟨e, he, -⟩ := C252_states (Equiv.swap 0 1) exDims
  refine ⟨e, he, C252_closed _ exDims e he exAB exBA ⟨?_, ?_, le_rfl⟩ le_rfl ⟨?_, ?_, rfl, .refl _, ?_, rfl, rfl⟩ ps⟩
  · intro l hl
    simp only [exAB, List.mem_cons, List.not_mem_nil, or_false] at hl
    rcases hl with rfl | rfl <;> simp [Line.WF]
  · intro l q h
    simp only [exAB, Option.some.injEq] at h
    subst h
    decide
  · simp only [exAB, exBA, List.zipIdx_cons, List.zipIdx_nil, List.map_cons, List.map_nil, zero_add, Equiv.swap_apply_left,
      Equiv.swap_apply_right]
    exact List.Perm.swap _ _ _
  · simp [exAB, exBA, moved]
  · intro k
    simp [exAB, exBA]

end C3.Experiment.Reorder
