import Verif.Experiment.Listing
import Verif.Experiment.Separate
import Mathlib.Analysis.CStarAlgebra.Matrix

/-!
# C256: the sign of couplings and drives

The whole chain of C199 for two chips that differ in signs: for a group of chip elements, the strength of the couplings
between the group and the rest, the cubic terms of its elements and the samples of its transverse drives all have the
opposite sign. The populations are the same. In particular, the sign of a single coupling is not observable, and playing
all pulses with the opposite sign has no effect.
-/

set_option linter.unusedSectionVars false

noncomputable section

namespace C3.Experiment.Signs

open Matrix NormedSpace C3.Propagation C3.Hilbert C3.Experiment C3.Experiment.Compute C3.Experiment.EndToEnd
open C3.Experiment.Selection (frame_diagonal loadAt Tw par sgn fac)
open C3.Experiment.Separate (lineOf lineOf_mem lookup_lineOf drift_sum)
open C3.Experiment.Reorder (worldMap expMap eventMap runEvents_map matmulN_map mapM_re)

open scoped Matrix.Norms.L2Operator

variable {dims : List ℕ}

/-! ## Specification -/

/-- An element with the sign of its cubic term changed if it is in the group. -/
def flipSub (S : Finset ℕ) (i : ℕ) : Sub → Sub
  | .snail d w a b => .snail d w a (if i ∈ S then -b else b)
  | s => s

/-- A line with the sign of its strength changed if it couples the group with the rest. -/
def flipLine (S : Finset ℕ) : Line → Line
  | .coupling f s c₁ c₂ => .coupling f (if c₁ ∈ S ↔ c₂ ∈ S then s else -s) c₁ c₂
  | l => l

/-- Drives that create or remove single excitations. -/
def transverse : DriveFun → Bool
  | .x => true
  | .y => true
  | .third => true
  | _ => false

/-- The sign a sample of a line gets. -/
def lineSign (S : Finset ℕ) : Line → ℝ
  | .coupling .. => 1
  | .drive f conn => if transverse f = true ∧ ∃ i ∈ conn, i ∈ S then -1 else 1
  | .couplingDrive _ c₁ c₂ => if c₁ ∈ S ↔ c₂ ∈ S then 1 else -1

/-- Entries of an operator with the signs of both states. -/
def signed (S : Finset ℕ) (A : Op dims) : Op dims :=
  Matrix.of fun i j => (-1) ^ (loadAt dims S i + loadAt dims S j) * A i j

/-- Transverse drives act on elements of the group only or on others only. -/
def OneSided (S : Finset ℕ) (c : Chip dims) : Prop :=
  ∀ l ∈ c.sys.lines, ∀ f conn, l.2 = .drive f conn → transverse f = true → (∀ i ∈ conn, i ∈ S) ∨ ∀ i ∈ conn, i ∉ S

/-- The chip with other signs. Collapse operators may have any sign. -/
structure Flipped (S : Finset ℕ) (c c' : Chip dims) : Prop where
  size : c.sys.subs.length ≤ dims.length
  subs : c'.sys.subs = c.sys.subs.zipIdx.map fun p => (p.1.1, flipSub S p.2 p.1.2)
  lines : c'.sys.lines = c.sys.lines.map fun l => (l.1, flipLine S l.2)
  sided : OneSided S c
  basis : c'.tr = c.tr.map (signed S)
  decay : List.Forall₂ (fun L L' => L' = signed S L ∨ L' = -signed S L) c.cols c'.cols
  target : c'.target = c.target
  frame : c'.useFR = c.useFR
  batch : c'.batch = c.batch

/-- One sample of all channels with other signs. -/
def flipRow (S : Finset ℕ) (c : Chip dims) (chans : List String) (v : List ℝ) : List ℝ :=
  (chans.zip v).map fun x => ((lineOf c.sys.lines x.1).elim 1 (lineSign S)) * x.2

/-- The pulse with other signs. -/
def flipPulse (S : Finset ℕ) (c : Chip dims) (p : Pulse) : Pulse := { p with values := p.values.map (flipRow S c p.chans) }

def flipPulses (S : Finset ℕ) (c : Chip dims) (ps : List (String × Pulse)) : List (String × Pulse) :=
  ps.map fun x => (x.1, flipPulse S c x.2)

/-! ## Conjugation -/

section
variable {n : Type*} [Fintype n] [DecidableEq n]

/-- Conjugation with an operator that is its own inverse. -/
def conjBy (P : Matrix n n ℂ) (h : P * P = 1) : Matrix n n ℂ →ₐ[ℂ] Matrix n n ℂ where
  toFun A := P * A * P
  map_one' := by rw [Matrix.mul_one, h]
  map_mul' A B := by
    simp only [Matrix.mul_assoc]
    rw [← Matrix.mul_assoc P P, h, Matrix.one_mul]
  map_zero' := by rw [Matrix.mul_zero, Matrix.zero_mul]
  map_add' A B := by rw [Matrix.mul_add, Matrix.add_mul]
  commutes' r := by rw [← Algebra.commutes r P, Matrix.mul_assoc, h, Matrix.mul_one]

theorem conjBy_exp (P : Matrix n n ℂ) (h : P * P = 1) (A : Matrix n n ℂ) : conjBy P h (exp A) = exp (conjBy P h A) := by
  let : NormedAlgebra ℚ (Matrix n n ℂ) := NormedAlgebra.restrictScalars ℚ ℂ _
  refine map_exp (conjBy P h) ?_ A
  exact LinearMap.continuous_of_finiteDimensional (conjBy P h).toLinearMap

theorem conjBy_conj (P : Matrix n n ℂ) (h : P * P = 1) (hP : Pᴴ = P) (A : Matrix n n ℂ) :
    conjBy P h Aᴴ = (conjBy P h A)ᴴ := by
  show P * Aᴴ * P = (P * A * P)ᴴ
  rw [conjTranspose_mul, conjTranspose_mul, hP, Matrix.mul_assoc]

theorem conjBy_trans (P : Matrix n n ℂ) (h : P * P = 1) (hP : Pᵀ = P) (A : Matrix n n ℂ) :
    conjBy P h Aᵀ = (conjBy P h A)ᵀ := by
  show P * Aᵀ * P = (P * A * P)ᵀ
  rw [transpose_mul, transpose_mul, hP, Matrix.mul_assoc]

theorem kron_sq (P : Matrix n n ℂ) (h : P * P = 1) :
    kroneckerMap (· * ·) P P * kroneckerMap (· * ·) P P = (1 : Matrix (n × n) (n × n) ℂ) := by
  rw [← mul_kronecker_mul, h, one_kronecker_one]

theorem conjBy_kron (P : Matrix n n ℂ) (h : P * P = 1) (A B : Matrix n n ℂ) :
    conjBy (kroneckerMap (· * ·) P P) (kron_sq P h) (kroneckerMap (· * ·) A B) =
      kroneckerMap (· * ·) (conjBy P h A) (conjBy P h B) := by
  show kroneckerMap (· * ·) P P * kroneckerMap (· * ·) A B * kroneckerMap (· * ·) P P = _
  rw [← mul_kronecker_mul, ← mul_kronecker_mul]
  rfl

theorem conjBy_super (P : Matrix n n ℂ) (h : P * P = 1) (hP : Pᴴ = P) (hT : Pᵀ = P) (A : Matrix n n ℂ) :
    conjBy (kroneckerMap (· * ·) P P) (kron_sq P h) (tfSuper A) = tfSuper (conjBy P h A) := by
  unfold tfSuper spre spost
  rw [map_mul, conjBy_kron P h, conjBy_kron P h, conjBy_trans P h hT, conjBy_conj P h hP, map_one]

theorem conjBy_lind (P : Matrix n n ℂ) (h : P * P = 1) (hP : Pᴴ = P) (hT : Pᵀ = P) (H : Matrix n n ℂ)
    (cols cols' : List (Matrix n n ℂ))
    (hd : List.Forall₂ (fun L L' => L' = conjBy P h L ∨ L' = -conjBy P h L) cols cols') :
    lindOpVec (conjBy P h H) cols' = conjBy (kroneckerMap (· * ·) P P) (kron_sq P h) (lindOpVec H cols) := by
  unfold lindOpVec
  rw [map_add, map_smul, map_sub, conjBy_kron P h, conjBy_kron P h, map_one, conjBy_trans P h hT]
  congr 1
  induction hd with
  | nil => simp
  | @cons L L' Ls Ls' hL _ ih =>
    rw [List.map_cons, List.sum_cons, List.map_cons, List.sum_cons, map_add, ih]
    congr 1
    simp only [map_sub, map_smul, map_mul]
    rw [conjBy_conj _ _ (by rw [conjTranspose_kronecker, hP]), conjBy_conj _ _ (by rw [conjTranspose_kronecker, hP]),
      conjBy_kron P h, conjBy_kron P h, map_one, conjBy_trans P h hT]
    rcases hL with rfl | rfl
    · rfl
    · have e1 : kroneckerMap (· * ·) (-(conjBy P h L)) (1 : Matrix n n ℂ) = -(kroneckerMap (· * ·) (conjBy P h L) 1) := by
        ext i j
        simp
      have e2 : kroneckerMap (· * ·) (1 : Matrix n n ℂ) (-(conjBy P h L))ᵀ =
          -(kroneckerMap (· * ·) 1 (conjBy P h L)ᵀ) := by
        ext i j
        simp
      rw [e1, e2]
      simp only [conjTranspose_neg, neg_mul_neg]

theorem dress_conj (P : Matrix n n ℂ) (h : P * P = 1) (hP : Pᴴ = P) (tr : Option (Matrix n n ℂ)) (A : Matrix n n ℂ) :
    conjBy P h (dress tr A) = dress (tr.map (conjBy P h)) (conjBy P h A) := by
  cases tr with
  | none => rfl
  | some t =>
    change conjBy P h (tᴴ * A * t) = (conjBy P h t)ᴴ * conjBy P h A * conjBy P h t
    rw [map_mul, map_mul, conjBy_conj P h hP]

end

theorem par_trans (S : Finset ℕ) : (par dims S)ᵀ = par dims S := diagonal_transpose _

/-- Conjugation with the signs of the group. -/
def conjS (S : Finset ℕ) : Op dims →ₐ[ℂ] Op dims := conjBy (par dims S) (Selection.par_sq S)

/-- The same for vectorised density matrices. -/
def conjS2 (S : Finset ℕ) : SOp dims →ₐ[ℂ] SOp dims := conjBy _ (kron_sq (par dims S) (Selection.par_sq S))

theorem signed_eq (S : Finset ℕ) (A : Op dims) : signed S A = conjS S A := by
  ext i j
  show (-1) ^ (loadAt dims S i + loadAt dims S j) * A i j = (par dims S * A * par dims S) i j
  unfold par
  rw [mul_diagonal, diagonal_mul]
  unfold sgn
  rw [pow_add]
  ring

theorem by_tw (S : Finset ℕ) {e : ℂ} {A : Op dims} (h : Tw S e A) : conjS S A = e • A := by
  show par dims S * A * par dims S = _
  unfold Tw at h
  rw [Matrix.mul_assoc, h, Matrix.mul_smul, ← Matrix.mul_assoc, Selection.par_sq, Matrix.one_mul]

theorem tw_int' (S : Finset ℕ) (f : IntFun) (i j : ℕ) (hi : i < dims.length) (hj : j < dims.length) :
    Tw S (fac S i * fac S j) (f.ham (ann dims i) (ann dims j)) := by
  cases f with
  | xx =>
    exact Tw.mul ((Selection.tw_conj S i hi).add (Selection.tw_ann S i hi))
      ((Selection.tw_conj S j hj).add (Selection.tw_ann S j hj))
  | yy =>
    exact Tw.neg (Tw.mul ((Selection.tw_conj S i hi).sub (Selection.tw_ann S i hi))
      ((Selection.tw_conj S j hj).sub (Selection.tw_ann S j hj)))

theorem fac_fac (S : Finset ℕ) (i j : ℕ) : fac S i * fac S j = if i ∈ S ↔ j ∈ S then 1 else -1 := by
  unfold fac
  by_cases hi : i ∈ S <;> by_cases hj : j ∈ S <;> simp [hi, hj]

theorem by_sub (S : Finset ℕ) (s : Sub) (i : ℕ) (hi : i < dims.length) :
    conjS S (s.ham none (ann dims i)) = (flipSub S i s).ham none (ann dims i) := by
  have e1 : conjS S (resonator (ann dims i)) = resonator (ann dims i) := by
    have := by_tw S (Selection.tw_number S i hi)
    rwa [one_smul] at this
  have e2 : conjS S (duffing (ann dims i)) = duffing (ann dims i) := by
    rw [by_tw S (Selection.tw_duffing S i hi), one_smul]
  have e3 : ∀ b : ℝ, (b : ℂ) • conjS S (thirdOrder (ann dims i)) =
      ((if i ∈ S then -b else b : ℝ) : ℂ) • thirdOrder (ann dims i) := by
    intro b
    rw [by_tw S (Selection.tw_third S i hi), smul_smul]
    unfold fac
    split <;> push_cast <;> simp
  cases s with
  | qubit d w a => simp only [Sub.ham, dress, flipSub]; split <;> simp only [map_add, map_smul, e1, e2]
  | res w => simp only [Sub.ham, dress, flipSub, map_smul, e1]
  | transmon d w a phi phi0 dd => simp only [Sub.ham, dress, flipSub]; split <;> simp only [map_add, map_smul, e1, e2]
  | snail d w a b => simp only [Sub.ham, dress, flipSub]; split <;> simp only [map_add, map_smul, e1, e2, e3]

theorem zipIdx_twice {α β γ : Type*} (l : List α) (k : ℕ) (g : α × ℕ → β) (F : β × ℕ → γ) :
    ((((l.zipIdx k).map g).zipIdx k).map F) = (l.zipIdx k).map fun p => F (g p, p.2) := by
  induction l generalizing k with
  | nil => rfl
  | cons a l ih =>
    simp only [List.zipIdx_cons, List.map_cons]
    rw [ih]

theorem by_drift (S : Finset ℕ) (c c' : Chip dims) (hc : c.WF) (h : Flipped S c c') :
    conjS S (c.sys.drift (ann dims)) = c'.sys.drift (ann dims) := by
  rw [drift_sum, drift_sum, map_add, map_list_sum, map_list_sum, h.subs, h.lines, zipIdx_twice, List.map_map, List.map_map,
    List.map_map]
  congr 2
  · refine List.map_congr_left fun p hp => ?_
    have hi : p.2 < c.sys.subs.length := by
      have := List.mem_zipIdx_iff_getElem?.1 hp
      exact (List.getElem?_eq_some_iff.1 this).1
    exact by_sub S _ _ (hi.trans_le h.size)
  · refine List.map_congr_left fun l hl => ?_
    obtain ⟨k, ln⟩ := l
    cases ln with
    | coupling f s c₁ c₂ =>
      have hw := hc.lines _ hl
      simp only [Function.comp, Line.drift, Option.getD_some, flipLine]
      rw [map_smul, by_tw S (tw_int' S f c₁ c₂ hw.1 hw.2), fac_fac, smul_smul]
      congr 1
      split <;> push_cast <;> ring
    | drive f conn => simp [Line.drift, flipLine]
    | couplingDrive f c₁ c₂ => simp [Line.drift, flipLine]

theorem h0_flip (S : Finset ℕ) (c c' : Chip dims) (hc : c.WF) (h : Flipped S c c') : c'.h0 = conjS S c.h0 := by
  unfold Chip.h0
  rw [show conjS S (dress c.tr (c.sys.drift (ann dims))) = _ from dress_conj _ _ (Selection.par_conj S) _ _, h.basis,
    show (conjBy (par dims S) (Selection.par_sq S)) (c.sys.drift (ann dims)) = _ from by_drift S c c' hc h]
  congr 2
  funext A
  exact signed_eq S A

/-- The drive line with a name is the same in both chips. -/
theorem lineOf_flip (S : Finset ℕ) (ls : List (String × Line)) (k : String) :
    lineOf (ls.map fun l => (l.1, flipLine S l.2)) k = lineOf ls k := by
  induction ls with
  | nil => rfl
  | cons l ls ih =>
    obtain ⟨k', ln⟩ := l
    rw [List.map_cons]
    unfold lineOf
    cases ln with
    | coupling f s c₁ c₂ => exact ih
    | drive f conn =>
      show (if k = k' then _ else _) = if k = k' then _ else _
      rw [ih]
      rfl
    | couplingDrive f c₁ c₂ =>
      show (if k = k' then _ else _) = if k = k' then _ else _
      rw [ih]
      rfl

theorem lineSign_drive (S : Finset ℕ) (f : DriveFun) (conn : List ℕ) :
    lineSign S (.drive f conn) = if transverse f = true ∧ ∃ i ∈ conn, i ∈ S then -1 else 1 := rfl

theorem lineSign_coupling (S : Finset ℕ) (f : IntFun) (c₁ c₂ : ℕ) :
    lineSign S (.couplingDrive f c₁ c₂) = if c₁ ∈ S ↔ c₂ ∈ S then 1 else -1 := rfl

theorem tw_control (S : Finset ℕ) (ln : Line) (hw : ln.WF dims.length)
    (hs : ∀ f conn, ln = .drive f conn → transverse f = true → (∀ i ∈ conn, i ∈ S) ∨ ∀ i ∈ conn, i ∉ S)
    (C : Op dims) (h : ln.control (ann dims) = some C) : Tw S ((lineSign S ln : ℝ) : ℂ) C := by
  cases ln with
  | coupling f s c₁ c₂ => cases h
  | couplingDrive f c₁ c₂ =>
    obtain rfl := Option.some.inj h
    have := tw_int' S f c₁ c₂ hw.1 hw.2
    rw [fac_fac] at this
    rw [lineSign_coupling]
    split at this <;> rename_i e
    · rw [if_pos e]; simpa using this
    · rw [if_neg e]; simpa using this
  | drive f conn =>
    obtain rfl := Option.some.inj h
    refine Tw.sum ?_
    intro A hA
    obtain ⟨i, hi, rfl⟩ := List.mem_map.1 hA
    have hi' := hw i hi
    have key : transverse f = true → ((lineSign S (.drive f conn) : ℝ) : ℂ) = fac S i := by
      intro ht
      rw [lineSign_drive, fac]
      rcases hs f conn rfl ht with h1 | h1
      · rw [if_pos ⟨ht, i, hi, h1 i hi⟩, if_pos (h1 i hi)]
        push_cast
        rfl
      · rw [if_neg (fun h => by obtain ⟨-, j, hj, hj'⟩ := h; exact h1 j hj hj'), if_neg (h1 i hi)]
        push_cast
        rfl
    have key' : transverse f = false → ((lineSign S (.drive f conn) : ℝ) : ℂ) = 1 := by
      intro ht
      rw [lineSign_drive, ht]
      simp
    cases f with
    | x => rw [key rfl]; exact (Selection.tw_conj S i hi').add (Selection.tw_ann S i hi')
    | y => rw [key rfl]; exact ((Selection.tw_conj S i hi').sub (Selection.tw_ann S i hi')).smul _
    | z => rw [key' rfl]; exact Selection.tw_number S i hi'
    | res => rw [key' rfl]; exact Selection.tw_number S i hi'
    | duff => rw [key' rfl]; exact Selection.tw_duffing S i hi'
    | third => rw [key rfl]; exact Selection.tw_third S i hi'

theorem lineSign_sq (S : Finset ℕ) (ln : Line) : lineSign S ln * lineSign S ln = 1 := by
  cases ln with
  | coupling => simp [lineSign]
  | drive f conn => rw [lineSign_drive]; split <;> norm_num
  | couplingDrive f c₁ c₂ => rw [lineSign_coupling]; split <;> norm_num

/-- The sign of a channel. -/
def chanSign (S : Finset ℕ) (c : Chip dims) (k : String) : ℝ := (lineOf c.sys.lines k).elim 1 (lineSign S)

theorem chanSign_sq (S : Finset ℕ) (c : Chip dims) (k : String) : chanSign S c k * chanSign S c k = 1 := by
  unfold chanSign
  cases lineOf c.sys.lines k with
  | none => simp
  | some ln => exact lineSign_sq S ln

/-- The control Hamiltonians of both chips. -/
theorem hks_flip (S : Finset ℕ) (c c' : Chip dims) (hc : c.WF) (h : Flipped S c c') (p : Pulse) :
    c'.hks (flipPulse S c p) =
      (c.hks p).map fun hks => (p.chans.zip hks).map fun x => (chanSign S c x.1 : ℂ) • conjS S x.2 := by
  unfold Chip.hks flipPulse
  show p.chans.mapM _ = _
  have one : ∀ k, ((c'.sys.controls (ann dims)).lookup k).map (dress c'.tr) =
      (((c.sys.controls (ann dims)).lookup k).map (dress c.tr)).map fun H => (chanSign S c k : ℂ) • conjS S H := by
    intro k
    rw [lookup_lineOf, lookup_lineOf, h.lines, lineOf_flip]
    unfold chanSign
    cases hl : lineOf c.sys.lines k with
    | none => rfl
    | some ln =>
      rw [Option.bind_some]
      cases hC : ln.control (ann dims) with
      | none => rfl
      | some C =>
        simp only [Option.map_some, Option.elim]
        congr 1
        have hm := lineOf_mem _ _ _ hl
        have ht := by_tw S (tw_control S ln (hc.lines _ hm) (fun f conn e => h.sided _ hm f conn e) C hC)
        rw [show conjS S (dress c.tr C) = _ from dress_conj _ _ (Selection.par_conj S) _ _]
        rw [show conjBy (par dims S) (Selection.par_sq S) C = _ from ht]
        have hb : c'.tr = c.tr.map (conjBy (par dims S) (Selection.par_sq S)) := by
          rw [h.basis]
          congr 1
          funext A
          exact signed_eq S A
        rw [← hb]
        have hsm : dress c'.tr (((lineSign S ln : ℝ) : ℂ) • C) = ((lineSign S ln : ℝ) : ℂ) • dress c'.tr C := by
          cases c'.tr with
          | none => rfl
          | some t => simp only [dress, Matrix.mul_smul, Matrix.smul_mul]
        rw [hsm, smul_smul, ← Complex.ofReal_mul, lineSign_sq, Complex.ofReal_one, one_smul]
  generalize p.chans = ks
  induction ks with
  | nil => rfl
  | cons k ks ih =>
    rw [List.mapM_cons, List.mapM_cons, one, ih]
    cases ((c.sys.controls (ann dims)).lookup k).map (dress c.tr) with
    | none => rfl
    | some H =>
      cases ks.mapM fun k => ((c.sys.controls (ann dims)).lookup k).map (dress c.tr) with
      | none => rfl
      | some Hs => rfl

theorem hks_length (c : Chip dims) (p : Pulse) (hks : List (Op dims)) (h : c.hks p = some hks) :
    p.chans.length = hks.length :=
  ((Listing.mapM_some _ _ _).1 h).length_eq

theorem ham_flip (S : Finset ℕ) (c : Chip dims) (h0 : Op dims) (ks : List String) (hks : List (Op dims))
    (hl : ks.length = hks.length) (v : List ℝ) :
    hamAt (conjS S h0) ((flipRow S c ks v).zip ((ks.zip hks).map fun x => (chanSign S c x.1 : ℂ) • conjS S x.2)) =
      conjS S (hamAt h0 (v.zip hks)) := by
  rw [hamAt_eq_sum, hamAt_eq_sum, map_add]
  congr 1
  unfold flipRow
  induction ks generalizing hks v with
  | nil => cases hks <;> simp_all
  | cons k ks ih =>
    cases hks with
    | nil => simp at hl
    | cons H Hs =>
      cases v with
      | nil => simp
      | cons x v =>
        simp only [List.zip_cons_cons, List.map_cons, List.sum_cons, map_add, map_smul]
        rw [ih Hs (by simpa using hl) v]
        congr 1
        have : (lineOf c.sys.lines k).elim 1 (lineSign S) = chanSign S c k := rfl
        rw [this, smul_smul, ← Complex.ofReal_mul, mul_right_comm, chanSign_sq, one_mul]

theorem pwc_flip (S : Finset ℕ) (c c' : Chip dims) (hc : c.WF) (h : Flipped S c c') (p : Pulse) (hks : List (Op dims))
    (hl : p.chans.length = hks.length) (st : List Bool) :
    pwc c'.h0 ((p.chans.zip hks).map fun x => (chanSign S c x.1 : ℂ) • conjS S x.2) p.dt (flipPulse S c p).values c'.batch st =
      (pwc c.h0 hks p.dt p.values c.batch st).map (conjS S) := by
  have hv : ∀ (h0 : Op dims) hks dt, propVectorized h0 hks dt = List.map (dUOfT h0 hks dt) := by
    intro h0 hks dt
    funext cs
    exact propVectorized_eq h0 hks dt cs
  unfold pwc
  rw [h.batch, hv, hv, Fold.C20_batch_independent _ _ _ hc.batch, Fold.C20_batch_independent _ _ _ hc.batch]
  refine Eq.trans ?_ (matmulN_map (conjS S).toRingHom.toMonoidHom st (p.values.map (dUOfT c.h0 hks p.dt)))
  congr 1
  show ((p.values.map _).map _) = _
  rw [List.map_map, List.map_map]
  refine List.map_congr_left fun v _ => ?_
  show dUOfT _ _ _ (flipRow S c p.chans v) = conjS S (dUOfT _ _ _ v)
  unfold dUOfT
  rw [h0_flip S c c' hc h, ham_flip S c c.h0 p.chans hks hl v, ← map_smul, ← map_smul]
  exact (conjBy_exp _ _ _).symm

theorem pwcLind_flip (S : Finset ℕ) (c c' : Chip dims) (hc : c.WF) (h : Flipped S c c') (p : Pulse) (hks : List (Op dims))
    (hl : p.chans.length = hks.length) (st : List Bool) :
    pwcLind c'.h0 ((p.chans.zip hks).map fun x => (chanSign S c x.1 : ℂ) • conjS S x.2) c'.cols p.dt (flipPulse S c p).values
        c'.batch st =
      (pwcLind c.h0 hks c.cols p.dt p.values c.batch st).map (conjS2 S) := by
  have hv : ∀ (h0 : Op dims) hks cols dt, propLind h0 hks cols dt = List.map (dUOfTLind h0 hks cols dt) := by
    intro h0 hks cols dt
    funext cs
    exact propLind_eq h0 hks cols dt cs
  unfold pwcLind
  rw [h.batch, hv, hv, Fold.C20_batch_independent _ _ _ hc.batch, Fold.C20_batch_independent _ _ _ hc.batch]
  refine Eq.trans ?_ (matmulN_map (conjS2 S).toRingHom.toMonoidHom st (p.values.map (dUOfTLind c.h0 hks c.cols p.dt)))
  congr 1
  show ((p.values.map _).map _) = _
  rw [List.map_map, List.map_map]
  refine List.map_congr_left fun v _ => ?_
  show dUOfTLind _ _ _ _ (flipRow S c p.chans v) = conjS2 S (dUOfTLind _ _ _ _ v)
  unfold dUOfTLind
  rw [h0_flip S c c' hc h, ham_flip S c c.h0 p.chans hks hl v, ← lindOpVec_eq, ← lindOpVec_eq]
  have hd : List.Forall₂ (fun L L' => L' = conjS S L ∨ L' = -conjS S L) c.cols c'.cols := by
    refine h.decay.imp fun L L' e => ?_
    rwa [signed_eq] at e
  rw [show lindOpVec (conjS S (hamAt c.h0 (v.zip hks))) c'.cols = conjS2 S (lindOpVec (hamAt c.h0 (v.zip hks)) c.cols) from
    conjBy_lind _ _ (Selection.par_conj S) (par_trans S) _ _ _ hd, ← map_smul]
  exact (conjBy_exp _ _ _).symm

theorem by_diagonal (S : Finset ℕ) (d : Fin dims.prod → ℂ) : conjS S (diagonal d) = diagonal d := by
  show par dims S * diagonal d * par dims S = _
  unfold par
  rw [diagonal_mul_diagonal, diagonal_mul_diagonal]
  congr 1
  funext i
  rw [mul_right_comm, Selection.sgn_mul, one_mul]

theorem frame_flip (S : Finset ℕ) (c c' : Chip dims) (hc : c.WF) (h : Flipped S c c') (p : Pulse) :
    c'.frame (flipPulse S c p) = (c.frame p).map (conjS S) := by
  have e : c'.frame (flipPulse S c p) = c.frame p := by
    unfold Chip.frame flipPulse
    rw [h.target]
  rw [e]
  cases hF : c.frame p with
  | none => rfl
  | some F =>
    obtain ⟨d, rfl⟩ := frame_diagonal c hc p F hF
    rw [Option.map_some, by_diagonal]

theorem lookup_flip (S : Finset ℕ) (c : Chip dims) (ps : List (String × Pulse)) (g : String) :
    (flipPulses S c ps).lookup g = (ps.lookup g).map (flipPulse S c) := by
  unfold flipPulses
  induction ps with
  | nil => rfl
  | cons a ps ih =>
    rw [List.map_cons, List.lookup_cons, List.lookup_cons]
    cases g == a.1 with
    | true => rfl
    | false => exact ih

/-! ## Theorems -/

/-- C256 (closed systems): for the chip and the pulses with other signs `compute_propagators` finds the same up to signs of
the states, exceptions included. -/
theorem C256_closed (S : Finset ℕ) (c c' : Chip dims) (hc : c.WF) (h : Flipped S c c') (ps : List (String × Pulse)) :
    closed c' (flipPulses S c ps) = worldMap (signed S) (closed c ps) := by
  have hs : (signed S : Op dims → Op dims) = conjS S := funext (signed_eq S)
  rw [hs]
  unfold closed worldMap
  congr 1
  · unfold flipPulses
    rw [List.map_map]
    rfl
  · funext g
    dsimp only
    rw [lookup_flip]
    cases ps.lookup g with
    | none => rfl
    | some p => simp [flipPulse]
  · exact h.frame
  · funext m g st
    dsimp only
    rw [lookup_flip]
    cases ps.lookup g with
    | none => rfl
    | some p =>
      simp only [Option.map_some]
      rw [hks_flip S c c' hc h]
      cases hk : c.hks p with
      | none => rfl
      | some hks =>
        simp only [Option.map_some]
        have e : (flipPulse S c p).dt = p.dt := rfl
        rw [e, pwc_flip S c c' hc h p hks (hks_length c p hks hk)]
        cases pwc c.h0 hks p.dt p.values c.batch st <;> rfl
  · funext m g
    dsimp only
    rw [lookup_flip]
    cases ps.lookup g with
    | none => rfl
    | some p =>
      simp only [Option.map_some, Option.bind_some]
      rw [frame_flip S c c' hc h]
      cases c.frame p <;> rfl

/-- C256 (open systems). -/
theorem C256_opened (S : Finset ℕ) (c c' : Chip dims) (hc : c.WF) (h : Flipped S c c') (ps : List (String × Pulse)) :
    opened c' (flipPulses S c ps) = worldMap (conjS2 S) (opened c ps) := by
  unfold opened worldMap
  congr 1
  · unfold flipPulses
    rw [List.map_map]
    rfl
  · funext g
    dsimp only
    rw [lookup_flip]
    cases ps.lookup g with
    | none => rfl
    | some p => simp [flipPulse]
  · exact h.frame
  · funext m g st
    dsimp only
    rw [lookup_flip]
    cases ps.lookup g with
    | none => rfl
    | some p =>
      simp only [Option.map_some]
      rw [hks_flip S c c' hc h]
      cases hk : c.hks p with
      | none => rfl
      | some hks =>
        simp only [Option.map_some]
        have e : (flipPulse S c p).dt = p.dt := rfl
        rw [e, pwcLind_flip S c c' hc h p hks (hks_length c p hks hk)]
        cases pwcLind c.h0 hks c.cols p.dt p.values c.batch st <;> rfl
  · funext m g
    dsimp only
    rw [lookup_flip]
    cases ps.lookup g with
    | none => rfl
    | some p =>
      simp only [Option.map_some, Option.bind_some]
      rw [frame_flip S c c' hc h]
      cases c.frame p with
      | none => rfl
      | some F =>
        simp only [Option.map_some, Except.map]
        rw [show conjS2 S (tfSuper F) = tfSuper (conjS S F) from
          conjBy_super _ _ (Selection.par_conj S) (par_trans S) F]

theorem runSeq_conj {n : Type*} [Fintype n] [DecidableEq n] (P : Matrix n n ℂ) (h : P * P = 1)
    (props : String → Option (Matrix n n ℂ)) (q : List String) (psi : n → ℂ) :
    runSeq (fun g => (props g).map (conjBy P h)) q (P *ᵥ psi) = (runSeq props q psi).map fun v => P *ᵥ v := by
  induction q generalizing psi with
  | nil => rfl
  | cons g q ih =>
    unfold runSeq
    cases props g with
    | none => rfl
    | some U =>
      simp only [Option.map_some]
      rw [← ih]
      congr 1
      show (P * U * P) *ᵥ (P *ᵥ psi) = _
      rw [mulVec_mulVec, mulVec_mulVec, Matrix.mul_assoc, h, Matrix.mul_one]

/-- What an event of a history needs: both chips, the pulses, the selection and the flag. -/
structure Call (dims : List ℕ) where
  chip : Chip dims
  chip' : Chip dims
  pulses : List (String × Pulse)
  sel : Option (List Gate)
  overwrite : Bool

/-- The two chips of a call differ in signs. -/
structure Call.Ok (S : Finset ℕ) (k : Call dims) : Prop where
  wf : k.chip.WF
  flipped : Flipped S k.chip k.chip'

/-- C256 (closed systems): after every history the populations of all sequences are the same with the other signs, for
initial states that differ in the signs of their amplitudes. -/
theorem C256_populations (S : Finset ℕ) (s : Exp (Op dims)) (ks : List (Call dims)) (hk : ∀ k ∈ ks, k.Ok S)
    (seqs : List (List String)) (psi psi' : Fin dims.prod → ℂ) (hpsi : ∀ i, psi' i = (-1) ^ loadAt dims S i * psi i) :
    evaluateClosed (runEvents (expMap (signed S) s)
        (ks.map fun k => ⟨closed k.chip' (flipPulses S k.chip k.pulses), k.sel, k.overwrite⟩)).propagators seqs psi' =
      evaluateClosed (runEvents s (ks.map fun k => ⟨closed k.chip k.pulses, k.sel, k.overwrite⟩)).propagators seqs psi := by
  have hs : (signed S : Op dims → Op dims) = conjS S := funext (signed_eq S)
  have h1 : (ks.map fun k => (⟨closed k.chip' (flipPulses S k.chip k.pulses), k.sel, k.overwrite⟩ : Event (Op dims))) =
      (ks.map fun k => ⟨closed k.chip k.pulses, k.sel, k.overwrite⟩).map (eventMap (conjS S)) := by
    rw [List.map_map]
    refine List.map_congr_left fun k h => ?_
    simp only [Function.comp, eventMap]
    rw [C256_closed S k.chip k.chip' (hk k h).wf (hk k h).flipped, hs]
  have h2 := runEvents_map (conjS S).toRingHom.toMonoidHom s
    (ks.map fun k => ⟨closed k.chip k.pulses, k.sel, k.overwrite⟩)
  have h3 : runEvents (expMap (signed S) s)
      (ks.map fun k => ⟨closed k.chip' (flipPulses S k.chip k.pulses), k.sel, k.overwrite⟩) =
      expMap (conjS S) (runEvents s (ks.map fun k => ⟨closed k.chip k.pulses, k.sel, k.overwrite⟩)) := by
    rw [h1, hs]
    exact h2
  have hpsi' : psi' = par dims S *ᵥ psi := by
    funext i
    rw [hpsi, par, mulVec_diagonal]
    rfl
  rw [h3, hpsi']
  unfold evaluateClosed
  congr 1
  funext q
  have h4 := runSeq_conj (par dims S) (Selection.par_sq S)
    (runEvents s (ks.map fun k => ⟨closed k.chip k.pulses, k.sel, k.overwrite⟩)).propagators q psi
  refine (congrArg (Option.map popsClosed) h4).trans ?_
  cases runSeq (runEvents s (ks.map fun k => ⟨closed k.chip k.pulses, k.sel, k.overwrite⟩)).propagators q psi with
  | none => rfl
  | some v =>
    simp only [Option.map_some]
    congr 1
    funext i
    unfold popsClosed
    rw [par, mulVec_diagonal, norm_mul, sgn, norm_pow, norm_neg, norm_one, one_pow, one_mul]

/-- C256 (open systems). -/
theorem C256_populations_open (S : Finset ℕ) (s : Exp (SOp dims)) (hp : ∀ g, s.propagators g = none) (ks : List (Call dims))
    (hk : ∀ k ∈ ks, k.Ok S) (seqs : List (List String)) (rho : Op dims) :
    evaluateOpen (runEvents s
        (ks.map fun k => ⟨opened k.chip' (flipPulses S k.chip k.pulses), k.sel, k.overwrite⟩)).propagators seqs
        (dmToVec (signed S rho)) =
      evaluateOpen (runEvents s (ks.map fun k => ⟨opened k.chip k.pulses, k.sel, k.overwrite⟩)).propagators seqs
        (dmToVec rho) := by
  have h1 : (ks.map fun k => (⟨opened k.chip' (flipPulses S k.chip k.pulses), k.sel, k.overwrite⟩ : Event (SOp dims))) =
      (ks.map fun k => ⟨opened k.chip k.pulses, k.sel, k.overwrite⟩).map (eventMap (conjS2 S)) := by
    rw [List.map_map]
    refine List.map_congr_left fun k h => ?_
    simp only [Function.comp, eventMap]
    rw [C256_opened S k.chip k.chip' (hk k h).wf (hk k h).flipped]
  have h2 := runEvents_map (conjS2 S).toRingHom.toMonoidHom s
    (ks.map fun k => ⟨opened k.chip k.pulses, k.sel, k.overwrite⟩)
  have hs : expMap (conjS2 S) s = s := by
    unfold expMap
    have : (fun g => (s.propagators g).map (conjS2 S)) = s.propagators := by
      funext g
      rw [hp]
      rfl
    rw [this]
  have h3 : runEvents s (ks.map fun k => ⟨opened k.chip' (flipPulses S k.chip k.pulses), k.sel, k.overwrite⟩) =
      expMap (conjS2 S) (runEvents s (ks.map fun k => ⟨opened k.chip k.pulses, k.sel, k.overwrite⟩)) := by
    rw [h1]
    have h2' : runEvents (expMap (conjS2 S) s) _ = _ := h2
    rw [hs] at h2'
    exact h2'
  have hrho : dmToVec (signed S rho) = kroneckerMap (· * ·) (par dims S) (par dims S) *ᵥ dmToVec rho := by
    funext ⟨i, j⟩
    have e : kroneckerMap (· * ·) (par dims S) (par dims S) =
        diagonal fun x : Fin dims.prod × Fin dims.prod => sgn dims S x.1 * sgn dims S x.2 := by
      unfold par
      exact diagonal_kronecker_diagonal _ _
    rw [e, mulVec_diagonal]
    show (-1) ^ (loadAt dims S j + loadAt dims S i) * rho j i = _ * rho j i
    unfold sgn
    rw [pow_add]
    ring
  rw [h3, hrho]
  unfold evaluateOpen
  congr 1
  funext q
  have h4 := runSeq_conj _ (kron_sq (par dims S) (Selection.par_sq S))
    (runEvents s (ks.map fun k => ⟨opened k.chip k.pulses, k.sel, k.overwrite⟩)).propagators q (dmToVec rho)
  refine (congrArg (Option.map popsOpen) h4).trans ?_
  cases runSeq (runEvents s (ks.map fun k => ⟨opened k.chip k.pulses, k.sel, k.overwrite⟩)).propagators q (dmToVec rho) with
  | none => rfl
  | some v =>
    simp only [Option.map_some]
    congr 1
    have e : kroneckerMap (· * ·) (par dims S) (par dims S) =
        diagonal fun x : Fin dims.prod × Fin dims.prod => sgn dims S x.1 * sgn dims S x.2 := by
      unfold par
      exact diagonal_kronecker_diagonal _ _
    have hv : ∀ i, (kroneckerMap (· * ·) (par dims S) (par dims S) *ᵥ v) (i, i) = v (i, i) := by
      intro i
      rw [e, mulVec_diagonal, Selection.sgn_mul, one_mul]
    funext i
    have hv' : vecToDm (kroneckerMap (· * ·) (par dims S) (par dims S) *ᵥ v) i i = vecToDm v i i := hv i
    unfold popsOpen
    rw [hv']

theorem runSeq_smul {n : Type*} [Fintype n] [DecidableEq n] (props : String → Option (Matrix n n ℂ)) (q : List String)
    (a : ℂ) (psi : n → ℂ) : runSeq props q (a • psi) = (runSeq props q psi).map fun v => a • v := by
  induction q generalizing psi with
  | nil => rfl
  | cons g q ih =>
    unfold runSeq
    cases props g with
    | none => rfl
    | some U =>
      simp only
      rw [mulVec_smul, ih]

/-- C256 (basis states): started in a basis state, the populations are the same. -/
theorem C256_basis (S : Finset ℕ) (s : Exp (Op dims)) (hp : ∀ g, s.propagators g = none) (ks : List (Call dims))
    (hk : ∀ k ∈ ks, k.Ok S) (seqs : List (List String)) (i : Fin dims.prod) :
    evaluateClosed (runEvents s
        (ks.map fun k => ⟨closed k.chip' (flipPulses S k.chip k.pulses), k.sel, k.overwrite⟩)).propagators seqs
        (Pi.single i 1) =
      evaluateClosed (runEvents s (ks.map fun k => ⟨closed k.chip k.pulses, k.sel, k.overwrite⟩)).propagators seqs
        (Pi.single i 1) := by
  have hs : expMap (signed S) s = s := by
    unfold expMap
    have : (fun g => (s.propagators g).map (signed S)) = s.propagators := by
      funext g
      rw [hp]
      rfl
    rw [this]
  have h := C256_populations S s ks hk seqs ((-1 : ℂ) ^ loadAt dims S i • Pi.single i 1) (Pi.single i 1) (by
    intro j
    by_cases hj : j = i
    · subst hj
      rw [Pi.smul_apply, smul_eq_mul, Pi.single_eq_same, mul_one, ← pow_add, ← two_mul, pow_mul]
      simp
    · simp [Pi.single_eq_of_ne hj])
  rw [hs] at h
  rw [h]
  unfold evaluateClosed
  congr 1
  funext q
  rw [runSeq_smul, Option.map_map]
  congr 1
  funext v j
  show ‖(-1 : ℂ) ^ loadAt dims S i * v j‖ ^ 2 = ‖v j‖ ^ 2
  rw [norm_mul, norm_pow, norm_neg, norm_one, one_pow, one_mul]

/-- C256 (open systems): for a mixture of basis states. -/
theorem C256_mixture (S : Finset ℕ) (s : Exp (SOp dims)) (hp : ∀ g, s.propagators g = none) (ks : List (Call dims))
    (hk : ∀ k ∈ ks, k.Ok S) (seqs : List (List String)) (d : Fin dims.prod → ℂ) :
    evaluateOpen (runEvents s
        (ks.map fun k => ⟨opened k.chip' (flipPulses S k.chip k.pulses), k.sel, k.overwrite⟩)).propagators seqs
        (dmToVec (diagonal d)) =
      evaluateOpen (runEvents s (ks.map fun k => ⟨opened k.chip k.pulses, k.sel, k.overwrite⟩)).propagators seqs
        (dmToVec (diagonal d)) := by
  have h := C256_populations_open S s hp ks hk seqs (diagonal d)
  rwa [signed_eq, by_diagonal] at h

/-- C256 (the same chip): without couplings between the group and the rest and without cubic terms in the group the chip
is its own partner, so that the signs of the transverse drives of the group do not matter. The collapse operators of
relaxation and dephasing are allowed. -/
theorem C256_self (S : Finset ℕ) (c : Chip dims) (hn : c.sys.subs.length ≤ dims.length)
    (hs : ∀ p ∈ c.sys.subs.zipIdx, p.2 ∈ S → ∀ d w a b, p.1.2 ≠ .snail d w a b)
    (hl : ∀ p ∈ c.sys.lines, ∀ f s c₁ c₂, p.2 = .coupling f s c₁ c₂ → (c₁ ∈ S ↔ c₂ ∈ S)) (h1 : OneSided S c)
    (ht : c.tr = none)
    (hL : ∀ L ∈ c.cols, ∃ (r : ℂ) (i : ℕ), i < dims.length ∧
      (L = r • ann dims i ∨ L = r • (ann dims i)ᴴ ∨ L = r • ((ann dims i)ᴴ * ann dims i))) :
    Flipped S c c := by
  refine ⟨hn, ?_, ?_, h1, by rw [ht]; rfl, ?_, rfl, rfl, rfl⟩
  · have : (c.sys.subs.zipIdx.map fun p => (p.1.1, flipSub S p.2 p.1.2)) = c.sys.subs.zipIdx.map Prod.fst := by
      refine List.map_congr_left fun p hp => ?_
      obtain ⟨⟨k, s⟩, i⟩ := p
      simp only [Prod.mk.injEq, true_and]
      cases s with
      | snail d w a b =>
        have : i ∉ S := fun hi => hs _ hp hi d w a b rfl
        simp [flipSub, this]
      | qubit => rfl
      | res => rfl
      | transmon => rfl
    rw [this, List.zipIdx_map_fst]
  · conv_lhs => rw [← List.map_id c.sys.lines]
    refine List.map_congr_left fun p hp => ?_
    obtain ⟨k, ln⟩ := p
    cases ln with
    | coupling f s c₁ c₂ => simp [flipLine, hl _ hp f s c₁ c₂ rfl]
    | drive => rfl
    | couplingDrive => rfl
  · rw [List.forall₂_same]
    intro L hL'
    have sign : ∀ i, ∀ A : Op dims, Tw S (fac S i) A → A = signed S A ∨ A = -signed S A := by
      intro i A hA
      rw [signed_eq, by_tw S hA]
      unfold fac
      split
      · right
        simp
      · left
        simp
    obtain ⟨r, i, hi, rfl | rfl | rfl⟩ := hL L hL'
    · exact sign i _ ((Selection.tw_ann S i hi).smul r)
    · exact sign i _ ((Selection.tw_conj S i hi).smul r)
    · left
      rw [signed_eq, by_tw S ((Selection.tw_number S i hi).smul r), one_smul]

/-! ## Example: two coupled qubits, one of them driven -/

def exPlus : Chip [2, 3] :=
  ⟨⟨[("a", .qubit 2 5 0), ("b", .snail 3 6 1 1)], [("c", .coupling .xx 1 0 1), ("d", .drive .x [1])]⟩, none, [ann [2, 3] 1],
    fun _ => some 1, true, 1⟩

def exMinus : Chip [2, 3] :=
  ⟨⟨[("a", .qubit 2 5 0), ("b", .snail 3 6 1 (-1))], [("c", .coupling .xx (-1) 0 1), ("d", .drive .x [1])]⟩, none,
    [ann [2, 3] 1], fun _ => some 1, true, 1⟩

theorem exFlipped : Flipped {1} exPlus exMinus := by
  refine ⟨by simp [exPlus], ?_, ?_, ?_, rfl, ?_, rfl, rfl, rfl⟩
  · simp [exPlus, exMinus, flipSub]
  · simp [exPlus, exMinus, flipLine]
  · intro l hl f conn e ht
    simp only [exPlus, List.mem_cons, List.not_mem_nil, or_false] at hl
    rcases hl with rfl | rfl
    · cases e
    · simp only [Line.drive.injEq] at e
      left
      rw [← e.2]
      simp
  · refine .cons (.inr ?_) .nil
    rw [signed_eq, by_tw {1} (Selection.tw_ann {1} 1 (by simp))]
    simp [fac]

example (i : Fin ([2, 3] : List ℕ).prod) :
    evaluateClosed (runEvents ⟨none, .name "pwc", none, none, true, fun _ => none⟩ [⟨closed exMinus
        [("g", ⟨["d"], [[-1], [-2]], 1, [("d", 5)], fun _ => some 0, 2⟩)], none, true⟩]).propagators [["g", "g"]]
        (Pi.single i 1) =
      evaluateClosed (runEvents ⟨none, .name "pwc", none, none, true, fun _ => none⟩ [⟨closed exPlus
        [("g", ⟨["d"], [[1], [2]], 1, [("d", 5)], fun _ => some 0, 2⟩)], none, true⟩]).propagators [["g", "g"]]
        (Pi.single i 1) := by
  have hw : exPlus.WF := by
    refine ⟨?_, ?_, le_rfl⟩
    · intro l hl
      simp only [exPlus, List.mem_cons, List.not_mem_nil, or_false] at hl
      rcases hl with rfl | rfl
      · simp [Line.WF]
      · simp [Line.WF]
    · intro l q h
      simp only [exPlus, Option.some.injEq] at h
      subst h
      simp
  have h := C256_basis {1} ⟨none, .name "pwc", none, none, true, fun _ => none⟩ (fun _ => rfl)
    [⟨exPlus, exMinus, [("g", ⟨["d"], [[1], [2]], 1, [("d", 5)], fun _ => some 0, 2⟩)], none, true⟩]
    (fun k hk => by rw [List.mem_singleton.1 hk]; exact ⟨hw, exFlipped⟩) [["g", "g"]] i
  simpa [flipPulses, flipPulse, flipRow, exPlus, lineOf, lineSign, transverse] using h

end C3.Experiment.Signs
