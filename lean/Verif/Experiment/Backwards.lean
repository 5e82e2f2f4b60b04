import Verif.Experiment.Listing
import Verif.Experiment.Separate

/-!
# C255: reciprocity

The whole chain of C199 for a pulse and the same pulse played backwards. The Hamiltonians of the library are real in the
product basis (except `y_drive`, which is imaginary), so the propagator of the reversed samples is the transpose: a closed
chip driven forwards goes from one state to another with the same probability as it goes back when driven backwards.
-/

set_option linter.unusedSectionVars false

noncomputable section

namespace C3.Experiment.Backwards

open Matrix NormedSpace C3.Propagation C3.Hilbert C3.Experiment C3.Experiment.Compute C3.Experiment.EndToEnd
open C3.Experiment.Selection (frame_diagonal)
open C3.Experiment.Separate (lineOf lineOf_mem lookup_lineOf)

variable {dims : List ℕ}

/-! ## Specification -/

/-- The dressed basis, if used, has real coefficients. -/
structure RealChip (c : Chip dims) : Prop where
  size : c.sys.subs.length ≤ dims.length
  basis : ∀ t, c.tr = some t → ∀ i j, (t i j).im = 0

/-- The sign a sample of a line gets when time runs backwards. -/
def turn : Line → ℝ
  | .drive .y _ => -1
  | _ => 1

/-- One sample of all channels when time runs backwards. -/
def turned (c : Chip dims) (chans : List String) (v : List ℝ) : List ℝ :=
  (chans.zip v).map fun x => ((lineOf c.sys.lines x.1).elim 1 turn) * x.2

/-- The pulse played backwards. -/
def backwards (c : Chip dims) (p : Pulse) : Pulse := { p with values := (p.values.map (turned c p.chans)).reverse }

/-- All pulses played backwards. -/
def allBackwards (c : Chip dims) (ps : List (String × Pulse)) : List (String × Pulse) :=
  ps.map fun x => (x.1, backwards c x.2)

/-- All gates have the same frame rotation, or none is used. -/
def OneFrame (c : Chip dims) (ps : List (String × Pulse)) : Prop :=
  c.useFR = false ∨ ∀ g p g' p', ps.lookup g = some p → ps.lookup g' = some p' → c.frame p = c.frame p'

/-! ## Real operators -/

/-- Complex conjugation of the entries gives a factor. -/
def Cj (e : ℝ) (A : Op dims) : Prop := A.map (starRingEnd ℂ) = (e : ℂ) • A

theorem Cj.mul {e f : ℝ} {A B : Op dims} (h : Cj e A) (h' : Cj f B) : Cj (e * f) (A * B) := by
  unfold Cj at *
  rw [Matrix.map_mul, h, h', Matrix.smul_mul, Matrix.mul_smul, smul_smul, Complex.ofReal_mul]

theorem Cj.add {e : ℝ} {A B : Op dims} (h : Cj e A) (h' : Cj e B) : Cj e (A + B) := by
  unfold Cj at *
  rw [Matrix.map_add _ (map_add _), h, h', smul_add]

theorem Cj.smul {e : ℝ} {A : Op dims} (r : ℝ) (h : Cj e A) : Cj e ((r : ℂ) • A) := by
  unfold Cj at *
  ext i j
  have := congrFun (congrFun h i) j
  simp only [Matrix.map_apply, Matrix.smul_apply, smul_eq_mul, map_mul, Complex.conj_ofReal] at this ⊢
  rw [this]
  ring

theorem Cj.neg {e : ℝ} {A : Op dims} (h : Cj e A) : Cj e (-A) := by
  have := h.smul (-1)
  rwa [Complex.ofReal_neg, Complex.ofReal_one, neg_one_smul] at this

theorem Cj.sub {e : ℝ} {A B : Op dims} (h : Cj e A) (h' : Cj e B) : Cj e (A - B) := by
  rw [sub_eq_add_neg]
  exact h.add h'.neg

theorem Cj.I {A : Op dims} (h : Cj 1 A) : Cj (-1) (Complex.I • A) := by
  unfold Cj at *
  ext i j
  have := congrFun (congrFun h i) j
  simp only [Matrix.map_apply, Matrix.smul_apply, smul_eq_mul, map_mul, Complex.conj_I, Complex.ofReal_one, one_mul] at this ⊢
  rw [this]
  push_cast
  ring

theorem Cj.one : Cj 1 (1 : Op dims) := by
  unfold Cj
  rw [Matrix.map_one _ (map_zero _) (map_one _), Complex.ofReal_one, one_smul]

theorem Cj.zero (e : ℝ) : Cj e (0 : Op dims) := by
  unfold Cj
  rw [Matrix.map_zero _ (map_zero _), smul_zero]

theorem Cj.sum {e : ℝ} {L : List (Op dims)} (h : ∀ A ∈ L, Cj e A) : Cj e L.sum := by
  induction L with
  | nil => exact Cj.zero e
  | cons A L ih =>
    rw [List.sum_cons]
    exact (h A List.mem_cons_self).add (ih fun B hB => h B (List.mem_cons_of_mem _ hB))

theorem Cj.conj {A : Op dims} (h : Cj 1 A) : Cj 1 Aᴴ := by
  unfold Cj at *
  ext i j
  have := congrFun (congrFun h j) i
  simp only [Matrix.map_apply, Matrix.smul_apply, smul_eq_mul, Complex.ofReal_one, one_mul, conjTranspose_apply] at this ⊢
  rw [← this]
  simp [this]

/-- A Hermitian operator with real entries is symmetric, one with imaginary entries antisymmetric. -/
theorem Cj.symm {e : ℝ} {A : Op dims} (h : Cj e A) (hA : A.IsHermitian) : Aᵀ = (e : ℂ) • A := by
  unfold Cj at h
  rw [← h]
  ext i j
  have := congrFun (congrFun hA j) i
  rw [conjTranspose_apply] at this
  rw [transpose_apply, Matrix.map_apply, ← this]
  rfl

theorem cj_ann (i : ℕ) (h : i < dims.length) : Cj 1 (ann dims i) := by
  unfold Cj
  ext ⟨p, hp⟩ ⟨q, hq⟩
  obtain ⟨l, hl, rfl⟩ := exists_flat dims p hp
  obtain ⟨m, hm, rfl⟩ := exists_flat dims q hq
  rw [Matrix.map_apply, Matrix.smul_apply, C33_annihilator dims i h l m hl hm]
  split <;> simp

theorem cj_number (i : ℕ) (h : i < dims.length) : Cj 1 ((ann dims i)ᴴ * ann dims i) := by
  have := (cj_ann i h).conj.mul (cj_ann i h)
  rwa [mul_one] at this

theorem cj_duffing (i : ℕ) (h : i < dims.length) : Cj 1 (duffing (ann dims i)) := by
  have := (((cj_number i h).sub Cj.one).mul (cj_number i h)).smul (1 / 2)
  rw [mul_one] at this
  unfold duffing
  push_cast at this
  exact this

theorem cj_third (i : ℕ) (h : i < dims.length) : Cj 1 (thirdOrder (ann dims i)) := by
  have h1 := (cj_number i h).mul (cj_ann i h)
  have h2 := (cj_ann i h).conj.mul (cj_number i h)
  rw [one_mul] at h1 h2
  exact h1.add h2

theorem cj_int (f : IntFun) (i j : ℕ) (hi : i < dims.length) (hj : j < dims.length) :
    Cj 1 (f.ham (ann dims i) (ann dims j)) := by
  cases f with
  | xx =>
    have := ((cj_ann i hi).conj.add (cj_ann i hi)).mul ((cj_ann j hj).conj.add (cj_ann j hj))
    rwa [mul_one] at this
  | yy =>
    have := (((cj_ann i hi).conj.sub (cj_ann i hi)).mul ((cj_ann j hj).conj.sub (cj_ann j hj))).neg
    rwa [mul_one] at this

theorem cj_sub (s : Sub) (i : ℕ) (hi : i < dims.length) : Cj 1 (s.ham none (ann dims i)) := by
  cases s with
  | qubit d w a =>
    simp only [Sub.ham, dress]
    split
    · exact ((cj_number i hi).smul _).add ((cj_duffing i hi).smul _)
    · exact (cj_number i hi).smul _
  | res w => exact (cj_number i hi).smul _
  | transmon d w a phi phi0 dd =>
    simp only [Sub.ham, dress]
    split
    · exact ((cj_number i hi).smul _).add ((cj_duffing i hi).smul _)
    · exact (cj_number i hi).smul _
  | snail d w a b =>
    simp only [Sub.ham, dress]
    split
    · exact (((cj_number i hi).smul _).add ((cj_third i hi).smul _)).add ((cj_duffing i hi).smul _)
    · exact ((cj_number i hi).smul _).add ((cj_third i hi).smul _)

theorem cj_dress (c : Chip dims) (hr : RealChip c) {e : ℝ} (A : Op dims) (hA : Cj e A) : Cj e (dress c.tr A) := by
  unfold dress
  cases ht : c.tr with
  | none => exact hA
  | some t =>
    have h1 : Cj 1 t := by
      unfold Cj
      ext i j
      rw [Matrix.map_apply, Complex.ofReal_one, one_smul]
      exact Complex.conj_eq_iff_im.2 (hr.basis t ht i j)
    have := (h1.conj.mul hA).mul h1
    rwa [one_mul, mul_one] at this

theorem cj_h0 (c : Chip dims) (hc : c.WF) (hr : RealChip c) : Cj 1 c.h0 := by
  refine cj_dress c hr _ (Cj.sum ?_)
  intro A hA
  obtain ⟨⟨k, A'⟩, hm, rfl⟩ := List.mem_map.1 hA
  unfold Sys.hams at hm
  rcases List.mem_append.1 hm with hm | hm
  · obtain ⟨p, hp, he⟩ := List.mem_map.1 hm
    obtain ⟨rfl, rfl⟩ := Prod.mk.inj he
    have hi : p.2 < c.sys.subs.length := by
      have := List.mem_zipIdx_iff_getElem?.1 hp
      exact (List.getElem?_eq_some_iff.1 this).1
    exact cj_sub _ _ (hi.trans_le hr.size)
  · obtain ⟨l, hl, he⟩ := List.mem_filterMap.1 hm
    obtain ⟨k', ln⟩ := l
    cases ln with
    | coupling f s c₁ c₂ =>
      simp only [Line.drift, Option.map_some, Option.some.injEq, Prod.mk.injEq, dress] at he
      obtain ⟨-, rfl⟩ := he
      have hw := hc.lines _ hl
      exact (cj_int f c₁ c₂ hw.1 hw.2).smul _
    | drive f conn => simp [Line.drift] at he
    | couplingDrive f c₁ c₂ => simp [Line.drift] at he

theorem cj_control (ln : Line) (hw : ln.WF dims.length) (C : Op dims) (h : ln.control (ann dims) = some C) :
    Cj (turn ln) C := by
  cases ln with
  | coupling f s c₁ c₂ => cases h
  | couplingDrive f c₁ c₂ =>
    obtain rfl := Option.some.inj h
    exact cj_int f c₁ c₂ hw.1 hw.2
  | drive f conn =>
    obtain rfl := Option.some.inj h
    refine Cj.sum ?_
    intro A hA
    obtain ⟨i, hi, rfl⟩ := List.mem_map.1 hA
    have hi := hw i hi
    cases f with
    | x => exact (cj_ann i hi).conj.add (cj_ann i hi)
    | y => exact ((cj_ann i hi).conj.sub (cj_ann i hi)).I
    | z => exact cj_number i hi
    | res => exact cj_number i hi
    | duff => exact cj_duffing i hi
    | third => exact cj_third i hi

/-- The control Hamiltonians are symmetric or antisymmetric. -/
theorem hks_turn (c : Chip dims) (hc : c.WF) (hr : RealChip c) (p : Pulse) (hks : List (Op dims))
    (h : c.hks p = some hks) :
    List.Forall₂ (fun k H => Hᵀ = (((lineOf c.sys.lines k).elim 1 turn : ℝ) : ℂ) • H) p.chans hks := by
  have hh := hks_herm c hc p hks h
  unfold Chip.hks at h
  have h2 := (Listing.mapM_some _ _ _).1 h
  generalize p.chans = ks at h2
  clear h
  induction h2 with
  | nil => exact .nil
  | @cons k H ks Hs hk _ ih =>
    refine .cons ?_ (ih fun H hH => hh H (List.mem_cons_of_mem _ hH))
    rw [Option.map_eq_some_iff] at hk
    obtain ⟨C, hC, rfl⟩ := hk
    rw [lookup_lineOf] at hC
    obtain ⟨ln, hln, hC⟩ := Option.bind_eq_some_iff.1 hC
    rw [hln]
    exact (cj_dress c hr C (cj_control ln (hc.lines _ (lineOf_mem _ _ _ hln)) C hC)).symm (hh _ List.mem_cons_self)

/-- C255: the Hamiltonian of a sample is transposed when the samples of `y_drive` lines change sign. -/
theorem C255_sample (c : Chip dims) (hc : c.WF) (hr : RealChip c) (p : Pulse) (hks : List (Op dims))
    (h : c.hks p = some hks) (v : List ℝ) :
    hamAt c.h0 ((turned c p.chans v).zip hks) = (hamAt c.h0 (v.zip hks))ᵀ := by
  have h2 := hks_turn c hc hr p hks h
  have h0 : c.h0ᵀ = c.h0 := by
    rw [(cj_h0 c hc hr).symm (h0_herm c hc), Complex.ofReal_one, one_smul]
  rw [hamAt_eq_sum, hamAt_eq_sum, transpose_add, h0]
  congr 1
  unfold turned
  generalize p.chans = ks at h2
  clear h
  induction h2 generalizing v with
  | nil => simp
  | @cons k H ks Hs hk _ ih =>
    cases v with
    | nil => simp
    | cons x v =>
      simp only [List.zip_cons_cons, List.map_cons, List.sum_cons, transpose_add, transpose_smul]
      rw [ih v, hk, smul_smul, mul_comm, Complex.ofReal_mul]

theorem dU_turn (c : Chip dims) (hc : c.WF) (hr : RealChip c) (p : Pulse) (hks : List (Op dims))
    (h : c.hks p = some hks) (v : List ℝ) :
    dUOfT c.h0 hks p.dt (turned c p.chans v) = (dUOfT c.h0 hks p.dt v)ᵀ := by
  unfold dUOfT
  rw [C255_sample c hc hr p hks h, ← exp_transpose, transpose_smul, transpose_smul]

theorem pwc_back (c : Chip dims) (hc : c.WF) (hr : RealChip c) (p : Pulse) (hks : List (Op dims))
    (h : c.hks p = some hks) (U : Op dims)
    (hU : pwc c.h0 hks p.dt p.values c.batch (Fold.stackFor p.values.length) = some U) :
    pwc c.h0 hks p.dt (backwards c p).values c.batch (Fold.stackFor (backwards c p).values.length) = some Uᵀ := by
  by_cases hv : p.values = []
  · rw [hv, List.length_nil, pwc_empty c.h0 hks p.dt c.batch hc.batch] at hU
    cases hU
  · rw [pwc_eq c.h0 hks p.dt p.values hv c.batch hc.batch] at hU
    obtain rfl := Option.some.inj hU
    rw [pwc_eq c.h0 hks p.dt _ (by simpa [backwards] using hv) c.batch hc.batch]
    congr 1
    simp only [backwards, Fold.timeOrdered, List.map_reverse, List.reverse_reverse, List.map_map]
    rw [transpose_list_prod, List.map_reverse, List.reverse_reverse, List.map_map]
    congr 1
    exact List.map_congr_left fun v _ => dU_turn c hc hr p hks h v

theorem lookup_back (c : Chip dims) (ps : List (String × Pulse)) (g : String) :
    (allBackwards c ps).lookup g = (ps.lookup g).map (backwards c) := by
  unfold allBackwards
  induction ps with
  | nil => rfl
  | cons a ps ih =>
    rw [List.map_cons, List.lookup_cons, List.lookup_cons]
    cases g == a.1 with
    | true => rfl
    | false => exact ih

/-- What is stored for a gate: the frame rotation, if used, times the product of the slices. -/
theorem gate_back (c : Chip dims) (hc : c.WF) (hr : RealChip c) (ps : List (String × Pulse)) (g : String) (V : Op dims)
    (h : physical (closed c ps) (.name "pwc") g = .ok V) :
    ∃ p U F, ps.lookup g = some p ∧ (c.useFR = true → c.frame p = some F) ∧ (c.useFR = false → F = 1) ∧
      (∃ d, F = diagonal d) ∧ Fᴴ * F = 1 ∧ V = F * U ∧
      physical (closed c (allBackwards c ps)) (.name "pwc") g = .ok (F * Uᵀ) := by
  obtain ⟨p, hks, U, hp, hk, hU, hF⟩ := physical_closed c ps g V h
  have hU' := pwc_back c hc hr p hks hk U hU
  have hk' : c.hks (backwards c p) = some hks := hk
  have hp' : (allBackwards c ps).lookup g = some (backwards c p) := by rw [lookup_back, hp]; rfl
  rcases hF with ⟨hf, F, hF, rfl⟩ | ⟨hf, rfl⟩
  · refine ⟨p, U, F, hp, fun _ => hF, fun h => (by rw [hf] at h; cases h), frame_diagonal c hc p F hF,
      frame_unitary c hc p F hF, rfl, ?_⟩
    have hF' : c.frame (backwards c p) = some F := hF
    have e : (backwards c p).dt = p.dt := rfl
    unfold physical closed
    simp only [hp', Option.map_some, hk', e, hU', hf]
    simp [hF']
  · refine ⟨p, V, 1, hp, fun h => (by rw [hf] at h; cases h), fun _ => rfl, ⟨fun _ => 1, diagonal_one.symm⟩, by simp,
      by simp, ?_⟩
    have e : (backwards c p).dt = p.dt := rfl
    unfold physical closed
    simp only [hp', Option.map_some, hk', e, hU', hf]
    simp

/-! ## Theorems -/

/-- C255 (gates): if a gate can be computed, so can the gate with its samples in reverse order and the signs of `y_drive`
samples changed. It goes from every state to every other with the probability of the way back of the first; without
frame rotation its propagator is the transpose. -/
theorem C255_gate (c : Chip dims) (hc : c.WF) (hr : RealChip c) (ps : List (String × Pulse)) (g : String) (V : Op dims)
    (h : physical (closed c ps) (.name "pwc") g = .ok V) :
    ∃ V', physical (closed c (allBackwards c ps)) (.name "pwc") g = .ok V' ∧ (∀ i j, ‖V' i j‖ = ‖V j i‖) ∧
      (c.useFR = false → V' = Vᵀ) := by
  obtain ⟨p, U, F, -, -, h1, ⟨d, rfl⟩, hF, rfl, hV⟩ := gate_back c hc hr ps g V h
  refine ⟨_, hV, ?_, ?_⟩
  · intro i j
    have hd : ∀ i, ‖d i‖ = 1 := by
      intro i
      rw [diagonal_conjTranspose, diagonal_mul_diagonal] at hF
      have := congrFun (congrFun hF i) i
      rw [diagonal_apply_eq, one_apply_eq] at this
      have h2 := congrArg norm this
      rw [norm_mul, Pi.star_apply, norm_star, norm_one] at h2
      nlinarith [norm_nonneg (d i)]
    rw [diagonal_mul, diagonal_mul, norm_mul, norm_mul, hd, hd, transpose_apply]
  · intro hf
    rw [h1 hf, Matrix.one_mul, Matrix.one_mul]

/-- C255 (symmetric pulses): a gate whose samples read the same in both directions goes from every state to every other
with the same probability as back. -/
theorem C255_symmetric (c : Chip dims) (hc : c.WF) (hr : RealChip c) (ps : List (String × Pulse)) (g : String)
    (hs : ∀ p, ps.lookup g = some p → (p.values.map (turned c p.chans)).reverse = p.values) (V : Op dims)
    (h : physical (closed c ps) (.name "pwc") g = .ok V) (i j : Fin dims.prod) : ‖V i j‖ = ‖V j i‖ := by
  obtain ⟨V', h1, h2, -⟩ := C255_gate c hc hr ps g V h
  have : physical (closed c (allBackwards c ps)) (.name "pwc") g = physical (closed c ps) (.name "pwc") g := by
    have hl : (allBackwards c ps).lookup g = ps.lookup g := by
      rw [lookup_back]
      cases hp : ps.lookup g with
      | none => rfl
      | some p =>
        rw [Option.map_some]
        congr 1
        unfold backwards
        rw [hs p hp]
    unfold physical closed
    simp only [hl]
  rw [this, h] at h1
  rw [← Except.ok.inj h1] at h2
  exact h2 i j

/-- Propagators that are transposes up to a common frame give transposed sequences. -/
theorem seq_back (F : Op dims) (hF : F * Fᴴ = 1) (hF' : Fᴴ * F = 1) (val val' : String → Op dims) (q : List String)
    (h : ∀ g ∈ q, val' g = F * (val g)ᵀ * Fᴴ) :
    Fold.seqProp val' q.reverse = F * (Fold.seqProp val q)ᵀ * Fᴴ := by
  unfold Fold.seqProp Fold.timeOrdered
  rw [List.map_reverse, List.reverse_reverse]
  induction q with
  | nil => simp [hF]
  | cons g q ih =>
    rw [List.map_cons, List.prod_cons, ih fun g hg => h g (List.mem_cons_of_mem _ hg), h g List.mem_cons_self,
      List.map_cons, List.reverse_cons, List.prod_append, List.prod_singleton, transpose_mul]
    simp only [Matrix.mul_assoc]
    rw [← Matrix.mul_assoc Fᴴ F, hF', Matrix.one_mul]

/-- C255: the population of a state `j` after a sequence of gates that starts in a state `i` is the population of `i` after
the sequence in reverse order with all pulses played backwards that starts in `j`, if all gates have the same frame
rotation or none. Nothing is approximated. -/
theorem C255_populations (c : Chip dims) (hc : c.WF) (hr : RealChip c) (ps : List (String × Pulse)) (hf : OneFrame c ps)
    (s s' : Exp (Op dims)) (hm : s.propMethod = none) (hp : ∀ g, s.propagators g = none) (hm' : s'.propMethod = none)
    (hp' : ∀ g, s'.propagators g = none) (es es' : List (Event (Op dims))) (he : ∀ e ∈ es, e.w = closed c ps)
    (he' : ∀ e ∈ es', e.w = closed c (allBackwards c ps)) (seqs : List (List String))
    (ha : Available (runEvents s es).propagators seqs) (ha' : Available (runEvents s' es').propagators seqs)
    (i j : Fin dims.prod) :
    ∃ P P', evaluateClosed (runEvents s es).propagators seqs (Pi.single i 1) = some P ∧
      evaluateClosed (runEvents s' es').propagators (seqs.map List.reverse) (Pi.single j 1) = some P' ∧
      P.map (fun p => p j) = P'.map (fun p => p i) ∧ P.length = seqs.length := by
  have get : ∀ g U, (runEvents s es).propagators g = some U → physical (closed c ps) (.name "pwc") g = .ok U := by
    intro g U h
    obtain ⟨pre, e, post, rfl, -, -, h1, -⟩ :=
      (C68_history s hm hp es (fun e h => by rw [he e h]; exact closed_wf _ _) g U).1 h
    rwa [he e (by simp)] at h1
  have get' : ∀ g U, (runEvents s' es').propagators g = some U →
      physical (closed c (allBackwards c ps)) (.name "pwc") g = .ok U := by
    intro g U h
    obtain ⟨pre, e, post, rfl, -, -, h1, -⟩ :=
      (C68_history s' hm' hp' es' (fun e h => by rw [he' e h]; exact closed_wf _ _) g U).1 h
    rwa [he' e (by simp)] at h1
  have unit : ∀ i : Fin dims.prod, ∑ k, ‖(Pi.single i 1 : Fin dims.prod → ℂ) k‖ ^ 2 = 1 := by
    intro i
    rw [Finset.sum_eq_single i]
    · simp
    · intro b _ hb
      simp [Pi.single_eq_of_ne hb]
    · simp
  have h1 := (C65_closed (runEvents s es).propagators seqs (Pi.single i 1) (fun q hq g hg => by
    obtain ⟨U, hU⟩ := ha q hq g hg
    exact ⟨U, hU, C199_unitary c hc ps g U (get g U hU)⟩) (unit i)).1
  have h2 := (C65_closed (runEvents s' es').propagators (seqs.map List.reverse) (Pi.single j 1) (fun q hq g hg => by
    obtain ⟨q, hq', rfl⟩ := List.mem_map.1 hq
    obtain ⟨U, hU⟩ := ha' q hq' g (List.mem_reverse.1 hg)
    exact ⟨U, hU, C199_unitary c hc _ g U (get' g U hU)⟩) (unit j)).1
  refine ⟨_, _, h1, h2, ?_, by simp⟩
  -- the common frame
  have hF : ∃ d : Fin dims.prod → ℂ, (∀ i, ‖d i‖ = 1) ∧ ∀ q ∈ seqs, ∀ g ∈ q,
      ((runEvents s' es').propagators g).getD 1 =
        diagonal d * (((runEvents s es).propagators g).getD 1)ᵀ * (diagonal d)ᴴ := by
    have norm1 : ∀ d : Fin dims.prod → ℂ, (diagonal d)ᴴ * diagonal d = 1 → ∀ i, ‖d i‖ = 1 := by
      intro d hF i
      rw [diagonal_conjTranspose, diagonal_mul_diagonal] at hF
      have := congrFun (congrFun hF i) i
      rw [diagonal_apply_eq, one_apply_eq] at this
      have h2 := congrArg norm this
      rw [norm_mul, Pi.star_apply, norm_star, norm_one] at h2
      nlinarith [norm_nonneg (d i)]
    have one : ∀ g ∈ seqs.flatten, ∃ (p : Pulse) (U : Op dims) (d : Fin dims.prod → ℂ), ps.lookup g = some p ∧
        (c.useFR = true → c.frame p = some (diagonal d)) ∧
        (c.useFR = false → diagonal d = (1 : Op dims)) ∧ (∀ i, ‖d i‖ = 1) ∧
        ((runEvents s es).propagators g).getD 1 = diagonal d * U ∧
        ((runEvents s' es').propagators g).getD 1 = diagonal d * Uᵀ := by
      intro g hg
      obtain ⟨q, hq, hg⟩ := List.mem_flatten.1 hg
      obtain ⟨V, hV⟩ := ha q hq g hg
      obtain ⟨V', hV'⟩ := ha' q hq g hg
      obtain ⟨p, U, F, a1, a2, a3, ⟨d, rfl⟩, a5, a6, a7⟩ := gate_back c hc hr ps g V (get g V hV)
      rw [get' g V' hV'] at a7
      exact ⟨p, U, d, a1, a2, a3, norm1 d a5, by rw [hV]; exact a6, by rw [hV']; exact Except.ok.inj a7⟩
    have hconj : ∀ d : Fin dims.prod → ℂ, (∀ i, ‖d i‖ = 1) → diagonal d * (diagonal d)ᴴ = 1 := by
      intro d hd
      rw [diagonal_conjTranspose, diagonal_mul_diagonal, ← diagonal_one]
      congr 1
      funext i
      rw [Pi.star_apply, Complex.star_def, Complex.mul_conj, Complex.normSq_eq_norm_sq, hd]
      simp
    cases hall : seqs.flatten with
    | nil =>
      refine ⟨fun _ => 1, fun _ => by simp, fun q hq g hg => ?_⟩
      have : g ∈ seqs.flatten := List.mem_flatten.2 ⟨q, hq, hg⟩
      rw [hall] at this
      cases this
    | cons g0 rest =>
      obtain ⟨p0, U0, d, b1, b2, b3, b4, -, -⟩ := one g0 (by rw [hall]; exact List.mem_cons_self)
      refine ⟨d, b4, fun q hq g hg => ?_⟩
      obtain ⟨p, U, d', c1, c2, c3, c4, c5, c6⟩ := one g (List.mem_flatten.2 ⟨q, hq, hg⟩)
      have hd : diagonal d' = (diagonal d : Op dims) := by
        cases hu : c.useFR with
        | false => rw [b3 hu, c3 hu]
        | true =>
          rcases hf with hf | hf
          · rw [hu] at hf
            cases hf
          · have := hf g p g0 p0 c1 b1
            rw [c2 hu, b2 hu] at this
            exact Option.some.inj this
      rw [c6, c5, hd, transpose_mul, diagonal_transpose]
      simp only [Matrix.mul_assoc]
      rw [hconj d b4, Matrix.mul_one]
  obtain ⟨d, hd, hval⟩ := hF
  rw [List.map_map, List.map_map, List.map_map]
  refine List.map_congr_left fun q hq => ?_
  simp only [Function.comp]
  have hdd : diagonal d * (diagonal d)ᴴ = (1 : Op dims) := by
    rw [diagonal_conjTranspose, diagonal_mul_diagonal, ← diagonal_one]
    congr 1
    funext i
    rw [Pi.star_apply, Complex.star_def, Complex.mul_conj, Complex.normSq_eq_norm_sq, hd]
    simp
  rw [seq_back (diagonal d) hdd (mul_eq_one_comm.1 hdd) _ _ q fun g hg => hval q hq g hg]
  rw [mulVec_single_one, mulVec_single_one]
  rw [col_apply, col_apply, diagonal_conjTranspose, mul_diagonal, diagonal_mul, norm_mul, norm_mul, Pi.star_apply, norm_star, hd, hd,
    transpose_apply, one_mul, mul_one]

/-! ## Example -/

/-- A driven three-level element with two quadratures. -/
def exChip : Chip [3] :=
  ⟨⟨[("q", .qubit 3 5 (-1))], [("x", .drive .x [0]), ("y", .drive .y [0])]⟩, none, [], fun _ => some 0, true, 1⟩

def exPulse : Pulse := ⟨["x", "y"], [[1, 2], [3, 4]], 1, [("x", 5)], fun _ => some 0, 2⟩

theorem exChip_wf : exChip.WF := by
  refine ⟨?_, ?_, le_rfl⟩
  · intro l hl
    simp only [exChip, List.mem_cons, List.not_mem_nil, or_false] at hl
    rcases hl with rfl | rfl <;> intro i hi <;> simp at hi <;> simp [hi]
  · intro l q h
    simp only [exChip, Option.some.injEq] at h
    subst h
    simp

theorem exChip_real : RealChip exChip := ⟨by simp [exChip], fun t h => by cases h⟩

example : (backwards exChip exPulse).values = [[3, -4], [1, -2]] := by
  simp [backwards, exPulse, turned, exChip, lineOf, turn]

example : ∃ V V', physical (closed exChip [("g", exPulse)]) (.name "pwc") "g" = .ok V ∧
    physical (closed exChip (allBackwards exChip [("g", exPulse)])) (.name "pwc") "g" = .ok V' ∧
      ‖V' ⟨0, by simp⟩ ⟨2, by simp⟩‖ = ‖V ⟨2, by simp⟩ ⟨0, by simp⟩‖ := by
  obtain ⟨V, h⟩ := C199_computed exChip exChip_wf [("g", exPulse)] "g" exPulse rfl (by simp [exPulse])
    (by
      intro k hk
      simp only [exPulse, List.mem_cons, List.not_mem_nil, or_false] at hk
      rcases hk with rfl | rfl <;> exact ⟨_, rfl⟩)
    (fun l _ => ⟨⟨0, rfl⟩, 0, by simp, rfl⟩)
  obtain ⟨V', h1, h2, -⟩ := C255_gate exChip exChip_wf exChip_real [("g", exPulse)] "g" V h
  exact ⟨V, V', h, h1, h2 _ _⟩

end C3.Experiment.Backwards
