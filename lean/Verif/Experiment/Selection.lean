import Verif.Experiment.EndToEnd
import Verif.Propagation.Observables
import Verif.Hilbert.Decay

/-!
# C249: which excitations an experiment cannot change

The whole chain of C199, from the components of the chip to the populations of an experiment, for a group of
chip elements that only interact among themselves and are not driven: the number of their excitations changes in
pairs only. Nothing is approximated.
-/

set_option linter.unusedSectionVars false

noncomputable section

namespace C3.Experiment.Selection

open Matrix C3.Propagation C3.Hilbert C3.Experiment C3.Experiment.Compute C3.Experiment.EndToEnd

variable {dims : List ℕ}

/-! ## Specification -/

/-- The number of excitations of a group of chip elements in a labelled state. -/
def load (S : Finset ℕ) (l : List ℕ) : ℕ := ∑ q ∈ S, l.getD q 0

/-- The same for the state at a position. -/
def loadAt (dims : List ℕ) (S : Finset ℕ) (p : Fin dims.prod) : ℕ := ∑ q ∈ S, levelAt dims q p

/-- The chip does not exchange single excitations between the group and the rest: no element of the group has a
cubic term, couplings are inside or outside of the group, and so is the basis. -/
structure Closed (S : Finset ℕ) (c : Chip dims) : Prop where
  size : c.sys.subs.length ≤ dims.length
  subs : ∀ p ∈ c.sys.subs.zipIdx, p.2 ∈ S → ∀ d w a b, p.1.2 ≠ .snail d w a b
  couplings : ∀ p ∈ c.sys.lines, ∀ f s c₁ c₂, p.2 = .coupling f s c₁ c₂ → (c₁ ∈ S ↔ c₂ ∈ S)
  basis : ∀ t, c.tr = some t → ∀ i j, loadAt dims S i % 2 ≠ loadAt dims S j % 2 → t i j = 0

/-- A line does not create single excitations of the group. -/
def Silent (S : Finset ℕ) : Line → Prop
  | .coupling .. => True
  | .drive f conn => (f = .x ∨ f = .y ∨ f = .third) → ∀ i ∈ conn, i ∉ S
  | .couplingDrive _ c₁ c₂ => c₁ ∈ S ↔ c₂ ∈ S

/-- No line used by a gate does. -/
def Quiet (S : Finset ℕ) (c : Chip dims) (p : Pulse) : Prop :=
  ∀ k ∈ p.chans, ∀ ln, (k, ln) ∈ c.sys.lines → Silent S ln

/-- Events of an experiment with a closed system in which the group is left alone. -/
def Apart (S : Finset ℕ) (es : List (Event (Op dims))) : Prop :=
  ∀ e ∈ es, ∃ c : Chip dims, c.WF ∧ Closed S c ∧ ∃ ps, e.w = closed c ps ∧
    ∀ g p, ps.lookup g = some p → Quiet S c p

/-! ## The sign of a state -/

/-- `(-1)` to the number of excitations of the group. -/
def sgn (dims : List ℕ) (S : Finset ℕ) (p : Fin dims.prod) : ℂ := (-1) ^ loadAt dims S p

/-- The operator of the signs. -/
def par (dims : List ℕ) (S : Finset ℕ) : Op dims := diagonal (sgn dims S)

theorem loadAt_flat (S : Finset ℕ) {l : List ℕ} (h : Valid dims l) :
    loadAt dims S ⟨flat dims l, flat_lt h⟩ = load S l :=
  Finset.sum_congr rfl fun q _ => levelAt_flat h q

theorem sgn_mul (S : Finset ℕ) (p : Fin dims.prod) : sgn dims S p * sgn dims S p = 1 := by
  unfold sgn
  rw [← pow_add, ← two_mul, pow_mul]
  simp

theorem sgn_star (S : Finset ℕ) (p : Fin dims.prod) : star (sgn dims S p) = sgn dims S p := by
  unfold sgn
  simp

theorem par_sq (S : Finset ℕ) : par dims S * par dims S = 1 := by
  unfold par
  rw [diagonal_mul_diagonal, ← diagonal_one]
  congr 1
  funext p
  exact sgn_mul S p

theorem par_conj (S : Finset ℕ) : (par dims S)ᴴ = par dims S := by
  unfold par
  rw [diagonal_conjTranspose]
  congr 1
  funext p
  exact sgn_star S p

theorem sgn_eq_iff (S : Finset ℕ) (p q : Fin dims.prod) :
    sgn dims S p = sgn dims S q ↔ loadAt dims S p % 2 = loadAt dims S q % 2 := by
  unfold sgn
  rw [neg_one_pow_eq_pow_mod_two, neg_one_pow_eq_pow_mod_two (n := loadAt dims S q)]
  rcases Nat.mod_two_eq_zero_or_one (loadAt dims S p) with h | h <;>
    rcases Nat.mod_two_eq_zero_or_one (loadAt dims S q) with h' | h' <;> rw [h, h'] <;> norm_num

/-- Commuting with the signs means having no elements between states of different sign. -/
theorem commute_iff (S : Finset ℕ) (A : Op dims) :
    A * par dims S = par dims S * A ↔
      ∀ i j, loadAt dims S i % 2 ≠ loadAt dims S j % 2 → A i j = 0 := by
  constructor
  · intro h i j hij
    have := congrFun (congrFun h i) j
    unfold par at this
    rw [mul_diagonal, diagonal_mul, mul_comm] at this
    by_contra hA
    exact hij ((sgn_eq_iff S i j).1 (mul_right_cancel₀ hA this).symm)
  · intro h
    ext i j
    unfold par
    rw [mul_diagonal, diagonal_mul, mul_comm]
    by_cases hij : loadAt dims S i % 2 = loadAt dims S j % 2
    · rw [(sgn_eq_iff S i j).2 hij]
    · rw [h i j hij, mul_zero, mul_zero]

/-! ## Operators that change the sign -/

/-- Exchanging the operator with the signs costs a factor. -/
def Tw (S : Finset ℕ) (e : ℂ) (A : Op dims) : Prop := A * par dims S = e • (par dims S * A)

theorem Tw.mul {S : Finset ℕ} {e f : ℂ} {A B : Op dims} (h : Tw S e A) (h' : Tw S f B) : Tw S (e * f) (A * B) := by
  unfold Tw at *
  rw [Matrix.mul_assoc, h', Matrix.mul_smul, ← Matrix.mul_assoc, h, Matrix.smul_mul, smul_smul, Matrix.mul_assoc,
    mul_comm f e]

theorem Tw.add {S : Finset ℕ} {e : ℂ} {A B : Op dims} (h : Tw S e A) (h' : Tw S e B) : Tw S e (A + B) := by
  unfold Tw at *
  rw [Matrix.add_mul, h, h', Matrix.mul_add, smul_add]

theorem Tw.smul {S : Finset ℕ} {e : ℂ} {A : Op dims} (c : ℂ) (h : Tw S e A) : Tw S e (c • A) := by
  unfold Tw at *
  rw [Matrix.smul_mul, h, Matrix.mul_smul, smul_comm]

theorem Tw.neg {S : Finset ℕ} {e : ℂ} {A : Op dims} (h : Tw S e A) : Tw S e (-A) := by
  rw [← neg_one_smul ℂ A]
  exact h.smul _

theorem Tw.sub {S : Finset ℕ} {e : ℂ} {A B : Op dims} (h : Tw S e A) (h' : Tw S e B) : Tw S e (A - B) := by
  rw [sub_eq_add_neg]
  exact h.add h'.neg

theorem Tw.one (S : Finset ℕ) : Tw S 1 (1 : Op dims) := by
  unfold Tw
  rw [Matrix.one_mul, Matrix.mul_one, one_smul]

theorem Tw.zero (S : Finset ℕ) (e : ℂ) : Tw S e (0 : Op dims) := by
  unfold Tw
  rw [Matrix.zero_mul, Matrix.mul_zero, smul_zero]

theorem Tw.sum {S : Finset ℕ} {e : ℂ} {L : List (Op dims)} (h : ∀ A ∈ L, Tw S e A) : Tw S e L.sum := by
  induction L with
  | nil => exact Tw.zero S e
  | cons A L ih =>
    rw [List.sum_cons]
    exact (h A List.mem_cons_self).add (ih fun B hB => h B (List.mem_cons_of_mem _ hB))

theorem Tw.conj {S : Finset ℕ} {e : ℂ} {A : Op dims} (he : star e = e) (he' : e * e = 1) (h : Tw S e A) : Tw S e Aᴴ := by
  unfold Tw at *
  have := congrArg conjTranspose h
  rw [conjTranspose_mul, conjTranspose_smul, conjTranspose_mul, par_conj, he] at this
  rw [this, smul_smul, he', one_smul]

/-- The factor of the annihilator of an element. -/
def fac (S : Finset ℕ) (i : ℕ) : ℂ := if i ∈ S then -1 else 1

theorem fac_star (S : Finset ℕ) (i : ℕ) : star (fac S i) = fac S i := by
  unfold fac
  split <;> simp

theorem fac_sq (S : Finset ℕ) (i : ℕ) : fac S i * fac S i = 1 := by
  unfold fac
  split <;> simp

theorem ann_other (i : ℕ) (h : i < dims.length) (p q : Fin dims.prod) (hne : ann dims i p q ≠ 0) (j : ℕ) (hj : j ≠ i) :
    levelAt dims j q = levelAt dims j p := by
  obtain ⟨p, hp⟩ := p
  obtain ⟨q, hq⟩ := q
  obtain ⟨l, hl, rfl⟩ := exists_flat dims p hp
  obtain ⟨m, hm, rfl⟩ := exists_flat dims q hq
  rw [C33_annihilator dims i h l m hl hm] at hne
  rw [levelAt_flat hl, levelAt_flat hm]
  split at hne
  · next hc =>
    by_cases hjn : j < dims.length
    · exact (hc.1 j hjn hj).symm
    · rw [List.getD_eq_default _ _ (by rw [valid_length hm]; omega),
        List.getD_eq_default _ _ (by rw [valid_length hl]; omega)]
  · exact absurd rfl hne

theorem tw_ann (S : Finset ℕ) (i : ℕ) (h : i < dims.length) : Tw S (fac S i) (ann dims i) := by
  unfold Tw par
  ext p q
  rw [mul_diagonal, Matrix.smul_apply, diagonal_mul, smul_eq_mul]
  by_cases hne : ann dims i p q = 0
  · rw [hne]
    ring
  · have key : sgn dims S q = fac S i * sgn dims S p := by
      unfold sgn fac loadAt
      by_cases hi : i ∈ S
      · rw [if_pos hi, ← Finset.add_sum_erase S _ hi, ← Finset.add_sum_erase S (fun x => levelAt dims x p) hi,
          ann_shift dims i h p q hne,
          Finset.sum_congr rfl fun j hj => ann_other i h p q hne j (Finset.ne_of_mem_erase hj)]
        rw [add_right_comm, pow_succ, mul_comm]
      · rw [if_neg hi, one_mul, Finset.sum_congr rfl fun j hj => ann_other i h p q hne j fun hji => hi (hji ▸ hj)]
    rw [key]
    ring

theorem tw_conj (S : Finset ℕ) (i : ℕ) (h : i < dims.length) : Tw S (fac S i) (ann dims i)ᴴ :=
  (tw_ann S i h).conj (fac_star S i) (fac_sq S i)

theorem tw_number (S : Finset ℕ) (i : ℕ) (h : i < dims.length) : Tw S 1 ((ann dims i)ᴴ * ann dims i) := by
  rw [← fac_sq S i]
  exact (tw_conj S i h).mul (tw_ann S i h)

theorem tw_duffing (S : Finset ℕ) (i : ℕ) (h : i < dims.length) : Tw S 1 (duffing (ann dims i)) := by
  have := (((tw_number S i h).sub (Tw.one S)).mul (tw_number S i h)).smul (1 / 2)
  rwa [mul_one] at this

theorem tw_third (S : Finset ℕ) (i : ℕ) (h : i < dims.length) : Tw S (fac S i) (thirdOrder (ann dims i)) := by
  have h1 := (tw_number S i h).mul (tw_ann S i h)
  have h2 := (tw_conj S i h).mul (tw_number S i h)
  rw [one_mul] at h1
  rw [mul_one] at h2
  exact h1.add h2

theorem tw_int (S : Finset ℕ) (f : IntFun) (i j : ℕ) (hi : i < dims.length) (hj : j < dims.length) (h : i ∈ S ↔ j ∈ S) :
    Tw S 1 (f.ham (ann dims i) (ann dims j)) := by
  have e : fac S i * fac S j = 1 := by
    unfold fac
    by_cases hS : i ∈ S
    · rw [if_pos hS, if_pos (h.1 hS)]
      norm_num
    · rw [if_neg hS, if_neg fun hj => hS (h.2 hj)]
      norm_num
  rw [← e]
  cases f with
  | xx => exact ((tw_conj S i hi).add (tw_ann S i hi)).mul ((tw_conj S j hj).add (tw_ann S j hj))
  | yy => exact (((tw_conj S i hi).sub (tw_ann S i hi)).mul ((tw_conj S j hj).sub (tw_ann S j hj))).neg

theorem tw_drive (S : Finset ℕ) (f : DriveFun) (i : ℕ) (hi : i < dims.length)
    (h : (f = .x ∨ f = .y ∨ f = .third) → i ∉ S) : Tw S 1 (f.ham (ann dims i)) := by
  have e : i ∉ S → fac S i = 1 := fun h => if_neg h
  cases f with
  | x =>
    rw [← e (h (by simp))]
    exact (tw_conj S i hi).add (tw_ann S i hi)
  | y =>
    rw [← e (h (by simp))]
    exact ((tw_conj S i hi).sub (tw_ann S i hi)).smul _
  | z => exact tw_number S i hi
  | res => exact tw_number S i hi
  | duff => exact tw_duffing S i hi
  | third =>
    rw [← e (h (by simp))]
    exact tw_third S i hi

theorem tw_sub (S : Finset ℕ) (s : Sub) (i : ℕ) (hi : i < dims.length) (h : i ∈ S → ∀ d w a b, s ≠ .snail d w a b) :
    Tw S 1 (s.ham none (ann dims i)) := by
  cases s with
  | qubit d w a =>
    simp only [Sub.ham, dress]
    split
    · exact ((tw_number S i hi).smul _).add ((tw_duffing S i hi).smul _)
    · exact (tw_number S i hi).smul _
  | res w => exact (tw_number S i hi).smul _
  | transmon d w a phi phi0 dd =>
    simp only [Sub.ham, dress]
    split
    · exact ((tw_number S i hi).smul _).add ((tw_duffing S i hi).smul _)
    · exact (tw_number S i hi).smul _
  | snail d w a b =>
    have hS : i ∉ S := fun hi' => h hi' d w a b rfl
    have ht := tw_third S i hi
    unfold fac at ht
    rw [if_neg hS] at ht
    simp only [Sub.ham, dress]
    split
    · exact (((tw_number S i hi).smul _).add (ht.smul _)).add ((tw_duffing S i hi).smul _)
    · exact ((tw_number S i hi).smul _).add (ht.smul _)

theorem tw_dress (S : Finset ℕ) (c : Chip dims) (hS : Closed S c) (A : Op dims) (hA : Tw S 1 A) :
    Tw S 1 (dress c.tr A) := by
  unfold dress
  cases ht : c.tr with
  | none => exact hA
  | some t =>
    have h1 : Tw S 1 t := by
      unfold Tw
      rw [one_smul]
      exact (commute_iff S t).2 (hS.basis t ht)
    have := ((h1.conj (by simp) (by simp)).mul hA).mul h1
    rwa [mul_one, mul_one] at this

theorem tw_h0 (S : Finset ℕ) (c : Chip dims) (hc : c.WF) (hS : Closed S c) : Tw S 1 c.h0 := by
  refine tw_dress S c hS _ (Tw.sum ?_)
  intro A hA
  obtain ⟨⟨k, A'⟩, hm, rfl⟩ := List.mem_map.1 hA
  unfold Sys.hams at hm
  rcases List.mem_append.1 hm with hm | hm
  · obtain ⟨p, hp, he⟩ := List.mem_map.1 hm
    obtain ⟨rfl, rfl⟩ := Prod.mk.inj he
    have hi : p.2 < c.sys.subs.length := by
      have := List.mem_zipIdx_iff_getElem?.1 hp
      exact (List.getElem?_eq_some_iff.1 this).1
    exact tw_sub S _ _ (hi.trans_le hS.size) (hS.subs p hp)
  · obtain ⟨l, hl, he⟩ := List.mem_filterMap.1 hm
    obtain ⟨k', ln⟩ := l
    cases ln with
    | coupling f s c₁ c₂ =>
      simp only [Line.drift, Option.map_some, Option.some.injEq, Prod.mk.injEq, dress] at he
      obtain ⟨-, rfl⟩ := he
      have hw := hc.lines _ hl
      exact (tw_int S f c₁ c₂ hw.1 hw.2 (hS.couplings _ hl f s c₁ c₂ rfl)).smul _
    | drive f conn => simp [Line.drift] at he
    | couplingDrive f c₁ c₂ => simp [Line.drift] at he

theorem tw_hks (S : Finset ℕ) (c : Chip dims) (hc : c.WF) (hS : Closed S c) (p : Pulse) (hq : Quiet S c p)
    (hks : List (Op dims)) (h : c.hks p = some hks) : ∀ H ∈ hks, Tw S 1 H := by
  intro H hH
  obtain ⟨k, hk, he⟩ := mapM_mem _ _ _ h H hH
  rw [Option.map_eq_some_iff] at he
  obtain ⟨C, hC, rfl⟩ := he
  refine tw_dress S c hS _ ?_
  obtain ⟨l, hl, he⟩ := List.mem_filterMap.1 (lookup_mem _ _ _ hC)
  obtain ⟨k', ln⟩ := l
  cases ln with
  | coupling f s c₁ c₂ => simp [Line.control] at he
  | drive f conn =>
    simp only [Line.control, Option.map_some, Option.some.injEq, Prod.mk.injEq] at he
    obtain ⟨rfl, rfl⟩ := he
    have hw := hc.lines _ hl
    have hs := hq _ hk _ hl
    refine Tw.sum ?_
    intro A hA
    obtain ⟨i, hi, rfl⟩ := List.mem_map.1 hA
    exact tw_drive S f i (hw i hi) fun hf => hs hf i hi
  | couplingDrive f c₁ c₂ =>
    simp only [Line.control, Option.map_some, Option.some.injEq, Prod.mk.injEq] at he
    obtain ⟨rfl, rfl⟩ := he
    have hw := hc.lines _ hl
    exact tw_int S f c₁ c₂ hw.1 hw.2 (hq _ hk _ hl)

theorem frame_diagonal (c : Chip dims) (hc : c.WF) (p : Pulse) (F : Op dims) (h : c.frame p = some F) :
    ∃ d, F = diagonal d := by
  have hok : FramesOk dims c.target p.shifts p.freqs := by
    intro l hl
    constructor
    · by_contra hn
      have : p.shifts l.1 = none := by
        cases hs : p.shifts l.1 with
        | none => rfl
        | some x => exact absurd ⟨x, hs⟩ hn
      have := C37_unknown dims c.target p.shifts p.t p.freqs l hl (Or.inr this)
      unfold Chip.frame at h
      rw [this] at h
      simp at h
    · cases ht : c.target l.1 with
      | none =>
        have := C37_unknown dims c.target p.shifts p.t p.freqs l hl (Or.inl ht)
        unfold Chip.frame at h
        rw [this] at h
        simp at h
      | some q => exact ⟨q, hc.target _ _ ht, rfl⟩
  unfold Chip.frame at h
  rw [C37_diagonal dims c.target p.shifts p.t p.freqs hok] at h
  exact ⟨_, (Option.some.inj h).symm⟩

/-! ## Theorems -/

/-- C249: a gate that leaves the group alone has no amplitude between states in which the group has an even and an
odd number of excitations, whatever the samples of the pulse. -/
theorem C249_gate (S : Finset ℕ) (c : Chip dims) (hc : c.WF) (hS : Closed S c) (ps : List (String × Pulse)) (g : String)
    (hq : ∀ p, ps.lookup g = some p → Quiet S c p) (V : Op dims)
    (h : physical (closed c ps) (.name "pwc") g = .ok V) (l m : List ℕ) (hl : Valid dims l) (hm : Valid dims m)
    (hne : load S l % 2 ≠ load S m % 2) :
    V ⟨flat dims l, flat_lt hl⟩ ⟨flat dims m, flat_lt hm⟩ = 0 := by
  suffices hV : V * par dims S = par dims S * V from
    (commute_iff S V).1 hV _ _ (by rw [loadAt_flat S hl, loadAt_flat S hm]; exact hne)
  obtain ⟨p, hks, U, hp, hk, hU, hF⟩ := physical_closed c ps g V h
  have hU' : U * par dims S = par dims S * U := by
    by_cases hv : p.values = []
    · rw [hv] at hU
      rw [List.length_nil, pwc_empty c.h0 hks p.dt c.batch hc.batch] at hU
      simp at hU
    · have e1 : c.h0 * par dims S = par dims S * c.h0 := by
        have := tw_h0 S c hc hS
        unfold Tw at this
        rwa [one_smul] at this
      have e2 : ∀ H ∈ hks, H * par dims S = par dims S * H := by
        intro H hH
        have := tw_hks S c hc hS p (hq p hp) hks hk H hH
        unfold Tw at this
        rwa [one_smul] at this
      obtain ⟨U', h1, h2, -⟩ := C248_pwc c.h0 hks p.dt p.values hv c.batch hc.batch (h0_herm c hc)
        (hks_herm c hc p hks hk) (par dims S) e1 e2
      rw [h1] at hU
      rw [← Option.some.inj hU]
      exact h2
  rcases hF with ⟨-, F, hF, rfl⟩ | ⟨-, rfl⟩
  · obtain ⟨d, rfl⟩ := frame_diagonal c hc p F hF
    have : diagonal d * par dims S = par dims S * diagonal d := by
      unfold par
      rw [diagonal_mul_diagonal, diagonal_mul_diagonal]
      congr 1
      funext i
      exact mul_comm _ _
    rw [Matrix.mul_assoc, hU', ← Matrix.mul_assoc, this, Matrix.mul_assoc]
  · exact hU'

/-- The propagators of such an experiment commute with the signs. -/
theorem props_commute (S : Finset ℕ) (s : Exp (Op dims)) (hm : s.propMethod = none) (hp : ∀ g, s.propagators g = none)
    (es : List (Event (Op dims))) (he : Apart S es) (g : String) (U : Op dims)
    (h : (runEvents s es).propagators g = some U) : U * par dims S = par dims S * U ∧ Uᴴ * U = 1 := by
  have hw : ∀ e ∈ es, e.w.WF := fun e hm => by
    obtain ⟨c, _, _, ps, h, _⟩ := he e hm
    rw [h]
    exact closed_wf c ps
  obtain ⟨pre, e, post, rfl, -, -, h1, -⟩ := (C68_history s hm hp es hw g U).1 h
  obtain ⟨c, hc, hS, ps, h2, hq⟩ := he e (by simp)
  rw [h2] at h1
  refine ⟨(commute_iff S U).2 ?_, C199_unitary c hc ps g U h1⟩
  intro i j hij
  obtain ⟨i, hi⟩ := i
  obtain ⟨j, hj⟩ := j
  obtain ⟨l, hl, rfl⟩ := exists_flat dims i hi
  obtain ⟨m, hm, rfl⟩ := exists_flat dims j hj
  rw [loadAt_flat S hl, loadAt_flat S hm] at hij
  exact C249_gate S c hc hS ps g (fun p hp => hq g p hp) U h1 l m hl hm hij

theorem seq_commute (S : Finset ℕ) (val : String → Op dims) (q : List String)
    (h : ∀ g ∈ q, val g * par dims S = par dims S * val g) :
    C3.Fold.seqProp val q * par dims S = par dims S * C3.Fold.seqProp val q := by
  have : C3.Fold.seqProp val q ∈ Submonoid.centralizer {par dims S} := by
    apply timeOrdered_mem
    intro x hx
    obtain ⟨g, hg, rfl⟩ := List.mem_map.1 hx
    rw [Submonoid.mem_centralizer_iff]
    intro M hM
    rw [Set.mem_singleton_iff.1 hM]
    exact (h g hg).symm
  exact ((Submonoid.mem_centralizer_iff.1 this) _ rfl).symm

/-- The states with an even number of excitations of the group. -/
def evenStates (dims : List ℕ) (S : Finset ℕ) : Finset (Fin dims.prod) :=
  Finset.univ.filter fun i => loadAt dims S i % 2 = 0

/-- A unitary that commutes with the signs keeps the weight of the even states. -/
theorem weight_kept (S : Finset ℕ) (U : Op dims) (hU : Uᴴ * U = 1) (hc : U * par dims S = par dims S * U)
    (psi : Fin dims.prod → ℂ) :
    ∑ i ∈ evenStates dims S, ‖(U *ᵥ psi) i‖ ^ 2 = ∑ i ∈ evenStates dims S, ‖psi i‖ ^ 2 := by
  have hz := (commute_iff S U).1 hc
  let phi : Fin dims.prod → ℂ := fun i => if loadAt dims S i % 2 = 0 then psi i else 0
  have e1 : ∀ i, (U *ᵥ phi) i = if loadAt dims S i % 2 = 0 then (U *ᵥ psi) i else 0 := by
    intro i
    unfold mulVec dotProduct
    split
    · next hi =>
      refine Finset.sum_congr rfl fun j _ => ?_
      by_cases hj : loadAt dims S j % 2 = 0
      · simp [phi, hj]
      · show U i j * _ = U i j * _
        rw [hz i j (by rw [hi]; exact fun h => hj h.symm), zero_mul, zero_mul]
    · next hi =>
      refine Finset.sum_eq_zero fun j _ => ?_
      by_cases hj : loadAt dims S j % 2 = 0
      · show U i j * _ = 0
        rw [hz i j (by rw [hj]; exact hi), zero_mul]
      · simp [phi, hj]
  have e2 := C3.Fidelity.sum_norm_mulVec U hU phi
  have e3 : ∀ f : Fin dims.prod → ℂ, ∑ i, ‖if loadAt dims S i % 2 = 0 then f i else 0‖ ^ 2 =
      ∑ i ∈ evenStates dims S, ‖f i‖ ^ 2 := by
    intro f
    unfold evenStates
    rw [Finset.sum_filter]
    refine Finset.sum_congr rfl fun i _ => ?_
    split <;> simp
  rw [← e3, ← e3]
  simp only [e1] at e2
  exact e2

/-- C249: the probability of finding an even number of excitations in the group is the same after every sequence of
gates as in the initial state, for any history of the experiment. -/
theorem C249_parity (S : Finset ℕ) (s : Exp (Op dims)) (hm : s.propMethod = none) (hp : ∀ g, s.propagators g = none)
    (es : List (Event (Op dims))) (he : Apart S es) (seqs : List (List String))
    (ha : Available (runEvents s es).propagators seqs) (psi : Fin dims.prod → ℂ) (hpsi : ∑ i, ‖psi i‖ ^ 2 = 1) :
    ∃ ps, evaluateClosed (runEvents s es).propagators seqs psi = some ps ∧ ps.length = seqs.length ∧
      ∀ p ∈ ps, ∑ i ∈ evenStates dims S, p i = ∑ i ∈ evenStates dims S, ‖psi i‖ ^ 2 := by
  have hk := props_commute S s hm hp es he
  obtain ⟨h1, -⟩ := C65_closed (runEvents s es).propagators seqs psi
    (fun q hq g hg => by
      obtain ⟨U, hU⟩ := ha q hq g hg
      exact ⟨U, hU, (hk g U hU).2⟩) hpsi
  refine ⟨_, h1, by simp, ?_⟩
  intro p hp
  obtain ⟨q, hq, rfl⟩ := List.mem_map.1 hp
  have hv : ∀ g ∈ q, (((runEvents s es).propagators g).getD 1) * par dims S =
      par dims S * (((runEvents s es).propagators g).getD 1) ∧
      (((runEvents s es).propagators g).getD 1)ᴴ * (((runEvents s es).propagators g).getD 1) = 1 := by
    intro g hg
    obtain ⟨U, hU⟩ := ha q hq g hg
    rw [hU]
    exact hk g U hU
  exact weight_kept S _ (C3.Fidelity.seqProp_unitary _ q fun g hg => (hv g hg).2)
    (seq_commute S _ q fun g hg => (hv g hg).1) psi

/-- C249 (selection rule): started in a basis state, no sequence ever leads to a state in which the number of
excitations of the group differs by an odd number. -/
theorem C249_forbidden (S : Finset ℕ) (s : Exp (Op dims)) (hm : s.propMethod = none) (hp : ∀ g, s.propagators g = none)
    (es : List (Event (Op dims))) (he : Apart S es) (seqs : List (List String))
    (ha : Available (runEvents s es).propagators seqs) (l : List ℕ) (hl : Valid dims l) :
    ∃ ps, evaluateClosed (runEvents s es).propagators seqs (Pi.single ⟨flat dims l, flat_lt hl⟩ 1) = some ps ∧
      ps.length = seqs.length ∧
      ∀ p ∈ ps, ∀ m (hm : Valid dims m), load S m % 2 ≠ load S l % 2 → p ⟨flat dims m, flat_lt hm⟩ = 0 := by
  have hk := props_commute S s hm hp es he
  have hpsi : ∑ i, ‖(Pi.single ⟨flat dims l, flat_lt hl⟩ 1 : Fin dims.prod → ℂ) i‖ ^ 2 = 1 := by
    rw [Finset.sum_eq_single ⟨flat dims l, flat_lt hl⟩]
    · simp
    · intro b _ hb
      simp [Pi.single_eq_of_ne hb]
    · simp
  obtain ⟨h1, -⟩ := C65_closed (runEvents s es).propagators seqs _
    (fun q hq g hg => by
      obtain ⟨U, hU⟩ := ha q hq g hg
      exact ⟨U, hU, (hk g U hU).2⟩) hpsi
  refine ⟨_, h1, by simp, ?_⟩
  intro p hp m hm' hne
  obtain ⟨q, hq, rfl⟩ := List.mem_map.1 hp
  have hv : ∀ g ∈ q, (((runEvents s es).propagators g).getD 1) * par dims S =
      par dims S * (((runEvents s es).propagators g).getD 1) := by
    intro g hg
    obtain ⟨U, hU⟩ := ha q hq g hg
    rw [hU]
    exact (hk g U hU).1
  have hz := (commute_iff S _).1 (seq_commute S _ q hv) ⟨flat dims m, flat_lt hm'⟩ ⟨flat dims l, flat_lt hl⟩
    (by rw [loadAt_flat S hm', loadAt_flat S hl]; exact hne)
  simp only
  rw [mulVec_single_one]
  show ‖_‖ ^ 2 = 0
  rw [show (C3.Fold.seqProp (fun g => ((runEvents s es).propagators g).getD 1) q).col ⟨flat dims l, flat_lt hl⟩
    ⟨flat dims m, flat_lt hm'⟩ = 0 from hz]
  simp

/-! ## Open systems -/

/-- Events of an experiment with an open system in which the group is left alone: the collapse operators do not move
single excitations of the group either (dephasing does not, relaxation of the group does). -/
def ApartOpen (S : Finset ℕ) (es : List (Event (SOp dims))) : Prop :=
  ∀ e ∈ es, ∃ c : Chip dims, c.WF ∧ Closed S c ∧
    (∀ L ∈ c.cols, ∀ i j, loadAt dims S i % 2 ≠ loadAt dims S j % 2 → L i j = 0) ∧
    ∃ ps, e.w = opened c ps ∧ ∀ g p, ps.lookup g = some p → Quiet S c p

/-- The projector on the even states. -/
def evenProj (dims : List ℕ) (S : Finset ℕ) : Op dims := diagonal fun i => if loadAt dims S i % 2 = 0 then 1 else 0

theorem evenProj_eq (S : Finset ℕ) : evenProj dims S = (1 / 2 : ℂ) • (1 + par dims S) := by
  unfold evenProj par
  rw [← diagonal_one, diagonal_add, ← diagonal_smul]
  congr 1
  funext i
  simp only [Pi.smul_apply, smul_eq_mul, sgn]
  rw [neg_one_pow_eq_pow_mod_two]
  rcases Nat.mod_two_eq_zero_or_one (loadAt dims S i) with h | h <;> rw [h] <;> norm_num

theorem commute_proj (S : Finset ℕ) (A : Op dims) (h : A * par dims S = par dims S * A) :
    A * evenProj dims S = evenProj dims S * A := by
  rw [evenProj_eq, Matrix.mul_smul, Matrix.smul_mul, Matrix.mul_add, Matrix.add_mul, h, Matrix.mul_one, Matrix.one_mul]

theorem measure_even (S : Finset ℕ) (v : Fin dims.prod × Fin dims.prod → ℂ) :
    measureOperator (evenProj dims S) (unRow v) = ∑ i ∈ evenStates dims S, v (i, i) := by
  unfold measureOperator evenProj evenStates
  rw [Finset.sum_filter]
  simp only [Matrix.trace, Matrix.diag, diagonal_mul]
  refine Finset.sum_congr rfl fun i _ => ?_
  split
  · rw [one_mul]
    rfl
  · rw [zero_mul]

/-- The superoperators that keep the weight of the even states. -/
def keeping (dims : List ℕ) (S : Finset ℕ) : Submonoid (SOp dims) where
  carrier := {T | ∀ v, measureOperator (evenProj dims S) (unRow (T *ᵥ v)) = measureOperator (evenProj dims S) (unRow v)}
  one_mem' := by intro v; simp
  mul_mem' := by
    intro a b ha hb v
    rw [← mulVec_mulVec, ha, hb]

/-- C249 (open systems): a gate that leaves the group alone keeps the weight of the states in which the group has an
even number of excitations. -/
theorem C249_open_gate (S : Finset ℕ) (c : Chip dims) (hc : c.WF) (hS : Closed S c)
    (hL : ∀ L ∈ c.cols, ∀ i j, loadAt dims S i % 2 ≠ loadAt dims S j % 2 → L i j = 0)
    (ps : List (String × Pulse)) (g : String) (hq : ∀ p, ps.lookup g = some p → Quiet S c p) (V : SOp dims)
    (h : physical (opened c ps) (.name "pwc") g = .ok V) (rho : Op dims) :
    ∑ i ∈ evenStates dims S, unRow (V *ᵥ rowVec rho) i i = ∑ i ∈ evenStates dims S, rho i i := by
  suffices hV : V ∈ keeping dims S by
    have := hV (rowVec rho)
    rw [measure_even, measure_even] at this
    exact this
  obtain ⟨p, hks, T, hp, hk, hU, hF⟩ := physical_opened c ps g V h
  have e1 : ∀ A : Op dims, Tw S 1 A → A * evenProj dims S = evenProj dims S * A := by
    intro A hA
    unfold Tw at hA
    rw [one_smul] at hA
    exact commute_proj S A hA
  have hT : T ∈ keeping dims S := by
    by_cases hv : p.values = []
    · rw [hv] at hU
      rw [List.length_nil, pwcLind_empty c.h0 hks c.cols p.dt c.batch hc.batch] at hU
      simp at hU
    · obtain ⟨T', h1, h2⟩ := C248_pwc_open c.h0 hks c.cols p.dt p.values hv c.batch hc.batch (evenProj dims S) (by
        intro v hv'
        refine C248_commuting _ _ _ (commute_hamAt _ _ _ (e1 _ (tw_h0 S c hc hS)) fun q hq' =>
          e1 _ (tw_hks S c hc hS p (hq p hp) hks hk _ (List.of_mem_zip hq').2)) ?_
        intro L hL'
        have hT : Tw S 1 L := by
          unfold Tw
          rw [one_smul]
          exact (commute_iff S L).2 (hL L hL')
        exact ⟨e1 _ hT, e1 _ (hT.conj (by simp) (by simp))⟩)
      rw [h1] at hU
      rw [← Option.some.inj hU]
      intro v
      exact h2 (unRow v)
  rcases hF with ⟨-, F, hF, rfl⟩ | ⟨-, rfl⟩
  · refine mul_mem ?_ hT
    intro v
    have hFu := frame_unitary c hc p F hF
    obtain ⟨d, rfl⟩ := frame_diagonal c hc p F hF
    have hcm : diagonal d * evenProj dims S = evenProj dims S * diagonal d := by
      unfold evenProj
      rw [diagonal_mul_diagonal, diagonal_mul_diagonal]
      congr 1
      funext i
      exact mul_comm _ _
    have hv : v = rowVec (unRow v) := rfl
    rw [hv, C26_super_row, unRow_rowVec, unRow_rowVec]
    unfold measureOperator
    rw [← Matrix.mul_assoc, trace_mul_comm, ← Matrix.mul_assoc, ← Matrix.mul_assoc, Matrix.mul_assoc _ (evenProj dims S),
      ← hcm, ← Matrix.mul_assoc, hFu, Matrix.one_mul]
  · exact hT

/-- C249 (open systems): the probability of finding an even number of excitations in the group is the same after every
sequence of gates as in the initial state, for any history of the experiment. -/
theorem C249_open (S : Finset ℕ) (s : Exp (SOp dims)) (hm : s.propMethod = none) (hp : ∀ g, s.propagators g = none)
    (es : List (Event (SOp dims))) (he : ApartOpen S es) (seqs : List (List String))
    (ha : Available (runEvents s es).propagators seqs) (rho : Op dims) :
    ∃ ps, evaluateOpen (runEvents s es).propagators seqs (dmToVec rho) = some ps ∧ ps.length = seqs.length ∧
      ∀ p ∈ ps, ∑ i ∈ evenStates dims S, p i = ∑ i ∈ evenStates dims S, (rho i i).re := by
  have hk : ∀ g V, (runEvents s es).propagators g = some V → V ∈ keeping dims S := by
    intro g V h v
    have hw : ∀ e ∈ es, e.w.WF := fun e hm => by
      obtain ⟨c, _, _, _, ps, h, _⟩ := he e hm
      rw [h]
      exact opened_wf c ps
    obtain ⟨pre, e, post, rfl, -, -, h1, -⟩ := (C68_history s hm hp es hw g V).1 h
    obtain ⟨c, hc, hS, hL, ps, h2, hq⟩ := he e (by simp)
    rw [h2] at h1
    rw [measure_even, measure_even]
    exact C249_open_gate S c hc hS hL ps g (fun p hp => hq g p hp) V h1 (unRow v)
  unfold evaluateOpen
  induction seqs with
  | nil => exact ⟨[], rfl, rfl, by simp⟩
  | cons q qs ih =>
    obtain ⟨ps, h1, h2, h3⟩ := ih fun q hq => ha q (List.mem_cons_of_mem _ hq)
    have hq := ha q List.mem_cons_self
    rw [List.mapM_cons, h1, runSeq_eq _ q _ hq]
    refine ⟨_, rfl, by simp [h2], ?_⟩
    intro p hp
    rcases List.mem_cons.1 hp with rfl | hp
    · have hmem : C3.Fold.seqProp (fun g => ((runEvents s es).propagators g).getD 1) q ∈ keeping dims S := by
        apply timeOrdered_mem
        intro x hx
        obtain ⟨g, hg, rfl⟩ := List.mem_map.1 hx
        obtain ⟨U, hU⟩ := hq g hg
        rw [hU]
        exact hk g U hU
      have := hmem (dmToVec rho)
      rw [measure_even, measure_even] at this
      have := congrArg Complex.re this
      rw [Complex.re_sum, Complex.re_sum] at this
      exact this
    · exact h3 p hp

/-! ## Special cases -/

/-- C249: without drives the group may be the whole chip, and a spectator may be a group of its own. -/
theorem C249_groups (c : Chip dims) (hn : c.sys.subs.length ≤ dims.length) (ht : c.tr = none)
    (hs : ∀ p ∈ c.sys.subs, ∀ d w a b, p.2 ≠ .snail d w a b) (hc : c.WF) :
    Closed (Finset.range dims.length) c ∧
      ∀ q, (∀ p ∈ c.sys.lines, ∀ f s c₁ c₂, p.2 = .coupling f s c₁ c₂ → c₁ ≠ q ∧ c₂ ≠ q) → Closed {q} c := by
  have hsub : ∀ p ∈ c.sys.subs.zipIdx, ∀ d w a b, p.1.2 ≠ .snail d w a b := by
    intro p hp
    exact hs p.1 (List.fst_mem_of_mem_zipIdx hp)
  constructor
  · refine ⟨hn, fun p hp _ => hsub p hp, ?_, fun t h => by rw [ht] at h; cases h⟩
    intro p hp f s c₁ c₂ e
    have := hc.lines p hp
    rw [e] at this
    simp [this.1, this.2]
  · intro q hq
    refine ⟨hn, fun p hp _ => hsub p hp, ?_, fun t h => by rw [ht] at h; cases h⟩
    intro p hp f s c₁ c₂ e
    have := hq p hp f s c₁ c₂ e
    simp [this.1, this.2]

/-- Two coupled qubits without pulse. -/
def exPair : Chip [2, 2] :=
  ⟨⟨[("q1", .qubit 2 5 0), ("q2", .qubit 2 6 0)], [("c", .coupling .xx 1 0 1), ("d", .drive .x [0])]⟩, none, [],
    fun _ => some 0, false, 1⟩

theorem exPair_wf : exPair.WF := by
  refine ⟨?_, ?_, le_rfl⟩
  · intro l hl
    simp only [exPair, List.mem_cons, List.not_mem_nil, or_false] at hl
    rcases hl with rfl | rfl <;> simp [Line.WF]
  · intro l q h
    simp only [exPair, Option.some.injEq] at h
    subst h
    decide

/-- The coupled qubits never go from `00` to `01` by waiting. -/
example : ∃ V, physical (closed exPair [("id", ⟨[], [[], []], 1, [], fun _ => none, 2⟩)]) (.name "pwc") "id" = .ok V ∧
    V ⟨flat [2, 2] [0, 1], by decide⟩ ⟨flat [2, 2] [0, 0], by decide⟩ = 0 := by
  obtain ⟨V, h⟩ := C199_computed exPair exPair_wf [("id", ⟨[], [[], []], 1, [], fun _ => none, 2⟩)] "id" _ rfl (by simp)
    (by simp) (fun l hl => by simp at hl)
  refine ⟨V, h, ?_⟩
  refine C249_gate (Finset.range 2) exPair exPair_wf ?_ _ "id" ?_ V h [0, 1] [0, 0] (by simp [Valid]) (by simp [Valid])
    (by decide)
  · refine (C249_groups exPair le_rfl rfl ?_ exPair_wf).1
    intro p hp d w a b
    simp only [exPair, List.mem_cons, List.not_mem_nil, or_false] at hp
    rcases hp with rfl | rfl <;> simp
  · intro p hp k hk
    rw [List.lookup_cons_self, Option.some.injEq] at hp
    subst hp
    simp at hk

/-- With a drive it can: the drive is not silent, and its Hamiltonian has such an element. -/
example : ¬ Silent (Finset.range 2) (.drive .x [0]) ∧ ¬ Tw {0} 1 (xDrive (ann [2] 0)) := by
  constructor
  · intro h
    exact h (Or.inl rfl) 0 (by simp) (by simp)
  · intro h
    unfold Tw at h
    rw [one_smul] at h
    have h0 : Valid [2] [0] := by simp [Valid]
    have h1 : Valid [2] [1] := by simp [Valid]
    have := (commute_iff {0} _).1 h ⟨flat [2] [0], flat_lt h0⟩ ⟨flat [2] [1], flat_lt h1⟩
      (by rw [loadAt_flat _ h0, loadAt_flat _ h1]; decide)
    unfold xDrive at this
    rw [ann_two] at this
    have e : ((!![0, 1; 0, 0]ᴴ + !![0, 1; 0, 0] : Matrix (Fin 2) (Fin 2) ℂ) 0 1 : ℂ) = 0 := this
    simp at e

end C3.Experiment.Selection
