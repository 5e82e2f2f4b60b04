import Verif.Experiment.Recurrence
import Verif.Experiment.Preparation
import Verif.Experiment.Mixture
import Mathlib.LinearAlgebra.Matrix.Charpoly.Coeff
import Mathlib.LinearAlgebra.Matrix.Charpoly.LinearMap

/-!
# C268: the populations under a repeated sequence obey a linear recurrence

The whole chain of C199 for sequences that are repeated, as in benchmarks. The populations after `n` repetitions are a linear
combination of those after the `D²` numbers of repetitions before, where `D` is the dimension. The coefficients belong to the
repeated sequence: they are the same for all initial states, all gates before and after, and all `n`.
-/

set_option linter.unusedSectionVars false

noncomputable section

namespace C3.Experiment.Repetition

open Matrix Finset C3.Propagation C3.Hilbert C3.Experiment C3.Experiment.Compute C3.Experiment.EndToEnd
open C3.Experiment.Recurrence (repeated)
open scoped ComplexOrder

/-! ## Specification -/

/-- Every member of a series of populations is the combination of the `N` members before with the coefficients `c`. -/
def Obeys {n : Type} (N : ℕ) (c : Fin N → ℝ) (p : ℕ → n → ℝ) : Prop := ∀ k i, p (k + N) i = ∑ j : Fin N, c j * p (k + j) i

/-! ## Lemmas -/

section
variable {m : Type} [Fintype m] [DecidableEq m]

theorem cayley (S : Matrix m m ℂ) (N : ℕ) (hN : Fintype.card m = N) (k : ℕ) :
    S ^ (k + N) = -∑ j : Fin N, S.charpoly.coeff j • S ^ (k + j : ℕ) := by
  rcases isEmpty_or_nonempty m with he | hne
  · ext i
    exact he.elim i
  have h := S.aeval_self_charpoly
  rw [Polynomial.aeval_eq_sum_range, S.charpoly_natDegree_eq_dim, hN, Finset.sum_range_succ] at h
  have h1 : S.charpoly.coeff N = 1 := by
    have := S.charpoly_monic
    rw [Polynomial.Monic, Polynomial.leadingCoeff, S.charpoly_natDegree_eq_dim, hN] at this
    exact this
  rw [h1, one_smul, add_comm] at h
  rw [pow_add, eq_neg_of_add_eq_zero_left h, mul_neg, Finset.mul_sum, Finset.sum_range]
  congr 1
  refine sum_congr rfl fun j _ => ?_
  rw [mul_smul_comm, pow_add]

/-- Real numbers that depend linearly on the powers of a matrix. -/
theorem series (S : Matrix m m ℂ) (N : ℕ) (hN : Fintype.card m = N) (f : Matrix m m ℂ →ₗ[ℂ] ℂ) (x : ℕ → ℝ)
    (hx : ∀ k, f (S ^ k) = x k) (k : ℕ) : x (k + N) = ∑ j : Fin N, -(S.charpoly.coeff j).re * x (k + j) := by
  have h := congrArg f (cayley S N hN k)
  rw [map_neg, map_sum, hx] at h
  simp only [map_smul, hx, smul_eq_mul] at h
  have h' := congrArg Complex.re h
  rw [Complex.ofReal_re, Complex.neg_re, Complex.re_sum] at h'
  rw [h', ← Finset.sum_neg_distrib]
  refine sum_congr rfl fun j _ => ?_
  rw [Complex.re_mul_ofReal]
  ring

end

section
variable {n : Type} [Fintype n] [DecidableEq n]

theorem sequence_mem {m : Type} [Fintype m] [DecidableEq m] (M : Submonoid (Matrix m m ℂ)) (val : String → Matrix m m ℂ)
    (s : List String) (h : ∀ g ∈ s, val g ∈ M) : C3.Fold.seqProp val s ∈ M := by
  induction s with
  | nil => simp [C3.Fold.seqProp, C3.Fold.timeOrdered]
  | cons a s ih =>
    rw [show a :: s = [a] ++ s from rfl, C3.Fold.C21_concat]
    refine M.mul_mem (ih fun g hg => h g (List.mem_cons_of_mem _ hg)) ?_
    simpa [C3.Fold.seqProp, C3.Fold.timeOrdered] using h a List.mem_cons_self

/-- The entry of the density matrix after a map between two others. -/
def entry (A B : Matrix (n × n) (n × n) ℂ) (v : n × n → ℂ) (i : n) : Matrix (n × n) (n × n) ℂ →ₗ[ℂ] ℂ where
  toFun M := vecToDm ((B * (M * A)) *ᵥ v) i i
  map_add' M M' := by
    rw [add_mul, mul_add, add_mulVec]
    rfl
  map_smul' x M := by
    rw [smul_mul_assoc, mul_smul_comm, smul_mulVec]
    rfl

theorem density_real (S : Matrix (n × n) (n × n) ℂ) (ht : S ∈ tracePreserving n) (hp : S ∈ positiveMaps n)
    (rho : Matrix n n ℂ) (hr : IsDensity rho) (i : n) :
    vecToDm (S *ᵥ dmToVec rho) i i = ((popsOpen (S *ᵥ dmToVec rho) i : ℝ) : ℂ) := by
  have hd := Preparation.act_density S ht hp rho hr
  have h0 := hd.1.diag_nonneg (i := i)
  have him := (Complex.le_def.1 h0).2
  unfold popsOpen
  rw [Preparation.act_vec]
  change (Preparation.act S rho) i i = (((Preparation.act S rho) i i).re : ℂ)
  refine Complex.ext (by simp) ?_
  rw [Complex.ofReal_im, ← him]
  rfl

/-- C268 for any set of channels. -/
theorem C268_gates_open (props : String → Option (Matrix (n × n) (n × n) ℂ))
    (hu : ∀ g S, props g = some S → S ∈ tracePreserving n ∧ S ∈ positiveMaps n) (q : List String)
    (hq : Available props [q]) :
    ∃ c : Fin (Fintype.card n ^ 2) → ℝ, ∀ a b, Available props [a, b] → ∀ rho : Matrix n n ℂ, IsDensity rho →
      ∃ p : ℕ → n → ℝ, (∀ k, evaluateOpen props [a ++ repeated k q ++ b] (dmToVec rho) = some [p k]) ∧ Obeys _ c p := by
  set val : String → Matrix (n × n) (n × n) ℂ := fun g => (props g).getD 1 with hval
  set S := C3.Fold.seqProp val q with hS
  have hN : Fintype.card (n × n) = Fintype.card n ^ 2 := by rw [Fintype.card_prod, pow_two]
  refine ⟨fun j => -(S.charpoly.coeff j).re, fun a b hab rho hr => ?_⟩
  have hq' : ∀ g ∈ q, ∃ U, props g = some U := hq q (by simp)
  have ha : ∀ g ∈ a, ∃ U, props g = some U := hab a (by simp)
  have hb : ∀ g ∈ b, ∃ U, props g = some U := hab b (by simp)
  have hall : ∀ k, ∀ g ∈ a ++ repeated k q ++ b, ∃ U, props g = some U := by
    intro k g hg
    simp only [List.mem_append] at hg
    rcases hg with (h | h) | h
    · exact ha g h
    · exact hq' g (Recurrence.mem_repeated k q g h)
    · exact hb g h
  have hch : ∀ s, (∀ g ∈ s, ∃ U, props g = some U) →
      C3.Fold.seqProp val s ∈ tracePreserving n ∧ C3.Fold.seqProp val s ∈ positiveMaps n := by
    intro s hs
    constructor <;> refine sequence_mem _ _ _ fun g hg => ?_ <;> obtain ⟨U, hU⟩ := hs g hg <;>
      simp only [hval, hU, Option.getD_some]
    · exact (hu g U hU).1
    · exact (hu g U hU).2
  have e : ∀ k, C3.Fold.seqProp val (a ++ repeated k q ++ b) =
      C3.Fold.seqProp val b * (S ^ k * C3.Fold.seqProp val a) := by
    intro k
    rw [C3.Fold.C21_concat, C3.Fold.C21_concat, Recurrence.repeated_prop]
  refine ⟨fun k => popsOpen (C3.Fold.seqProp val (a ++ repeated k q ++ b) *ᵥ dmToVec rho), fun k => ?_, fun k i => ?_⟩
  · exact Waiting.evaluate_all props [a ++ repeated k q ++ b] (dmToVec rho)
      (fun s => C3.Fold.seqProp val s *ᵥ dmToVec rho) fun s hs => by
      rw [List.mem_singleton.1 hs]
      exact runSeq_eq _ _ _ (hall k)
  · refine series S _ hN (entry (C3.Fold.seqProp val a) (C3.Fold.seqProp val b) (dmToVec rho) i)
      (fun k => popsOpen (C3.Fold.seqProp val (a ++ repeated k q ++ b) *ᵥ dmToVec rho) i) (fun k => ?_) k
    rw [← density_real _ (hch _ (hall k)).1 (hch _ (hall k)).2 rho hr i, e k]
    rfl

/-- C268 for any set of gates of a closed system. -/
theorem C268_gates_closed (props : String → Option (Matrix n n ℂ)) (q : List String) (hq : Available props [q]) :
    ∃ c : Fin (Fintype.card n ^ 2) → ℝ, ∀ a b, Available props [a, b] → ∀ psi : n → ℂ,
      ∃ p : ℕ → n → ℝ, (∀ k, evaluateClosed props [a ++ repeated k q ++ b] psi = some [p k]) ∧ Obeys _ c p := by
  set val : String → Matrix n n ℂ := fun g => (props g).getD 1 with hval
  set S := tfSuper (C3.Fold.seqProp val q) with hS
  have hN : Fintype.card (n × n) = Fintype.card n ^ 2 := by rw [Fintype.card_prod, pow_two]
  refine ⟨fun j => -(S.charpoly.coeff j).re, fun a b hab psi => ?_⟩
  have hq' : ∀ g ∈ q, ∃ U, props g = some U := hq q (by simp)
  have ha : ∀ g ∈ a, ∃ U, props g = some U := hab a (by simp)
  have hb : ∀ g ∈ b, ∃ U, props g = some U := hab b (by simp)
  have hall : ∀ k, ∀ g ∈ a ++ repeated k q ++ b, ∃ U, props g = some U := by
    intro k g hg
    simp only [List.mem_append] at hg
    rcases hg with (h | h) | h
    · exact ha g h
    · exact hq' g (Recurrence.mem_repeated k q g h)
    · exact hb g h
  have pw : ∀ (U : Matrix n n ℂ) (k : ℕ), tfSuper U ^ k = tfSuper (U ^ k) := by
    intro U k
    induction k with
    | zero => rw [pow_zero, pow_zero, Mixture.super_one]
    | succ k ih => rw [pow_succ, pow_succ, ih, Mixture.super_mul]
  have e : ∀ k, tfSuper (C3.Fold.seqProp val (a ++ repeated k q ++ b)) =
      tfSuper (C3.Fold.seqProp val b) * (S ^ k * tfSuper (C3.Fold.seqProp val a)) := by
    intro k
    rw [C3.Fold.C21_concat, C3.Fold.C21_concat, Recurrence.repeated_prop, Mixture.super_mul, Mixture.super_mul, hS, pw]
  refine ⟨fun k => popsClosed (C3.Fold.seqProp val (a ++ repeated k q ++ b) *ᵥ psi), fun k => ?_, fun k i => ?_⟩
  · exact Mixture.evaluate_closed_all props [a ++ repeated k q ++ b] psi
      (fun s => C3.Fold.seqProp val s *ᵥ psi) fun s hs => by
      rw [List.mem_singleton.1 hs]
      exact runSeq_eq _ _ _ (hall k)
  · refine series S _ hN (entry (tfSuper (C3.Fold.seqProp val a)) (tfSuper (C3.Fold.seqProp val b))
      (rowVec (vecMulVec psi (star psi))) i)
      (fun k => popsClosed (C3.Fold.seqProp val (a ++ repeated k q ++ b) *ᵥ psi) i) (fun k => ?_) k
    change vecToDm ((tfSuper (C3.Fold.seqProp val b) * (S ^ k * tfSuper (C3.Fold.seqProp val a))) *ᵥ _) i i = _
    rw [← e k, C26_super_row]
    simp only [popsClosed, vecToDm, rowVec, transpose_apply, of_apply]
    rw [mul_vecMulVec, vecMulVec_mul, ← star_mulVec, vecMulVec_apply, Pi.star_apply, RCLike.star_def, Complex.mul_conj']
    norm_cast

end

/-- C268: series that obey the same recurrence and start alike are the same. -/
theorem C268_determined {n : Type} (N : ℕ) (c : Fin N → ℝ) (p p' : ℕ → n → ℝ) (h : Obeys N c p) (h' : Obeys N c p') (i : n)
    (h0 : ∀ k < N, p k i = p' k i) (k : ℕ) : p k i = p' k i := by
  induction k using Nat.strong_induction_on with
  | _ k ih =>
    by_cases hk : k < N
    · exact h0 k hk
    · obtain ⟨j, rfl⟩ : ∃ j, k = j + N := ⟨k - N, by omega⟩
      rw [h j i, h' j i]
      refine sum_congr rfl fun t _ => ?_
      rw [ih (j + t) (by have := t.2; omega)]

/-! ## Experiments -/

variable {dims : List ℕ}

/-- C268: the populations of a closed chip under a repeated sequence obey a linear recurrence of the length of the squared
dimension, with coefficients that belong to the sequence. -/
theorem C268_closed (s : Exp (Op dims)) (es : List (Event (Op dims))) (q : List String)
    (hq : Available (runEvents s es).propagators [q]) :
    ∃ c : Fin (dims.prod ^ 2) → ℝ, ∀ a b, Available (runEvents s es).propagators [a, b] → ∀ psi : Fin dims.prod → ℂ,
      ∃ p : ℕ → Fin dims.prod → ℝ,
        (∀ k, evaluateClosed (runEvents s es).propagators [a ++ repeated k q ++ b] psi = some [p k]) ∧ Obeys _ c p := by
  have := C268_gates_closed (runEvents s es).propagators q hq
  rwa [Fintype.card_fin] at this

/-- C268 (open systems): the same with decoherence, for all initial density matrices. -/
theorem C268_open (s : Exp (SOp dims)) (hm : s.propMethod = none) (hp : ∀ g, s.propagators g = none)
    (es : List (Event (SOp dims))) (he : ∀ e ∈ es, ∃ c : Chip dims, c.WF ∧ ∃ ps : List (String × Pulse),
      (∀ g p, ps.lookup g = some p → 0 ≤ p.dt) ∧ e.w = opened c ps) (q : List String)
    (hq : Available (runEvents s es).propagators [q]) :
    ∃ c : Fin (dims.prod ^ 2) → ℝ, ∀ a b, Available (runEvents s es).propagators [a, b] → ∀ rho : Op dims, IsDensity rho →
      ∃ p : ℕ → Fin dims.prod → ℝ,
        (∀ k, evaluateOpen (runEvents s es).propagators [a ++ repeated k q ++ b] (dmToVec rho) = some [p k]) ∧
          Obeys _ c p := by
  have := C268_gates_open (runEvents s es).propagators (fun g S hS => by
    have hw : ∀ e ∈ es, e.w.WF := fun e hm => by
      obtain ⟨c, _, ps, _, h⟩ := he e hm
      rw [h]
      exact opened_wf c ps
    obtain ⟨pre, e, post, rfl, -, -, h1, -⟩ := (C68_history s hm hp es hw g S).1 hS
    obtain ⟨c, hc, ps, hdt, h2⟩ := he e (by simp)
    rw [h2] at h1
    exact C199_channel c hc ps hdt g S h1) q hq
  rwa [Fintype.card_fin] at this

/-! ## Examples -/

/-- The natural numbers obey a recurrence of length two. -/
example : Obeys 2 ![-1, 2] fun k (_ : Unit) => (k : ℝ) := by
  intro k i
  simp [Fin.sum_univ_two]
  ring

/-- The populations of a qubit that is flipped again and again are those before the last two flips. -/
example : Obeys 4 ![0, 0, 1, 0] fun k (i : Fin 2) => ‖((!![0, 1; 1, 0] : Matrix (Fin 2) (Fin 2) ℂ) ^ k *ᵥ ![1, 0]) i‖ ^ 2 := by
  have h : (!![0, 1; 1, 0] : Matrix (Fin 2) (Fin 2) ℂ) ^ 2 = 1 := by
    rw [pow_two]
    ext i j
    fin_cases i <;> fin_cases j <;> simp
  intro k i
  simp only [Fin.sum_univ_four, cons_val_zero, cons_val_one, Matrix.cons_val, zero_mul, one_mul, zero_add, add_zero]
  rw [show k + 4 = k + 2 + 2 by ring, pow_add _ (k + 2) 2, h, mul_one]
  rfl

/-- Not every series does: with one coefficient, only geometric ones do. -/
example : ¬ ∃ c, Obeys 1 c fun k (_ : Unit) => (k : ℝ) := by
  rintro ⟨c, h⟩
  have := h 0 ()
  simp at this

end C3.Experiment.Repetition
