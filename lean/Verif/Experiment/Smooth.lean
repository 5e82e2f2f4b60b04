import Verif.Experiment.OpenGoal
import Verif.Fidelity.Sets
import Verif.Optim.Scans
import Mathlib.Analysis.Calculus.ContDiff.RestrictScalars
import Mathlib.Analysis.Calculus.ContDiff.Operations
import Mathlib.Analysis.InnerProductSpace.Calculus
import Mathlib.Analysis.Calculus.LocalExtr.Basic
import Mathlib.Analysis.Calculus.Deriv.Pi
import Mathlib.Analysis.Calculus.Deriv.Abs
import Mathlib.Analysis.SpecialFunctions.Trigonometric.InverseDeriv
import Verif.Experiment.FromInstruction

/-!
# C234: the goal functions are differentiable

The gradient-based algorithms (c3/libraries/algorithms.py) differentiate the goal function through the propagation
(c3/libraries/propagation.py:259-341, 382-423) and the fidelities (c3/libraries/fidelities.py:84-311). Here the derivatives are
shown to exist: propagators and infidelities are as smooth as Hamiltonians and signals. Parameters are a vector of any
normed space `P`. The exception is `state_transfer_infid`, the modulus of an overlap.

The models are those of C22, C25, C61-C63, C101, C171, C183 and C219; nothing new is modelled.
-/

set_option linter.unusedSectionVars false

namespace C3.Experiment.Smooth

open Matrix Finset C3.Hilbert C3.Gates C3.Fidelity C3.Propagation

variable {P : Type} [NormedAddCommGroup P] [NormedSpace ℝ P] {r : WithTop ℕ∞}
variable {n m : Type*} [Fintype n] [DecidableEq n] [Fintype m] [DecidableEq m]

/-! ## Specification -/

/-- Every entry of the matrix is `r` times continuously differentiable in the parameters. -/
def SmoothM (r : WithTop ℕ∞) (F : P → Matrix n m ℂ) : Prop := ∀ i j, ContDiff ℝ r fun p => F p i j

/-! ## Matrices -/

theorem SmoothM.const (A : Matrix n m ℂ) : SmoothM r (fun _ : P => A) := fun _ _ => contDiff_const

theorem SmoothM.add {F G : P → Matrix n m ℂ} (hF : SmoothM r F) (hG : SmoothM r G) : SmoothM r fun p => F p + G p :=
  fun i j => (hF i j).add (hG i j)

theorem SmoothM.sub {F G : P → Matrix n m ℂ} (hF : SmoothM r F) (hG : SmoothM r G) : SmoothM r fun p => F p - G p :=
  fun i j => (hF i j).sub (hG i j)

theorem SmoothM.smul {a : P → ℂ} {F : P → Matrix n m ℂ} (ha : ContDiff ℝ r a) (hF : SmoothM r F) :
    SmoothM r fun p => a p • F p := fun i j => by
  simp only [Matrix.smul_apply, smul_eq_mul]
  exact ha.mul (hF i j)

theorem SmoothM.mul {k : Type*} {F : P → Matrix n m ℂ} {G : P → Matrix m k ℂ} (hF : SmoothM r F)
    (hG : ∀ i j, ContDiff ℝ r fun p => G p i j) : ∀ i j, ContDiff ℝ r fun p => (F p * G p) i j := fun i j => by
  simp only [Matrix.mul_apply]
  exact ContDiff.sum fun l _ => (hF i l).mul (hG l j)

theorem smooth_star {a : P → ℂ} (ha : ContDiff ℝ r a) : ContDiff ℝ r fun p => star (a p) :=
  Complex.conjCLE.contDiff.comp ha

theorem SmoothM.conjTranspose {F : P → Matrix n m ℂ} (hF : SmoothM r F) : SmoothM r fun p => (F p)ᴴ := fun i j => by
  simp only [Matrix.conjTranspose_apply]
  exact smooth_star (hF j i)

theorem SmoothM.transpose {F : P → Matrix n m ℂ} (hF : SmoothM r F) : SmoothM r fun p => (F p)ᵀ := fun i j => hF j i

theorem SmoothM.kron {F : P → Matrix n n ℂ} {G : P → Matrix m m ℂ} (hF : SmoothM r F) (hG : SmoothM r G) :
    SmoothM r fun p => kroneckerMap (· * ·) (F p) (G p) := fun i j => (hF i.1 j.1).mul (hG i.2 j.2)

open scoped Norms.Operator in
theorem SmoothM.exp {F : P → Matrix n n ℂ} (hF : SmoothM r F) : SmoothM r fun p => NormedSpace.exp (F p) := by
  have h1 : ContDiff ℝ r F := by
    have : F = fun p => ∑ i, ∑ j, F p i j • (Matrix.single i j 1 : Matrix n n ℂ) := by
      funext p
      simp only [Matrix.smul_single, smul_eq_mul, mul_one]
      exact matrix_eq_sum_single (F p)
    rw [this]
    exact ContDiff.sum fun i _ => ContDiff.sum fun j _ => (hF i j).smul contDiff_const
  have h2 : ContDiff ℂ r (NormedSpace.exp : Matrix n n ℂ → Matrix n n ℂ) :=
    contDiff_iff_contDiffAt.2 fun x => (NormedSpace.exp_analytic (𝕂 := ℂ) x).contDiffAt
  have h3 : ContDiff ℝ r fun p => NormedSpace.exp (F p) := (h2.restrict_scalars ℝ).comp h1
  intro i j
  have h4 : ContDiff ℝ r fun M : Matrix n n ℂ => M i j := by
    let L : Matrix n n ℂ →ₗ[ℝ] ℂ :=
      { toFun := fun M => M i j, map_add' := fun _ _ => rfl, map_smul' := fun _ _ => rfl }
    exact (LinearMap.toContinuousLinearMap L).contDiff
  exact h4.comp h3

theorem SmoothM.prod (l : List (P → Matrix n n ℂ)) (h : ∀ F ∈ l, SmoothM r F) :
    SmoothM r fun p => (l.map fun F => F p).prod := by
  induction l with
  | nil => exact SmoothM.const 1
  | cons F l ih =>
    simp only [List.map_cons, List.prod_cons]
    exact (h F (by simp)).mul (ih fun G hG => h G (by simp [hG]))

theorem SmoothM.timeOrdered (l : List (P → Matrix n n ℂ)) (h : ∀ F ∈ l, SmoothM r F) :
    SmoothM r fun p => Fold.timeOrdered (l.map fun F => F p) := by
  simp only [Fold.timeOrdered, ← List.map_reverse]
  exact SmoothM.prod _ fun F hF => h F (by simpa using hF)

theorem SmoothM.ham {h0 : P → Matrix n n ℂ} (hh : SmoothM r h0) (hks : List (P → Matrix n n ℂ))
    (hk : ∀ H ∈ hks, SmoothM r H) (c : List (P → ℝ)) (hc : ∀ a ∈ c, ContDiff ℝ r a) :
    SmoothM r fun p => hamAt (h0 p) ((c.map fun a => a p).zip (hks.map fun H => H p)) := by
  simp only [hamAt_eq_sum]
  refine hh.add ?_
  induction hks generalizing c with
  | nil => simpa using SmoothM.const (P := P) (r := r) (0 : Matrix n n ℂ)
  | cons H hks ih =>
    cases c with
    | nil => simpa using SmoothM.const (P := P) (r := r) (0 : Matrix n n ℂ)
    | cons a c =>
      simp only [List.map_cons, List.zip_cons_cons, List.sum_cons]
      exact (SmoothM.smul (Complex.ofRealCLM.contDiff.comp (hc a (by simp))) (hk H (by simp))).add
        (ih (fun G hG => hk G (by simp [hG])) c fun b hb => hc b (by simp [hb]))

theorem SmoothM.slice {h0 : P → Matrix n n ℂ} (hh : SmoothM r h0) (hks : List (P → Matrix n n ℂ))
    (hk : ∀ H ∈ hks, SmoothM r H) (dt : ℝ) (c : List (P → ℝ)) (hc : ∀ a ∈ c, ContDiff ℝ r a) :
    SmoothM r fun p => dUOfT (h0 p) (hks.map fun H => H p) dt (c.map fun a => a p) := by
  unfold dUOfT
  exact SmoothM.exp (SmoothM.smul contDiff_const (SmoothM.smul contDiff_const (SmoothM.ham hh hks hk c hc)))

theorem SmoothM.lind {h : P → Matrix n n ℂ} (hh : SmoothM r h) (cols : List (P → Matrix n n ℂ))
    (hc : ∀ L ∈ cols, SmoothM r L) : SmoothM r fun p => lindOp (h p) (cols.map fun L => L p) := by
  have key : ∀ (cols : List (P → Matrix n n ℂ)) (A : P → Matrix (n × n) (n × n) ℂ), (∀ L ∈ cols, SmoothM r L) →
      SmoothM r A → SmoothM r fun p => (cols.map fun L => L p).foldl (fun op L =>
      op + spre L * spost Lᴴ - (1 / 2 : ℂ) • (spre Lᴴ * spre L) - (1 / 2 : ℂ) • (spost L * spost Lᴴ)) (A p) := by
    intro cols
    induction cols with
    | nil => intro A _ hA; exact hA
    | cons L cols ih =>
      intro A hc hA
      have hL : SmoothM r L := hc L (by simp)
      have hpre : ∀ {F : P → Matrix n n ℂ}, SmoothM r F → SmoothM r fun p => spre (F p) := fun hF =>
        SmoothM.kron hF (SmoothM.const 1)
      have hpost : ∀ {F : P → Matrix n n ℂ}, SmoothM r F → SmoothM r fun p => spost (F p) := fun hF =>
        SmoothM.kron (SmoothM.const 1) hF.transpose
      simp only [List.map_cons, List.foldl_cons]
      refine ih (fun p => A p + spre (L p) * spost (L p)ᴴ - (1 / 2 : ℂ) • (spre (L p)ᴴ * spre (L p))
        - (1 / 2 : ℂ) • (spost (L p) * spost (L p)ᴴ)) (fun G hG => hc G (by simp [hG])) ?_
      exact ((hA.add ((hpre hL).mul (hpost hL.conjTranspose))).sub
        (SmoothM.smul contDiff_const ((hpre hL.conjTranspose).mul (hpre hL)))).sub
        (SmoothM.smul contDiff_const ((hpost hL).mul (hpost hL.conjTranspose)))
  unfold lindOp
  refine key cols _ hc (SmoothM.smul contDiff_const (SmoothM.sub ?_ ?_))
  · exact SmoothM.kron hh (SmoothM.const 1)
  · exact SmoothM.kron (SmoothM.const 1) hh.transpose

/-! ## Propagators -/

/-- **C234**: the propagator of a gate is as often continuously differentiable in the parameters as the Hamiltonians of the chip and
the samples of the signals are, whatever the size of the batches. -/
theorem C234_gate (h0 : P → Matrix n n ℂ) (hks : List (P → Matrix n n ℂ)) (hh : SmoothM r h0)
    (hk : ∀ H ∈ hks, SmoothM r H) (dt : ℝ) (cs : List (List (P → ℝ))) (hcs : cs ≠ [])
    (hc : ∀ c ∈ cs, ∀ a ∈ c, ContDiff ℝ r a) (bs : ℕ) (hbs : 1 ≤ bs) :
    ∃ U : P → Matrix n n ℂ, SmoothM r U ∧ ∀ p, pwc (h0 p) (hks.map fun H => H p) dt (cs.map fun c => c.map fun a => a p) bs
      (Fold.stackFor cs.length) = some (U p) := by
  refine ⟨fun p => Fold.timeOrdered ((cs.map fun c p => dUOfT (h0 p) (hks.map fun H => H p) dt (c.map fun a => a p)).map
    fun F => F p), SmoothM.timeOrdered _ fun F hF => ?_, fun p => ?_⟩
  · obtain ⟨c, hcm, rfl⟩ := List.mem_map.1 hF
    exact SmoothM.slice hh hks hk dt c (hc c hcm)
  · have h := pwc_eq (h0 p) (hks.map fun H => H p) dt (cs.map fun c => c.map fun a => a p) (by simpa using hcs) bs hbs
    rw [List.length_map] at h
    rw [h, List.map_map]
    simp only [List.map_map]
    rfl

/-- **C234**: the same for open systems, with collapse operators that may depend on the parameters. -/
theorem C234_open (h0 : P → Matrix n n ℂ) (hks cols : List (P → Matrix n n ℂ)) (hh : SmoothM r h0)
    (hk : ∀ H ∈ hks, SmoothM r H) (hL : ∀ L ∈ cols, SmoothM r L) (dt : ℝ) (cs : List (List (P → ℝ))) (hcs : cs ≠ [])
    (hc : ∀ c ∈ cs, ∀ a ∈ c, ContDiff ℝ r a) (bs : ℕ) (hbs : 1 ≤ bs) :
    ∃ U : P → Matrix (n × n) (n × n) ℂ, SmoothM r U ∧ ∀ p, pwcLind (h0 p) (hks.map fun H => H p) (cols.map fun L => L p) dt
      (cs.map fun c => c.map fun a => a p) bs (Fold.stackFor cs.length) = some (U p) := by
  refine ⟨fun p => Fold.timeOrdered ((cs.map fun c p => dUOfTLind (h0 p) (hks.map fun H => H p) (cols.map fun L => L p) dt
    (c.map fun a => a p)).map fun F => F p), SmoothM.timeOrdered _ fun F hF => ?_, fun p => ?_⟩
  · obtain ⟨c, hcm, rfl⟩ := List.mem_map.1 hF
    unfold dUOfTLind
    exact SmoothM.exp (SmoothM.smul contDiff_const (SmoothM.lind (SmoothM.ham hh hks hk c (hc c hcm)) cols hL))
  · have h := pwcLind_eq (h0 p) (hks.map fun H => H p) (cols.map fun L => L p) dt (cs.map fun c => c.map fun a => a p)
      (by simpa using hcs) bs hbs
    rw [List.length_map] at h
    rw [h, List.map_map]
    simp only [List.map_map]
    rfl


/-! ## Goal functions -/

/-- The array has the given shape for all parameters, and its entries are `r` times continuously differentiable. -/
structure SmoothA (r : WithTop ℕ∞) (R C : ℕ) (A : P → Arr ℂ) : Prop where
  rows : ∀ p, (A p).rows = R
  cols : ∀ p, (A p).cols = C
  entries : ∀ i < R, ∀ j < C, ContDiff ℝ r fun p => (A p).e i j

theorem SmoothA.mat {R C : ℕ} {A : P → Arr ℂ} (h : SmoothA r R C A) : SmoothM r fun p => (A p).mat R C :=
  fun i j => h.entries i i.2 j j.2

theorem SmoothM.trace {F : P → Matrix n n ℂ} (hF : ∀ i j, ContDiff ℝ r fun p => F p i j) : ContDiff ℝ r fun p => (F p).trace :=
  ContDiff.sum fun i _ => hF i i

/-- **C234**: `unitary_infid` and `average_infid` are differentiable where the propagator is; there are no corners, not even
where the fidelity vanishes. -/
theorem C234_infid (ideal : Arr ℂ) (dims index : List ℕ) (hd : ∀ d ∈ dims, 2 ≤ d) (hne : index ≠ []) (hnd : index.Nodup)
    (hlt : ∀ i ∈ index, i < dims.length) (hir : ideal.rows = 2 ^ index.length) (hic : ideal.cols = 2 ^ index.length)
    (A : P → Arr ℂ) (hA : SmoothA r dims.prod dims.prod A) :
    ∃ f g : P → ℝ, ContDiff ℝ r f ∧ ContDiff ℝ r g ∧ ∀ p, unitaryInfid ideal (A p) (some index) dims = some (f p) ∧
      averageInfid ideal (A p) index dims = some (g p) := by
  have hf : ContDiff ℝ r fun p => 1 - (‖(((A p).mat dims.prod dims.prod).submatrix (compEmb dims index hd)
        (compEmb dims index hd) * (ideal.mat (outDims dims index).prod (outDims dims index).prod)ᴴ).trace‖
          / 2 ^ index.length) ^ 2 := by
    refine contDiff_const.sub ?_
    simp only [div_pow]
    simp only [div_eq_mul_inv]
    refine ContDiff.mul (ContDiff.norm_sq ℂ ?_) contDiff_const
    refine SmoothM.trace (SmoothM.mul (fun i j => ?_) fun i j => contDiff_const)
    exact hA.mat _ _
  refine ⟨_, fun p => 2 ^ index.length / (2 ^ index.length + 1) * _, hf, contDiff_const.mul hf, fun p => ⟨?_, ?_⟩⟩
  · exact C61_value ideal (A p) dims index hd hne hnd hlt (hA.rows p) (hA.cols p) hir hic
  · obtain ⟨x, y, hx, hy, hxy⟩ := C63_value ideal (A p) dims index hd hne hnd hlt (hA.rows p) (hA.cols p) hir hic
    rw [hy, hxy]
    rw [C61_value ideal (A p) dims index hd hne hnd hlt (hA.rows p) (hA.cols p) hir hic] at hx
    rw [← Option.some.inj hx]

/-- The sum over the Kraus operators, from the entries of the propagator. -/
theorem kraus_sum {N q : ℕ} (S : Matrix (Fin N × Fin N) (Fin N × Fin N) ℂ) (Ks : List (Matrix (Fin N) (Fin N) ℂ))
    (hK : S = (Ks.map tfSuper).sum) (E : Fin q → Fin N) (V : Matrix (Fin q) (Fin q) ℂ) :
    ∑ k : Fin Ks.length, ‖(Ks[k].submatrix E E * Vᴴ).trace‖ ^ 2 =
      (∑ a, ∑ b, ∑ c, ∑ d, S (E a, E b) (E c, E d) * (star (V a c) * V b d)).re := by
  have h : ∀ a b c d, S (E a, E b) (E c, E d) = ∑ k : Fin Ks.length, Ks[k] (E a) (E c) * star (Ks[k] (E b) (E d)) := by
    intro a b c d
    have h := congrFun (congrFun hK (E a, E b)) (E c, E d)
    rw [OpenGoal.list_fin, Matrix.sum_apply] at h
    simp only [Kraus.tfSuper_apply] at h
    exact h
  have hk : ∀ k : Fin Ks.length, ((‖(Ks[k].submatrix E E * Vᴴ).trace‖ ^ 2 : ℝ) : ℂ) =
      ∑ a, ∑ b, ∑ c, ∑ d, (Ks[k] (E a) (E c) * star (Ks[k] (E b) (E d))) * (star (V a c) * V b d) := by
    intro k
    have ht : (Ks[k].submatrix E E * Vᴴ).trace = ∑ a, ∑ c, Ks[k] (E a) (E c) * star (V a c) := rfl
    push_cast
    rw [← Complex.mul_conj', ← Complex.star_def, ht]
    simp only [star_sum, Finset.sum_mul_sum, star_mul', star_star]
    refine Finset.sum_congr rfl fun a _ => Finset.sum_congr rfl fun b _ => Finset.sum_congr rfl fun c _ =>
      Finset.sum_congr rfl fun d _ => by ring
  have hs : ((∑ k : Fin Ks.length, ‖(Ks[k].submatrix E E * Vᴴ).trace‖ ^ 2 : ℝ) : ℂ) =
      ∑ a, ∑ b, ∑ c, ∑ d, S (E a, E b) (E c, E d) * (star (V a c) * V b d) := by
    rw [Complex.ofReal_sum]
    simp only [hk, h, Finset.sum_mul]
    simp only [Finset.sum_comm (s := (Finset.univ : Finset (Fin Ks.length))) (t := (Finset.univ : Finset (Fin q)))]
  rw [← hs, Complex.ofReal_re]

theorem pair_lt {N : ℕ} (a b : Fin N) : (a * N + b : ℕ) < N * N := by
  have h1 := Nat.mul_le_mul_right N (Nat.succ_le_of_lt a.2)
  rw [Nat.succ_mul] at h1
  have := b.2
  omega

/-- **C234**: `lindbladian_unitary_infid` of quantum channels (C232) is differentiable, although a square root is taken. -/
theorem C234_lind (ideal : Arr ℂ) (dims index : List ℕ) (hd : ∀ d ∈ dims, 2 ≤ d) (hne : index ≠ []) (hnd : index.Nodup)
    (hlt : ∀ i ∈ index, i < dims.length) (A : P → Arr ℂ)
    (hA : SmoothA r (dims.prod * dims.prod) (dims.prod * dims.prod) A) (hfit : ∀ p, OpenGoal.FitsOpen dims index ideal (A p)) :
    ∃ f : P → ℝ, ContDiff ℝ r f ∧ ∀ p, lindUnitaryInfid ideal (A p) index dims = some (f p) := by
  refine ⟨fun p => 1 - (∑ a, ∑ b, ∑ c, ∑ d, OpenGoal.superMat dims.prod (A p)
    (compEmb dims index hd a, compEmb dims index hd b) (compEmb dims index hd c, compEmb dims index hd d) *
      (star (ideal.mat (outDims dims index).prod (outDims dims index).prod a c) *
        ideal.mat (outDims dims index).prod (outDims dims index).prod b d)).re / (2 ^ index.length) ^ 2, ?_, fun p => ?_⟩
  · refine contDiff_const.sub ?_
    simp only [div_eq_mul_inv]
    refine ContDiff.mul (Complex.reCLM.contDiff.comp ?_) contDiff_const
    refine ContDiff.sum fun a _ => ContDiff.sum fun b _ => ContDiff.sum fun c _ => ContDiff.sum fun d _ =>
      ContDiff.mul ?_ contDiff_const
    exact hA.entries _ (pair_lt (compEmb dims index hd a) (compEmb dims index hd b)) _
      (pair_lt (compEmb dims index hd c) (compEmb dims index hd d))
  · obtain ⟨Ks, h1, h2⟩ := (hfit p).kraus
    have hK := (Kraus.eq_sum_iff _ _).2 h2
    rw [OpenGoal.value_open ideal (A p) dims index hd hne hnd hlt (hfit p).rows (hfit p).cols (hfit p).idealRows
      (hfit p).idealCols Ks hK, kraus_sum _ Ks hK]

/-! ## Sets of gates -/

/-- The mean of differentiable values. -/
theorem mean_smooth {α : Type} (l : List α) (hl : l ≠ []) (F : P → α → Option ℝ)
    (h : ∀ a ∈ l, ∃ f : P → ℝ, ContDiff ℝ r f ∧ ∀ p, F p a = some (f p)) :
    ∃ v : P → ℝ, ContDiff ℝ r v ∧ ∀ p, IsMean (fun a x => F p a = some x) l (v p) := by
  have key : ∃ fs : List (P → ℝ), (∀ f ∈ fs, ContDiff ℝ r f) ∧
      ∀ p, List.Forall₂ (fun a x => F p a = some x) l (fs.map fun f => f p) := by
    clear hl
    induction l with
    | nil => exact ⟨[], by simp, fun p => .nil⟩
    | cons a l ih =>
      obtain ⟨f, hf, hv⟩ := h a (by simp)
      obtain ⟨fs, h1, h2⟩ := ih fun b hb => h b (by simp [hb])
      refine ⟨f :: fs, fun g hg => ?_, fun p => .cons (hv p) (h2 p)⟩
      rcases List.mem_cons.1 hg with rfl | hg
      · exact hf
      · exact h1 g hg
  obtain ⟨fs, h1, h2⟩ := key
  refine ⟨fun p => (fs.map fun f => f p).sum / l.length, ?_, fun p => ⟨_, h2 p, hl, ?_⟩⟩
  · simp only [div_eq_mul_inv]
    refine ContDiff.mul ?_ contDiff_const
    clear h2
    induction fs with
    | nil => exact contDiff_const
    | cons f fs ih =>
      simp only [List.map_cons, List.sum_cons]
      exact (h1 f (by simp)).add (ih fun g hg => h1 g (by simp [hg]))
  · rw [div_mul_cancel₀]
    simpa using hl

/-- **C234**: the means over sets of gates are differentiable. -/
theorem C234_set (dims index : List ℕ) (hd : ∀ d ∈ dims, 2 ≤ d) (hne : index ≠ []) (hnd : index.Nodup)
    (hlt : ∀ i ∈ index, i < dims.length) (gates : List ((P → Arr ℂ) × Option (Arr ℂ) × Option (List ℕ))) (hg : gates ≠ [])
    (hA : ∀ g ∈ gates, SmoothA r dims.prod dims.prod g.1)
    (hi : ∀ g ∈ gates, ∃ ideal, getIdealGateIndex g.2.1 g.2.2 dims index = some ideal ∧ ideal.rows = 2 ^ index.length ∧
      ideal.cols = 2 ^ index.length) :
    ∃ f g : P → ℝ, ContDiff ℝ r f ∧ ContDiff ℝ r g ∧ ∀ p,
      unitaryInfidSet (gates.map fun g => (g.1 p, g.2)) index dims = some (f p) ∧
      averageInfidSet (gates.map fun g => (g.1 p, g.2)) index dims = some (g p) := by
  have h1 := mean_smooth (r := r) gates hg (fun p g => (getIdealGateIndex g.2.1 g.2.2 dims index).bind fun q =>
    unitaryInfid q (g.1 p) (some index) dims) fun g hgm => by
      obtain ⟨ideal, h1, h2, h3⟩ := hi g hgm
      obtain ⟨f, _, hf, _, hv⟩ := C234_infid ideal dims index hd hne hnd hlt h2 h3 g.1 (hA g hgm)
      exact ⟨f, hf, fun p => by rw [h1, Option.bind_some, (hv p).1]⟩
  have h2 := mean_smooth (r := r) gates hg (fun p g => (getIdealGateIndex g.2.1 g.2.2 dims index).bind fun q =>
    averageInfid q (g.1 p) index dims) fun g hgm => by
      obtain ⟨ideal, h1, h2, h3⟩ := hi g hgm
      obtain ⟨_, f, _, hf, hv⟩ := C234_infid ideal dims index hd hne hnd hlt h2 h3 g.1 (hA g hgm)
      exact ⟨f, hf, fun p => by rw [h1, Option.bind_some, (hv p).2]⟩
  obtain ⟨f, hf, hfv⟩ := h1
  obtain ⟨g, hg', hgv⟩ := h2
  refine ⟨f, g, hf, hg', fun p => ⟨?_, ?_⟩⟩
  · have h := (mean_iff _ _ _).2 (hfv p)
    unfold unitaryInfidSet
    rw [← h]
    simp only [List.mapM_map]
    rfl
  · have h := (mean_iff _ _ _).2 (hgv p)
    unfold averageInfidSet
    rw [← h]
    simp only [List.mapM_map]
    rfl

/-- **C234**: the mean over a set of gates of an open system. -/
theorem C234_lind_set (dims index : List ℕ) (hd : ∀ d ∈ dims, 2 ≤ d) (hne : index ≠ []) (hnd : index.Nodup)
    (hlt : ∀ i ∈ index, i < dims.length) (gates : List ((P → Arr ℂ) × Option (Arr ℂ) × Option (List ℕ))) (hg : gates ≠ [])
    (hA : ∀ g ∈ gates, SmoothA r (dims.prod * dims.prod) (dims.prod * dims.prod) g.1)
    (hi : ∀ g ∈ gates, ∃ ideal, getIdealGate g.2.1 g.2.2 dims = some ideal ∧
      ∀ p, OpenGoal.FitsOpen dims index ideal (g.1 p)) :
    ∃ f : P → ℝ, ContDiff ℝ r f ∧ ∀ p, lindUnitaryInfidSet (gates.map fun g => (g.1 p, g.2)) index dims = some (f p) := by
  obtain ⟨f, hf, hfv⟩ := mean_smooth (r := r) gates hg (fun p g => (getIdealGate g.2.1 g.2.2 dims).bind fun q =>
    lindUnitaryInfid q (g.1 p) index dims) fun g hgm => by
      obtain ⟨ideal, h1, h2⟩ := hi g hgm
      obtain ⟨f, hf, hv⟩ := C234_lind ideal dims index hd hne hnd hlt g.1 (hA g hgm) h2
      exact ⟨f, hf, fun p => by rw [h1, Option.bind_some, hv p]⟩
  refine ⟨f, hf, fun p => ?_⟩
  have h := (mean_iff _ _ _).2 (hfv p)
  unfold lindUnitaryInfidSet
  rw [← h]
  simp only [List.mapM_map]
  rfl

/-! ## States -/

theorem state_value (ideal actual psi0 : Arr ℂ) (dims index : List ℕ) (hd : ∀ d ∈ dims, 2 ≤ d)
    (hne : index ≠ []) (hnd : index.Nodup) (hlt : ∀ i ∈ index, i < dims.length)
    (hr : actual.rows = dims.prod) (hc : actual.cols = dims.prod)
    (hir : ideal.rows = 2 ^ index.length) (hic : ideal.cols = 2 ^ index.length)
    (hpr : psi0.rows = 2 ^ index.length) :
    let q := (outDims dims index).prod
    stateTransferInfid ideal actual index dims psi0 =
      some (1 - ‖∑ k, star ((ideal.mat q q *ᵥ colVec psi0 q) k) *
        ((actual.mat dims.prod dims.prod).submatrix (compEmb dims index hd) (compEmb dims index hd) *ᵥ colVec psi0 q) k‖) := by
  intro q
  have hp := outDims_prod dims index hnd hlt
  obtain ⟨i, l, rfl⟩ := List.exists_cons_of_ne_nil hne
  obtain ⟨C, h1, h2, h3, h4⟩ := C64_submatrix actual dims (.list (i :: l)) (by simp) hd hr hc
  change C.rows = (outDims dims (i :: l)).prod at h2
  change C.cols = (outDims dims (i :: l)).prod at h3
  change C.mat (outDims dims (i :: l)).prod (outDims dims (i :: l)).prod =
    (actual.mat dims.prod dims.prod).submatrix (compEmb dims (i :: l) hd) (compEmb dims (i :: l) hd) at h4
  rw [← hp] at hir hic hpr
  rw [← h4]
  unfold stateTransferInfid
  simp only [Option.bind_eq_bind, h1, Option.bind_some]
  unfold arrMul arrAdj
  simp only [hir, hic, hpr, h2, h3, if_true, Option.bind_some]
  rw [Finset.sum_range]
  congr 4
  funext k
  rw [Finset.sum_range, Finset.sum_range]
  rfl

/-- **C234**: `state_transfer_infid` is differentiable where its value is not one. -/
theorem C234_state_partial (ideal psi0 : Arr ℂ) (dims index : List ℕ) (hd : ∀ d ∈ dims, 2 ≤ d) (hne : index ≠ [])
    (hnd : index.Nodup) (hlt : ∀ i ∈ index, i < dims.length) (hir : ideal.rows = 2 ^ index.length)
    (hic : ideal.cols = 2 ^ index.length) (hpr : psi0.rows = 2 ^ index.length)
    (A : P → Arr ℂ) (hA : SmoothA r dims.prod dims.prod A) :
    ∃ f : P → ℝ, (∀ p, stateTransferInfid ideal (A p) index dims psi0 = some (f p)) ∧ ∀ p, f p ≠ 1 → ContDiffAt ℝ r f p := by
  refine ⟨_, fun p => state_value ideal (A p) psi0 dims index hd hne hnd hlt (hA.rows p) (hA.cols p) hir hic hpr,
    fun p hp => ?_⟩
  refine contDiffAt_const.sub (ContDiffAt.norm ℂ ?_ ?_)
  · refine ContDiff.contDiffAt (ContDiff.sum fun k _ => contDiff_const.mul ?_)
    simp only [Matrix.mulVec, dotProduct]
    exact ContDiff.sum fun l _ => (hA.mat _ _).mul contDiff_const
  · intro h
    exact hp (by rw [h, norm_zero, sub_zero])


/-! ## From signals and chip to the goal -/

/-- **C234**: from Hamiltonians and samples to the value of `unitary_infid`. -/
theorem C234_goal (ideal : Arr ℂ) (dims index : List ℕ) (hd : ∀ d ∈ dims, 2 ≤ d) (hne : index ≠ []) (hnd : index.Nodup)
    (hlt : ∀ i ∈ index, i < dims.length) (hir : ideal.rows = 2 ^ index.length) (hic : ideal.cols = 2 ^ index.length)
    (h0 : P → Matrix (Fin dims.prod) (Fin dims.prod) ℂ) (hks : List (P → Matrix (Fin dims.prod) (Fin dims.prod) ℂ))
    (hh : SmoothM r h0) (hk : ∀ H ∈ hks, SmoothM r H) (dt : ℝ) (cs : List (List (P → ℝ))) (hcs : cs ≠ [])
    (hc : ∀ c ∈ cs, ∀ a ∈ c, ContDiff ℝ r a) (bs : ℕ) (hbs : 1 ≤ bs) :
    ∃ f : P → ℝ, ContDiff ℝ r f ∧ ∀ p, ∃ U, pwc (h0 p) (hks.map fun H => H p) dt (cs.map fun c => c.map fun a => a p) bs
      (Fold.stackFor cs.length) = some U ∧ ∀ A : Arr ℂ, A.rows = dims.prod → A.cols = dims.prod →
        A.mat dims.prod dims.prod = U → unitaryInfid ideal A (some index) dims = some (f p) := by
  obtain ⟨U, hU, hv⟩ := C234_gate h0 hks hh hk dt cs hcs hc bs hbs
  have hA : SmoothA r dims.prod dims.prod fun p => (⟨dims.prod, dims.prod, fun i j =>
      if h : i < dims.prod ∧ j < dims.prod then U p ⟨i, h.1⟩ ⟨j, h.2⟩ else 0⟩ : Arr ℂ) :=
    ⟨fun _ => rfl, fun _ => rfl, fun i hi j hj => by simpa only [hi, hj, and_self, dif_pos] using hU ⟨i, hi⟩ ⟨j, hj⟩⟩
  obtain ⟨f, _, hf, _, hfv⟩ := C234_infid ideal dims index hd hne hnd hlt hir hic _ hA
  refine ⟨f, hf, fun p => ⟨U p, hv p, fun A h1 h2 h3 => ?_⟩⟩
  rw [← (hfv p).1, C61_value ideal A dims index hd hne hnd hlt h1 h2 hir hic,
    C61_value ideal _ dims index hd hne hnd hlt rfl rfl hir hic, h3]
  have hm : (U p) = (⟨dims.prod, dims.prod, fun i j =>
      if h : i < dims.prod ∧ j < dims.prod then U p ⟨i, h.1⟩ ⟨j, h.2⟩ else 0⟩ : Arr ℂ).mat dims.prod dims.prod := by
    ext i j
    simp [Arr.mat]
  rw [← hm]


/-! ## From the parameters of an instruction -/

open FromInstruction in
/-- **C234**: from the parameters of an instruction, played by the standard chain, to the value of `unitary_infid`: the infidelity is
differentiable in amplitudes, xy-angles, carrier frequencies, conversion factors, parameters of the shapes and those of the
chip, all at once. The number of samples is fixed: it changes with the length of the pulse. -/
theorem C234_pulse (ideal : Arr ℂ) (dims index : List ℕ) (hd : ∀ d ∈ dims, 2 ≤ d) (hne : index ≠ []) (hnd : index.Nodup)
    (hlt : ∀ i ∈ index, i < dims.length) (hir : ideal.rows = 2 ^ index.length) (hic : ideal.cols = 2 ^ index.length)
    (h0 frame : P → Matrix (Fin dims.prod) (Fin dims.prod) ℂ) (X : ℕ → P → Matrix (Fin dims.prod) (Fin dims.prod) ℂ)
    (hh : SmoothM r h0) (hfr : SmoothM r frame) (L : ℕ) (hX : ∀ k < L, SmoothM r (X k)) (line : ℕ → String)
    (d : P → ℕ → LineSet)
    (hamp : ∀ k < L, ContDiff ℝ r fun p => (d p k).amp) (hxy : ∀ k < L, ContDiff ℝ r fun p => (d p k).xy)
    (hom : ∀ k < L, ContDiff ℝ r fun p => (d p k).omega) (hv : ∀ k < L, ContDiff ℝ r fun p => (d p k).v2hz)
    (hsh : ∀ k < L, ∀ t, ContDiff ℝ r fun p => (d p k).shape t)
    (T : ℝ) (hT : 0 < T) (M K : ℕ) (hM : 2 ≤ M) (hK : 0 < K) (bs : ℕ) (hbs : 1 ≤ bs) :
    ∃ f : P → ℝ, ContDiff ℝ r f ∧ ∀ p, ∃ pu U, instrPulse L line (d p) T ((K * M : ℕ) / T) (M / T) = some pu ∧
      pwc (h0 p) ((List.range L).map fun k => X k p) pu.dt pu.values bs (Fold.stackFor pu.values.length) = some U ∧
        ∀ A : Arr ℂ, A.rows = dims.prod → A.cols = dims.prod → A.mat dims.prod dims.prod = frame p * U →
          unitaryInfid ideal A (some index) dims = some (f p) := by
  have hline : ∀ k < L, ∀ i, ContDiff ℝ r fun p => lineValue (d p k) T M K i := by
    intro k hk i
    unfold lineValue
    exact (((hamp k hk).mul (contDiff_const.mul (hsh k hk _))).mul
      (Real.contDiff_cos.comp (((hom k hk).mul contDiff_const).sub (hxy k hk)))).mul (hv k hk)
  obtain ⟨U, hU, hUv⟩ := C234_gate h0 ((List.range L).map X) hh (fun H hH => by
      obtain ⟨k, hk, rfl⟩ := List.mem_map.1 hH
      exact hX k (List.mem_range.1 hk)) (T / (K * M : ℕ))
    ((List.range (K * M)).map fun i => (List.range L).map fun k p => lineValue (d p k) T M K i)
    (by
      have : K * M ≠ 0 := Nat.mul_ne_zero (by omega) (by omega)
      simpa using this)
    (by
      intro c hc a ha
      obtain ⟨i, -, rfl⟩ := List.mem_map.1 hc
      obtain ⟨k, hk, rfl⟩ := List.mem_map.1 ha
      exact hline k (List.mem_range.1 hk) i) bs hbs
  have hFU : SmoothM r fun p => frame p * U p := hfr.mul hU
  have hA : SmoothA r dims.prod dims.prod fun p => (⟨dims.prod, dims.prod, fun i j =>
      if h : i < dims.prod ∧ j < dims.prod then (frame p * U p) ⟨i, h.1⟩ ⟨j, h.2⟩ else 0⟩ : Arr ℂ) :=
    ⟨fun _ => rfl, fun _ => rfl, fun i hi j hj => by simpa only [hi, hj, and_self, dif_pos] using hFU ⟨i, hi⟩ ⟨j, hj⟩⟩
  obtain ⟨f, _, hf, _, hfv⟩ := C234_infid ideal dims index hd hne hnd hlt hir hic _ hA
  refine ⟨f, hf, fun p => ?_⟩
  obtain ⟨sh, -, hp⟩ := instrPulse_eq L line (d p) T hT M K hM hK
  refine ⟨_, U p, hp, ?_, fun A h1 h2 h3 => ?_⟩
  · have := hUv p
    simp only [List.map_map, List.length_map, Function.comp_def] at this ⊢
    exact this
  · rw [← (hfv p).1, C61_value ideal A dims index hd hne hnd hlt h1 h2 hir hic,
      C61_value ideal _ dims index hd hne hnd hlt rfl rfl hir hic, h3]
    have hm : frame p * U p = (⟨dims.prod, dims.prod, fun i j =>
        if h : i < dims.prod ∧ j < dims.prod then (frame p * U p) ⟨i, h.1⟩ ⟨j, h.2⟩ else 0⟩ : Arr ℂ).mat dims.prod dims.prod := by
      ext i j
      simp [Arr.mat]
    rw [← hm]

/-! ## Descent -/

open C3.Optim.Scans in
/-- One step of `tf_sgd` from rest. -/
theorem first_step {k : ℕ} (x g : Fin k → ℝ) (lr m : ℝ) (grad : List ℝ → List ℝ) (hgrad : grad (List.ofFn x) = List.ofFn g) :
    (orbit lr m grad (List.ofFn x) 1).1 = List.ofFn fun i => x i - lr * g i := by
  apply List.ext_getElem
  · simp [orbit, sgdStep, hgrad]
  · intro i h1 h2
    simp [orbit, sgdStep, hgrad]
    ring

/-- The directional derivative from the partial ones. -/
theorem along {k : ℕ} (f : (Fin k → ℝ) → ℝ) (x g : Fin k → ℝ) (hf : DifferentiableAt ℝ f x)
    (hg : ∀ i, HasDerivAt (fun t => f (Function.update x i t)) (g i) (x i)) (v : Fin k → ℝ) :
    fderiv ℝ f x v = ∑ i, v i * g i := by
  have hp : ∀ i, fderiv ℝ f x (Pi.single i 1) = g i := by
    intro i
    have h1 : HasDerivAt (fun t => Function.update x i t) (Pi.single i (1 : ℝ)) (x i) := hasDerivAt_update x i (x i)
    have h2 : HasFDerivAt f (fderiv ℝ f x) (Function.update x i (x i)) := by
      rw [Function.update_eq_self]
      exact hf.hasFDerivAt
    exact (h2.comp_hasDerivAt (x i) h1).unique (hg i)
  have hv : v = ∑ i, v i • (Pi.single i 1 : Fin k → ℝ) := by
    funext j
    simp [Finset.sum_apply, Pi.single_apply]
  conv_lhs => rw [hv]
  simp only [map_sum, map_smul, hp, smul_eq_mul]

open C3.Optim.Scans in
/-- **C234**: where the gradient does not vanish, the first step of `tf_sgd` lowers a differentiable goal function, if the learning rate
is small enough. -/
theorem C234_descent {k : ℕ} (f : (Fin k → ℝ) → ℝ) (x g : Fin k → ℝ) (hf : ContDiff ℝ 1 f)
    (hg : ∀ i, HasDerivAt (fun t => f (Function.update x i t)) (g i) (x i)) (hne : g ≠ 0) (grad : List ℝ → List ℝ)
    (hgrad : grad (List.ofFn x) = List.ofFn g) :
    ∃ δ > 0, ∀ lr, 0 < lr → lr < δ → ∀ m, ∃ ev y, sgd grad (List.ofFn x)
      { maxfun := false, maxiters := some 1, learningRate := some lr, momentum := some m } = .ok (ev, List.ofFn y) ∧ f y < f x := by
  have hd : DifferentiableAt ℝ f x := hf.differentiable (by simp) x
  have hneg : fderiv ℝ f x (fun i => -g i) < 0 := by
    rw [along f x g hd hg]
    have : 0 < ∑ i, g i * g i := by
      obtain ⟨i, hi⟩ := Function.ne_iff.1 hne
      exact Finset.sum_pos' (fun j _ => mul_self_nonneg _) ⟨i, by simp, mul_self_pos.2 hi⟩
    simp only [neg_mul, Finset.sum_neg_distrib]
    linarith
  have hcurve : HasDerivAt (fun t : ℝ => f fun i => x i - t * g i) (fderiv ℝ f x fun i => -g i) 0 := by
    have h1 : HasDerivAt (fun (t : ℝ) (i : Fin k) => x i - t * g i) (fun i => -g i) 0 := by
      rw [hasDerivAt_pi]
      intro i
      have := ((hasDerivAt_id (0 : ℝ)).mul_const (g i)).const_sub (x i)
      simpa using this
    have h2 : HasFDerivAt f (fderiv ℝ f x) (fun i => x i - 0 * g i) := by
      simpa using hd.hasFDerivAt
    exact h2.comp_hasDerivAt 0 h1
  have hev : ∀ᶠ t in nhdsWithin (0 : ℝ) (Set.Ioi 0), (f fun i => x i - t * g i) < f x := by
    have h := hcurve.tendsto_slope_zero_right
    have h' := h.eventually (gt_mem_nhds hneg)
    filter_upwards [h', self_mem_nhdsWithin] with t ht htpos
    have hpos : (0 : ℝ) < t := htpos
    simp only [zero_add, zero_mul, sub_zero, smul_eq_mul] at ht
    by_contra hcon
    push Not at hcon
    have : 0 ≤ t⁻¹ * ((f fun i => x i - t * g i) - f x) := mul_nonneg (inv_nonneg.2 hpos.le) (by linarith)
    exact absurd ht (not_lt.2 this)
  obtain ⟨δ, hδ, hs⟩ := mem_nhdsGT_iff_exists_Ioo_subset.1 hev
  refine ⟨δ, hδ, fun lr h1 h2 m => ?_⟩
  have := C183_evaluations grad (List.ofFn x) { maxfun := false, maxiters := some 1, learningRate := some lr, momentum := some m } 1
    rfl rfl
  simp only [Option.getD_some] at this
  rw [first_step x g lr m grad hgrad] at this
  exact ⟨_, _, this, hs ⟨h1, h2⟩⟩

open C3.Optim.Scans in
/-- **C234**: a minimum is kept by `tf_sgd`. -/
theorem C234_kept {k : ℕ} (f : (Fin k → ℝ) → ℝ) (x g : Fin k → ℝ) (hmin : ∀ y, f x ≤ f y)
    (hg : ∀ i, HasDerivAt (fun t => f (Function.update x i t)) (g i) (x i)) (grad : List ℝ → List ℝ)
    (hgrad : grad (List.ofFn x) = List.ofFn g) (o : SgdOpts) (n : ℕ) (h1 : o.maxfun = false) (h2 : o.maxiters = some n) :
    ∃ ev, sgd grad (List.ofFn x) o = .ok (ev, List.ofFn x) := by
  have hz : g = 0 := by
    funext i
    have : IsLocalMin (fun t => f (Function.update x i t)) (x i) := by
      refine Filter.Eventually.of_forall fun t => ?_
      simp only [Function.update_eq_self]
      exact hmin _
    exact this.hasDerivAt_eq_zero (hg i)
  have h := C183_evaluations grad (List.ofFn x) o n h1 h2
  dsimp only at h
  rw [C183_stationary _ _ grad (List.ofFn x) (by rw [hgrad, hz, List.map_ofFn]; rfl) n] at h
  exact ⟨_, h⟩


/-! ## States: a corner -/

/-- Control Hamiltonian of a qubit. -/
noncomputable def flipH : Matrix (Fin 2) (Fin 2) ℂ := (1 / 2 : ℂ) • !![0, 1; 1, 0]

theorem flip_gate (c : ℝ) (bs : ℕ) (hbs : 1 ≤ bs) :
    pwc 0 [flipH] 1 [[c]] bs (Fold.stackFor 1) = some (Matrix.of fun x y : Fin 2 => Resonant.rot c 0 x y) := by
  have h := pwc_eq 0 [flipH] 1 [[c]] (by simp) bs hbs
  rw [List.length_singleton] at h
  rw [h]
  simp only [List.map_cons, List.map_nil, Fold.timeOrdered, List.reverse_singleton, List.prod_singleton, dUOfT, hamAt_eq_sum,
    List.zip_cons_cons, List.zip_nil_right, List.sum_cons, List.sum_nil]
  rw [← Resonant.C209_axis c 0]
  congr 2
  simp only [flipH, smul_smul, Real.cos_zero, Real.sin_zero, Complex.ofReal_one, Complex.ofReal_zero, zero_smul, add_zero, zero_add,
    one_smul]
  congr 1
  ring

/-- The first basis state. -/
def ket0 : Arr ℂ := ⟨2, 1, fun i _ => if i = 0 then 1 else 0⟩

/-- The ideal gate: exchange of the two states. -/
def exchange : Arr ℂ := ⟨2, 2, fun i j => if i = j then 0 else 1⟩

/-- **C234**: at a state orthogonal to the wanted one `state_transfer_infid` has a corner: for a driven qubit it is
`1 - |sin (c / 2)|`, which has no derivative at zero amplitude, although the propagator is differentiable. -/
theorem C234_false_state (bs : ℕ) (hbs : 1 ≤ bs) :
    ∃ (A : ℝ → Arr ℂ) (f : ℝ → ℝ), (∀ c, pwc 0 [flipH] 1 [[c]] bs (Fold.stackFor 1) = some ((A c).mat 2 2)) ∧
      SmoothA r 2 2 A ∧ (∀ c, stateTransferInfid exchange (A c) [0] [2] ket0 = some (f c)) ∧ ¬ DifferentiableAt ℝ f 0 := by
  have hA : SmoothA r 2 2 fun c : ℝ => (⟨2, 2, fun i j => Resonant.rot c 0 i j⟩ : Arr ℂ) := by
    refine ⟨fun _ => rfl, fun _ => rfl, fun i _ j _ => ?_⟩
    have h1 : ContDiff ℝ r fun c : ℝ => ((Real.cos (c / 2) : ℝ) : ℂ) :=
      Complex.ofRealCLM.contDiff.comp (Real.contDiff_cos.comp (contDiff_id.div_const 2))
    have h2 : ContDiff ℝ r fun c : ℝ => ((Real.sin (c / 2) : ℝ) : ℂ) :=
      Complex.ofRealCLM.contDiff.comp (Real.contDiff_sin.comp (contDiff_id.div_const 2))
    change ContDiff ℝ r fun c : ℝ => Resonant.rot c 0 i j
    unfold Resonant.rot
    split_ifs
    · exact h1
    · exact contDiff_const.mul h2
    · exact contDiff_const.mul h2
    · exact contDiff_const
    · exact contDiff_const
  have e0 : @Eq (Fin 2) (compEmb [2] [0] (by simp) (0 : Fin 2)) 0 := Fin.ext (by
    change flat [2] ((stateLabels [2]).getD 0 []) = 0
    decide)
  have e1 : @Eq (Fin 2) (compEmb [2] [0] (by simp) (1 : Fin 2)) 1 := Fin.ext (by
    change flat [2] ((stateLabels [2]).getD 1 []) = 1
    decide)
  refine ⟨fun c : ℝ => (⟨2, 2, fun i j => Resonant.rot c 0 i j⟩ : Arr ℂ), fun c => 1 - |Real.sin (c / 2)|, fun c => flip_gate c bs hbs, hA, fun c => ?_, ?_⟩
  · refine (state_value exchange _ ket0 [2] [0] (by simp) (by simp) (by simp) (by simp) rfl rfl rfl rfl rfl).trans ?_
    have key : ∀ E : Fin 2 → Fin 2, E 0 = 0 → E 1 = 1 →
        ‖∑ k : Fin 2, star ((exchange.mat 2 2 *ᵥ colVec ket0 2) k) *
          ((((⟨2, 2, fun i j => Resonant.rot c 0 i j⟩ : Arr ℂ).mat 2 2).submatrix E E) *ᵥ colVec ket0 2) k‖ =
          |Real.sin (c / 2)| := by
      intro E h0 h1
      simp [Fin.sum_univ_two, Matrix.mulVec, dotProduct, exchange, ket0, colVec, Arr.mat, h0, h1, Resonant.rot,
        -Complex.ofReal_ofNat, -Complex.ofReal_div, -Complex.ofReal_sin]
    exact congrArg (fun x : ℝ => some (1 - x)) (key (compEmb [2] [0] (by simp)) e0 e1)
  · intro h
    have h1 : DifferentiableAt ℝ (fun c : ℝ => |Real.sin (c / 2)|) 0 := by
      have := h.const_sub 1
      simpa using this
    have h2 : DifferentiableAt ℝ (fun x : ℝ => |Real.sin (2 * Real.arcsin x / 2)|) 0 := by
      have h3 : DifferentiableAt ℝ (fun x : ℝ => 2 * Real.arcsin x) 0 :=
        (Real.differentiableAt_arcsin.2 ⟨by norm_num, by norm_num⟩).const_mul 2
      have h4 : DifferentiableAt ℝ (fun c : ℝ => |Real.sin (c / 2)|) (2 * Real.arcsin 0) := by
        rw [Real.arcsin_zero, mul_zero]
        exact h1
      exact h4.comp (0 : ℝ) h3
    refine not_differentiableAt_abs_zero (h2.congr_of_eventuallyEq ?_)
    filter_upwards [Icc_mem_nhds (show (-1 : ℝ) < 0 by norm_num) (show (0 : ℝ) < 1 by norm_num)] with x hx
    rw [mul_div_cancel_left₀ _ two_ne_zero, Real.sin_arcsin hx.1 hx.2]


/-! ## Examples -/

/-- A driven qubit with parameters: detuning and two samples. -/
example : ∃ U : (Fin 3 → ℝ) → Matrix (Fin 2) (Fin 2) ℂ, SmoothM (⊤ : WithTop ℕ∞) U ∧ ∀ p,
    pwc ((p 0 : ℂ) • !![0, 0; 0, 1]) [flipH] 1 [[p 1], [p 2]] 1 (Fold.stackFor 2) = some (U p) := by
  have hc : ∀ i : Fin 3, ContDiff ℝ (⊤ : WithTop ℕ∞) fun p : Fin 3 → ℝ => p i := fun i => contDiff_apply ℝ ℝ i
  have := C234_gate (P := Fin 3 → ℝ) (r := ⊤) (fun p => (p 0 : ℂ) • !![0, 0; 0, 1]) [fun _ => flipH]
    (SmoothM.smul (Complex.ofRealCLM.contDiff.comp (hc 0)) (SmoothM.const _)) (by simpa using SmoothM.const _) 1
    [[fun p => p 1], [fun p => p 2]] (by simp) (by simpa using ⟨hc 1, hc 2⟩) 1 le_rfl
  simpa using this

/-- The descent theorem applies to a parabola. -/
example : ∃ δ > 0, ∀ lr, 0 < lr → lr < δ → ∀ m, ∃ ev y, C3.Optim.Scans.sgd (fun l => l.map fun y => 2 * y) [1]
    { maxfun := false, maxiters := some 1, learningRate := some lr, momentum := some m } = .ok (ev, List.ofFn y) ∧
      (fun x : Fin 1 → ℝ => x 0 ^ 2) y < 1 := by
  have := C234_descent (k := 1) (fun x => x 0 ^ 2) (fun _ => 1) (fun _ => 2) ((contDiff_apply ℝ ℝ 0).pow 2) (by
      intro i
      obtain rfl : i = 0 := Subsingleton.elim _ _
      simpa using hasDerivAt_pow 2 (1 : ℝ)) (fun h => two_ne_zero (congrFun h 0)) (fun l => l.map fun y => 2 * y) (by simp)
  simpa using this

end C3.Experiment.Smooth
