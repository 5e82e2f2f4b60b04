import Verif.Gates.Tables
import Mathlib.NumberTheory.Zsqrtd.GaussianInt
import Mathlib.Tactic.IntervalCases

/-!
# C59, C60: Clifford gates and randomized benchmarking

`CLIFFORDS` (c3/libraries/constants.py:96-121), `inverseC`, `single_length_RB` and `cliffords_decomp`
(c3/utils/qt_utils.py:448-553).
-/

namespace C3.Gates

open Matrix Complex

/-- The four gates the Cliffords are made of. -/
inductive G4 where
  | x90p | y90p | x90m | y90m
  deriving DecidableEq, Repr

/-- Their matrices, c3/libraries/constants.py:91-94. -/
noncomputable def G4.mat : G4 → Matrix (Fin 2) (Fin 2) ℂ
  | .x90p => C3.Gates.x90p
  | .y90p => C3.Gates.y90p
  | .x90m => C3.Gates.x90m
  | .y90m => C3.Gates.y90m

/-- Their names in the gate table. -/
def G4.name : G4 → String
  | .x90p => "rx90p"
  | .y90p => "ry90p"
  | .x90m => "rx90m"
  | .y90m => "ry90m"

/-- c3/libraries/constants.py:96-121: the factors of `CLIFFORDS["C" + str(i)]`, in the order they are
written (the last one acts first). Other numbers are not in the table. -/
def cliffWord : ℕ → List G4
  | 1 => [.x90m, .x90p]
  | 2 => [.x90p, .y90p]
  | 3 => [.y90m, .x90m]
  | 4 => [.x90p, .x90p, .y90p]
  | 5 => [.x90m]
  | 6 => [.x90m, .y90m, .x90p]
  | 7 => [.x90p, .x90p]
  | 8 => [.x90m, .y90m]
  | 9 => [.y90m, .x90p]
  | 10 => [.y90m]
  | 11 => [.x90p]
  | 12 => [.x90p, .y90p, .x90p]
  | 13 => [.y90p, .y90p]
  | 14 => [.x90p, .y90m]
  | 15 => [.y90p, .x90p]
  | 16 => [.x90p, .x90p, .y90m]
  | 17 => [.y90p, .y90p, .x90p]
  | 18 => [.x90p, .y90m, .x90p]
  | 19 => [.y90p, .y90p, .x90p, .x90p]
  | 20 => [.x90m, .y90p]
  | 21 => [.y90p, .x90m]
  | 22 => [.y90p]
  | 23 => [.y90p, .y90p, .x90m]
  | 24 => [.x90m, .y90p, .x90p]
  | _ => []

/-- `A @ B @ ...`. -/
noncomputable def matmul (l : List G4) : Matrix (Fin 2) (Fin 2) ℂ := (l.map G4.mat).prod

/-- `CLIFFORDS["C" + str(i)]`; `none` is a `KeyError`. -/
noncomputable def cliffords (i : ℕ) : Option (Matrix (Fin 2) (Fin 2) ℂ) :=
  if 1 ≤ i ∧ i ≤ 24 then some (matmul (cliffWord i)) else none

/-- c3/utils/qt_utils.py:528-553 `cliffords_decomp`. -/
def cliffordsDecomp : List (List G4) :=
  [
    [.x90p, .x90m],
    [.y90p, .x90p],
    [.x90m, .y90m],
    [.y90p, .x90p, .x90p],
    [.x90m],
    [.x90p, .y90m, .x90m],
    [.x90p, .x90p],
    [.y90m, .x90m],
    [.x90p, .y90m],
    [.y90m],
    [.x90p],
    [.x90p, .y90p, .x90p],
    [.y90p, .y90p],
    [.y90m, .x90p],
    [.x90p, .y90p],
    [.y90m, .x90p, .x90p],
    [.x90p, .y90p, .y90p],
    [.x90p, .y90m, .x90p],
    [.x90p, .x90p, .y90p, .y90p],
    [.y90p, .x90m],
    [.x90m, .y90p],
    [.y90p],
    [.x90m, .y90p, .y90p],
    [.x90p, .y90p, .x90m]
  ]

open scoped Classical in
/-- c3/utils/qt_utils.py:480-491 `inverseC`. The outer `none` is a `KeyError` for an unknown number, the
inner one is the implicit `return None` when no Clifford fits. -/
noncomputable def inverseC (sequence : List ℕ) : Option (Option ℕ) :=
  let step (op : Option (Matrix (Fin 2) (Fin 2) ℂ)) (cliff : ℕ) : Option (Matrix (Fin 2) (Fin 2) ℂ) :=
    match op, cliffords cliff with
    | some op, some gate => some (gate * op)
    | _, _ => none
  match sequence.foldl step (some 1) with
  | none => none
  | some op =>
    some ((List.range' 1 24).find? fun i =>
      decide (|2 - ‖(matmul (cliffWord i) * op).trace‖| < 0.0001))

/-- c3/utils/qt_utils.py:448-477 `single_length_RB`, one sequence; `choice` is the outcome of
`np.random.choice(24, size=RB_length - 1)`, every element below 24. The result holds the gate names
without the target. `none` is an exception. -/
noncomputable def singleRB (choice : List ℕ) : Option (List G4) :=
  let seq := choice.map (· + 1)
  match inverseC seq with
  | some (some i) => some ((seq ++ [i]).flatMap fun c => cliffordsDecomp.getD (c - 1) [])
  | _ => none

/-! ## Exact arithmetic -/

/-- 2×2 matrices of Gaussian integers, row by row. -/
structure GM where
  a : GaussianInt
  b : GaussianInt
  c : GaussianInt
  d : GaussianInt
  deriving DecidableEq

def GM.mul (x y : GM) : GM :=
  ⟨x.a * y.a + x.b * y.c, x.a * y.b + x.b * y.d, x.c * y.a + x.d * y.c, x.c * y.b + x.d * y.d⟩

def GM.one : GM := ⟨1, 0, 0, 1⟩

def GM.scale (z : GaussianInt) (x : GM) : GM := ⟨z * x.a, z * x.b, z * x.c, z * x.d⟩

/-- `√2` times the gate. -/
def G4.gm : G4 → GM
  | .x90p => ⟨1, ⟨0, -1⟩, ⟨0, -1⟩, 1⟩
  | .y90p => ⟨1, -1, 1, 1⟩
  | .x90m => ⟨1, ⟨0, 1⟩, ⟨0, 1⟩, 1⟩
  | .y90m => ⟨1, 1, -1, 1⟩

def gmWord (l : List G4) : GM := l.foldr (fun g m => g.gm.mul m) GM.one

noncomputable def GM.toC (x : GM) : Matrix (Fin 2) (Fin 2) ℂ :=
  !![GaussianInt.toComplex x.a, GaussianInt.toComplex x.b;
    GaussianInt.toComplex x.c, GaussianInt.toComplex x.d]

theorem GM.toC_mul (x y : GM) : (x.mul y).toC = x.toC * y.toC := by
  unfold GM.toC GM.mul
  ext i j
  fin_cases i <;> fin_cases j <;> simp [Matrix.mul_apply, Fin.sum_univ_two]

theorem GM.toC_one : GM.one.toC = 1 := by
  unfold GM.toC GM.one
  ext i j
  fin_cases i <;> fin_cases j <;> simp

theorem GM.toC_scale (z : GaussianInt) (x : GM) :
    (GM.scale z x).toC = GaussianInt.toComplex z • x.toC := by
  unfold GM.toC GM.scale
  ext i j
  fin_cases i <;> fin_cases j <;> simp

theorem G4.mat_eq (g : G4) : g.mat = r2 • g.gm.toC := by
  cases g
  · change C3.Gates.x90p = _
    rw [x90p_eq]
    congr 1
    ext i j
    fin_cases i <;> fin_cases j <;> simp [GM.toC, G4.gm, GaussianInt.toComplex_def]
  · change C3.Gates.y90p = _
    rw [y90p_eq]
    congr 1
    ext i j
    fin_cases i <;> fin_cases j <;> simp [GM.toC, G4.gm]
  · change C3.Gates.x90m = _
    rw [x90m_eq]
    congr 1
    ext i j
    fin_cases i <;> fin_cases j <;> simp [GM.toC, G4.gm, GaussianInt.toComplex_def]
  · change C3.Gates.y90m = _
    rw [y90m_eq]
    congr 1
    ext i j
    fin_cases i <;> fin_cases j <;> simp [GM.toC, G4.gm]

theorem matmul_eq (l : List G4) : matmul l = r2 ^ l.length • (gmWord l).toC := by
  unfold matmul gmWord
  induction l with
  | nil => simp [GM.toC_one]
  | cons g l ih =>
    rw [List.map_cons, List.prod_cons, ih, List.foldr_cons, GM.toC_mul, G4.mat_eq, Matrix.smul_mul,
      Matrix.mul_smul, smul_smul, List.length_cons, pow_succ, mul_comm]

theorem G4.unitary (g : G4) : g.matᴴ * g.mat = 1 := by
  cases g
  · exact C56_unitary .rx90p
  · exact C56_unitary .ry90p
  · exact C56_unitary .rx90m
  · exact C56_unitary .ry90m

theorem matmul_unitary (l : List G4) : (matmul l)ᴴ * matmul l = 1 := by
  unfold matmul
  induction l with
  | nil => simp
  | cons g l ih =>
    rw [List.map_cons, List.prod_cons, Matrix.conjTranspose_mul, Matrix.mul_assoc,
      ← Matrix.mul_assoc _ᴴ g.mat, g.unitary, Matrix.one_mul, ih]

/-! ## C60 -/

/-- The unitary of a gate list applied from left to right in time. -/
noncomputable def runGates (l : List G4) : Matrix (Fin 2) (Fin 2) ℂ :=
  l.foldl (fun U g => g.mat * U) 1

theorem runGates_eq (l : List G4) : runGates l = matmul l.reverse := by
  unfold runGates matmul
  have : ∀ (l : List G4) (U : Matrix (Fin 2) (Fin 2) ℂ),
      l.foldl (fun U g => g.mat * U) U = (l.reverse.map G4.mat).prod * U := by
    intro l
    induction l with
    | nil => simp
    | cons g l ih =>
      intro U
      rw [List.foldl_cons, ih, List.reverse_cons, List.map_append, List.prod_append]
      simp [Matrix.mul_assoc]
  rw [this, Matrix.mul_one]

/-- C60: there are 24 decompositions; each is the list of factors of the tabulated Clifford in the
order they act, so running it gives exactly the tabulated matrix. -/
theorem C60_decomposition (i : ℕ) (h1 : 1 ≤ i) (h2 : i ≤ 24) :
    cliffordsDecomp.length = 24 ∧
    cliffords i = some (runGates (cliffordsDecomp.getD (i - 1) [])) := by
  refine ⟨rfl, ?_⟩
  unfold cliffords
  rw [if_pos ⟨h1, h2⟩, runGates_eq]
  congr 2
  interval_cases i <;> rfl

/-! ## C59 -/

/-- Equal up to a factor, checked with cross products. -/
def GM.prop (x y : GM) : Bool :=
  let xs := [x.a, x.b, x.c, x.d]
  let ys := [y.a, y.b, y.c, y.d]
  (List.range 4).all fun i => (List.range 4).all fun j =>
    xs.getD i 0 * ys.getD j 0 = xs.getD j 0 * ys.getD i 0

def cliffGM (i : ℕ) : GM := gmWord (cliffWord i)

/-- The product table, computed. -/
def cliffMul (i j : ℕ) : ℕ :=
  ((List.range' 1 24).find? fun k => ((cliffGM i).mul (cliffGM j)).prop (cliffGM k)).getD 0

theorem cliff_table : ∀ i ∈ List.range' 1 24, ∀ j ∈ List.range' 1 24,
    cliffMul i j ∈ List.range' 1 24 ∧
      ((cliffGM i).mul (cliffGM j)).prop (cliffGM (cliffMul i j)) = true := by
  decide +kernel

theorem cliff_inverse_left_table : ∀ j ∈ List.range' 1 24,
    ((List.range' 1 24).filter fun i => cliffMul i j = 1).length = 1 := by
  decide +kernel

theorem cliff_inverse_right_table : ∀ k ∈ List.range' 1 24,
    ((List.range' 1 24).filter fun i => cliffMul k i = 1).length = 1 := by
  decide +kernel

theorem filter_unique {l : List ℕ} {p : ℕ → Prop} [DecidablePred p]
    (h : (l.filter fun i => p i).length = 1) {i j : ℕ} (hi : i ∈ l) (hj : j ∈ l) (pi : p i)
    (pj : p j) : i = j := by
  obtain ⟨a, ha⟩ := List.length_eq_one_iff.1 h
  have h1 : i ∈ l.filter fun i => p i := by simp [hi, pi]
  have h2 : j ∈ l.filter fun i => p i := by simp [hj, pj]
  rw [ha, List.mem_singleton] at h1 h2
  rw [h1, h2]

theorem cliff_inverse (j : ℕ) (hj : j ∈ List.range' 1 24) :
    ∃ i ∈ List.range' 1 24, cliffMul i j = 1 := by
  obtain ⟨a, ha⟩ := List.length_eq_one_iff.1 (cliff_inverse_left_table j hj)
  have : a ∈ (List.range' 1 24).filter fun i => cliffMul i j = 1 := by rw [ha]; simp
  rw [List.mem_filter, decide_eq_true_eq] at this
  exact ⟨a, this⟩

/-- Trace of a Gaussian matrix. -/
def GM.tr (x : GM) : GaussianInt := x.a + x.d

theorem cliff_traces : ∀ k ∈ List.range' 1 24,
    if k = 1 then (cliffGM k).tr.norm = 4 * 2 ^ (cliffWord k).length
    else (cliffGM k).tr.norm ≤ 2 * 2 ^ (cliffWord k).length := by
  decide +kernel

/-- Specification: equal up to a global phase. -/
def PhaseEq (A B : Matrix (Fin 2) (Fin 2) ℂ) : Prop := ∃ c : ℂ, ‖c‖ = 1 ∧ A = c • B

theorem PhaseEq.refl (A : Matrix (Fin 2) (Fin 2) ℂ) : PhaseEq A A := ⟨1, by simp, by simp⟩

theorem PhaseEq.trans {A B C : Matrix (Fin 2) (Fin 2) ℂ} (h : PhaseEq A B) (h' : PhaseEq B C) :
    PhaseEq A C := by
  obtain ⟨c, hc, rfl⟩ := h
  obtain ⟨d, hd, rfl⟩ := h'
  exact ⟨c * d, by rw [norm_mul, hc, hd, one_mul], by rw [smul_smul]⟩

theorem PhaseEq.mul_left {A B : Matrix (Fin 2) (Fin 2) ℂ} (h : PhaseEq A B)
    (C : Matrix (Fin 2) (Fin 2) ℂ) : PhaseEq (C * A) (C * B) := by
  obtain ⟨c, hc, rfl⟩ := h
  exact ⟨c, hc, Matrix.mul_smul _ _ _⟩

theorem PhaseEq.norm_trace {A B : Matrix (Fin 2) (Fin 2) ℂ} (h : PhaseEq A B) :
    ‖A.trace‖ = ‖B.trace‖ := by
  obtain ⟨c, hc, rfl⟩ := h
  rw [Matrix.trace_smul, smul_eq_mul, norm_mul, hc, one_mul]

theorem cross_entries (x y : GM) (h : x.prop y = true) (i j k l : Fin 2) :
    x.toC i j * y.toC k l = x.toC k l * y.toC i j := by
  unfold GM.prop at h
  simp only [List.all_eq_true, List.mem_range, decide_eq_true_eq] at h
  have hx : ∀ i j : Fin 2, x.toC i j =
      GaussianInt.toComplex ([x.a, x.b, x.c, x.d].getD (2 * i + j) 0) := by
    intro i j
    fin_cases i <;> fin_cases j <;> rfl
  have hy : ∀ i j : Fin 2, y.toC i j =
      GaussianInt.toComplex ([y.a, y.b, y.c, y.d].getD (2 * i + j) 0) := by
    intro i j
    fin_cases i <;> fin_cases j <;> rfl
  rw [hx, hx, hy, hy, ← map_mul, ← map_mul,
    h (2 * i + j) (by omega) (2 * k + l) (by omega)]

theorem phase_of_cross {A B : Matrix (Fin 2) (Fin 2) ℂ} (hA : Aᴴ * A = 1) (hB : Bᴴ * B = 1)
    (h : ∀ i j k l, A i j * B k l = A k l * B i j) : PhaseEq A B := by
  have hne : ∃ k l, B k l ≠ 0 := by
    by_contra hcon
    push Not at hcon
    have : B = 0 := by
      ext k l
      exact hcon k l
    rw [this] at hB
    have := congrFun (congrFun hB 0) 0
    simp at this
  obtain ⟨k, l, hkl⟩ := hne
  have hAB : A = (A k l / B k l) • B := by
    ext i j
    rw [Matrix.smul_apply, smul_eq_mul, div_mul_eq_mul_div, eq_div_iff hkl]
    exact h i j k l
  refine ⟨_, ?_, hAB⟩
  generalize A k l / B k l = c at hAB
  rw [hAB, Matrix.conjTranspose_smul, Matrix.smul_mul, Matrix.mul_smul, smul_smul, hB] at hA
  have h00 := congrFun (congrFun hA 0) 0
  simp only [Matrix.smul_apply, Matrix.one_apply_eq, smul_eq_mul, mul_one, RCLike.star_def] at h00
  rw [mul_comm, Complex.mul_conj, Complex.normSq_eq_norm_sq] at h00
  have h1 : ‖c‖ ^ 2 = 1 := by exact_mod_cast h00
  nlinarith [norm_nonneg c]

theorem cliffGM_mat (i : ℕ) :
    matmul (cliffWord i) = r2 ^ (cliffWord i).length • (cliffGM i).toC := matmul_eq _

/-- Products of two Cliffords are Cliffords, up to a phase. -/
theorem cliff_mul_phase (i j : ℕ) (hi : i ∈ List.range' 1 24) (hj : j ∈ List.range' 1 24) :
    cliffMul i j ∈ List.range' 1 24 ∧
      PhaseEq (matmul (cliffWord i) * matmul (cliffWord j)) (matmul (cliffWord (cliffMul i j))) := by
  obtain ⟨h1, h2⟩ := cliff_table i hi j hj
  refine ⟨h1, phase_of_cross ?_ (matmul_unitary _) ?_⟩
  · rw [Matrix.conjTranspose_mul, Matrix.mul_assoc, ← Matrix.mul_assoc _ᴴ (matmul (cliffWord i)),
      matmul_unitary, Matrix.one_mul, matmul_unitary]
  · intro a b k l
    have hc := cross_entries _ _ h2 a b k l
    rw [GM.toC_mul] at hc
    rw [cliffGM_mat i, cliffGM_mat j, cliffGM_mat (cliffMul i j), Matrix.smul_mul, Matrix.mul_smul,
      smul_smul]
    simp only [Matrix.smul_apply, smul_eq_mul]
    linear_combination (r2 ^ (cliffWord i).length * r2 ^ (cliffWord j).length *
      r2 ^ (cliffWord (cliffMul i j)).length) * hc

theorem r2_norm : ‖r2‖ ^ 2 = 1 / 2 := by
  rw [← norm_pow, pow_two, r2_sq]
  norm_num

theorem trace_norm_sq (k : ℕ) : ‖(matmul (cliffWord k)).trace‖ ^ 2 * 2 ^ (cliffWord k).length =
    ((cliffGM k).tr.norm : ℝ) := by
  rw [cliffGM_mat, Matrix.trace_smul, smul_eq_mul, norm_mul, mul_pow, norm_pow, ← pow_mul,
    mul_comm (cliffWord k).length 2, pow_mul, r2_norm]
  have ht : (cliffGM k).toC.trace = GaussianInt.toComplex (cliffGM k).tr := by
    rw [Matrix.trace_fin_two]
    simp [GM.toC, GM.tr]
  rw [ht, ← Complex.normSq_eq_norm_sq, ← GaussianInt.intCast_real_norm]
  rw [div_pow, one_pow]
  field_simp

/-- The test of `inverseC` singles out the identity. -/
theorem test_iff (k : ℕ) (hk : k ∈ List.range' 1 24) :
    |2 - ‖(matmul (cliffWord k)).trace‖| < 0.0001 ↔ k = 1 := by
  have ht := cliff_traces k hk
  have hn := trace_norm_sq k
  have hpos : (0 : ℝ) < 2 ^ (cliffWord k).length := by positivity
  have h0 := norm_nonneg (matmul (cliffWord k)).trace
  constructor
  · intro h
    by_contra hne
    rw [if_neg hne] at ht
    have ht' : ((cliffGM k).tr.norm : ℝ) ≤ 2 * 2 ^ (cliffWord k).length := by exact_mod_cast ht
    rw [← hn] at ht'
    have h2 := le_of_mul_le_mul_right ht' hpos
    rw [abs_lt] at h
    nlinarith [h.1, h.2]
  · rintro rfl
    rw [if_pos rfl] at ht
    have ht' : ((cliffGM 1).tr.norm : ℝ) = 4 * 2 ^ (cliffWord 1).length := by exact_mod_cast ht
    rw [← hn] at ht'
    have h2 := mul_right_cancel₀ hpos.ne' ht'
    have h3 : ‖(matmul (cliffWord 1)).trace‖ = 2 := by
      nlinarith
    rw [h3]
    norm_num

theorem cliff_one : matmul (cliffWord 1) = 1 := by
  change ([G4.x90m, G4.x90p].map G4.mat).prod = 1
  simp only [List.map_cons, List.map_nil, List.prod_cons, List.prod_nil, Matrix.mul_one]
  exact C56_inverse_pairs.1.1

/-- The unitary of a list of Clifford numbers, the first one acting first. -/
noncomputable def runCliffs (seq : List ℕ) : Matrix (Fin 2) (Fin 2) ℂ :=
  seq.foldl (fun U c => matmul (cliffWord c) * U) 1

theorem foldl_cliff (seq : List ℕ) (h : ∀ c ∈ seq, c ∈ List.range' 1 24)
    (U : Matrix (Fin 2) (Fin 2) ℂ) :
    seq.foldl (fun (op : Option (Matrix (Fin 2) (Fin 2) ℂ)) (cliff : ℕ) =>
      match op, cliffords cliff with
      | some op, some gate => some (gate * op)
      | _, _ => none) (some U) =
    some (seq.foldl (fun U c => matmul (cliffWord c) * U) U) := by
  induction seq generalizing U with
  | nil => rfl
  | cons c seq ih =>
    have hc := h c List.mem_cons_self
    rw [List.mem_range'_1] at hc
    rw [List.foldl_cons, List.foldl_cons]
    have : cliffords c = some (matmul (cliffWord c)) := by
      unfold cliffords
      rw [if_pos ⟨hc.1, by omega⟩]
    simp only [this]
    exact ih (fun d hd => h d (List.mem_cons_of_mem _ hd)) _

theorem runCliffs_class (seq : List ℕ) (h : ∀ c ∈ seq, c ∈ List.range' 1 24) :
    ∃ j ∈ List.range' 1 24, PhaseEq (runCliffs seq) (matmul (cliffWord j)) := by
  unfold runCliffs
  have : ∀ (U : Matrix (Fin 2) (Fin 2) ℂ) (j : ℕ), j ∈ List.range' 1 24 →
      PhaseEq U (matmul (cliffWord j)) →
      ∃ j ∈ List.range' 1 24, PhaseEq (seq.foldl (fun U c => matmul (cliffWord c) * U) U)
        (matmul (cliffWord j)) := by
    induction seq with
    | nil => exact fun U j hj hU => ⟨j, hj, hU⟩
    | cons c seq ih =>
      intro U j hj hU
      rw [List.foldl_cons]
      obtain ⟨hm, hp⟩ := cliff_mul_phase c j (h c List.mem_cons_self) hj
      exact ih (fun d hd => h d (List.mem_cons_of_mem _ hd)) _ (cliffMul c j) hm
        ((hU.mul_left _).trans hp)
  refine this 1 1 (by decide) ?_
  rw [cliff_one]
  exact PhaseEq.refl 1

/-- C59: for every sequence of Clifford numbers `inverseC` finds a Clifford that returns the sequence
to the identity, up to a phase; no other Clifford does. -/
theorem C59_inverse (seq : List ℕ) (h : ∀ c ∈ seq, 1 ≤ c ∧ c ≤ 24) :
    ∃ i, inverseC seq = some (some i) ∧ 1 ≤ i ∧ i ≤ 24 ∧ PhaseEq (runCliffs (seq ++ [i])) 1 ∧
      ∀ i', 1 ≤ i' → i' ≤ 24 → PhaseEq (runCliffs (seq ++ [i'])) 1 → i' = i := by
  have h' : ∀ c ∈ seq, c ∈ List.range' 1 24 := fun c hc => by
    rw [List.mem_range'_1]
    have := h c hc
    omega
  obtain ⟨j, hj, hop⟩ := runCliffs_class seq h'
  have htest : ∀ i ∈ List.range' 1 24,
      (|2 - ‖(matmul (cliffWord i) * runCliffs seq).trace‖| < 0.0001 ↔ cliffMul i j = 1) := by
    intro i hi
    obtain ⟨hm, hp⟩ := cliff_mul_phase i j hi hj
    rw [((hop.mul_left _).trans hp).norm_trace]
    exact test_iff _ hm
  have happ : ∀ i, runCliffs (seq ++ [i]) = matmul (cliffWord i) * runCliffs seq := by
    intro i
    unfold runCliffs
    rw [List.foldl_append]
    rfl
  have hphase : ∀ i ∈ List.range' 1 24, (cliffMul i j = 1 ↔ PhaseEq (runCliffs (seq ++ [i])) 1) := by
    intro i hi
    obtain ⟨hm, hp⟩ := cliff_mul_phase i j hi hj
    rw [happ]
    constructor
    · intro he
      have := (hop.mul_left (matmul (cliffWord i))).trans hp
      rwa [he, cliff_one] at this
    · intro hph
      rw [← htest i hi, hph.norm_trace]
      simp
      norm_num
  have hinv : inverseC seq = some ((List.range' 1 24).find? fun i =>
      decide (|2 - ‖(matmul (cliffWord i) * runCliffs seq).trace‖| < 0.0001)) := by
    unfold inverseC
    simp only [foldl_cliff seq h' 1]
    rfl
  obtain ⟨i₀, hi₀, he₀⟩ := cliff_inverse j hj
  cases hf : (List.range' 1 24).find? fun i =>
      decide (|2 - ‖(matmul (cliffWord i) * runCliffs seq).trace‖| < 0.0001) with
  | none =>
    have := List.find?_eq_none.1 hf i₀ hi₀
    simp only [decide_eq_true_eq] at this
    exact absurd ((htest i₀ hi₀).2 he₀) this
  | some i =>
    have hi := List.mem_of_find?_eq_some hf
    have hs := List.find?_some hf
    simp only [decide_eq_true_eq] at hs
    have hmem := List.mem_range'_1.1 hi
    have he := (htest i hi).1 hs
    refine ⟨i, by rw [hinv, hf], hmem.1, by omega, (hphase i hi).1 he, fun i' h1 h2 hp => ?_⟩
    have hi' : i' ∈ List.range' 1 24 := by
      rw [List.mem_range'_1]
      omega
    exact filter_unique (p := fun i => cliffMul i j = 1) (cliff_inverse_left_table j hj) hi' hi
      ((hphase i' hi').2 hp) he

/-- C59: a number outside of 1 to 24 raises. -/
theorem C59_unknown (seq : List ℕ) (c : ℕ) (hc : c ∈ seq) (h : c = 0 ∨ 24 < c) :
    inverseC seq = none := by
  have hn : cliffords c = none := by
    unfold cliffords
    rw [if_neg (by omega)]
  have hstep : ∀ (l : List ℕ), l.foldl (fun (op : Option (Matrix (Fin 2) (Fin 2) ℂ)) (cliff : ℕ) =>
      match op, cliffords cliff with
      | some op, some gate => some (gate * op)
      | _, _ => none) none = none := by
    intro l
    induction l with
    | nil => rfl
    | cons a l ih => exact ih
  have : ∀ (U : Option (Matrix (Fin 2) (Fin 2) ℂ)),
      seq.foldl (fun (op : Option (Matrix (Fin 2) (Fin 2) ℂ)) (cliff : ℕ) =>
      match op, cliffords cliff with
      | some op, some gate => some (gate * op)
      | _, _ => none) U = none := by
    induction seq with
    | nil => simp at hc
    | cons a l ih =>
      intro U
      rw [List.foldl_cons]
      rcases List.mem_cons.1 hc with rfl | hc
      · rw [hn]
        cases U <;> exact hstep l
      · exact ih hc _
  unfold inverseC
  simp only [this]

theorem runGates_append (a b : List G4) : runGates (a ++ b) = runGates b * runGates a := by
  rw [runGates_eq, runGates_eq, runGates_eq, List.reverse_append]
  unfold matmul
  rw [List.map_append, List.prod_append]

theorem runGates_cliffs (seq : List ℕ) (h : ∀ c ∈ seq, 1 ≤ c ∧ c ≤ 24) :
    runGates (seq.flatMap fun c => cliffordsDecomp.getD (c - 1) []) = runCliffs seq := by
  induction seq using List.reverseRecOn with
  | nil => rfl
  | append_singleton seq c ih =>
    have hc := h c (by simp)
    obtain ⟨-, hd⟩ := C60_decomposition c hc.1 hc.2
    unfold cliffords at hd
    rw [if_pos hc] at hd
    rw [List.flatMap_append, runGates_append, ih fun d hd => h d (by simp [hd])]
    simp only [List.flatMap_cons, List.flatMap_nil, List.append_nil]
    rw [← Option.some.inj hd]
    unfold runCliffs
    rw [List.foldl_append]
    rfl

/-- C59: every randomized benchmarking sequence, whatever Cliffords are drawn, composes to the identity
up to a phase when run with the ideal gates. It consists of the decompositions of the drawn Cliffords
followed by that of one more. -/
theorem C59_rb (choice : List ℕ) (h : ∀ c ∈ choice, c < 24) :
    ∃ gates, singleRB choice = some gates ∧ PhaseEq (runGates gates) 1 ∧
      ∃ i, 1 ≤ i ∧ i ≤ 24 ∧
        gates = (choice.map (· + 1) ++ [i]).flatMap fun c => cliffordsDecomp.getD (c - 1) [] := by
  have hs : ∀ c ∈ choice.map (· + 1), 1 ≤ c ∧ c ≤ 24 := by
    intro c hc
    obtain ⟨d, hd, rfl⟩ := List.mem_map.1 hc
    have := h d hd
    omega
  obtain ⟨i, hi, h1, h2, hp, -⟩ := C59_inverse _ hs
  refine ⟨_, by unfold singleRB; simp only [hi], ?_, i, h1, h2, rfl⟩
  rw [runGates_cliffs]
  · exact hp
  · intro c hc
    rcases List.mem_append.1 hc with hc | hc
    · exact hs c hc
    · simp only [List.mem_singleton] at hc
      subst hc
      exact ⟨h1, h2⟩

/-- C59: the 24 Cliffords are distinct up to phases and closed under products: with C59_inverse they
form a group of 24 elements modulo phases. -/
theorem C59_group (i j : ℕ) (hi : 1 ≤ i ∧ i ≤ 24) (hj : 1 ≤ j ∧ j ≤ 24) :
    (∃ k, 1 ≤ k ∧ k ≤ 24 ∧
      PhaseEq (matmul (cliffWord i) * matmul (cliffWord j)) (matmul (cliffWord k))) ∧
    (PhaseEq (matmul (cliffWord i)) (matmul (cliffWord j)) → i = j) := by
  have hmem : ∀ k, 1 ≤ k ∧ k ≤ 24 → k ∈ List.range' 1 24 := fun k hk => by
    rw [List.mem_range'_1]
    omega
  constructor
  · obtain ⟨h1, h2⟩ := cliff_mul_phase i j (hmem i hi) (hmem j hj)
    have := List.mem_range'_1.1 h1
    exact ⟨_, this.1, by omega, h2⟩
  · intro hp
    obtain ⟨k, hk, he⟩ := cliff_inverse j (hmem j hj)
    obtain ⟨-, h2⟩ := cliff_mul_phase k j hk (hmem j hj)
    obtain ⟨h3, h4⟩ := cliff_mul_phase k i hk (hmem i hi)
    rw [he, cliff_one] at h2
    have h5 : cliffMul k i = 1 := by
      rw [← test_iff _ h3, ← h4.norm_trace, ((hp.mul_left _).trans h2).norm_trace]
      simp
      norm_num
    exact filter_unique (p := fun i => cliffMul k i = 1) (cliff_inverse_right_table k hk) (hmem i hi)
      (hmem j hj) h5 he

/-- C59: the gate table has each of the four gates under the name that randomized benchmarking uses, with the same
matrix. -/
theorem C59_names (c : G4) : ∃ g, lookup c.name = some g ∧ HEq g.mat c.mat := by
  cases c
  · exact ⟨.rx90p, by decide, HEq.rfl⟩
  · exact ⟨.ry90p, by decide, HEq.rfl⟩
  · exact ⟨.rx90m, by decide, HEq.rfl⟩
  · exact ⟨.ry90m, by decide, HEq.rfl⟩

example : ∀ c ∈ [0, 23, 7], c < 24 := by decide

end C3.Gates
