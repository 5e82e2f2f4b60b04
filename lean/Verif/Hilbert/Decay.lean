import Verif.Hilbert.Frame
import Mathlib.Analysis.Real.Pi.Bounds

/-!
# C40, C41: decay channels of a component

`Qubit.get_Lindbladian` (c3/libraries/chip.py:205-242), `Transmon.get_Lindbladian`
(c3/libraries/chip.py:425-467) and `init_Ls` (c3/libraries/chip.py:191-203, 392-404).
-/

set_option linter.unusedSectionVars false

namespace C3.Hilbert

open Matrix Finset NormedSpace C3.Propagation

/-- c3/libraries/constants.py: Boltzmann constant. -/
noncomputable def kB : ℝ := 1.380649e-23

/-- c3/libraries/constants.py: reduced Planck constant. -/
noncomputable def hBar : ℝ := 1.054571817e-34

theorem kB_pos : 0 < kB := by unfold kB; norm_num
theorem hBar_pos : 0 < hBar := by unfold hBar; norm_num

/-- C41: the constants are those of the International System of Units: the Boltzmann constant exactly, the Planck
constant up to the rounding of the digits given. -/
theorem C41_constants : kB = 1.380649e-23 ∧ |2 * Real.pi * hBar - 6.62607015e-34| < 1e-42 := by
  refine ⟨rfl, ?_⟩
  have h1 := Real.pi_gt_d20
  have h2 := Real.pi_lt_d20
  unfold hBar
  rw [abs_lt]
  constructor <;> norm_num at h1 h2 ⊢ <;> linarith

/-- The two component classes with decay. -/
inductive Kind where
  | qubit
  | transmon
  deriving DecidableEq

/-- The decay parameters of a component; a missing parameter is `none`. -/
structure Decay where
  t1 : Option ℝ
  temp : Option ℝ
  t2star : Option ℝ
  freq : ℝ
  anhar : ℝ

/-- The squared prefactor of the relaxation operator: `1 / t1` at c3/libraries/chip.py:219, `0.5 / t1`
at c3/libraries/chip.py:437. -/
noncomputable def relaxRate : Kind → ℝ → ℝ
  | .qubit, t1 => 1 / t1
  | .transmon, t1 => 0.5 / t1

/-- c3/libraries/chip.py:223-230, 442-453: level spacings used for detailed balance. -/
noncomputable def freqDiff (dim : ℕ) (d : Decay) (n : ℕ) : ℝ :=
  if 2 < dim then d.freq + n * d.anhar else if n = 0 then d.freq else 0

/-- c3/libraries/chip.py:231-233, 454-458: the detailed balance matrix of one subsystem. -/
noncomputable def detBalArr (dim : ℕ) (d : Decay) (temp : ℝ) : Arr ℂ :=
  ⟨dim, dim, fun x y =>
    if x = y then (Real.exp (-hBar * freqDiff dim d x * (1 / (temp * kB))) : ℂ) else 0⟩

open scoped Classical in
/-- The excitation channel is used if a temperature is given; the transmon skips a temperature of zero
(c3/libraries/chip.py:441). The qubit divides by its temperature; the theorems on excitations ask for a positive one. -/
noncomputable def tempUsed (k : Kind) (d : Decay) : Option ℝ :=
  match d.temp with
  | none => none
  | some T => if k = .transmon ∧ T = 0 then none else some T

/-- c3/libraries/chip.py:216-239, 434-464: the list `Ls` of collapse operators. Square roots are real:
positive times are assumed in the theorems. -/
noncomputable def collapseList (k : Kind) (d : Decay) (dims : List ℕ) (i : ℕ) :
    List (Matrix (Fin dims.prod) (Fin dims.prod) ℂ) :=
  (match d.t1 with
    | none => []
    | some t1 =>
      ((Real.sqrt (relaxRate k t1) : ℝ) : ℂ) • ann dims i ::
      match tempUsed k d with
      | none => []
      | some T => [((Real.sqrt (relaxRate k t1) : ℝ) : ℂ) •
          ((ann dims i)ᴴ * emb (detBalArr (dims.getD i 0) d T) i dims)]) ++
  (match d.t2star with
    | none => []
    | some t2 => [((Real.sqrt (0.5 / t2) : ℝ) : ℂ) • ((2 : ℂ) • ((ann dims i)ᴴ * ann dims i))])

/-- c3/libraries/chip.py:240-242, 465-467: the returned operator is the sum of the list; an empty list
raises. -/
noncomputable def getLindbladian (k : Kind) (d : Decay) (dims : List ℕ) (i : ℕ) :
    Option (Matrix (Fin dims.prod) (Fin dims.prod) ℂ) :=
  if collapseList k d dims i = [] then none else some (collapseList k d dims i).sum

/-- C151: a transmon at temperature zero is not excited: it has the operators of one without temperature. -/
theorem C151_zero (d : Decay) (dims : List ℕ) (i : ℕ) :
    collapseList .transmon { d with temp := some 0 } dims i = collapseList .transmon { d with temp := none } dims i := by
  simp [collapseList, tempUsed]

/-! ## Matrix elements -/

theorem ann_shift (dims : List ℕ) (i : ℕ) (h : i < dims.length) (p q : Fin dims.prod)
    (hne : ann dims i p q ≠ 0) : levelAt dims i q = levelAt dims i p + 1 := by
  obtain ⟨p, hp⟩ := p
  obtain ⟨q, hq⟩ := q
  obtain ⟨l, hl, rfl⟩ := exists_flat dims p hp
  obtain ⟨m, hm, rfl⟩ := exists_flat dims q hq
  rw [C33_annihilator dims i h l m hl hm] at hne
  rw [levelAt_flat hl, levelAt_flat hm]
  split at hne
  · next hc => exact hc.2
  · exact absurd rfl hne

theorem detBal_diagonal (dims : List ℕ) (i : ℕ) (h : i < dims.length) (d : Decay) (T : ℝ) :
    emb (detBalArr (dims.getD i 0) d T) i dims = Matrix.diagonal fun p =>
      (Real.exp (-hBar * freqDiff (dims.getD i 0) d (levelAt dims i p) * (1 / (T * kB))) : ℂ) :=
  emb_diagonal _ (fun x => (Real.exp (-hBar * freqDiff (dims.getD i 0) d x * (1 / (T * kB))) : ℂ))
    i dims ⟨h, rfl, rfl⟩ fun _ _ _ _ => rfl

/-- The change of the level of subsystem `i` made by an operator: `L` only maps states with level
`x` to states with level `x + s`. -/
def Shifts (dims : List ℕ) (i : ℕ) (s : ℤ) (L : Matrix (Fin dims.prod) (Fin dims.prod) ℂ) : Prop :=
  ∀ p q, L p q ≠ 0 → (levelAt dims i p : ℤ) = levelAt dims i q + s

theorem Shifts.smul {dims : List ℕ} {i : ℕ} {s : ℤ} {L : Matrix (Fin dims.prod) (Fin dims.prod) ℂ}
    (h : Shifts dims i s L) (c : ℂ) : Shifts dims i s (c • L) := by
  intro p q hne
  apply h
  intro h0
  exact hne (by simp [h0])

theorem shifts_ann (dims : List ℕ) (i : ℕ) (h : i < dims.length) : Shifts dims i (-1) (ann dims i) := by
  intro p q hne
  have := ann_shift dims i h p q hne
  omega

theorem shifts_create (dims : List ℕ) (i : ℕ) (h : i < dims.length) (f : Fin dims.prod → ℂ) :
    Shifts dims i 1 ((ann dims i)ᴴ * Matrix.diagonal f) := by
  intro p q hne
  rw [Matrix.mul_diagonal, Matrix.conjTranspose_apply] at hne
  have := ann_shift dims i h q p fun h0 => hne (by simp [h0])
  omega

theorem shifts_diagonal (dims : List ℕ) (i : ℕ) (f : Fin dims.prod → ℂ) :
    Shifts dims i 0 (Matrix.diagonal f) := by
  intro p q hne
  have : p = q := by
    by_contra h
    exact hne (Matrix.diagonal_apply_ne _ h)
  subst this
  omega

/-- The collapse operators of a component change the level by different amounts. -/
theorem collapse_shifts (k : Kind) (d : Decay) (dims : List ℕ) (i : ℕ) (h : i < dims.length) :
    ∃ ss : List ℤ, ss.Nodup ∧ List.Forall₂ (fun s L => Shifts dims i s L) ss
      (collapseList k d dims i) := by
  have h1 := shifts_ann dims i h
  unfold collapseList
  rw [ann_number dims i h]
  cases d.t1 with
  | none =>
    cases d.t2star with
    | none => exact ⟨[], by simp, by simp⟩
    | some t2 =>
      refine ⟨[0], by simp, ?_⟩
      simp only [List.nil_append]
      exact List.Forall₂.cons (((shifts_diagonal dims i _).smul _).smul _) List.Forall₂.nil
  | some t1 =>
    cases tempUsed k d with
    | none =>
      cases d.t2star with
      | none => exact ⟨[-1], by simp, List.Forall₂.cons (h1.smul _) List.Forall₂.nil⟩
      | some t2 =>
        refine ⟨[-1, 0], by simp, ?_⟩
        exact List.Forall₂.cons (h1.smul _)
          (List.Forall₂.cons (((shifts_diagonal dims i _).smul _).smul _) List.Forall₂.nil)
    | some T =>
      simp only [detBal_diagonal dims i h]
      cases d.t2star with
      | none =>
        refine ⟨[-1, 1], by simp, ?_⟩
        exact List.Forall₂.cons (h1.smul _)
          (List.Forall₂.cons ((shifts_create dims i h _).smul _) List.Forall₂.nil)
      | some t2 =>
        refine ⟨[-1, 1, 0], by simp, ?_⟩
        exact List.Forall₂.cons (h1.smul _)
          (List.Forall₂.cons ((shifts_create dims i h _).smul _)
            (List.Forall₂.cons (((shifts_diagonal dims i _).smul _).smul _) List.Forall₂.nil))

/-! ## C40 -/

section
variable {n : Type*} [Fintype n] [DecidableEq n]

/-- Population change of a diagonal state: transfer rates in minus transfer rates out. -/
theorem masterRHS_diagonal (cols : List (Matrix n n ℂ)) (f : n → ℂ) (p : n) :
    masterRHS 0 cols (Matrix.diagonal f) p p =
      (∑ q, (cols.map fun L => L p q * star (L p q)).sum * f q) -
        (∑ q, (cols.map fun L => L q p * star (L q p)).sum) * f p := by
  unfold masterRHS
  simp only [Matrix.zero_mul, Matrix.mul_zero, sub_zero, smul_zero, zero_add]
  induction cols with
  | nil => simp
  | cons L ls ih =>
    simp only [List.map_cons, List.sum_cons, Matrix.add_apply, ih]
    have e1 : (L * Matrix.diagonal f * Lᴴ) p p = ∑ q, L p q * star (L p q) * f q := by
      rw [Matrix.mul_apply]
      apply sum_congr rfl
      intro q _
      rw [Matrix.mul_diagonal, Matrix.conjTranspose_apply]
      ring
    have e2 : (Lᴴ * L) p p = ∑ q, L q p * star (L q p) := by
      rw [Matrix.mul_apply]
      apply sum_congr rfl
      intro q _
      rw [Matrix.conjTranspose_apply, mul_comm]
    rw [Matrix.sub_apply, Matrix.smul_apply, Matrix.add_apply, Matrix.mul_diagonal,
      Matrix.diagonal_mul, e1, e2]
    simp only [add_mul, sum_add_distrib, smul_eq_mul]
    ring

end

theorem sum_shifts_entry (dims : List ℕ) (i : ℕ) (ss : List ℤ)
    (Ls : List (Matrix (Fin dims.prod) (Fin dims.prod) ℂ)) (hnd : ss.Nodup)
    (hs : List.Forall₂ (fun s L => Shifts dims i s L) ss Ls) (p q) :
    Ls.sum p q * star (Ls.sum p q) = (Ls.map fun L => L p q * star (L p q)).sum ∧
      (Ls.sum p q ≠ 0 → ∃ s ∈ ss, (levelAt dims i p : ℤ) = levelAt dims i q + s) := by
  induction hs with
  | nil => simp
  | @cons s L ss Ls hL hrest ih =>
    obtain ⟨hn, hnd⟩ := List.nodup_cons.1 hnd
    obtain ⟨ih1, ih2⟩ := ih hnd
    simp only [List.sum_cons, List.map_cons, Matrix.add_apply]
    by_cases h0 : L p q = 0
    · rw [h0]
      simp only [zero_add, zero_mul]
      refine ⟨ih1, fun hne => ?_⟩
      obtain ⟨s', hs', he⟩ := ih2 hne
      exact ⟨s', List.mem_cons_of_mem _ hs', he⟩
    · have hlev := hL p q h0
      have hz : Ls.sum p q = 0 := by
        by_contra hne
        obtain ⟨s', hs', he⟩ := ih2 hne
        have : s = s' := by omega
        exact hn (this ▸ hs')
      rw [← ih1, hz]
      simp only [add_zero, star_zero, mul_zero]
      exact ⟨trivial, fun _ => ⟨s, List.mem_cons_self, hlev⟩⟩

/-- C40 (partial): for a state without coherences the populations change as if every channel acted
on its own. -/
theorem C40_populations_partial (k : Kind) (d : Decay) (dims : List ℕ) (i : ℕ) (h : i < dims.length)
    (L : Matrix (Fin dims.prod) (Fin dims.prod) ℂ) (hL : getLindbladian k d dims i = some L)
    (f : Fin dims.prod → ℂ) (p : Fin dims.prod) :
    masterRHS 0 [L] (Matrix.diagonal f) p p =
      masterRHS 0 (collapseList k d dims i) (Matrix.diagonal f) p p := by
  unfold getLindbladian at hL
  split at hL
  · simp at hL
  · simp only [Option.some.injEq] at hL
    subst hL
    obtain ⟨ss, hnd, hs⟩ := collapse_shifts k d dims i h
    rw [masterRHS_diagonal, masterRHS_diagonal]
    simp only [List.map_cons, List.map_nil, List.sum_cons, List.sum_nil, add_zero]
    congr 1
    · apply sum_congr rfl
      intro q _
      rw [(sum_shifts_entry dims i ss _ hnd hs p q).1]
    · congr 1
      apply sum_congr rfl
      intro q _
      rw [(sum_shifts_entry dims i ss _ hnd hs q p).1]

/-- C40 (partial): a component with a single channel has the dissipation of that channel. -/
theorem C40_single_partial (k : Kind) (d : Decay) (dims : List ℕ) (i : ℕ)
    (L : Matrix (Fin dims.prod) (Fin dims.prod) ℂ) (hL : getLindbladian k d dims i = some L)
    (h1 : (collapseList k d dims i).length = 1) (h rho : Matrix (Fin dims.prod) (Fin dims.prod) ℂ) :
    masterRHS h [L] rho = masterRHS h (collapseList k d dims i) rho := by
  obtain ⟨A, hA⟩ := List.length_eq_one_iff.1 h1
  unfold getLindbladian at hL
  rw [hA] at hL ⊢
  simp at hL
  rw [hL]

/-- C40: what is computed for two operators: the two dissipators and a cross term. -/
theorem C40_cross_term {n : Type*} [Fintype n] [DecidableEq n] (A B rho : Matrix n n ℂ) :
    masterRHS 0 [A + B] rho = masterRHS 0 [A, B] rho +
      (A * rho * Bᴴ + B * rho * Aᴴ -
        (1 / 2 : ℂ) • ((Aᴴ * B + Bᴴ * A) * rho + rho * (Aᴴ * B + Bᴴ * A))) := by
  unfold masterRHS
  simp only [List.map_cons, List.map_nil, List.sum_cons, List.sum_nil, add_zero,
    Matrix.conjTranspose_add, Matrix.add_mul, Matrix.mul_add, smul_add]
  abel

/-- A two-level qubit with relaxation and dephasing time one. -/
noncomputable def bothDecays : Decay where
  t1 := some 1
  temp := none
  t2star := some (1 / 2)
  freq := 5
  anhar := 0

theorem ann_two : ann [2] 0 = !![0, 1; 0, 0] := by
  ext p q
  have hv : ∀ x : Fin 2, Valid [2] [(x : ℕ)] := fun x => List.Forall₂.cons x.2 List.Forall₂.nil
  have hf : ∀ x : Fin 2, (⟨flat [2] [(x : ℕ)], flat_lt (hv x)⟩ : Fin [2].prod) = x := by
    intro x
    apply Fin.ext
    simp [flat]
  have := C33_annihilator [2] 0 (by decide) [(p : ℕ)] [(q : ℕ)] (hv p) (hv q)
  rw [hf p, hf q] at this
  rw [this]
  have hag : AgreeOff [2].length 0 [(p : ℕ)] [(q : ℕ)] := by
    intro t ht hne
    simp at ht
    omega
  simp only [hag, true_and]
  fin_cases p <;> fin_cases q <;> simp

/-- C40 is false: with relaxation and dephasing the operators are summed into one collapse operator.
Starting in the excited state the code creates a coherence, while independent channels would not. -/
theorem C40_false_sum : ∃ L : Matrix (Fin 2) (Fin 2) ℂ,
    getLindbladian .qubit bothDecays [2] 0 = some L ∧
    masterRHS (n := Fin 2) 0 [L] (Matrix.diagonal ![0, 1]) 0 1 = 2 ∧
    masterRHS (n := Fin 2) 0 (collapseList .qubit bothDecays [2] 0) (Matrix.diagonal ![0, 1]) 0 1 =
      0 := by
  have hl : collapseList .qubit bothDecays [2] 0 =
      [(!![0, 1; 0, 0] : Matrix (Fin 2) (Fin 2) ℂ), !![0, 0; 0, 2]] := by
    unfold collapseList
    simp only [bothDecays, tempUsed, relaxRate, ann_two]
    have e1 : (!![0, 1; 0, 0] : Matrix (Fin 2) (Fin 2) ℂ)ᴴ * !![0, 1; 0, 0] = !![0, 0; 0, 1] := by
      ext i j
      fin_cases i <;> fin_cases j <;> simp [Matrix.mul_apply, Fin.sum_univ_two]
    have e2 : (1 : ℂ) • (!![0, 1; 0, 0] : Matrix (Fin 2) (Fin 2) ℂ) = !![0, 1; 0, 0] := one_smul _ _
    have e3 : (1 : ℂ) • (2 : ℂ) • (!![0, 0; 0, 1] : Matrix (Fin 2) (Fin 2) ℂ) = !![0, 0; 0, 2] := by
      rw [one_smul]
      simp [Matrix.smul_of]
    have e4 : ((Real.sqrt (0.5 / (1 / 2)) : ℝ) : ℂ) = 1 := by norm_num
    have e5 : ((Real.sqrt (1 / 1) : ℝ) : ℂ) = 1 := by norm_num
    erw [e1]
    rw [e4, e5]
    erw [e2, e3]
    rfl
  have hs : (collapseList .qubit bothDecays [2] 0).sum =
      (!![0, 1; 0, 2] : Matrix (Fin 2) (Fin 2) ℂ) := by
    rw [hl]
    have : (!![0, 1; 0, 0] : Matrix (Fin 2) (Fin 2) ℂ) + (!![0, 0; 0, 2] + 0) = !![0, 1; 0, 2] := by
      simp
    exact this
  refine ⟨!![0, 1; 0, 2], ?_, ?_, ?_⟩
  · unfold getLindbladian
    rw [if_neg (by rw [hl]; simp), hs]
    rfl
  · unfold masterRHS
    simp [Matrix.mul_apply, Fin.sum_univ_two, Matrix.vecMul, dotProduct]
    exact Complex.conj_ofReal 2
  · have : ∀ c, c = [(!![0, 1; 0, 0] : Matrix (Fin 2) (Fin 2) ℂ), !![0, 0; 0, 2]] →
        masterRHS (n := Fin 2) 0 c (Matrix.diagonal ![0, 1]) 0 1 = 0 := by
      rintro c rfl
      unfold masterRHS
      simp [Matrix.mul_apply, Fin.sum_univ_two, Matrix.vecMul, dotProduct]
    exact this _ hl

/-- C40: no decay parameter raises. -/
theorem C40_none (k : Kind) (d : Decay) (dims : List ℕ) (i : ℕ) :
    getLindbladian k d dims i = none ↔ d.t1 = none ∧ d.t2star = none := by
  unfold getLindbladian collapseList
  cases d.t1 <;> cases d.t2star <;> simp

/-! ## C41 -/

/-- Mean number of excitations of subsystem `i`. -/
noncomputable def meanLevel (dims : List ℕ) (i : ℕ)
    (rho : Matrix (Fin dims.prod) (Fin dims.prod) ℂ) : ℂ :=
  ∑ p, (levelAt dims i p : ℂ) * rho p p

theorem meanLevel_eq (dims : List ℕ) (i : ℕ) (h : i < dims.length)
    (rho : Matrix (Fin dims.prod) (Fin dims.prod) ℂ) :
    meanLevel dims i rho = (((ann dims i)ᴴ * ann dims i) * rho).trace := by
  rw [ann_number dims i h]
  unfold meanLevel Matrix.trace
  apply sum_congr rfl
  intro p _
  rw [Matrix.diag_apply, Matrix.diagonal_mul]

theorem number_ann (dims : List ℕ) (i : ℕ) (h : i < dims.length) :
    ((ann dims i)ᴴ * ann dims i) * ann dims i =
      ann dims i * ((ann dims i)ᴴ * ann dims i) - ann dims i := by
  rw [ann_number dims i h]
  ext p q
  rw [Matrix.diagonal_mul, Matrix.sub_apply, Matrix.mul_diagonal]
  by_cases h0 : ann dims i p q = 0
  · simp [h0]
  · rw [ann_shift dims i h p q h0]
    push_cast
    ring

/-- Relaxation at rate `g` lowers the mean level at rate `g`. -/
theorem relax_mean (dims : List ℕ) (i : ℕ) (h : i < dims.length) (g : ℝ) (hg : 0 ≤ g)
    (H rho : Matrix (Fin dims.prod) (Fin dims.prod) ℂ)
    (hH : Commute H ((ann dims i)ᴴ * ann dims i)) :
    meanLevel dims i (masterRHS H [((Real.sqrt g : ℝ) : ℂ) • ann dims i] rho) =
      -(g : ℂ) * meanLevel dims i rho := by
  set a := ann dims i with ha
  set N := aᴴ * a with hN
  have hNa : N * a = a * N - a := number_ann dims i h
  have hsq : ((Real.sqrt g : ℝ) : ℂ) * ((Real.sqrt g : ℝ) : ℂ) = (g : ℂ) := by
    rw [← Complex.ofReal_mul, Real.mul_self_sqrt hg]
  have hstar : star ((Real.sqrt g : ℝ) : ℂ) = ((Real.sqrt g : ℝ) : ℂ) := Complex.conj_ofReal _
  have hR : masterRHS H [((Real.sqrt g : ℝ) : ℂ) • a] rho =
      (-Complex.I) • (H * rho - rho * H) +
        (g : ℂ) • (a * rho * aᴴ - (1 / 2 : ℂ) • (N * rho + rho * N)) := by
    unfold masterRHS
    simp only [List.map_cons, List.map_nil, List.sum_cons, List.sum_nil, add_zero,
      Matrix.conjTranspose_smul, hstar, Matrix.smul_mul, Matrix.mul_smul, smul_smul, hsq, ← hN]
    congr 1
    rw [smul_sub, smul_smul, ← smul_add, smul_smul, mul_comm (g : ℂ)]
  rw [meanLevel_eq dims i h, meanLevel_eq dims i h, ← ha, ← hN, hR]
  have e0 : (N * (H * rho - rho * H)).trace = 0 := by
    rw [Matrix.mul_sub, Matrix.trace_sub, ← Matrix.mul_assoc, ← hH.eq, Matrix.mul_assoc,
      Matrix.trace_mul_comm H, Matrix.mul_assoc, sub_self]
  have e1 : (N * (a * rho * aᴴ)).trace = (N * (N * rho)).trace - (N * rho).trace := by
    rw [Matrix.mul_assoc a, ← Matrix.mul_assoc N, hNa, Matrix.sub_mul, Matrix.trace_sub,
      Matrix.mul_assoc a, Matrix.trace_mul_comm a, Matrix.trace_mul_comm a]
    have f1 : N * (rho * aᴴ) * a = N * (rho * N) := by
      rw [hN]; simp only [Matrix.mul_assoc]
    have f2 : rho * aᴴ * a = rho * N := by
      rw [hN]; simp only [Matrix.mul_assoc]
    rw [f1, f2, Matrix.trace_mul_comm rho]
    congr 1
    rw [← Matrix.mul_assoc, Matrix.trace_mul_comm (N * rho)]
  have e2 : (N * (rho * N)).trace = (N * (N * rho)).trace := by
    rw [← Matrix.mul_assoc, Matrix.trace_mul_comm (N * rho)]
  rw [Matrix.mul_add, Matrix.trace_add, Matrix.mul_smul, Matrix.trace_smul, e0, smul_zero, zero_add,
    Matrix.mul_smul, Matrix.trace_smul, Matrix.mul_sub, Matrix.trace_sub, Matrix.mul_smul,
    Matrix.trace_smul, Matrix.mul_add, Matrix.trace_add, e1, e2]
  simp only [smul_eq_mul]
  ring

/-- Only a relaxation time is given. -/
noncomputable def onlyT1 (t1 freq anhar : ℝ) : Decay where
  t1 := some t1
  temp := none
  t2star := none
  freq := freq
  anhar := anhar

theorem onlyT1_op (k : Kind) (t1 freq anhar : ℝ) (dims : List ℕ) (i : ℕ) :
    getLindbladian k (onlyT1 t1 freq anhar) dims i =
      some (((Real.sqrt (relaxRate k t1) : ℝ) : ℂ) • ann dims i) := by
  simp [getLindbladian, collapseList, onlyT1, tempUsed]

/-- C41 for `Qubit`: the number of excitations of the component decays at rate `1/T1`, in any
register, for every state and every Hamiltonian commuting with the number operator. -/
theorem C41_qubit (t1 freq anhar : ℝ) (h1 : 0 < t1) (dims : List ℕ) (i : ℕ) (h : i < dims.length)
    (H rho : Matrix (Fin dims.prod) (Fin dims.prod) ℂ)
    (hH : Commute H ((ann dims i)ᴴ * ann dims i)) :
    ∃ L, getLindbladian .qubit (onlyT1 t1 freq anhar) dims i = some L ∧
      meanLevel dims i (masterRHS H [L] rho) = -(1 / t1 : ℝ) * meanLevel dims i rho :=
  ⟨_, onlyT1_op _ _ _ _ _ _, relax_mean dims i h _ (by unfold relaxRate; positivity) H rho hH⟩

/-- C41 for `Transmon` (partial): the rate is only `1/(2 T1)`. -/
theorem C41_transmon_partial (t1 freq anhar : ℝ) (h1 : 0 < t1) (dims : List ℕ) (i : ℕ)
    (h : i < dims.length) (H rho : Matrix (Fin dims.prod) (Fin dims.prod) ℂ)
    (hH : Commute H ((ann dims i)ᴴ * ann dims i)) :
    ∃ L, getLindbladian .transmon (onlyT1 t1 freq anhar) dims i = some L ∧
      meanLevel dims i (masterRHS H [L] rho) = -(1 / (2 * t1) : ℝ) * meanLevel dims i rho := by
  refine ⟨_, onlyT1_op _ _ _ _ _ _, ?_⟩
  rw [relax_mean dims i h _ (by unfold relaxRate; positivity) H rho hH]
  congr 3
  unfold relaxRate
  field_simp
  norm_num

/-- C41 is false for `Transmon`: whenever there is something to decay, it does not decay at rate
`1/T1`. -/
theorem C41_false_transmon (t1 freq anhar : ℝ) (h1 : 0 < t1) (dims : List ℕ) (i : ℕ)
    (h : i < dims.length) (rho : Matrix (Fin dims.prod) (Fin dims.prod) ℂ)
    (hne : meanLevel dims i rho ≠ 0) :
    ∃ L, getLindbladian .transmon (onlyT1 t1 freq anhar) dims i = some L ∧
      meanLevel dims i (masterRHS 0 [L] rho) ≠ -(1 / t1 : ℝ) * meanLevel dims i rho := by
  obtain ⟨L, hL, he⟩ := C41_transmon_partial t1 freq anhar h1 dims i h 0 rho (Commute.zero_left _)
  refine ⟨L, hL, ?_⟩
  rw [he]
  intro h2
  have h3 := mul_right_cancel₀ hne h2
  have h4 : (1 / (2 * t1) : ℝ) = 1 / t1 := by
    have := neg_injective h3
    exact_mod_cast this
  field_simp at h4
  norm_num at h4

/-! ### Decay over time -/

open scoped Norms.Operator in
theorem vecMul_exp {m : Type*} [Fintype m] [DecidableEq m] (w : m → ℂ) (M : Matrix m m ℂ) (c : ℂ)
    (h : w ᵥ* M = c • w) : w ᵥ* exp M = Complex.exp c • w := by
  have hpow : ∀ k : ℕ, w ᵥ* M ^ k = c ^ k • w := by
    intro k
    induction k with
    | zero => simp
    | succ k ih => rw [pow_succ, ← Matrix.vecMul_vecMul, ih, Matrix.smul_vecMul, h, smul_smul, pow_succ]
  let F : Matrix m m ℂ →L[ℂ] (m → ℂ) :=
    LinearMap.toContinuousLinearMap
      { toFun := fun A => w ᵥ* A
        map_add' := fun A B => Matrix.vecMul_add A B w
        map_smul' := fun a A => by simp [Matrix.vecMul_smul] }
  have h1 := (NormedSpace.exp_series_hasSum_exp' (𝕂 := ℂ) M).mapL F
  have h2 : HasSum (fun k : ℕ => ((k.factorial : ℂ)⁻¹ • c ^ k) • w) (exp c • w) :=
    (NormedSpace.exp_series_hasSum_exp' (𝕂 := ℂ) c).smul_const w
  have h3 : (fun k : ℕ => F ((k.factorial : ℂ)⁻¹ • M ^ k)) =
      fun k : ℕ => ((k.factorial : ℂ)⁻¹ • c ^ k) • w := by
    funext k
    change w ᵥ* ((k.factorial : ℂ)⁻¹ • M ^ k) = _
    rw [Matrix.vecMul_smul, hpow, smul_smul, smul_eq_mul]
  rw [h3] at h1
  have := h1.unique h2
  rw [Complex.exp_eq_exp_ℂ]
  exact this

/-- C41 over a time span: after time `t` the mean number of excitations of a qubit is
`exp(-t/T1)` of the initial one. -/
theorem C41_qubit_time (t1 freq anhar : ℝ) (h1 : 0 < t1) (dims : List ℕ) (i : ℕ)
    (h : i < dims.length) (H : Matrix (Fin dims.prod) (Fin dims.prod) ℂ)
    (hH : Commute H ((ann dims i)ᴴ * ann dims i)) (t : ℝ) :
    ∃ L, getLindbladian .qubit (onlyT1 t1 freq anhar) dims i = some L ∧
      ∀ rho, meanLevel dims i (unRow (exp ((t : ℂ) • lindOp H [L]) *ᵥ rowVec rho)) =
        Real.exp (-t / t1) * meanLevel dims i rho := by
  obtain ⟨L, hL, -⟩ := C41_qubit t1 freq anhar h1 dims i h H 0 hH
  refine ⟨L, hL, fun rho => ?_⟩
  let w : Fin dims.prod × Fin dims.prod → ℂ := fun x => if x.1 = x.2 then (levelAt dims i x.1 : ℂ) else 0
  have hw : ∀ v, meanLevel dims i (unRow v) = w ⬝ᵥ v := by
    intro v
    unfold meanLevel dotProduct
    rw [Fintype.sum_prod_type]
    apply sum_congr rfl
    intro p _
    rw [Finset.sum_eq_single p]
    · simp [w, unRow]
    · intro q _ hq
      simp [w, hq.symm]
    · simp
  have hrow : ∀ v : Fin dims.prod × Fin dims.prod → ℂ, rowVec (unRow v) = v := fun v => rfl
  have hgen : w ᵥ* lindOp H [L] = (-(1 / t1 : ℝ) : ℂ) • w := by
    have key : ∀ v, (w ᵥ* lindOp H [L]) ⬝ᵥ v = ((-(1 / t1 : ℝ) : ℂ) • w) ⬝ᵥ v := by
      intro v
      obtain ⟨L', hL', he⟩ := C41_qubit t1 freq anhar h1 dims i h H (unRow v) hH
      have hLL : L = L' := by
        rw [hL] at hL'
        exact Option.some.inj hL'
      subst hLL
      rw [← Matrix.dotProduct_mulVec, ← hrow v, lindOp_mulVec, hrow v, smul_dotProduct, ← hw v,
        smul_eq_mul, ← he, ← hw]
      rfl
    exact dotProduct_eq _ _ key
  have hexp := vecMul_exp w ((t : ℂ) • lindOp H [L]) ((-t / t1 : ℝ) : ℂ) (by
    rw [Matrix.vecMul_smul, hgen, smul_smul]
    congr 1
    push_cast
    ring)
  rw [hw, Matrix.dotProduct_mulVec, hexp, smul_dotProduct, smul_eq_mul, ← Complex.ofReal_exp]
  congr 1
  rw [← hw]
  rfl

example : ∃ L, getLindbladian .qubit (onlyT1 2 5 0) [2] 0 = some L := ⟨_, onlyT1_op _ _ _ _ _ _⟩

end C3.Hilbert
