import Verif.Gates.Insert
import Mathlib.Analysis.Normed.Algebra.MatrixExponential
import Mathlib.Analysis.SpecialFunctions.Exponential
import Mathlib.Analysis.Complex.Trigonometric

/-!
# C99: ideal parametric gates

Models `pad_matrix`, `perfect_parametric_gate` and `perfect_single_q_parametric_gate`
(c3/utils/qt_utils.py:252-334).
-/

set_option linter.unusedSectionVars false

namespace C3.Gates

open Matrix Finset C3.Hilbert NormedSpace

/-- c3/libraries/constants.py:23-28 `PAULIS`. -/
noncomputable def pauli : String → Option (Matrix (Fin 2) (Fin 2) ℂ)
  | "X" => some !![0, 1; 1, 0]
  | "Y" => some !![0, -Complex.I; Complex.I, 0]
  | "Z" => some !![1, 0; 0, -1]
  | "Id" => some 1
  | _ => none

/-- c3/utils/qt_utils.py:252-264 `pad_matrix(matrix, dim, "wzeros")` of a 2×2 matrix. -/
def padZeros (P : Matrix (Fin 2) (Fin 2) ℂ) (dim : ℕ) : Arr ℂ :=
  ⟨2 + dim, 2 + dim, fun i j => if h : i < 2 ∧ j < 2 then P ⟨i, h.1⟩ ⟨j, h.2⟩ else 0⟩

/-- The list `ps` of c3/utils/qt_utils.py:291-299: `none` is the `KeyError` of an unknown Pauli matrix,
the `IndexError` of too few dimensions or the `ValueError` of a dimension below two. -/
noncomputable def paddedPaulis : List String → List ℕ → Option (List (Arr ℂ))
  | [], _ => some []
  | _ :: _, [] => none
  | key :: keys, d :: dims =>
    match pauli key with
    | none => none
    | some P => if d < 2 then none else (paddedPaulis keys dims).map (padZeros P (d - 2) :: ·)

/-- c3/utils/qt_utils.py:271-301 `perfect_parametric_gate`: the generator and the gate. -/
noncomputable def parametricGate (keys : List String) (ang : ℝ) (dims : List ℕ) (n : ℕ) :
    Option (Matrix (Fin n) (Fin n) ℂ) :=
  (paddedPaulis keys dims).map fun ps =>
    exp ((-Complex.I / 2 * (ang : ℂ)) • (npKronN ps).mat n n)

/-- c3/utils/qt_utils.py:304-334 `perfect_single_q_parametric_gate`; `target` is in range. -/
noncomputable def singleQGate (key : String) (target : ℕ) (ang : ℝ) (dims : List ℕ) (n : ℕ) :
    Option (Matrix (Fin n) (Fin n) ℂ) :=
  parametricGate ((List.replicate dims.length "Id").set target key) ang dims n

/-! ## Exponentials of reflections -/

section Exp

variable {n : Type*} [Fintype n] [DecidableEq n]

open scoped Norms.Operator in
theorem exp_idem (E : Matrix n n ℂ) (hE : E * E = E) (z : ℂ) :
    exp (z • E) = 1 + (Complex.exp z - 1) • E := by
  have hpow : ∀ k : ℕ, E ^ (k + 1) = E := by
    intro k
    induction k with
    | zero => simp
    | succ k ih => rw [pow_succ, ih, hE]
  have h1 : HasSum (fun k : ℕ => ((k.factorial : ℂ)⁻¹ * z ^ k) • E) (Complex.exp z • E) := by
    apply HasSum.smul_const
    have := NormedSpace.exp_series_hasSum_exp' (𝕂 := ℂ) z
    rw [← Complex.exp_eq_exp_ℂ] at this
    simpa [smul_eq_mul] using this
  have h2 : HasSum (fun k : ℕ => if k = 0 then 1 - E else 0) (1 - E) := hasSum_ite_eq 0 _
  have h3 := h1.add h2
  have h4 := NormedSpace.exp_series_hasSum_exp' (𝕂 := ℂ) (z • E)
  have h5 : (fun k : ℕ => ((k.factorial : ℂ)⁻¹ * z ^ k) • E + if k = 0 then 1 - E else 0) =
      fun k : ℕ => (k.factorial : ℂ)⁻¹ • (z • E) ^ k := by
    funext k
    cases k with
    | zero => simp
    | succ k => simp [smul_pow, hpow, smul_smul]
  rw [h5] at h3
  refine (h4.unique h3).trans ?_
  rw [sub_smul, one_smul]
  abel

/-- The exponential of a reflection on a subspace. -/
theorem exp_reflection (G P : Matrix n n ℂ) (hGG : G * G = P) (hPG : P * G = G) (θ : ℝ) :
    exp ((-Complex.I / 2 * (θ : ℂ)) • G) =
      (1 - P) + (Real.cos (θ / 2) : ℂ) • P - (Complex.I * (Real.sin (θ / 2) : ℂ)) • G := by
  have hGP : G * P = G := by rw [← hGG, ← Matrix.mul_assoc, hGG, hPG]
  have hPP : P * P = P := by
    conv_lhs => rw [← hGG, ← Matrix.mul_assoc]
    rw [hGG, hPG, hGG]
  set z : ℂ := -Complex.I / 2 * (θ : ℂ) with hz
  have hp : ((1 / 2 : ℂ) • (P + G)) * ((1 / 2 : ℂ) • (P + G)) = (1 / 2 : ℂ) • (P + G) := by
    rw [Matrix.smul_mul, Matrix.mul_smul, Matrix.add_mul, Matrix.mul_add, Matrix.mul_add, hPP, hPG, hGP,
      hGG]
    rw [add_comm G P, ← two_smul ℂ, smul_smul, smul_smul]
    norm_num
  have hm : ((1 / 2 : ℂ) • (P - G)) * ((1 / 2 : ℂ) • (P - G)) = (1 / 2 : ℂ) • (P - G) := by
    rw [Matrix.smul_mul, Matrix.mul_smul, Matrix.sub_mul, Matrix.mul_sub, Matrix.mul_sub, hPP, hPG, hGP,
      hGG]
    rw [show P - G - (G - P) = (2 : ℂ) • (P - G) by rw [two_smul]; abel, smul_smul, smul_smul]
    norm_num
  have hpm : ((1 / 2 : ℂ) • (P + G)) * ((1 / 2 : ℂ) • (P - G)) = 0 := by
    rw [Matrix.smul_mul, Matrix.mul_smul, Matrix.add_mul, Matrix.mul_sub, Matrix.mul_sub, hPP, hPG, hGP,
      hGG]
    simp
  have hmp : ((1 / 2 : ℂ) • (P - G)) * ((1 / 2 : ℂ) • (P + G)) = 0 := by
    rw [Matrix.smul_mul, Matrix.mul_smul, Matrix.sub_mul, Matrix.mul_add, Matrix.mul_add, hPP, hPG, hGP,
      hGG]
    rw [add_comm G P, sub_self, smul_zero, smul_zero]
  have hsplit : z • G = z • ((1 / 2 : ℂ) • (P + G)) + (-z) • ((1 / 2 : ℂ) • (P - G)) := by
    rw [smul_smul, smul_smul, smul_add, smul_sub]
    module
  have hcomm : Commute (z • ((1 / 2 : ℂ) • (P + G))) ((-z) • ((1 / 2 : ℂ) • (P - G))) := by
    apply Commute.smul_left
    apply Commute.smul_right
    change _ * _ = _ * _
    rw [hpm, hmp]
  rw [hsplit, Matrix.exp_add_of_commute _ _ hcomm, exp_idem _ hp, exp_idem _ hm, Matrix.add_mul,
    Matrix.mul_add, Matrix.mul_add, Matrix.one_mul, Matrix.one_mul, Matrix.mul_one, Matrix.smul_mul,
    Matrix.mul_smul, hpm, smul_zero, smul_zero, add_zero]
  have hez : Complex.exp z = (Real.cos (θ / 2) : ℂ) - Complex.I * (Real.sin (θ / 2) : ℂ) := by
    rw [hz, show -Complex.I / 2 * (θ : ℂ) = (((-(θ / 2) : ℝ) : ℂ)) * Complex.I by push_cast; ring,
      Complex.exp_mul_I, ← Complex.ofReal_cos, ← Complex.ofReal_sin, Real.cos_neg, Real.sin_neg]
    push_cast
    ring
  have hez' : Complex.exp (-z) = (Real.cos (θ / 2) : ℂ) + Complex.I * (Real.sin (θ / 2) : ℂ) := by
    rw [hz, show -(-Complex.I / 2 * (θ : ℂ)) = (((θ / 2 : ℝ) : ℂ)) * Complex.I by push_cast; ring,
      Complex.exp_mul_I, ← Complex.ofReal_cos, ← Complex.ofReal_sin]
    ring
  rw [hez, hez']
  module

end Exp

/-! ## The generator -/

/-- Specification: both levels of a label are in the computational space. -/
def compLabel (l : List ℕ) : Prop := ∀ x ∈ l, x < 2

instance (l : List ℕ) : Decidable (compLabel l) := by unfold compLabel; infer_instance

theorem paddedPaulis_some {keys : List String} {dims : List ℕ} {ps : List (Arr ℂ)}
    (h : paddedPaulis keys dims = some ps) (hlen : keys.length = dims.length) :
    ps.length = dims.length ∧ ps.map (·.rows) = dims ∧ ps.map (·.cols) = dims ∧
      ∀ p ∈ ps, ∃ key P d, key ∈ keys ∧ pauli key = some P ∧ p = padZeros P d := by
  induction keys generalizing dims ps with
  | nil =>
    cases dims with
    | nil =>
      simp only [paddedPaulis, Option.some.injEq] at h
      subst h
      simp
    | cons d dims => simp at hlen
  | cons key keys ih =>
    cases dims with
    | nil => simp at hlen
    | cons d dims =>
      simp only [List.length_cons, Nat.add_right_cancel_iff] at hlen
      simp only [paddedPaulis] at h
      split at h
      · simp at h
      · next P hP =>
        split at h
        · simp at h
        · next hd =>
          rw [Option.map_eq_some_iff] at h
          obtain ⟨qs, hqs, rfl⟩ := h
          obtain ⟨h1, h2, h3, h4⟩ := ih hqs hlen
          have hd2 : 2 + (d - 2) = d := by omega
          refine ⟨by simp [h1], by simp [padZeros, h2, hd2], by simp [padZeros, h3, hd2], ?_⟩
          intro p hp
          rcases List.mem_cons.1 hp with rfl | hp
          · exact ⟨key, P, _, List.mem_cons_self, hP, rfl⟩
          · obtain ⟨k, Q, e, hk, hQ, rfl⟩ := h4 p hp
            exact ⟨k, Q, e, List.mem_cons_of_mem _ hk, hQ, rfl⟩

theorem pauli_sq {key : String} {P : Matrix (Fin 2) (Fin 2) ℂ} (h : pauli key = some P) :
    P * P = 1 ∧ Pᴴ = P := by
  unfold pauli at h
  split at h
  · simp only [Option.some.injEq] at h
    subst h
    constructor
    · ext i j
      fin_cases i <;> fin_cases j <;> simp [Matrix.mul_apply]
    · ext i j
      fin_cases i <;> fin_cases j <;> simp
  · simp only [Option.some.injEq] at h
    subst h
    constructor
    · ext i j
      fin_cases i <;> fin_cases j <;> simp [Matrix.mul_apply]
    · ext i j
      fin_cases i <;> fin_cases j <;> simp
  · simp only [Option.some.injEq] at h
    subst h
    constructor
    · ext i j
      fin_cases i <;> fin_cases j <;> simp [Matrix.mul_apply]
    · ext i j
      fin_cases i <;> fin_cases j <;> simp
  · simp only [Option.some.injEq] at h
    subst h
    simp
  · simp at h

theorem pad_mul (P : Matrix (Fin 2) (Fin 2) ℂ) (hP : P * P = 1) (d a b : ℕ) :
    ∑ x ∈ range (2 + d), (padZeros P d).e a x * (padZeros P d).e x b =
      if a = b ∧ a < 2 then 1 else 0 := by
  rw [sum_range_add]
  have hz : ∑ x ∈ range d, (padZeros P d).e a (2 + x) * (padZeros P d).e (2 + x) b = 0 := by
    apply sum_eq_zero
    intro x _
    have : ¬ (a < 2 ∧ 2 + x < 2) := by omega
    simp only [padZeros]
    rw [dif_neg this, zero_mul]
  rw [hz, add_zero]
  by_cases ha : a < 2
  · by_cases hb : b < 2
    · have := congrFun (congrFun hP ⟨a, ha⟩) ⟨b, hb⟩
      rw [Matrix.mul_apply, Matrix.one_apply, Fin.sum_univ_two] at this
      rw [sum_range_succ, sum_range_one]
      simp only [padZeros, ha, hb, true_and, and_true, Fin.mk.injEq] at this ⊢
      simpa using this
    · rw [if_neg (by rintro ⟨rfl, -⟩; exact hb ha)]
      apply sum_eq_zero
      intro x _
      have : ¬ (x < 2 ∧ b < 2) := by tauto
      simp only [padZeros]
      rw [dif_neg this, mul_zero]
  · rw [if_neg (by tauto)]
    apply sum_eq_zero
    intro x _
    have : ¬ (a < 2 ∧ x < 2) := by tauto
    simp only [padZeros]
    rw [dif_neg this, zero_mul]

/-- Projector on the computational space. -/
def compProj (dims : List ℕ) : Matrix (Fin dims.prod) (Fin dims.prod) ℂ :=
  Matrix.diagonal fun p => if compLabel ((stateLabels dims).getD p []) then 1 else 0

theorem label_flat {dims l : List ℕ} (h : Valid dims l) :
    (stateLabels dims).getD (flat dims l) [] = l := by
  rw [List.getD_eq_getElem?_getD, stateLabels_flat h]
  rfl

theorem gen_entry {keys : List String} {dims : List ℕ} {ps : List (Arr ℂ)}
    (h : paddedPaulis keys dims = some ps) (hlen : keys.length = dims.length) (l m : List ℕ)
    (hl : Valid dims l) (hm : Valid dims m) :
    (npKronN ps).e (flat dims l) (flat dims m) = prodE ps l m := by
  obtain ⟨-, h2, h3, -⟩ := paddedPaulis_some h hlen
  have := npKronN_e ps l m (by rwa [h2]) (by rwa [h3])
  rwa [h2, h3] at this

theorem gen_sq {keys : List String} {dims : List ℕ} {ps : List (Arr ℂ)}
    (h : paddedPaulis keys dims = some ps) (hlen : keys.length = dims.length) :
    (npKronN ps).mat dims.prod dims.prod * (npKronN ps).mat dims.prod dims.prod = compProj dims := by
  obtain ⟨h1, h2, h3, h4⟩ := paddedPaulis_some h hlen
  apply ext_labels
  intro l m hl hm
  rw [Matrix.mul_apply]
  have := npKronN_mul_e ps ps rfl (by rw [h2, h3]) l m (by rwa [h2]) (by rwa [h3])
  rw [h2, h3] at this
  have hsum : ∑ k : Fin dims.prod, (npKronN ps).mat dims.prod dims.prod ⟨flat dims l, flat_lt hl⟩ k *
      (npKronN ps).mat dims.prod dims.prod k ⟨flat dims m, flat_lt hm⟩ =
      ∑ k ∈ range dims.prod, (npKronN ps).e (flat dims l) k * (npKronN ps).e k (flat dims m) := by
    rw [← Fin.sum_univ_eq_sum_range (fun k => (npKronN ps).e (flat dims l) k *
      (npKronN ps).e k (flat dims m))]
    rfl
  rw [hsum, this]
  have hterm : ∀ t ∈ range ps.length, ∑ x ∈ range (dims.getD t 0),
      (ps.getD t (eye 0 0)).e (l.getD t 0) x * (ps.getD t (eye 0 0)).e x (m.getD t 0) =
      if l.getD t 0 = m.getD t 0 ∧ l.getD t 0 < 2 then 1 else 0 := by
    intro t ht
    rw [mem_range] at ht
    obtain ⟨key, P, d, -, hP, hp⟩ := h4 (ps[t]) (List.getElem_mem ht)
    have hd : dims.getD t 0 = 2 + d := by
      have : (ps.map (·.rows)).getD t 0 = 2 + d := by
        rw [List.getD_eq_getElem?_getD, List.getElem?_map, List.getElem?_eq_getElem ht]
        simp [hp, padZeros]
      rwa [h2] at this
    have hg : ps.getD t (eye 0 0) = padZeros P d := by
      rw [List.getD_eq_getElem?_getD, List.getElem?_eq_getElem ht, ← hp]
      rfl
    rw [hd, hg]
    exact pad_mul P (pauli_sq hP).1 d _ _
  rw [prod_congr rfl hterm]
  unfold compProj
  rw [Matrix.diagonal_apply]
  simp only [Fin.mk.injEq, flat_inj hl hm, label_flat hl]
  have hll := valid_length hl
  have hml := valid_length hm
  by_cases hlm : l = m
  · subst hlm
    rw [if_pos rfl]
    by_cases hc : compLabel l
    · rw [if_pos hc]
      apply prod_eq_one
      intro t ht
      rw [mem_range, h1, ← hll] at ht
      rw [if_pos ⟨rfl, hc _ (by rw [List.getD_eq_getElem?_getD, List.getElem?_eq_getElem ht]; simp)⟩]
    · rw [if_neg hc]
      unfold compLabel at hc
      push Not at hc
      obtain ⟨x, hx, hx2⟩ := hc
      obtain ⟨t, ht, rfl⟩ := List.getElem_of_mem hx
      apply prod_eq_zero (mem_range.2 (by rw [h1, ← hll]; exact ht))
      rw [if_neg]
      rintro ⟨-, h⟩
      rw [List.getD_eq_getElem?_getD, List.getElem?_eq_getElem ht] at h
      simp only [Option.getD_some] at h
      omega
  · rw [if_neg hlm]
    obtain ⟨t, ht, hne⟩ : ∃ t, t < ps.length ∧ l.getD t 0 ≠ m.getD t 0 := by
      by_contra hcon
      push Not at hcon
      apply hlm
      apply List.ext_getElem (by omega)
      intro t ht1 ht2
      have := hcon t (by omega)
      simpa [List.getD_eq_getElem?_getD, ht1, ht2] using this
    apply prod_eq_zero (mem_range.2 ht)
    rw [if_neg (fun h => hne h.1)]

theorem gen_proj {keys : List String} {dims : List ℕ} {ps : List (Arr ℂ)}
    (h : paddedPaulis keys dims = some ps) (hlen : keys.length = dims.length) :
    compProj dims * (npKronN ps).mat dims.prod dims.prod = (npKronN ps).mat dims.prod dims.prod := by
  obtain ⟨h1, h2, h3, h4⟩ := paddedPaulis_some h hlen
  apply ext_labels
  intro l m hl hm
  unfold compProj
  rw [Matrix.diagonal_mul]
  simp only [label_flat hl]
  split
  · rw [one_mul]
  · next hc =>
    rw [zero_mul]
    symm
    change (npKronN ps).e (flat dims l) (flat dims m) = 0
    rw [gen_entry h hlen l m hl hm]
    unfold compLabel at hc
    push Not at hc
    obtain ⟨x, hx, hx2⟩ := hc
    obtain ⟨t, ht, rfl⟩ := List.getElem_of_mem hx
    have htp : t < ps.length := by rw [h1, ← valid_length hl]; exact ht
    apply prod_eq_zero (mem_range.2 htp)
    obtain ⟨key, P, d, -, hP, hp⟩ := h4 (ps[t]) (List.getElem_mem htp)
    rw [List.getD_eq_getElem?_getD, List.getElem?_eq_getElem htp, List.getD_eq_getElem?_getD,
      List.getElem?_eq_getElem ht]
    simp only [Option.getD_some, hp, padZeros]
    rw [dif_neg]
    omega

theorem gen_herm {keys : List String} {dims : List ℕ} {ps : List (Arr ℂ)}
    (h : paddedPaulis keys dims = some ps) (hlen : keys.length = dims.length) :
    ((npKronN ps).mat dims.prod dims.prod)ᴴ = (npKronN ps).mat dims.prod dims.prod := by
  obtain ⟨h1, h2, h3, h4⟩ := paddedPaulis_some h hlen
  apply ext_labels
  intro l m hl hm
  rw [Matrix.conjTranspose_apply]
  change star ((npKronN ps).e (flat dims m) (flat dims l)) = (npKronN ps).e (flat dims l) (flat dims m)
  rw [gen_entry h hlen l m hl hm, gen_entry h hlen m l hm hl]
  unfold prodE
  rw [RCLike.star_def, map_prod]
  apply prod_congr rfl
  intro t ht
  rw [mem_range] at ht
  obtain ⟨key, P, d, -, hP, hp⟩ := h4 (ps[t]) (List.getElem_mem ht)
  rw [List.getD_eq_getElem?_getD, List.getElem?_eq_getElem ht]
  simp only [Option.getD_some, hp, padZeros]
  by_cases hc : l.getD t 0 < 2 ∧ m.getD t 0 < 2
  · rw [dif_pos hc, dif_pos ⟨hc.2, hc.1⟩]
    have := congrFun (congrFun (pauli_sq hP).2 ⟨_, hc.1⟩) ⟨_, hc.2⟩
    rw [Matrix.conjTranspose_apply] at this
    exact this
  · rw [dif_neg hc, dif_neg (fun h => hc ⟨h.2, h.1⟩), map_zero]

/-- C99: the parametric gate of a Pauli word is the rotation `cos(θ/2) - i sin(θ/2) P₁ ⊗ … ⊗ Pₙ` on the
computational space of all subsystems and the identity on every state with a higher level. -/
theorem C99_rotation (keys : List String) (ang : ℝ) (dims : List ℕ) (hlen : keys.length = dims.length)
    (U : Matrix (Fin dims.prod) (Fin dims.prod) ℂ)
    (h : parametricGate keys ang dims dims.prod = some U) :
    ∃ ps, paddedPaulis keys dims = some ps ∧
      U = (1 - compProj dims) + (Real.cos (ang / 2) : ℂ) • compProj dims -
        (Complex.I * (Real.sin (ang / 2) : ℂ)) • (npKronN ps).mat dims.prod dims.prod := by
  unfold parametricGate at h
  rw [Option.map_eq_some_iff] at h
  obtain ⟨ps, hps, rfl⟩ := h
  exact ⟨ps, hps, exp_reflection _ _ (gen_sq hps hlen) (gen_proj hps hlen) ang⟩

/-- C99: the parametric gate is unitary, the identity at angle zero, adding angles multiplies gates, and
a full turn flips the sign of the computational space only. -/
theorem C99_group (keys : List String) (dims : List ℕ) (hlen : keys.length = dims.length)
    (hk : ∀ k ∈ keys, pauli k ≠ none) (hd : ∀ d ∈ dims, 2 ≤ d) :
    ∃ U : ℝ → Matrix (Fin dims.prod) (Fin dims.prod) ℂ,
      (∀ ang, parametricGate keys ang dims dims.prod = some (U ang)) ∧
      (∀ ang, (U ang)ᴴ * U ang = 1) ∧ U 0 = 1 ∧ (∀ a b, U (a + b) = U a * U b) ∧
      U (2 * Real.pi) = 1 - (2 : ℂ) • compProj dims := by
  obtain ⟨ps, hps⟩ : ∃ ps, paddedPaulis keys dims = some ps := by
    induction keys generalizing dims with
    | nil => exact ⟨[], by cases dims <;> rfl⟩
    | cons key keys ih =>
      cases dims with
      | nil => simp at hlen
      | cons d dims =>
        obtain ⟨ps, hps⟩ := ih dims (by simpa using hlen)
          (fun k hk' => hk k (List.mem_cons_of_mem _ hk'))
          (fun e he => hd e (List.mem_cons_of_mem _ he))
        obtain ⟨P, hP⟩ := Option.ne_none_iff_exists'.1 (hk key List.mem_cons_self)
        have := hd d List.mem_cons_self
        refine ⟨padZeros P (d - 2) :: ps, ?_⟩
        simp only [paddedPaulis, hP, hps]
        rw [if_neg (by omega)]
        rfl
  set G := (npKronN ps).mat dims.prod dims.prod with hG
  have hadd : ∀ a b : ℝ, exp ((-Complex.I / 2 * ((a + b : ℝ) : ℂ)) • G) =
      exp ((-Complex.I / 2 * (a : ℂ)) • G) * exp ((-Complex.I / 2 * (b : ℂ)) • G) := by
    intro a b
    rw [← Matrix.exp_add_of_commute, ← add_smul, ← mul_add, ← Complex.ofReal_add]
    exact (Commute.refl G).smul_left _ |>.smul_right _
  refine ⟨fun ang => exp ((-Complex.I / 2 * (ang : ℂ)) • G), fun ang => ?_, fun ang => ?_, by simp,
    hadd, ?_⟩
  · unfold parametricGate
    rw [hps]
    rfl
  · simp only
    rw [← Matrix.exp_conjTranspose, Matrix.conjTranspose_smul, gen_herm hps hlen]
    have : star (-Complex.I / 2 * (ang : ℂ)) = -Complex.I / 2 * ((-ang : ℝ) : ℂ) := by
      rw [RCLike.star_def]
      simp only [map_mul, map_div₀, map_neg, Complex.conj_I, Complex.conj_ofReal, Complex.conj_ofNat]
      push_cast
      ring
    rw [this, ← hadd]
    simp
  · simp only
    rw [exp_reflection _ _ (gen_sq hps hlen) (gen_proj hps hlen)]
    rw [show 2 * Real.pi / 2 = Real.pi by ring, Real.cos_pi, Real.sin_pi]
    simp only [Complex.ofReal_neg, Complex.ofReal_one, Complex.ofReal_zero, mul_zero, zero_smul,
      sub_zero, neg_smul, one_smul, two_smul]
    abel

/-! ## The entries, written out -/

/-- Specification: entries of the Pauli matrices. -/
noncomputable def specPauli (key : String) (a b : ℕ) : ℂ :=
  if key = "X" then (if a + b = 1 then 1 else 0)
  else if key = "Y" then (if a = 0 ∧ b = 1 then -Complex.I else if a = 1 ∧ b = 0 then Complex.I else 0)
  else if key = "Z" then (if a = b then (if a = 0 then 1 else -1) else 0)
  else if a = b then 1 else 0

/-- Specification: entries of the rotation of one qubit by `ang` about the named axis. -/
noncomputable def specRot (key : String) (ang : ℝ) (a b : ℕ) : ℂ :=
  if a = b then
    (if key = "Z" then Complex.exp (if a = 0 then -(Complex.I * (ang / 2)) else Complex.I * (ang / 2))
      else (Real.cos (ang / 2) : ℂ))
  else if key = "X" then -Complex.I * (Real.sin (ang / 2) : ℂ)
  else if key = "Y" then (if a = 0 then -(Real.sin (ang / 2) : ℂ) else (Real.sin (ang / 2) : ℂ))
  else 0

theorem paddedPaulis_getD {keys : List String} {dims : List ℕ} {ps : List (Arr ℂ)}
    (h : paddedPaulis keys dims = some ps) (t : ℕ) (ht : t < keys.length) :
    ∃ P, pauli keys[t] = some P ∧ ps.getD t (eye 0 0) = padZeros P (dims.getD t 0 - 2) := by
  induction keys generalizing dims ps t with
  | nil => simp at ht
  | cons key keys ih =>
    cases dims with
    | nil => simp [paddedPaulis] at h
    | cons d dims =>
      simp only [paddedPaulis] at h
      split at h
      · simp at h
      · next P hP =>
        split at h
        · simp at h
        · rw [Option.map_eq_some_iff] at h
          obtain ⟨qs, hqs, rfl⟩ := h
          cases t with
          | zero => exact ⟨P, hP, rfl⟩
          | succ t =>
            obtain ⟨Q, hQ, hq⟩ := ih hqs t (by simpa using ht)
            exact ⟨Q, by simpa using hQ, by simpa using hq⟩


theorem padZeros_spec {key : String} {P : Matrix (Fin 2) (Fin 2) ℂ} (hP : pauli key = some P) (d a b : ℕ) :
    (padZeros P d).e a b = if a < 2 ∧ b < 2 then specPauli key a b else 0 := by
  simp only [padZeros]
  by_cases h : a < 2 ∧ b < 2
  · rw [dif_pos h, if_pos h]
    obtain ⟨ha, hb⟩ := h
    unfold pauli at hP
    split at hP
    all_goals
      first
      | (simp at hP; done)
      | (simp only [Option.some.injEq] at hP
         subst hP
         interval_cases a <;> interval_cases b <;> simp [specPauli])
  · rw [dif_neg h, if_neg h]

/-- **C99** entry by entry: on the computational states the gate is `cos - i sin` times the product of the Pauli
matrices of the subsystems; on all others it is the identity. -/
theorem C99_entries (keys : List String) (ang : ℝ) (dims : List ℕ) (hlen : keys.length = dims.length)
    (U : Matrix (Fin dims.prod) (Fin dims.prod) ℂ) (hU : parametricGate keys ang dims dims.prod = some U)
    (l m : List ℕ) (hl : Valid dims l) (hm : Valid dims m) :
    U ⟨flat dims l, flat_lt hl⟩ ⟨flat dims m, flat_lt hm⟩ =
      open scoped Classical in
      if compLabel l ∧ compLabel m then
        (if l = m then (Real.cos (ang / 2) : ℂ) else 0) - Complex.I * (Real.sin (ang / 2) : ℂ) *
          ∏ t ∈ range dims.length, specPauli (keys.getD t "") (l.getD t 0) (m.getD t 0)
      else if l = m then 1 else 0 := by
  classical
  obtain ⟨ps, hps, hUe⟩ := C99_rotation keys ang dims hlen U hU
  have h1 : ps.length = dims.length := (paddedPaulis_some hps hlen).1
  have hll := valid_length hl
  have hml := valid_length hm
  have hfac : ∀ s, s < dims.length → (ps.getD s (eye 0 0)).e (l.getD s 0) (m.getD s 0) =
      if l.getD s 0 < 2 ∧ m.getD s 0 < 2 then specPauli (keys.getD s "") (l.getD s 0) (m.getD s 0) else 0 := by
    intro s hs
    obtain ⟨P, hP, hp⟩ := paddedPaulis_getD hps s (by rw [hlen]; exact hs)
    rw [hp, padZeros_spec hP]
    rw [List.getD_eq_getElem keys "" (by rw [hlen]; exact hs)]
  have hlt : ∀ k : List ℕ, k.length = dims.length → compLabel k → ∀ s < dims.length, k.getD s 0 < 2 := by
    intro k hk hc s hs
    exact hc _ (by rw [List.getD_eq_getElem k 0 (by omega)]; exact List.getElem_mem _)
  have hnc : ∀ k : List ℕ, k.length = dims.length → ¬ compLabel k → ∃ s < dims.length, ¬ k.getD s 0 < 2 := by
    intro k hk hc
    unfold compLabel at hc
    push Not at hc
    obtain ⟨x, hx, hx2⟩ := hc
    obtain ⟨s, hs, rfl⟩ := List.getElem_of_mem hx
    exact ⟨s, by omega, by rw [List.getD_eq_getElem k 0 hs]; omega⟩
  have hG : (npKronN ps).mat dims.prod dims.prod ⟨flat dims l, flat_lt hl⟩ ⟨flat dims m, flat_lt hm⟩ =
      if compLabel l ∧ compLabel m then
        ∏ t ∈ range dims.length, specPauli (keys.getD t "") (l.getD t 0) (m.getD t 0) else 0 := by
    change (npKronN ps).e (flat dims l) (flat dims m) = _
    rw [gen_entry hps hlen l m hl hm]
    unfold prodE
    rw [h1, prod_congr rfl fun s hs => hfac s (mem_range.1 hs)]
    by_cases hc : compLabel l ∧ compLabel m
    · rw [if_pos hc]
      apply prod_congr rfl
      intro s hs
      rw [mem_range] at hs
      rw [if_pos ⟨hlt l hll hc.1 s hs, hlt m hml hc.2 s hs⟩]
    · rw [if_neg hc]
      have : ∃ s < dims.length, ¬ (l.getD s 0 < 2 ∧ m.getD s 0 < 2) := by
        by_cases hcl : compLabel l
        · obtain ⟨s, hs, h⟩ := hnc m hml fun h => hc ⟨hcl, h⟩
          exact ⟨s, hs, fun h' => h h'.2⟩
        · obtain ⟨s, hs, h⟩ := hnc l hll hcl
          exact ⟨s, hs, fun h' => h h'.1⟩
      obtain ⟨s, hs, h⟩ := this
      exact prod_eq_zero (mem_range.2 hs) (if_neg h)
  have hP : compProj dims ⟨flat dims l, flat_lt hl⟩ ⟨flat dims m, flat_lt hm⟩ =
      if l = m then (if compLabel l then 1 else 0) else 0 := by
    unfold compProj
    rw [Matrix.diagonal_apply]
    simp only [Fin.mk.injEq, flat_inj hl hm, label_flat hl]
  have hI : (1 : Matrix (Fin dims.prod) (Fin dims.prod) ℂ) ⟨flat dims l, flat_lt hl⟩ ⟨flat dims m, flat_lt hm⟩ =
      if l = m then 1 else 0 := by
    rw [Matrix.one_apply]
    simp only [Fin.mk.injEq, flat_inj hl hm]
  rw [hUe, Matrix.sub_apply, Matrix.add_apply, Matrix.sub_apply, Matrix.smul_apply, Matrix.smul_apply, hG, hP, hI]
  by_cases hlm : l = m
  · subst hlm
    by_cases hc : compLabel l <;> simp [hc]
  · by_cases hc : compLabel l ∧ compLabel m <;> simp [hlm, hc]

/-- **C99** for single-qubit gates: on the computational states the gate is the rotation of the target about the named
axis and the identity on the other subsystems. -/
theorem C99_single (key : String) (hk : key = "X" ∨ key = "Y" ∨ key = "Z") (target : ℕ) (ang : ℝ) (dims : List ℕ)
    (ht : target < dims.length) (U : Matrix (Fin dims.prod) (Fin dims.prod) ℂ)
    (hU : singleQGate key target ang dims dims.prod = some U) (l m : List ℕ) (hl : Valid dims l) (hm : Valid dims m)
    (hcl : compLabel l) (hcm : compLabel m) :
    U ⟨flat dims l, flat_lt hl⟩ ⟨flat dims m, flat_lt hm⟩ =
      open scoped Classical in
      if ∀ s, s ≠ target → l.getD s 0 = m.getD s 0 then specRot key ang (l.getD target 0) (m.getD target 0) else 0 := by
  classical
  rw [C99_entries _ ang dims (by simp) U hU l m hl hm, if_pos ⟨hcl, hcm⟩]
  have hll := valid_length hl
  have hml := valid_length hm
  have hkey : ∀ s < dims.length, ((List.replicate dims.length "Id").set target key).getD s "" =
      if target = s then key else "Id" := by
    intro s hs
    rw [List.getD_eq_getElem _ _ (by simpa using hs), List.getElem_set, List.getElem_replicate]
  have hx : ∀ s, s ≠ target → s < dims.length →
      specPauli (((List.replicate dims.length "Id").set target key).getD s "") (l.getD s 0) (m.getD s 0) =
      if l.getD s 0 = m.getD s 0 then 1 else 0 := by
    intro s hs hs2
    rw [hkey s hs2, if_neg (fun h => hs h.symm)]
    unfold specPauli
    rw [if_neg (by decide), if_neg (by decide), if_neg (by decide)]
  have heq : l = m ↔ (∀ s, s ≠ target → l.getD s 0 = m.getD s 0) ∧ l.getD target 0 = m.getD target 0 := by
    constructor
    · rintro rfl; simp
    · rintro ⟨h1, h2⟩
      apply List.ext_getElem (by omega)
      intro s hs1 hs2
      have : l.getD s 0 = m.getD s 0 := by
        by_cases h : s = target
        · rw [h]; exact h2
        · exact h1 s h
      rwa [List.getD_eq_getElem l 0 hs1, List.getD_eq_getElem m 0 hs2] at this
  have hlt : ∀ k : List ℕ, k.length = dims.length → compLabel k → k.getD target 0 < 2 := by
    intro k hk hc
    exact hc _ (by rw [List.getD_eq_getElem k 0 (by omega)]; exact List.getElem_mem _)
  have hl2 := hlt l hll hcl
  have hm2 := hlt m hml hcm
  by_cases hs : ∀ s, s ≠ target → l.getD s 0 = m.getD s 0
  · rw [if_pos hs]
    rw [prod_eq_single target (fun s hs1 hne => by rw [hx s hne (mem_range.1 hs1), if_pos (hs s hne)])
      (fun h => absurd (mem_range.2 ht) h), hkey target ht, if_pos rfl]
    have heq' : l = m ↔ l.getD target 0 = m.getD target 0 := by rw [heq]; exact ⟨fun h => h.2, fun h => ⟨hs, h⟩⟩
    simp only [heq']
    have e1 : Complex.exp (Complex.I * (ang / 2)) =
        (Real.cos (ang / 2) : ℂ) + Complex.I * (Real.sin (ang / 2) : ℂ) := by
      rw [show Complex.I * ((ang : ℂ) / 2) = ((ang / 2 : ℝ) : ℂ) * Complex.I by push_cast; ring, Complex.exp_mul_I,
        Complex.ofReal_cos, Complex.ofReal_sin]
      ring
    have e2 : Complex.exp (-(Complex.I * (ang / 2))) =
        (Real.cos (ang / 2) : ℂ) - Complex.I * (Real.sin (ang / 2) : ℂ) := by
      rw [show -(Complex.I * ((ang : ℂ) / 2)) = (-((ang / 2 : ℝ) : ℂ)) * Complex.I by push_cast; ring,
        Complex.exp_mul_I, Complex.cos_neg, Complex.sin_neg, Complex.ofReal_cos, Complex.ofReal_sin]
      ring
    unfold specRot
    generalize l.getD target 0 = a at hl2 ⊢
    generalize m.getD target 0 = b at hm2 ⊢
    generalize (Real.cos (ang / 2) : ℂ) = x at e1 e2 ⊢
    generalize (Real.sin (ang / 2) : ℂ) = y at e1 e2 ⊢
    have hII : Complex.I * y * Complex.I = -y := by
      rw [mul_right_comm, Complex.I_mul_I, neg_one_mul]
    rcases hk with rfl | rfl | rfl <;> interval_cases a <;> interval_cases b <;>
      simp [specPauli, e1, e2, hII]
  · rw [if_neg hs]
    have hlm : l ≠ m := fun h => hs (heq.1 h).1
    push Not at hs
    obtain ⟨s, hne, h⟩ := hs
    have hsl : s < dims.length := by
      by_contra hc
      apply h
      rw [List.getD_eq_default _ _ (by omega), List.getD_eq_default _ _ (by omega)]
    rw [if_neg hlm, prod_eq_zero (mem_range.2 hsl) (by rw [hx s hne hsl, if_neg h])]
    simp

/-- C99: an unknown Pauli matrix raises. -/
theorem C99_unknown (keys : List String) (ang : ℝ) (dims : List ℕ) (n : ℕ) (k : String) (hk : k ∈ keys)
    (h : pauli k = none) : parametricGate keys ang dims n = none := by
  have : paddedPaulis keys dims = none := by
    induction keys generalizing dims with
    | nil => simp at hk
    | cons key keys ih =>
      cases dims with
      | nil => rfl
      | cons d dims =>
        simp only [paddedPaulis]
        rcases List.mem_cons.1 hk with rfl | hk
        · rw [h]
        · rw [ih dims hk]
          split
          · rfl
          · split <;> rfl
  unfold parametricGate
  rw [this]
  rfl

example : ∀ k ∈ ["Z", "X"], pauli k ≠ none := by
  simp [pauli]
example : pauli "W" = none := by simp [pauli]

end C3.Gates
