import Verif.Gates.Parametric
import Verif.Experiment.Evaluate

/-!
# C168: virtual Z gates in QASM sequences

Models c3/experiment.py:304-353 (`evaluate_qasm`, `lookup_gate`, `get_VZ`).
-/

set_option linter.unusedSectionVars false

namespace C3.Experiment.Qasm

open Matrix Finset C3.Hilbert C3.Gates

/-! ## Model -/

/-- A propagator with its dimension. -/
structure Op where
  dim : ℕ
  mat : Matrix (Fin dim) (Fin dim) ℂ

/-- A state vector (closed system) or density vector (open system) with its dimension. -/
structure Vec where
  dim : ℕ
  v : Fin dim → ℂ

/-- One entry of a sequence: a virtual Z gate on a qubit, or a gate by its key `name + str(qubits)`. -/
inductive Call where
  | vz (target : ℕ) (ang : ℝ)
  | named (key : String)

inductive Err where
  | unknownGate   -- KeyError
  | badTarget     -- IndexError, or a subsystem with less than two levels
  | shape         -- tf.matmul of different sizes
deriving DecidableEq

/-- c3/experiment.py:337-353 `lookup_gate` and `get_VZ`. -/
noncomputable def lookup (dims : List ℕ) (props : String → Option Op) : Call → Except Err Op
  | .named k => match props k with
    | none => .error .unknownGate
    | some U => .ok U
  | .vz t a =>
    if t < dims.length then
      match singleQGate "Z" t a dims dims.prod with
      | none => .error .badTarget
      | some U => .ok ⟨dims.prod, U⟩
    else .error .badTarget

/-- `tf.matmul(gate, psi_t)`. -/
noncomputable def apply (U : Op) (psi : Vec) : Except Err Vec :=
  if h : psi.dim = U.dim then .ok ⟨U.dim, U.mat *ᵥ fun i => psi.v (Fin.cast h.symm i)⟩ else .error .shape

/-- The loop over the gates of a sequence (c3/experiment.py:329-331). -/
noncomputable def runSeq (dims : List ℕ) (props : String → Option Op) : List Call → Vec → Except Err Vec
  | [], psi => .ok psi
  | g :: gs, psi => match lookup dims props g with
    | .error e => .error e
    | .ok U => match apply U psi with
      | .error e => .error e
      | .ok psi' => runSeq dims props gs psi'

/-! ## Specification -/

/-- The phase a Z rotation by `a` gives to a level: `exp(-i a/2)` for the ground and `exp(i a/2)` for the excited
state. -/
noncomputable def zPhase (a : ℝ) (lvl : ℕ) : ℂ :=
  if lvl = 0 then Complex.exp (-(Complex.I * (a / 2))) else Complex.exp (Complex.I * (a / 2))

/-- Entries of a padded diagonal Pauli matrix. -/
theorem pad_entry (key : String) (P : Matrix (Fin 2) (Fin 2) ℂ) (hP : pauli key = some P)
    (hk : key = "Z" ∨ key = "Id") (d a b : ℕ) :
    (padZeros P d).e a b = if a = b ∧ a < 2 then (if key = "Z" ∧ a = 1 then -1 else 1) else 0 := by
  simp only [padZeros]
  rcases hk with rfl | rfl
  · simp only [pauli, Option.some.injEq] at hP
    subst hP
    by_cases ha : a < 2 <;> by_cases hb : b < 2
    · rw [dif_pos ⟨ha, hb⟩]
      interval_cases a <;> interval_cases b <;> simp
    · rw [dif_neg (fun h => hb h.2), if_neg (fun h : a = b ∧ a < 2 => hb (h.1 ▸ h.2))]
    · rw [dif_neg (fun h => ha h.1), if_neg (fun h => ha h.2)]
    · rw [dif_neg (fun h => ha h.1), if_neg (fun h => ha h.2)]
  · simp only [pauli, Option.some.injEq] at hP
    subst hP
    by_cases ha : a < 2 <;> by_cases hb : b < 2
    · rw [dif_pos ⟨ha, hb⟩]
      interval_cases a <;> interval_cases b <;> simp
    · rw [dif_neg (fun h => hb h.2), if_neg (fun h : a = b ∧ a < 2 => hb (h.1 ▸ h.2))]
    · rw [dif_neg (fun h => ha h.1), if_neg (fun h => ha h.2)]
    · rw [dif_neg (fun h => ha h.1), if_neg (fun h => ha h.2)]

theorem vz_exists (dims : List ℕ) (hd : ∀ d ∈ dims, 2 ≤ d) (t : ℕ) (a : ℝ) :
    ∃ U, singleQGate "Z" t a dims dims.prod = some U := by
  obtain ⟨U, hU, _⟩ := C99_group ((List.replicate dims.length "Id").set t "Z") dims (by simp) (by
    intro k hk
    rcases List.mem_or_eq_of_mem_set hk with h | rfl
    · rw [(List.mem_replicate.1 h).2]; simp [pauli]
    · simp [pauli]) hd
  exact ⟨U a, hU a⟩

/-- The entries of the gate. -/
theorem vz_entry (dims : List ℕ) (t : ℕ) (ht : t < dims.length) (a : ℝ)
    (U : Matrix (Fin dims.prod) (Fin dims.prod) ℂ) (hU : singleQGate "Z" t a dims dims.prod = some U)
    (l m : List ℕ) (hl : Valid dims l) (hm : Valid dims m) :
    U ⟨flat dims l, flat_lt hl⟩ ⟨flat dims m, flat_lt hm⟩ =
      if l = m then (if compLabel l then zPhase a (l.getD t 0) else 1) else 0 := by
  set keys := (List.replicate dims.length "Id").set t "Z" with hkeys
  have hlen : keys.length = dims.length := by simp [hkeys]
  obtain ⟨ps, hps, hUe⟩ := C99_rotation keys a dims hlen U hU
  have h1 : ps.length = dims.length := (paddedPaulis_some hps hlen).1
  have hll := valid_length hl
  have hml := valid_length hm
  have hfac : ∀ s, s < dims.length → (ps.getD s (eye 0 0)).e (l.getD s 0) (m.getD s 0) =
      if l.getD s 0 = m.getD s 0 ∧ l.getD s 0 < 2 then (if s = t ∧ l.getD s 0 = 1 then -1 else 1) else 0 := by
    intro s hs
    obtain ⟨P, hP, hp⟩ := paddedPaulis_getD hps s (by rw [hlen]; exact hs)
    rw [hp]
    have hk : keys[s]'(by rw [hlen]; exact hs) = if t = s then "Z" else "Id" := by
      simp only [hkeys, List.getElem_set, List.getElem_replicate]
    rw [pad_entry _ P hP (by rw [hk]; split <;> simp)]
    rw [hk]
    by_cases hts : t = s
    · subst hts; simp
    · have : ¬ (s = t) := fun h => hts h.symm
      simp [hts, this]
  have hG : (npKronN ps).mat dims.prod dims.prod ⟨flat dims l, flat_lt hl⟩ ⟨flat dims m, flat_lt hm⟩ =
      if l = m then (if compLabel l then (if l.getD t 0 = 1 then -1 else 1) else 0) else 0 := by
    change (npKronN ps).e (flat dims l) (flat dims m) = _
    rw [gen_entry hps hlen l m hl hm]
    unfold prodE
    rw [h1]
    rw [prod_congr rfl fun s hs => hfac s (mem_range.1 hs)]
    by_cases hlm : l = m
    · subst hlm
      rw [if_pos rfl]
      by_cases hc : compLabel l
      · rw [if_pos hc, prod_eq_single t]
        · have : l.getD t 0 < 2 := hc _ (by
            rw [List.getD_eq_getElem?_getD, List.getElem?_eq_getElem (by omega)]; simp)
          rw [if_pos ⟨rfl, this⟩]
          simp only [true_and]
        · intro s hs hst
          have : l.getD s 0 < 2 := hc _ (by
            rw [mem_range] at hs
            rw [List.getD_eq_getElem?_getD, List.getElem?_eq_getElem (by omega)]; simp)
          rw [if_pos ⟨rfl, this⟩, if_neg (fun h => hst h.1)]
        · intro h; exact absurd (mem_range.2 ht) h
      · rw [if_neg hc]
        unfold compLabel at hc
        push Not at hc
        obtain ⟨x, hx, hx2⟩ := hc
        obtain ⟨s, hs, rfl⟩ := List.getElem_of_mem hx
        apply prod_eq_zero (mem_range.2 (by omega : s < dims.length))
        rw [if_neg]
        rintro ⟨-, h⟩
        rw [List.getD_eq_getElem?_getD, List.getElem?_eq_getElem hs] at h
        simp only [Option.getD_some] at h
        omega
    · rw [if_neg hlm]
      obtain ⟨s, hs, hne⟩ : ∃ s, s < dims.length ∧ l.getD s 0 ≠ m.getD s 0 := by
        by_contra hcon
        push Not at hcon
        apply hlm
        apply List.ext_getElem (by omega)
        intro s hs1 hs2
        have := hcon s (by omega)
        simpa [List.getD_eq_getElem?_getD, hs1, hs2] using this
      apply prod_eq_zero (mem_range.2 hs)
      rw [if_neg (fun h => hne h.1)]
  have hP : compProj dims ⟨flat dims l, flat_lt hl⟩ ⟨flat dims m, flat_lt hm⟩ =
      if l = m then (if compLabel l then 1 else 0) else 0 := by
    unfold compProj
    rw [Matrix.diagonal_apply]
    simp only [Fin.mk.injEq, flat_inj hl hm, label_flat hl]
  have h1' : (1 : Matrix (Fin dims.prod) (Fin dims.prod) ℂ) ⟨flat dims l, flat_lt hl⟩ ⟨flat dims m, flat_lt hm⟩ =
      if l = m then 1 else 0 := by
    rw [Matrix.one_apply]
    simp only [Fin.mk.injEq, flat_inj hl hm]
  rw [hUe, Matrix.sub_apply, Matrix.add_apply, Matrix.sub_apply, Matrix.smul_apply, Matrix.smul_apply, hG, hP, h1']
  by_cases hlm : l = m
  · simp only [if_pos hlm]
    by_cases hc : compLabel l
    · simp only [if_pos hc]
      have hlt : l.getD t 0 < 2 := hc _ (by
        rw [List.getD_eq_getElem?_getD, List.getElem?_eq_getElem (by omega)]; simp)
      have e1 : Complex.exp (Complex.I * (a / 2)) =
          (Real.cos (a / 2) : ℂ) + Complex.I * (Real.sin (a / 2) : ℂ) := by
        rw [show Complex.I * ((a : ℂ) / 2) = ((a / 2 : ℝ) : ℂ) * Complex.I by push_cast; ring, Complex.exp_mul_I,
          Complex.ofReal_cos, Complex.ofReal_sin]
        ring
      have e2 : Complex.exp (-(Complex.I * (a / 2))) =
          (Real.cos (a / 2) : ℂ) - Complex.I * (Real.sin (a / 2) : ℂ) := by
        rw [show -(Complex.I * ((a : ℂ) / 2)) = (-((a / 2 : ℝ) : ℂ)) * Complex.I by push_cast; ring, Complex.exp_mul_I,
          Complex.cos_neg, Complex.sin_neg, Complex.ofReal_cos, Complex.ofReal_sin]
        ring
      unfold zPhase
      rw [e1, e2]
      have : l.getD t 0 = 0 ∨ l.getD t 0 = 1 := by omega
      rcases this with h0 | h0 <;> rw [h0] <;> simp
    · simp [if_neg hc]
  · simp [if_neg hlm]

theorem flat_surj (dims : List ℕ) (i : ℕ) (hi : i < dims.prod) : ∃ l, Valid dims l ∧ flat dims l = i := by
  have hlen : i < (stateLabels dims).length := by rw [length_stateLabels]; exact hi
  exact ⟨(stateLabels dims)[i], flat_getElem dims i hlen⟩

/-! ## C168 -/

/-- C168 on the states with all qubits in the lowest two levels: a virtual Z gate gives them the phase of a Z rotation
of its qubit, whatever the state of the other qubits, and mixes nothing. Missing: states with a higher level,
`C168_false_higher`; open systems, `C168_false_open`. -/
theorem C168_phases_partial (dims : List ℕ) (hd : ∀ d ∈ dims, 2 ≤ d) (props : String → Option Op) (t : ℕ)
    (ht : t < dims.length) (a : ℝ) :
    ∃ U, lookup dims props (.vz t a) = .ok ⟨dims.prod, U⟩ ∧
      ∀ l m (hl : Valid dims l) (hm : Valid dims m), compLabel l →
        U ⟨flat dims l, flat_lt hl⟩ ⟨flat dims m, flat_lt hm⟩ = if l = m then zPhase a (l.getD t 0) else 0 := by
  obtain ⟨U, hU⟩ := vz_exists dims hd t a
  refine ⟨U, by simp only [lookup, if_pos ht, hU], fun l m hl hm hc => ?_⟩
  rw [vz_entry dims t ht a U hU l m hl hm]
  simp [hc]

/-- C168 fails with more than two levels: if any other qubit is in a higher level, the gate does nothing, although its
own qubit is in the ground or first excited state. -/
theorem C168_false_higher (dims : List ℕ) (hd : ∀ d ∈ dims, 2 ≤ d) (props : String → Option Op) (t : ℕ)
    (ht : t < dims.length) (a : ℝ) :
    ∃ U, lookup dims props (.vz t a) = .ok ⟨dims.prod, U⟩ ∧
      ∀ l (hl : Valid dims l), (∃ s < dims.length, s ≠ t ∧ 2 ≤ l.getD s 0) →
        U ⟨flat dims l, flat_lt hl⟩ ⟨flat dims l, flat_lt hl⟩ = 1 := by
  obtain ⟨U, hU⟩ := vz_exists dims hd t a
  refine ⟨U, by simp only [lookup, if_pos ht, hU], ?_⟩
  rintro l hl ⟨s, hs, _, h2⟩
  rw [vz_entry dims t ht a U hU l l hl hl, if_pos rfl, if_neg]
  intro hc
  have := hc (l.getD s 0) (by
    rw [List.getD_eq_getElem?_getD, List.getElem?_eq_getElem (by rw [valid_length hl]; exact hs)]; simp)
  omega

example : Valid [3, 3] [1, 2] ∧ ∃ s < 2, s ≠ 0 ∧ 2 ≤ [1, 2].getD s 0 :=
  ⟨by simp [Valid], 1, by norm_num, by norm_num, by norm_num⟩

/-- The phase that is missing is not one: for a half turn the excited state should get `i`. -/
example : zPhase Real.pi 1 = Complex.I := by
  unfold zPhase
  rw [if_neg one_ne_zero, show Complex.I * ((Real.pi : ℂ) / 2) = ((Real.pi / 2 : ℝ) : ℂ) * Complex.I by push_cast; ring,
    Complex.exp_mul_I]
  rw [← Complex.ofReal_cos, ← Complex.ofReal_sin, Real.cos_pi_div_two, Real.sin_pi_div_two]
  simp

/-- C168 fails for open systems: density vectors have the squared dimension, the gate does not fit, and every sequence
whose first gates run raises at a virtual Z gate. -/
theorem C168_false_open (dims : List ℕ) (hd : ∀ d ∈ dims, 2 ≤ d) (hne : dims ≠ []) (props : String → Option Op)
    (t : ℕ) (ht : t < dims.length) (a : ℝ) (gs : List Call) (psi : Vec) (hpsi : psi.dim = dims.prod ^ 2) :
    runSeq dims props (.vz t a :: gs) psi = .error .shape := by
  obtain ⟨U, hU⟩ := vz_exists dims hd t a
  have hprod : 2 ≤ dims.prod := by
    cases dims with
    | nil => exact absurd rfl hne
    | cons d ds =>
      have h1 := hd d (by simp)
      have h2 : 1 ≤ ds.prod := Nat.one_le_iff_ne_zero.2 (by
        rw [Ne, List.prod_eq_zero_iff]
        intro h0
        have := hd 0 (by simp [h0])
        omega)
      rw [List.prod_cons]
      nlinarith
  simp only [runSeq, lookup, if_pos ht, hU]
  unfold apply
  rw [dif_neg]
  rw [hpsi]
  intro h
  have : dims.prod ^ 2 = dims.prod := h
  nlinarith

example : ∃ psi : Vec, psi.dim = [2, 2].prod ^ 2 := ⟨⟨16, fun _ => 0⟩, rfl⟩

/-- A virtual Z gate at the end of a sequence changes no population. -/
theorem C168_populations (dims : List ℕ) (hd : ∀ d ∈ dims, 2 ≤ d) (props : String → Option Op) (t : ℕ)
    (ht : t < dims.length) (a : ℝ) (gs : List Call) (psi : Vec) (v : Fin dims.prod → ℂ)
    (h : runSeq dims props gs psi = .ok ⟨dims.prod, v⟩) :
    ∃ w : Fin dims.prod → ℂ, runSeq dims props (gs ++ [.vz t a]) psi = .ok ⟨dims.prod, w⟩ ∧ ∀ i, ‖w i‖ = ‖v i‖ := by
  obtain ⟨U, hU⟩ := vz_exists dims hd t a
  refine ⟨U *ᵥ v, ?_, ?_⟩
  · have key : ∀ (gs : List Call) (psi : Vec), runSeq dims props gs psi = .ok ⟨dims.prod, v⟩ →
        runSeq dims props (gs ++ [.vz t a]) psi = runSeq dims props [.vz t a] ⟨dims.prod, v⟩ := by
      intro gs
      induction gs with
      | nil =>
        intro psi h
        simp only [runSeq, Except.ok.injEq] at h
        rw [← h]; rfl
      | cons g gs ih =>
        intro psi h
        rw [List.cons_append, runSeq]
        rw [runSeq] at h
        split at h
        · simp at h
        · split at h
          · simp at h
          · exact ih _ h
    rw [key gs psi h]
    simp only [runSeq, lookup, if_pos ht, hU]
    unfold apply
    rw [dif_pos rfl]
    rfl
  · intro i
    obtain ⟨l, hl, rfl⟩ : ∃ l, ∃ hl : Valid dims l, i = ⟨flat dims l, flat_lt hl⟩ := by
      obtain ⟨l, hl, he⟩ := flat_surj dims i.1 i.2
      exact ⟨l, hl, Fin.ext he.symm⟩
    rw [Matrix.mulVec, dotProduct, Finset.sum_eq_single ⟨flat dims l, flat_lt hl⟩]
    · rw [vz_entry dims t ht a U hU l l hl hl, if_pos rfl, norm_mul]
      have : ‖(if compLabel l then zPhase a (l.getD t 0) else 1)‖ = 1 := by
        split
        · unfold zPhase
          split
          · rw [show -(Complex.I * ((a : ℂ) / 2)) = ((-(a / 2) : ℝ) : ℂ) * Complex.I by push_cast; ring]
            exact Complex.norm_exp_ofReal_mul_I _
          · rw [show Complex.I * ((a : ℂ) / 2) = ((a / 2 : ℝ) : ℂ) * Complex.I by push_cast; ring]
            exact Complex.norm_exp_ofReal_mul_I _
        · simp
      rw [this, one_mul]
    · intro j _ hj
      obtain ⟨m, hm, he⟩ := flat_surj dims j.1 j.2
      have hj' : j = ⟨flat dims m, flat_lt hm⟩ := Fin.ext he.symm
      rw [hj', vz_entry dims t ht a U hU l m hl hm, if_neg, zero_mul]
      rintro rfl
      exact hj hj'
    · intro h; exact absurd (Finset.mem_univ _) h

/-- Two virtual Z gates after each other are one with the sum of the angles. -/
theorem C168_additive (dims : List ℕ) (hd : ∀ d ∈ dims, 2 ≤ d) (props : String → Option Op) (t : ℕ)
    (ht : t < dims.length) (a b : ℝ) (psi : Vec) (hpsi : psi.dim = dims.prod) :
    runSeq dims props [.vz t a, .vz t b] psi = runSeq dims props [.vz t (a + b)] psi := by
  obtain ⟨U, hU, _, _, hadd, _⟩ := C99_group ((List.replicate dims.length "Id").set t "Z") dims (by simp) (by
    intro k hk
    rcases List.mem_or_eq_of_mem_set hk with h | rfl
    · rw [(List.mem_replicate.1 h).2]; simp [pauli]
    · simp [pauli]) hd
  have hU' : ∀ x, singleQGate "Z" t x dims dims.prod = some (U x) := hU
  obtain ⟨n, v⟩ := psi
  subst hpsi
  simp only [runSeq, lookup, if_pos ht, hU']
  unfold apply
  simp only [dif_pos, Fin.cast_eq_self, Matrix.mulVec_mulVec]
  rw [add_comm a b, hadd]

/-- An unknown gate raises. -/
theorem C168_unknown (dims : List ℕ) (props : String → Option Op) (k : String) (hk : props k = none) (gs : List Call)
    (psi : Vec) : runSeq dims props (.named k :: gs) psi = .error .unknownGate := by
  simp [runSeq, lookup, hk]

end C3.Experiment.Qasm
