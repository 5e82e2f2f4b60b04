import Verif.Experiment.Decays
import Verif.Hilbert.Energies
import Verif.Propagation.Options
import Verif.Gates.Parametric

/-!
# C237: coupled qubits exchange their excitation

Two two-level qubits (c3/libraries/chip.py:152-203) with a coupling (c3/libraries/chip.py:1155-1203) whose Hamiltonian is
`int_XX` or `int_YY` (c3/libraries/hamiltonians.py:79-122). `compute_propagators` (C68) obtains gates without signals from
the drift of the model (c3/model.py:430-444) and the frame rotation, `evaluate_legacy` (C65) runs them from a basis state.
The exchange is stated in terms of frequencies, strength and time only.
-/

set_option linter.unusedSectionVars false
set_option linter.unusedSimpArgs false

noncomputable section

namespace C3.Experiment.Exchange

open Matrix C3.Propagation C3.Hilbert C3.Experiment C3.Experiment.Compute C3.Experiment.EndToEnd
  C3.Experiment.WeakNoise C3.Experiment.Waiting C3.Gates

/-! ## Specification -/

/-- A chip of two coupled qubits with two levels each; there may be drives. -/
structure Pair (c : Chip [2, 2]) (f : IntFun) (ω₁ ω₂ J : ℝ) : Prop where
  plain : c.tr = none
  subs : ∃ n₁ n₂ δ₁ δ₂, c.sys.subs = [(n₁, .qubit 2 ω₁ δ₁), (n₂, .qubit 2 ω₂ δ₂)]
  lines : ∃ n rest, c.sys.lines.Perm ((n, .coupling f J 0 1) :: rest) ∧ ∀ l ∈ rest, ∃ f conn, l.2 = .drive f conn

/-- The part of an excitation that is exchanged after the time `T`, with half the energy difference `d`. -/
def transfer (J d T : ℝ) : ℝ := J ^ 2 / (J ^ 2 + d ^ 2) * Real.sin (Real.sqrt (J ^ 2 + d ^ 2) * T) ^ 2

/-- The state in which both qubits are flipped; the states are `00, 01, 10, 11`. -/
def partner : Fin 4 → Fin 4 := ![3, 2, 1, 0]

/-- Half the energy difference of a state and its partner. -/
def half (ω₁ ω₂ : ℝ) : Fin 4 → ℝ := ![(ω₁ + ω₂) / 2, (ω₁ - ω₂) / 2, (ω₁ - ω₂) / 2, (ω₁ + ω₂) / 2]

/-- The time a sequence of gates takes. -/
def duration (ps : List (String × Pulse)) (seq : List String) : ℝ :=
  (seq.map fun g => match ps.lookup g with
    | some p => p.dt * p.values.length
    | none => 0).sum

/-- The frame turns a state and its partner by the same phase in every gate of a sequence. -/
def SameFrame (c : Chip [2, 2]) (ps : List (String × Pulse)) (p : Fin 4) (seq : List String) : Prop :=
  c.useFR = true → ∀ g ∈ seq, ∀ q, ps.lookup g = some q →
    framePhase [2, 2] c.target q.shifts q.t q.freqs p = framePhase [2, 2] c.target q.shifts q.t q.freqs (partner p)

/-! ## The drift -/

/-- The sign of the matrix element between `00` and `11`. -/
def evenSign : IntFun → ℝ
  | .xx => 1
  | .yy => -1

/-- The drift of a pair. -/
def pairHam (ω₁ ω₂ J J' : ℂ) : Matrix (Fin 4) (Fin 4) ℂ :=
  !![0, 0, 0, J'; 0, ω₂, J, 0; 0, J, ω₁, 0; J', 0, 0, ω₁ + ω₂]

theorem drives_none (n : ℕ) (l m : List ℕ) (rest : List (String × Line)) (h : ∀ l ∈ rest, ∃ f conn, l.2 = .drive f conn) :
    (rest.map fun p => p.2.driftElem n l m).sum = 0 := by
  refine List.sum_eq_zero fun x hx => ?_
  obtain ⟨p, hp, rfl⟩ := List.mem_map.1 hx
  obtain ⟨f, conn, he⟩ := h p hp
  rw [he]
  rfl

theorem local_pair (op : ℕ → ℕ → ℂ) (a b a' b' : ℕ) :
    local1 2 0 op [a, b] [a', b'] = (if b = b' then op a a' else 0) ∧
      local1 2 1 op [a, b] [a', b'] = (if a = a' then op b b' else 0) ∧
      local2 2 0 1 op op [a, b] [a', b'] = op a a' * op b b' := by
  have h0 : (∀ t < 2, t ≠ 0 → [a, b].getD t 0 = [a', b'].getD t 0) ↔ b = b' := by
    constructor
    · intro h
      simpa using h 1 (by norm_num) (by norm_num)
    · rintro rfl t ht h
      have : t = 1 := by omega
      subst this
      rfl
  have h1 : (∀ t < 2, t ≠ 1 → [a, b].getD t 0 = [a', b'].getD t 0) ↔ a = a' := by
    constructor
    · intro h
      simpa using h 0 (by norm_num) (by norm_num)
    · rintro rfl t ht h
      have : t = 0 := by omega
      subst this
      rfl
  have h2 : ∀ t < 2, t ≠ 0 → t ≠ 1 → [a, b].getD t 0 = [a', b'].getD t 0 := by
    intro t ht h h'
    omega
  refine ⟨?_, ?_, ?_⟩
  · unfold local1
    simp only [h0]
    rfl
  · unfold local1
    simp only [h1]
    rfl
  · unfold local2
    rw [if_pos h2]
    rfl

theorem drift_pair (c : Chip [2, 2]) (hc : c.WF) (f : IntFun) (ω₁ ω₂ J : ℝ) (h : Pair c f ω₁ ω₂ J) :
    c.h0 = (pairHam ω₁ ω₂ J (evenSign f * J : ℝ) : Matrix (Fin 4) (Fin 4) ℂ) := by
  obtain ⟨n₁, n₂, δ₁, δ₂, hs⟩ := h.subs
  obtain ⟨n, rest, hl, hr⟩ := h.lines
  have hw : ∀ p ∈ c.sys.lines, p.2.WF [2, 2].length ∧ p.2.Proper := by
    intro p hp
    refine ⟨hc.lines p hp, ?_⟩
    rcases List.mem_cons.1 (hl.mem_iff.1 hp) with rfl | h'
    · exact zero_ne_one
    · obtain ⟨f, conn, he⟩ := hr p h'
      rw [he]
      trivial
  have hd : ∀ i (hi : i < c.sys.subs.length), ∀ d, c.sys.subs[i].2.dim? = some d → d = [2, 2].getD i 0 := by
    rw [hs]
    intro i hi d he
    have h2 : i < 2 := hi
    interval_cases i <;> simpa [Sub.dim?] using he.symm
  have key : ∀ l m (hl' : Valid [2, 2] l) (hm : Valid [2, 2] m),
      c.h0 ⟨flat [2, 2] l, flat_lt hl'⟩ ⟨flat [2, 2] m, flat_lt hm⟩ =
        local1 2 0 (Sub.lev (.qubit 2 ω₁ δ₁)) l m + local1 2 1 (Sub.lev (.qubit 2 ω₂ δ₂)) l m +
          J * local2 2 0 1 f.lev f.lev l m := by
    intro l m hl' hm
    have h1 := C150_drift [2, 2] c.sys (by rw [hs]; exact le_rfl) hd hw l m hl' hm
    have e : (c.sys.lines.map fun p => p.2.driftElem [2, 2].length l m).sum =
        (((n, Line.coupling f J 0 1) :: rest).map fun p => p.2.driftElem [2, 2].length l m).sum := (hl.map _).sum_eq
    rw [e, List.map_cons, List.sum_cons, drives_none _ _ _ _ hr, add_zero, hs] at h1
    unfold Chip.h0
    rw [h.plain]
    refine h1.trans ?_
    simp [Line.driftElem]
  have v : ∀ a < 2, ∀ b < 2, Valid [2, 2] [a, b] := by
    intro a ha b hb
    simp [Valid, ha, hb]
  have entry : ∀ a (ha : a < 2) b (hb : b < 2) a' (ha' : a' < 2) b' (hb' : b' < 2),
      c.h0 ⟨flat [2, 2] [a, b], flat_lt (v a ha b hb)⟩ ⟨flat [2, 2] [a', b'], flat_lt (v a' ha' b' hb')⟩ =
        (if b = b' then Sub.lev (.qubit 2 ω₁ δ₁) a a' else 0) + (if a = a' then Sub.lev (.qubit 2 ω₂ δ₂) b b' else 0) +
          J * (f.lev a a' * f.lev b b') := by
    intro a ha b hb a' ha' b' hb'
    obtain ⟨e1, -, e3⟩ := local_pair (Sub.lev (.qubit 2 ω₁ δ₁)) a b a' b'
    obtain ⟨-, e2, -⟩ := local_pair (Sub.lev (.qubit 2 ω₂ δ₂)) a b a' b'
    obtain ⟨-, -, e4⟩ := local_pair f.lev a b a' b'
    rw [key _ _ (v a ha b hb) (v a' ha' b' hb'), e1, e2, e4]
  have E := fun a b a' b' : Fin 2 => entry a a.2 b b.2 a' a'.2 b' b'.2
  change @Eq (Matrix (Fin 4) (Fin 4) ℂ) _ _
  ext p q
  fin_cases p <;> fin_cases q
  · exact (E 0 0 0 0).trans (by cases f <;> simp [Sub.lev, nLev, duffLev, IntFun.lev, xLev, yLev, pairHam, evenSign])
  · exact (E 0 0 0 1).trans (by cases f <;> simp [Sub.lev, nLev, duffLev, IntFun.lev, xLev, yLev, pairHam, evenSign])
  · exact (E 0 0 1 0).trans (by cases f <;> simp [Sub.lev, nLev, duffLev, IntFun.lev, xLev, yLev, pairHam, evenSign])
  · exact (E 0 0 1 1).trans (by cases f <;> simp [Sub.lev, nLev, duffLev, IntFun.lev, xLev, yLev, pairHam, evenSign])
  · exact (E 0 1 0 0).trans (by cases f <;> simp [Sub.lev, nLev, duffLev, IntFun.lev, xLev, yLev, pairHam, evenSign])
  · exact (E 0 1 0 1).trans (by cases f <;> simp [Sub.lev, nLev, duffLev, IntFun.lev, xLev, yLev, pairHam, evenSign])
  · exact (E 0 1 1 0).trans (by cases f <;> simp [Sub.lev, nLev, duffLev, IntFun.lev, xLev, yLev, pairHam, evenSign])
  · exact (E 0 1 1 1).trans (by cases f <;> simp [Sub.lev, nLev, duffLev, IntFun.lev, xLev, yLev, pairHam, evenSign])
  · exact (E 1 0 0 0).trans (by cases f <;> simp [Sub.lev, nLev, duffLev, IntFun.lev, xLev, yLev, pairHam, evenSign])
  · exact (E 1 0 0 1).trans (by cases f <;> simp [Sub.lev, nLev, duffLev, IntFun.lev, xLev, yLev, pairHam, evenSign])
  · exact (E 1 0 1 0).trans (by cases f <;> simp [Sub.lev, nLev, duffLev, IntFun.lev, xLev, yLev, pairHam, evenSign])
  · exact (E 1 0 1 1).trans (by cases f <;> simp [Sub.lev, nLev, duffLev, IntFun.lev, xLev, yLev, pairHam, evenSign])
  · exact (E 1 1 0 0).trans (by cases f <;> simp [Sub.lev, nLev, duffLev, IntFun.lev, xLev, yLev, pairHam, evenSign])
  · exact (E 1 1 0 1).trans (by cases f <;> simp [Sub.lev, nLev, duffLev, IntFun.lev, xLev, yLev, pairHam, evenSign])
  · exact (E 1 1 1 0).trans (by cases f <;> simp [Sub.lev, nLev, duffLev, IntFun.lev, xLev, yLev, pairHam, evenSign])
  · exact (E 1 1 1 1).trans (by cases f <;> simp [Sub.lev, nLev, duffLev, IntFun.lev, xLev, yLev, pairHam, evenSign])

/-! ## Two invariant planes -/

/-- A state and its partner as columns. -/
def plane (p : Fin 4) : Matrix (Fin 4) (Fin 2) ℂ :=
  Matrix.of fun i j => if i = (if j = 0 then p else partner p) then 1 else 0

/-- The drift in such a plane. -/
def block (m δ g : ℝ) : Matrix (Fin 2) (Fin 2) ℂ := !![(m : ℂ) - δ, g; g, m + δ]

/-- Half the energy of the partner relative to the state. -/
def gap (ω₁ ω₂ : ℝ) : Fin 4 → ℝ := ![(ω₁ + ω₂) / 2, (ω₁ - ω₂) / 2, -((ω₁ - ω₂) / 2), -((ω₁ + ω₂) / 2)]

/-- The coupling of a state and its partner. -/
def link (J J' : ℝ) : Fin 4 → ℝ := ![J', J, J, J']

theorem pair_plane (ω₁ ω₂ J J' : ℝ) (p : Fin 4) :
    pairHam ω₁ ω₂ J J' * plane p = plane p * block ((ω₁ + ω₂) / 2) (gap ω₁ ω₂ p) (link J J' p) := by
  ext i j
  fin_cases p <;> fin_cases i <;> fin_cases j <;>
    simp [Matrix.mul_apply, Fin.sum_univ_four, Fin.sum_univ_two, pairHam, plane, block, gap, link, partner] <;> ring

/-- What the drift does in a plane during the time `T`. -/
def turn (m δ g T : ℝ) : Matrix (Fin 2) (Fin 2) ℂ :=
  Complex.exp (-Complex.I * (m * T : ℝ)) • ((Real.cos (Real.sqrt (g ^ 2 + δ ^ 2) * T) : ℂ) • 1 -
    (Complex.I * (Real.sin (Real.sqrt (g ^ 2 + δ ^ 2) * T) / Real.sqrt (g ^ 2 + δ ^ 2) : ℝ)) • !![-(δ : ℂ), g; g, δ])

theorem exp_block (m δ g T : ℝ) : NormedSpace.exp ((-Complex.I * (T : ℝ) : ℂ) • block m δ g) = turn m δ g T := by
  have hsplit : (-Complex.I * (T : ℝ) : ℂ) • block m δ g =
      (-Complex.I * (m * T : ℝ)) • (1 : Matrix (Fin 2) (Fin 2) ℂ) +
        (-Complex.I * (T : ℝ) : ℂ) • !![-(δ : ℂ), g; g, δ] := by
    ext i j
    fin_cases i <;> fin_cases j <;> simp [block] <;> ring
  rw [hsplit, Matrix.exp_add_of_commute _ _ (Commute.smul_left (Commute.one_left _) _), exp_idem _ (Matrix.one_mul 1)]
  have h1 : (1 : Matrix (Fin 2) (Fin 2) ℂ) + (Complex.exp (-Complex.I * (m * T : ℝ)) - 1) • 1 =
      Complex.exp (-Complex.I * (m * T : ℝ)) • 1 := by module
  rw [h1, Matrix.smul_mul, Matrix.one_mul]
  unfold turn
  congr 1
  by_cases hΩ : Real.sqrt (g ^ 2 + δ ^ 2) = 0
  · have h0 : g ^ 2 + δ ^ 2 = 0 := (Real.sqrt_eq_zero (by positivity)).1 hΩ
    have hg : g = 0 := by nlinarith [sq_nonneg g, sq_nonneg δ]
    have hd : δ = 0 := by nlinarith [sq_nonneg g, sq_nonneg δ]
    subst hg hd
    have hK : (!![-((0 : ℝ) : ℂ), ((0 : ℝ) : ℂ); ((0 : ℝ) : ℂ), ((0 : ℝ) : ℂ)] : Matrix (Fin 2) (Fin 2) ℂ) = 0 := by
      ext i j
      fin_cases i <;> fin_cases j <;> simp
    rw [hK]
    simp
  · set Ω := Real.sqrt (g ^ 2 + δ ^ 2) with hdef
    have hsq : Ω * Ω = g ^ 2 + δ ^ 2 := Real.mul_self_sqrt (by positivity)
    have hΩc : (Ω : ℂ) ≠ 0 := by exact_mod_cast hΩ
    have hsqc : (Ω : ℂ) * Ω = (g : ℂ) ^ 2 + (δ : ℂ) ^ 2 := by exact_mod_cast hsq
    have hG : ((Ω : ℂ)⁻¹ • !![-(δ : ℂ), g; g, δ] : Matrix (Fin 2) (Fin 2) ℂ) * ((Ω : ℂ)⁻¹ • !![-(δ : ℂ), g; g, δ]) = 1 := by
      rw [Matrix.smul_mul, Matrix.mul_smul, smul_smul]
      have : (!![-(δ : ℂ), g; g, δ] : Matrix (Fin 2) (Fin 2) ℂ) * !![-(δ : ℂ), g; g, δ] = ((Ω : ℂ) * Ω) • 1 := by
        rw [hsqc]
        ext i j
        fin_cases i <;> fin_cases j <;> simp [Matrix.mul_apply, Fin.sum_univ_two] <;> ring
      rw [this, smul_smul]
      have : (Ω : ℂ)⁻¹ * (Ω : ℂ)⁻¹ * (Ω * Ω) = 1 := by field_simp
      rw [this, one_smul]
    have h2 := exp_reflection _ 1 hG (Matrix.one_mul _) (2 * (Ω * T))
    rw [smul_smul, sub_self, zero_add, mul_div_cancel_left₀ _ two_ne_zero, smul_smul] at h2
    have e1 : -Complex.I / 2 * ((2 * (Ω * T) : ℝ) : ℂ) * (Ω : ℂ)⁻¹ = -Complex.I * (T : ℝ) := by
      push_cast
      field_simp
    rw [e1] at h2
    rw [h2]
    push_cast
    congr 2
    rw [mul_div_assoc', div_eq_mul_inv]

theorem exp_plane (ω₁ ω₂ J J' T : ℝ) (p : Fin 4) :
    NormedSpace.exp ((-Complex.I * (T : ℝ) : ℂ) • pairHam ω₁ ω₂ J J') * plane p =
      plane p * turn ((ω₁ + ω₂) / 2) (gap ω₁ ω₂ p) (link J J' p) T := by
  rw [← exp_block]
  refine (exp_intertwine _ _ _ ?_).symm
  rw [Matrix.mul_smul, ← pair_plane, Matrix.smul_mul]

/-! ## Gates without signals -/

theorem exp_slices (H : Matrix n n ℂ) [Fintype n] [DecidableEq n] (dt : ℝ) (h0 : Matrix n n ℂ) (hks : List (Matrix n n ℂ))
    (cs : List (List ℝ)) (hh : ∀ c ∈ cs, hamAt h0 (c.zip hks) = H) :
    Fold.timeOrdered (cs.map (dUOfT h0 hks dt)) = NormedSpace.exp ((-Complex.I * (dt * cs.length : ℝ) : ℂ) • H) := by
  induction cs with
  | nil => simp [Fold.timeOrdered]
  | cons c cs ih =>
    have e : Fold.timeOrdered ((c :: cs).map (dUOfT h0 hks dt)) =
        Fold.timeOrdered (cs.map (dUOfT h0 hks dt)) * dUOfT h0 hks dt c := by
      unfold Fold.timeOrdered
      simp
    rw [e, ih fun c hc => hh c (List.mem_cons_of_mem _ hc)]
    unfold dUOfT
    rw [hh c List.mem_cons_self, smul_smul, ← Matrix.exp_add_of_commute _ _
      (Commute.smul_left (Commute.smul_right (Commute.refl _) _) _), ← add_smul]
    congr 2
    rw [List.length_cons]
    push_cast
    ring

theorem silent_closed (c : Chip dims) (hc : c.WF) (ps : List (String × Pulse)) (g : String) (V : Op dims)
    (h : physical (closed c ps) (.name "pwc") g = .ok V) :
    ∃ p, ps.lookup g = some p ∧ ((∀ row ∈ p.values, ∀ x ∈ row, x = 0) →
      V = (if c.useFR then (diagonal fun i => Complex.exp (Complex.I *
        (framePhase dims c.target p.shifts p.t p.freqs i : ℝ))) else 1) *
          NormedSpace.exp ((-Complex.I * (p.dt * p.values.length : ℝ) : ℂ) • c.h0)) := by
  obtain ⟨p, hks, U, hp, -, hU, hF⟩ := physical_closed c ps g V h
  refine ⟨p, hp, fun hsil => ?_⟩
  have hv : p.values ≠ [] := by
    intro hv
    rw [hv, List.length_nil, pwc_empty c.h0 hks p.dt c.batch hc.batch] at hU
    simp at hU
  rw [pwc_eq c.h0 hks p.dt p.values hv c.batch hc.batch, Option.some.injEq] at hU
  rw [exp_slices c.h0 p.dt c.h0 hks p.values fun row hr => silent_ham _ _ _ (hsil row hr)] at hU
  rw [hU]
  rcases hF with ⟨h1, F, hF, rfl⟩ | ⟨h1, rfl⟩
  · rw [h1, if_pos rfl, ← Decays.frame_phases c hc p F hF]
  · rw [h1, if_neg (by simp), Matrix.one_mul]

theorem diagonal_plane (φ : Fin 4 → ℂ) (p : Fin 4) :
    diagonal φ * plane p = plane p * diagonal ![φ p, φ (partner p)] := by
  ext i j
  rw [diagonal_mul, mul_diagonal]
  fin_cases p <;> fin_cases i <;> fin_cases j <;> simp [plane, partner]

theorem turn_add (m δ g S T : ℝ) : turn m δ g S * turn m δ g T = turn m δ g (S + T) := by
  rw [← exp_block, ← exp_block, ← exp_block, ← Matrix.exp_add_of_commute _ _
    (Commute.smul_left (Commute.smul_right (Commute.refl _) _) _), ← add_smul]
  congr 2
  push_cast
  ring

theorem turn_zero (m δ g : ℝ) : turn m δ g 0 = 1 := by
  rw [← exp_block]
  simp

/-- A table of propagators that has gates without signals for a pair. -/
def Waits (Q : String → Option (Matrix (Fin 4) (Fin 4) ℂ)) (H : Matrix (Fin 4) (Fin 4) ℂ) (T : String → ℝ)
    (φ : String → Fin 4 → ℂ) (seq : List String) : Prop :=
  ∀ g ∈ seq, Q g = some (diagonal (φ g) * NormedSpace.exp ((-Complex.I * (T g : ℝ) : ℂ) • H)) ∧ ∀ i, ‖φ g i‖ = 1

theorem seq_plane (ω₁ ω₂ J J' : ℝ) (Q : String → Option (Matrix (Fin 4) (Fin 4) ℂ)) (T : String → ℝ)
    (φ : String → Fin 4 → ℂ) (s : List String) (p : Fin 4) (h : Waits Q (pairHam ω₁ ω₂ J J') T φ s)
    (hφ : ∀ g ∈ s, φ g p = φ g (partner p)) :
    ∃ u : ℂ, ‖u‖ = 1 ∧ Fold.seqProp (fun g => (Q g).getD 1) s * plane p =
      u • (plane p * turn ((ω₁ + ω₂) / 2) (gap ω₁ ω₂ p) (link J J' p) (s.map T).sum) := by
  induction s with
  | nil => exact ⟨1, norm_one, by simp [Fold.seqProp, Fold.timeOrdered, turn_zero]⟩
  | cons g s ih =>
    obtain ⟨u, hu, h1⟩ := ih (fun g hg => h g (List.mem_cons_of_mem _ hg)) fun g hg => hφ g (List.mem_cons_of_mem _ hg)
    obtain ⟨h2, h3⟩ := h g List.mem_cons_self
    refine ⟨u * φ g p, by rw [norm_mul, hu, h3, one_mul], ?_⟩
    have e : Fold.seqProp (fun g => (Q g).getD 1) (g :: s) =
        Fold.seqProp (fun g => (Q g).getD 1) s * (diagonal (φ g) * NormedSpace.exp ((-Complex.I * (T g : ℝ) : ℂ) •
          pairHam ω₁ ω₂ J J')) := by
      unfold Fold.seqProp Fold.timeOrdered
      simp [h2]
    have hd : (diagonal ![φ g p, φ g (partner p)] : Matrix (Fin 2) (Fin 2) ℂ) = φ g p • 1 := by
      rw [← hφ g List.mem_cons_self]
      ext i j
      fin_cases i <;> fin_cases j <;> simp
    rw [e, Matrix.mul_assoc, Matrix.mul_assoc, exp_plane, ← Matrix.mul_assoc (diagonal (φ g)), diagonal_plane, hd,
      Matrix.mul_smul, Matrix.mul_one, Matrix.smul_mul, Matrix.mul_smul, ← Matrix.mul_assoc, h1, Matrix.smul_mul,
      Matrix.mul_assoc, turn_add, smul_smul, mul_comm (φ g p), List.map_cons, List.sum_cons, add_comm (T g)]

theorem turn_norm (m δ g T : ℝ) : ‖turn m δ g T 1 0‖ ^ 2 = transfer g δ T ∧ ‖turn m δ g T 0 0‖ ^ 2 = 1 - transfer g δ T := by
  have hp : ‖Complex.exp (-Complex.I * (m * T : ℝ))‖ = 1 := by
    rw [show -Complex.I * ((m * T : ℝ) : ℂ) = ((-(m * T) : ℝ) : ℂ) * Complex.I by push_cast; ring,
      Complex.norm_exp_ofReal_mul_I]
  set Ω := Real.sqrt (g ^ 2 + δ ^ 2) with hdef
  have hsq : Ω ^ 2 = g ^ 2 + δ ^ 2 := Real.sq_sqrt (by positivity)
  have h1 : turn m δ g T 1 0 = Complex.exp (-Complex.I * (m * T : ℝ)) *
      (((-(Real.sin (Ω * T) / Ω * g) : ℝ) : ℂ) * Complex.I) := by
    simp [turn, ← hdef]
    ring
  have h0 : turn m δ g T 0 0 = Complex.exp (-Complex.I * (m * T : ℝ)) *
      ((Real.cos (Ω * T) : ℝ) + ((Real.sin (Ω * T) / Ω * δ : ℝ) : ℂ) * Complex.I) := by
    simp [turn, ← hdef]
    ring
  have e1 : ‖turn m δ g T 1 0‖ ^ 2 = transfer g δ T := by
    rw [h1, norm_mul, hp, one_mul, norm_mul, Complex.norm_I, mul_one, Complex.norm_real, Real.norm_eq_abs, sq_abs]
    unfold transfer
    rw [← hdef, ← hsq]
    ring
  refine ⟨e1, ?_⟩
  rw [h0, norm_mul, hp, one_mul, ← Complex.normSq_eq_norm_sq, Complex.normSq_add_mul_I]
  unfold transfer
  rw [← hdef, ← hsq]
  by_cases hΩ : Ω = 0
  · rw [hΩ]
    simp
  · have : δ ^ 2 = Ω ^ 2 - g ^ 2 := by rw [hsq]; ring
    have hc := Real.sin_sq_add_cos_sq (Ω * T)
    field_simp
    rw [this]
    nlinarith

theorem transfer_link (f : IntFun) (ω₁ ω₂ J T : ℝ) (p : Fin 4) :
    transfer (link J (evenSign f * J) p) (gap ω₁ ω₂ p) T = transfer J (half ω₁ ω₂ p) T := by
  have h1 : link J (evenSign f * J) p ^ 2 = J ^ 2 := by
    fin_cases p <;> cases f <;> simp [link, evenSign]
  have h2 : gap ω₁ ω₂ p ^ 2 = half ω₁ ω₂ p ^ 2 := by
    fin_cases p <;> simp [gap, half]
  unfold transfer
  rw [h1, h2]

theorem pops_plane (f : IntFun) (ω₁ ω₂ J : ℝ) (Q : String → Option (Matrix (Fin 4) (Fin 4) ℂ)) (T : String → ℝ)
    (φ : String → Fin 4 → ℂ) (s : List String) (g : String) (p : Fin 4)
    (h : Waits Q (pairHam ω₁ ω₂ J (evenSign f * J : ℝ)) T φ (s ++ [g])) (hφ : ∀ g ∈ s, φ g p = φ g (partner p)) :
    evaluateClosed Q [s ++ [g]] (Pi.single p 1) = some [fun i =>
      if i = p then 1 - transfer J (half ω₁ ω₂ p) ((s ++ [g]).map T).sum
      else if i = partner p then transfer J (half ω₁ ω₂ p) ((s ++ [g]).map T).sum else 0] := by
  obtain ⟨u, hu, h1⟩ := seq_plane ω₁ ω₂ J (evenSign f * J) Q T φ s p (fun g' hg => h g' (List.mem_append_left _ hg)) hφ
  obtain ⟨h2, h3⟩ := h g (List.mem_append_right _ List.mem_cons_self)
  unfold evaluateClosed
  rw [List.mapM_cons, List.mapM_nil, runSeq_eq Q _ _ fun g' hg => ⟨_, (h g' hg).1⟩]
  simp only [Option.map_some, Option.pure_def, Option.bind_eq_bind, Option.bind_some, Option.some.injEq, List.cons.injEq,
    and_true]
  funext i
  have e : Fold.seqProp (fun g => (Q g).getD 1) (s ++ [g]) =
      (diagonal (φ g) * NormedSpace.exp ((-Complex.I * (T g : ℝ) : ℂ) • pairHam ω₁ ω₂ J (evenSign f * J : ℝ))) *
        Fold.seqProp (fun g => (Q g).getD 1) s := by
    unfold Fold.seqProp Fold.timeOrdered
    simp [h2]
  have e1 : (Pi.single p 1 : Fin 4 → ℂ) = plane p *ᵥ ![1, 0] := by
    funext i
    simp only [mulVec, dotProduct, Fin.sum_univ_two, plane, Matrix.of_apply]
    simp [Pi.single_apply]
  have e2 : Fold.seqProp (fun g => (Q g).getD 1) (s ++ [g]) * plane p =
      u • (plane p * (diagonal ![φ g p, φ g (partner p)] *
        turn ((ω₁ + ω₂) / 2) (gap ω₁ ω₂ p) (link J (evenSign f * J) p) ((s ++ [g]).map T).sum)) := by
    rw [e, Matrix.mul_assoc, h1, Matrix.mul_smul, Matrix.mul_assoc, ← Matrix.mul_assoc _ (plane p), exp_plane,
      Matrix.mul_assoc, turn_add, ← Matrix.mul_assoc, diagonal_plane, Matrix.mul_assoc, List.map_append, List.sum_append]
    simp [add_comm]
  obtain ⟨n1, n0⟩ := turn_norm ((ω₁ + ω₂) / 2) (gap ω₁ ω₂ p) (link J (evenSign f * J) p) ((s ++ [g]).map T).sum
  rw [transfer_link] at n1 n0
  unfold popsClosed
  rw [e1, Matrix.mulVec_mulVec, e2]
  generalize turn ((ω₁ + ω₂) / 2) (gap ω₁ ω₂ p) (link J (evenSign f * J) p) ((s ++ [g]).map T).sum = W at n1 n0
  have e3 : ((u • (plane p * (diagonal ![φ g p, φ g (partner p)] * W))) *ᵥ ![1, 0]) i =
      u * ((if i = p then φ g p * W 0 0 else 0) + if i = partner p then φ g (partner p) * W 1 0 else 0) := by
    rw [Matrix.smul_mulVec, Pi.smul_apply, smul_eq_mul]
    simp [mulVec, dotProduct, Fin.sum_univ_two, Matrix.mul_apply, plane, diagonal_apply]
  have hne : p ≠ partner p := by
    fin_cases p <;> decide
  change ‖_‖ ^ 2 = _
  rw [e3, norm_mul, hu, one_mul]
  by_cases hi : i = p
  · subst hi
    rw [if_pos rfl, if_neg hne, if_pos rfl, add_zero, norm_mul, h3, one_mul, n0]
  · by_cases hi' : i = partner p
    · rw [if_neg hi, if_pos hi', if_neg hi, if_pos hi', zero_add, norm_mul, h3, one_mul, n1]
    · rw [if_neg hi, if_neg hi', if_neg hi, if_neg hi', add_zero, norm_zero]
      norm_num

/-! ## From the experiment -/

/-- The experiment has computed the gates of the pulses. -/
def Done (c : Chip [2, 2]) (ps : List (String × Pulse)) (t' : Exp (Op [2, 2])) : Prop :=
  ∃ t : Exp (Op [2, 2]), t.propMethod = none ∧ t.optGates = none ∧ ∃ table, compute (closed c ps) t = (.ok table, t')

/-- The gates are known and none of their samples differs from zero. -/
def SilentGates (ps : List (String × Pulse)) (seq : List String) : Prop :=
  ∀ g ∈ seq, ∃ p, ps.lookup g = some p ∧ ∀ row ∈ p.values, ∀ x ∈ row, x = 0

/-- The phases of the frame in a gate. -/
def phasesOf (c : Chip [2, 2]) (ps : List (String × Pulse)) (g : String) : Fin 4 → ℂ := fun i =>
  match ps.lookup g with
  | some p => if c.useFR then Complex.exp (Complex.I * (framePhase [2, 2] c.target p.shifts p.t p.freqs i : ℝ)) else 1
  | none => 1

theorem done_gate (c : Chip [2, 2]) (hc : c.WF) (ps : List (String × Pulse)) (t' : Exp (Op [2, 2])) (h : Done c ps t')
    (g : String) (p : Pulse) (hp : ps.lookup g = some p) (hs : ∀ row ∈ p.values, ∀ x ∈ row, x = 0) :
    t'.propagators g = some (diagonal (fun i : Fin [2, 2].prod => phasesOf c ps g i) *
      NormedSpace.exp ((-Complex.I * (p.dt * p.values.length : ℝ) : ℂ) • c.h0)) := by
  obtain ⟨t, ht, hopt, table, hcomp⟩ := h
  have hg : g ∈ t.optGates.getD (closed c ps).keys := by
    rw [hopt]
    exact (lookup_iff ps g).2 ⟨p, hp⟩
  obtain ⟨V, h1, h2⟩ := (C68_selected (closed c ps) (closed_wf c ps) t ht table t' hcomp g).1 hg
  rw [(C68_stored _ t ht table t' hcomp g).1, if_pos hg, h2]
  obtain ⟨p', hp', hV⟩ := silent_closed c hc ps g V h1
  obtain rfl : p = p' := Option.some.inj (hp.symm.trans hp')
  rw [hV hs]
  congr 2
  by_cases hfr : c.useFR = true
  · rw [if_pos hfr]
    refine congrArg diagonal ?_
    funext i
    simp only [phasesOf, hp, hfr, if_true]
  · rw [if_neg hfr, ← diagonal_one]
    refine congrArg diagonal ?_
    funext i
    simp only [phasesOf, hp, if_neg hfr]

theorem phasesOf_norm (c : Chip [2, 2]) (ps : List (String × Pulse)) (g : String) (i : Fin 4) : ‖phasesOf c ps g i‖ = 1 := by
  unfold phasesOf
  split
  · split
    · rw [mul_comm, Complex.norm_exp_ofReal_mul_I]
    · exact norm_one
  · exact norm_one

theorem done_waits (c : Chip [2, 2]) (hc : c.WF) (f : IntFun) (ω₁ ω₂ J : ℝ) (h : Pair c f ω₁ ω₂ J)
    (ps : List (String × Pulse)) (t' : Exp (Op [2, 2])) (hd : Done c ps t') (seq : List String) (hs : SilentGates ps seq) :
    Waits t'.propagators (pairHam ω₁ ω₂ J (evenSign f * J : ℝ)) (fun g => duration ps [g]) (phasesOf c ps) seq := by
  intro g hg
  obtain ⟨p, hp, hsil⟩ := hs g hg
  refine ⟨?_, phasesOf_norm c ps g⟩
  have h1 := done_gate c hc ps t' hd g p hp hsil
  have h2 : duration ps [g] = p.dt * p.values.length := by simp [duration, hp]
  rw [drift_pair c hc f ω₁ ω₂ J h] at h1
  exact h1.trans (congrArg (fun x : ℝ => some (diagonal (phasesOf c ps g) *
    NormedSpace.exp ((-Complex.I * (x : ℝ) : ℂ) • pairHam ω₁ ω₂ J (evenSign f * J : ℝ)))) h2.symm)

theorem duration_sum (ps : List (String × Pulse)) (seq : List String) :
    (seq.map fun g => duration ps [g]).sum = duration ps seq := by
  simp [duration]

/-! ## Theorems -/

/-- C237: a pair that waits in a basis state exchanges the part `transfer` with the state in which both qubits are flipped,
and nothing with the other two. -/
theorem C237_populations (c : Chip [2, 2]) (hc : c.WF) (f : IntFun) (ω₁ ω₂ J : ℝ) (h : Pair c f ω₁ ω₂ J)
    (ps : List (String × Pulse)) (t' : Exp (Op [2, 2])) (hd : Done c ps t') (s : List String) (g : String)
    (hs : SilentGates ps (s ++ [g])) (p : Fin 4) (hf : SameFrame c ps p s) :
    evaluateClosed (n := Fin 4) t'.propagators [s ++ [g]] (Pi.single p 1) = some [fun i =>
      if i = p then 1 - transfer J (half ω₁ ω₂ p) (duration ps (s ++ [g]))
      else if i = partner p then transfer J (half ω₁ ω₂ p) (duration ps (s ++ [g])) else 0] := by
  have h1 := pops_plane f ω₁ ω₂ J t'.propagators (fun g => duration ps [g]) (phasesOf c ps) s g p
    (done_waits c hc f ω₁ ω₂ J h ps t' hd _ hs) (by
      intro g' hg
      obtain ⟨q, hq, -⟩ := hs g' (List.mem_append_left _ hg)
      unfold phasesOf
      simp only [hq]
      split
      · rename_i hfr
        rw [hf hfr g' hg q hq]
      · rfl)
  rw [duration_sum] at h1
  exact h1

theorem transfer_resonant (J T : ℝ) (hT : Real.cos (J * T) = 0) : transfer J 0 T = 1 := by
  have hJ : J ≠ 0 := by
    rintro rfl
    simp at hT
  have h1 : Real.sin (|J| * T) ^ 2 = 1 := by
    have h := Real.sin_sq_add_cos_sq (|J| * T)
    rcases abs_choice J with e | e
    · rw [e] at h ⊢
      rw [hT] at h
      linarith
    · rw [e, neg_mul] at h ⊢
      rw [Real.cos_neg, hT] at h
      linarith
  unfold transfer
  rw [zero_pow two_ne_zero, add_zero, Real.sqrt_sq_eq_abs, h1, mul_one, div_self (pow_ne_zero 2 hJ)]

/-- C237: qubits of equal frequency have exchanged the excitation completely after a quarter period of the coupling. -/
theorem C237_complete (c : Chip [2, 2]) (hc : c.WF) (f : IntFun) (ω J : ℝ) (h : Pair c f ω ω J)
    (ps : List (String × Pulse)) (t' : Exp (Op [2, 2])) (hd : Done c ps t') (s : List String) (g : String)
    (hs : SilentGates ps (s ++ [g])) (hf : SameFrame c ps 1 s) (hT : Real.cos (J * duration ps (s ++ [g])) = 0) :
    evaluateClosed (n := Fin 4) t'.propagators [s ++ [g]] (Pi.single 1 1) = some [Pi.single 2 1] ∧
      evaluateClosed (n := Fin 4) t'.propagators [s ++ [g]] (Pi.single 2 1) = some [Pi.single 1 1] := by
  have e : transfer J ((ω - ω) / 2) (duration ps (s ++ [g])) = 1 := by
    rw [sub_self, zero_div]
    exact transfer_resonant J _ hT
  refine ⟨(C237_populations c hc f ω ω J h ps t' hd s g hs 1 hf).trans ?_,
    (C237_populations c hc f ω ω J h ps t' hd s g hs 2 (fun hfr g' hg q hq => (hf hfr g' hg q hq).symm)).trans ?_⟩
  · change some [fun i : Fin 4 => if i = 1 then 1 - transfer J ((ω - ω) / 2) _ else
      if i = 2 then transfer J ((ω - ω) / 2) _ else 0] = _
    rw [e]
    congr 2
    funext i
    fin_cases i <;> simp
  · change some [fun i : Fin 4 => if i = 2 then 1 - transfer J ((ω - ω) / 2) _ else
      if i = 1 then transfer J ((ω - ω) / 2) _ else 0] = _
    rw [e]
    congr 2
    funext i
    fin_cases i <;> simp

/-- C237: the exchange is bounded by coupling and detuning, and the bound is reached. -/
theorem C237_detuned (J d : ℝ) (h : J ≠ 0 ∨ d ≠ 0) : (∀ T, 0 ≤ transfer J d T ∧ transfer J d T ≤ J ^ 2 / (J ^ 2 + d ^ 2)) ∧
    transfer J d (Real.pi / 2 / Real.sqrt (J ^ 2 + d ^ 2)) = J ^ 2 / (J ^ 2 + d ^ 2) := by
  have h0 : 0 ≤ J ^ 2 / (J ^ 2 + d ^ 2) := by positivity
  refine ⟨fun T => ⟨mul_nonneg h0 (sq_nonneg _), mul_le_of_le_one_right h0 (Real.sin_sq_le_one _)⟩, ?_⟩
  have hpos : 0 < J ^ 2 + d ^ 2 := by
    rcases h with h | h
    · have := sq_nonneg d
      positivity
    · have := sq_nonneg J
      positivity
  have hs : Real.sqrt (J ^ 2 + d ^ 2) ≠ 0 := (Real.sqrt_pos.2 hpos).ne'
  unfold transfer
  rw [mul_div_cancel₀ _ hs, Real.sin_pi_div_two]
  ring

/-- C237: only qubits of equal frequency exchange an excitation completely. -/
theorem C237_only (J d T : ℝ) (h : transfer J d T = 1) : d = 0 := by
  by_contra hd
  obtain ⟨h1, -⟩ := C237_detuned J d (Or.inr hd)
  have h2 := (h1 T).2
  rw [h] at h2
  have : 0 < d ^ 2 := by positivity
  rw [le_div_iff₀ (by positivity)] at h2
  linarith

/-! ## The gate `iswap` -/

theorem entries_plane (ω₁ ω₂ J J' T : ℝ) (φ : Fin 4 → ℂ) (p : Fin 4) :
    let V := diagonal φ * NormedSpace.exp ((-Complex.I * (T : ℝ) : ℂ) • pairHam ω₁ ω₂ J J')
    V p p = φ p * turn ((ω₁ + ω₂) / 2) (gap ω₁ ω₂ p) (link J J' p) T 0 0 ∧
      V (partner p) p = φ (partner p) * turn ((ω₁ + ω₂) / 2) (gap ω₁ ω₂ p) (link J J' p) T 1 0 := by
  intro V
  have h : V * plane p = plane p * (diagonal ![φ p, φ (partner p)] *
      turn ((ω₁ + ω₂) / 2) (gap ω₁ ω₂ p) (link J J' p) T) := by
    simp only [V]
    rw [Matrix.mul_assoc, exp_plane, ← Matrix.mul_assoc, diagonal_plane, Matrix.mul_assoc]
  have hV : ∀ i, (V * plane p) i 0 = V i p := by
    intro i
    rw [Matrix.mul_apply, Finset.sum_eq_single p]
    · simp [plane]
    · intro j _ hj
      simp [plane, hj]
    · simp
  have hne : p ≠ partner p := by
    fin_cases p <;> decide
  refine ⟨?_, ?_⟩
  · rw [← hV, h, Matrix.mul_apply, Fin.sum_univ_two, diagonal_mul, diagonal_mul]
    simp [plane, hne]
  · rw [← hV, h, Matrix.mul_apply, Fin.sum_univ_two, diagonal_mul, diagonal_mul]
    simp [plane, hne.symm]

/-- The real part of the overlap on the plane of `00` and `11`. -/
def even (ω J T : ℝ) : ℝ :=
  Real.cos (ω * T) * Real.cos (Real.sqrt (J ^ 2 + ω ^ 2) * T) +
    ω / Real.sqrt (J ^ 2 + ω ^ 2) * (Real.sin (ω * T) * Real.sin (Real.sqrt (J ^ 2 + ω ^ 2) * T))

theorem even_bounds (ω J T : ℝ) (hω : 0 < ω) : -1 ≤ even ω J T ∧ even ω J T ≤ 1 ∧
    1 - even ω J T ≤ (J / ω) ^ 2 * (1 / 2 + (J * T) ^ 2 / 8) := by
  unfold even
  set Ω := Real.sqrt (J ^ 2 + ω ^ 2) with hdef
  have hsq : Ω ^ 2 = J ^ 2 + ω ^ 2 := Real.sq_sqrt (by positivity)
  have hge : ω ≤ Ω := Real.le_sqrt_of_sq_le (by nlinarith [sq_nonneg J])
  have hΩ : 0 < Ω := hω.trans_le hge
  have hr0 : 0 ≤ ω / Ω := by positivity
  have hr1 : ω / Ω ≤ 1 := (div_le_one hΩ).2 hge
  have c1 := Real.cos_sub (Ω * T) (ω * T)
  have c2 := Real.cos_add (Ω * T) (ω * T)
  have b1 := Real.cos_le_one (Ω * T - ω * T)
  have b1' := Real.neg_one_le_cos (Ω * T - ω * T)
  have b2 := Real.cos_le_one (Ω * T + ω * T)
  have b2' := Real.neg_one_le_cos (Ω * T + ω * T)
  have e : Real.cos (ω * T) * Real.cos (Ω * T) + ω / Ω * (Real.sin (ω * T) * Real.sin (Ω * T)) =
      (1 + ω / Ω) / 2 * Real.cos (Ω * T - ω * T) + (1 - ω / Ω) / 2 * Real.cos (Ω * T + ω * T) := by
    rw [c1, c2]
    ring
  have hdiff : Ω - ω ≤ J ^ 2 / (2 * ω) := by
    rw [le_div_iff₀ (by positivity)]
    nlinarith
  refine ⟨?_, ?_, ?_⟩
  · rw [e]
    nlinarith
  · rw [e]
    nlinarith
  · have hy := Real.one_sub_sq_div_two_le_cos (x := Ω * T - ω * T)
    have hy2 : (Ω * T - ω * T) ^ 2 ≤ (J ^ 2 / (2 * ω)) ^ 2 * T ^ 2 := by
      rw [← sub_mul, mul_pow]
      refine mul_le_mul_of_nonneg_right ?_ (sq_nonneg T)
      exact pow_le_pow_left₀ (by linarith) hdiff 2
    have hr : 1 - ω / Ω ≤ J ^ 2 / (2 * ω ^ 2) := by
      rw [show 1 - ω / Ω = (Ω - ω) / Ω by field_simp, div_le_div_iff₀ hΩ (by positivity)]
      rw [le_div_iff₀ (by positivity)] at hdiff
      nlinarith [mul_le_mul_of_nonneg_left hge (sq_nonneg J)]
    have e1 : (J / ω) ^ 2 * (1 / 2 + (J * T) ^ 2 / 8) = J ^ 2 / (2 * ω ^ 2) + (J ^ 2 / (2 * ω)) ^ 2 * T ^ 2 / 2 := by
      field_simp
      ring
    rw [e, e1]
    nlinarith

theorem turn_swap (m J T : ℝ) (hJ : Real.sin (J * T) = -1) :
    turn m 0 J T 1 0 = Complex.exp (-Complex.I * (m * T : ℝ)) * Complex.I := by
  have h0 : J ≠ 0 := by
    rintro rfl
    simp at hJ
  have e : Real.sin (Real.sqrt (J ^ 2 + 0 ^ 2) * T) / Real.sqrt (J ^ 2 + 0 ^ 2) * J = -1 := by
    rw [zero_pow two_ne_zero, add_zero, Real.sqrt_sq_eq_abs]
    rcases abs_choice J with e | e
    · rw [e, hJ]
      field_simp
    · rw [e, neg_mul, Real.sin_neg, hJ]
      field_simp
  have e' : ((Real.sin (Real.sqrt (J ^ 2 + 0 ^ 2) * T) / Real.sqrt (J ^ 2 + 0 ^ 2) : ℝ) : ℂ) * (J : ℂ) = -1 := by
    exact_mod_cast e
  simp only [turn, Matrix.smul_apply, Matrix.sub_apply, smul_eq_mul]
  congr 1
  have : (1 : Matrix (Fin 2) (Fin 2) ℂ) 1 0 = 0 := by simp
  rw [this, mul_zero, zero_sub]
  change -(Complex.I * _ * (J : ℂ)) = _
  rw [mul_assoc, e']
  ring

theorem turn_even (ω J T : ℝ) : turn ω ω J T 0 0 + Complex.exp (Complex.I * (2 * (ω * T) : ℝ)) * turn ω (-ω) J T 0 0 =
    (2 * even ω J T : ℝ) := by
  have h1 : ∀ δ : ℝ, turn ω δ J T 0 0 = Complex.exp (-Complex.I * (ω * T : ℝ)) *
      ((Real.cos (Real.sqrt (J ^ 2 + δ ^ 2) * T) : ℝ) +
        Complex.I * ((Real.sin (Real.sqrt (J ^ 2 + δ ^ 2) * T) / Real.sqrt (J ^ 2 + δ ^ 2) * δ : ℝ) : ℂ)) := by
    intro δ
    simp [turn]
    ring
  rw [h1, h1, neg_sq, ← mul_assoc, ← Complex.exp_add,
    show Complex.I * ((2 * (ω * T) : ℝ) : ℂ) + -Complex.I * ((ω * T : ℝ) : ℂ) = ((ω * T : ℝ) : ℂ) * Complex.I by
      push_cast; ring,
    show -Complex.I * ((ω * T : ℝ) : ℂ) = ((-(ω * T) : ℝ) : ℂ) * Complex.I by push_cast; ring,
    Complex.exp_mul_I, Complex.exp_mul_I, ← Complex.ofReal_cos, ← Complex.ofReal_cos, ← Complex.ofReal_sin,
    ← Complex.ofReal_sin, Real.cos_neg, Real.sin_neg]
  unfold even
  push_cast
  ring_nf
  rw [Complex.I_sq]
  ring

theorem frames_pair (target : String → Option ℕ) (shifts : String → Option ℝ) (t ω : ℝ) (l₁ l₂ : String)
    (h1 : target l₁ = some 0) (h2 : target l₂ = some 1) (s1 : shifts l₁ = some 0) (s2 : shifts l₂ = some 0) (i : Fin 4) :
    framePhase [2, 2] target shifts t [(l₁, ω), (l₂, ω)] i = (![0, ω * t, ω * t, 2 * (ω * t)] : Fin 4 → ℝ) i := by
  unfold framePhase
  simp only [List.map_cons, List.map_nil, List.sum_cons, List.sum_nil, h1, h2, s1, s2, Option.getD_some, add_zero]
  have e : ∀ i : Fin 4, levelAt [2, 2] 0 i = (![0, 0, 1, 1] : Fin 4 → ℕ) i ∧ levelAt [2, 2] 1 i = (![0, 1, 0, 1] : Fin 4 → ℕ) i := by
    intro i
    fin_cases i
    all_goals exact ⟨rfl, rfl⟩
  rw [(e i).1, (e i).2]
  fin_cases i <;> simp
  ring

theorem trace_iswap (V : Matrix (Fin 4) (Fin 4) ℂ) (ω J J' T : ℝ) (hJ : Real.sin (J * T) = -1) (φ : Fin 4 → ℂ)
    (hφ : ∀ i, φ i = Complex.exp (Complex.I * ((![0, ω * T, ω * T, 2 * (ω * T)] : Fin 4 → ℝ) i : ℝ)))
    (hV : V = diagonal φ * NormedSpace.exp ((-Complex.I * (T : ℝ) : ℂ) • pairHam ω ω J J')) :
    (V * (!![1, 0, 0, 0; 0, 0, Complex.I, 0; 0, Complex.I, 0, 0; 0, 0, 0, 1] : Matrix (Fin 4) (Fin 4) ℂ)ᴴ).trace =
      (2 + 2 * even ω J' T : ℝ) := by
  have e0 := (entries_plane ω ω J J' T φ 0).1
  have e3 := (entries_plane ω ω J J' T φ 3).1
  have e1 := (entries_plane ω ω J J' T φ 1).2
  have e2 := (entries_plane ω ω J J' T φ 2).2
  rw [← hV] at e0 e1 e2 e3
  have hm : (ω + ω) / 2 = ω := by ring
  have g0 : gap ω ω 0 = ω := hm
  have g1 : gap ω ω 1 = 0 := by simp [gap]
  have g2 : gap ω ω 2 = 0 := by simp [gap]
  have g3 : gap ω ω 3 = -ω := by simp [gap]
  have p0 : φ 0 = 1 := by rw [hφ]; simp
  have p1 : φ 1 = Complex.exp (Complex.I * (ω * T : ℝ)) := by rw [hφ]; rfl
  have p2 : φ 2 = Complex.exp (Complex.I * (ω * T : ℝ)) := by rw [hφ]; rfl
  have p3 : φ 3 = Complex.exp (Complex.I * (2 * (ω * T) : ℝ)) := by rw [hφ]; rfl
  have hc : Complex.exp (Complex.I * (ω * T : ℝ)) * (Complex.exp (-Complex.I * (ω * T : ℝ)) * Complex.I) = Complex.I := by
    rw [← mul_assoc, ← Complex.exp_add, neg_mul, add_neg_cancel, Complex.exp_zero, one_mul]
  rw [hm, g0, p0, one_mul] at e0
  rw [hm, g3, p3] at e3
  rw [hm, g1] at e1
  rw [hm, g2] at e2
  change V 2 1 = φ 2 * turn ω 0 J T 1 0 at e1
  change V 1 2 = φ 1 * turn ω 0 J T 1 0 at e2
  change V 0 0 = turn ω ω J' T 0 0 at e0
  change V 3 3 = _ * turn ω (-ω) J' T 0 0 at e3
  rw [turn_swap ω J T hJ, p2, hc] at e1
  rw [turn_swap ω J T hJ, p1, hc] at e2
  have ht := turn_even ω J' T
  rw [← e0, ← e3] at ht
  have : (V * (!![1, 0, 0, 0; 0, 0, Complex.I, 0; 0, Complex.I, 0, 0; 0, 0, 0, 1] : Matrix (Fin 4) (Fin 4) ℂ)ᴴ).trace =
      (V 0 0 + V 3 3) - Complex.I * (V 1 2 + V 2 1) := by
    simp [Matrix.trace, Fin.sum_univ_four, Matrix.mul_apply, conjTranspose_apply]
    ring
  rw [this, ht, e1, e2]
  push_cast
  ring_nf
  rw [Complex.I_sq]
  ring

theorem trace_four (A B : Matrix (Fin 4) (Fin 4) ℂ) : (A * Bᴴ).trace = ∑ i, ∑ j, A i j * star (B i j) := rfl

theorem even_sign (f : IntFun) (ω J T : ℝ) : even ω (evenSign f * J) T = even ω J T := by
  cases f <;> simp [even, evenSign]

/-- C237: qubits of equal frequency, both carriers at this frequency and a coupling that has turned by three quarters of a
period (by one quarter if the strength is negative) make the gate `iswap` of the library, with an infidelity of second order
in the ratio of strength and frequency. -/
theorem C237_iswap (c : Chip [2, 2]) (hc : c.WF) (f : IntFun) (ω J : ℝ) (hω : 0 < ω) (h : Pair c f ω ω J)
    (hfr : c.useFR = true) (ps : List (String × Pulse)) (t' : Exp (Op [2, 2])) (hd : Done c ps t') (g : String) (q : Pulse)
    (hq : ps.lookup g = some q) (hs : ∀ row ∈ q.values, ∀ x ∈ row, x = 0) (ht : q.t = q.dt * q.values.length)
    (l₁ l₂ : String) (hl : q.freqs = [(l₁, ω), (l₂, ω)]) (h1 : c.target l₁ = some 0) (h2 : c.target l₂ = some 1)
    (s1 : q.shifts l₁ = some 0) (s2 : q.shifts l₂ = some 0) (hJ : Real.sin (J * q.t) = -1) :
    ∃ V, t'.propagators g = some V ∧ ∀ actual : Arr ℂ, actual.rows = 4 → actual.cols = 4 →
      (∀ i j : Fin 4, actual.e i j = V i j) → ∃ x, Fidelity.unitaryInfid (Gate.arr .iswap) actual (some [0, 1]) [2, 2] =
        some x ∧ 0 ≤ x ∧ x ≤ (J / ω) ^ 2 * (1 / 2 + (J * q.t) ^ 2 / 8) := by
  refine ⟨_, done_gate c hc ps t' hd g q hq hs, fun actual hr hcol ha => ?_⟩
  have hφ : ∀ i, phasesOf c ps g i = Complex.exp (Complex.I * ((![0, ω * q.t, ω * q.t, 2 * (ω * q.t)] : Fin 4 → ℝ) i : ℝ)) := by
    intro i
    rw [← frames_pair c.target q.shifts q.t ω l₁ l₂ h1 h2 s1 s2 i, ← hl]
    simp only [phasesOf, hq, hfr, if_true]
  have htr := trace_iswap _ ω J (evenSign f * J) q.t hJ (phasesOf c ps g) hφ rfl
  rw [even_sign] at htr
  obtain ⟨b1, b2, b3⟩ := even_bounds ω J q.t hω
  refine ⟨_, Fidelity.C61_value (Gate.arr .iswap) actual [2, 2] [0, 1] (by simp) (by simp) (by simp) (by simp) hr hcol rfl rfl, ?_⟩
  have key : ‖((actual.mat [2, 2].prod [2, 2].prod).submatrix (Fidelity.compEmb [2, 2] [0, 1] (by simp))
      (Fidelity.compEmb [2, 2] [0, 1] (by simp)) *
        ((Gate.arr .iswap).mat (Fidelity.outDims [2, 2] [0, 1]).prod (Fidelity.outDims [2, 2] [0, 1]).prod)ᴴ).trace‖ =
      2 + 2 * even ω J q.t := by
    refine (congrArg norm ((trace_four _ _).trans ?_)).trans ((congrArg norm htr).trans ?_)
    · refine (Finset.sum_congr rfl fun i _ => Finset.sum_congr rfl fun j _ => ?_).trans (trace_four _ _).symm
      congr 1
      · refine Eq.trans ?_ ((ha i j).trans ?_)
        · fin_cases i <;> fin_cases j <;> rfl
        · rw [drift_pair c hc f ω ω J h, ← ht]
          rfl
      · congr 1
        fin_cases i <;> fin_cases j <;> rfl
    · rw [Complex.norm_real, Real.norm_eq_abs, abs_of_nonneg (by linarith)]
  rw [key]
  constructor
  · have : ((2 + 2 * even ω J q.t) / 2 ^ [0, 1].length) ^ 2 = ((1 + even ω J q.t) / 2) ^ 2 := by
      simp only [List.length_cons, List.length_nil]
      ring
    rw [this]
    nlinarith
  · have : 1 - ((2 + 2 * even ω J q.t) / 2 ^ [0, 1].length) ^ 2 ≤ 1 - even ω J q.t := by
      have : ((2 + 2 * even ω J q.t) / 2 ^ [0, 1].length) ^ 2 = ((1 + even ω J q.t) / 2) ^ 2 := by
        simp only [List.length_cons, List.length_nil]
        ring
      rw [this]
      nlinarith
    exact this.trans b3

/-! ## Examples -/

/-- Two coupled qubits with a drive on the first. -/
def pairChip (f : IntFun) (ω₁ ω₂ J : ℝ) (fr : Bool) : Chip [2, 2] :=
  ⟨⟨[("q1", .qubit 2 ω₁ (-1)), ("q2", .qubit 2 ω₂ (-2))], [("d1", .drive .x [0]), ("c", .coupling f J 0 1)]⟩, none, [],
    fun l => if l = "d2" then some 1 else some 0, fr, 1⟩

/-- A gate of `N` empty samples with carriers on both lines. -/
def bothWait (ω T : ℝ) (N : ℕ) : Pulse :=
  ⟨[], List.replicate N [], T / N, [("d1", ω), ("d2", ω)], fun _ => some 0, T⟩

theorem pairChip_wf (f : IntFun) (ω₁ ω₂ J : ℝ) (fr : Bool) : (pairChip f ω₁ ω₂ J fr).WF := by
  refine ⟨?_, ?_, le_rfl⟩
  · intro l hl
    simp only [pairChip, List.mem_cons, List.not_mem_nil, or_false] at hl
    rcases hl with rfl | rfl
    · intro i hi
      rw [List.mem_singleton.1 hi]
      decide
    · exact ⟨by decide, by decide⟩
  · intro l q h
    simp only [pairChip] at h
    split at h <;> cases h <;> decide

/-- C237: such chips and experiments exist. -/
theorem C237_setup (f : IntFun) (ω₁ ω₂ J ω T : ℝ) (N : ℕ) (hN : 0 < N) (fr : Bool) (g : String) :
    (pairChip f ω₁ ω₂ J fr).WF ∧ Pair (pairChip f ω₁ ω₂ J fr) f ω₁ ω₂ J ∧
      (∃ t', Done (pairChip f ω₁ ω₂ J fr) [(g, bothWait ω T N)] t') ∧ SilentGates [(g, bothWait ω T N)] [g] ∧
        duration [(g, bothWait ω T N)] [g] = T ∧ SameFrame (pairChip f ω₁ ω₂ J fr) [(g, bothWait ω T N)] 1 [g] := by
  have hw := pairChip_wf f ω₁ ω₂ J fr
  have hlook : List.lookup g [(g, bothWait ω T N)] = some (bothWait ω T N) := by simp
  refine ⟨hw, ⟨rfl, ⟨"q1", "q2", -1, -2, rfl⟩, "c", [("d1", .drive .x [0])], List.Perm.swap _ _ _, ?_⟩, ?_, ?_, ?_, ?_⟩
  · intro l hl
    rw [List.mem_singleton.1 hl]
    exact ⟨_, _, rfl⟩
  · obtain ⟨V, h⟩ := C199_computed (pairChip f ω₁ ω₂ J fr) hw [(g, bothWait ω T N)] g (bothWait ω T N) hlook
      (by
        intro h0
        have := congrArg List.length h0
        simp [bothWait] at this
        omega) (by simp [bothWait])
      (fun l _ => ⟨⟨0, rfl⟩, by
        by_cases h : l.1 = "d2"
        · exact ⟨1, by decide, if_pos h⟩
        · exact ⟨0, by decide, if_neg h⟩⟩)
    let t : Exp (Op [2, 2]) := ⟨none, .name "pwc", none, none, false, fun _ => none⟩
    obtain ⟨table, t', ht⟩ := (C68_succeeds_iff (closed (pairChip f ω₁ ω₂ J fr) [(g, bothWait ω T N)])
      (closed_wf _ _) t rfl).2 (by
      intro g' hg
      have : g' = g := by simpa [t, closed] using hg
      rw [this]
      exact ⟨V, h⟩)
    exact ⟨t', t, rfl, rfl, table, ht⟩
  · intro g' hg
    rw [List.mem_singleton.1 hg]
    refine ⟨_, hlook, fun row hr x hx => ?_⟩
    rw [List.eq_of_mem_replicate hr] at hx
    simp at hx
  · have : (N : ℝ) ≠ 0 := by exact_mod_cast hN.ne'
    simp only [duration, List.map_cons, List.map_nil, List.sum_cons, List.sum_nil, hlook, add_zero]
    simp only [bothWait, List.length_replicate]
    field_simp
  · intro _ g' hg q hq
    rw [List.mem_singleton.1 hg, hlook] at hq
    cases hq
    exact (frames_pair _ _ T ω "d1" "d2" rfl rfl rfl rfl 1).trans (frames_pair _ _ T ω "d1" "d2" rfl rfl rfl rfl 2).symm

/-- Frequency 5, strength -1/100 and time 50π: an `iswap` with an infidelity below 4·10⁻⁶. -/
example : ∃ V : Op [2, 2], ∀ actual : Arr ℂ, actual.rows = 4 → actual.cols = 4 → (∀ i j : Fin 4, actual.e i j = V i j) →
    ∃ x, Fidelity.unitaryInfid (Gate.arr .iswap) actual (some [0, 1]) [2, 2] = some x ∧ x ≤ 4 / 1000000 := by
  obtain ⟨hw, hp, ⟨t', hd⟩, hs, hT, -⟩ := C237_setup .xx 5 5 (-(1 / 100)) 5 (50 * Real.pi) 10 (by norm_num) true "iswap"
  have hlook : List.lookup "iswap" [("iswap", bothWait 5 (50 * Real.pi) 10)] = some (bothWait 5 (50 * Real.pi) 10) := by simp
  obtain ⟨V, -, h⟩ := C237_iswap _ hw .xx 5 (-(1 / 100)) (by norm_num) hp rfl _ t' hd "iswap" _ hlook (by
    obtain ⟨p, hp, h⟩ := hs "iswap" List.mem_cons_self
    rw [hlook] at hp
    cases hp
    exact h) (by simp [bothWait]) "d1" "d2" rfl rfl rfl rfl rfl (by
      change Real.sin (-(1 / 100) * (50 * Real.pi)) = -1
      rw [show -(1 / 100) * (50 * Real.pi) = -(Real.pi / 2) by ring, Real.sin_neg, Real.sin_pi_div_two])
  refine ⟨V, fun actual h1 h2 h3 => ?_⟩
  obtain ⟨x, e, -, hx⟩ := h actual h1 h2 h3
  refine ⟨x, e, hx.trans ?_⟩
  change (-(1 / 100) / 5) ^ 2 * (1 / 2 + (-(1 / 100) * (50 * Real.pi)) ^ 2 / 8) ≤ _
  have := Real.pi_lt_four
  have := Real.pi_pos
  nlinarith

end C3.Experiment.Exchange
