import Verif.Gates.Clifford

/-!
# C66: characterization sequences

Models c3/utils/qt_utils.py:337-477 (`two_qubit_gate_tomography`, `T1_sequence`, `ramsey_sequence`,
`ramsey_echo_sequence`, `single_length_RB`). The lengths are non-negative (Python repeats a list zero
times for a negative number).
-/

namespace C3.Gates

open Matrix

/-- `f"{name}[{str(target)}]"`. -/
def onTarget (name : String) (target : ℕ) : String := name ++ "[" ++ toString target ++ "]"

/-- c3/utils/qt_utils.py:364-386 `T1_sequence`. -/
def t1Sequence (length target : ℕ) : List String :=
  List.replicate 2 (onTarget "rx90p" target) ++ List.replicate length "Id"

/-- c3/utils/qt_utils.py:389-412 `ramsey_sequence`. -/
def ramseySequence (length target : ℕ) : List String :=
  [onTarget "rx90p" target] ++ List.replicate length "id" ++ [onTarget "rx90p" target]

/-- c3/utils/qt_utils.py:415-445 `ramsey_echo_sequence`. -/
def echoSequence (length target : ℕ) : List String :=
  let hlength := length / 2
  [onTarget "rx90p" target] ++ List.replicate hlength "id" ++ [onTarget "rx90p" target] ++
    [onTarget "rx90p" target] ++ List.replicate hlength "id" ++ [onTarget "rx90m" target]

/-- c3/utils/qt_utils.py:448-477 `single_length_RB`: `draws` are the outcomes of the calls of
`np.random.choice(24, size=RB_length - 1)`, one for each of the `RB_number` sequences. -/
noncomputable def singleLengthRB (draws : List (List ℕ)) (target : ℕ) : Option (List (List String)) :=
  draws.mapM fun choice => (singleRB choice).map fun gates => gates.map fun c => onTarget c.name target

/-- c3/utils/qt_utils.py:337-361 `two_qubit_gate_tomography`. -/
def tomography (gate : String) : List (List String) :=
  let base := [["Id", "Id"], ["rx90p", "Id"], ["ry90p", "Id"], ["rx90p", "rx90p"]]
  let base2 := base.flatMap fun x => base.map fun y =>
    (List.range 2).map fun indx => x.getD indx "" ++ ":" ++ y.getD indx ""
  base2.flatMap fun x => base2.map fun y => x ++ [gate] ++ y

theorem toList_onTarget (name : String) (t : ℕ) :
    (onTarget name t).toList = name.toList ++ '[' :: (toString t).toList ++ [']'] := by
  simp [onTarget]

theorem onTarget_ne (name : String) (t : ℕ) (w : String) (hw : ']' ∉ w.toList) : onTarget name t ≠ w := by
  rintro rfl
  apply hw
  rw [toList_onTarget]
  simp

/-- C66: the relaxation sequence has the requested number of waits, after the two quarter turns that
flip the qubit. -/
theorem C66_t1 (length target : ℕ) :
    (t1Sequence length target).count "Id" = length ∧
      (t1Sequence length target).length = length + 2 ∧
      (t1Sequence length target).take 2 = [onTarget "rx90p" target, onTarget "rx90p" target] := by
  have h := onTarget_ne "rx90p" target "Id" (by decide)
  refine ⟨?_, by simp [t1Sequence], by simp [t1Sequence, List.replicate]⟩
  simp [t1Sequence, h]

/-- C66: the Ramsey sequence has the requested number of waits between two quarter turns. -/
theorem C66_ramsey (length target : ℕ) :
    (ramseySequence length target).count "id" = length ∧
      (ramseySequence length target).length = length + 2 ∧
      (ramseySequence length target).count (onTarget "rx90p" target) = 2 := by
  have h := onTarget_ne "rx90p" target "id" (by decide)
  refine ⟨?_, by simp [ramseySequence], ?_⟩
  · simp [ramseySequence, h]
  · simp [ramseySequence, List.count_replicate, Ne.symm h]

/-- C66: the echo sequence has twice half of the length as waits: the requested number exactly if it is
even (as its documentation asks for), one less otherwise. -/
theorem C66_echo (length target : ℕ) :
    (echoSequence length target).count "id" = 2 * (length / 2) ∧
      ((echoSequence length target).count "id" = length ↔ Even length) ∧
      (¬ Even length → (echoSequence length target).count "id" + 1 = length) := by
  have h := onTarget_ne "rx90p" target "id" (by decide)
  have h' := onTarget_ne "rx90m" target "id" (by decide)
  have hc : (echoSequence length target).count "id" = 2 * (length / 2) := by
    simp [echoSequence, h, h']
    omega
  rw [hc, Nat.not_even_iff, Nat.even_iff]
  omega

/-- C66: both halves of the echo wait for the same time. -/
theorem C66_echo_symmetric (length target : ℕ) :
    ∃ half, (echoSequence length target) =
      [onTarget "rx90p" target] ++ half ++ [onTarget "rx90p" target, onTarget "rx90p" target] ++ half ++
        [onTarget "rx90m" target] ∧ half = List.replicate (length / 2) "id" :=
  ⟨_, by simp [echoSequence], rfl⟩

/-- C66: with ideal gates (waits are identities) the echo sequence is a half turn, the Ramsey and the
relaxation sequences too. -/
theorem C66_ideal (n : ℕ) :
    (1 : Matrix (Fin 2) (Fin 2) ℂ) ^ n * (x90p * x90p) = Gate.rxp.mat ∧
    x90p * ((1 : Matrix (Fin 2) (Fin 2) ℂ) ^ n * x90p) = Gate.rxp.mat ∧
    x90m * ((1 : Matrix (Fin 2) (Fin 2) ℂ) ^ n * (x90p * (x90p * (1 ^ n * x90p)))) = Gate.rxp.mat := by
  have h := C56_half_turns.1
  refine ⟨by rw [one_pow, one_mul, h], by rw [one_pow, one_mul, h], ?_⟩
  rw [one_pow, one_mul, one_mul, ← Matrix.mul_assoc x90m, C56_inverse_pairs.1.1, Matrix.one_mul, h]

/-- C66: `single_length_RB` never raises for a positive length; it returns one sequence per draw, each
of them the concatenated decompositions of `RB_length` Cliffords (the drawn ones and the inverse), on the
target. -/
theorem C66_rb (RB_length : ℕ) (draws : List (List ℕ)) (target : ℕ)
    (hlen : ∀ d ∈ draws, d.length = RB_length - 1) (hpos : 0 < RB_length)
    (h : ∀ d ∈ draws, ∀ c ∈ d, c < 24) :
    ∃ S, singleLengthRB draws target = some S ∧ S.length = draws.length ∧
      ∀ s ∈ S, ∃ cliffs : List ℕ, cliffs.length = RB_length ∧ (∀ c ∈ cliffs, 1 ≤ c ∧ c ≤ 24) ∧
        s = (cliffs.flatMap fun c => cliffordsDecomp.getD (c - 1) []).map
          (fun c => onTarget c.name target) ∧
        PhaseEq (runGates (cliffs.flatMap fun c => cliffordsDecomp.getD (c - 1) [])) 1 := by
  unfold singleLengthRB
  induction draws with
  | nil => exact ⟨[], rfl, rfl, by simp⟩
  | cons d ds ih =>
    obtain ⟨S, hS, hl, hs⟩ := ih (fun x hx => hlen x (List.mem_cons_of_mem _ hx))
      fun x hx => h x (List.mem_cons_of_mem _ hx)
    obtain ⟨gates, hg, hp, i, h1, h2, rfl⟩ := C59_rb d (h d List.mem_cons_self)
    refine ⟨_, by rw [List.mapM_cons, hS, hg]; rfl, by simp [hl], ?_⟩
    intro s hsm
    rcases List.mem_cons.1 hsm with rfl | hsm
    · refine ⟨d.map (· + 1) ++ [i], ?_, ?_, rfl, hp⟩
      · have := hlen d List.mem_cons_self
        simp [this]
        omega
      · intro c hc
        rcases List.mem_append.1 hc with hc | hc
        · obtain ⟨x, hx, rfl⟩ := List.mem_map.1 hc
          have := h d List.mem_cons_self x hx
          omega
        · rw [List.mem_singleton] at hc
          subst hc
          exact ⟨h1, h2⟩
    · exact hs s hsm

/-- C66: tomography of a two-qubit gate consists of 256 sequences of two preparation gates, the gate and
two rotations before the measurement. -/
theorem C66_tomography (gate : String) :
    (tomography gate).length = 256 ∧ ∀ s ∈ tomography gate, s.length = 5 ∧ s[2]? = some gate := by
  constructor
  · have h : ∀ (b : List (List String)), (b.flatMap fun x => b.map fun y => x ++ [gate] ++ y).length =
        b.length * b.length := by
      intro b
      rw [List.length_flatMap]
      simp
    unfold tomography
    simp only
    rw [h]
    rfl
  · intro s hs
    simp only [tomography, List.mem_flatMap, List.mem_map] at hs
    obtain ⟨x, ⟨a, ha, b, hb, rfl⟩, y, ⟨c, hc, d, hd, rfl⟩, rfl⟩ := hs
    simp

/-- The four preparations of a qubit for tomography: nothing, a quarter turn about x, one about y, and a half turn. -/
def preparations : List (String × String) := [("Id", "Id"), ("rx90p", "Id"), ("ry90p", "Id"), ("rx90p", "rx90p")]

/-- C66: all combinations of preparations of the two qubits before the gate and after it occur, in order. -/
theorem C66_tomography_gates (gate : String) : tomography gate =
    preparations.flatMap fun a => preparations.flatMap fun b => preparations.flatMap fun c => preparations.map fun d =>
      [a.1 ++ ":" ++ b.1, a.2 ++ ":" ++ b.2, gate, c.1 ++ ":" ++ d.1, c.2 ++ ":" ++ d.2] := by
  rfl

/-- The ideal matrix of a single-qubit step of the tomography sequences. -/
noncomputable def turn (name : String) : Matrix (Fin 2) (Fin 2) ℂ :=
  if name = "rx90p" then x90p else if name = "ry90p" then y90p else 1

/-- The density matrix that a preparation makes of the ground state. -/
noncomputable def prepared (p : String × String) : Matrix (Fin 2) (Fin 2) ℂ :=
  (turn p.2 * turn p.1) * !![1, 0; 0, 0] * (turn p.2 * turn p.1)ᴴ

/-- C66: the four preparations give linearly independent density matrices, as tomography needs. -/
theorem C66_tomography_complete (c : Fin 4 → ℂ)
    (h : ∑ k : Fin 4, c k • prepared (preparations.getD k ("", "")) = 0) : c = 0 := by
  have hr : r2 * r2 = 1 / 2 := by
    unfold r2
    rw [← Complex.ofReal_mul, div_mul_div_comm, Real.mul_self_sqrt two_pos.le]
    norm_num
  have hc : (starRingEnd ℂ) r2 = r2 := Complex.conj_ofReal _
  have e0 : prepared ("Id", "Id") = !![1, 0; 0, 0] := by
    simp [prepared, turn]
  have ex : turn "rx90p" = r2 • !![1, -Complex.I; -Complex.I, 1] := by simp [turn, x90p, Gate.mat]
  have ey : turn "ry90p" = r2 • !![1, -1; 1, 1] := rfl
  have ei : turn "Id" = 1 := by simp [turn]
  have e1 : prepared ("rx90p", "Id") = (1 / 2 : ℂ) • !![1, Complex.I; -Complex.I, 1] := by
    simp only [prepared, ei, ex, one_mul]
    ext i j
    fin_cases i <;> fin_cases j <;> simp [Matrix.mul_apply, hc, ← hr] <;> ring_nf <;> simp [Complex.I_sq]
  have e2 : prepared ("ry90p", "Id") = (1 / 2 : ℂ) • !![1, 1; 1, 1] := by
    simp only [prepared, ei, ey, one_mul]
    ext i j
    fin_cases i <;> fin_cases j <;> simp [Matrix.mul_apply, hc, ← hr]
  have e3 : prepared ("rx90p", "rx90p") = !![0, 0; 0, 1] := by
    have e : turn "rx90p" * turn "rx90p" = !![0, -Complex.I; -Complex.I, 0] := by
      rw [ex, Matrix.smul_mul, Matrix.mul_smul, smul_smul, hr]
      ext i j
      fin_cases i <;> fin_cases j <;> simp <;> ring
    simp only [prepared, e]
    ext i j
    fin_cases i <;> fin_cases j <;> simp [Matrix.mul_apply]
  simp only [Fin.sum_univ_four, preparations, Fin.val_zero, Fin.val_one, Fin.val_two, List.getD_cons_zero,
    List.getD_cons_succ, show ((3 : Fin 4) : ℕ) = 3 from rfl, e0, e1, e2, e3] at h
  have h00 := congrFun (congrFun h 0) 0
  have h01 := congrFun (congrFun h 0) 1
  have h10 := congrFun (congrFun h 1) 0
  have h11 := congrFun (congrFun h 1) 1
  simp at h00 h01 h10 h11
  have c2 : c 2 = 0 := by linear_combination h01 + h10
  have c1 : c 1 = 0 := by
    rw [c2] at h01
    simpa using h01
  rw [c1, c2] at h00 h11
  funext k
  fin_cases k
  · simpa using h00
  · exact c1
  · exact c2
  · simpa using h11

example : (echoSequence 5 0).count "id" = 4 := by decide
example : ∀ d ∈ [[0, 23], [4, 4]], ∀ c ∈ d, c < 24 := by decide

end C3.Gates
