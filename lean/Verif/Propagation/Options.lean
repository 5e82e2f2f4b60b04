import Verif.Propagation.Unitary
import Verif.Hilbert.Hams
import Mathlib.Topology.Instances.Matrix

/-!
# The settings of `pwc` and the excitation limit (C137, C138), other propagation helpers (C139, C140)

c3/libraries/propagation.py:259-341, c3/model.py:198-224, 353-415.
-/

namespace C3.Propagation

open Matrix NormedSpace Hilbert

/-! ## Model -/

/-- The settings that choose the branch of `pwc`. -/
structure PwcSetup where
  /-- `model.controllability` -/
  controllable : Bool
  /-- `model.lindbladian` -/
  isOpen : Bool
  /-- `model.max_excitations`; zero means no limit -/
  maxEx : ℕ

/-- What is raised. -/
inductive PwcErr
  /-- c3/model.py:365: the cutter times the *dictionary* of control Hamiltonians -/
  | cutDict
  /-- c3/libraries/propagation.py:321: `cutter.T`, which tensors do not have -/
  | cutterT
  /-- c3/libraries/propagation.py:511: `tf.cast(None)` for the collapse operators -/
  | noCollapse
  /-- the stack of folding functions does not fit the number of slices -/
  | fold
  deriving DecidableEq

section Model
variable (dims : List ℕ)

/-- The full space. -/
abbrev Full (dims : List ℕ) := Fin (stateLabels dims).length

/-- The result of `pwc`: a unitary or a superoperator. -/
inductive PwcGate (dims : List ℕ)
  | unitary (U : Matrix (Full dims) (Full dims) ℂ)
  | super (U : Matrix (Full dims × Full dims) (Full dims × Full dims) ℂ)

/-- The uncontrolled, closed branch with an excitation limit (c3/libraries/propagation.py:317-341):
Hamiltonians cut (c3/model.py:409-410), slices folded (the result is dropped), then
`blowup_excitations(tf_matmul_left(dUs))`. -/
noncomputable def pwcCut (maxEx : ℕ) (dt : ℝ) (hs : List (Matrix (Full dims) (Full dims) ℂ)) (bs : ℕ)
    (stack : List Bool) : Option (Matrix (Full dims) (Full dims) ℂ) :=
  let dUs := Fold.batchPropagate (propVectorizedH dt) (hs.map (cutExcitations dims maxEx)) bs
  match Fold.matmulN dUs stack, Fold.matmulLeft dUs with
  | some _, some U => some (blowupExcitations dims maxEx U)
  | _, _ => none

/-- c3/libraries/propagation.py:259-341 `pwc`. `h0, hks` are the drift and the control Hamiltonians,
`cs` the control values for each sample, `hs` the Hamiltonians of the samples as `get_Hamiltonian(signal)`
gives them without the cut, `cols` the collapse operators. -/
noncomputable def pwcFull (o : PwcSetup) (h0 : Matrix (Full dims) (Full dims) ℂ)
    (hks : List (Matrix (Full dims) (Full dims) ℂ)) (cs : List (List ℝ))
    (hs cols : List (Matrix (Full dims) (Full dims) ℂ)) (dt : ℝ) (bs : ℕ) (stack : List Bool) :
    Except PwcErr (PwcGate dims) :=
  let ok {α : Type} (r : Option α) (f : α → PwcGate dims) : Except PwcErr (PwcGate dims) :=
    match r with
    | some U => .ok (f U)
    | none => .error .fold
  match o.maxEx, o.controllable, o.isOpen with
  | 0, true, false => ok (pwc h0 hks dt cs bs stack) .unitary
  | 0, true, true => ok (pwcLind h0 hks cols dt cs bs stack) .super
  | 0, false, false => ok (pwcH dt hs bs stack) .unitary
  | 0, false, true => .error .noCollapse
  | _ + 1, true, _ => .error .cutDict
  | m + 1, false, false => ok (pwcCut dims (m + 1) dt hs bs stack) .unitary
  | _ + 1, false, true => .error .cutterT

end Model

/-! ## C137 -/

/-- The settings that work. -/
def PwcSetup.Supported (o : PwcSetup) : Prop :=
  (o.maxEx = 0 ∧ (o.controllable = true ∨ o.isOpen = false)) ∨
    (o.maxEx ≠ 0 ∧ o.controllable = false ∧ o.isOpen = false)

section
variable (dims : List ℕ) (h0 : Matrix (Full dims) (Full dims) ℂ)
  (hks : List (Matrix (Full dims) (Full dims) ℂ)) (cs : List (List ℝ))
  (hs cols : List (Matrix (Full dims) (Full dims) ℂ)) (dt : ℝ) (bs : ℕ)

theorem pwcCut_eq (maxEx : ℕ) (hne : hs ≠ []) (hbs : 1 ≤ bs) :
    pwcCut dims maxEx dt hs bs (Fold.stackFor hs.length) =
      some (blowupExcitations dims maxEx (Fold.timeOrdered
        (hs.map fun h => exp ((dt : ℂ) • (-Complex.I) • cutExcitations dims maxEx h)))) := by
  unfold pwcCut
  have e : Fold.batchPropagate (propVectorizedH dt) (hs.map (cutExcitations dims maxEx)) bs =
      hs.map fun h => exp ((dt : ℂ) • (-Complex.I) • cutExcitations dims maxEx h) := by
    have := Fold.C20_batch_independent
      (fun h : Matrix (Fin (keptPositions dims maxEx).length) (Fin (keptPositions dims maxEx).length) ℂ =>
        exp ((dt : ℂ) • (-Complex.I) • h)) (hs.map (cutExcitations dims maxEx)) bs hbs
    unfold propVectorizedH
    rw [this, List.map_map]
    rfl
  have hne' : (hs.map fun h => exp ((dt : ℂ) • (-Complex.I) • cutExcitations dims maxEx h)) ≠ [] := by
    simpa using hne
  have h1 := Fold.C19_folded_product _ hne'
  rw [List.length_map] at h1
  simp only [e, h1, Fold.C19_matmul_left _ hne']

/-- **C137**, what holds: with control Hamiltonians and no excitation limit, for closed and open systems,
and with signal-dependent Hamiltonians for closed systems, with and without an excitation limit, every
gate with at least one sample gets a propagator, the step size `dt` being given (computing it takes two samples, see
C197). Missing: the other settings raise, see the negations. -/
theorem C137_supported_partial (o : PwcSetup) (ho : o.Supported) (hne : hs ≠ [])
    (hlen : cs.length = hs.length) (hbs : 1 ≤ bs) :
    ∃ g, pwcFull dims o h0 hks cs hs cols dt bs (Fold.stackFor hs.length) = .ok g := by
  have hcs : cs ≠ [] := by
    rintro rfl
    exact hne (List.length_eq_zero_iff.1 hlen.symm)
  obtain ⟨c, op, m⟩ := o
  unfold PwcSetup.Supported at ho
  rcases m with _ | m <;> rcases c <;> rcases op <;> simp at ho
  · have h1 := Fold.C19_folded_product (propVectorizedH dt hs) (by simpa [propVectorizedH] using hne)
    have h2 := Fold.C20_batch_independent
      (fun h : Matrix (Full dims) (Full dims) ℂ => exp ((dt : ℂ) • (-Complex.I) • h)) hs bs hbs
    refine ⟨.unitary (Fold.timeOrdered (propVectorizedH dt hs)), ?_⟩
    have e : pwcH dt hs bs (Fold.stackFor hs.length) = some (Fold.timeOrdered (propVectorizedH dt hs)) := by
      unfold pwcH
      rw [show (propVectorizedH dt : List (Matrix (Full dims) (Full dims) ℂ) → _) =
        List.map fun h => exp ((dt : ℂ) • (-Complex.I) • h) from rfl, h2]
      rw [propVectorizedH, List.length_map] at h1
      exact h1
    simp [pwcFull, e]
  · exact ⟨.unitary (Fold.timeOrdered (cs.map (dUOfT h0 hks dt))), by
      simp [pwcFull, ← hlen, pwc_eq h0 hks dt cs hcs bs hbs]⟩
  · have h2 := Fold.C20_batch_independent
      (fun c : List ℝ => exp ((dt : ℂ) • lindOpVec
        (h0 + ((c.zip hks).map fun p => (p.1 : ℂ) • p.2).sum) cols)) cs bs hbs
    have h1 := Fold.C19_folded_product (propLind h0 hks cols dt cs) (by simpa [propLind] using hcs)
    refine ⟨.super (Fold.timeOrdered (propLind h0 hks cols dt cs)), ?_⟩
    have e : pwcLind h0 hks cols dt cs bs (Fold.stackFor cs.length) =
        some (Fold.timeOrdered (propLind h0 hks cols dt cs)) := by
      unfold pwcLind
      rw [show (propLind h0 hks cols dt : List (List ℝ) → _) = List.map _ from rfl, h2]
      rw [propLind, List.length_map] at h1
      exact h1
    simp [pwcFull, ← hlen, e]
  · refine ⟨.unitary (blowupExcitations dims (m + 1) (Fold.timeOrdered
      (hs.map fun h => exp ((dt : ℂ) • (-Complex.I) • cutExcitations dims (m + 1) h)))), ?_⟩
    simp only [pwcFull, pwcCut_eq dims hs dt bs _ hne hbs]

/-- **C137 is false**: an excitation limit with separate control Hamiltonians (the default) raises for
every gate. -/
theorem C137_false_limit (m : ℕ) (op : Bool) (stack : List Bool) :
    pwcFull dims ⟨true, op, m + 1⟩ h0 hks cs hs cols dt bs stack = .error .cutDict := rfl

/-- **C137 is false**: an open system with signal-dependent Hamiltonians raises for every gate. -/
theorem C137_false_open (m : ℕ) (stack : List Bool) :
    ∃ e, pwcFull dims ⟨false, true, m⟩ h0 hks cs hs cols dt bs stack = .error e := by
  rcases m with _ | m
  · exact ⟨_, rfl⟩
  · exact ⟨_, rfl⟩

/-- C137: nothing else raises. -/
theorem C137_iff (o : PwcSetup) (hne : hs ≠ []) (hlen : cs.length = hs.length) (hbs : 1 ≤ bs) :
    (∃ g, pwcFull dims o h0 hks cs hs cols dt bs (Fold.stackFor hs.length) = .ok g) ↔ o.Supported := by
  refine ⟨?_, fun h => C137_supported_partial dims h0 hks cs hs cols dt bs o h hne hlen hbs⟩
  rintro ⟨g, hg⟩
  obtain ⟨c, op, m⟩ := o
  unfold PwcSetup.Supported
  rcases m with _ | m <;> rcases c <;> rcases op <;> simp [pwcFull] at hg ⊢

end

/-! ## C138 -/

/-- `V A = B V` carries over to the exponentials, also for rectangular `V`. -/
theorem exp_intertwine {m n : Type*} [Fintype m] [DecidableEq m] [Fintype n] [DecidableEq n]
    (V : Matrix m n ℂ) (A : Matrix n n ℂ) (B : Matrix m m ℂ) (h : V * A = B * V) :
    V * exp A = exp B * V := by
  let _ : NormedRing (Matrix n n ℂ) := Matrix.linftyOpNormedRing
  let _ : NormedAlgebra ℂ (Matrix n n ℂ) := Matrix.linftyOpNormedAlgebra
  let _ : NormedRing (Matrix m m ℂ) := Matrix.linftyOpNormedRing
  let _ : NormedAlgebra ℂ (Matrix m m ℂ) := Matrix.linftyOpNormedAlgebra
  have hpow : ∀ k : ℕ, V * A ^ k = B ^ k * V := by
    intro k
    induction k with
    | zero => simp
    | succ k ih => rw [pow_succ, ← Matrix.mul_assoc, ih, Matrix.mul_assoc, h, ← Matrix.mul_assoc, pow_succ]
  have hA := NormedSpace.exp_series_hasSum_exp' (𝕂 := ℂ) A
  have hB := NormedSpace.exp_series_hasSum_exp' (𝕂 := ℂ) B
  have h1 : HasSum (fun k : ℕ => V * (((k.factorial : ℂ)⁻¹) • A ^ k)) (V * exp A) :=
    hA.map (AddMonoidHom.mk' (fun M : Matrix n n ℂ => V * M) fun a b => Matrix.mul_add _ _ _)
      (continuous_const.matrix_mul continuous_id)
  have h2 : HasSum (fun k : ℕ => (((k.factorial : ℂ)⁻¹) • B ^ k) * V) (exp B * V) :=
    hB.map (AddMonoidHom.mk' (fun M : Matrix m m ℂ => M * V) fun a b => Matrix.add_mul _ _ _)
      (continuous_id.matrix_mul continuous_const)
  refine h1.unique ?_
  convert h2 using 2 with k
  rw [Matrix.mul_smul, Matrix.smul_mul, hpow]

section Limit
variable (dims : List ℕ) (maxEx : ℕ)

/-- The Hamiltonian does not connect states below the limit with states above it. -/
def Respects (H : Matrix (Full dims) (Full dims) ℂ) : Prop :=
  ∀ p q, (((stateLabels dims)[p]).sum ≤ maxEx ↔ ¬ ((stateLabels dims)[q]).sum ≤ maxEx) → H p q = 0

theorem cutter_mul_cutterT : exCutter dims maxEx * (exCutter dims maxEx)ᵀ = 1 := by
  have := C34_cut_blowup dims maxEx 1
  unfold cutExcitations blowupExcitations at this
  ext r s
  simp only [Matrix.mul_apply, exCutter_apply, Matrix.transpose_apply, Matrix.one_apply]
  simp [(keptPos_inj dims maxEx).eq_iff, eq_comm]

theorem cutter_intertwines (H : Matrix (Full dims) (Full dims) ℂ) (h : Respects dims maxEx H) :
    exCutter dims maxEx * H = cutExcitations dims maxEx H * exCutter dims maxEx := by
  ext r q
  rw [C34_cut_entries]
  simp only [Matrix.mul_apply, exCutter_apply, Matrix.submatrix_apply, ite_mul, one_mul, zero_mul,
    Finset.sum_ite_eq', Finset.mem_univ, if_true, mul_ite, mul_one, mul_zero]
  by_cases hq : ((stateLabels dims)[q]).sum ≤ maxEx
  · obtain ⟨s, rfl⟩ := (mem_kept dims maxEx q).2 hq
    simp [(keptPos_inj dims maxEx).eq_iff]
  · have hr := (mem_kept dims maxEx (keptPos dims maxEx r)).1 ⟨r, rfl⟩
    rw [h _ _ ⟨fun _ => hq, fun _ => hr⟩, Finset.sum_eq_zero]
    intro s _
    rw [if_neg]
    rintro rfl
    exact hq ((mem_kept dims maxEx _).1 ⟨s, rfl⟩)

/-- The gate of the full space: the time-ordered product of the slice exponentials. -/
noncomputable def fullGate (dt : ℝ) (hs : List (Matrix (Full dims) (Full dims) ℂ)) :
    Matrix (Full dims) (Full dims) ℂ :=
  Fold.timeOrdered (hs.map fun h => exp ((dt : ℂ) • (-Complex.I) • h))

theorem timeOrdered_intertwine {m n ι : Type*} [Fintype m] [DecidableEq m] [Fintype n] [DecidableEq n]
    (V : Matrix m n ℂ) (f : ι → Matrix n n ℂ) (g : ι → Matrix m m ℂ) (l : List ι)
    (h : ∀ i ∈ l, V * f i = g i * V) :
    V * Fold.timeOrdered (l.map f) = Fold.timeOrdered (l.map g) * V := by
  unfold Fold.timeOrdered
  rw [← List.map_reverse, ← List.map_reverse]
  have h' : ∀ i ∈ l.reverse, V * f i = g i * V := fun i hi => h i (List.mem_reverse.1 hi)
  generalize l.reverse = l' at h'
  induction l' with
  | nil => simp
  | cons i l' ih =>
    rw [List.map_cons, List.map_cons, List.prod_cons, List.prod_cons, ← Matrix.mul_assoc,
      h' i (by simp), Matrix.mul_assoc, ih fun j hj => h' j (by simp [hj]), Matrix.mul_assoc]

/-- **C138**: if no Hamiltonian of the gate connects states below the limit with states above it, the
gate computed with the limit agrees with the full gate on the states below the limit and is zero
everywhere else. -/
theorem C138_exact (dt : ℝ) (hs : List (Matrix (Full dims) (Full dims) ℂ)) (hne : hs ≠ [])
    (hr : ∀ h ∈ hs, Respects dims maxEx h) (bs : ℕ) (hbs : 1 ≤ bs) :
    ∃ U, pwcCut dims maxEx dt hs bs (Fold.stackFor hs.length) = some U ∧
      ∀ p q, U p q = if ((stateLabels dims)[p]).sum ≤ maxEx ∧ ((stateLabels dims)[q]).sum ≤ maxEx
        then fullGate dims dt hs p q else 0 := by
  refine ⟨_, pwcCut_eq dims hs dt bs maxEx hne hbs, ?_⟩
  intro p q
  rw [← C34_blowup_cut]
  congr 1
  have h1 : exCutter dims maxEx * fullGate dims dt hs =
      Fold.timeOrdered (hs.map fun h => exp ((dt : ℂ) • (-Complex.I) • cutExcitations dims maxEx h))
        * exCutter dims maxEx := by
    apply timeOrdered_intertwine
    intro h hh
    apply exp_intertwine
    rw [Matrix.mul_smul, Matrix.mul_smul, cutter_intertwines dims maxEx h (hr h hh), Matrix.smul_mul,
      Matrix.smul_mul]
  rw [cutExcitations, h1, Matrix.mul_assoc, cutter_mul_cutterT, Matrix.mul_one]

/-- **C138**: for Hermitian Hamiltonians, whether or not they respect the limit, the gate is unitary on
the states below the limit: `U U† = U† U` is the projector onto them. -/
theorem C138_unitary (dt : ℝ) (hs : List (Matrix (Full dims) (Full dims) ℂ)) (hne : hs ≠ [])
    (hh : ∀ h ∈ hs, h.IsHermitian) (bs : ℕ) (hbs : 1 ≤ bs) :
    ∃ U, pwcCut dims maxEx dt hs bs (Fold.stackFor hs.length) = some U ∧
      U * Uᴴ = Matrix.diagonal (fun p => if ((stateLabels dims)[p]).sum ≤ maxEx then 1 else 0) ∧
      Uᴴ * U = Matrix.diagonal (fun p => if ((stateLabels dims)[p]).sum ≤ maxEx then 1 else 0) := by
  refine ⟨_, pwcCut_eq dims hs dt bs maxEx hne hbs, ?_⟩
  set W := Fold.timeOrdered (hs.map fun h => exp ((dt : ℂ) • (-Complex.I) • cutExcitations dims maxEx h))
    with hW
  have hu : W ∈ unitaryGroup _ ℂ := by
    apply timeOrdered_mem
    intro x hx
    obtain ⟨h, hm, rfl⟩ := List.mem_map.1 hx
    exact exp_unitary _ ((C34_hermitian dims maxEx h 0 0).2.2.1 (hh h hm)) dt
  have hV : (exCutter dims maxEx)ᴴ = (exCutter dims maxEx)ᵀ := by
    ext r c
    rw [Matrix.conjTranspose_apply, Matrix.transpose_apply, exCutter_apply]
    split <;> simp
  have hV' : ((exCutter dims maxEx)ᵀ)ᴴ = exCutter dims maxEx := by
    rw [← hV, conjTranspose_conjTranspose]
  have hP : (exCutter dims maxEx)ᵀ * exCutter dims maxEx =
      Matrix.diagonal (fun p => if ((stateLabels dims)[p]).sum ≤ maxEx then (1 : ℂ) else 0) := by
    have h1 := C34_blowup_cut dims maxEx (1 : Matrix (Full dims) (Full dims) ℂ)
    have h2 : blowupExcitations dims maxEx (cutExcitations dims maxEx 1) =
        (exCutter dims maxEx)ᵀ * exCutter dims maxEx := by
      rw [cutExcitations, Matrix.mul_one, cutter_mul_cutterT, blowupExcitations, Matrix.mul_one]
    ext p q
    rw [← h2, h1, Matrix.diagonal_apply, Matrix.one_apply]
    by_cases hpq : p = q
    · subst hpq; simp
    · simp [hpq]
  have hadj : (blowupExcitations dims maxEx W)ᴴ = (exCutter dims maxEx)ᵀ * Wᴴ * exCutter dims maxEx := by
    rw [blowupExcitations, conjTranspose_mul, conjTranspose_mul, hV, hV', Matrix.mul_assoc]
  have key : ∀ A B : Matrix (Fin (keptPositions dims maxEx).length) (Fin (keptPositions dims maxEx).length) ℂ,
      A * B = 1 → ((exCutter dims maxEx)ᵀ * A * exCutter dims maxEx) *
        ((exCutter dims maxEx)ᵀ * B * exCutter dims maxEx) = (exCutter dims maxEx)ᵀ * exCutter dims maxEx := by
    intro A B hAB
    calc _ = (exCutter dims maxEx)ᵀ * (A * (exCutter dims maxEx * (exCutter dims maxEx)ᵀ) * B)
            * exCutter dims maxEx := by simp only [Matrix.mul_assoc]
      _ = _ := by rw [cutter_mul_cutterT, Matrix.mul_one, hAB, Matrix.mul_one]
  rw [hadj, ← hP]
  exact ⟨key _ _ (mem_unitaryGroup_iff.1 hu), key _ _ (mem_unitaryGroup_iff'.1 hu)⟩

end Limit

example : (⟨false, false, 2⟩ : PwcSetup).Supported := Or.inr ⟨by decide, rfl, rfl⟩

example : (keptPositions [3, 3] 2).length = 6 := by decide

/-- Number-conserving Hamiltonians respect every limit. -/
example : Respects [2, 2] 1 (Matrix.diagonal fun p => (((stateLabels [2, 2])[p]).sum : ℂ)) := by
  intro p q h
  rw [Matrix.diagonal_apply_ne]
  rintro rfl
  tauto

end C3.Propagation
