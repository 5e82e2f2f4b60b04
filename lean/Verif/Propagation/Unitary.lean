import Verif.Propagation.Model
import Verif.Fold.Props

/-!
# C22, C23: closed-system propagation
-/

set_option linter.unusedSectionVars false

namespace C3.Propagation

open Matrix NormedSpace

variable {n : Type*} [Fintype n] [DecidableEq n]

theorem hamAt_eq_sum (h0 : Matrix n n ℂ) (ctrl : List (ℝ × Matrix n n ℂ)) :
    hamAt h0 ctrl = h0 + (ctrl.map fun p => (p.1 : ℂ) • p.2).sum := by
  unfold hamAt
  induction ctrl generalizing h0 with
  | nil => simp
  | cons p ps ih => rw [List.foldl_cons, ih, List.map_cons, List.sum_cons, add_assoc]

/-- The loop and the vectorised implementations agree slice by slice. -/
theorem propVectorized_eq (h0 : Matrix n n ℂ) (hks : List (Matrix n n ℂ)) (dt : ℝ)
    (cs : List (List ℝ)) : propVectorized h0 hks dt cs = cs.map (dUOfT h0 hks dt) := by
  unfold propVectorized dUOfT
  simp only [hamAt_eq_sum]

theorem isHermitian_hamAt (h0 : Matrix n n ℂ) (ctrl : List (ℝ × Matrix n n ℂ))
    (h : h0.IsHermitian) (hc : ∀ p ∈ ctrl, (p.2).IsHermitian) : (hamAt h0 ctrl).IsHermitian := by
  unfold hamAt
  induction ctrl generalizing h0 with
  | nil => exact h
  | cons p ps ih =>
    apply ih
    · apply h.add
      have := hc p List.mem_cons_self
      unfold Matrix.IsHermitian at this ⊢
      rw [conjTranspose_smul, this]
      simp
    · exact fun q hq => hc q (List.mem_cons_of_mem _ hq)

/-- `exp(-i H dt)` is unitary for Hermitian `H`. -/
theorem exp_unitary (H : Matrix n n ℂ) (h : H.IsHermitian) (dt : ℝ) :
    exp ((dt : ℂ) • (-Complex.I) • H) ∈ unitaryGroup n ℂ := by
  set A : Matrix n n ℂ := (dt : ℂ) • (-Complex.I) • H with hA
  have hs : Aᴴ = -A := by
    rw [hA, conjTranspose_smul, conjTranspose_smul, h]
    simp
  rw [mem_unitaryGroup_iff, star_eq_conjTranspose, ← exp_conjTranspose, hs,
    ← exp_add_of_commute _ _ (Commute.neg_right (Commute.refl A))]
  simp

/-- **C22** (slice): for Hermitian Hamiltonians every slice propagator is unitary. -/
theorem C22_slice_unitary (h0 : Matrix n n ℂ) (hks : List (Matrix n n ℂ)) (dt : ℝ)
    (h : h0.IsHermitian) (hk : ∀ H ∈ hks, H.IsHermitian) (c : List ℝ) :
    dUOfT h0 hks dt c ∈ unitaryGroup n ℂ := by
  apply exp_unitary
  apply isHermitian_hamAt _ _ h
  intro p hp
  exact hk _ (List.of_mem_zip hp).2

theorem timeOrdered_mem {M : Type*} [Monoid M] (S : Submonoid M) (l : List M)
    (h : ∀ x ∈ l, x ∈ S) : Fold.timeOrdered l ∈ S :=
  S.list_prod_mem fun x hx => h x (List.mem_reverse.1 hx)

/-- The result of `pwc`: the time-ordered product of the slice propagators. -/
theorem pwc_eq (h0 : Matrix n n ℂ) (hks : List (Matrix n n ℂ)) (dt : ℝ) (cs : List (List ℝ))
    (hcs : cs ≠ []) (bs : ℕ) (hbs : 1 ≤ bs) :
    pwc h0 hks dt cs bs (Fold.stackFor cs.length) =
      some (Fold.timeOrdered (cs.map (dUOfT h0 hks dt))) := by
  unfold pwc
  have : propVectorized h0 hks dt = List.map (dUOfT h0 hks dt) := by
    funext cs; exact propVectorized_eq h0 hks dt cs
  rw [this, Fold.C20_batch_independent _ _ bs hbs]
  have h := Fold.C19_folded_product (cs.map (dUOfT h0 hks dt)) (by simpa using hcs)
  rwa [List.length_map] at h

/-- **C22** (gate): for Hermitian Hamiltonians, any signals, any batch size, the gate propagator
exists and is unitary. -/
theorem C22_gate_unitary (h0 : Matrix n n ℂ) (hks : List (Matrix n n ℂ)) (dt : ℝ)
    (h : h0.IsHermitian) (hk : ∀ H ∈ hks, H.IsHermitian) (cs : List (List ℝ)) (hcs : cs ≠ [])
    (bs : ℕ) (hbs : 1 ≤ bs) :
    ∃ U ∈ unitaryGroup n ℂ, pwc h0 hks dt cs bs (Fold.stackFor cs.length) = some U := by
  refine ⟨_, ?_, pwc_eq h0 hks dt cs hcs bs hbs⟩
  apply timeOrdered_mem
  intro x hx
  obtain ⟨c, _, rfl⟩ := List.mem_map.1 hx
  exact C22_slice_unitary h0 hks dt h hk c

/-- **C22** (gate, Hamiltonians given per slice). -/
theorem C22_gate_unitary_no_signals (dt : ℝ) (hs : List (Matrix n n ℂ)) (hne : hs ≠ [])
    (h : ∀ H ∈ hs, H.IsHermitian) (bs : ℕ) (hbs : 1 ≤ bs) :
    ∃ U ∈ unitaryGroup n ℂ, pwcH dt hs bs (Fold.stackFor hs.length) = some U := by
  refine ⟨Fold.timeOrdered (hs.map fun h => exp ((dt : ℂ) • (-Complex.I) • h)), ?_, ?_⟩
  · apply timeOrdered_mem
    intro x hx
    obtain ⟨H, hH, rfl⟩ := List.mem_map.1 hx
    exact exp_unitary H (h H hH) dt
  · unfold pwcH
    have : (propVectorizedH dt : List (Matrix n n ℂ) → _) =
        List.map fun h => exp ((dt : ℂ) • (-Complex.I) • h) := rfl
    rw [this, Fold.C20_batch_independent _ _ bs hbs]
    have h := Fold.C19_folded_product (hs.map fun h : Matrix n n ℂ =>
      exp ((dt : ℂ) • (-Complex.I) • h)) (by simpa using hne)
    rwa [List.length_map] at h

/-- Non-vacuity: Pauli-like Hermitian Hamiltonians exist. -/
example : ∃ U ∈ unitaryGroup (Fin 2) ℂ,
    pwc (!![1, 0; 0, -1] : Matrix (Fin 2) (Fin 2) ℂ) [!![0, 1; 1, 0]] 0.1 [[1], [2], [3]] 2
      (Fold.stackFor 3) = some U :=
  C22_gate_unitary _ _ _
    (by ext i j; fin_cases i <;> fin_cases j <;> simp [conjTranspose_apply])
    (by
      intro H hH
      rw [List.mem_singleton.1 hH]
      ext i j; fin_cases i <;> fin_cases j <;> simp [conjTranspose_apply])
    [[1], [2], [3]] (by simp) 2 (by norm_num)

/-! ## C23 -/

/-- **C23**: constant controls on `N` slices of length `T / N` give the propagator of one slice of
length `T`. -/
theorem C23_slicing (h0 : Matrix n n ℂ) (hks : List (Matrix n n ℂ)) (T : ℝ) (c : List ℝ) (N : ℕ)
    (hN : 1 ≤ N) (bs : ℕ) (hbs : 1 ≤ bs) :
    pwc h0 hks (T / N) (List.replicate N c) bs (Fold.stackFor N) = some (dUOfT h0 hks T c) := by
  have h := pwc_eq h0 hks (T / N) (List.replicate N c)
    (by simp; omega) bs hbs
  rw [List.length_replicate] at h
  rw [h]
  congr 1
  rw [List.map_replicate, Fold.timeOrdered, List.reverse_replicate, List.prod_replicate]
  unfold dUOfT
  rw [← Matrix.exp_nsmul]
  congr 1
  have hN' : (N : ℂ) ≠ 0 := by exact_mod_cast (by omega : N ≠ 0)
  rw [← Nat.cast_smul_eq_nsmul ℂ, smul_smul]
  congr 1
  push_cast
  field_simp

/-- **C23** (refinement): splitting every slice of an arbitrary signal into `N` equal slices does
not change the gate propagator. -/
theorem C23_refine (h0 : Matrix n n ℂ) (hks : List (Matrix n n ℂ)) (dt : ℝ) (cs : List (List ℝ))
    (hcs : cs ≠ []) (N : ℕ) (hN : 1 ≤ N) (bs : ℕ) (hbs : 1 ≤ bs) :
    pwc h0 hks (dt / N) (cs.flatMap (List.replicate N)) bs (Fold.stackFor (cs.length * N)) =
      pwc h0 hks dt cs bs (Fold.stackFor cs.length) := by
  have hlen : (cs.flatMap (List.replicate N)).length = cs.length * N := by
    simp [List.length_flatMap]
  have hne : cs.flatMap (List.replicate N) ≠ [] := by
    intro h
    have := congrArg List.length h
    rw [hlen] at this
    have : cs.length ≠ 0 := fun h => hcs (List.length_eq_zero_iff.1 h)
    simp_all
  have h1 := pwc_eq h0 hks (dt / N) _ hne bs hbs
  rw [hlen] at h1
  rw [h1, pwc_eq h0 hks dt cs hcs bs hbs]
  congr 1
  have key : ∀ c : List ℝ, (dUOfT h0 hks (dt / N) c) ^ N = dUOfT h0 hks dt c := by
    intro c
    have h := C23_slicing h0 hks dt c N hN 1 le_rfl
    have h' := pwc_eq h0 hks (dt / N) (List.replicate N c) (by simp; omega) 1 le_rfl
    rw [List.length_replicate, h] at h'
    rw [List.map_replicate, Fold.timeOrdered, List.reverse_replicate, List.prod_replicate] at h'
    exact (Option.some.inj h').symm
  clear h1 hne hlen hcs
  induction cs with
  | nil => rfl
  | cons c cs ih =>
    simp only [Fold.timeOrdered, List.flatMap_cons, List.map_append, List.reverse_append,
      List.prod_append, List.map_cons, List.reverse_cons, List.prod_cons, List.prod_nil,
      mul_one] at ih ⊢
    rw [ih, List.map_replicate, List.reverse_replicate, List.prod_replicate, key]

theorem pwcH_eq (dt : ℝ) (hs : List (Matrix n n ℂ)) (hne : hs ≠ []) (bs : ℕ) (hbs : 1 ≤ bs) :
    pwcH dt hs bs (Fold.stackFor hs.length) =
      some (Fold.timeOrdered (hs.map fun h => exp ((dt : ℂ) • (-Complex.I) • h))) := by
  unfold pwcH
  have : (propVectorizedH dt : List (Matrix n n ℂ) → _) =
      List.map fun h => exp ((dt : ℂ) • (-Complex.I) • h) := rfl
  rw [this, Fold.C20_batch_independent _ _ bs hbs]
  have h := Fold.C19_folded_product (hs.map fun h : Matrix n n ℂ =>
    exp ((dt : ℂ) • (-Complex.I) • h)) (by simpa using hne)
  rwa [List.length_map] at h

/-- **C23** (Hamiltonians given per slice): a constant Hamiltonian on `N` slices of length `T / N` gives
`exp(-i T H)`. -/
theorem C23_slicing_no_signals (H : Matrix n n ℂ) (T : ℝ) (N : ℕ) (hN : 1 ≤ N) (bs : ℕ) (hbs : 1 ≤ bs) :
    pwcH (T / N) (List.replicate N H) bs (Fold.stackFor N) = some (exp ((-(Complex.I * T)) • H)) := by
  have h := pwcH_eq (T / N) (List.replicate N H) (by simp; omega) bs hbs
  rw [List.length_replicate] at h
  rw [h]
  congr 1
  rw [List.map_replicate, Fold.timeOrdered, List.reverse_replicate, List.prod_replicate,
    ← Matrix.exp_nsmul]
  congr 1
  have hN' : (N : ℂ) ≠ 0 := by exact_mod_cast (by omega : N ≠ 0)
  rw [← Nat.cast_smul_eq_nsmul ℂ, smul_smul, smul_smul]
  congr 1
  push_cast
  field_simp

/-- **C23**: handing over control signals or the Hamiltonian of each slice gives the same gate. -/
theorem C23_paths_agree (h0 : Matrix n n ℂ) (hks : List (Matrix n n ℂ)) (dt : ℝ) (cs : List (List ℝ))
    (hcs : cs ≠ []) (bs bs' : ℕ) (hbs : 1 ≤ bs) (hbs' : 1 ≤ bs') :
    pwcH dt (cs.map fun c => h0 + ((c.zip hks).map fun p => (p.1 : ℂ) • p.2).sum) bs
        (Fold.stackFor cs.length) =
      pwc h0 hks dt cs bs' (Fold.stackFor cs.length) := by
  have h := pwcH_eq dt (cs.map fun c => h0 + ((c.zip hks).map fun p => (p.1 : ℂ) • p.2).sum)
    (by simpa using hcs) bs hbs
  rw [List.length_map] at h
  rw [h]
  unfold pwc
  have : (propVectorized h0 hks dt : List (List ℝ) → _) =
    List.map fun c => exp ((dt : ℂ) • (-Complex.I) • (h0 + ((c.zip hks).map fun p => (p.1 : ℂ) • p.2).sum)) :=
    rfl
  rw [this, Fold.C20_batch_independent _ _ bs' hbs']
  have h2 := Fold.C19_folded_product (cs.map fun c => exp ((dt : ℂ) • (-Complex.I) •
    (h0 + ((c.zip hks).map fun p => (p.1 : ℂ) • p.2).sum))) (by simpa using hcs)
  rw [List.length_map] at h2
  rw [h2, List.map_map]
  rfl

example : pwc (!![1, 0; 0, -1] : Matrix (Fin 2) (Fin 2) ℂ) [!![0, 1; 1, 0]] (3 / (5 : ℕ))
    (List.replicate 5 [2]) 2 (Fold.stackFor 5)
      = some (dUOfT !![1, 0; 0, -1] [!![0, 1; 1, 0]] 3 [2]) :=
  C23_slicing _ _ 3 [2] 5 (by norm_num) 2 (by norm_num)

end C3.Propagation
