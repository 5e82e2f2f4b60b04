import Verif.Experiment.WeakNoise
import Verif.Experiment.Resonant
import Verif.Hilbert.Balance

/-!
# C226: relaxation and dephasing while a register waits

Decay times of the components (`get_Lindbladian`, c3/libraries/chip.py:205-242, 425-467, the models of C40, C41 and C152) are
followed through `pwc` with collapse operators, `compute_propagators` and `evaluate_legacy` (models of C25, C68, C65 and
C199) to the populations and coherences after a sequence of gates whose signals are zero.
-/

set_option linter.unusedSectionVars false

noncomputable section

namespace C3.Experiment.Waiting

open Matrix NormedSpace C3.Propagation C3.Hilbert C3.Experiment C3.Experiment.Compute C3.Experiment.EndToEnd
  C3.Experiment.WeakNoise

variable {dims : List ℕ}

/-! ## Specification -/

/-- Nothing is played. -/
def Silent (ps : List (String × Pulse)) : Prop := ∀ g p, ps.lookup g = some p → ∀ row ∈ p.values, ∀ x ∈ row, x = 0

/-- The components do not interact: the drift Hamiltonian has only diagonal entries. -/
def Uncoupled (c : Chip dims) : Prop := ∃ e : Fin dims.prod → ℝ, c.h0 = diagonal fun j => (e j : ℂ)

/-- The collapse operators are those of the components (c3/model.py:446-451). -/
def FromComponents (c : Chip dims) (k : ℕ → Kind) (d : ℕ → Decay) : Prop :=
  (List.range dims.length).mapM (fun i => getLindbladian (k i) (d i) dims i) = some c.cols

/-- Mean number of excitations of subsystem `i` for given populations. -/
def mean (dims : List ℕ) (i : ℕ) (p : Fin dims.prod → ℝ) : ℝ := ∑ j, (levelAt dims i j : ℝ) * p j

/-! ## Lemmas -/

section

variable {n : Type} [Fintype n] [DecidableEq n]

theorem functional_lindOp (w : n × n → ℂ) (h : Matrix n n ℂ) (cols : List (Matrix n n ℂ)) (z : ℂ)
    (hw : ∀ rho, w ⬝ᵥ rowVec (masterRHS h cols rho) = z * (w ⬝ᵥ rowVec rho)) : w ᵥ* lindOp h cols = z • w := by
  refine dotProduct_eq _ _ fun v => ?_
  have e : v = rowVec (unRow v) := rfl
  rw [← Matrix.dotProduct_mulVec, e, lindOp_mulVec, hw, smul_dotProduct, smul_eq_mul]

/-- The dissipator of one collapse operator. -/
def diss (L rho : Matrix n n ℂ) : Matrix n n ℂ := L * rho * Lᴴ - (1 / 2 : ℂ) • (Lᴴ * L * rho + rho * (Lᴴ * L))

theorem masterRHS_zero (L rho : Matrix n n ℂ) : masterRHS 0 [L] rho = diss L rho := by
  simp [masterRHS, diss]

theorem masterRHS_parts (h : Matrix n n ℂ) (cols : List (Matrix n n ℂ)) (rho : Matrix n n ℂ) (w : n × n → ℂ) :
    w ⬝ᵥ rowVec (masterRHS h cols rho) = w ⬝ᵥ rowVec ((-Complex.I) • (h * rho - rho * h)) +
      (cols.map fun L => w ⬝ᵥ rowVec (diss L rho)).sum := by
  unfold masterRHS
  rw [rowVec_add, dotProduct_add]
  congr 1
  induction cols with
  | nil => simp [rowVec_zero]
  | cons L ls ih =>
    rw [List.map_cons, List.sum_cons, rowVec_add, dotProduct_add, ih, List.map_cons, List.sum_cons]
    rfl

end

theorem slices (w : Fin dims.prod × Fin dims.prod → ℂ) (h : Op dims) (cols : List (Op dims)) (z : ℂ)
    (hw : w ᵥ* lindOp h cols = z • w) (hks : List (Op dims)) (dt : ℝ) (cs : List (List ℝ)) (h0 : Op dims)
    (hh : ∀ c ∈ cs, hamAt h0 (c.zip hks) = h) :
    w ᵥ* Fold.timeOrdered (cs.map (dUOfTLind h0 hks cols dt)) = Complex.exp (z * (dt * cs.length : ℝ)) • w := by
  induction cs with
  | nil => simp [Fold.timeOrdered]
  | cons c cs ih =>
    have e : Fold.timeOrdered ((c :: cs).map (dUOfTLind h0 hks cols dt)) =
        Fold.timeOrdered (cs.map (dUOfTLind h0 hks cols dt)) * dUOfTLind h0 hks cols dt c := by
      simp [Fold.timeOrdered]
    have hs : w ᵥ* dUOfTLind h0 hks cols dt c = Complex.exp (dt * z) • w := by
      unfold dUOfTLind
      rw [hh c List.mem_cons_self]
      exact vecMul_exp w _ _ (by rw [Matrix.vecMul_smul, hw, smul_smul])
    rw [e, ← Matrix.vecMul_vecMul, ih fun c hc => hh c (List.mem_cons_of_mem _ hc), Matrix.smul_vecMul, hs, smul_smul,
      ← Complex.exp_add]
    congr 2
    rw [List.length_cons]
    push_cast
    ring

theorem silent_ham (h0 : Op dims) (hks : List (Op dims)) (c : List ℝ) (hc : ∀ x ∈ c, x = 0) : hamAt h0 (c.zip hks) = h0 := by
  rw [hamAt_eq_sum]
  have : ((c.zip hks).map fun p => (p.1 : ℂ) • p.2).sum = 0 := by
    refine List.sum_eq_zero fun x hx => ?_
    obtain ⟨p, hp, rfl⟩ := List.mem_map.1 hx
    rw [hc _ (List.of_mem_zip hp).1]
    simp
  rw [this, add_zero]

/-- The frame rotation is diagonal with phases. -/
theorem frame_diagonal (c : Chip dims) (hc : c.WF) (p : Pulse) (F : Op dims) (h : c.frame p = some F) :
    ∃ f : Fin dims.prod → ℂ, F = diagonal f ∧ ∀ i, f i * star (f i) = 1 := by
  have hok : FramesOk dims c.target p.shifts p.freqs := by
    intro l hl
    refine ⟨?_, ?_⟩
    · cases hs : p.shifts l.1 with
      | some x => exact ⟨x, rfl⟩
      | none =>
        have := C37_unknown dims c.target p.shifts p.t p.freqs l hl (Or.inr hs)
        unfold Chip.frame at h
        rw [this] at h
        simp at h
    · cases ht : c.target l.1 with
      | none =>
        have := C37_unknown dims c.target p.shifts p.t p.freqs l hl (Or.inl ht)
        unfold Chip.frame at h
        rw [this] at h
        simp at h
      | some q => exact ⟨q, hc.target _ _ ht, rfl⟩
  have h1 := C37_diagonal dims c.target p.shifts p.t p.freqs hok
  unfold Chip.frame at h
  rw [h1] at h
  have hu := frame_unitary c hc p F (by unfold Chip.frame; rw [h1, h])
  refine ⟨_, (Option.some.inj h).symm, fun i => ?_⟩
  rw [← Option.some.inj h, diagonal_conjTranspose, diagonal_mul_diagonal] at hu
  have := congrFun (congrFun hu i) i
  rw [diagonal_apply_eq, one_apply_eq] at this
  rw [mul_comm]
  exact this

/-- A functional on density vectors that waiting multiplies by a factor. -/
structure Mode (c : Chip dims) (w : Fin dims.prod × Fin dims.prod → ℂ) (z : ℂ) (M : Submonoid ℂ) : Prop where
  gen : w ᵥ* lindOp c.h0 c.cols = z • w
  frame : ∀ f : Fin dims.prod → ℂ, (∀ i, f i * star (f i) = 1) → ∃ u ∈ M, w ᵥ* tfSuper (diagonal f) = u • w

theorem mode_gate (c : Chip dims) (hc : c.WF) (ps : List (String × Pulse)) (hps : Silent ps)
    (w : Fin dims.prod × Fin dims.prod → ℂ) (z : ℂ) (M : Submonoid ℂ) (hm : Mode c w z M) (g : String) (S : SOp dims)
    (h : physical (opened c ps) (.name "pwc") g = .ok S) :
    ∃ u ∈ M, w ᵥ* S = (u * Complex.exp (z * (playTime ps g : ℝ))) • w := by
  obtain ⟨p, hks, S', hp, -, hU, hF⟩ := physical_opened c ps g S h
  have hv : p.values ≠ [] := by
    intro hv
    rw [hv, List.length_nil, pwcLind_empty c.h0 hks c.cols p.dt c.batch hc.batch] at hU
    simp at hU
  have hT : playTime ps g = p.dt * p.values.length := by unfold playTime; rw [hp]
  rw [pwcLind_eq c.h0 hks c.cols p.dt p.values hv c.batch hc.batch, Option.some.injEq] at hU
  have h1 := slices w c.h0 c.cols z hm.gen hks p.dt p.values c.h0 fun row hr => silent_ham _ _ _ (hps g p hp row hr)
  rw [hU, ← hT] at h1
  rcases hF with ⟨-, F, hF, rfl⟩ | ⟨-, rfl⟩
  · obtain ⟨f, rfl, hf⟩ := frame_diagonal c hc p F hF
    obtain ⟨u, hu, h2⟩ := hm.frame f hf
    exact ⟨u, hu, by rw [← Matrix.vecMul_vecMul, h2, Matrix.smul_vecMul, h1, smul_smul]⟩
  · exact ⟨1, one_mem _, by rw [h1, one_mul]⟩

theorem mode_seq (ps : List (String × Pulse)) (w : Fin dims.prod × Fin dims.prod → ℂ) (z : ℂ)
    (M : Submonoid ℂ) (Q : String → SOp dims) (seq : List String)
    (h : ∀ g ∈ seq, ∃ u ∈ M, w ᵥ* Q g = (u * Complex.exp (z * (playTime ps g : ℝ))) • w) :
    ∃ u ∈ M, w ᵥ* Fold.seqProp Q seq = (u * Complex.exp (z * ((seq.map (playTime ps)).sum : ℝ))) • w := by
  induction seq with
  | nil => exact ⟨1, one_mem _, by simp [Fold.seqProp, Fold.timeOrdered]⟩
  | cons g seq ih =>
    obtain ⟨u, hu, h1⟩ := ih fun g hg => h g (List.mem_cons_of_mem _ hg)
    obtain ⟨u', hu', h2⟩ := h g List.mem_cons_self
    have e : Fold.seqProp Q (g :: seq) = Fold.seqProp Q seq * Q g := by simp [Fold.seqProp, Fold.timeOrdered]
    refine ⟨u * u', mul_mem hu hu', ?_⟩
    rw [e, ← Matrix.vecMul_vecMul, h1, Matrix.smul_vecMul, h2, smul_smul]
    congr 1
    rw [List.map_cons, List.sum_cons, Complex.ofReal_add, mul_add, Complex.exp_add]
    ring

/-- The collapse operators, one for each component. -/
theorem components (c : Chip dims) (k : ℕ → Kind) (d : ℕ → Decay) (h : FromComponents c k d) :
    ∃ L : ℕ → Op dims, (∀ i < dims.length, getLindbladian (k i) (d i) dims i = some (L i)) ∧
      c.cols = (List.range dims.length).map L := by
  unfold FromComponents at h
  refine ⟨fun i => (getLindbladian (k i) (d i) dims i).getD 0, ?_⟩
  have key : ∀ (l : List ℕ) (cs : List (Op dims)), l.mapM (fun i => getLindbladian (k i) (d i) dims i) = some cs →
      (∀ i ∈ l, getLindbladian (k i) (d i) dims i = some ((getLindbladian (k i) (d i) dims i).getD 0)) ∧
        cs = l.map fun i => (getLindbladian (k i) (d i) dims i).getD 0 := by
    intro l
    induction l with
    | nil => intro cs h; simp at h; simp [← h]
    | cons a l ih =>
      intro cs h
      rw [List.mapM_cons] at h
      cases ha : getLindbladian (k a) (d a) dims a with
      | none => rw [ha] at h; simp at h
      | some A =>
        cases hl : l.mapM (fun i => getLindbladian (k i) (d i) dims i) with
        | none => rw [ha, hl] at h; simp at h
        | some B =>
          rw [ha, hl] at h
          obtain ⟨h1, h2⟩ := ih B hl
          have h' : A :: B = cs := by simpa using h
          refine ⟨fun i hi => ?_, ?_⟩
          · rcases List.mem_cons.1 hi with rfl | hi
            · rw [ha]; rfl
            · exact h1 i hi
          · rw [← h', List.map_cons, ha, h2]; rfl
  obtain ⟨h1, h2⟩ := key _ _ h
  exact ⟨fun i hi => h1 i (List.mem_range.2 hi), h2⟩

/-- The functional that reads the mean level off a density vector. -/
def levelForm (dims : List ℕ) (i : ℕ) : Fin dims.prod × Fin dims.prod → ℂ :=
  fun x => if x.1 = x.2 then (levelAt dims i x.1 : ℂ) else 0

theorem levelForm_dot (i : ℕ) (v : Fin dims.prod × Fin dims.prod → ℂ) :
    levelForm dims i ⬝ᵥ v = ∑ p, (levelAt dims i p : ℂ) * v (p, p) := by
  unfold dotProduct levelForm
  rw [Fintype.sum_prod_type]
  refine Finset.sum_congr rfl fun p _ => ?_
  rw [Finset.sum_eq_single p]
  · simp
  · intro q _ hq
    simp [hq.symm]
  · simp

theorem levelForm_mean (i : ℕ) (rho : Op dims) : levelForm dims i ⬝ᵥ rowVec rho = meanLevel dims i rho :=
  levelForm_dot i _

theorem commute_emb (dims : List ℕ) (i j : ℕ) (hi : i < dims.length) (hij : i ≠ j) (b : Arr ℂ) (hb : Fits b j dims) :
    Commute (emb b j dims) ((ann dims i)ᴴ * ann dims i) := by
  have h1 : Commute (ann dims i) (emb b j dims) := C32_commute _ _ i j dims (fits_annih dims i hi) hb hij
  have h2 : Commute ((ann dims i)ᴴ) (emb b j dims) := by
    rw [ann, C32_adjoint _ i dims (fits_annih dims i hi)]
    exact C32_commute _ _ i j dims ⟨hi, rfl, rfl⟩ hb hij
  exact (h2.mul_left h1).symm

/-- Decay of one component leaves the excitations of the others in place. -/
theorem commute_collapse (k : Kind) (d : Decay) (dims : List ℕ) (i j : ℕ) (hi : i < dims.length) (hj : j < dims.length)
    (hij : i ≠ j) (L : Op dims) (hL : getLindbladian k d dims j = some L) : Commute L ((ann dims i)ᴴ * ann dims i) := by
  have ha : Commute (ann dims j) ((ann dims i)ᴴ * ann dims i) := commute_emb dims i j hi hij _ (fits_annih dims j hj)
  have hs : Commute ((ann dims j)ᴴ) ((ann dims i)ᴴ * ann dims i) := by
    rw [ann, C32_adjoint _ j dims (fits_annih dims j hj)]
    exact commute_emb dims i j hi hij _ ⟨hj, rfl, rfl⟩
  have hall : ∀ A ∈ collapseList k d dims j, Commute A ((ann dims i)ᴴ * ann dims i) := by
    intro A hA
    unfold collapseList at hA
    rcases List.mem_append.1 hA with hA | hA
    · cases h1 : d.t1 with
      | none => rw [h1] at hA; simp at hA
      | some t1 =>
        rw [h1] at hA
        rcases List.mem_cons.1 hA with rfl | hA
        · exact ha.smul_left _
        · cases hT : tempUsed k d with
          | none => rw [hT] at hA; simp at hA
          | some T =>
            rw [hT] at hA
            rw [List.mem_singleton.1 hA]
            exact (hs.mul_left (commute_emb dims i j hi hij _ ⟨hj, rfl, rfl⟩)).smul_left _
    · cases h2 : d.t2star with
      | none => rw [h2] at hA; simp at hA
      | some t2 =>
        rw [h2] at hA
        rw [List.mem_singleton.1 hA]
        exact ((hs.mul_left ha).smul_left _).smul_left _
  unfold getLindbladian at hL
  split at hL
  · simp at hL
  · rw [← Option.some.inj hL]
    generalize collapseList k d dims j = l at hall
    clear hL
    induction l with
    | nil => exact Commute.zero_left _
    | cons A l ih =>
      rw [List.sum_cons]
      exact (hall A List.mem_cons_self).add_left (ih fun A hA => hall A (List.mem_cons_of_mem _ hA))

theorem diss_commute (i : ℕ) (hi : i < dims.length) (L rho : Op dims) (h : Commute L ((ann dims i)ᴴ * ann dims i)) :
    levelForm dims i ⬝ᵥ rowVec (diss L rho) = 0 := by
  rw [levelForm_mean, meanLevel_eq dims i hi]
  set N := (ann dims i)ᴴ * ann dims i
  have e1 : (N * (L * rho * Lᴴ)).trace = (N * (Lᴴ * L * rho)).trace := by
    have hN : Nᴴ = N := by simp [N]
    have h' : Commute Lᴴ N := by
      unfold Commute SemiconjBy
      rw [← hN, ← conjTranspose_mul, ← conjTranspose_mul, h.eq]
    rw [← Matrix.mul_assoc, Matrix.trace_mul_comm, ← Matrix.mul_assoc, ← Matrix.mul_assoc, h'.eq, ← Matrix.mul_assoc]
    simp only [Matrix.mul_assoc]
  have e2 : (N * (rho * (Lᴴ * L))).trace = (N * (Lᴴ * L * rho)).trace := by
    have hN : Nᴴ = N := by simp [N]
    have h' : Commute Lᴴ N := by
      unfold Commute SemiconjBy
      rw [← hN, ← conjTranspose_mul, ← conjTranspose_mul, h.eq]
    have h2 : Commute (Lᴴ * L) N := h'.mul_left h
    rw [← Matrix.mul_assoc, Matrix.trace_mul_comm, ← Matrix.mul_assoc, h2.eq, Matrix.mul_assoc]
  unfold diss
  rw [Matrix.mul_sub, Matrix.trace_sub, Matrix.mul_smul, Matrix.trace_smul, Matrix.mul_add, Matrix.trace_add, e1, e2]
  simp only [smul_eq_mul]
  ring

theorem sum_one (l : List ℕ) (hl : l.Nodup) (i : ℕ) (hi : i ∈ l) (f : ℕ → ℂ) (hf : ∀ j ∈ l, j ≠ i → f j = 0) :
    (l.map f).sum = f i := by
  induction l with
  | nil => simp at hi
  | cons a l ih =>
    rw [List.map_cons, List.sum_cons]
    rw [List.nodup_cons] at hl
    by_cases h : a = i
    · subst h
      rw [List.sum_eq_zero, add_zero]
      intro x hx
      obtain ⟨j, hj, rfl⟩ := List.mem_map.1 hx
      exact hf j (List.mem_cons_of_mem _ hj) fun e => hl.1 (e ▸ hj)
    · rw [hf a List.mem_cons_self h, zero_add]
      exact ih hl.2 ((List.mem_cons.1 hi).resolve_left (Ne.symm h)) fun j hj => hf j (List.mem_cons_of_mem _ hj)

theorem relaxRate_nonneg (k : Kind) (t1 : ℝ) (h : 0 < t1) : 0 ≤ relaxRate k t1 := by
  cases k <;> unfold relaxRate <;> positivity

theorem mode_level (c : Chip dims) (he : Uncoupled c) (k : ℕ → Kind) (d : ℕ → Decay) (hd : FromComponents c k d) (i : ℕ)
    (hi : i < dims.length) (t1 freq anhar : ℝ) (h1 : 0 < t1) (hdi : d i = onlyT1 t1 freq anhar) :
    Mode c (levelForm dims i) (-(relaxRate (k i) t1 : ℝ) : ℂ) ⊥ := by
  refine ⟨functional_lindOp _ _ _ _ fun rho => ?_, fun f hf => ⟨1, Submonoid.mem_bot.2 rfl, ?_⟩⟩
  · obtain ⟨L, hL, hcols⟩ := components c k d hd
    obtain ⟨e, he⟩ := he
    have hLi : L i = ((Real.sqrt (relaxRate (k i) t1) : ℝ) : ℂ) • ann dims i := by
      have := hL i hi
      rw [hdi, onlyT1_op] at this
      exact (Option.some.inj this).symm
    rw [masterRHS_parts, hcols, List.map_map, sum_one _ List.nodup_range i (List.mem_range.2 hi)
      ((fun L => levelForm dims i ⬝ᵥ rowVec (diss L rho)) ∘ L) fun j hj hji =>
        diss_commute i hi _ _ (commute_collapse _ _ dims i j hi (List.mem_range.1 hj) (Ne.symm hji) _
        (hL j (List.mem_range.1 hj)))]
    have hH : Commute c.h0 ((ann dims i)ᴴ * ann dims i) := by
      rw [he, ann_number dims i hi]
      unfold Commute SemiconjBy
      rw [diagonal_mul_diagonal, diagonal_mul_diagonal]
      simp only [mul_comm]
    have := relax_mean dims i hi _ (relaxRate_nonneg (k i) t1 h1) c.h0 rho hH
    rw [← levelForm_mean, ← levelForm_mean, masterRHS_parts, ← hLi] at this
    simpa using this
  · rw [one_smul]
    refine dotProduct_eq _ _ fun v => ?_
    rw [← Matrix.dotProduct_mulVec, levelForm_dot, levelForm_dot]
    refine Finset.sum_congr rfl fun p _ => ?_
    have hv : v = rowVec (unRow v) := rfl
    rw [hv]
    congr 1
    rw [C26_super_row]
    change (diagonal f * unRow v * (diagonal f)ᴴ) p p = unRow v p p
    rw [diagonal_conjTranspose, mul_diagonal, diagonal_mul, Pi.star_apply, mul_right_comm, hf p, one_mul]

/-- The functional that reads one entry of a density vector. -/
theorem single_dot (x : Fin dims.prod × Fin dims.prod) (v : Fin dims.prod × Fin dims.prod → ℂ) :
    (Pi.single x 1 : Fin dims.prod × Fin dims.prod → ℂ) ⬝ᵥ v = v x := by
  rw [single_dotProduct, one_mul]

/-- Numbers of modulus one. -/
def phases : Submonoid ℂ where
  carrier := {u | ‖u‖ = 1}
  one_mem' := norm_one
  mul_mem' := by
    intro a b ha hb
    change ‖a * b‖ = 1
    rw [norm_mul, ha, hb, one_mul]

/-- Only a dephasing time is given. -/
def onlyT2 (temp : Option ℝ) (t2 freq anhar : ℝ) : Decay := ⟨none, temp, some t2, freq, anhar⟩

/-- Decay rate of the coherence between two states: for each component the squared difference of levels over the
dephasing time. -/
def dephase (dims : List ℕ) (t2 : ℕ → ℝ) (p q : Fin dims.prod) : ℝ :=
  ((List.range dims.length).map fun i => ((levelAt dims i p : ℝ) - levelAt dims i q) ^ 2 / t2 i).sum

theorem mode_entry (c : Chip dims) (e : Fin dims.prod → ℝ) (he : c.h0 = diagonal fun j => (e j : ℂ)) (k : ℕ → Kind)
    (temp : ℕ → Option ℝ) (t2 freq anhar : ℕ → ℝ) (h2 : ∀ i < dims.length, 0 < t2 i)
    (hd : FromComponents c k fun i => onlyT2 (temp i) (t2 i) (freq i) (anhar i)) (p q : Fin dims.prod) :
    Mode c (Pi.single (p, q) 1) (-((dephase dims t2 p q : ℝ) : ℂ) - Complex.I * ((e p - e q : ℝ) : ℂ)) phases := by
  refine ⟨functional_lindOp _ _ _ _ fun rho => ?_, fun f hf => ⟨f p * star (f q), ?_, ?_⟩⟩
  · obtain ⟨L, hL, hcols⟩ := components c k _ hd
    rw [masterRHS_parts, hcols, List.map_map, single_dot, single_dot]
    have h1 : ∀ j ∈ List.range dims.length, ((fun L => (Pi.single (p, q) 1 : Fin dims.prod × Fin dims.prod → ℂ) ⬝ᵥ
        rowVec (diss L rho)) ∘ L) j = -((((levelAt dims j p : ℝ) - levelAt dims j q) ^ 2 / t2 j : ℝ) : ℂ) * rho p q := by
      intro j hj
      have hj := List.mem_range.1 hj
      obtain ⟨L', hL', h⟩ := C152_dephasing (k j) (t2 j) (freq j) (anhar j) (temp j) (h2 j hj) dims j hj rho p q
      have := hL j hj
      unfold onlyT2 at this
      rw [hL'] at this
      rw [Option.some.inj this, masterRHS_zero] at h
      rw [Function.comp_apply, single_dot]
      change diss (L j) rho p q = _
      rw [h]
      push_cast
      rfl
    rw [List.map_congr_left h1, he]
    have h3 : rowVec ((-Complex.I) • (diagonal (fun j => (e j : ℂ)) * rho - rho * diagonal fun j => (e j : ℂ))) (p, q) =
        -(Complex.I * ((e p - e q : ℝ) : ℂ)) * rho p q := by
      change (-Complex.I) * ((diagonal (fun j => (e j : ℂ)) * rho) p q - (rho * diagonal fun j => (e j : ℂ)) p q) = _
      rw [diagonal_mul, mul_diagonal]
      push_cast
      ring
    have h4 : ∀ l : List ℕ, (l.map fun j => -((((levelAt dims j p : ℝ) - levelAt dims j q) ^ 2 / t2 j : ℝ) : ℂ) *
        rho p q).sum = -(((l.map fun j => ((levelAt dims j p : ℝ) - levelAt dims j q) ^ 2 / t2 j).sum : ℝ) : ℂ) *
          rho p q := by
      intro l
      induction l with
      | nil => simp
      | cons a l ih =>
        rw [List.map_cons, List.sum_cons, ih, List.map_cons, List.sum_cons, Complex.ofReal_add]
        ring
    rw [h3, h4]
    change _ = _ * rho p q
    unfold dephase
    ring
  · change ‖f p * star (f q)‖ = 1
    have h1 : ∀ i, ‖f i‖ = 1 := by
      intro i
      have := congrArg norm (hf i)
      rw [norm_mul, norm_star, norm_one] at this
      nlinarith [norm_nonneg (f i)]
    rw [norm_mul, norm_star, h1, h1, one_mul]
  · rw [tfSuper_diagonal]
    funext x
    rw [vecMul_diagonal, Pi.smul_apply, smul_eq_mul]
    by_cases hx : x = (p, q)
    · subst hx; simp
    · simp [Pi.single_eq_of_ne hx]

theorem mode_pop (c : Chip dims) (e : Fin dims.prod → ℝ) (he : c.h0 = diagonal fun j => (e j : ℂ)) (k : ℕ → Kind)
    (temp : ℕ → Option ℝ) (t2 freq anhar : ℕ → ℝ) (h2 : ∀ i < dims.length, 0 < t2 i)
    (hd : FromComponents c k fun i => onlyT2 (temp i) (t2 i) (freq i) (anhar i)) (p : Fin dims.prod) :
    Mode c (Pi.single (p, p) 1) 0 ⊥ := by
  refine ⟨?_, fun f hf => ⟨1, Submonoid.mem_bot.2 rfl, ?_⟩⟩
  · have := (mode_entry c e he k temp t2 freq anhar h2 hd p p).gen
    have h0 : dephase dims t2 p p = 0 := by
      unfold dephase
      simp
    rw [this, h0]
    simp
  · rw [tfSuper_diagonal]
    funext x
    rw [vecMul_diagonal, one_smul]
    by_cases hx : x = (p, p)
    · subst hx
      rw [Pi.single_eq_same, one_mul]
      exact hf p
    · simp [Pi.single_eq_of_ne hx]

/-- A sequence of waiting gates, computed by the experiment. -/
theorem played (c : Chip dims) (hc : c.WF) (ps : List (String × Pulse)) (hps : Silent ps)
    (w : Fin dims.prod × Fin dims.prod → ℂ) (z : ℂ) (M : Submonoid ℂ) (hm : Mode c w z M) (t : Exp (SOp dims))
    (ht : t.propMethod = none) (hopt : t.optGates = none) (table : String → Option (SOp dims)) (t' : Exp (SOp dims))
    (h : compute (opened c ps) t = (.ok table, t')) (seq : List String) (hseq : ∀ g ∈ seq, g ∈ ps.map Prod.fst) :
    (∀ v, runSeq t'.propagators seq v = some (Fold.seqProp (fun g => (t'.propagators g).getD 1) seq *ᵥ v)) ∧
      ∃ u ∈ M, ∀ v, w ⬝ᵥ (Fold.seqProp (fun g => (t'.propagators g).getD 1) seq *ᵥ v) =
        u * Complex.exp (z * ((seq.map (playTime ps)).sum : ℝ)) * (w ⬝ᵥ v) := by
  have hg : ∀ g ∈ ps.map Prod.fst, ∃ S, physical (opened c ps) (.name "pwc") g = .ok S ∧ t'.propagators g = some S := by
    intro g hg
    have hg' : g ∈ t.optGates.getD (opened c ps).keys := by rw [hopt]; exact hg
    obtain ⟨S, h1, h2⟩ := (C68_selected (opened c ps) (opened_wf c ps) t ht table t' h g).1 hg'
    exact ⟨S, h1, by rw [(C68_stored _ t ht table t' h g).1, if_pos hg', h2]⟩
  refine ⟨fun v => runSeq_eq _ _ _ fun g hgs => let ⟨S, _, h⟩ := hg g (hseq g hgs); ⟨S, h⟩, ?_⟩
  obtain ⟨u, hu, h1⟩ := mode_seq ps w z M (fun g => (t'.propagators g).getD 1) seq fun g hgs => by
    obtain ⟨S, h1, h2⟩ := hg g (hseq g hgs)
    rw [h2]
    exact mode_gate c hc ps hps w z M hm g S h1
  exact ⟨u, hu, fun v => by rw [Matrix.dotProduct_mulVec, h1, smul_dotProduct, smul_eq_mul]⟩

theorem runSeq_all (c : Chip dims) (ps : List (String × Pulse)) (t : Exp (SOp dims))
    (ht : t.propMethod = none) (hopt : t.optGates = none) (table : String → Option (SOp dims)) (t' : Exp (SOp dims))
    (h : compute (opened c ps) t = (.ok table, t')) (seq : List String) (hseq : ∀ g ∈ seq, g ∈ ps.map Prod.fst)
    (v : Fin dims.prod × Fin dims.prod → ℂ) :
    runSeq t'.propagators seq v = some (Fold.seqProp (fun g => (t'.propagators g).getD 1) seq *ᵥ v) := by
  refine runSeq_eq _ _ _ fun g hg => ?_
  have hg' : g ∈ t.optGates.getD (opened c ps).keys := by rw [hopt]; exact hseq g hg
  obtain ⟨S, h1, h2⟩ := (C68_selected (opened c ps) (opened_wf c ps) t ht table t' h g).1 hg'
  exact ⟨S, by rw [(C68_stored _ t ht table t' h g).1, if_pos hg', h2]⟩

theorem mean_pops (i : ℕ) (v : Fin dims.prod × Fin dims.prod → ℂ) :
    mean dims i (popsOpen v) = (levelForm dims i ⬝ᵥ v).re := by
  rw [levelForm_dot, Complex.re_sum]
  refine Finset.sum_congr rfl fun j _ => ?_
  have : (levelAt dims i j : ℂ) = ((levelAt dims i j : ℝ) : ℂ) := by simp
  rw [this, Complex.re_ofReal_mul]
  rfl

theorem evaluate_all {n : Type} [Fintype n] [DecidableEq n] (props : String → Option (Matrix (n × n) (n × n) ℂ))
    (seqs : List (List String)) (v : n × n → ℂ) (f : List String → n × n → ℂ)
    (h : ∀ s ∈ seqs, runSeq props s v = some (f s)) :
    evaluateOpen props seqs v = some (seqs.map fun s => popsOpen (f s)) := by
  unfold evaluateOpen
  induction seqs with
  | nil => rfl
  | cons s l ih =>
    rw [List.mapM_cons, h s List.mem_cons_self, ih fun s hs => h s (List.mem_cons_of_mem _ hs)]
    rfl

/-! ## C226 -/

/-- **C226**: while an uncoupled register waits, the mean number of excitations of a component that has only a relaxation
time falls exponentially with the total length of the gates, at the rate of its collapse operator, whatever the decay
of the other components, the initial state and the frame rotations. -/
theorem C226_relaxation (c : Chip dims) (hc : c.WF) (he : Uncoupled c) (ps : List (String × Pulse)) (hps : Silent ps)
    (k : ℕ → Kind) (d : ℕ → Decay) (hd : FromComponents c k d) (i : ℕ) (hi : i < dims.length) (t1 freq anhar : ℝ)
    (h1 : 0 < t1) (hdi : d i = onlyT1 t1 freq anhar) (t : Exp (SOp dims)) (ht : t.propMethod = none)
    (hopt : t.optGates = none) (table : String → Option (SOp dims)) (t' : Exp (SOp dims))
    (h : compute (opened c ps) t = (.ok table, t')) (seqs : List (List String))
    (hseqs : ∀ seq ∈ seqs, ∀ g ∈ seq, g ∈ ps.map Prod.fst) (v : Fin dims.prod × Fin dims.prod → ℂ) :
    ∃ pops, evaluateOpen t'.propagators seqs v = some pops ∧ pops.length = seqs.length ∧
      ∀ (n : ℕ) (seq : List String) (p : Fin dims.prod → ℝ), seqs[n]? = some seq → pops[n]? = some p →
        mean dims i p = Real.exp (-relaxRate (k i) t1 * (seq.map (playTime ps)).sum) * mean dims i (popsOpen v) := by
  have hm := mode_level c he k d hd i hi t1 freq anhar h1 hdi
  refine ⟨_, evaluate_all t'.propagators seqs v (fun s => Fold.seqProp (fun g => (t'.propagators g).getD 1) s *ᵥ v)
    fun s hs => (played c hc ps hps _ _ _ hm t ht hopt table t' h s (hseqs s hs)).1 v, by simp, ?_⟩
  intro n seq p hn hp
  rw [List.getElem?_map, hn, Option.map_some, Option.some.injEq] at hp
  subst hp
  obtain ⟨-, u, hu, h3⟩ := played c hc ps hps _ _ _ hm t ht hopt table t' h seq (hseqs seq (List.mem_of_getElem? hn))
  rw [Submonoid.mem_bot.1 hu] at h3
  have e : (1 : ℂ) * Complex.exp (-((relaxRate (k i) t1 : ℝ) : ℂ) * ((seq.map (playTime ps)).sum : ℝ)) =
      ((Real.exp (-relaxRate (k i) t1 * (seq.map (playTime ps)).sum) : ℝ) : ℂ) := by
    push_cast
    rw [one_mul]
  rw [mean_pops, mean_pops, h3, e, Complex.re_ofReal_mul]

/-- C226 for qubits, partial since transmons behave differently (`C226_false_transmon`): a waiting qubit
keeps the fraction `exp(-t/T1)` of its excitations after the time `t`. -/
theorem C226_qubit_partial (c : Chip dims) (hc : c.WF) (he : Uncoupled c) (ps : List (String × Pulse)) (hps : Silent ps)
    (k : ℕ → Kind) (d : ℕ → Decay) (hd : FromComponents c k d) (i : ℕ) (hi : i < dims.length) (t1 freq anhar : ℝ)
    (h1 : 0 < t1) (hk : k i = .qubit) (hdi : d i = onlyT1 t1 freq anhar) (t : Exp (SOp dims)) (ht : t.propMethod = none)
    (hopt : t.optGates = none) (table : String → Option (SOp dims)) (t' : Exp (SOp dims))
    (h : compute (opened c ps) t = (.ok table, t')) (seqs : List (List String))
    (hseqs : ∀ seq ∈ seqs, ∀ g ∈ seq, g ∈ ps.map Prod.fst) (v : Fin dims.prod × Fin dims.prod → ℂ) :
    ∃ pops, evaluateOpen t'.propagators seqs v = some pops ∧ pops.length = seqs.length ∧
      ∀ (n : ℕ) (seq : List String) (p : Fin dims.prod → ℝ), seqs[n]? = some seq → pops[n]? = some p →
        mean dims i p = Real.exp (-(seq.map (playTime ps)).sum / t1) * mean dims i (popsOpen v) := by
  obtain ⟨pops, h2, h3, h4⟩ := C226_relaxation c hc he ps hps k d hd i hi t1 freq anhar h1 hdi t ht hopt table t' h seqs
    hseqs v
  refine ⟨pops, h2, h3, fun n seq p hn hp => ?_⟩
  rw [h4 n seq p hn hp, hk]
  congr 2
  unfold relaxRate
  ring

/-- C226 fails for transmons: a waiting transmon keeps more than the fraction `exp(-t/T1)`, namely `exp(-t/(2 T1))`. -/
theorem C226_false_transmon (c : Chip dims) (hc : c.WF) (he : Uncoupled c) (ps : List (String × Pulse)) (hps : Silent ps)
    (k : ℕ → Kind) (d : ℕ → Decay) (hd : FromComponents c k d) (i : ℕ) (hi : i < dims.length) (t1 freq anhar : ℝ)
    (h1 : 0 < t1) (hk : k i = .transmon) (hdi : d i = onlyT1 t1 freq anhar) (t : Exp (SOp dims))
    (ht : t.propMethod = none) (hopt : t.optGates = none) (table : String → Option (SOp dims)) (t' : Exp (SOp dims))
    (h : compute (opened c ps) t = (.ok table, t')) (seqs : List (List String))
    (hseqs : ∀ seq ∈ seqs, ∀ g ∈ seq, g ∈ ps.map Prod.fst) (v : Fin dims.prod × Fin dims.prod → ℂ)
    (hv : 0 < mean dims i (popsOpen v)) :
    ∃ pops, evaluateOpen t'.propagators seqs v = some pops ∧ pops.length = seqs.length ∧
      ∀ (n : ℕ) (seq : List String) (p : Fin dims.prod → ℝ), seqs[n]? = some seq → pops[n]? = some p →
        mean dims i p = Real.exp (-(seq.map (playTime ps)).sum / (2 * t1)) * mean dims i (popsOpen v) ∧
        (0 < (seq.map (playTime ps)).sum →
          Real.exp (-(seq.map (playTime ps)).sum / t1) * mean dims i (popsOpen v) < mean dims i p) := by
  obtain ⟨pops, h2, h3, h4⟩ := C226_relaxation c hc he ps hps k d hd i hi t1 freq anhar h1 hdi t ht hopt table t' h seqs
    hseqs v
  refine ⟨pops, h2, h3, fun n seq p hn hp => ?_⟩
  have e : mean dims i p = Real.exp (-(seq.map (playTime ps)).sum / (2 * t1)) * mean dims i (popsOpen v) := by
    rw [h4 n seq p hn hp, hk]
    congr 2
    unfold relaxRate
    field_simp
    ring
  refine ⟨e, fun hT => ?_⟩
  rw [e]
  refine mul_lt_mul_of_pos_right (Real.exp_lt_exp.2 ?_) hv
  rw [neg_div, neg_div, neg_lt_neg_iff]
  exact div_lt_div_of_pos_left hT h1 (by linarith)

/-- **C226**: while an uncoupled register with dephasing times only waits, populations stay and every entry of the density
matrix falls exponentially in modulus: at the rate `1/T2*` for a coherence between neighbouring levels of one component,
with the square of the difference of levels in general, and the rates of the components add up. -/
theorem C226_dephasing (c : Chip dims) (hc : c.WF) (he : Uncoupled c) (ps : List (String × Pulse)) (hps : Silent ps)
    (k : ℕ → Kind) (temp : ℕ → Option ℝ) (t2 freq anhar : ℕ → ℝ) (h2 : ∀ i < dims.length, 0 < t2 i)
    (hd : FromComponents c k fun i => onlyT2 (temp i) (t2 i) (freq i) (anhar i)) (t : Exp (SOp dims))
    (ht : t.propMethod = none) (hopt : t.optGates = none) (table : String → Option (SOp dims)) (t' : Exp (SOp dims))
    (h : compute (opened c ps) t = (.ok table, t')) (seq : List String) (hseq : ∀ g ∈ seq, g ∈ ps.map Prod.fst)
    (v : Fin dims.prod × Fin dims.prod → ℂ) :
    ∃ v', runSeq t'.propagators seq v = some v' ∧
      ∀ p q, ‖vecToDm v' p q‖ = Real.exp (-dephase dims t2 p q * (seq.map (playTime ps)).sum) * ‖vecToDm v p q‖ := by
  obtain ⟨e, he⟩ := he
  have hm := mode_entry c e he k temp t2 freq anhar h2 hd
  have key := fun p q => played c hc ps hps _ _ _ (hm p q) t ht hopt table t' h seq hseq
  refine ⟨Fold.seqProp (fun g => (t'.propagators g).getD 1) seq *ᵥ v, ?_, fun p q => ?_⟩
  · exact runSeq_all c ps t ht hopt table t' h seq hseq v
  · obtain ⟨-, u, hu, h3⟩ := key q p
    have h4 := congrArg norm (h3 v)
    have hu' : ‖u‖ = 1 := hu
    rw [single_dot, single_dot, norm_mul, norm_mul, hu', one_mul, Complex.norm_exp] at h4
    change ‖(Fold.seqProp (fun g => (t'.propagators g).getD 1) seq *ᵥ v) (q, p)‖ = _ * ‖v (q, p)‖
    rw [h4]
    congr 2
    have hs : dephase dims t2 q p = dephase dims t2 p q := by
      unfold dephase
      congr 1
      refine List.map_congr_left fun i _ => ?_
      ring
    rw [hs]
    simp

/-- C226: in this situation populations stay as they are. -/
theorem C226_kept (c : Chip dims) (hc : c.WF) (he : Uncoupled c) (ps : List (String × Pulse)) (hps : Silent ps)
    (k : ℕ → Kind) (temp : ℕ → Option ℝ) (t2 freq anhar : ℕ → ℝ) (h2 : ∀ i < dims.length, 0 < t2 i)
    (hd : FromComponents c k fun i => onlyT2 (temp i) (t2 i) (freq i) (anhar i)) (t : Exp (SOp dims))
    (ht : t.propMethod = none) (hopt : t.optGates = none) (table : String → Option (SOp dims)) (t' : Exp (SOp dims))
    (h : compute (opened c ps) t = (.ok table, t')) (seqs : List (List String))
    (hseqs : ∀ seq ∈ seqs, ∀ g ∈ seq, g ∈ ps.map Prod.fst) (v : Fin dims.prod × Fin dims.prod → ℂ) :
    evaluateOpen t'.propagators seqs v = some (seqs.map fun _ => popsOpen v) := by
  obtain ⟨e, he⟩ := he
  have hm := mode_pop c e he k temp t2 freq anhar h2 hd
  rw [evaluate_all t'.propagators seqs v (fun s => Fold.seqProp (fun g => (t'.propagators g).getD 1) s *ᵥ v)
    fun s hs => runSeq_all c ps t ht hopt table t' h s (hseqs s hs) v]
  congr 1
  refine List.map_congr_left fun s hs => ?_
  funext p
  obtain ⟨-, u, hu, h3⟩ := played c hc ps hps _ _ _ (hm p) t ht hopt table t' h s (hseqs s hs)
  have h4 := h3 v
  rw [Submonoid.mem_bot.1 hu, single_dot, single_dot, zero_mul, Complex.exp_zero, one_mul, one_mul] at h4
  exact congrArg Complex.re h4

/-- C226: qubits without couplings make such a register. -/
theorem C226_uncoupled (dims : List ℕ) (ω δ : ℕ → ℝ) (sub line : ℕ → String) (target : String → Option ℕ) (batch : ℕ)
    (cols : List (Op dims)) : Uncoupled { Resonant.chipOf dims ω δ sub line target batch with cols := cols } :=
  ⟨_, Resonant.h0_eq dims ω δ sub line target batch⟩

/-! ## Example -/

/-- A qubit with three levels and a relaxation time, next to one with a dephasing time. -/
def exPair : Chip [3, 2] :=
  { Resonant.chipOf [3, 2] (fun _ => 5) (fun _ => -1) (fun k => s!"q{k}") (fun k => s!"d{k}") (fun _ => some 0) 1 with
    cols := [((Real.sqrt (relaxRate .qubit 2) : ℝ) : ℂ) • ann [3, 2] 0,
      ((Real.sqrt (0.5 / 4) : ℝ) : ℂ) • ((2 : ℂ) • ((ann [3, 2] 1)ᴴ * ann [3, 2] 1))] }

theorem exPair_wf : exPair.WF := by
  refine ⟨?_, ?_, le_rfl⟩
  · intro l hl
    obtain ⟨k, hk, rfl⟩ := List.mem_map.1 hl
    intro i hi
    rw [List.mem_singleton.1 hi]
    exact List.mem_range.1 hk
  · intro l q h
    cases h
    decide

theorem mean_basis (i : ℕ) (k : Fin dims.prod) :
    mean dims i (popsOpen (dmToVec (diagonal (Pi.single k 1)))) = levelAt dims i k := by
  have h : ∀ j, popsOpen (dmToVec (diagonal (Pi.single k 1))) j = ((Pi.single k 1 : Fin dims.prod → ℂ) j).re := by
    intro j
    change ((diagonal (Pi.single k 1 : Fin dims.prod → ℂ)) j j).re = _
    rw [diagonal_apply_eq]
  unfold mean
  rw [Finset.sum_eq_single k]
  · rw [h, Pi.single_eq_same, Complex.one_re, mul_one]
  · intro j _ hj
    rw [h, Pi.single_eq_of_ne hj, Complex.zero_re, mul_zero]
  · exact fun hk => absurd (Finset.mem_univ k) hk

/-- The example: waiting for two gates of length 3. -/
example : ∃ (t' : Exp (SOp [3, 2])) (pops : List (Fin [3, 2].prod → ℝ)) (p : Fin [3, 2].prod → ℝ),
    evaluateOpen t'.propagators [["id", "id"]] (dmToVec (diagonal (Pi.single ⟨2, by decide⟩ 1))) = some pops ∧
      pops[0]? = some p ∧ mean [3, 2] 0 p = Real.exp (-3) := by
  let ps : List (String × Pulse) := [("id", ⟨[], [[], [], []], 1, [("d0", 5)], fun _ => some 0, 3⟩)]
  have hps : Silent ps := by
    intro g p hp row hr x hx
    have hg : (ps.lookup g).isSome := by rw [hp]; rfl
    have : ps.lookup g = some ⟨[], [[], [], []], 1, [("d0", 5)], fun _ => some 0, 3⟩ := by
      simp only [ps, List.lookup_cons, List.lookup_nil] at hp ⊢
      split at hp
      · rfl
      · simp at hp
    rw [this] at hp
    cases hp
    simp at hr
    subst hr
    simp at hx
  obtain ⟨V, h⟩ := C199_computed exPair exPair_wf ps "id" _ rfl (by simp) (by simp)
    (fun l _ => ⟨⟨0, rfl⟩, 0, by simp, rfl⟩)
  obtain ⟨S, h1, -⟩ := C225_gates exPair exPair_wf ps "id" (by
    intro p hp
    cases hp
    norm_num) V h
  let t : Exp (SOp [3, 2]) := ⟨none, .name "pwc", none, none, false, fun _ => none⟩
  obtain ⟨table, t', ht⟩ := (C68_succeeds_iff (opened exPair ps) (opened_wf exPair ps) t rfl).2 (by
    intro g hg
    have : g = "id" := by simpa [t, ps, opened] using hg
    rw [this]
    exact ⟨S, h1⟩)
  obtain ⟨pops, h2, h3, h4⟩ := C226_qubit_partial exPair exPair_wf (C226_uncoupled ..) ps hps (fun _ => .qubit)
    (fun i => if i = 0 then onlyT1 2 5 (-1) else onlyT2 none 4 5 (-1)) (by
      unfold FromComponents
      have e0 := onlyT1_op .qubit 2 5 (-1) [3, 2] 0
      have e1 : getLindbladian .qubit (onlyT2 none 4 5 (-1)) [3, 2] 1 =
          some (((Real.sqrt (0.5 / 4) : ℝ) : ℂ) • ((2 : ℂ) • ((ann [3, 2] 1)ᴴ * ann [3, 2] 1))) := by
        unfold getLindbladian collapseList onlyT2
        dsimp only
        rw [List.nil_append, if_neg (List.cons_ne_nil _ _), List.sum_singleton]
      have hr : List.range [3, 2].length = [0, 1] := rfl
      rw [hr, List.mapM_cons, List.mapM_cons, List.mapM_nil]
      dsimp only
      rw [if_pos rfl, if_neg (by decide), e0, e1]
      rfl) 0 (by simp) 2 5 (-1) (by norm_num) rfl rfl t rfl rfl table t' ht [["id", "id"]] (by simp [ps])
    (dmToVec (diagonal (Pi.single ⟨2, by decide⟩ 1)))
  have hl : pops.length = 1 := h3
  obtain ⟨p, rfl⟩ := List.length_eq_one_iff.1 hl
  refine ⟨t', [p], p, h2, rfl, ?_⟩
  rw [h4 0 ["id", "id"] p rfl rfl]
  have hT : (["id", "id"].map (playTime ps)).sum = 6 := by
    have : playTime ps "id" = 1 * (3 : ℕ) := rfl
    simp only [List.map_cons, List.map_nil, List.sum_cons, List.sum_nil, this]
    norm_num
  have hv : mean [3, 2] 0 (popsOpen (dmToVec (diagonal (Pi.single ⟨2, by decide⟩ 1)))) = 1 := by
    rw [mean_basis]
    have : levelAt [3, 2] 0 ⟨2, by decide⟩ = 1 := by decide
    rw [this, Nat.cast_one]
  rw [hT, hv, mul_one]
  norm_num

end C3.Experiment.Waiting
