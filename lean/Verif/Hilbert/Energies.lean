import Verif.Hilbert.System

/-!
# C150: matrix elements of the model Hamiltonians

What the drift and the control Hamiltonians of a model (c3/model.py:430-444) are, written down with occupation
numbers only: energies of the levels, matrix elements of couplings and of drives.
-/

set_option linter.unusedSectionVars false

namespace C3.Hilbert

open Matrix Finset

/-! ## Specification: matrix elements between occupation numbers -/

/-- `⟨x| a† + a |y⟩`. -/
noncomputable def xLev (x y : ℕ) : ℂ :=
  if y = x + 1 then ((Real.sqrt y : ℝ) : ℂ) else if x = y + 1 then ((Real.sqrt x : ℝ) : ℂ) else 0

/-- `⟨x| i (a† - a) |y⟩`. -/
noncomputable def yLev (x y : ℕ) : ℂ :=
  if y = x + 1 then -Complex.I * ((Real.sqrt y : ℝ) : ℂ)
  else if x = y + 1 then Complex.I * ((Real.sqrt x : ℝ) : ℂ) else 0

/-- Harmonic levels. -/
noncomputable def nLev (x y : ℕ) : ℂ := if x = y then (x : ℂ) else 0

/-- `n (n - 1) / 2`. -/
noncomputable def duffLev (x y : ℕ) : ℂ := if x = y then (x : ℂ) * ((x : ℂ) - 1) / 2 else 0

/-- `⟨x| a† a a + a† a† a |y⟩`. -/
noncomputable def thirdLev (x y : ℕ) : ℂ :=
  if y = x + 1 then (x : ℂ) * ((Real.sqrt y : ℝ) : ℂ)
  else if x = y + 1 then ((Real.sqrt x : ℝ) : ℂ) * (y : ℂ) else 0

/-- Matrix elements of a drive function. -/
noncomputable def DriveFun.lev : DriveFun → ℕ → ℕ → ℂ
  | .x => xLev
  | .y => yLev
  | .z => nLev
  | .res => nLev
  | .duff => duffLev
  | .third => thirdLev

/-- Matrix elements of an interaction: product of those of its factors. -/
noncomputable def IntFun.lev : IntFun → ℕ → ℕ → ℂ
  | .xx => xLev
  | .yy => yLev

/-- Matrix elements of a chip element between its own levels: `n ω + n(n-1)/2 δ`, for a transmon with the
flux-dependent frequency, for a SNAIL with the cubic term. The number of levels does not enter. -/
noncomputable def Sub.lev : Sub → ℕ → ℕ → ℂ
  | .qubit _ freq anhar => fun x y => freq * nLev x y + anhar * duffLev x y
  | .res freq => fun x y => freq * nLev x y
  | .transmon _ freq anhar phi phi0 d => fun x y =>
    (((freq - anhar) * Real.sqrt (Real.sqrt (Real.cos (Real.pi * phi / phi0) ^ 2 +
      d ^ 2 * Real.sin (Real.pi * phi / phi0) ^ 2)) + anhar : ℝ) : ℂ) * nLev x y + anhar * duffLev x y
  | .snail _ freq anhar beta => fun x y => freq * nLev x y + anhar * duffLev x y + beta * thirdLev x y

/-- The number of levels an element was declared with. -/
def Sub.dim? : Sub → Option ℕ
  | .qubit d .. => some d
  | .res _ => none
  | .transmon d .. => some d
  | .snail d .. => some d

/-- `op` acts on position `i` of the label only. -/
noncomputable def local1 (n i : ℕ) (op : ℕ → ℕ → ℂ) (l m : List ℕ) : ℂ :=
  if ∀ t < n, t ≠ i → l.getD t 0 = m.getD t 0 then op (l.getD i 0) (m.getD i 0) else 0

/-- `op` acts on the positions `i` and `j`. -/
noncomputable def local2 (n i j : ℕ) (op op' : ℕ → ℕ → ℂ) (l m : List ℕ) : ℂ :=
  if ∀ t < n, t ≠ i → t ≠ j → l.getD t 0 = m.getD t 0 then
    op (l.getD i 0) (m.getD i 0) * op' (l.getD j 0) (m.getD j 0) else 0

/-- The matrix element of a coupling; other lines do not contribute to the drift. -/
noncomputable def Line.driftElem (n : ℕ) (l m : List ℕ) : Line → ℂ
  | .coupling f s c₁ c₂ => s * local2 n c₁ c₂ f.lev f.lev l m
  | _ => 0

/-- The matrix element of a control Hamiltonian. -/
noncomputable def Line.controlElem (n : ℕ) (l m : List ℕ) : Line → ℂ
  | .coupling .. => 0
  | .drive f conn => (conn.map fun i => local1 n i f.lev l m).sum
  | .couplingDrive f c₁ c₂ => local2 n c₁ c₂ f.lev f.lev l m

/-- Interactions connect two different elements. -/
def Line.Proper : Line → Prop
  | .coupling _ _ c₁ c₂ => c₁ ≠ c₂
  | .drive .. => True
  | .couplingDrive _ c₁ c₂ => c₁ ≠ c₂

/-! ## Operators of one element -/

/-- The operator with the given matrix elements, embedded. -/
def IsLocal (dims : List ℕ) (i : ℕ) (op : ℕ → ℕ → ℂ) (A : Matrix (Fin dims.prod) (Fin dims.prod) ℂ) : Prop :=
  A = emb ⟨dims.getD i 0, dims.getD i 0, op⟩ i dims

theorem IsLocal.apply {dims : List ℕ} {i : ℕ} {op : ℕ → ℕ → ℂ} {A : Matrix (Fin dims.prod) (Fin dims.prod) ℂ}
    (h : IsLocal dims i op A) (hi : i < dims.length) (l m : List ℕ) (hl : Valid dims l) (hm : Valid dims m) :
    A ⟨flat dims l, flat_lt hl⟩ ⟨flat dims m, flat_lt hm⟩ = local1 dims.length i op l m := by
  have h' : A = emb ⟨dims.getD i 0, dims.getD i 0, op⟩ i dims := h
  rw [h', emb_apply _ i dims ⟨hi, rfl, rfl⟩ l m hl hm]
  rfl

/-- Two operators on different elements. -/
theorem IsLocal.mul_apply {dims : List ℕ} {i j : ℕ} {op op' : ℕ → ℕ → ℂ}
    {A B : Matrix (Fin dims.prod) (Fin dims.prod) ℂ} (h : IsLocal dims i op A) (h' : IsLocal dims j op' B)
    (hi : i < dims.length) (hj : j < dims.length) (hij : i ≠ j) (l m : List ℕ) (hl : Valid dims l)
    (hm : Valid dims m) :
    (A * B) ⟨flat dims l, flat_lt hl⟩ ⟨flat dims m, flat_lt hm⟩ = local2 dims.length i j op op' l m := by
  have e : A = emb ⟨dims.getD i 0, dims.getD i 0, op⟩ i dims := h
  have e' : B = emb ⟨dims.getD j 0, dims.getD j 0, op'⟩ j dims := h'
  rw [e, e', emb_mul_apply _ _ i j dims ⟨hi, rfl, rfl⟩ ⟨hj, rfl, rfl⟩ l m hl hm]
  have hfac : ∀ t ∈ range dims.length, (∑ x ∈ range (dims.getD t 0),
      (if t = i then (⟨dims.getD i 0, dims.getD i 0, op⟩ : Arr ℂ) else eye (dims.getD t 0) (dims.getD t 0)).e
        (l.getD t 0) x *
      (if t = j then (⟨dims.getD j 0, dims.getD j 0, op'⟩ : Arr ℂ) else eye (dims.getD t 0) (dims.getD t 0)).e
        x (m.getD t 0)) =
      if t = i then op (l.getD i 0) (m.getD i 0) else if t = j then op' (l.getD j 0) (m.getD j 0)
        else if l.getD t 0 = m.getD t 0 then 1 else 0 := by
    intro t ht
    rw [mem_range] at ht
    have hlt := valid_getD hl t ht
    have hmt := valid_getD hm t ht
    by_cases h1 : t = i
    · subst h1
      simp only [if_true, if_neg hij]
      exact sum_eye_right _ _ (fun x => op (l.getD t 0) x) hmt _ _
    · by_cases h2 : t = j
      · subst h2
        simp only [if_neg h1, if_true]
        exact sum_eye_left _ _ (fun x => op' x (m.getD t 0)) hlt _ _
      · simp only [if_neg h1, if_neg h2]
        rw [sum_eye_left _ _ (fun x => (eye (R := ℂ) (dims.getD t 0) (dims.getD t 0)).e x (m.getD t 0)) hlt]
        rfl
  rw [prod_congr rfl hfac]
  unfold local2
  split
  · next hag =>
    rw [prod_eq_mul i j hij]
    · simp [hij.symm]
    · intro t ht hne
      rw [mem_range] at ht
      rw [if_neg hne.1, if_neg hne.2, if_pos (hag t ht hne.1 hne.2)]
    · intro hni
      exact absurd (mem_range.2 hi) hni
    · intro hnj
      exact absurd (mem_range.2 hj) hnj
  · next hag =>
    push Not at hag
    obtain ⟨t, ht, h1, h2, h3⟩ := hag
    apply prod_eq_zero (mem_range.2 ht)
    rw [if_neg h1, if_neg h2, if_neg h3]

theorem local_of_apply {dims : List ℕ} {i : ℕ} {op : ℕ → ℕ → ℂ} {A : Matrix (Fin dims.prod) (Fin dims.prod) ℂ}
    (hi : i < dims.length) (h : ∀ l m (hl : Valid dims l) (hm : Valid dims m),
      A ⟨flat dims l, flat_lt hl⟩ ⟨flat dims m, flat_lt hm⟩ = local1 dims.length i op l m) :
    IsLocal dims i op A := by
  apply ext_labels
  intro l m hl hm
  rw [h l m hl hm, emb_apply _ i dims ⟨hi, rfl, rfl⟩ l m hl hm]
  rfl

theorem ann_conj_apply (dims : List ℕ) (i : ℕ) (h : i < dims.length) (l m : List ℕ)
    (hl : Valid dims l) (hm : Valid dims m) :
    (ann dims i)ᴴ ⟨flat dims l, flat_lt hl⟩ ⟨flat dims m, flat_lt hm⟩ =
      if AgreeOff dims.length i l m ∧ l.getD i 0 = m.getD i 0 + 1 then
        ((Real.sqrt (l.getD i 0 : ℕ) : ℝ) : ℂ) else 0 := by
  rw [Matrix.conjTranspose_apply, C33_annihilator dims i h m l hm hl]
  have hag : AgreeOff dims.length i m l ↔ AgreeOff dims.length i l m :=
    ⟨fun h t ht hti => (h t ht hti).symm, fun h t ht hti => (h t ht hti).symm⟩
  by_cases hc : AgreeOff dims.length i l m ∧ l.getD i 0 = m.getD i 0 + 1
  · rw [if_pos ⟨hag.2 hc.1, hc.2⟩, if_pos hc]
    simp
  · rw [if_neg (fun h => hc ⟨hag.1 h.1, h.2⟩), if_neg hc, star_zero]

theorem diag_local {dims : List ℕ} {i : ℕ} (hi : i < dims.length) (f : ℕ → ℂ) :
    IsLocal dims i (fun x y => if x = y then f x else 0) (Matrix.diagonal fun p => f (levelAt dims i p)) :=
  (emb_diagonal _ f i dims ⟨hi, rfl, rfl⟩ fun _ _ _ _ => rfl).symm

theorem agree_iff (n i : ℕ) (l m : List ℕ) :
    AgreeOff n i l m ↔ ∀ t < n, t ≠ i → l.getD t 0 = m.getD t 0 := Iff.rfl

/-- Every library function of one annihilator has the matrix elements of the specification. -/
theorem drive_local (dims : List ℕ) (i : ℕ) (hi : i < dims.length) (f : DriveFun) :
    IsLocal dims i f.lev (f.ham (ann dims i)) := by
  cases f with
  | x =>
    refine local_of_apply hi fun l m hl hm => ?_
    simp only [DriveFun.ham, DriveFun.lev, xDrive, Matrix.add_apply, ann_conj_apply dims i hi l m hl hm,
      C33_annihilator dims i hi l m hl hm, local1, xLev, ← agree_iff]
    by_cases hag : AgreeOff dims.length i l m
    · simp only [hag, true_and, if_true]
      by_cases h1 : m.getD i 0 = l.getD i 0 + 1
      · rw [if_neg (by omega), if_pos h1, zero_add]
      · rw [if_neg h1, if_neg h1, add_zero]
    · simp [hag]
  | y =>
    refine local_of_apply hi fun l m hl hm => ?_
    simp only [DriveFun.ham, DriveFun.lev, yDrive, Matrix.smul_apply, Matrix.sub_apply,
      ann_conj_apply dims i hi l m hl hm, C33_annihilator dims i hi l m hl hm, local1, yLev, ← agree_iff,
      smul_eq_mul]
    by_cases hag : AgreeOff dims.length i l m
    · simp only [hag, true_and, if_true]
      by_cases h1 : m.getD i 0 = l.getD i 0 + 1
      · rw [if_neg (by omega), if_pos h1, if_pos h1]
        ring
      · rw [if_neg h1, if_neg h1]
        split <;> ring
    · simp [hag]
  | z =>
    simp only [DriveFun.ham, DriveFun.lev]
    rw [C33_z_drive dims i hi]
    exact diag_local hi fun x => (x : ℂ)
  | res =>
    simp only [DriveFun.ham, DriveFun.lev]
    rw [C33_resonator dims i hi]
    exact diag_local hi fun x => (x : ℂ)
  | duff =>
    simp only [DriveFun.ham, DriveFun.lev]
    rw [C33_duffing dims i hi]
    exact diag_local hi fun x => (x : ℂ) * ((x : ℂ) - 1) / 2
  | third =>
    refine local_of_apply hi fun l m hl hm => ?_
    simp only [DriveFun.ham, DriveFun.lev, thirdOrder]
    rw [ann_number dims i hi, Matrix.add_apply, Matrix.diagonal_mul, Matrix.mul_diagonal,
      ann_conj_apply dims i hi l m hl hm, C33_annihilator dims i hi l m hl hm, levelAt_flat hl, levelAt_flat hm]
    simp only [local1, thirdLev, ← agree_iff]
    by_cases hag : AgreeOff dims.length i l m
    · simp only [hag, true_and, if_true]
      by_cases h1 : m.getD i 0 = l.getD i 0 + 1
      · rw [if_neg (by omega : ¬ l.getD i 0 = m.getD i 0 + 1), if_pos h1, if_pos h1, zero_mul, add_zero]
      · rw [if_neg h1, if_neg h1, mul_zero, zero_add]
        split <;> ring
    · simp [hag]

theorem int_apply (dims : List ℕ) (i j : ℕ) (hi : i < dims.length) (hj : j < dims.length) (hij : i ≠ j)
    (f : IntFun) (l m : List ℕ) (hl : Valid dims l) (hm : Valid dims m) :
    f.ham (ann dims i) (ann dims j) ⟨flat dims l, flat_lt hl⟩ ⟨flat dims m, flat_lt hm⟩ =
      local2 dims.length i j f.lev f.lev l m := by
  cases f with
  | xx => exact (drive_local dims i hi .x).mul_apply (drive_local dims j hj .x) hi hj hij l m hl hm
  | yy =>
    have e : IntFun.ham .yy (ann dims i) (ann dims j) =
        DriveFun.ham .y (ann dims i) * DriveFun.ham .y (ann dims j) := by
      simp only [IntFun.ham, DriveFun.ham, intYY, yDrive, Matrix.smul_mul, Matrix.mul_smul, smul_smul]
      rw [Complex.I_mul_I, neg_one_smul]
    rw [e]
    exact (drive_local dims i hi .y).mul_apply (drive_local dims j hj .y) hi hj hij l m hl hm

theorem local1_add (n i : ℕ) (f g : ℕ → ℕ → ℂ) (l m : List ℕ) :
    local1 n i (fun x y => f x y + g x y) l m = local1 n i f l m + local1 n i g l m := by
  unfold local1
  split <;> simp

theorem local1_smul (n i : ℕ) (c : ℂ) (f : ℕ → ℕ → ℂ) (l m : List ℕ) :
    local1 n i (fun x y => c * f x y) l m = c * local1 n i f l m := by
  unfold local1
  split <;> simp

theorem local1_congr {n i : ℕ} {f g : ℕ → ℕ → ℂ} {l m : List ℕ}
    (h : f (l.getD i 0) (m.getD i 0) = g (l.getD i 0) (m.getD i 0)) : local1 n i f l m = local1 n i g l m := by
  unfold local1
  rw [h]

/-- **C150** (one element): `get_Hamiltonian` of a chip element has the matrix elements of its levels, and
does not touch the other elements. The anharmonicity may be left out for two levels because it vanishes. -/
theorem C150_component (dims : List ℕ) (i : ℕ) (hi : i < dims.length) (s : Sub)
    (hd : ∀ d, s.dim? = some d → d = dims.getD i 0) (l m : List ℕ) (hl : Valid dims l) (hm : Valid dims m) :
    s.ham none (ann dims i) ⟨flat dims l, flat_lt hl⟩ ⟨flat dims m, flat_lt hm⟩ =
      local1 dims.length i s.lev l m := by
  have hr := (drive_local dims i hi .res).apply hi l m hl hm
  have hdu := (drive_local dims i hi .duff).apply hi l m hl hm
  have ht := (drive_local dims i hi .third).apply hi l m hl hm
  simp only [DriveFun.ham, DriveFun.lev] at hr hdu ht
  have hzero : dims.getD i 0 ≤ 2 → local1 dims.length i duffLev l m = 0 := by
    intro h2
    have h1 := valid_getD hl i hi
    unfold local1 duffLev
    have : l.getD i 0 = 0 ∨ l.getD i 0 = 1 := by omega
    rcases this with h | h <;> rw [h] <;> simp
  cases s with
  | qubit d freq anhar =>
    have e := hd d rfl
    simp only [Sub.ham, dress, Sub.lev]
    rw [local1_add, local1_smul, local1_smul]
    split
    · rw [Matrix.add_apply, Matrix.smul_apply, Matrix.smul_apply, hr, hdu]
      rfl
    · rw [Matrix.smul_apply, hr, hzero (by omega)]
      simp
  | res freq =>
    simp only [Sub.ham, dress, Sub.lev]
    rw [local1_smul, Matrix.smul_apply, hr]
    rfl
  | transmon d freq anhar phi phi0 dd =>
    have e := hd d rfl
    simp only [Sub.ham, dress, Sub.lev]
    rw [local1_add, local1_smul, local1_smul]
    have ef : transmonFreq freq anhar phi phi0 dd 0 =
        (freq - anhar) * Real.sqrt (Real.sqrt (Real.cos (Real.pi * phi / phi0) ^ 2 +
          dd ^ 2 * Real.sin (Real.pi * phi / phi0) ^ 2)) + anhar := by
      simp [transmonFreq, squidFactor]
    rw [ef]
    split
    · rw [Matrix.add_apply, Matrix.smul_apply, Matrix.smul_apply, hr, hdu]
      rfl
    · rw [Matrix.smul_apply, hr, hzero (by omega)]
      simp
  | snail d freq anhar beta =>
    have e := hd d rfl
    simp only [Sub.ham, dress, Sub.lev]
    rw [local1_add, local1_add, local1_smul, local1_smul, local1_smul]
    split
    · rw [Matrix.add_apply, Matrix.add_apply, Matrix.smul_apply, Matrix.smul_apply, Matrix.smul_apply, hr, hdu, ht]
      simp only [smul_eq_mul]
      ring
    · rw [Matrix.add_apply, Matrix.smul_apply, Matrix.smul_apply, hr, ht, hzero (by omega)]
      simp

theorem list_sum_apply {n m : Type*} (L : List (Matrix n m ℂ)) (i : n) (j : m) :
    L.sum i j = (L.map fun A => A i j).sum := by
  induction L with
  | nil => simp
  | cons A L ih => simp [ih]

/-- **C150** (drift): the drift Hamiltonian of a model is the sum of the level energies of all elements and of
the matrix elements of all couplings. -/
theorem C150_drift (dims : List ℕ) (s : Sys) (hn : s.subs.length ≤ dims.length)
    (hd : ∀ i (hi : i < s.subs.length), ∀ d, s.subs[i].2.dim? = some d → d = dims.getD i 0)
    (hw : ∀ p ∈ s.lines, p.2.WF dims.length ∧ p.2.Proper) (l m : List ℕ) (hl : Valid dims l)
    (hm : Valid dims m) :
    s.drift (ann dims) ⟨flat dims l, flat_lt hl⟩ ⟨flat dims m, flat_lt hm⟩ =
      (s.subs.zipIdx.map fun p => local1 dims.length p.2 p.1.2.lev l m).sum +
        (s.lines.map fun p => p.2.driftElem dims.length l m).sum := by
  unfold Sys.drift Sys.hams
  rw [list_sum_apply, List.map_map, List.map_append, List.sum_append, List.map_map]
  congr 1
  · congr 1
    apply List.map_congr_left
    rintro ⟨⟨name, sub⟩, i⟩ hp
    have hp' := List.mem_zipIdx_iff_getElem?.1 hp
    simp only at hp'
    obtain ⟨hi, he⟩ := List.getElem?_eq_some_iff.1 hp'
    have := hd i hi
    rw [he] at this
    exact C150_component dims i (hi.trans_le hn) sub this l m hl hm
  · have : ∀ L : List (String × Line), (∀ p ∈ L, p.2.WF dims.length ∧ p.2.Proper) →
        ((L.filterMap fun l => (l.2.drift (ann dims)).map fun h => (l.1, dress none h)).map
          ((fun A : Matrix (Fin dims.prod) (Fin dims.prod) ℂ => A ⟨flat dims l, flat_lt hl⟩ ⟨flat dims m, flat_lt hm⟩) ∘
            Prod.snd)).sum = (L.map fun p => p.2.driftElem dims.length l m).sum := by
      intro L hL
      induction L with
      | nil => rfl
      | cons p L ih =>
        have ih' := ih fun q hq => hL q (List.mem_cons_of_mem _ hq)
        have hp := hL p List.mem_cons_self
        obtain ⟨name, ln⟩ := p
        cases ln with
        | coupling f g c₁ c₂ =>
          simp only [Line.WF, Line.Proper] at hp
          refine Eq.trans (b := (g : ℂ) * f.ham (ann dims c₁) (ann dims c₂) ⟨flat dims l, flat_lt hl⟩
            ⟨flat dims m, flat_lt hm⟩ + (L.map fun p => p.2.driftElem dims.length l m).sum) ?_ ?_
          · rw [← ih']
            rfl
          · rw [int_apply dims c₁ c₂ hp.1.1 hp.1.2 hp.2 f l m hl hm]
            rfl
        | drive f conn =>
          rw [List.filterMap_cons_none rfl, ih', List.map_cons, List.sum_cons]
          exact (zero_add _).symm
        | couplingDrive f c₁ c₂ =>
          rw [List.filterMap_cons_none rfl, ih', List.map_cons, List.sum_cons]
          exact (zero_add _).symm
    exact this s.lines hw

/-- **C150** (controls): the control Hamiltonian of a line has the matrix elements of its drive function on the
connected elements, and couplings have none. -/
theorem C150_control (dims : List ℕ) (ln : Line) (hw : ln.WF dims.length) (hp : ln.Proper)
    (l m : List ℕ) (hl : Valid dims l) (hm : Valid dims m) :
    (ln.control (ann dims) = none ↔ ∃ f g c₁ c₂, ln = .coupling f g c₁ c₂) ∧
    ∀ H, ln.control (ann dims) = some H →
      H ⟨flat dims l, flat_lt hl⟩ ⟨flat dims m, flat_lt hm⟩ = ln.controlElem dims.length l m := by
  cases ln with
  | coupling f g c₁ c₂ => exact ⟨⟨fun _ => ⟨f, g, c₁, c₂, rfl⟩, fun _ => rfl⟩, fun H h => by cases h⟩
  | drive f conn =>
    refine ⟨⟨fun h => (by cases h), fun ⟨_, _, _, _, h⟩ => by cases h⟩, fun H h => ?_⟩
    cases h
    rw [list_sum_apply, List.map_map]
    simp only [Line.controlElem]
    congr 1
    apply List.map_congr_left
    intro i hi
    exact (drive_local dims i (hw i hi) f).apply (hw i hi) l m hl hm
  | couplingDrive f c₁ c₂ =>
    refine ⟨⟨fun h => (by cases h), fun ⟨_, _, _, _, h⟩ => by cases h⟩, fun H h => ?_⟩
    cases h
    exact int_apply dims c₁ c₂ hw.1 hw.2 hp f l m hl hm

/-- The example: the second level of the first of two coupled qubits has energy `2 ω + δ`, and the coupling
moves one excitation with strength `g √2`. -/
example (ω δ ω' g : ℝ) :
    let s : Sys := ⟨[("q1", .qubit 3 ω δ), ("q2", .qubit 2 ω' 0)], [("c", .coupling .xx g 0 1)]⟩
    s.drift (ann [3, 2]) ⟨flat [3, 2] [2, 0], by decide⟩ ⟨flat [3, 2] [2, 0], by decide⟩ = 2 * ω + δ ∧
      s.drift (ann [3, 2]) ⟨flat [3, 2] [2, 0], by decide⟩ ⟨flat [3, 2] [1, 1], by decide⟩ =
        g * ((Real.sqrt 2 : ℝ) : ℂ) := by
  intro s
  have hv1 : Valid [3, 2] [2, 0] := by simp [Valid]
  have hv2 : Valid [3, 2] [1, 1] := by simp [Valid]
  have hd : ∀ i (hi : i < s.subs.length), ∀ d, s.subs[i].2.dim? = some d → d = [3, 2].getD i 0 := by
    intro i hi d h
    have hi' : i < 2 := hi
    rcases i with _ | _ | i
    · exact (Option.some.inj h).symm
    · exact (Option.some.inj h).symm
    · omega
  have hw : ∀ p ∈ s.lines, p.2.WF [3, 2].length ∧ p.2.Proper := by
    intro p hp
    simp only [s, List.mem_singleton] at hp
    subst hp
    simp [Line.WF, Line.Proper]
  constructor
  · rw [C150_drift [3, 2] s (by simp [s]) hd hw _ _ hv1 hv1]
    simp [s, Sub.lev, Line.driftElem, local1, local2, nLev, duffLev, IntFun.lev, xLev]
    ring
  · rw [C150_drift [3, 2] s (by simp [s]) hd hw _ _ hv1 hv2]
    simp [s, Sub.lev, Line.driftElem, local1, local2, nLev, duffLev, IntFun.lev, xLev]
    intro x h1 h2 h3
    omega

end C3.Hilbert
