import Verif.Hilbert.Dressed
import Verif.Hilbert.Energies

/-!
# C174-C176: qubit frequencies, arbitrary bases and sparse Hamiltonians

`Model.get_qubit_freqs` (c3/model.py:580-589), `Model.update_model`, `set_dressed`, `update_dressed`
(c3/model.py:311-321, 423-428, 504-534), `Model_basis_change` (c3/model.py:700-736), `set_max_excitations`,
`get_sparse_Hamiltonian(s)` (c3/model.py:198-224, 368-372, 414-415).

The eigenvectors `v` of the drift come from `tf.linalg.eigh`, as in `Dressed.lean`.
-/

set_option linter.unusedSectionVars false

namespace C3.Hilbert

open Matrix Finset

/-! ## Qubit frequencies: model -/

inductive FErr where
  | noDrift   -- `tf.linalg.diag_part(None)`
  | label     -- ValueError of `list.index`
  | attribute -- AttributeError: no `ex_cutter`
  | shape     -- `tf.matmul` of different sizes
  | type      -- TypeError
deriving DecidableEq

/-- c3/model.py:584-585: `[0] * len(self.dims)` with a one at `i`. -/
def unitLabel (n i : ℕ) : List ℕ := (List.replicate n 0).set i 1

/-- c3/model.py:581: the diagonal of the dressed drift. -/
def diagRe {N : ℕ} (D : Matrix (Fin N) (Fin N) ℂ) (k : ℕ) : ℝ :=
  if h : k < N then (D ⟨k, h⟩ ⟨k, h⟩).re else 0

/-- c3/model.py:580-589 `get_qubit_freqs` on the attribute `dressed_drift_ham`. -/
noncomputable def getQubitFreqs (dims : List ℕ)
    (dd : Option (Matrix (Fin dims.prod) (Fin dims.prod) ℂ)) : Except FErr (List ℝ) :=
  match dd with
  | none => .error .noDrift
  | some D => (List.range dims.length).mapM fun i =>
    match getStateIndex dims (unitLabel dims.length i) with
    | none => .error .label
    | some idx => .ok ((diagRe D idx - diagRe D 0) / 2 / Real.pi)

/-- The attributes `dressed`, `drift_ham` and `dressed_drift_ham` of a model. -/
structure Frames (N : ℕ) where
  dressed : Bool
  drift : Option (Matrix (Fin N) (Fin N) ℂ)
  dressedDrift : Option (Matrix (Fin N) (Fin N) ℂ)

variable {N : ℕ}

/-- c3/model.py:44, 52-53: a new model. -/
def Frames.initial : Frames N := ⟨true, none, none⟩

/-- c3/model.py:423-428 `update_model` with the drift `H` and its eigenvectors `v`; the dressed drift
(c3/model.py:515-517) is only renewed in the dressed basis. -/
noncomputable def Frames.update (f : Frames N) (H v : Matrix (Fin N) (Fin N) ℂ) : Frames N :=
  ⟨f.dressed, some H, if f.dressed then some (dress (some (transform true v)) H) else f.dressedDrift⟩

/-- c3/model.py:311-321 `set_dressed`. -/
noncomputable def Frames.setDressed (f : Frames N) (b : Bool) (H v : Matrix (Fin N) (Fin N) ℂ) : Frames N :=
  Frames.update ⟨b, f.drift, f.dressedDrift⟩ H v

/-! ## Qubit frequencies: specification -/

/-- `E` is the energy of the dressed state of the label `l`: the eigenstate of `H` with more than half of its
weight on the bare state `l`. -/
def IsLevel (dims : List ℕ) (H : Matrix (Fin dims.prod) (Fin dims.prod) ℂ) (l : List ℕ) (E : ℝ) : Prop :=
  ∃ ψ : Fin dims.prod → ℂ, ∑ p, Complex.normSq (ψ p) = 1 ∧ H *ᵥ ψ = (E : ℂ) • ψ ∧
    ∃ p : Fin dims.prod, (p : ℕ) = flat dims l ∧ 1 / 2 < Complex.normSq (ψ p)

/-! ## Qubit frequencies: proofs -/

theorem valid_zero {dims : List ℕ} (hd : ∀ d ∈ dims, 2 ≤ d) : Valid dims (List.replicate dims.length 0) := by
  induction dims with
  | nil => exact List.Forall₂.nil
  | cons d ds ih =>
    have := hd d (by simp)
    exact List.Forall₂.cons (by omega) (ih fun x hx => hd x (by simp [hx]))

theorem valid_unit {dims : List ℕ} (hd : ∀ d ∈ dims, 2 ≤ d) (i : ℕ) : Valid dims (unitLabel dims.length i) := by
  induction dims generalizing i with
  | nil => cases i <;> exact List.Forall₂.nil
  | cons d ds ih =>
    have h2 := hd d (by simp)
    have hds : ∀ x ∈ ds, 2 ≤ x := fun x hx => hd x (by simp [hx])
    cases i with
    | zero => exact List.Forall₂.cons (by omega) (valid_zero hds)
    | succ i => exact List.Forall₂.cons (by omega) (ih hds i)

theorem flat_zero (dims : List ℕ) : flat dims (List.replicate dims.length 0) = 0 := by
  induction dims with
  | nil => rfl
  | cons d ds ih => simp only [List.length_cons, List.replicate_succ, flat, ih]; omega

theorem mapM_ok {α β ε : Type} (f : α → Except ε β) (g : α → β) (l : List α) (h : ∀ a ∈ l, f a = .ok (g a)) :
    l.mapM f = .ok (l.map g) := by
  induction l with
  | nil => rfl
  | cons a l ih =>
    rw [List.mapM_cons, h a (by simp), ih fun b hb => h b (by simp [hb])]
    rfl

/-- The frequencies in terms of the diagonal of the dressed drift. -/
theorem freqs_eq {dims : List ℕ} (hd : ∀ d ∈ dims, 2 ≤ d) (D : Matrix (Fin dims.prod) (Fin dims.prod) ℂ) :
    getQubitFreqs dims (some D) = .ok ((List.range dims.length).map fun i =>
      (diagRe D (flat dims (unitLabel dims.length i)) -
        diagRe D (flat dims (List.replicate dims.length 0))) / 2 / Real.pi) := by
  unfold getQubitFreqs
  apply mapM_ok
  intro i _
  rw [(C31_index dims _).1 (valid_unit hd i), flat_zero]

theorem level_of_frame {dims : List ℕ} {v : Matrix (Fin dims.prod) (Fin dims.prod) ℂ} (hv : IsUnitary v)
    (H : Matrix (Fin dims.prod) (Fin dims.prod) ℂ) (e : Fin dims.prod → ℝ)
    (hH : H * v = v * Matrix.diagonal fun j => (e j : ℂ)) {l : List ℕ} (p j : Fin dims.prod)
    (hp : (p : ℕ) = flat dims l) (hlarge : 1 / 2 < vSq v p j) : IsLevel dims H l (e j) := by
  refine ⟨fun i => v i j, col_sum hv j, ?_, p, hp, hlarge⟩
  funext i
  have := congrFun (congrFun hH i) j
  rw [Matrix.mul_apply, Matrix.mul_diagonal] at this
  simp only [Matrix.mulVec, dotProduct, Pi.smul_apply, smul_eq_mul]
  rw [this, mul_comm]

/-- C174: in the dressed basis, with well dressed states and real eigenvectors, the `i`-th frequency belongs to
the transition from the dressed ground state to the dressed state with one excitation in element `i`. Missing:
the fallback for strongly mixed states, and models that left the dressed basis (see `C174_false_stale`). -/
theorem C174_dressed_partial {dims : List ℕ} (hd : ∀ d ∈ dims, 2 ≤ d) (f : Frames dims.prod)
    (hf : f.dressed = true) {v : Matrix (Fin dims.prod) (Fin dims.prod) ℂ} (hv : IsUnitary v)
    (hw : WellDressed v) (hreal : ∀ i j, (v i j).im = 0) (H : Matrix (Fin dims.prod) (Fin dims.prod) ℂ)
    (e : Fin dims.prod → ℝ) (hH : H * v = v * Matrix.diagonal fun j => (e j : ℂ)) :
    ∃ l, getQubitFreqs dims (f.update H v).dressedDrift = .ok l ∧ l.length = dims.length ∧
      ∀ i (hi : i < l.length), ∃ E₁ E₀, IsLevel dims H (unitLabel dims.length i) E₁ ∧
        IsLevel dims H (List.replicate dims.length 0) E₀ ∧ 2 * Real.pi * l[i] = E₁ - E₀ := by
  obtain ⟨⟨σ, _, hlarge, hframe⟩, _, hdiag⟩ := C36_well_dressed hv hw hreal H e hH
  have hup : (f.update H v).dressedDrift = some (Matrix.diagonal fun i => ((eigenframe true e v i : ℝ) : ℂ)) := by
    simp only [Frames.update, hf, if_true, dress, hdiag]
  rw [hup, freqs_eq hd]
  refine ⟨_, rfl, by simp, fun i hi => ?_⟩
  have hu := flat_lt (valid_unit hd i)
  have hz := flat_lt (valid_zero hd)
  have key : ∀ (l : List ℕ) (h : flat dims l < dims.prod), IsLevel dims H l (eigenframe true e v ⟨flat dims l, h⟩) := by
    intro l h
    obtain ⟨j, hj⟩ := σ.surjective ⟨flat dims l, h⟩
    rw [← hj, hframe]
    exact level_of_frame hv H e hH (σ j) j (by rw [hj]) (hlarge j)
  refine ⟨_, _, key _ hu, key _ hz, ?_⟩
  simp only [List.getElem_map, List.getElem_range, diagRe, dif_pos hu, dif_pos hz, Matrix.diagonal_apply_eq,
    Complex.ofReal_re]
  field_simp

/-- In a diagonal Hamiltonian the levels are the diagonal entries. -/
theorem level_diagonal {dims : List ℕ} {H : Matrix (Fin dims.prod) (Fin dims.prod) ℂ}
    (hH : ∀ p q, p ≠ q → H p q = 0) {l : List ℕ} (hl : Valid dims l) {E : ℝ} (h : IsLevel dims H l E) :
    H ⟨flat dims l, flat_lt hl⟩ ⟨flat dims l, flat_lt hl⟩ = (E : ℂ) := by
  obtain ⟨ψ, _, hev, p, hp, hpos⟩ := h
  have hp' : p = ⟨flat dims l, flat_lt hl⟩ := Fin.ext hp
  rw [← hp']
  have hne : ψ p ≠ 0 := by
    intro h0
    rw [h0] at hpos
    norm_num at hpos
  have := congrFun hev p
  simp only [Matrix.mulVec, dotProduct, Pi.smul_apply, smul_eq_mul] at this
  rw [sum_eq_single p (fun q _ hq => by rw [hH p q (Ne.symm hq), zero_mul]) (by simp)] at this
  exact mul_right_cancel₀ hne this

/-- The transition frequency of an element on its own, as given by its parameters (not for SNAILs). -/
noncomputable def Sub.gap : Sub → Option ℝ
  | .qubit _ freq _ => some freq
  | .res freq => some freq
  | .transmon _ freq anhar phi phi0 d => some ((freq - anhar) * Real.sqrt (Real.sqrt
      (Real.cos (Real.pi * phi / phi0) ^ 2 + d ^ 2 * Real.sin (Real.pi * phi / phi0) ^ 2)) + anhar)
  | .snail .. => none

theorem gap_lev {s : Sub} {g : ℝ} (h : s.gap = some g) :
    s.lev 0 0 = 0 ∧ s.lev 1 1 = (g : ℂ) ∧ ∀ x y, x ≠ y → s.lev x y = 0 := by
  cases s with
  | qubit d freq anhar =>
    cases h
    refine ⟨by simp [Sub.lev, nLev, duffLev], by simp [Sub.lev, nLev, duffLev], fun x y hxy => by
      simp [Sub.lev, nLev, duffLev, hxy]⟩
  | res freq =>
    cases h
    refine ⟨by simp [Sub.lev, nLev], by simp [Sub.lev, nLev], fun x y hxy => by simp [Sub.lev, nLev, hxy]⟩
  | transmon d freq anhar phi phi0 dd =>
    cases h
    refine ⟨by simp [Sub.lev, nLev, duffLev], by simp [Sub.lev, nLev, duffLev], fun x y hxy => by
      simp [Sub.lev, nLev, duffLev, hxy]⟩
  | snail => cases h

theorem sum_zipIdx {α : Type*} (l : List α) (k i : ℕ) (g : α → ℂ) :
    ((l.zipIdx k).map fun p => if p.2 = k + i then g p.1 else 0).sum = (l[i]?).elim 0 g := by
  induction l generalizing k i with
  | nil => simp
  | cons a l ih =>
    rw [List.zipIdx_cons, List.map_cons, List.sum_cons]
    cases i with
    | zero =>
      have : ((l.zipIdx (k + 1)).map fun p => if p.2 = k + 0 then g p.1 else 0).sum = 0 := by
        apply List.sum_eq_zero
        intro x hx
        obtain ⟨p, hp, rfl⟩ := List.mem_map.1 hx
        have := (List.mem_zipIdx hp).1
        rw [if_neg (by omega)]
      rw [this]
      simp
    | succ i =>
      have := ih (k + 1) i
      rw [show k + 1 + i = k + (i + 1) by omega] at this
      rw [this]
      simp

theorem getD_unit {n i j : ℕ} (hi : i < n) : (unitLabel n i).getD j 0 = if j = i then 1 else 0 := by
  unfold unitLabel
  rw [List.getD_eq_getElem?_getD, List.getElem?_set]
  by_cases h : i = j
  · subst h; simp [hi]
  · rw [if_neg h, if_neg (fun hh => h hh.symm)]
    cases hj : (List.replicate n 0)[j]? with
    | none => rfl
    | some x =>
      have := List.mem_of_getElem? hj
      rw [List.mem_replicate] at this
      simp [this.2]

theorem getD_zero (n j : ℕ) : (List.replicate n 0).getD j 0 = 0 := by
  rw [List.getD_eq_getElem?_getD]
  cases hj : (List.replicate n 0)[j]? with
  | none => rfl
  | some x =>
    have := List.mem_of_getElem? hj
    rw [List.mem_replicate] at this
    simp [this.2]

/-- Without couplings, of elements with a frequency, the drift is diagonal. -/
theorem drift_diagonal {dims : List ℕ} {s : Sys} (hn : s.subs.length = dims.length)
    (hd : ∀ i (hi : i < s.subs.length), ∀ d, s.subs[i].2.dim? = some d → d = dims.getD i 0)
    (hw : ∀ p ∈ s.lines, p.2.WF dims.length ∧ p.2.Proper) (hgap : ∀ p ∈ s.subs, ∃ g, p.2.gap = some g)
    (hnc : ∀ p ∈ s.lines, ∀ f c₁ c₂ x, p.2 ≠ .coupling f x c₁ c₂) (p q : Fin dims.prod) (hpq : p ≠ q) :
    s.drift (ann dims) p q = 0 := by
  have hlab : ∀ p : Fin dims.prod, ∃ l, ∃ hl : Valid dims l, p = ⟨flat dims l, flat_lt hl⟩ := by
    intro p
    have hp : (p : ℕ) < (stateLabels dims).length := by rw [length_stateLabels]; exact p.2
    have hv : Valid dims (stateLabels dims)[(p : ℕ)] := (mem_stateLabels dims _).1 (List.getElem_mem hp)
    exact ⟨_, hv, Fin.ext (flat_getElem dims p hp).2.symm⟩
  obtain ⟨l, hl, rfl⟩ := hlab p
  obtain ⟨m, hm, rfl⟩ := hlab q
  have hlm : l ≠ m := by rintro rfl; exact hpq rfl
  rw [C150_drift dims s hn.le hd hw l m hl hm]
  have h1 : (s.lines.map fun p => p.2.driftElem dims.length l m).sum = 0 := by
    apply List.sum_eq_zero
    intro x hx
    obtain ⟨p, hp, rfl⟩ := List.mem_map.1 hx
    cases hp2 : p.2 with
    | coupling f x c₁ c₂ => exact absurd hp2 (hnc p hp f c₁ c₂ x)
    | drive => rfl
    | couplingDrive => rfl
  have h2 : (s.subs.zipIdx.map fun p => local1 dims.length p.2 p.1.2.lev l m).sum = 0 := by
    apply List.sum_eq_zero
    intro x hx
    obtain ⟨⟨a, i⟩, hp, rfl⟩ := List.mem_map.1 hx
    obtain ⟨g, hg⟩ := hgap a (by
      have := List.mem_zipIdx_iff_getElem?.1 hp
      exact List.mem_of_getElem? this)
    unfold local1
    split
    · next hag =>
      apply (gap_lev hg).2.2
      intro hEq
      apply hlm
      have hll : l.length = dims.length := hl.length_eq
      have hmm : m.length = dims.length := hm.length_eq
      apply List.ext_getElem (by omega)
      intro t h1 h2
      have ht : l.getD t 0 = m.getD t 0 := by
        by_cases hti : t = i
        · rw [hti]; exact hEq
        · exact hag t (by omega) hti
      rw [List.getD_eq_getElem?_getD, List.getD_eq_getElem?_getD, List.getElem?_eq_getElem h1,
        List.getElem?_eq_getElem h2] at ht
      exact ht
    · rfl
  rw [h1, h2, add_zero]

/-- C174: without couplings the frequencies are those in the parameters of the elements. -/
theorem C174_uncoupled_partial {dims : List ℕ} (h2 : ∀ d ∈ dims, 2 ≤ d) (f : Frames dims.prod)
    (hf : f.dressed = true) {s : Sys} (hn : s.subs.length = dims.length)
    (hd : ∀ i (hi : i < s.subs.length), ∀ d, s.subs[i].2.dim? = some d → d = dims.getD i 0)
    (hw : ∀ p ∈ s.lines, p.2.WF dims.length ∧ p.2.Proper) (hgap : ∀ p ∈ s.subs, ∃ g, p.2.gap = some g)
    (hnc : ∀ p ∈ s.lines, ∀ f c₁ c₂ x, p.2 ≠ .coupling f x c₁ c₂)
    {v : Matrix (Fin dims.prod) (Fin dims.prod) ℂ} (hv : IsUnitary v) (hwd : WellDressed v)
    (hreal : ∀ i j, (v i j).im = 0) (e : Fin dims.prod → ℝ)
    (hH : s.drift (ann dims) * v = v * Matrix.diagonal fun j => (e j : ℂ)) :
    ∃ l, getQubitFreqs dims (f.update (s.drift (ann dims)) v).dressedDrift = .ok l ∧
      ∀ i (hi : i < s.subs.length) (hi' : i < l.length), s.subs[i].2.gap = some (2 * Real.pi * l[i]) := by
  obtain ⟨l, hok, hlen, hlev⟩ := C174_dressed_partial h2 f hf hv hwd hreal _ e hH
  refine ⟨l, hok, fun i hi hi' => ?_⟩
  obtain ⟨E₁, E₀, hE1, hE0, hdiff⟩ := hlev i hi'
  have hdg := drift_diagonal hn hd hw hgap hnc
  have e1 := level_diagonal hdg (valid_unit h2 i) hE1
  have e0 := level_diagonal hdg (valid_zero h2) hE0
  have hlines : ∀ l m, (s.lines.map fun p => p.2.driftElem dims.length l m).sum = 0 := by
    intro l m
    apply List.sum_eq_zero
    intro x hx
    obtain ⟨p, hp, rfl⟩ := List.mem_map.1 hx
    cases hp2 : p.2 with
    | coupling f x c₁ c₂ => exact absurd hp2 (hnc p hp f c₁ c₂ x)
    | drive => rfl
    | couplingDrive => rfl
  rw [C150_drift dims s hn.le hd hw _ _ (valid_unit h2 i) (valid_unit h2 i), hlines, add_zero] at e1
  rw [C150_drift dims s hn.le hd hw _ _ (valid_zero h2) (valid_zero h2), hlines, add_zero] at e0
  have z0 : (s.subs.zipIdx.map fun p => local1 dims.length p.2 p.1.2.lev (List.replicate dims.length 0)
      (List.replicate dims.length 0)).sum = 0 := by
    apply List.sum_eq_zero
    intro x hx
    obtain ⟨⟨a, j⟩, hp, rfl⟩ := List.mem_map.1 hx
    obtain ⟨g, hg⟩ := hgap a (List.mem_of_getElem? (List.mem_zipIdx_iff_getElem?.1 hp))
    simp only [local1, getD_zero, (gap_lev hg).1, ite_self]
  obtain ⟨g, hg⟩ := hgap s.subs[i] (List.getElem_mem hi)
  have z1 : (s.subs.zipIdx.map fun p => local1 dims.length p.2 p.1.2.lev (unitLabel dims.length i)
      (unitLabel dims.length i)).sum = (g : ℂ) := by
    have : (s.subs.zipIdx.map fun p => local1 dims.length p.2 p.1.2.lev (unitLabel dims.length i)
        (unitLabel dims.length i)) = s.subs.zipIdx.map fun p => if p.2 = 0 + i then p.1.2.lev 1 1 else 0 := by
      apply List.map_congr_left
      rintro ⟨a, j⟩ hp
      obtain ⟨g, hg⟩ := hgap a (List.mem_of_getElem? (List.mem_zipIdx_iff_getElem?.1 hp))
      simp only [local1, getD_unit (show i < dims.length by omega), implies_true, if_true, zero_add]
      by_cases hj : j = i
      · simp [hj]
      · simp [hj, (gap_lev hg).1]
    rw [this]
    refine (sum_zipIdx s.subs 0 i fun a => a.2.lev 1 1).trans ?_
    rw [List.getElem?_eq_getElem hi]
    exact (gap_lev hg).2.1
  rw [z1] at e1
  rw [z0] at e0
  have g1 : g = E₁ := by exact_mod_cast e1
  have g0 : (0 : ℝ) = E₀ := by exact_mod_cast e0
  rw [hg, hdiff, ← g1, ← g0, sub_zero]

/-- The drift of a single two-level element with frequency `w`. -/
noncomputable def exDrift (w : ℝ) : Matrix (Fin [2].prod) (Fin [2].prod) ℂ :=
  Matrix.diagonal fun i => ((w * (i : ℕ) : ℝ) : ℂ)

theorem transform_one : transform true (1 : Matrix (Fin N) (Fin N) ℂ) = 1 := by
  have hw : WellDressed (1 : Matrix (Fin N) (Fin N) ℂ) := fun j => ⟨j, by simp [vSq]; norm_num⟩
  ext i j
  simp only [transform, reorderMatrix, if_true, if_pos hw, thresholdReorder, Matrix.one_mul,
    Matrix.transpose_apply, Matrix.of_apply, vSq]
  by_cases h : j = i
  · subst h; simp; norm_num
  · simp [Matrix.one_apply_ne h, Matrix.one_apply_ne (Ne.symm h)]

/-- C174 is false after leaving the dressed basis: `get_qubit_freqs` still reads the dressed drift, which
`update_model` no longer renews. Here the element has frequency `2 * w`, the answer is `w / 2π`. -/
theorem C174_false_stale (w : ℝ) :
    let f := ((Frames.initial.update (exDrift w) 1).setDressed false (exDrift w) 1).update (exDrift (2 * w)) 1
    f.drift = some (exDrift (2 * w)) ∧ getQubitFreqs [2] f.dressedDrift = .ok [w / (2 * Real.pi)] := by
  intro f
  refine ⟨rfl, ?_⟩
  have hf : f.dressedDrift = some (exDrift w) := by
    change some (dress (some (transform true 1)) (exDrift w)) = _
    rw [transform_one]
    simp only [dress, Matrix.conjTranspose_one, Matrix.one_mul, Matrix.mul_one]
  rw [hf, freqs_eq (by simp)]
  have h1 : diagRe (exDrift w) 1 = w := by
    rw [diagRe, dif_pos (show 1 < [2].prod by decide), exDrift, Matrix.diagonal_apply_eq, Complex.ofReal_re]
    simp
  have h0 : diagRe (exDrift w) 0 = 0 := by
    rw [diagRe, dif_pos (show 0 < [2].prod by decide), exDrift, Matrix.diagonal_apply_eq, Complex.ofReal_re]
    simp
  change Except.ok [(diagRe (exDrift w) 1 - diagRe (exDrift w) 0) / 2 / Real.pi] = _
  rw [h1, h0, sub_zero, div_div]

/-! ## Arbitrary bases -/

/-- c3/model.py:722-736 `Model_basis_change.update_drift_eigen`. -/
noncomputable def basisTransform (ordered : Bool) (U : Option (Matrix (Fin N) (Fin N) ℂ)) :
    Matrix (Fin N) (Fin N) ℂ := transform ordered (U.getD 1)

/-- c3/model.py:504-524 `update_dressed` of `Model_basis_change`: an operator in the new basis. -/
noncomputable def inBasis (ordered : Bool) (U : Option (Matrix (Fin N) (Fin N) ℂ)) (H : Matrix (Fin N) (Fin N) ℂ) :
    Matrix (Fin N) (Fin N) ℂ := dress (some (basisTransform ordered U)) H

/-- C175: without reordering every operator is expressed in the basis given by the columns of `U`. -/
theorem C175_unordered_partial (U H : Matrix (Fin N) (Fin N) ℂ) : inBasis false (some U) H = Uᴴ * H * U := rfl

/-- C175: without a given basis nothing changes. -/
theorem C175_none (b : Bool) (H : Matrix (Fin N) (Fin N) ℂ) : inBasis b none H = H := by
  have : basisTransform b (none : Option (Matrix (Fin N) (Fin N) ℂ)) = 1 := by
    cases b
    · rfl
    · exact transform_one
  simp [inBasis, dress, this]

/-- C175: with the default reordering the basis is the given one if each of its vectors has most of its weight,
with a positive real part, on the bare state of the same position. -/
theorem C175_aligned_partial {U : Matrix (Fin N) (Fin N) ℂ} (hU : IsUnitary U) (hd : ∀ i, 1 / 2 < vSq U i i)
    (hp : ∀ i, 0 < (U i i).re) (H : Matrix (Fin N) (Fin N) ℂ) : inBasis true (some U) H = Uᴴ * H * U := by
  have hw : WellDressed U := fun j => ⟨j, hd j⟩
  have ht : transform true U = U := by
    have hR : (Matrix.of fun i j => ((Real.sign (U i j).re * reorderMatrix true U i j : ℝ) : ℂ) :
        Matrix (Fin N) (Fin N) ℂ)ᵀ = 1 := by
      ext i j
      simp only [Matrix.transpose_apply, Matrix.of_apply, reorderMatrix, if_true, if_pos hw, thresholdReorder]
      by_cases h : j = i
      · subst h
        rw [if_pos (hd j), Real.sign_of_pos (hp j), Matrix.one_apply_eq]
        norm_num
      · rw [if_neg, Matrix.one_apply_ne (Ne.symm h)]
        · simp
        · intro hlt
          exact h (two_large (fun k => Complex.normSq_nonneg _) (col_sum hU i) hlt (hd i))
    simp only [transform, if_true, hR, Matrix.mul_one]
  simp only [inBasis, basisTransform, Option.getD_some, ht, dress]

/-- C175 is false in general: with the default reordering a basis that permutes the bare states is undone
completely, so the Hamiltonians stay in the old order. -/
theorem C175_false_permuted (σ : Equiv.Perm (Fin N)) (H : Matrix (Fin N) (Fin N) ℂ) :
    inBasis true (some (Matrix.of fun i j => if i = σ j then 1 else 0)) H = H := by
  set U : Matrix (Fin N) (Fin N) ℂ := Matrix.of fun i j => if i = σ j then 1 else 0 with hUd
  have hsq : ∀ i j, vSq U i j = if i = σ j then 1 else 0 := by
    intro i j
    simp only [vSq, hUd, Matrix.of_apply]
    split <;> simp
  have hw : WellDressed U := fun j => ⟨σ j, by rw [hsq]; norm_num⟩
  have ht : transform true U = 1 := by
    ext i k
    simp only [transform, if_true, reorderMatrix, if_pos hw, thresholdReorder, Matrix.mul_apply,
      Matrix.transpose_apply, Matrix.of_apply, hsq]
    obtain ⟨m, rfl⟩ := σ.surjective i
    rw [sum_eq_single m]
    · by_cases h : k = σ m
      · subst h
        simp only [hUd, Matrix.of_apply, if_true, Matrix.one_apply_eq]
        norm_num
      · rw [if_neg h, Matrix.one_apply_ne (Ne.symm h)]
        norm_num
    · intro b _ hb
      have : U (σ m) b = 0 := by
        simp only [hUd, Matrix.of_apply]
        rw [if_neg (fun h => hb (σ.injective h).symm)]
      rw [this, zero_mul]
    · simp
  simp [inBasis, basisTransform, ht, dress]

/-- The negation made concrete: exchanging two states of different energy. -/
theorem C175_false_swap :
    let U : Matrix (Fin 2) (Fin 2) ℂ := !![0, 1; 1, 0]
    let H : Matrix (Fin 2) (Fin 2) ℂ := !![0, 0; 0, 1]
    IsUnitary U ∧ inBasis true (some U) H = H ∧ Uᴴ * H * U ≠ H := by
  intro U H
  refine ⟨⟨?_, ?_⟩, ?_, ?_⟩
  · ext i j; fin_cases i <;> fin_cases j <;> simp [U, Matrix.mul_apply, Matrix.conjTranspose_apply]
  · ext i j; fin_cases i <;> fin_cases j <;> simp [U, Matrix.mul_apply, Matrix.conjTranspose_apply]
  · have hU : U = Matrix.of fun i j => if i = (Equiv.swap (0 : Fin 2) 1) j then 1 else 0 := by
      ext i j; fin_cases i <;> fin_cases j <;> simp [U]
    rw [hU]
    exact C175_false_permuted _ H
  · intro h
    have := congrFun (congrFun h 0) 0
    simp [U, H, Matrix.mul_apply, Fin.sum_univ_two, Matrix.conjTranspose_apply] at this

/-- C175 is false for bases with imaginary entries, too: the vector is deleted, and even the identity operator
is not the identity in the new basis. -/
theorem C175_false_phase : IsUnitary (!![Complex.I] : Matrix (Fin 1) (Fin 1) ℂ) ∧
    inBasis true (some (!![Complex.I] : Matrix (Fin 1) (Fin 1) ℂ)) 1 ≠ 1 := by
  refine ⟨C36_false_imaginary.1, fun h => ?_⟩
  have := congrFun (congrFun h 0) 0
  simp [inBasis, basisTransform, dress, transform, Matrix.mul_apply, Matrix.conjTranspose_apply,
    Matrix.vecMul, dotProduct] at this

/-- The conditions of `C175_aligned_partial` hold for a rotation by a small angle. -/
example : let U : Matrix (Fin 2) (Fin 2) ℂ := !![4 / 5, -3 / 5; 3 / 5, 4 / 5]
    IsUnitary U ∧ (∀ i, 1 / 2 < vSq U i i) ∧ ∀ i, 0 < (U i i).re := by
  intro U
  refine ⟨⟨?_, ?_⟩, ?_, ?_⟩
  · ext i j
    fin_cases i <;> fin_cases j <;>
      simp [U, Matrix.mul_apply, Fin.sum_univ_two, Matrix.conjTranspose_apply, map_ofNat] <;> norm_num
  · ext i j
    fin_cases i <;> fin_cases j <;>
      simp [U, Matrix.mul_apply, Fin.sum_univ_two, Matrix.conjTranspose_apply, map_ofNat] <;> norm_num
  · intro i
    fin_cases i <;> simp [U, vSq] <;> norm_num
  · intro i
    fin_cases i <;> simp [U]

/-! ## Sparse Hamiltonians -/

/-- The attributes `max_excitations` and `ex_cutter`; of the latter the limit it was built for. -/
structure Cut where
  maxEx : ℕ
  cutter : Option ℕ

/-- c3/model.py:198-216 `set_max_excitations`. -/
def Cut.set (c : Cut) (m : ℕ) : Cut := if m = 0 then ⟨0, c.cutter⟩ else ⟨m, some m⟩

/-- c3/model.py:414-415 with 409-412: `get_sparse_Hamiltonian` for the (full) Hamiltonian `H` of one time. -/
noncomputable def getSparseHamiltonian (dims : List ℕ) (c : Cut)
    (H : Matrix (Fin (stateLabels dims).length) (Fin (stateLabels dims).length) ℂ) :
    Except FErr (Matrix (Fin (stateLabels dims).length) (Fin (stateLabels dims).length) ℂ) :=
  match c.cutter with
  | none => .error .attribute
  | some k =>
    if c.maxEx = 0 then
      if h : (keptPositions dims k).length = (stateLabels dims).length then
        .ok (blowupExcitations dims k (H.submatrix (Fin.cast h) (Fin.cast h)))
      else .error .shape
    else .ok (blowupExcitations dims k (cutExcitations dims k H))

/-- c3/model.py:368-372 `get_sparse_Hamiltonians`: the method `get_Hamiltonians` is unpacked instead of its
result. -/
def getSparseHamiltonians {α : Type} (_c : Cut) (_hams : α) : Except FErr α := .error .type

/-- C176: whatever limits were set before, with a limit the sparse Hamiltonian has the full size and exactly
those entries of the Hamiltonian that connect two states within the limit. -/
theorem C176_limited_partial (dims : List ℕ) (ms : List ℕ) (m : ℕ) (hm : 0 < m)
    (H : Matrix (Fin (stateLabels dims).length) (Fin (stateLabels dims).length) ℂ) :
    ∃ S, getSparseHamiltonian dims ((ms.foldl Cut.set ⟨0, none⟩).set m) H = .ok S ∧
      ∀ p q, S p q = if ((stateLabels dims)[p]).sum ≤ m ∧ ((stateLabels dims)[q]).sum ≤ m then H p q else 0 := by
  have hm' : m ≠ 0 := by omega
  simp only [Cut.set, if_neg hm', getSparseHamiltonian]
  exact ⟨_, rfl, C34_blowup_cut dims m H⟩

/-- C176 is false for a model without a limit: there is no cutter. -/
theorem C176_false_unlimited (dims : List ℕ)
    (H : Matrix (Fin (stateLabels dims).length) (Fin (stateLabels dims).length) ℂ) :
    getSparseHamiltonian dims (Cut.set ⟨0, none⟩ 0) H = .error .attribute := rfl

/-- C176 is false after a limit was lifted: the cutter of the old limit is applied to the full Hamiltonian, and
the sizes differ as soon as the old limit had cut a state. -/
theorem C176_false_lifted (dims : List ℕ) (m : ℕ) (hm : 0 < m) (h : ∃ l, Valid dims l ∧ m < l.sum)
    (H : Matrix (Fin (stateLabels dims).length) (Fin (stateLabels dims).length) ℂ) :
    getSparseHamiltonian dims ((Cut.set ⟨0, none⟩ m).set 0) H = .error .shape := by
  have hm' : m ≠ 0 := by omega
  simp only [Cut.set, if_neg hm', if_true, getSparseHamiltonian]
  rw [dif_neg]
  intro hlen
  obtain ⟨l, hl, hlt⟩ := h
  have hall : ∀ ii ∈ List.range (stateLabels dims).length, ((stateLabels dims).getD ii []).sum ≤ m := by
    have := (List.length_filter_eq_length_iff (p := fun ii => decide (((stateLabels dims).getD ii []).sum ≤ m))
      (l := List.range (stateLabels dims).length)).1 (by
        simpa [keptPositions] using hlen)
    intro ii hii
    simpa using this ii hii
  have hf := flat_lt hl
  have := hall (flat dims l) (by rw [List.mem_range, length_stateLabels]; exact hf)
  rw [List.getD_eq_getElem?_getD, stateLabels_flat hl] at this
  simp at this
  omega

/-- C176 is false for the plural: `get_sparse_Hamiltonians` always raises. -/
theorem C176_false_plural {α : Type} (c : Cut) (hams : α) : getSparseHamiltonians c hams = .error .type := rfl

/-- The conditions of `C176_false_lifted` hold for two three-level elements and the limit 2. -/
example : ∃ l, Valid [3, 3] l ∧ 2 < l.sum :=
  ⟨[2, 2], List.Forall₂.cons (by omega) (List.Forall₂.cons (by omega) List.Forall₂.nil), by decide⟩

/-- The conditions of `C174_uncoupled_partial` hold for a driven qubit and the identity as eigenvectors. -/
example : let s : Sys := ⟨[("Q", .qubit 2 5 1)], [("d", .drive .x [0])]⟩
    (∀ p ∈ s.subs, ∃ g, p.2.gap = some g) ∧ (∀ p ∈ s.lines, p.2.WF 1 ∧ p.2.Proper) ∧
      WellDressed (1 : Matrix (Fin 2) (Fin 2) ℂ) := by
  intro s
  refine ⟨?_, ?_, fun j => ⟨j, by simp [vSq]; norm_num⟩⟩
  · intro p hp
    simp only [s, List.mem_singleton] at hp
    subst hp
    exact ⟨5, rfl⟩
  · intro p hp
    simp only [s, List.mem_singleton] at hp
    subst hp
    refine ⟨fun i hi => ?_, trivial⟩
    simp only [List.mem_singleton] at hi
    omega

end C3.Hilbert
