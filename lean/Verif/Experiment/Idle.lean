import Verif.Experiment.Exchange
import Verif.Hilbert.Frequencies

/-!
# C238: gates without signals in the dressed basis

`update_dressed` (c3/model.py:453-534, models of C36) writes drift and controls in the basis of the eigenstates of the drift,
`get_qubit_freqs` (c3/model.py:580-589, model of C174) reports the frequencies of the dressed qubits. An idle gate is a gate
of an experiment (models of C68, C199) all samples of which are zero, with the frame rotation of c3/model.py:536-578. The
levels are those of `IsLevel`: energies of eigenstates of the drift with more than half of their weight on a bare state.
-/

set_option linter.unusedSectionVars false

noncomputable section

namespace C3.Experiment.Idle

open Matrix C3.Propagation C3.Hilbert C3.Experiment C3.Experiment.Compute C3.Experiment.EndToEnd
  C3.Experiment.WeakNoise C3.Experiment.Waiting C3.Gates C3.Experiment.Exchange

variable {dims : List ℕ}

/-! ## Specification -/

/-- The chip is in the dressed basis: `v` and `e` are eigenvectors and eigenvalues of the drift, the eigenvectors are real and
each has more than half of its weight on one bare state. -/
structure Dressed (c : Chip dims) (v : Op dims) (e : Fin dims.prod → ℝ) : Prop where
  tr : c.tr = some (transform true v)
  unitary : IsUnitary v
  well : WellDressed v
  real : ∀ i j, (v i j).im = 0
  eigen : c.sys.drift (ann dims) * v = v * diagonal fun j => (e j : ℂ)

/-- The experiment has computed the gates of the pulses. -/
def Computed (c : Chip dims) (ps : List (String × Pulse)) (t' : Exp (Op dims)) : Prop :=
  ∃ t : Exp (Op dims), t.propMethod = none ∧ t.optGates = none ∧ ∃ table, compute (closed c ps) t = (.ok table, t')

/-- The carriers of a gate are the frequencies of the list, one for each subsystem, without frame changes, and the frame is
that of the end of the gate. -/
structure Carriers (c : Chip dims) (fs : List ℝ) (q : Pulse) : Prop where
  time : q.t = q.dt * q.values.length
  freqs : ∃ line : ℕ → String, q.freqs = (List.range dims.length).map (fun k => (line k, 2 * Real.pi * fs.getD k 0)) ∧
    ∀ k < dims.length, c.target (line k) = some k ∧ q.shifts (line k) = some 0

/-- What the levels of a label lack to be the sum of the levels of its excitations. -/
def shift (dims : List ℕ) (E : List ℕ → ℝ) (l : List ℕ) : ℝ :=
  E l - E (List.replicate dims.length 0) -
    ((List.range dims.length).map fun k => (l.getD k 0 : ℝ) *
      (E (unitLabel dims.length k) - E (List.replicate dims.length 0))).sum

/-! ## Levels -/

theorem overlap_pos {n : Type*} [Fintype n] [DecidableEq n] (ψ φ : n → ℂ) (hψ : ∑ p, Complex.normSq (ψ p) = 1)
    (hφ : ∑ p, Complex.normSq (φ p) = 1) (p : n) (h1 : 1 / 2 < Complex.normSq (ψ p)) (h2 : 1 / 2 < Complex.normSq (φ p)) :
    star ψ ⬝ᵥ φ ≠ 0 := by
  intro h
  have hs : star ψ ⬝ᵥ φ = star (ψ p) * φ p + ∑ q ∈ Finset.univ.erase p, star (ψ q) * φ q := by
    unfold dotProduct
    exact (Finset.add_sum_erase _ (fun q => star (ψ q) * φ q) (Finset.mem_univ p)).symm
  rw [hs] at h
  have h3 : ‖star (ψ p) * φ p‖ ≤ (1 / 2) * (∑ q ∈ Finset.univ.erase p, Complex.normSq (ψ q)) +
      (1 / 2) * ∑ q ∈ Finset.univ.erase p, Complex.normSq (φ q) := by
    rw [eq_neg_of_add_eq_zero_left h, norm_neg, Finset.mul_sum, Finset.mul_sum, ← Finset.sum_add_distrib]
    refine (norm_sum_le _ _).trans (Finset.sum_le_sum fun q _ => ?_)
    rw [norm_mul, norm_star, Complex.normSq_eq_norm_sq, Complex.normSq_eq_norm_sq]
    nlinarith [sq_nonneg (‖ψ q‖ - ‖φ q‖)]
  have e1 := Finset.add_sum_erase Finset.univ (fun q => Complex.normSq (ψ q)) (Finset.mem_univ p)
  have e2 := Finset.add_sum_erase Finset.univ (fun q => Complex.normSq (φ q)) (Finset.mem_univ p)
  rw [hψ] at e1
  rw [hφ] at e2
  have h4 : 1 / 2 < ‖star (ψ p) * φ p‖ := by
    rw [norm_mul, norm_star]
    rw [Complex.normSq_eq_norm_sq] at h1 h2
    have : (1 / 2 : ℝ) ^ 2 < (‖ψ p‖ * ‖φ p‖) ^ 2 := by
      rw [mul_pow]
      nlinarith
    exact lt_of_pow_lt_pow_left₀ 2 (by positivity) this
  linarith

theorem eigen_unique {n : Type*} [Fintype n] [DecidableEq n] (H : Matrix n n ℂ) (hH : H.IsHermitian) (ψ φ : n → ℂ)
    (E E' : ℝ) (hψ : H *ᵥ ψ = (E : ℂ) • ψ) (hφ : H *ᵥ φ = (E' : ℂ) • φ) (h : star ψ ⬝ᵥ φ ≠ 0) : E = E' := by
  have h1 : star ψ ⬝ᵥ (H *ᵥ φ) = (E' : ℂ) * (star ψ ⬝ᵥ φ) := by rw [hφ, dotProduct_smul, smul_eq_mul]
  have h2 : star ψ ⬝ᵥ (H *ᵥ φ) = (E : ℂ) * (star ψ ⬝ᵥ φ) := by
    have : star ψ ᵥ* H = (E : ℂ) • star ψ := by
      have := congrArg star hψ
      rw [star_mulVec, hH.eq, star_smul] at this
      rw [this]
      simp
    rw [Matrix.dotProduct_mulVec, this, smul_dotProduct, smul_eq_mul]
  have h3 := mul_right_cancel₀ h (h1.symm.trans h2)
  exact_mod_cast h3.symm

/-- C238: a Hermitian drift has at most one level for a label. -/
theorem C238_level (H : Op dims) (hH : H.IsHermitian) (l : List ℕ) (E E' : ℝ) (h : IsLevel dims H l E)
    (h' : IsLevel dims H l E') : E = E' := by
  obtain ⟨ψ, h1, h2, p, hp, h3⟩ := h
  obtain ⟨φ, h1', h2', p', hp', h3'⟩ := h'
  obtain rfl : p = p' := Fin.ext (hp.trans hp'.symm)
  exact eigen_unique H hH ψ φ E E' h2 h2' (overlap_pos ψ φ h1 h1' p h3 h3')

/-! ## The gate -/

theorem dressed_drift (c : Chip dims) (v : Op dims) (e : Fin dims.prod → ℝ) (h : Dressed c v e) :
    c.h0 = diagonal (fun i => ((eigenframe true e v i : ℝ) : ℂ)) ∧
      ∀ l (hl : Valid dims l), IsLevel dims (c.sys.drift (ann dims)) l (eigenframe true e v ⟨flat dims l, flat_lt hl⟩) := by
  obtain ⟨⟨σ, -, hlarge, hframe⟩, -, hdiag⟩ := C36_well_dressed h.unitary h.well h.real _ e h.eigen
  refine ⟨?_, fun l hl => ?_⟩
  · unfold Chip.h0
    rw [h.tr]
    exact hdiag
  · obtain ⟨j, hj⟩ := σ.surjective ⟨flat dims l, flat_lt hl⟩
    rw [← hj, hframe]
    exact level_of_frame h.unitary _ e h.eigen (σ j) j (by rw [hj]) (hlarge j)

theorem computed_gate (c : Chip dims) (hc : c.WF) (ps : List (String × Pulse)) (t' : Exp (Op dims)) (h : Computed c ps t')
    (g : String) (p : Pulse) (hp : ps.lookup g = some p) (hs : ∀ row ∈ p.values, ∀ x ∈ row, x = 0) :
    t'.propagators g = some ((if c.useFR then (diagonal fun i => Complex.exp (Complex.I *
        (framePhase dims c.target p.shifts p.t p.freqs i : ℝ))) else 1) *
          NormedSpace.exp ((-Complex.I * (p.dt * p.values.length : ℝ) : ℂ) • c.h0)) := by
  obtain ⟨t, ht, hopt, table, hcomp⟩ := h
  have hg : g ∈ t.optGates.getD (closed c ps).keys := by
    rw [hopt]
    exact (lookup_iff ps g).2 ⟨p, hp⟩
  obtain ⟨V, h1, h2⟩ := (C68_selected (closed c ps) (closed_wf c ps) t ht table t' hcomp g).1 hg
  rw [(C68_stored _ t ht table t' hcomp g).1, if_pos hg, h2]
  obtain ⟨p', hp', hV⟩ := silent_closed c hc ps g V h1
  obtain rfl : p = p' := Option.some.inj (hp.symm.trans hp')
  rw [hV hs]

theorem exp_levels {n : Type*} [Fintype n] [DecidableEq n] (E : n → ℝ) (T : ℝ) :
    NormedSpace.exp ((-Complex.I * (T : ℝ) : ℂ) • (diagonal fun i => (E i : ℂ) : Matrix n n ℂ)) =
      diagonal fun i => Complex.exp (-Complex.I * (E i * T : ℝ)) := by
  rw [← diagonal_smul, Matrix.exp_diagonal]
  congr 1
  funext i
  rw [Pi.coe_exp, ← Complex.exp_eq_exp_ℂ]
  congr 1
  simp only [Pi.smul_apply, smul_eq_mul]
  push_cast
  ring

theorem diagonal_gate (c : Chip dims) (hc : c.WF) (v : Op dims) (e : Fin dims.prod → ℝ) (hv : Dressed c v e)
    (ps : List (String × Pulse)) (t' : Exp (Op dims)) (h : Computed c ps t')
    (g : String) (p : Pulse) (hp : ps.lookup g = some p) (hs : ∀ row ∈ p.values, ∀ x ∈ row, x = 0) :
    t'.propagators g = some (diagonal fun i => Complex.exp (Complex.I * ((if c.useFR then
      framePhase dims c.target p.shifts p.t p.freqs i else 0) - eigenframe true e v i * (p.dt * p.values.length) : ℝ))) := by
  rw [computed_gate c hc ps t' h g p hp hs, (dressed_drift c v e hv).1, exp_levels]
  congr 1
  cases c.useFR
  · simp only [Bool.false_eq_true, if_false, Matrix.one_mul]
    congr 1
    funext i
    congr 1
    push_cast
    ring
  · simp only [if_true]
    rw [diagonal_mul_diagonal]
    congr 1
    funext i
    rw [← Complex.exp_add]
    congr 1
    push_cast
    ring

/-! ## Theorems -/

/-- C238: in the dressed basis gates without signals keep all populations, whatever the couplings, frames and the state. -/
theorem C238_kept (c : Chip dims) (hc : c.WF) (v : Op dims) (e : Fin dims.prod → ℝ) (hv : Dressed c v e)
    (ps : List (String × Pulse)) (t' : Exp (Op dims)) (h : Computed c ps t') (seqs : List (List String))
    (hs : ∀ s ∈ seqs, SilentGates ps s) (psi : Fin dims.prod → ℂ) :
    evaluateClosed t'.propagators seqs psi = some (seqs.map fun _ => fun i => ‖psi i‖ ^ 2) := by
  have key : ∀ s, SilentGates ps s → ∃ u : Fin dims.prod → ℂ, (∀ i, ‖u i‖ = 1) ∧
      Fold.seqProp (fun g => (t'.propagators g).getD 1) s = diagonal u := by
    intro s hs
    induction s with
    | nil => exact ⟨fun _ => 1, fun _ => norm_one, by simp [Fold.seqProp, Fold.timeOrdered]⟩
    | cons g s ih =>
      obtain ⟨u, hu, h1⟩ := ih fun g hg => hs g (List.mem_cons_of_mem _ hg)
      obtain ⟨p, hp, hsil⟩ := hs g List.mem_cons_self
      have h2 := diagonal_gate c hc v e hv ps t' h g p hp hsil
      refine ⟨fun i => u i * Complex.exp (Complex.I * ((if c.useFR then framePhase dims c.target p.shifts p.t p.freqs i
        else 0) - eigenframe true e v i * (p.dt * p.values.length) : ℝ)), ?_, ?_⟩
      rotate_left
      · have : Fold.seqProp (fun g => (t'.propagators g).getD 1) (g :: s) =
            Fold.seqProp (fun g => (t'.propagators g).getD 1) s * (t'.propagators g).getD 1 := by
          unfold Fold.seqProp Fold.timeOrdered
          simp
        rw [this, h1, h2, Option.getD_some, diagonal_mul_diagonal]
      · intro i
        rw [norm_mul, hu, one_mul, mul_comm, Complex.norm_exp_ofReal_mul_I]
  unfold evaluateClosed
  induction seqs with
  | nil => rfl
  | cons s ss ih =>
    obtain ⟨u, hu, h1⟩ := key s (hs s List.mem_cons_self)
    rw [List.mapM_cons, ih fun s hs' => hs s (List.mem_cons_of_mem _ hs'), runSeq_eq t'.propagators s psi fun g hg => by
      obtain ⟨p, hp, hsil⟩ := hs s List.mem_cons_self g hg
      exact ⟨_, diagonal_gate c hc v e hv ps t' h g p hp hsil⟩, h1]
    simp only [Option.map_some, Option.pure_def, Option.bind_eq_bind, Option.bind_some, List.map_cons, Option.some.injEq,
      List.cons.injEq, and_true]
    funext i
    unfold popsClosed
    rw [mulVec_diagonal, norm_mul, hu, one_mul]

/-- C238: with the carriers at the reported frequencies, an idle gate multiplies the state of the label `l` by the phase of
`shift`, up to a phase that all states have in common. -/
theorem C238_idle (c : Chip dims) (hc : c.WF) (h2 : ∀ d ∈ dims, 2 ≤ d) (v : Op dims) (e : Fin dims.prod → ℝ)
    (hv : Dressed c v e) (hfr : c.useFR = true) (fs : List ℝ) (hfs : getQubitFreqs dims (some c.h0) = .ok fs)
    (ps : List (String × Pulse)) (t' : Exp (Op dims)) (h : Computed c ps t') (g : String) (q : Pulse)
    (hq : ps.lookup g = some q) (hs : ∀ row ∈ q.values, ∀ x ∈ row, x = 0) (hcar : Carriers c fs q)
    (E : List ℕ → ℝ) (hE : ∀ l, Valid dims l → IsLevel dims (c.sys.drift (ann dims)) l (E l)) :
    ∃ V, t'.propagators g = some V ∧ (∀ i j, i ≠ j → V i j = 0) ∧ ∃ u : ℂ, ‖u‖ = 1 ∧ ∀ l (hl : Valid dims l),
      V ⟨flat dims l, flat_lt hl⟩ ⟨flat dims l, flat_lt hl⟩ = u * Complex.exp (-Complex.I * (shift dims E l * q.t : ℝ)) := by
  refine ⟨_, diagonal_gate c hc v e hv ps t' h g q hq hs, fun i j hij => diagonal_apply_ne _ hij,
    Complex.exp (-Complex.I * (E (List.replicate dims.length 0) * q.t : ℝ)), ?_, fun l hl => ?_⟩
  · rw [show -Complex.I * ((E (List.replicate dims.length 0) * q.t : ℝ) : ℂ) =
      ((-(E (List.replicate dims.length 0) * q.t) : ℝ) : ℂ) * Complex.I by push_cast; ring, Complex.norm_exp_ofReal_mul_I]
  · obtain ⟨hd, hlev⟩ := dressed_drift c v e hv
    have hherm : (c.sys.drift (ann dims)).IsHermitian := by
      have := (C35_model dims c.sys hc.lines none).1
      exact this
    have hEq : ∀ l (hl : Valid dims l), eigenframe true e v ⟨flat dims l, flat_lt hl⟩ = E l := fun l hl =>
      C238_level _ hherm l _ _ (hlev l hl) (hE l hl)
    obtain ⟨ht, line, hf, htar⟩ := hcar
    rw [hd, freqs_eq h2] at hfs
    have hfs' : ∀ k < dims.length, 2 * Real.pi * fs.getD k 0 =
        E (unitLabel dims.length k) - E (List.replicate dims.length 0) := by
      intro k hk
      rw [← Except.ok.inj hfs, List.getD_eq_getElem _ _ (by simpa using hk), List.getElem_map, List.getElem_range]
      unfold diagRe
      rw [dif_pos (flat_lt (valid_unit h2 k)), dif_pos (flat_lt (valid_zero h2)), diagonal_apply_eq, diagonal_apply_eq,
        Complex.ofReal_re, Complex.ofReal_re, hEq _ (valid_unit h2 k), hEq _ (valid_zero h2)]
      field_simp
    have hphase : framePhase dims c.target q.shifts q.t q.freqs ⟨flat dims l, flat_lt hl⟩ =
        ((List.range dims.length).map fun k => (l.getD k 0 : ℝ) *
          (E (unitLabel dims.length k) - E (List.replicate dims.length 0))).sum * q.t := by
      unfold framePhase
      rw [hf, List.map_map, ← List.sum_map_mul_right]
      congr 1
      refine List.map_congr_left fun k hk => ?_
      have hk := List.mem_range.1 hk
      simp only [Function.comp_apply]
      rw [(htar k hk).1, (htar k hk).2, hfs' k hk, Option.getD_some, Option.getD_some, levelAt_flat hl]
      ring
    rw [diagonal_apply_eq, if_pos hfr, hphase, hEq l hl, ← ht, ← Complex.exp_add]
    congr 1
    unfold shift
    push_cast
    ring

theorem shift_ground (dims : List ℕ) (E : List ℕ → ℝ) : shift dims E (List.replicate dims.length 0) = 0 := by
  unfold shift
  rw [sub_self, zero_sub, neg_eq_zero]
  refine List.sum_eq_zero fun x hx => ?_
  obtain ⟨k, -, rfl⟩ := List.mem_map.1 hx
  simp

theorem shift_single (dims : List ℕ) (E : List ℕ → ℝ) (i : ℕ) (hi : i < dims.length) :
    shift dims E (unitLabel dims.length i) = 0 := by
  unfold shift
  have : ((List.range dims.length).map fun k => ((unitLabel dims.length i).getD k 0 : ℝ) *
      (E (unitLabel dims.length k) - E (List.replicate dims.length 0))).sum =
        E (unitLabel dims.length i) - E (List.replicate dims.length 0) := by
    have h : ∀ k, (unitLabel dims.length i).getD k 0 = if k = i then 1 else 0 := by
      intro k
      unfold unitLabel
      rw [List.getD_eq_getElem?_getD, List.getElem?_set]
      by_cases h : i = k
      · subst h
        simp [hi]
      · rw [if_neg h, if_neg (Ne.symm h)]
        rw [List.getElem?_replicate]
        split <;> rfl
    have h' : ((List.range dims.length).map fun k => ((unitLabel dims.length i).getD k 0 : ℝ) *
      (E (unitLabel dims.length k) - E (List.replicate dims.length 0))) = (List.range dims.length).map fun k =>
        if k = i then E (unitLabel dims.length i) - E (List.replicate dims.length 0) else 0 := by
      refine List.map_congr_left fun k _ => ?_
      rw [h]
      split
      · rename_i e
        subst e
        simp
      · simp
    rw [h']
    change ∑ k ∈ Finset.range dims.length, (if k = i then E (unitLabel dims.length i) -
      E (List.replicate dims.length 0) else 0) = _
    rw [Finset.sum_ite_eq', if_pos (Finset.mem_range.2 hi)]
  rw [this]
  ring

/-- C238: such an idle gate changes superpositions of the ground state and single excitations by a common phase only. -/
theorem C238_single (c : Chip dims) (hc : c.WF) (h2 : ∀ d ∈ dims, 2 ≤ d) (v : Op dims) (e : Fin dims.prod → ℝ)
    (hv : Dressed c v e) (hfr : c.useFR = true) (fs : List ℝ) (hfs : getQubitFreqs dims (some c.h0) = .ok fs)
    (ps : List (String × Pulse)) (t' : Exp (Op dims)) (h : Computed c ps t') (g : String) (q : Pulse)
    (hq : ps.lookup g = some q) (hs : ∀ row ∈ q.values, ∀ x ∈ row, x = 0) (hcar : Carriers c fs q) :
    ∃ V, t'.propagators g = some V ∧ ∃ u : ℂ, ‖u‖ = 1 ∧ ∀ psi : Fin dims.prod → ℂ,
      (∀ i, psi i ≠ 0 → (i : ℕ) = flat dims (List.replicate dims.length 0) ∨
        ∃ k < dims.length, (i : ℕ) = flat dims (unitLabel dims.length k)) → V *ᵥ psi = u • psi := by
  obtain ⟨-, hlev⟩ := dressed_drift c v e hv
  classical
  obtain ⟨V, hV, hoff, u, hu, hdiag⟩ := C238_idle c hc h2 v e hv hfr fs hfs ps t' h g q hq hs hcar
    (fun l => if hl : Valid dims l then eigenframe true e v ⟨flat dims l, flat_lt hl⟩ else 0) (by
      intro l hl
      rw [dif_pos hl]
      exact hlev l hl)
  refine ⟨V, hV, u, hu, fun psi hpsi => ?_⟩
  funext i
  rw [Pi.smul_apply, smul_eq_mul]
  have h1 : (V *ᵥ psi) i = V i i * psi i := by
    change ∑ j, V i j * psi j = _
    exact Finset.sum_eq_single i (fun j _ hj => by rw [hoff i j (Ne.symm hj), zero_mul]) (by simp)
  rw [h1]
  by_cases h0 : psi i = 0
  · rw [h0, mul_zero, mul_zero]
  · rcases hpsi i h0 with hi | ⟨k, hk, hi⟩
    · obtain rfl : i = ⟨_, flat_lt (valid_zero h2)⟩ := Fin.ext hi
      rw [hdiag _ (valid_zero h2), shift_ground]
      simp
    · obtain rfl : i = ⟨_, flat_lt (valid_unit h2 k)⟩ := Fin.ext hi
      rw [hdiag _ (valid_unit h2 k), shift_single _ _ _ hk]
      simp

/-! ## Two coupled two-level qubits -/

theorem mirror (ω₁ ω₂ J J' E : ℝ) (ψ : Fin 4 → ℂ) (p : Fin 4) (h1 : ∑ i, Complex.normSq (ψ i) = 1)
    (h2 : pairHam ω₁ ω₂ J J' *ᵥ ψ = (E : ℂ) • ψ) (h3 : 1 / 2 < Complex.normSq (ψ p)) :
    ∃ φ : Fin 4 → ℂ, ∑ i, Complex.normSq (φ i) = 1 ∧ pairHam ω₁ ω₂ J J' *ᵥ φ = ((ω₁ + ω₂ - E : ℝ) : ℂ) • φ ∧
      1 / 2 < Complex.normSq (φ (partner p)) := by
  have e0 := congrFun h2 0
  have e1 := congrFun h2 1
  have e2 := congrFun h2 2
  have e3 := congrFun h2 3
  simp [mulVec, dotProduct, Fin.sum_univ_four, pairHam] at e0 e1 e2 e3
  refine ⟨![ψ 3, ψ 2, -ψ 1, -ψ 0], ?_, ?_, ?_⟩
  · rw [Fin.sum_univ_four] at h1 ⊢
    simp only [Matrix.cons_val, Complex.normSq_neg]
    linarith
  · funext i
    fin_cases i <;> simp [mulVec, dotProduct, Fin.sum_univ_four, pairHam]
    · linear_combination -e3
    · linear_combination -e2
    · linear_combination e1
    · linear_combination e0
  · fin_cases p <;> simpa [partner, Complex.normSq_neg] using h3

theorem pair_levels (f : IntFun) (ω₁ ω₂ J : ℝ) (H : Op [2, 2]) (hH : H.IsHermitian)
    (he : H = (pairHam ω₁ ω₂ J (evenSign f * J : ℝ) : Matrix (Fin 4) (Fin 4) ℂ)) (l m : List ℕ) (p : Fin 4)
    (hp : (p : ℕ) = flat [2, 2] l) (hm : (partner p : ℕ) = flat [2, 2] m) (E E' : ℝ)
    (h : IsLevel [2, 2] H l E) (h' : IsLevel [2, 2] H m E') : E + E' = ω₁ + ω₂ := by
  obtain ⟨ψ, h1, h2, p', hp', h3⟩ := h
  obtain rfl : p' = p := Fin.ext (hp'.trans hp.symm)
  subst he
  obtain ⟨φ, g1, g2, g3⟩ := mirror ω₁ ω₂ J (evenSign f * J) E ψ p' h1 h2 h3
  have := C238_level _ hH m _ _ ⟨φ, g1, g2, partner p', hm, g3⟩ h'
  linarith

/-- C238: the levels of a pair of two-level qubits with an `int_XX` or `int_YY` coupling add up, so the idle gate is the
identity up to a phase. -/
theorem C238_pair (c : Chip [2, 2]) (hc : c.WF) (f : IntFun) (ω₁ ω₂ J : ℝ) (hp : Pair { c with tr := none } f ω₁ ω₂ J)
    (v : Op [2, 2]) (e : Fin [2, 2].prod → ℝ)
    (hv : Dressed c v e) (hfr : c.useFR = true) (fs : List ℝ) (hfs : getQubitFreqs [2, 2] (some c.h0) = .ok fs)
    (ps : List (String × Pulse)) (t' : Exp (Op [2, 2])) (h : Computed c ps t') (g : String) (q : Pulse)
    (hq : ps.lookup g = some q) (hs : ∀ row ∈ q.values, ∀ x ∈ row, x = 0) (hcar : Carriers c fs q) :
    ∃ u : ℂ, ‖u‖ = 1 ∧ t'.propagators g = some (u • 1) := by
  obtain ⟨-, hlev⟩ := dressed_drift c v e hv
  have hdrift : c.sys.drift (ann [2, 2]) = (pairHam ω₁ ω₂ J (evenSign f * J : ℝ) : Matrix (Fin 4) (Fin 4) ℂ) :=
    drift_pair { c with tr := none } ⟨hc.lines, hc.target, hc.batch⟩ f ω₁ ω₂ J hp
  have hherm : (c.sys.drift (ann [2, 2])).IsHermitian := (C35_model [2, 2] c.sys hc.lines none).1
  classical
  set E : List ℕ → ℝ := fun l => if hl : Valid [2, 2] l then eigenframe true e v ⟨flat [2, 2] l, flat_lt hl⟩ else 0
  have hE : ∀ l, Valid [2, 2] l → IsLevel [2, 2] (c.sys.drift (ann [2, 2])) l (E l) := by
    intro l hl
    simp only [E]
    rw [dif_pos hl]
    exact hlev l hl
  have hval : ∀ a < 2, ∀ b < 2, Valid [2, 2] [a, b] := by
    intro a ha b hb
    simp [Valid, ha, hb]
  have v00 := hval 0 (by norm_num) 0 (by norm_num)
  have v01 := hval 0 (by norm_num) 1 (by norm_num)
  have v10 := hval 1 (by norm_num) 0 (by norm_num)
  have v11 := hval 1 (by norm_num) 1 (by norm_num)
  have s1 : E [0, 0] + E [1, 1] = ω₁ + ω₂ :=
    pair_levels f ω₁ ω₂ J _ hherm hdrift [0, 0] [1, 1] 0 rfl rfl _ _ (hE _ v00) (hE _ v11)
  have s2 : E [0, 1] + E [1, 0] = ω₁ + ω₂ :=
    pair_levels f ω₁ ω₂ J _ hherm hdrift [0, 1] [1, 0] 1 rfl rfl _ _ (hE _ v01) (hE _ v10)
  obtain ⟨V, hV, hoff, u, hu, hdiag⟩ := C238_idle c hc (by simp) v e hv hfr fs hfs ps t' h g q hq hs hcar E hE
  have z00 : shift [2, 2] E [0, 0] = 0 := shift_ground [2, 2] E
  have z10 : shift [2, 2] E [1, 0] = 0 := shift_single [2, 2] E 0 (by simp)
  have z01 : shift [2, 2] E [0, 1] = 0 := shift_single [2, 2] E 1 (by simp)
  have z11 : shift [2, 2] E [1, 1] = 0 := by
    have : shift [2, 2] E [1, 1] = E [1, 1] - E [0, 0] - ((1 : ℕ) * (E [1, 0] - E [0, 0]) +
        ((1 : ℕ) * (E [0, 1] - E [0, 0]) + 0)) := rfl
    rw [this]
    push_cast
    linarith
  have one : ∀ l (hl : Valid [2, 2] l), shift [2, 2] E l = 0 → V ⟨flat [2, 2] l, flat_lt hl⟩ ⟨flat [2, 2] l, flat_lt hl⟩ = u := by
    intro l hl h0
    rw [hdiag l hl, h0]
    simp
  have d : ∀ i : Fin 4, V i i = u := by
    intro i
    fin_cases i
    · exact one _ v00 z00
    · exact one _ v01 z01
    · exact one _ v10 z10
    · exact one _ v11 z11
  refine ⟨u, hu, hV.trans (congrArg some ?_)⟩
  ext i j
  rw [Matrix.smul_apply, smul_eq_mul]
  by_cases hij : i = j
  · subst hij
    rw [Matrix.one_apply_eq, mul_one]
    exact d i
  · rw [Matrix.one_apply_ne hij, mul_zero, hoff i j hij]

theorem runSeq_append {n : Type*} [Fintype n] [DecidableEq n] (Q : String → Option (Matrix n n ℂ)) (s s' : List String)
    (psi : n → ℂ) : runSeq Q (s ++ s') psi = (runSeq Q s psi).bind (runSeq Q s') := by
  induction s generalizing psi with
  | nil => rfl
  | cons g s ih =>
    simp only [List.cons_append, runSeq]
    cases Q g with
    | none => rfl
    | some U => exact ih _

theorem runSeq_smul {n : Type*} [Fintype n] [DecidableEq n] (Q : String → Option (Matrix n n ℂ)) (s : List String)
    (u : ℂ) (psi : n → ℂ) : runSeq Q s (u • psi) = (runSeq Q s psi).map fun x => u • x := by
  induction s generalizing psi with
  | nil => rfl
  | cons g s ih =>
    simp only [runSeq]
    cases Q g with
    | none => rfl
    | some U => exact (congrArg (runSeq Q s) (Matrix.mulVec_smul U u psi)).trans (ih _)

/-- C238: waiting anywhere in a sequence of gates of such a pair does not change the populations. -/
theorem C238_unseen (c : Chip [2, 2]) (hc : c.WF) (f : IntFun) (ω₁ ω₂ J : ℝ) (hp : Pair { c with tr := none } f ω₁ ω₂ J)
    (v : Op [2, 2]) (e : Fin [2, 2].prod → ℝ)
    (hv : Dressed c v e) (hfr : c.useFR = true) (fs : List ℝ) (hfs : getQubitFreqs [2, 2] (some c.h0) = .ok fs)
    (ps : List (String × Pulse)) (t' : Exp (Op [2, 2])) (h : Computed c ps t') (g : String) (q : Pulse)
    (hq : ps.lookup g = some q) (hs : ∀ row ∈ q.values, ∀ x ∈ row, x = 0) (hcar : Carriers c fs q)
    (s s' : List String) (psi : Fin [2, 2].prod → ℂ) :
    evaluateClosed t'.propagators [s ++ g :: s'] psi = evaluateClosed t'.propagators [s ++ s'] psi := by
  obtain ⟨u, hu, hg⟩ := C238_pair c hc f ω₁ ω₂ J hp v e hv hfr fs hfs ps t' h g q hq hs hcar
  have key : (runSeq t'.propagators (s ++ g :: s') psi).map popsClosed =
      (runSeq t'.propagators (s ++ s') psi).map popsClosed := by
    rw [runSeq_append, runSeq_append]
    cases runSeq t'.propagators s psi with
    | none => rfl
    | some φ =>
      simp only [Option.bind_some]
      have : runSeq t'.propagators (g :: s') φ = runSeq t'.propagators s' (u • φ) := by
        simp only [runSeq, hg]
        congr 1
        rw [Matrix.smul_mulVec, Matrix.one_mulVec]
      rw [this, runSeq_smul, Option.map_map]
      congr 1
      funext x i
      change ‖u * x i‖ ^ 2 = ‖x i‖ ^ 2
      rw [norm_mul, hu, one_mul]
  unfold evaluateClosed
  rw [List.mapM_cons, List.mapM_cons, key]

/-! ## Such chips exist -/

/-- Eigenvectors of a pair with the frequencies 154 and 84 and the strength 120. -/
def exV : Matrix (Fin 4) (Fin 4) ℂ :=
  !![12 / 13, 0, 0, 5 / 13; 0, 4 / 5, 3 / 5, 0; 0, -(3 / 5), 4 / 5, 0; -(5 / 13), 0, 0, 12 / 13]

/-- Their energies. -/
def exE : Fin 4 → ℝ := ![-50, -6, 244, 288]

/-- The chip in the dressed basis. -/
def exChip : Chip [2, 2] := { pairChip .xx 154 84 120 true with tr := some (transform true (N := 4) exV) }

/-- A gate of `N` empty samples with carriers at the reported frequencies. -/
def exWait (fs : List ℝ) (T : ℝ) (N : ℕ) : Pulse :=
  ⟨[], List.replicate N [], T / N, [("d1", 2 * Real.pi * fs.getD 0 0), ("d2", 2 * Real.pi * fs.getD 1 0)],
    fun _ => some 0, T⟩

theorem exV_unitary : IsUnitary exV := by
  have k : ∀ n : ℕ, (starRingEnd ℂ) (n : ℂ) = n := Complex.conj_natCast
  have k3 := k 3
  have k4 := k 4
  have k5 := k 5
  have k12 := k 12
  have k13 := k 13
  push_cast at k3 k4 k5 k12 k13
  constructor <;>
  · ext i j
    fin_cases i <;> fin_cases j <;>
      simp [exV, Matrix.mul_apply, Fin.sum_univ_four, Matrix.conjTranspose_apply, k3, k4, k5, k12, k13] <;> norm_num

theorem exV_eigen : pairHam (154 : ℝ) (84 : ℝ) (120 : ℝ) (evenSign .xx * 120 : ℝ) * exV =
    exV * diagonal fun j => (exE j : ℂ) := by
  ext i j
  fin_cases i <;> fin_cases j <;>
    simp [exV, exE, pairHam, evenSign, Matrix.mul_apply, Fin.sum_univ_four, diagonal_apply] <;> norm_num

/-- C238: such chips and experiments exist, for every length of the gate. -/
theorem C238_setup (T : ℝ) (N : ℕ) (hN : 0 < N) (g : String) :
    ∃ fs t', exChip.WF ∧ Dressed exChip exV exE ∧ Pair { exChip with tr := none } .xx 154 84 120 ∧
      getQubitFreqs [2, 2] (some exChip.h0) = .ok fs ∧ Computed exChip [(g, exWait fs T N)] t' ∧
        (∀ row ∈ (exWait fs T N).values, ∀ x ∈ row, x = 0) ∧ Carriers exChip fs (exWait fs T N) := by
  have hw' := pairChip_wf .xx 154 84 120 true
  have hw : exChip.WF := ⟨hw'.lines, hw'.target, hw'.batch⟩
  have hp : Pair { exChip with tr := none } .xx 154 84 120 :=
    (C237_setup .xx 154 84 120 0 0 1 one_pos true g).2.1
  have hdrift := drift_pair _ hw' .xx 154 84 120 hp
  have hd : Dressed exChip exV exE := by
    refine ⟨rfl, exV_unitary, ?_, ?_, ?_⟩
    · intro j
      have : ∀ j : Fin 4, 1 / 2 < Complex.normSq (exV j j) := by
        intro j
        fin_cases j <;> simp [exV] <;> norm_num
      exact ⟨j, this j⟩
    · have : ∀ i j : Fin 4, (exV i j).im = 0 := by
        intro i j
        fin_cases i <;> fin_cases j <;> simp [exV]
      exact this
    · have h0 : exChip.sys.drift (ann [2, 2]) = (pairHam (154 : ℝ) (84 : ℝ) (120 : ℝ) (evenSign .xx * 120 : ℝ) :
        Matrix (Fin 4) (Fin 4) ℂ) := hdrift
      rw [h0]
      exact exV_eigen
  obtain ⟨hdiag, -⟩ := dressed_drift exChip exV exE hd
  have hfs := freqs_eq (dims := [2, 2]) (by simp) exChip.h0
  set fs := _
  have hlook : List.lookup g [(g, exWait fs T N)] = some (exWait fs T N) := by simp
  obtain ⟨V, h⟩ := C199_computed exChip hw [(g, exWait fs T N)] g (exWait fs T N) hlook
    (by
      intro h0
      have := congrArg List.length h0
      simp [exWait] at this
      omega) (by simp [exWait])
    (fun l _ => ⟨⟨0, rfl⟩, by
      by_cases h : l.1 = "d2"
      · exact ⟨1, by decide, if_pos h⟩
      · exact ⟨0, by decide, if_neg h⟩⟩)
  let t : Exp (Op [2, 2]) := ⟨none, .name "pwc", none, none, false, fun _ => none⟩
  obtain ⟨table, t', ht⟩ := (C68_succeeds_iff (closed exChip [(g, exWait fs T N)]) (closed_wf _ _) t rfl).2 (by
    intro g' hg
    have : g' = g := by simpa [t, closed] using hg
    rw [this]
    exact ⟨V, h⟩)
  refine ⟨fs, t', hw, hd, hp, hfs, ⟨t, rfl, rfl, table, ht⟩, ?_, ?_, ?_⟩
  · intro row hr x hx
    rw [show row = [] from List.eq_of_mem_replicate hr] at hx
    simp at hx
  · have : (N : ℝ) ≠ 0 := by exact_mod_cast hN.ne'
    simp only [exWait, List.length_replicate]
    field_simp
  · refine ⟨fun k => if k = 0 then "d1" else "d2", rfl, fun k hk => ?_⟩
    have hk : k < 2 := hk
    interval_cases k <;> exact ⟨rfl, rfl⟩

/-- Strongly coupled qubits with the dressed frequencies reported by the model: waiting is not seen. -/
example : ∃ (fs : List ℝ) (t' : Exp (Op [2, 2])), Computed exChip [("wait", exWait fs 7 10)] t' ∧
    ∀ (s s' : List String) (psi : Fin [2, 2].prod → ℂ),
      evaluateClosed t'.propagators [s ++ "wait" :: s'] psi = evaluateClosed t'.propagators [s ++ s'] psi := by
  obtain ⟨fs, t', hw, hd, hp, hfs, hcomp, hs, hcar⟩ := C238_setup 7 10 (by norm_num) "wait"
  exact ⟨fs, t', hcomp, fun s s' psi => C238_unseen exChip hw .xx 154 84 120 hp exV exE hd rfl fs hfs _ t' hcomp "wait" _
    (by simp) hs hcar s s' psi⟩

end C3.Experiment.Idle
