import Verif.Quantity.Lemmas

/-!
# Properties of quantities (C01 - C08, C87)

Reading guide: `q.numpy` is what `q.numpy()` returns (own unit), `q.getValue` what `q.get_value()`
returns (own unit times the unit factor `pref`), `q.getLimits` the pair `q.get_limits()`.
`WF q` says that `q` has distinct limits (`scale > 0`), a positive unit factor and as many
entries as its shape says; `mk'_wf` shows the constructor only builds such quantities.
-/

noncomputable section

namespace C3
namespace Quantity

/-- A concrete quantity used for the non-vacuity examples: 5 (2 pi) Hz between 0 and 10. -/
def exQ : Quantity :=
  { value := [0], offset := 0, scale := 20 * Real.pi, pref := 2 * Real.pi, unit := "Hz 2pi",
    length := 1 }

theorem exQ_wf : WF exQ := by
  have := Real.pi_pos
  exact ⟨by simp only [exQ]; positivity, by simp only [exQ]; positivity, rfl⟩

theorem exQ_inRange : InRange exQ := by
  intro v hv
  simp only [exQ, List.mem_singleton] at hv
  subst hv
  have := closeTol_pos
  simp only [abs_zero]; linarith

/-! ## C01 -/

/-- **C01** (success): what was written is what is read, in the own unit and in physical units, and
limits, unit factor and shape are unchanged. -/
theorem C01_set_get (q q' : Quantity) (hw : WF q) (v : List ℝ) (h : q.setValue v = .ok q') :
    q'.numpy = v ∧ q'.getValue = v.map (fun x => x * q.pref) ∧ q'.getLimits = q.getLimits ∧
      q'.length = q.length ∧ q'.unit = q.unit ∧ WF q' := by
  simp only [setValue, Bool.false_eq_true, if_false] at h
  split_ifs at h with h1
  obtain ⟨h2, _, rfl⟩ := setValueRaw_ok h
  have hg := getValue_set q v h2
  refine ⟨?_, hg, rfl, rfl, rfl, hw.scale_pos, hw.pref_pos, by simpa using h1⟩
  rw [numpy, hg, List.map_map]
  conv_rhs => rw [← List.map_id v]
  apply List.map_congr_left
  intro x _
  have := hw.pref_pos.ne'
  simp only [Function.comp, id]
  field_simp

/-- **C01** (failure): a write that raises leaves the quantity as it was. -/
theorem C01_raise_unchanged (q : Quantity) (hw : WF q) (o : Op) (e : QErr)
    (h : o.call q = .error e) : o.step q = q := step_of_error q hw o e h

/-- The extending setter, the only one that assigns before checking, never raises on a value of
the right shape, so the previous theorem loses nothing for it. -/
theorem setExtend_ok (q : Quantity) (hw : WF q) (v : List ℝ) (hl : v.length = q.length) :
    ∃ q', q.setValue v true = .ok q' := by
  obtain ⟨q', h, _⟩ := setValueExtend_eq q hw v
  exact ⟨q', by simp [setValue, hl, h]⟩

/-! ## C04 -/

/-- **C04**, the tolerance: NumPy's default one, so that scaled values up to 1.00001001 are accepted. -/
theorem C04_tolerance (t : ℝ) : (refused t ↔ 100001001 / 100000000 < |t|) ∧ closeTol = 1001 / 100000000 := by
  rw [refused_iff]
  unfold closeTol
  norm_num

/-- **C04**: `set_value(v)` raises the out-of-bounds error exactly when some entry lies outside of
the limits by more than half the relative tolerance times the width. -/
theorem C04_rejected_iff (q : Quantity) (hw : WF q) (v : List ℝ) (hl : v.length = q.length) :
    q.setValue v = .error .oob ↔
      ∃ x ∈ v, x < q.getLimits.1 - closeTol / 2 * (q.getLimits.2 - q.getLimits.1) ∨
        q.getLimits.2 + closeTol / 2 * (q.getLimits.2 - q.getLimits.1) < x := by
  have hd : 0 < q.getLimits.2 - q.getLimits.1 := sub_pos.2 (limits_lt q hw)
  have key : ∀ x, |2 * (x * q.pref - q.offset) / q.scale - 1| ≤ 1 + closeTol ↔
      q.getLimits.1 - closeTol / 2 * (q.getLimits.2 - q.getLimits.1) ≤ x ∧
      x ≤ q.getLimits.2 + closeTol / 2 * (q.getLimits.2 - q.getLimits.1) := by
    intro x
    rw [tmp_eq q hw]
    generalize q.getLimits.1 = lo at *
    generalize q.getLimits.2 = hi at *
    have e2 : 2 * (x - lo) / (hi - lo) - 1 = (2 * (x - lo) - (hi - lo)) / (hi - lo) := by
      field_simp
    rw [e2, abs_div, abs_of_pos hd, div_le_iff₀ hd, abs_le]
    constructor
    · rintro ⟨a, b⟩; constructor <;> nlinarith
    · rintro ⟨a, b⟩; constructor <;> nlinarith
  constructor
  · intro h
    by_contra hc
    push Not at hc
    have : q.setValueRaw v = _ :=
      setValueRaw_eq hw.scale_pos.ne' fun x hx => (key x).2 (hc x hx)
    simp [setValue, hl, this] at h
  · rintro ⟨x, hx, hxo⟩
    have hn : ¬ |2 * (x * q.pref - q.offset) / q.scale - 1| ≤ 1 + closeTol := by
      rw [key]; rintro ⟨a, b⟩; rcases hxo with h | h <;> linarith
    have : q.setValueRaw v = .error .oob := by
      unfold setValueRaw
      rw [if_neg hw.scale_pos.ne']
      exact if_pos ⟨_, List.mem_map_of_mem hx, (refused_iff _).2 (not_le.1 hn)⟩
    simp [setValue, hl, this]

/-- **C04** (corollary): a value inside the limits is never rejected. -/
theorem C04_accepted (q : Quantity) (hw : WF q) (v : List ℝ) (hl : v.length = q.length)
    (h : ∀ x ∈ v, q.getLimits.1 ≤ x ∧ x ≤ q.getLimits.2) :
    ∃ q', q.setValue v = .ok q' ∧ q'.numpy = v := by
  have := setValueRaw_of_mem q hw v h
  have e : q.setValue v = .ok { q with
      value := v.map fun x => 2 * (x * q.pref - q.offset) / q.scale - 1 } := by
    simp only [setValue, hl, ne_eq, not_true_eq_false, if_false, Bool.false_eq_true]
    exact this
  exact ⟨_, e, (C01_set_get q _ hw v e).1⟩

example : ∃ q', exQ.setValue [7] = .ok q' ∧ q'.numpy = [7] := by
  have hp := Real.pi_pos
  apply C04_accepted exQ exQ_wf _ rfl
  intro x hx
  simp only [List.mem_singleton] at hx
  subst hx
  have e : (20 * Real.pi + 0) / (2 * Real.pi) = 10 := by field_simp; ring
  simp only [exQ, getLimits, e]
  norm_num

example : exQ.setValue [11] = .error .oob := by
  have hp := Real.pi_pos
  rw [C04_rejected_iff exQ exQ_wf _ rfl]
  refine ⟨11, by simp, Or.inr ?_⟩
  have e : (20 * Real.pi + 0) / (2 * Real.pi) = 10 := by field_simp; ring
  simp only [exQ, getLimits, e, closeTol]
  norm_num

/-! ## C02 -/

/-- **C02**: after any history of writes (plain, extending, optimizer, in-place arithmetic, each
possibly rejected) every entry lies between the limits reported at that time, up to half the
relative closeness tolerance times the width. -/
theorem C02_history_within_limits (q : Quantity) (hw : WF q) (hr : InRange q) (ops : List Op) :
    let r := ops.foldl Op.step q
    ∀ x ∈ r.numpy, r.getLimits.1 - closeTol / 2 * (r.getLimits.2 - r.getLimits.1) ≤ x ∧
      x ≤ r.getLimits.2 + closeTol / 2 * (r.getLimits.2 - r.getLimits.1) := by
  have key : ∀ q, WF q → InRange q → WF (ops.foldl Op.step q) ∧ InRange (ops.foldl Op.step q) := by
    induction ops with
    | nil => exact fun q h1 h2 => ⟨h1, h2⟩
    | cons o os ih =>
      intro q h1 h2
      obtain ⟨a, b, _⟩ := step_inv q h1 h2 o
      exact ih _ a b
  obtain ⟨a, b⟩ := key q hw hr
  exact inRange_numpy a b

example : ∀ x ∈ ([Op.set [7], .setOpt [3.7], .setExtend [-100], .set [500]].foldl Op.step exQ).numpy,
    x ≤ (([Op.set [7], .setOpt [3.7], .setExtend [-100], .set [500]].foldl Op.step exQ).getLimits.2 +
      closeTol / 2 *
      (([Op.set [7], .setOpt [3.7], .setExtend [-100], .set [500]].foldl Op.step exQ).getLimits.2 -
       ([Op.set [7], .setOpt [3.7], .setExtend [-100], .set [500]].foldl Op.step exQ).getLimits.1)) :=
  fun x hx => (C02_history_within_limits exQ exQ_wf exQ_inRange _ x hx).2

/-! ## C03 -/

/-- **C03**: an optimizer write of the right size always succeeds, the resulting value lies within
the limits (without tolerance). -/
theorem C03_opt_in_limits (q : Quantity) (hw : WF q) (v : List ℝ) (hl : v.length = q.length) :
    ∃ q', q.setOptValue v = .ok q' ∧ q'.getLimits = q.getLimits ∧
      ∀ x ∈ q'.numpy, q.getLimits.1 ≤ x ∧ x ≤ q.getLimits.2 := by
  refine ⟨{ q with value := v.map foldOpt }, by simp [setOptValue, hl], rfl, ?_⟩
  intro x hx
  obtain ⟨y, hy, rfl⟩ := List.mem_map.1 hx
  obtain ⟨w, hw', rfl⟩ := List.mem_map.1 hy
  obtain ⟨u, _, rfl⟩ := List.mem_map.1 hw'
  obtain ⟨h1, h2⟩ := foldOpt_mem u
  have hp := hw.pref_pos
  have hs := hw.scale_pos
  simp only [getLimits]
  constructor <;> apply div_le_div_of_nonneg_right _ hp.le <;> nlinarith

/-- **C03**: vectors with entries in `[-1,1]` are taken over unchanged by the optimizer setter:
they are read back by `get_opt_value`. -/
theorem C03_opt_identity (q : Quantity) (v : List ℝ) (hl : v.length = q.length)
    (h : ∀ x ∈ v, -1 ≤ x ∧ x ≤ 1) :
    ∃ q', q.setOptValue v = .ok q' ∧ q'.getOptValue = v := by
  refine ⟨{ q with value := v.map foldOpt }, by simp [setOptValue, hl], ?_⟩
  simp only [getOptValue]
  conv_rhs => rw [← List.map_id v]
  exact List.map_congr_left fun x hx => foldOpt_of_mem (h x hx).1 (h x hx).2

/-- **C03**: outside of `[-1,1]` the optimizer setter is the triangular wave: `x` is stored for
every proposal `x + 4k` and for every reflected proposal `2 - x + 4k`, `x ∈ [-1,1]`. -/
theorem C03_triangular_wave (q : Quantity) (x : ℝ) (k : ℤ) (h1 : -1 ≤ x) (h2 : x ≤ 1)
    (hl : q.length = 1) :
    (∃ q', q.setOptValue [x + 4 * k] = .ok q' ∧ q'.getOptValue = [x]) ∧
    (∃ q', q.setOptValue [2 - x + 4 * k] = .ok q' ∧ q'.getOptValue = [x]) := by
  refine ⟨⟨{ q with value := [x + 4 * k].map foldOpt }, by simp [setOptValue, hl], ?_⟩,
    ⟨{ q with value := [2 - x + 4 * k].map foldOpt }, by simp [setOptValue, hl], ?_⟩⟩
  · simp [getOptValue, foldOpt_add_four, foldOpt_of_mem h1 h2]
  · have : (2 - x : ℝ) = (-2 - x) + 4 * (1 : ℤ) := by push_cast; ring
    simp only [getOptValue, List.map_cons, List.map_nil, foldOpt_add_four]
    rw [this, foldOpt_add_four, foldOpt_reflect, foldOpt_of_mem h1 h2]

example : ∃ q', exQ.setOptValue [1.5] = .ok q' ∧ q'.getOptValue = [0.5] := by
  have h := (C03_triangular_wave exQ 0.5 0 (by norm_num) (by norm_num) rfl).2
  norm_num at h ⊢
  exact h

/-! ## C05 -/

/-- **C05**: an extending write succeeds, reads back, and only widens the limits. -/
theorem C05_extend (q : Quantity) (hw : WF q) (v : List ℝ) (hl : v.length = q.length) :
    ∃ q', q.setValue v true = .ok q' ∧ q'.numpy = v ∧
      q'.getLimits.1 ≤ q.getLimits.1 ∧ q.getLimits.2 ≤ q'.getLimits.2 ∧ WF q' := by
  obtain ⟨q', h, h2, _, h3, h4, h5, h6, h7, h8, _⟩ := setValueExtend_eq q hw v
  refine ⟨q', by simp [setValue, hl, h], ?_, h5, h6, h4, by rw [h2]; exact hw.pref_pos,
    by rw [h8, h3, hl]⟩
  rw [numpy, h7, h2, List.map_map]
  conv_rhs => rw [← List.map_id v]
  apply List.map_congr_left
  intro x _
  have := hw.pref_pos.ne'
  simp only [Function.comp, id]
  field_simp

example : ∃ q', exQ.setValue [-300] true = .ok q' ∧ q'.numpy = [-300] :=
  let ⟨q', h, h2, _⟩ := C05_extend exQ exQ_wf [-300] rfl
  ⟨q', h, h2⟩

/-! ## C06 -/

/-- **C06**: a quantity whose factor comes from its unit string survives `asdict` / constructor. -/
theorem C06_asdict_roundtrip (q : Quantity) (hw : WF q) (hr : InRange q)
    (hu : q.pref = unitPref q.unit) : ofDict q.asdict = .ok q := by
  have hp := hw.pref_pos.ne'
  have hs := hw.scale_pos.ne'
  have e1 : |q.scale / q.pref + q.offset / q.pref - q.offset / q.pref| * unitPref q.unit = q.scale := by
    rw [← hu, add_sub_cancel_right, abs_of_pos (div_pos hw.scale_pos hw.pref_pos)]
    field_simp
  have e2 : q.offset / q.pref * unitPref q.unit = q.offset := by rw [← hu]; field_simp
  have hnl : q.numpy.length = q.length := by simp [numpy, getValue, hw.len]
  have hval : (q.numpy.map fun x => 2 * (x * q.pref - q.offset) / q.scale - 1) = q.value := by
    simp only [numpy, getValue, List.map_map]
    conv_rhs => rw [← List.map_id q.value]
    apply List.map_congr_left
    intro x _
    simp only [Function.comp, id]
    field_simp
    ring
  simp only [ofDict, asdict, mk', setLimits, e1, e2, hnl]
  simp only [setValue, hnl, ne_eq, not_true_eq_false, if_false, Bool.false_eq_true]
  rw [setValueRaw_eq (q := Quantity.mk [] q.offset q.scale (unitPref q.unit) q.unit q.length) hs]
  · simp only [← hu, hval]
  · intro x hx
    simp only [← hu]
    have : 2 * (x * q.pref - q.offset) / q.scale - 1 ∈ q.value := by
      rw [← hval]; exact List.mem_map_of_mem hx
    exact hr _ this

example : ofDict exQ.asdict = .ok exQ := by
  apply C06_asdict_roundtrip exQ exQ_wf exQ_inRange
  have : hasSub "2pi".toList exQ.unit.toList = true := by decide +kernel
  simp only [unitPref, this, if_true]
  rfl

/-! ## C07 -/

/-- What the operators of the code really compute: the operation applied to `get_value()`,
multiplied once more by the unit factor. -/
theorem arith_getValue (q : Quantity) (hw : WF q) (f : ℝ → ℝ) :
    ∃ q', q.arith f = .ok q' ∧ q'.getValue = q.getValue.map (fun v => q.pref * f v) := by
  obtain ⟨q', h, h2, _, h3, h4, h5, h6, h7, h8, _⟩ := setValueExtend_eq q hw (q.getValue.map f)
  refine ⟨q', h, ?_⟩
  rw [h7, List.map_map]
  exact List.map_congr_left fun x _ => mul_comm _ _

/-- **C07, partial**: for quantities whose unit carries no factor (`pref = 1`) every operator yields
a quantity whose `get_value()` is the operation applied to `q.get_value()`.
Missing: units containing "pi", for which the claim is false (`C07_false`). -/
theorem C07_arith_partial (q : Quantity) (hw : WF q) (hp : q.pref = 1) (x : ℝ) (n : ℕ) :
    (∃ q', q.add x = .ok q' ∧ q'.getValue = q.getValue.map (· + x)) ∧
    (∃ q', q.sub x = .ok q' ∧ q'.getValue = q.getValue.map (· - x)) ∧
    (∃ q', q.rsub x = .ok q' ∧ q'.getValue = q.getValue.map (x - ·)) ∧
    (∃ q', q.mul x = .ok q' ∧ q'.getValue = q.getValue.map (· * x)) ∧
    (∃ q', q.truediv x = .ok q' ∧ q'.getValue = q.getValue.map (· / x)) ∧
    (∃ q', q.pow n = .ok q' ∧ q'.getValue = q.getValue.map (· ^ n)) := by
  have key : ∀ f, ∃ q', q.arith f = .ok q' ∧ q'.getValue = q.getValue.map f := by
    intro f
    obtain ⟨q', h, h'⟩ := arith_getValue q hw f
    refine ⟨q', h, ?_⟩
    simpa only [hp, one_mul] using h'
  exact ⟨key _, key _, key _, key _, key _, key _⟩

example : WF { exQ with pref := 1 } ∧ ({ exQ with pref := 1 } : Quantity).pref = 1 :=
  ⟨⟨exQ_wf.1, one_pos, rfl⟩, rfl⟩

/-- **C07 is false** for units with a factor: 5 (2 pi) Hz plus 0 is not 5 (2 pi) Hz. -/
theorem C07_false : ¬ ∀ (q : Quantity), WF q → InRange q → q.pref = unitPref q.unit →
    ∀ x : ℝ, ∃ q', q.add x = .ok q' ∧ q'.getValue = q.getValue.map (· + x) := by
  intro H
  have hu : exQ.pref = unitPref exQ.unit := by
    have : hasSub "2pi".toList exQ.unit.toList = true := by decide +kernel
    simp only [unitPref, this, if_true]
    rfl
  obtain ⟨q', h, h'⟩ := H exQ exQ_wf exQ_inRange hu 0
  obtain ⟨q'', g, g'⟩ := arith_getValue exQ exQ_wf (fun v => v + 0)
  have : Except.ok q' = (Except.ok q'' : Except QErr Quantity) := h.symm.trans g
  injection this with this
  subst this
  rw [h'] at g'
  have hp := Real.pi_gt_three
  simp [exQ, getValue] at g'
  nlinarith

/-! ## C220 -/

theorem numpy_eq (q : Quantity) (hp : q.pref = 1) : q.numpy = q.getValue := by
  simp [numpy, hp]

/-- **C220, partial**: for quantities whose unit carries no factor, `add` and `subtract` shift the value by the number
given, if they return, and keep the limits; they raise exactly if a shifted entry is outside of the limits by more than
the tolerance of `set_value`, and then change nothing.
Missing: units containing "pi", for which the claim is false (`C220_false`). -/
theorem C220_in_place_partial (q : Quantity) (hw : WF q) (hp : q.pref = 1) (x : ℝ) :
    (∀ q', q.addInPlace x = .ok q' → q'.numpy = q.numpy.map (· + x) ∧ q'.getLimits = q.getLimits) ∧
    (∀ q', q.subtractInPlace x = .ok q' → q'.numpy = q.numpy.map (· - x) ∧ q'.getLimits = q.getLimits) ∧
    (q.addInPlace x = .error .oob ↔
      ∃ v ∈ q.numpy, v + x < q.getLimits.1 - closeTol / 2 * (q.getLimits.2 - q.getLimits.1) ∨
        q.getLimits.2 + closeTol / 2 * (q.getLimits.2 - q.getLimits.1) < v + x) ∧
    (q.subtractInPlace x = .error .oob ↔
      ∃ v ∈ q.numpy, v - x < q.getLimits.1 - closeTol / 2 * (q.getLimits.2 - q.getLimits.1) ∨
        q.getLimits.2 + closeTol / 2 * (q.getLimits.2 - q.getLimits.1) < v - x) ∧
    (∀ e, q.addInPlace x = .error e → e = .oob ∧ (Op.addIn x).step q = q) ∧
    (∀ e, q.subtractInPlace x = .error e → e = .oob ∧ (Op.subtractIn x).step q = q) := by
  have hl : ∀ f : ℝ → ℝ, (q.getValue.map f).length = q.length := by
    intro f
    rw [List.length_map, getValue, List.length_map]
    exact hw.3
  have only : ∀ (v : List ℝ) e, v.length = q.length → q.setValue v = .error e → e = .oob := by
    intro v e hv h
    unfold setValue setValueRaw at h
    simp only [hv, ne_eq, not_true_eq_false, if_false, Bool.false_eq_true, hw.scale_pos.ne'] at h
    split_ifs at h
    exact (Except.error.inj h).symm
  rw [numpy_eq q hp]
  refine ⟨fun q' h => ?_, fun q' h => ?_, ?_, ?_, fun e h => ⟨only _ e (hl _) h, C01_raise_unchanged q hw (.addIn x) e h⟩,
    fun e h => ⟨only _ e (hl _) h, C01_raise_unchanged q hw (.subtractIn x) e h⟩⟩
  · have := C01_set_get q q' hw _ h
    exact ⟨this.1, this.2.2.1⟩
  · have := C01_set_get q q' hw _ h
    exact ⟨this.1, this.2.2.1⟩
  · rw [addInPlace, C04_rejected_iff q hw _ (hl _)]
    simp
  · rw [subtractInPlace, C04_rejected_iff q hw _ (hl _)]
    simp

/-- **C220**: without a factor, adding a number and then subtracting it restores the value. -/
theorem C220_undo_partial (q q' q'' : Quantity) (hw : WF q) (hp : q.pref = 1) (x : ℝ) (h : q.addInPlace x = .ok q')
    (h' : q'.subtractInPlace x = .ok q'') : q''.numpy = q.numpy := by
  have h1 := (C220_in_place_partial q hw hp x).1 q' h
  have hw' : WF q' := (C01_set_get q q' hw _ h).2.2.2.2.2
  have hp' : q'.pref = 1 := by
    simp only [addInPlace, setValue, Bool.false_eq_true, if_false] at h
    split_ifs at h
    obtain ⟨-, -, rfl⟩ := setValueRaw_ok h
    exact hp
  rw [((C220_in_place_partial q' hw' hp' x).2.1 q'' h').1, h1.1, List.map_map]
  simp [Function.comp_def]

example : ∃ q', (⟨[0], 0, 10, 1, "", 1⟩ : Quantity).addInPlace 2 = .ok q' ∧ q'.numpy = [7] := by
  have hw : WF ⟨[0], 0, 10, 1, "", 1⟩ := ⟨by norm_num, one_pos, rfl⟩
  obtain ⟨q', h, h2⟩ := C04_accepted _ hw [7] rfl (by simp [getLimits]; norm_num)
  refine ⟨q', ?_, h2⟩
  rw [← h, addInPlace]
  norm_num [getValue]

/-- **C220 is false** for units with a factor: adding zero to 5 (2 pi) Hz, with limits 0 and 10, raises, and adding zero
to 1 (2 pi) Hz makes it 2 pi (2 pi) Hz. -/
theorem C220_false : exQ.pref = unitPref exQ.unit ∧ exQ.numpy = [5] ∧ exQ.addInPlace 0 = .error .oob ∧
    exQ.subtractInPlace 0 = .error .oob ∧
    ({ exQ with value := [-4 / 5] } : Quantity).numpy = [1] ∧
    ∃ q', ({ exQ with value := [-4 / 5] } : Quantity).addInPlace 0 = .ok q' ∧ q'.numpy = [2 * Real.pi] := by
  have hp := Real.pi_pos
  have hp3 := Real.pi_gt_three
  have hp4 := Real.pi_le_four
  have hl : exQ.getLimits = (0, 10) := by
    have e : (20 * Real.pi + 0) / (2 * Real.pi) = 10 := by field_simp; ring
    simp only [exQ, getLimits, e, zero_div]
  have hv : exQ.getValue = [10 * Real.pi] := by
    simp only [exQ, getValue, List.map_cons, List.map_nil]
    congr 1
    ring
  have hw2 : WF ({ exQ with value := [-4 / 5] } : Quantity) := ⟨exQ_wf.1, exQ_wf.2, rfl⟩
  have hv2 : ({ exQ with value := [-4 / 5] } : Quantity).getValue = [2 * Real.pi] := by
    simp only [exQ, getValue, List.map_cons, List.map_nil]
    congr 1
    ring
  have hnum : ∀ c : ℝ, c * Real.pi / (2 * Real.pi) = c / 2 := fun c => by field_simp
  refine ⟨?_, ?_, ?_, ?_, ?_, ?_⟩
  · have : hasSub "2pi".toList exQ.unit.toList = true := by decide +kernel
    simp only [unitPref, this, if_true]
    rfl
  · rw [numpy, hv]
    show [10 * Real.pi / (2 * Real.pi)] = _
    rw [hnum]
    norm_num
  · rw [addInPlace, C04_rejected_iff exQ exQ_wf _ (by rw [hv]; rfl), hv, hl]
    refine ⟨10 * Real.pi, by simp, Or.inr ?_⟩
    norm_num [closeTol]
    linarith
  · rw [subtractInPlace, C04_rejected_iff exQ exQ_wf _ (by rw [hv]; rfl), hv, hl]
    refine ⟨10 * Real.pi, by simp, Or.inr ?_⟩
    norm_num [closeTol]
    linarith
  · rw [numpy, hv2]
    show [2 * Real.pi / (2 * Real.pi)] = _
    rw [hnum]
    norm_num
  · obtain ⟨q', h, h2⟩ := C04_accepted _ hw2 [2 * Real.pi] rfl (by
      intro x hx
      rw [List.mem_singleton] at hx
      subst hx
      have : ({ exQ with value := [-4 / 5] } : Quantity).getLimits = (0, 10) := hl
      rw [this]
      constructor
      · positivity
      · show 2 * Real.pi ≤ 10
        linarith)
    refine ⟨q', ?_, h2⟩
    rw [← h, addInPlace, hv2]
    simp

/-! ## C08 -/

/-- **C08**: a quantity created without limits is created, reads back its value, and the value
lies within the limits chosen. -/
theorem C08_default_limits (value : List ℝ) (unit : String) :
    ∃ q, mk' value unit none none = .ok q ∧ q.numpy = value ∧ WF q ∧
      ∀ x ∈ value, q.getLimits.1 ≤ x ∧ x ≤ q.getLimits.2 := by
  have hp := unitPref_pos unit
  have finish : ∀ lo hi : ℝ, lo < hi → (∀ x ∈ value, lo ≤ x ∧ x ≤ hi) →
      ∃ q, (setLimits (Quantity.mk [] 0 0 (unitPref unit) unit value.length) lo hi).setValue value = .ok q ∧ q.numpy = value ∧ WF q ∧
        ∀ x ∈ value, q.getLimits.1 ≤ x ∧ x ≤ q.getLimits.2 := by
    intro lo hi hlt hm
    set r : Quantity := Quantity.mk [] 0 0 (unitPref unit) unit value.length with hr
    set s : Quantity := { r.setLimits lo hi with value := value } with hs
    have hsl : s.getLimits = (lo, hi) := setLimits_limits r hp.ne' hlt.le
    have hsw : WF s := ⟨by
      simp only [hs, setLimits]; exact mul_pos (abs_pos.2 (by linarith)) hp, hp, rfl⟩
    obtain ⟨q, h1, h2⟩ := C04_accepted s hsw value rfl (by rw [hsl]; exact hm)
    obtain ⟨_, _, h3, _, _, h4⟩ := C01_set_get s q hsw value h1
    exact ⟨q, h1, h2, h4, by rw [h3, hsl]; exact hm⟩
  unfold mk'
  split_ifs with h
  · obtain ⟨v, hv, hv0⟩ := h
    set mm := value.map (fun v => 9 / 10 * v) ++ value.map (fun v => 11 / 10 * v) with hmm
    have m1 : ∀ x ∈ value, 9 / 10 * x ∈ mm := fun x hx => by
      rw [hmm, List.mem_append]; exact Or.inl (List.mem_map_of_mem (f := fun v : ℝ => 9 / 10 * v) hx)
    have m2 : ∀ x ∈ value, 11 / 10 * x ∈ mm := fun x hx => by
      rw [hmm, List.mem_append]; exact Or.inr (List.mem_map_of_mem (f := fun v : ℝ => 11 / 10 * v) hx)
    apply finish
    · have a1 := minL_le (m1 v hv)
      have a2 := minL_le (m2 v hv)
      have a3 := le_maxL (m1 v hv)
      have a4 := le_maxL (m2 v hv)
      rcases lt_or_gt_of_ne hv0 with h0 | h0 <;> linarith
    · intro x hx
      have a1 := minL_le (m1 x hx)
      have a2 := minL_le (m2 x hx)
      have a3 := le_maxL (m1 x hx)
      have a4 := le_maxL (m2 x hx)
      rcases le_total 0 x with h0 | h0 <;> constructor <;> linarith
  · push Not at h
    apply finish _ _ (by norm_num)
    intro x hx
    rw [h x hx]; norm_num

/-- **C08**: the limits chosen for a scalar quantity: ten percent on either side of the value, and from minus one to one
for the value zero. -/
theorem C08_band (v : ℝ) (unit : String) :
    ∃ q, mk' [v] unit none none = .ok q ∧
      q.getLimits = if v = 0 then (-1, 1) else (v - |v| / 10, v + |v| / 10) := by
  have hp := unitPref_pos unit
  obtain ⟨q, h, -, -, -⟩ := C08_default_limits [v] unit
  refine ⟨q, h, ?_⟩
  unfold mk' at h
  have fin : ∀ lo hi : ℝ, lo < hi →
      (setLimits (Quantity.mk [] 0 0 (unitPref unit) unit [v].length) lo hi).setValue [v] = .ok q →
      q.getLimits = (lo, hi) := by
    intro lo hi hlt h
    set s : Quantity := { (Quantity.mk [] 0 0 (unitPref unit) unit [v].length).setLimits lo hi with value := [v] } with hs
    have hsw : WF s := ⟨by
      simp only [hs, setLimits]; exact mul_pos (abs_pos.2 (by linarith)) hp, hp, rfl⟩
    obtain ⟨_, _, h3, _, _, _⟩ := C01_set_get s q hsw [v] h
    rw [h3]
    exact setLimits_limits (Quantity.mk [] 0 0 (unitPref unit) unit [v].length) hp.ne' hlt.le
  by_cases h0 : v = 0
  · rw [if_pos h0]
    simp only [List.mem_singleton, exists_eq_left, h0, ne_eq, not_true, if_false] at h
    rw [h0] at fin
    exact fin _ _ (by norm_num) h
  · rw [if_neg h0]
    simp only [List.mem_singleton, exists_eq_left, ne_eq, h0, not_false_eq_true, if_true, List.map_cons, List.map_nil,
      List.cons_append, List.nil_append] at h
    have e1 : minL [9 / 10 * v, 11 / 10 * v] = v - |v| / 10 := by
      simp only [minL]
      rcases lt_or_gt_of_ne h0 with h1 | h1
      · rw [abs_of_neg h1]; simp only [List.foldr]; rw [min_def]; split_ifs <;> linarith
      · rw [abs_of_pos h1]; simp only [List.foldr]; rw [min_def]; split_ifs <;> linarith
    have e2 : maxL [9 / 10 * v, 11 / 10 * v] = v + |v| / 10 := by
      simp only [maxL]
      rcases lt_or_gt_of_ne h0 with h1 | h1
      · rw [abs_of_neg h1]; simp only [List.foldr]; rw [max_def]; split_ifs <;> linarith
      · rw [abs_of_pos h1]; simp only [List.foldr]; rw [max_def]; split_ifs <;> linarith
    rw [e1, e2] at h
    exact fin _ _ (by have := abs_pos.2 h0; linarith) h

/-! ## C87 -/

/-- **C87**: a quantity built with explicit limits `a < b` is well formed and reports exactly these
limits, and its value reads back; unit factors cancel. -/
theorem C87_explicit_limits (value : List ℝ) (unit : String) (a b : ℝ) (hab : a < b)
    (q : Quantity) (h : mk' value unit (some a) (some b) = .ok q) :
    q.getLimits = (a, b) ∧ q.numpy = value ∧ WF q ∧ InRange q := by
  have hp := unitPref_pos unit
  set r : Quantity := Quantity.mk [] 0 0 (unitPref unit) unit value.length with hr
  set s : Quantity := { r.setLimits a b with value := value } with hs
  have hsl : s.getLimits = (a, b) := setLimits_limits r hp.ne' hab.le
  have hsw : WF s := ⟨by
    simp only [hs, setLimits]; exact mul_pos (abs_pos.2 (by linarith)) hp, hp, rfl⟩
  have h' : s.setValue value = .ok q := h
  obtain ⟨h1, _, h3, _, _, h4⟩ := C01_set_get s q hsw value h'
  refine ⟨h3.trans hsl, h1, h4, ?_⟩
  simp only [setValue, Bool.false_eq_true, if_false] at h'
  split_ifs at h' with h5
  obtain ⟨_, h6, rfl⟩ := setValueRaw_ok h'
  intro t ht
  obtain ⟨x, hx, rfl⟩ := List.mem_map.1 ht
  exact h6 x hx

/-- **C87 fails** for limits given in the wrong order: with `min_val = 2, max_val = 1` the quantity
accepts 3, outside of the interval between the two numbers, and reports the limits `(2, 3)`. -/
theorem C87_false_swapped : ∃ q, mk' [3] "undefined" (some 2) (some 1) = .ok q ∧
    q.numpy = [3] ∧ q.getLimits = (2, 3) := by
  have hu : unitPref "undefined" = 1 := by
    have h1 : hasSub "2pi".toList "undefined".toList = false := by decide +kernel
    have h2 : hasSub "pi".toList "undefined".toList = false := by decide +kernel
    simp only [unitPref, h1, h2, Bool.false_eq_true, if_false]
  set s : Quantity := Quantity.mk [0] 2 1 1 "undefined" 1 with hs
  have hsw : WF s := ⟨one_pos, one_pos, rfl⟩
  have hl : s.getLimits = (2, 3) := by simp only [hs, getLimits]; norm_num
  obtain ⟨q, h1, h2⟩ := C04_accepted s hsw [3] rfl (by
    intro x hx; simp only [List.mem_singleton] at hx; subst hx; rw [hl]; norm_num)
  obtain ⟨_, _, h3, _⟩ := C01_set_get s q hsw [3] h1
  refine ⟨q, ?_, h2, h3.trans hl⟩
  rw [← h1]
  have e : (Quantity.mk [] 0 0 (unitPref "undefined") "undefined" 1).setLimits 2 1 =
      Quantity.mk [] 2 1 1 "undefined" 1 := by
    have : |(1 : ℝ) - 2| = 1 := by norm_num
    simp only [setLimits, hu, this, mul_one]
  have e' : mk' [3] "undefined" (some 2) (some 1) =
      ((Quantity.mk [] 0 0 (unitPref "undefined") "undefined" 1).setLimits 2 1).setValue [3] := rfl
  rw [e', e]
  rfl

/-- The default constructor yields quantities to which all theorems above apply. -/
theorem mk'_wf (value : List ℝ) (unit : String) :
    ∃ q, mk' value unit none none = .ok q ∧ WF q ∧ q.pref = unitPref unit ∧ q.unit = unit := by
  obtain ⟨q, h, _, hw, _⟩ := C08_default_limits value unit
  refine ⟨q, h, hw, ?_⟩
  unfold mk' at h
  simp only [setValue, Bool.false_eq_true, if_false] at h
  split_ifs at h <;> (obtain ⟨_, _, rfl⟩ := setValueRaw_ok h; exact ⟨rfl, rfl⟩)

end Quantity
end C3
