import Verif.Quantity.Model
import Mathlib.Tactic.FieldSimp
import Mathlib.Tactic.Linarith
import Mathlib.Tactic.Positivity
import Mathlib.Tactic.NormNum
import Mathlib.Analysis.Real.Pi.Bounds

/-! Helper lemmas about the `Quantity` model. -/

noncomputable section

namespace C3

theorem closeTol_pos : 0 < closeTol := by unfold closeTol; norm_num

theorem refused_iff (t : ℝ) : refused t ↔ 1 + closeTol < |t| := by
  have h := closeTol_pos
  unfold refused
  constructor
  · rintro ⟨h1, h2⟩
    rw [not_le, abs_of_pos (by linarith)] at h2
    linarith
  · intro h1
    refine ⟨by linarith, ?_⟩
    rw [not_le, abs_of_pos (by linarith)]
    linarith

theorem minL_le {l : List ℝ} {x : ℝ} (h : x ∈ l) : minL l ≤ x := by
  cases l with
  | nil => cases h
  | cons a l =>
    simp only [minL]
    induction l with
    | nil => simp at h; simp [h]
    | cons b l ih =>
      simp only [List.foldr_cons]
      rcases List.mem_cons.1 h with rfl | h
      · exact le_trans (min_le_right _ _) (ih List.mem_cons_self)
      · rcases List.mem_cons.1 h with rfl | h
        · exact min_le_left _ _
        · exact le_trans (min_le_right _ _) (ih (List.mem_cons_of_mem _ h))

theorem le_maxL {l : List ℝ} {x : ℝ} (h : x ∈ l) : x ≤ maxL l := by
  cases l with
  | nil => cases h
  | cons a l =>
    simp only [maxL]
    induction l with
    | nil => simp at h; simp [h]
    | cons b l ih =>
      simp only [List.foldr_cons]
      rcases List.mem_cons.1 h with rfl | h
      · exact le_trans (ih List.mem_cons_self) (le_max_right _ _)
      · rcases List.mem_cons.1 h with rfl | h
        · exact le_max_left _ _
        · exact le_trans (ih (List.mem_cons_of_mem _ h)) (le_max_right _ _)

theorem unitPref_pos (u : String) : 0 < unitPref u := by
  unfold unitPref
  have := Real.pi_pos
  split_ifs <;> positivity

namespace Quantity

/-- A quantity as c3 objects are after construction with distinct limits. -/
structure WF (q : Quantity) : Prop where
  scale_pos : 0 < q.scale
  pref_pos : 0 < q.pref
  len : q.value.length = q.length

/-- the stored representation is in `[-1,1]` up to the closeness tolerance -/
def InRange (q : Quantity) : Prop := ∀ v ∈ q.value, |v| ≤ 1 + closeTol

theorem setValueRaw_ok {q q' : Quantity} {v : List ℝ} (h : q.setValueRaw v = .ok q') :
    q.scale ≠ 0 ∧ (∀ x ∈ v, |2 * (x * q.pref - q.offset) / q.scale - 1| ≤ 1 + closeTol) ∧
    q' = { q with value := v.map fun x => 2 * (x * q.pref - q.offset) / q.scale - 1 } := by
  simp only [setValueRaw] at h
  split_ifs at h with h1 h2
  refine ⟨h1, ?_, ?_⟩
  · intro x hx
    by_contra hc
    exact h2 ⟨_, List.mem_map_of_mem hx, (refused_iff _).2 (not_le.1 hc)⟩
  · injection h with h; exact h.symm

theorem setValueRaw_eq {q : Quantity} {v : List ℝ} (hs : q.scale ≠ 0)
    (h : ∀ x ∈ v, |2 * (x * q.pref - q.offset) / q.scale - 1| ≤ 1 + closeTol) :
    q.setValueRaw v =
      .ok { q with value := v.map fun x => 2 * (x * q.pref - q.offset) / q.scale - 1 } := by
  unfold setValueRaw
  rw [if_neg hs]
  refine if_neg ?_
  rintro ⟨t, ht, hr⟩
  obtain ⟨x, hx, rfl⟩ := List.mem_map.1 ht
  exact absurd (h x hx) (not_le.2 ((refused_iff _).1 hr))

theorem getValue_set (q : Quantity) (v : List ℝ) (hs : q.scale ≠ 0) :
    getValue { q with value := v.map fun x => 2 * (x * q.pref - q.offset) / q.scale - 1 } =
      v.map fun x => x * q.pref := by
  simp only [getValue, List.map_map]
  apply List.map_congr_left
  intro x _
  simp only [Function.comp]
  field_simp
  ring

theorem abs_le_of_mem_limits {x lo hi tol : ℝ} (hlt : lo < hi) (h1 : lo - tol ≤ x)
    (h2 : x ≤ hi + tol) : |2 * (x - lo) / (hi - lo) - 1| ≤ 1 + 2 * tol / (hi - lo) := by
  have hd : 0 < hi - lo := sub_pos.2 hlt
  have e : (1 + 2 * tol / (hi - lo)) = ((hi - lo) + 2 * tol) / (hi - lo) := by field_simp
  have e2 : 2 * (x - lo) / (hi - lo) - 1 = (2 * (x - lo) - (hi - lo)) / (hi - lo) := by
    field_simp
  rw [e, e2, abs_div, abs_of_pos hd]
  apply div_le_div_of_nonneg_right _ hd.le
  rw [abs_le]; constructor <;> linarith

/-- The normalised coordinate in terms of the limits in the quantity's own unit. -/
theorem tmp_eq (q : Quantity) (hw : WF q) (x : ℝ) :
    2 * (x * q.pref - q.offset) / q.scale - 1 =
      2 * (x - q.getLimits.1) / (q.getLimits.2 - q.getLimits.1) - 1 := by
  have h1 := hw.scale_pos.ne'
  have h2 := hw.pref_pos.ne'
  have e : (q.scale + q.offset) / q.pref - q.offset / q.pref = q.scale / q.pref := by ring
  simp only [getLimits, e]
  field_simp

theorem limits_sub (q : Quantity) : q.getLimits.2 - q.getLimits.1 = q.scale / q.pref := by
  simp only [getLimits]; ring

theorem limits_lt (q : Quantity) (hw : WF q) : q.getLimits.1 < q.getLimits.2 := by
  have := limits_sub q
  have h := div_pos hw.scale_pos hw.pref_pos
  linarith

theorem setLimits_limits (q : Quantity) (hp : q.pref ≠ 0) {a b : ℝ} (hab : a ≤ b) :
    (q.setLimits a b).getLimits = (a, b) := by
  simp only [getLimits, setLimits, abs_of_nonneg (sub_nonneg.2 hab)]
  ext
  · field_simp
  · simp only; field_simp; ring

/-- Writing a value which lies inside the limits succeeds. -/
theorem setValueRaw_of_mem (q : Quantity) (hw : WF q) (v : List ℝ)
    (h : ∀ x ∈ v, q.getLimits.1 ≤ x ∧ x ≤ q.getLimits.2) :
    q.setValueRaw v =
      .ok { q with value := v.map fun x => 2 * (x * q.pref - q.offset) / q.scale - 1 } := by
  apply setValueRaw_eq hw.scale_pos.ne'
  intro x hx
  rw [tmp_eq q hw]
  obtain ⟨h1, h2⟩ := h x hx
  have := abs_le_of_mem_limits (limits_lt q hw) (tol := 0) (x := x) (by linarith) (by linarith)
  have h0 := closeTol_pos
  simp only [mul_zero, zero_div, add_zero] at this
  linarith

/-- The list whose minimum and maximum `_set_value_extend` takes. -/
def extendList (q : Quantity) (v : List ℝ) : List ℝ :=
  q.getLimits.1 :: q.getLimits.2 ::
    (v.map (fun v => v * (9 / 10)) ++ v.map (fun v => v * (11 / 10)))

theorem setValueExtend_eq (q : Quantity) (hw : WF q) (v : List ℝ) :
    ∃ q', q.setValueExtend v = .ok q' ∧ q'.pref = q.pref ∧ q'.unit = q.unit ∧
      q'.length = q.length ∧ 0 < q'.scale ∧ q'.getLimits.1 ≤ q.getLimits.1 ∧
      q.getLimits.2 ≤ q'.getLimits.2 ∧ q'.getValue = v.map (fun x => x * q.pref) ∧
      q'.value.length = v.length ∧ InRange q' := by
  set lo := minL (extendList q v) with hlo
  set hi := maxL (extendList q v) with hhi
  have m1 : q.getLimits.1 ∈ extendList q v := by simp [extendList]
  have m2 : q.getLimits.2 ∈ extendList q v := by simp [extendList]
  have hlt := limits_lt q hw
  have l1 := minL_le m1
  have l2 := le_maxL m2
  have hlt' : lo < hi := by linarith
  set r := q.setLimits lo hi with hr
  have hrl : r.getLimits = (lo, hi) := setLimits_limits q hw.pref_pos.ne' hlt'.le
  have hrs : 0 < r.scale := by
    simp only [hr, setLimits]
    exact mul_pos (abs_pos.2 (by linarith)) hw.pref_pos
  have hrw : WF { r with value := v, length := v.length } := ⟨hrs, hw.pref_pos, rfl⟩
  have hmem : ∀ x ∈ v, lo ≤ x ∧ x ≤ hi := by
    intro x hx
    have a1 : x * (9/10) ∈ extendList q v := by
      simp only [extendList, List.mem_cons, List.mem_append, List.mem_map]
      exact Or.inr (Or.inr (Or.inl ⟨x, hx, rfl⟩))
    have a2 : x * (11/10) ∈ extendList q v := by
      simp only [extendList, List.mem_cons, List.mem_append, List.mem_map]
      exact Or.inr (Or.inr (Or.inr ⟨x, hx, rfl⟩))
    have b1 := minL_le a1
    have b2 := minL_le a2
    have b3 := le_maxL a1
    have b4 := le_maxL a2
    rcases le_total 0 x with h0 | h0 <;> constructor <;> linarith
  have key : ∀ x ∈ v, |2 * (x * r.pref - r.offset) / r.scale - 1| ≤ 1 + closeTol := by
    intro x hx
    have := tmp_eq _ hrw x
    simp only at this
    rw [this]
    have e : ({ r with value := v, length := v.length } : Quantity).getLimits = (lo, hi) := hrl
    rw [e]
    obtain ⟨h1, h2⟩ := hmem x hx
    have h3 := abs_le_of_mem_limits hlt' (tol := 0) (by linarith : lo - 0 ≤ x) (by linarith)
    have h0 := closeTol_pos
    simp only [mul_zero, zero_div, add_zero] at h3
    simp only
    linarith
  refine ⟨_, setValueRaw_eq hrs.ne' key, rfl, rfl, rfl, hrs, ?_, ?_, ?_, ?_, ?_⟩
  · have : r.getLimits.1 ≤ q.getLimits.1 := by rw [hrl]; exact l1
    exact this
  · have : q.getLimits.2 ≤ r.getLimits.2 := by rw [hrl]; exact l2
    exact this
  · exact getValue_set r v hrs.ne'
  · simp
  · intro t ht
    obtain ⟨x, hx, rfl⟩ := List.mem_map.1 ht
    exact key x hx

theorem foldOpt_mem (v : ℝ) : -1 ≤ foldOpt v ∧ foldOpt v ≤ 1 := by
  have h1 := Real.arccos_nonneg (Real.cos ((v + 1) * Real.pi / 2))
  have h2 := Real.arccos_le_pi (Real.cos ((v + 1) * Real.pi / 2))
  have hp := Real.pi_pos
  unfold foldOpt
  have a : 0 ≤ Real.arccos (Real.cos ((v + 1) * Real.pi / 2)) / Real.pi := by positivity
  have b : Real.arccos (Real.cos ((v + 1) * Real.pi / 2)) / Real.pi ≤ 1 := by
    rw [div_le_one hp]; exact h2
  constructor <;> linarith

theorem foldOpt_of_mem {v : ℝ} (h1 : -1 ≤ v) (h2 : v ≤ 1) : foldOpt v = v := by
  have hp := Real.pi_pos
  unfold foldOpt
  rw [Real.arccos_cos (by nlinarith) (by nlinarith)]
  field_simp
  ring

theorem foldOpt_add_four (v : ℝ) (k : ℤ) : foldOpt (v + 4 * k) = foldOpt v := by
  unfold foldOpt
  have : (v + 4 * k + 1) * Real.pi / 2 = (v + 1) * Real.pi / 2 + k * (2 * Real.pi) := by ring
  rw [this, Real.cos_add_int_mul_two_pi]

theorem foldOpt_reflect (v : ℝ) : foldOpt (-2 - v) = foldOpt v := by
  unfold foldOpt
  have : (-2 - v + 1) * Real.pi / 2 = -((v + 1) * Real.pi / 2) := by ring
  rw [this, Real.cos_neg]

theorem step_of_error (q : Quantity) (hw : WF q) (o : Op) (e : QErr)
    (h : o.call q = .error e) : o.step q = q := by
  unfold Op.step
  rw [h]
  cases o with
  | setExtend v =>
    simp only
    rw [if_pos]
    simp only [Op.call, setValue, if_true] at h
    split_ifs at h with h1
    · injection h with h; exact h.symm
    · obtain ⟨q', e', _⟩ := setValueExtend_eq q hw v
      rw [e'] at h; cases h
  | _ => rfl

theorem step_inv (q : Quantity) (hw : WF q) (hr : InRange q) (o : Op) :
    WF (o.step q) ∧ InRange (o.step q) ∧ (o.step q).pref = q.pref ∧
      (o.step q).length = q.length := by
  have raw : ∀ v q', q.setValue v = .ok q' →
      WF q' ∧ InRange q' ∧ q'.pref = q.pref ∧ q'.length = q.length := by
    intro v q' h
    simp only [setValue, Bool.false_eq_true, if_false] at h
    split_ifs at h with h1
    · obtain ⟨_, h3, rfl⟩ := setValueRaw_ok h
      refine ⟨⟨hw.scale_pos, hw.pref_pos, ?_⟩, ?_, rfl, rfl⟩
      · simpa using h1
      · intro t ht
        obtain ⟨x, hx, rfl⟩ := List.mem_map.1 ht
        exact h3 x hx
  cases h : Op.call q o with
  | error e => rw [step_of_error q hw o e h]; exact ⟨hw, hr, rfl, rfl⟩
  | ok q' =>
    have hst : Op.step q o = q' := by unfold Op.step; rw [h]
    rw [hst]
    cases o with
    | set v => exact raw v q' h
    | addIn x => exact raw _ q' h
    | subtractIn x => exact raw _ q' h
    | setExtend v =>
      simp only [Op.call, setValue, if_true] at h
      split_ifs at h with h1
      · obtain ⟨q'', e, h2, _, h3, h4, _, _, _, h5, h6⟩ := setValueExtend_eq q hw v
        rw [e] at h
        injection h with h
        subst h
        refine ⟨⟨h4, by rw [h2]; exact hw.pref_pos, ?_⟩, h6, h2, h3⟩
        rw [h5, h3]; exact not_not.1 h1
    | setOpt v =>
      simp only [Op.call, setOptValue] at h
      split_ifs at h with h1
      · injection h with h
        subst h
        refine ⟨⟨hw.scale_pos, hw.pref_pos, ?_⟩, ?_, rfl, rfl⟩
        · simpa using h1
        · intro t ht
          obtain ⟨x, _, rfl⟩ := List.mem_map.1 ht
          obtain ⟨a, b⟩ := foldOpt_mem x
          have := closeTol_pos
          rw [abs_le]; constructor <;> linarith

theorem inRange_numpy {q : Quantity} (hw : WF q) (hr : InRange q) :
    ∀ x ∈ q.numpy, q.getLimits.1 - closeTol / 2 * (q.getLimits.2 - q.getLimits.1) ≤ x ∧
      x ≤ q.getLimits.2 + closeTol / 2 * (q.getLimits.2 - q.getLimits.1) := by
  intro x hx
  obtain ⟨y, hy, rfl⟩ := List.mem_map.1 hx
  obtain ⟨v, hv, rfl⟩ := List.mem_map.1 hy
  have hb := abs_le.1 (hr v hv)
  rw [limits_sub]
  have hp := hw.pref_pos
  have hs := hw.scale_pos
  have e1 : q.getLimits.1 - closeTol / 2 * (q.scale / q.pref) =
      (q.scale * (-(1 + closeTol) + 1) / 2 + q.offset) / q.pref := by
    simp only [getLimits]; field_simp; ring
  have e2 : q.getLimits.2 + closeTol / 2 * (q.scale / q.pref) =
      (q.scale * ((1 + closeTol) + 1) / 2 + q.offset) / q.pref := by
    simp only [getLimits]; field_simp; ring
  rw [e1, e2]
  constructor <;> apply div_le_div_of_nonneg_right _ hp.le <;> nlinarith [hb.1, hb.2]

end Quantity
end C3
