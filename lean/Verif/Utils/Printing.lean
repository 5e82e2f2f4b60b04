import Verif.Utils.Misc
import Verif.Qiskit.Backend

/-!
# C198: What is printed for a quantity

Models c3/utils/utils.py:96-106 (`num3str`) and c3/c3objs.py:219-232 (`Quantity.__repr__`, `__str__`), with `eng_num`
of C86.

Simplified: a text is the list of its pieces, a piece holds the number its digits stand for; formatting rounds to the
nearest decimal number, halves to even.
-/

noncomputable section

namespace C3.Utils.Printing

open C3.Utils C3.Qiskit

/-! ## Model -/

/-- One entry of a printed text. -/
inductive Piece where
  /-- `f"{num:.3f} " + prefix`, unit: a number of thousandths. -/
  | eng (thousandths : ℤ) (pre unit : String)
  /-- `f"{val:.3} "`: the three leading digits and the power of ten of the last of them. -/
  | sig (digits : ℤ) (power : ℤ)
  /-- `f"{entry} pi"`: all digits. -/
  | full (val : ℝ) (unit : String)

/-- `f"{num:.3f}"`. -/
def fixed3 (x : ℝ) : ℤ := roundEven (1000 * x)

open scoped Classical in
/-- `f"{val:.3}"`. -/
def sig3 (x : ℝ) : ℤ × ℤ :=
  if x = 0 then (0, 0)
  else
    let e := ⌊Real.logb 10 |x|⌋ - 2
    (roundEven (x / (10 : ℝ) ^ e), e)

/-- c3/utils/utils.py:96-106 `num3str` for one number, followed by the unit. -/
def num3str (val : ℝ) (usePrefix : Bool) (unit : String) : Piece :=
  if usePrefix then .eng (fixed3 (engNum val).1) (engNum val).2 unit else .sig (sig3 val).1 (sig3 val).2

/-- c3/c3objs.py:222-232 `Quantity.__str__`. -/
def str (unit : String) (vals : List ℝ) : List Piece :=
  vals.map fun v =>
    if unit = "pi" then .full v unit
    else if unit ≠ "undefined" then num3str v true unit
    else num3str v false ""

/-! ## Specification -/

/-- The number a reader takes from a piece, in units of the printed unit. -/
def read : Piece → Option ℝ
  | .eng n pre _ => (prefixExp pre).map fun e => (n : ℝ) / 1000 * (10 : ℝ) ^ e
  | .sig d p => some ((d : ℝ) * (10 : ℝ) ^ p)
  | .full v _ => some v

def unitOf : Piece → String
  | .eng _ _ u => u
  | .sig _ _ => "undefined"
  | .full _ u => u

/-! ## Theorems -/

/-- C198: entries are printed one by one in their order, each with the unit of the quantity. -/
theorem C198_order (unit : String) (vals : List ℝ) :
    (str unit vals).length = vals.length ∧
    (∀ i : ℕ, ∀ p, (str unit vals)[i]? = some p → unitOf p = unit) ∧
    ∀ i : ℕ, (str unit vals)[i]? = (vals[i]?).bind fun v => (str unit [v])[0]? := by
  refine ⟨by simp [str], ?_, ?_⟩
  · intro i p hp
    simp only [str, List.getElem?_map, Option.map_eq_some_iff] at hp
    obtain ⟨v, -, rfl⟩ := hp
    split
    · rfl
    · split
      · rfl
      · rename_i h
        push Not at h
        rw [h]
        rfl
  · intro i
    cases h : vals[i]? <;> simp [str, h]

/-- C198: in units of pi all digits are printed. -/
theorem C198_pi (v : ℝ) : (str "pi" [v]).map read = [some v] := rfl

theorem fixed3_near (x : ℝ) : |(fixed3 x : ℝ) / 1000 - x| ≤ 1 / 2000 := by
  have h := roundEven_near (1000 * x)
  have : (fixed3 x : ℝ) / 1000 - x = ((roundEven (1000 * x) : ℝ) - 1000 * x) / 1000 := by
    unfold fixed3
    ring
  rw [this, abs_div, abs_of_pos (by norm_num : (0 : ℝ) < 1000), div_le_iff₀ (by norm_num)]
  linarith

/-- **C198**, what holds with prefixes: zero and numbers inside the table of prefixes are printed with the unit of the
quantity and a relative error of at most half a per mille. Missing: numbers beyond the table. -/
theorem C198_prefix_partial (unit : String) (hu : unit ≠ "pi") (hu' : unit ≠ "undefined") (v : ℝ)
    (hv : v = 0 ∨ InTable v) :
    ∃ r, (str unit [v]).map read = [some r] ∧ |r - v| ≤ |v| / 2000 := by
  have hs : (str unit [v]).map read =
      [(prefixExp (engNum v).2).map fun e => (fixed3 (engNum v).1 : ℝ) / 1000 * (10 : ℝ) ^ e] := by
    simp [str, hu, hu', num3str, read]
  by_cases h0 : v = 0
  · subst h0
    refine ⟨0, ?_, by simp⟩
    rw [hs, C86_zero]
    have : fixed3 0 = 0 := by
      unfold fixed3
      rw [mul_zero]
      exact_mod_cast roundEven_int 0
    simp [this, prefixExp]
  · have ht := hv.resolve_left h0
    obtain ⟨e, h1, h2, h3⟩ := C86_engNum_partial v h0
    refine ⟨_, by rw [hs, h1]; rfl, ?_⟩
    have hm := h2 (Or.inr ht)
    have hp : (0 : ℝ) < (10 : ℝ) ^ e := by positivity
    have hn := fixed3_near (engNum v).1
    have hge := (h3 ht).1
    have hvabs : |v| = |(engNum v).1| * (10 : ℝ) ^ e := by
      rw [← abs_of_pos hp, ← abs_mul, hm]
    have hd : (fixed3 (engNum v).1 : ℝ) / 1000 * (10 : ℝ) ^ e - v =
        ((fixed3 (engNum v).1 : ℝ) / 1000 - (engNum v).1) * (10 : ℝ) ^ e := by
      rw [sub_mul, hm]
    rw [hd, abs_mul, abs_of_pos hp, hvabs]
    have h4 : |(fixed3 (engNum v).1 : ℝ) / 1000 - (engNum v).1| ≤ |(engNum v).1| / 2000 := by linarith
    calc _ ≤ |(engNum v).1| / 2000 * (10 : ℝ) ^ e := by
          exact mul_le_mul_of_nonneg_right h4 hp.le
      _ = _ := by ring

example : ∃ r, (str "Hz" [-5000]).map read = [some r] ∧ |r - -5000| ≤ |(-5000 : ℝ)| / 2000 :=
  C198_prefix_partial "Hz" (by decide) (by decide) _ (Or.inr ⟨by norm_num, by norm_num⟩)

/-- C198: without a unit the relative error is at most half a per cent. -/
theorem C198_plain (v : ℝ) : ∃ r, (str "undefined" [v]).map read = [some r] ∧ |r - v| ≤ |v| / 200 := by
  have hs : (str "undefined" [v]).map read = [some (((sig3 v).1 : ℝ) * (10 : ℝ) ^ (sig3 v).2)] := by
    simp [str, num3str, read]
  refine ⟨_, hs, ?_⟩
  by_cases h0 : v = 0
  · simp [sig3, h0]
  · have hv : 0 < |v| := abs_pos.2 h0
    simp only [sig3, if_neg h0]
    set e := ⌊Real.logb 10 |v|⌋ - 2 with he
    have hp : (0 : ℝ) < (10 : ℝ) ^ e := by positivity
    have hle : (10 : ℝ) ^ (e + 2) ≤ |v| := by
      rw [← Real.rpow_intCast, ← Real.le_logb_iff_rpow_le (by norm_num) hv]
      have : e + 2 = ⌊Real.logb 10 |v|⌋ := by omega
      rw [this]
      exact Int.floor_le _
    rw [zpow_add₀ (by norm_num)] at hle
    have h100 : (10 : ℝ) ^ (2 : ℤ) = 100 := by norm_num
    rw [h100] at hle
    have hn := roundEven_near (v / (10 : ℝ) ^ e)
    have hd : (roundEven (v / (10 : ℝ) ^ e) : ℝ) * (10 : ℝ) ^ e - v =
        ((roundEven (v / (10 : ℝ) ^ e) : ℝ) - v / (10 : ℝ) ^ e) * (10 : ℝ) ^ e := by
      rw [sub_mul, div_mul_cancel₀ _ hp.ne']
    rw [hd, abs_mul, abs_of_pos hp]
    calc _ ≤ 1 / 2 * (10 : ℝ) ^ e := mul_le_mul_of_nonneg_right hn hp.le
      _ ≤ _ := by linarith

/-- **C198 is false** for negative numbers beyond the table: they are printed as positive ones. -/
theorem C198_false_sign : (str "Hz" [-10 ^ 24]).map read = [some (10 ^ 24)] := by
  have h3 : fixed3 (10 ^ 3) = 1000000 := by
    unfold fixed3
    rw [show (1000 : ℝ) * 10 ^ 3 = ((1000000 : ℤ) : ℝ) by norm_num]
    exact roundEven_int _
  simp only [str, List.map_cons, List.map_nil, num3str]
  rw [if_neg (by decide), if_pos (by decide), if_pos trivial, C86_sign_false]
  simp only [read, prefixExp, h3, Option.map_some]
  norm_num

/-- **C198 is false** for small numbers beyond the table: they are printed as zero. -/
theorem C198_false_small : (str "s" [10 ^ (-30 : ℤ)]).map read = [some 0] := by
  have h1 : |(10 : ℝ) ^ (-30 : ℤ)| = 10 ^ (-30 : ℤ) := abs_of_pos (by positivity)
  have h2 : Real.logb 10 ((10 : ℝ) ^ (-30 : ℤ)) = -30 := by
    rw [← Real.rpow_intCast, Real.logb_rpow (by norm_num) (by norm_num)]; norm_num
  have he : engNum (10 ^ (-30 : ℤ)) = (10 ^ (-30 : ℤ) * 10 ^ 21, "z") := by
    unfold engNum
    rw [if_neg (by positivity)]
    simp only [h1, h2]
    have hf : ⌊(-30 : ℝ) / 3⌋ = -10 := by norm_num
    rw [hf, if_pos (by norm_num), if_pos (by decide)]
    rfl
  have h3 : fixed3 (10 ^ (-30 : ℤ) * 10 ^ 21) = 0 := by
    have hfl : ⌊(1000 : ℝ) * (10 ^ (-30 : ℤ) * 10 ^ 21)⌋ = 0 := by
      rw [Int.floor_eq_iff]
      constructor <;> norm_num
    unfold fixed3 roundEven
    rw [hfl, if_pos]
    norm_num
  simp only [str, List.map_cons, List.map_nil, num3str]
  rw [if_neg (by decide), if_pos (by decide), if_pos trivial, he]
  simp only [read, prefixExp, h3, Option.map_some]
  norm_num

end C3.Utils.Printing
