import Mathlib.Analysis.SpecialFunctions.Trigonometric.Inverse

/-!
# Model of `c3.c3objs.Quantity`

Arrays are flattened: a tensor of shape `s` is the list of its entries, and `shape` is only
represented by its number of entries (`length`).  `offset`, `scale`, `pref` are scalars (the Python
code also admits array-valued limits; those are not modelled).  Floats are real numbers.
-/

noncomputable section

namespace C3

/-- The exceptions a `Quantity` method can leave with.
`oob` is `QuantityOOBException` (c3/c3objs.py:294), `shape` the `ValueError` of `np.reshape`
(c3/c3objs.py:271,273), `type` the `TypeError` of arithmetic on `None` (c3/c3objs.py:349).
`degenerate` marks calls whose Python result contains a NaN (division by a zero `scale`,
c3/c3objs.py:282): these are outside of the model. -/
inductive QErr
  | oob
  | shape
  | type
  | degenerate
  deriving DecidableEq, Repr

/-- c3/c3objs.py:55-108, the attributes of a `Quantity` (the `symbol` attribute is only printed and
is left out).  `value` is the optimizer-friendly representation. -/
structure Quantity where
  /-- `self.value`, flattened -/
  value : List ℝ
  /-- `self.offset` -/
  offset : ℝ
  /-- `self.scale` -/
  scale : ℝ
  /-- `self.pref` -/
  pref : ℝ
  /-- `self.unit` -/
  unit : String
  /-- `self.length` -/
  length : ℕ

/-- Python's `p in u` for strings (used at c3/c3objs.py:89,91). -/
def hasSub (p u : List Char) : Bool := u.tails.any fun t => p.isPrefixOf t

/-- c3/c3objs.py:81-94, the factor implied by the unit string. -/
def unitPref (unit : String) : ℝ :=
  if hasSub "2pi".toList unit.toList then 2 * Real.pi
  else if hasSub "pi".toList unit.toList then Real.pi
  else 1

/-- `np.min` of a list (c3/c3objs.py:98); 0 on the empty list, where it is never called. -/
def minL : List ℝ → ℝ
  | [] => 0
  | x :: xs => xs.foldr min x

/-- `np.max` of a list (c3/c3objs.py:99); 0 on the empty list, where it is never called. -/
def maxL : List ℝ → ℝ
  | [] => 0
  | x :: xs => xs.foldr max x

/-- The tolerance of `tf.experimental.numpy.isclose(_, 1)` at c3/c3objs.py:290 with its default
`atol = 1e-8` and `rtol = 1e-5`. -/
def closeTol : ℝ := 1 / 10 ^ 8 + 1 / 10 ^ 5

/-- c3/c3objs.py:286-292 for one entry: the entry is refused. -/
def refused (tmp : ℝ) : Prop := |tmp| > 1 ∧ ¬ (|(|tmp| - 1)| ≤ closeTol)

namespace Quantity

/-- c3/c3objs.py:247-256 `get_value`. -/
def getValue (q : Quantity) : List ℝ := q.value.map fun v => q.scale * (v + 1) / 2 + q.offset

/-- c3/c3objs.py:240-245 `numpy`. -/
def numpy (q : Quantity) : List ℝ := q.getValue.map fun v => v / q.pref

/-- c3/c3objs.py:258-267 `get_other_value` (entrywise). -/
def getOtherValue (q : Quantity) (val : ℝ) : ℝ := (q.scale * (val + 1) / 2 + q.offset) / q.pref

/-- c3/c3objs.py:335-338 `get_limits`. -/
def getLimits (q : Quantity) : ℝ × ℝ := (q.offset / q.pref, (q.scale + q.offset) / q.pref)

/-- c3/c3objs.py:340-350 `_set_limits`. -/
def setLimits (q : Quantity) (minVal maxVal : ℝ) : Quantity :=
  { q with offset := minVal * q.pref, scale := |maxVal - minVal| * q.pref }

open scoped Classical in
/-- c3/c3objs.py:275-300 `_set_value`, after the reshape of line 271/273. A zero `scale` makes the
Python code compute with NaN/inf; the model reports `degenerate` there. -/
def setValueRaw (q : Quantity) (val : List ℝ) : Except QErr Quantity :=
  if q.scale = 0 then .error .degenerate
  else
    let tmp := val.map fun v => 2 * (v * q.pref - q.offset) / q.scale - 1
    if ∃ t ∈ tmp, refused t then .error .oob
    else .ok { q with value := tmp }

/-- c3/c3objs.py:302-318 `_set_value_extend`.  The four reductions over `0.9*val`, `1.1*val` and the
two old limits are one minimum / maximum over the concatenated list. (For an empty array TensorFlow
reduces to ±inf; the model ignores it there.) -/
def setValueExtend (q : Quantity) (val : List ℝ) : Except QErr Quantity :=
  let (minVal, maxVal) := q.getLimits
  let minmax := minVal :: maxVal ::
    (val.map (fun v => v * (9 / 10)) ++ val.map (fun v => v * (11 / 10)))
  (q.setLimits (minL minmax) (maxL minmax)).setValueRaw val

/-- c3/c3objs.py:269-273 `set_value` with the `np.reshape` check. -/
def setValue (q : Quantity) (val : List ℝ) (extendBounds : Bool := false) :
    Except QErr Quantity :=
  if val.length ≠ q.length then .error .shape
  else if extendBounds then q.setValueExtend val
  else q.setValueRaw val

/-- c3/c3objs.py:320-322 `get_opt_value`. -/
def getOptValue (q : Quantity) : List ℝ := q.value

/-- c3/c3objs.py:332-333, one entry of `set_opt_value`. -/
def foldOpt (v : ℝ) : ℝ := Real.arccos (Real.cos ((v + 1) * Real.pi / 2)) / Real.pi * 2 - 1

/-- c3/c3objs.py:324-333 `set_opt_value`; a vector of the wrong size makes `tf.reshape` raise. -/
def setOptValue (q : Quantity) (val : List ℝ) : Except QErr Quantity :=
  if val.length ≠ q.length then .error .shape
  else .ok { q with value := val.map foldOpt }

open scoped Classical in
/-- c3/c3objs.py:78-108 `__init__`. `value` is the flattened array. Giving exactly one limit makes
`_set_limits` multiply `None`, a `TypeError`. -/
def mk' (value : List ℝ) (unit : String) (minVal maxVal : Option ℝ) : Except QErr Quantity :=
  let q₀ : Quantity :=
    { value := [], offset := 0, scale := 0, pref := unitPref unit, unit := unit,
      length := value.length }
  match minVal, maxVal with
  | none, none =>
    if ∃ v ∈ value, v ≠ 0 then
      let minmax := value.map (fun v => 9 / 10 * v) ++ value.map (fun v => 11 / 10 * v)
      (q₀.setLimits (minL minmax) (maxL minmax)).setValue value
    else (q₀.setLimits (-1) 1).setValue value
  | some a, some b => (q₀.setLimits a b).setValue value
  | _, _ => .error .type

/-- c3/c3objs.py:110-121 `asdict`: value, min_val, max_val, unit. -/
def asdict (q : Quantity) : List ℝ × ℝ × ℝ × String :=
  (q.numpy, q.offset / q.pref, q.scale / q.pref + q.offset / q.pref, q.unit)

/-- `Quantity(**d)` for a dictionary as produced by `asdict` (c3/c3objs.py:403). -/
def ofDict (d : List ℝ × ℝ × ℝ × String) : Except QErr Quantity :=
  mk' d.1 d.2.2.2 (some d.2.1) (some d.2.2.1)

/-- c3/c3objs.py:130-183, the common form of all operators: copy, then extend-set the operation
applied to `get_value()`.  `f` is the entrywise operation with the other operand filled in. -/
def arith (q : Quantity) (f : ℝ → ℝ) : Except QErr Quantity := q.setValueExtend (q.getValue.map f)

/-- c3/c3objs.py:130-138 `__add__`, `__radd__`. -/
def add (q : Quantity) (x : ℝ) := q.arith fun v => v + x
/-- c3/c3objs.py:140-143 `__sub__`. -/
def sub (q : Quantity) (x : ℝ) := q.arith fun v => v - x
/-- c3/c3objs.py:145-148 `__rsub__`. -/
def rsub (q : Quantity) (x : ℝ) := q.arith fun v => x - v
/-- c3/c3objs.py:150-158 `__mul__`, `__rmul__`. -/
def mul (q : Quantity) (x : ℝ) := q.arith fun v => v * x
/-- c3/c3objs.py:170-173 `__truediv__`. -/
def truediv (q : Quantity) (x : ℝ) := q.arith fun v => v / x
/-- c3/c3objs.py:160-163 `__pow__` with a natural exponent. -/
def pow (q : Quantity) (n : ℕ) := q.arith fun v => v ^ n

/-- c3/c3objs.py:237-238 in-place `add`. -/
def addInPlace (q : Quantity) (x : ℝ) := q.setValue (q.getValue.map fun v => v + x)
/-- c3/c3objs.py:234-235 in-place `subtract`. -/
def subtractInPlace (q : Quantity) (x : ℝ) := q.setValue (q.getValue.map fun v => v - x)

/-- A write to a quantity as a user or an optimizer issues it. -/
inductive Op
  | set (v : List ℝ)
  | setExtend (v : List ℝ)
  | setOpt (v : List ℝ)
  | addIn (x : ℝ)
  | subtractIn (x : ℝ)

/-- The result of one write call. -/
def Op.call (q : Quantity) : Op → Except QErr Quantity
  | .set v => q.setValue v
  | .setExtend v => q.setValue v true
  | .setOpt v => q.setOptValue v
  | .addIn x => q.addInPlace x
  | .subtractIn x => q.subtractInPlace x

/-- The object left behind by a write, also when the call raised.
`_set_value` assigns `self.value` last (c3/c3objs.py:300) and `set_opt_value` and `set_value`
reshape first (c3/c3objs.py:271,273,332), so a raise there leaves the object as it was.
`_set_value_extend` assigns the new limits (c3/c3objs.py:317) before the check of
`_set_value` (c3/c3objs.py:318), so a raise there would leave the new limits behind. -/
def Op.step (q : Quantity) (o : Op) : Quantity :=
  match Op.call q o with
  | .ok q' => q'
  | .error e =>
    match o with
    | .setExtend v =>
      if e = .shape then q
      else
        let minmax := q.getLimits.1 :: q.getLimits.2 ::
          (v.map (fun v => v * (9 / 10)) ++ v.map (fun v => v * (11 / 10)))
        q.setLimits (minL minmax) (maxL minmax)
    | _ => q

end Quantity
end C3
