import Verif.Quantity.Model
import Mathlib.Logic.Function.Basic

/-!
# Model of `c3.parametermap.ParameterMap`

Quantities live in a heap so that two identifiers may name the same Python object
(`ref` maps an identifier to the object, `heap` an object to its content).
-/

noncomputable section

namespace C3

/-- An entry of an opt_map as the user writes it: a tuple of names or an already joined string
(c3/parametermap.py:445-456). -/
inductive Ident
  | tup (names : List String)
  | str (s : String)

/-- c3/parametermap.py:451-454: tuples are joined with "-". -/
def Ident.key : Ident → String
  | .tup ns => "-".intercalate ns
  | .str s => s

/-- Exceptions leaving `ParameterMap` methods. `length` c3/parametermap.py:303-306, `key` a missing
dictionary key (312, 264, 428-432), `quantity` an exception of `Quantity.set_value` /
`set_opt_value` (316-326, 378), `index` the access `equiv_ids[0]` of an empty group,
`limits` c3/parametermap.py:220-223. -/
inductive PErr
  | length
  | key (k : String)
  | quantity (k : String) (e : QErr)
  | index
  | limits
  /-- `None` has no attribute `update_model` -/
  | attribute

/-- State of a `ParameterMap` together with what `model.update_model()` last saw. -/
structure PMap where
  /-- `self._pars`: identifier to object (c3/parametermap.py:67) -/
  ref : String → Option ℕ
  /-- contents of the quantity objects -/
  heap : ℕ → Quantity
  /-- `self._par_ids_model` (c3/parametermap.py:68) -/
  modelIds : List String
  /-- `self.opt_map` -/
  optMap : List (List String)
  /-- `self.model` is not `None` -/
  hasModel : Bool
  /-- the parameter values the model's Hamiltonians were last built from: `update_model`
  (c3/model.py:423-428) rebuilds everything from the current parameters -/
  modelView : ℕ → Quantity
  /-- `self.update_model` (c3/parametermap.py:438-443) -/
  updateModel : Bool

namespace PMap

/-- c3/parametermap.py:445-456 `get_opt_map` for a given argument. (The method also overwrites the
caller's list in place; not modelled.) -/
def normalise (m : List (List Ident)) : List (List String) := m.map (·.map Ident.key)

/-- c3/parametermap.py:308-326, one iteration of the inner loop of `set_parameters`: the state after
it and the exception if one was raised. -/
def setOne (s : PMap) (key : String) (v : List ℝ) (ext : Bool) : PMap × Option PErr :=
  match s.ref key with
  | none => (s, some (.key key))
  | some r =>
    let o : Quantity.Op := if ext then .setExtend v else .set v
    let s' := { s with heap := Function.update s.heap r (o.step (s.heap r)) }
    match o.call (s.heap r) with
    | .ok _ => (s', none)
    | .error e => (s', some (.quantity key e))

/-- c3/parametermap.py:308-326, the inner loop over one group. -/
def setGroup (s : PMap) (v : List ℝ) (ext : Bool) : List String → PMap × Option PErr
  | [] => (s, none)
  | k :: ks =>
    match s.setOne k v ext with
    | (s', none) => s'.setGroup v ext ks
    | (s', some e) => (s', some e)

/-- c3/parametermap.py:307-327, the outer loop. `values[val_indx]` never fails here because the
lengths were compared before; the model drops surplus elements. -/
def setGroups (s : PMap) (ext : Bool) : List (List String) → List (List ℝ) → PMap × Option PErr
  | g :: gs, v :: vs =>
    match s.setGroup v ext g with
    | (s', none) => s'.setGroups ext gs vs
    | (s', some e) => (s', some e)
  | _, _ => (s, none)

/-- c3/parametermap.py:285-331 `set_parameters`. -/
def setParameters (s : PMap) (values : List (List ℝ)) (optMap : List (List String))
    (ext : Bool := false) : PMap × Option PErr :=
  if values.length ≠ optMap.length then (s, some .length)
  else
    match s.setGroups ext optMap values with
    | (s', some e) => (s', some e)
    | (s', none) =>
      let modelUpdated := optMap.any fun g => g.any fun k => s.modelIds.contains k
      if modelUpdated && s.hasModel then ({ s' with modelView := s'.heap }, none) else (s', none)

/-- c3/parametermap.py:246-265 `get_parameters`. -/
def getParameters (s : PMap) : List (List String) → Except PErr (List Quantity)
  | [] => .ok []
  | [] :: _ => .error .index
  | (k :: _) :: gs =>
    match s.ref k with
    | none => .error (.key k)
    | some r =>
      match s.getParameters gs with
      | .error e => .error e
      | .ok qs => .ok (s.heap r :: qs)

/-- c3/parametermap.py:333-354 `get_parameters_scaled` (the concatenated vector). -/
def getParametersScaled (s : PMap) (optMap : List (List String)) : Except PErr (List ℝ) :=
  match s.getParameters optMap with
  | .error e => .error e
  | .ok qs => .ok (qs.flatMap Quantity.getOptValue)

/-- c3/parametermap.py:375-378, one group of `_set_parameters_scaled_ctrls` with its slice. -/
def setScaledGroup (s : PMap) (slice : List ℝ) : List String → PMap × Option PErr
  | [] => (s, none)
  | k :: ks =>
    match s.ref k with
    | none => (s, some (.key k))
    | some r =>
      match (s.heap r).setOptValue slice with
      | .error e => (s, some (.quantity k e))
      | .ok q => setScaledGroup { s with heap := Function.update s.heap r q } slice ks

/-- c3/parametermap.py:370-379, the loop of `_set_parameters_scaled_ctrls`. `values` is the part of
the vector from `val_indx` on, so `values[val_indx : val_indx + par_len]` is `take par_len`. -/
def setScaledLoop (s : PMap) : List ℝ → List (List String) → PMap × Option PErr
  | _, [] => (s, none)
  | _, [] :: _ => (s, some .index)
  | values, (k :: ks) :: gs =>
    match s.ref k with
    | none => (s, some (.key k))
    | some r =>
      let len := (s.heap r).length
      match s.setScaledGroup (values.take len) (k :: ks) with
      | (s', none) => s'.setScaledLoop (values.drop len) gs
      | (s', some e) => (s', some e)

/-- c3/parametermap.py:356-395, 438-443: `set_parameters_scaled` without an explicit opt_map, which
is the variant with or without model update depending on `update_model`. Line 395 calls
`self.model.update_model()` without asking whether there is a model. -/
def setParametersScaled (s : PMap) (values : List ℝ) : PMap × Option PErr :=
  match s.setScaledLoop values s.optMap with
  | (s', some e) => (s', some e)
  | (s', none) =>
    if s.updateModel then
      if s.hasModel then ({ s' with modelView := s'.heap }, none) else (s', some .attribute)
    else (s', none)

/-- c3/parametermap.py:356-395 `set_parameters_scaled` with an explicit opt_map: the variant without model
update uses it, the variant with model update drops it (line 394). -/
def setParametersScaledWith (s : PMap) (values : List ℝ) (m : List (List String)) : PMap × Option PErr :=
  if s.updateModel then s.setParametersScaled values else s.setScaledLoop values m

/-- c3/parametermap.py:397-417 `get_key_from_scaled_index`; `curr` is `curr_indx`. -/
def keyFromIndex (s : PMap) (idx : ℕ) (curr : ℕ) : List (List String) → Except PErr String
  | [] => .ok ""
  | [] :: _ => .error .index
  | (k :: _) :: gs =>
    match s.ref k with
    | none => .error (.key k)
    | some r =>
      let curr' := curr + (s.heap r).length
      if idx < curr' then .ok k else s.keyFromIndex idx curr' gs

open scoped Classical in
/-- c3/parametermap.py:219-223: compare the limits of the remaining members with `limit`. -/
def checkRest (s : PMap) (limit : ℝ × ℝ) : List String → Except PErr Unit
  | [] => .ok ()
  | k :: ks =>
    match s.ref k with
    | none => .error (.key k)
    | some r => if (s.heap r).getLimits ≠ limit then .error .limits else s.checkRest limit ks

/-- c3/parametermap.py:217-223 for one group: groups with more than one member are examined. -/
def checkGroup (s : PMap) : List String → Except PErr Unit
  | k :: k' :: ks =>
    match s.ref k with
    | none => .error (.key k)
    | some r => s.checkRest (s.heap r).getLimits (k' :: ks)
  | _ => .ok ()

/-- c3/parametermap.py:216-223: the loop over the groups. -/
def checkGroups (s : PMap) : List (List String) → Except PErr Unit
  | [] => .ok ()
  | g :: gs =>
    match s.checkGroup g with
    | .error e => .error e
    | .ok _ => s.checkGroups gs

/-- c3/parametermap.py:204-223 `check_limits`. As in the code the argument is ignored and the
installed `self.opt_map` is examined (line 216). -/
def checkLimits (s : PMap) (_optMap : List (List String)) : Except PErr Unit :=
  s.checkGroups s.optMap

/-- c3/parametermap.py:419-436 `set_opt_map` with an already joined map. -/
def setOptMap (s : PMap) (m : List (List String)) : PMap × Option PErr :=
  match m.flatten.find? fun k => (s.ref k).isNone with
  | some k => (s, some (.key k))
  | none =>
    let s' := { s with updateModel := m.flatten.any fun k => s.modelIds.contains k }
    match s'.checkLimits m with
    | .error e => (s', some e)
    | .ok _ => ({ s' with optMap := m }, none)

/-- c3/parametermap.py:92-116 `store_values` without `optim_status`: the stored opt_map and the
values of its parameters. The file round trip through HJSON is taken as the identity. -/
def storeValues (s : PMap) : Except PErr (List (List String) × List (List ℝ)) :=
  match s.getParameters s.optMap with
  | .error e => .error e
  | .ok qs => .ok (s.optMap, qs.map Quantity.numpy)

/-- c3/parametermap.py:73-90 `load_values`. -/
def loadValues (s : PMap) (file : List (List String) × List (List ℝ)) (ext : Bool) :
    PMap × Option PErr := s.setParameters file.2 file.1 ext

/-- What a user reads: `get_parameter(id).numpy()` (c3/parametermap.py:225-244). -/
def read (s : PMap) (k : String) : Option (List ℝ) := (s.ref k).map fun r => (s.heap r).numpy

end PMap
end C3
