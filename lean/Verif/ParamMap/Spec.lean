import Verif.ParamMap.Model

/-!
# Specification vocabulary for the parameter map properties

Independent of the loops of the model.
-/

noncomputable section

namespace C3
namespace PMap

/-- The assignments `set_parameters(values, opt_map)` is supposed to make, in order: every member
of the n-th group gets the n-th value. -/
def assignments (m : List (List String)) (values : List (List ℝ)) : List (String × List ℝ) :=
  (m.zip values).flatMap fun p => p.1.map fun k => (k, p.2)

/-- The parameter names of the entries of the optimizer vector, one per array element of the first
member of each group. `len` gives the number of array elements of a parameter. -/
def entryNames (len : String → ℕ) (m : List (List String)) : List String :=
  m.flatMap fun g => List.replicate (len (g.headD "")) (g.headD "")

end PMap
end C3
