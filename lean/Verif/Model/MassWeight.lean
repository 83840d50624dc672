import Verif.Model.Momentum
/-!
# Model of the `weight` argument of `combined_mass`

graphicle/calculate.py:135-189.  Weight arrays with three or more dimensions are not modelled.
-/
namespace Gcl
set_option autoImplicit false

/-- What may be passed as `weight` (graphicle/calculate.py:137).  Structured arrays become unstructured ones with
one column per field, in the order of the fields (graphicle/calculate.py:177-178). -/
inductive WeightArg where
  /-- `None`, the default. -/
  | absent
  /-- Anything that is not a numpy array: a list, a float, a `MomentumArray`. -/
  | notArray
  /-- An array of shape `()`. -/
  | scalar (w : ℝ)
  /-- An array of shape `(n,)`. -/
  | vec (ws : List ℝ)
  /-- An array of shape `(n, 1)`. -/
  | column (ws : List ℝ)
  /-- An array of shape `(n, 4)`, or a structured array with four fields. -/
  | table (ws : List P4)
  /-- An array of shape `(n, k)` where `k` is neither one nor four. -/
  | other (n k : Nat)

/-- The weight array stretched to four columns, as broadcasting against momenta of shape `(n, 4)` does; helper of
`combinedMassArg` (graphicle/calculate.py:179). -/
def WeightArg.stretched : WeightArg → Py (List P4)
  | .scalar w => .ok [⟨w, w, w, w⟩]
  | .vec [w] => .ok [⟨w, w, w, w⟩]
  | .vec [a, b, c, d] => .ok [⟨a, b, c, d⟩]
  | .column ws => .ok (ws.map (fun w => ⟨w, w, w, w⟩))
  | .table ws => .ok ws
  | _ => .error .valueError

/-- `combined_mass`, graphicle/calculate.py:135-189, with its `weight` argument: `None` is no weighting, anything
that is not a numpy array is `ValueError` (graphicle/calculate.py:175-176), arrays are broadcast. -/
noncomputable def combinedMassArg (ps : List P4) (w : WeightArg) : Py ℝ :=
  match w with
  | .absent => .ok (combinedMass ps)
  | .notArray => .error .valueError
  | w =>
    match w.stretched with
    | .error e => .error e
    | .ok ws => combinedMassW ps ws

end Gcl
