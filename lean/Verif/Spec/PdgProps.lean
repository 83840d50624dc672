import Verif.Model.PdgProps
/-! # Specification: where the properties of `PdgArray` are in the table -/
namespace Gcl.Spec
set_option autoImplicit false
open Gcl

/-- The column of the table and the factor (table entries of energies are in MeV) of a number-valued property. -/
def numColumn : NumProp → String × Rat
  | .charge => ("charge", 1)
  | .mass => ("mass", 1 / 1000)
  | .width => ("width", 1 / 1000)
  | .isospin => ("i", 1)
  | .gParity => ("g", 1)
  | .spaceParity => ("p", 1)
  | .chargeParity => ("c", 1)

/-- The column of the table of a text-valued property. -/
def textColumn : TextProp → String
  | .name => "name"
  | .latex => "latex"
  | .quarks => "quarks"

/-- The columns of the table with the bounds. -/
def boundColumns : BoundProp → String × String
  | .mass => ("masslower", "massupper")
  | .width => ("widthlower", "widthupper")

end Gcl.Spec
