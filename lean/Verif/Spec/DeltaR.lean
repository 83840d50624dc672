import Verif.Spec.Physics
import Verif.Model.ShiftEta
/-! # Specification vocabulary for distances -/
namespace Gcl.Spec
set_option autoImplicit false
open Gcl

/-- Order on extended distances (`inf` is largest; nan is comparable to nothing). -/
def FlLe : Fl → Fl → Prop
  | .fin x, .fin y => x ≤ y
  | .fin _, .pinf => True
  | .pinf, .pinf => True
  | .ninf, .fin _ => True
  | .ninf, .ninf => True
  | .ninf, .pinf => True
  | _, _ => False

/-- Sum of two distances. -/
noncomputable def flAdd : Fl → Fl → Fl
  | .fin x, .fin y => .fin (x + y)
  | .nan, _ => .nan
  | _, .nan => .nan
  | .pinf, .ninf => .nan
  | .ninf, .pinf => .nan
  | .pinf, _ => .pinf
  | .ninf, _ => .ninf
  | .fin _, .pinf => .pinf
  | .fin _, .ninf => .ninf

end Gcl.Spec
