import Verif.Spec.Adj
/-! # Specification vocabulary: renaming vertices, comparing masks -/
namespace Gcl.Spec
set_option autoImplicit false

/-- The edges with their ends renamed. -/
def rename (f : Int → Int) (es : List (Int × Int)) : List (Int × Int) := es.map (fun e => (f e.1, f e.2))

/-- `a` selects at most what `b` selects. -/
def Within (a b : List Bool) : Prop := a.length = b.length ∧ ∀ i : Nat, a[i]? = some true → b[i]? = some true

end Gcl.Spec
