import Verif.Model.Cluster
import Verif.Model.Range
/-!
# Model of `jaccard_distance` with rounding, overflow and weights that are not numbers

graphicle/calculate.py:848-912 once more; additions and the division round, a result beyond `big` is infinite, and weights
may be infinite or nan.  A product with a flag is exact, as the flag is converted to one or zero.
-/
namespace Gcl
set_option autoImplicit false
open Real

/-- `weight * flag` (graphicle/calculate.py:876-877): infinity or nan times `False` is nan. -/
noncomputable def timesFlag (w : Fl) (b : Bool) : Fl := w.mul (.fin (if b then 1 else 0))

/-- The loop of `_jaccard_distance` (graphicle/calculate.py:873-877) over `zip(u, v, w)`; accumulators are
`(difference_sum, union_sum)`. -/
noncomputable def jaccardLoopO (A : Arith) (big : ℝ) : Fl × Fl → List Bool → List Bool → List Fl → Fl × Fl
  | (dif, uni), u :: us, v :: vs, w :: ws =>
    let nonzero := u || v
    let unequalNonzero := nonzero && (u != v)
    jaccardLoopO A big (addO A big dif (timesFlag w unequalNonzero), addO A big uni (timesFlag w nonzero)) us vs ws
  | acc, _, _, _ => acc

open Classical in
/-- `_jaccard_distance` (graphicle/calculate.py:848-880). -/
noncomputable def jaccardO (A : Arith) (big : ℝ) (u v : List Bool) (w : Option (List Fl)) : Fl :=
  let w := match w with
    | some w => w
    | none => List.replicate u.length (.fin 1)
  let r := jaccardLoopO A big (.fin 0, .fin 0) u v w
  if r.2 = .fin 0 then .fin 0 else divO A big r.1 r.2

end Gcl
