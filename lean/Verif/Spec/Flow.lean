import Verif.Model.Momentum
/-! # Specification of C137: momentum entering and leaving vertices -/
namespace Gcl.Spec
set_option autoImplicit false

open Classical in
/-- The summed momentum of the particles whose edge satisfies `P`. -/
noncomputable def totalOf (es : List (Int × Int)) (pmu : List P4) (P : Int × Int → Prop) : P4 :=
  Gcl.total (((es.zip pmu).filter (fun r => decide (P r.1))).map Prod.snd)

/-- What enters vertex `u` is what leaves it. -/
def ConservedAt (es : List (Int × Int)) (pmu : List P4) (u : Int) : Prop :=
  totalOf es pmu (fun e => e.2 = u) = totalOf es pmu (fun e => e.1 = u)

/-- Some edge leaves `u`. -/
def HasOut (es : List (Int × Int)) (u : Int) : Prop := ∃ w, (u, w) ∈ es

/-- Some edge enters `u`. -/
def HasIn (es : List (Int × Int)) (u : Int) : Prop := ∃ w, (w, u) ∈ es

end Gcl.Spec
