import Verif.Model.SignedZero
/-!
# Specification vocabulary for signed zeros
-/
namespace Gcl
set_option autoImplicit false

namespace Spec

/-- Two signed numbers whose sign bits differ: one is negative or `-0`, the other positive or `+0`. -/
def SignsDiffer (a b : Sg) : Prop :=
  ((a.val < 0 ∨ (a.val = 0 ∧ a.bit = true)) ∧ (0 < b.val ∨ (b.val = 0 ∧ b.bit = false))) ∨
  ((0 < a.val ∨ (a.val = 0 ∧ a.bit = false)) ∧ (b.val < 0 ∨ (b.val = 0 ∧ b.bit = true)))

/-- Two signed vectors lie in opposite quadrants: the signs of both components differ. -/
def OppositeQuadrants (v w : SgC) : Prop := SignsDiffer v.re w.re ∧ SignsDiffer v.im w.im

end Spec

end Gcl
