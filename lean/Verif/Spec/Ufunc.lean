import Verif.Model.Ufunc
/-! # Specification vocabulary for universal functions -/
namespace Gcl.Spec
set_option autoImplicit false
open Gcl

/-- The values of a wrapped operand without the wrapper. -/
def bare {α : Type} : Opd α → Opd α
  | .wrapped c a => .array (decide (c = .mask)) a
  | x => x

/-- All wrapped operands are of class `c`, and there is one. -/
def OnlyClass {α : Type} (c : Cls) (ops : List (Opd α)) : Prop :=
  (∃ a, Opd.wrapped c a ∈ ops) ∧ ∀ d a, Opd.wrapped d a ∈ ops → d = c

/-- No operand is of an unsupported type. -/
def Supported {α : Type} (ops : List (Opd α)) : Prop := Opd.other ∉ ops

/-- What the universal function returned, before wrapping: bare arrays and scalars. -/
def BareVal {α : Type} : UVal α → Prop
  | .wrapped _ _ => False
  | _ => True

/-- Bare results. -/
def BareRes {α : Type} : URes α → Prop
  | .one v => BareVal v
  | .tuple vs => ∀ v ∈ vs, BareVal v
  | .none => True

/-- The classes of the wrappers in a result. -/
def resultClasses {α : Type} : URes α → List Cls
  | .one (.wrapped c _) => [c]
  | .tuple vs => vs.filterMap (fun v => match v with | .wrapped c _ => some c | _ => none)
  | _ => []

end Gcl.Spec
