import Verif.Model.Convert
/-!
# Model of numpy universal functions on the wrapped arrays

`_array_ufunc` (graphicle/data.py:166-234) together with numpy's dispatch to `__array_ufunc__`
(graphicle/data.py:511, 1162, 1429, 1844, 1946, 2040, 2444).  The universal function itself is a parameter
`compute`, and so is the element conversion `cast` to the dtype of a class (`np.asarray(values, dtype)`,
graphicle/data.py:432).  An array is its shape, its elements and whether its dtype is boolean.
-/
namespace Gcl
set_option autoImplicit false

/-- The classes that wrap an array.
Helper of `Opd.unwrap` (graphicle/data.py:215-219). -/
inductive Cls where
  | mask | pdg | momentum | color | helicity | status | edges
  deriving DecidableEq, Repr

/-- How a class is constructed.
Helper of `Cls.make` (graphicle/data.py:222-224). -/
def Cls.kind : Cls → Kind
  | .mask => .scalar
  | .pdg => .scalar
  | .momentum => .momentum
  | .color => .color
  | .helicity => .scalar
  | .status => .scalar
  | .edges => .edges

/-- An operand: a wrapped array, an `ndarray`, a number, a Python sequence, anything else (a `MaskGroup`, `None`,
...).
Helper of `Opd.handled` (graphicle/data.py:206-212). -/
inductive Opd (α : Type) where
  | wrapped (c : Cls) (a : Nd α)
  | array (isBool : Bool) (a : Nd α)
  | number (x : α)
  | sequence (l : List α)
  | other

/-- A single value returned: an `ndarray`, a numpy scalar, a wrapped array.
Helper of `Cls.makeAll` (graphicle/data.py:222-224). -/
inductive UVal (α : Type) where
  | array (isBool : Bool) (a : Nd α)
  | scalar (x : α)
  | wrapped (c : Cls) (a : Nd α)

/-- What a universal function returns.
Helper of `Cls.finish` (graphicle/data.py:222-234). -/
inductive URes (α : Type) where
  | one (v : UVal α)
  | tuple (vs : List (UVal α))
  | none

/-- `isinstance(x, instance._HANDLED_TYPES + (class_type,))`, graphicle/data.py:206-212: every wrapped array is
a `Sequence` (graphicle/base.py:137, 216). -/
def Opd.handled {α : Type} : Opd α → Bool
  | .other => false
  | _ => true

/-- `x._data if isinstance(x, class_type) else x`, graphicle/data.py:215-219; the buffer of a `MaskArray` is
boolean. -/
def Opd.unwrap {α : Type} (c : Cls) : Opd α → Opd α
  | .wrapped d a => if d = c then .array (decide (d = .mask)) a else .wrapped d a
  | x => x

/-- `class_type(x)`: the elements are converted to the dtype of the class; a wrapped argument is read through
`__array_interface__` (graphicle/data.py:1143-1144, 1426-1427, 1841-1842, 1943-1944, 2037-2038; `__array_wrap__`
1147-1148, 1848-1849, 1950-1951, 2044-2045 is the same conversion).
Helper of `Cls.makeAll` (graphicle/data.py:222-224). -/
def Cls.make {α : Type} (cast : Cls → α → α) (c : Cls) : UVal α → Py (UVal α)
  | .array _ a =>
    match construct c.kind ⟨a.shape, a.flat.map (cast c)⟩ with
    | .ok b => .ok (.wrapped c b)
    | .error e => .error e
  | .wrapped _ a =>
    match construct c.kind ⟨a.shape, a.flat.map (cast c)⟩ with
    | .ok b => .ok (.wrapped c b)
    | .error e => .error e
  | .scalar x =>
    match construct c.kind ⟨[], [cast c x]⟩ with
    | .ok b => .ok (.wrapped c b)
    | .error e => .error e

/-- `tuple(class_type(x) for x in result)`, graphicle/data.py:222-224. -/
def Cls.makeAll {α : Type} (cast : Cls → α → α) (c : Cls) : List (UVal α) → Py (List (UVal α))
  | [] => .ok []
  | v :: vs =>
    match c.make cast v with
    | .error e => .error e
    | .ok w =>
      match Cls.makeAll cast c vs with
      | .error e => .error e
      | .ok ws => .ok (w :: ws)

/-- The treatment of the result, graphicle/data.py:222-234.  A wrapped array has no attribute `shape`. -/
def Cls.finish {α : Type} (cast : Cls → α → α) (c : Cls) (method : String) (axis : Option Int) :
    URes α → Py (URes α)
  | .tuple vs =>
    match c.makeAll cast vs with
    | .error e => .error e
    | .ok ws => .ok (.tuple ws)
  | .none => if method = "at" then .ok .none else .error .attributeError
  | .one v =>
    if method = "at" then .ok .none
    else
      match v with
      | .array true a =>
        match Cls.mask.make cast (.array true a) with
        | .error e => .error e
        | .ok w => .ok (.one w)
      | .array false a =>
        if a.shape = [] ∨ axis = some 1 then .ok (.one (.array false a))
        else
          match c.make cast (.array false a) with
          | .error e => .error e
          | .ok w => .ok (.one w)
      | .scalar x => .ok (.one (.scalar x))
      | .wrapped _ _ => .error .attributeError

/-- `_array_ufunc` for an instance of class `c`, graphicle/data.py:166-234, which is the `__array_ufunc__` of every array
class (graphicle/data.py:1162-1163, 1429-1430, 1844-1845, 1946-1947, 2040-2041); `call` is numpy's call of the
universal function.  `none` stands for `NotImplemented`. -/
def arrayUfunc {α : Type} (cast : Cls → α → α) (call : List (Opd α) → List (Opd α) → Py (URes α)) (c : Cls)
    (method : String) (axis : Option Int) (inputs outs : List (Opd α)) : Py (Option (URes α)) :=
  if (inputs ++ outs).all Opd.handled then
    match call (inputs.map (Opd.unwrap c)) (outs.map (Opd.unwrap c)) with
    | .error e => .error e
    | .ok r =>
      match c.finish cast method axis r with
      | .error e => .error e
      | .ok r' => .ok (some r')
  else .ok none

/-- The class of an operand that overrides universal functions.
Helper of `_array_ufunc` (graphicle/data.py:166-234). -/
def Opd.override {α : Type} : Opd α → Option Cls
  | .wrapped c _ => some c
  | _ => none

/-- numpy's dispatch: the overrides are tried from left to right, inputs before outputs, until one does not
return `NotImplemented`; `TypeError` if all do.
Helper of `_array_ufunc` (graphicle/data.py:166-234). -/
def tryOverrides {α : Type} (handler : Cls → Py (Option (URes α))) : List Cls → Py (URes α)
  | [] => .error .typeError
  | c :: cs =>
    match handler c with
    | .error e => .error e
    | .ok (some r) => .ok r
    | .ok none => tryOverrides handler cs

/-- Calling a universal function (or its method) on operands.  Each level of overriding removes one of the
seven classes from the operands, so the depth `fuel` is never used up when it is at least eight.
Helper of `_array_ufunc` (graphicle/data.py:166-234). -/
def npCall {α : Type} (cast : Cls → α → α) (compute : List (Opd α) → List (Opd α) → Py (URes α))
    (method : String) (axis : Option Int) : Nat → List (Opd α) → List (Opd α) → Py (URes α)
  | 0, _, _ => .error .recursionError
  | fuel + 1, inputs, outs =>
    match (inputs ++ outs).filterMap Opd.override with
    | [] => compute inputs outs
    | c :: cs =>
      tryOverrides (fun d => arrayUfunc cast (npCall cast compute method axis fuel) d method axis inputs outs)
        (c :: cs)

end Gcl
