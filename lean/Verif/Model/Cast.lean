import Mathlib.Algebra.Order.Floor.Ring
import Verif.Model.Momentum
import Verif.Model.Ufunc
/-!
# Model of the element conversion in the constructors

`np.asarray(values, dtype=dtype)` of graphicle/data.py:432 with the element types of the classes
(data.py:492, 1086, 1338, 1830, 1934, 2028, 2431), for arrays of booleans, signed integers and doubles.  What C leaves undefined
(a double without an integer of the target type, an integer without a double) is a parameter.  Python lists of integers
that do not fit are not modelled: depending on the version, numpy wraps them or raises `OverflowError`.
-/
namespace Gcl
set_option autoImplicit false

/-- The element types (graphicle/data.py:492, 1086, 1338, 1830, 1934, 2028, 2431). -/
inductive DType where
  | bool | i2 | i4 | f8
  deriving DecidableEq, Repr

/-- An element of an array given to a constructor or stored by one.
Helper of `castVal` (graphicle/data.py:432). -/
inductive Elem where
  | bool (b : Bool)
  | int (z : Int)
  | flt (x : Fl)

/-- The element type of each class: `MaskArray`, `PdgArray`, `MomentumArray`, `ColorArray`, `HelicityArray`,
`StatusArray`, `AdjacencyList` (graphicle/data.py:492, 1086, 1338, 1830, 1934, 2028, 2431). -/
def Cls.dtype : Cls → DType
  | .mask => .bool
  | .pdg => .i4
  | .momentum => .f8
  | .color => .i4
  | .helicity => .i2
  | .status => .i2
  | .edges => .i4

/-- The platform: the integer an unrepresentable double becomes, and the double nearest to an integer.
Helper of `castVal` (graphicle/data.py:432). -/
structure Platform where
  junk : Nat → Fl → Int
  nearest : Int → ℝ

/-- Conversion between integer types: the low `bits` bits, in two's complement.
Helper of `castVal` (graphicle/data.py:432). -/
def wrapInt (bits : Nat) (z : Int) : Int := (z + 2 ^ (bits - 1)) % 2 ^ bits - 2 ^ (bits - 1)

/-- Rounding of a real number towards zero.
Helper of `castVal` (graphicle/data.py:432). -/
noncomputable def truncReal (x : ℝ) : Int := if 0 ≤ x then ⌊x⌋ else ⌈x⌉

open Classical in
/-- Conversion of an element to a signed integer of `bits` bits.
Helper of `castVal` (graphicle/data.py:432). -/
noncomputable def castInt (p : Platform) (bits : Nat) : Elem → Int
  | .bool b => if b then 1 else 0
  | .int z => wrapInt bits z
  | .flt (.fin x) =>
    if -2 ^ (bits - 1) ≤ truncReal x ∧ truncReal x < 2 ^ (bits - 1) then truncReal x else p.junk bits (.fin x)
  | .flt x => p.junk bits x

open Classical in
/-- `np.asarray(values, dtype=dtype)` on one element (graphicle/data.py:432). -/
noncomputable def castVal (p : Platform) : DType → Elem → Elem
  | .bool, .bool b => .bool b
  | .bool, .int z => .bool (decide (z ≠ 0))
  | .bool, .flt (.fin x) => .bool (decide (x ≠ 0))
  | .bool, .flt _ => .bool true
  | .i2, v => .int (castInt p 16 v)
  | .i4, v => .int (castInt p 32 v)
  | .f8, .bool b => .flt (.fin (if b then 1 else 0))
  | .f8, .int z => .flt (.fin (p.nearest z))
  | .f8, .flt x => .flt x

/-- The constructor of a class: element conversion (graphicle/data.py:432), then the checks and reshaping of
`construct` (data.py:433-443, 1342-1345). -/
noncomputable def newArray (p : Platform) (c : Cls) (a : Nd Elem) : Py (Nd Elem) :=
  construct c.kind ⟨a.shape, a.flat.map (castVal p c.dtype)⟩

end Gcl
