import Verif.Model.RawMask
import Verif.Model.Convert
/-!
# Model of the values given for the masks of a group

`MaskGroup(mapping)` converts the values of the mapping with `_mask_dict_convert` (graphicle/data.py:651-661),
`group[key] = value` with `MaskGroup.__setitem__` (data.py:800-806); the two do not agree on mappings.

Simplifications: values are what numpy turns into booleans element by element (Model/Cast.lean has the conversion of the
elements); mappings are dictionaries with strings as keys.
-/
namespace Gcl
set_option autoImplicit false

/-- A value given for a mask (graphicle/data.py:651-661, 800-806): a `MaskArray` or `MaskGroup`, a scalar, sequence or
array, a structured array, or a dictionary. -/
inductive Given where
  | mask (m : RMask)
  | values (a : Nd Bool)
  | fields (a : Structured Bool)
  | mapping (kids : List (String × Given))

/-- `MaskArray(val)` of an array converted to booleans (graphicle/data.py:422-443, 492): the mask shows the stored
elements. -/
def arrayMask : Py (Nd Bool) → Py RMask
  | .ok b => .ok (.arr b.flat)
  | .error e => .error e

mutual
/-- One round of the loop of `_mask_dict_convert` (graphicle/data.py:653-660). -/
def Given.convert : Given → Py RMask
  | .mask m => .ok m
  | .values a => arrayMask (construct .scalar a)
  | .fields a => arrayMask (constructStructured .scalar a)
  | .mapping kids =>
    match Given.convertKids kids with
    | .ok ks => .ok (.grp (.str "and") ks)
    | .error e => .error e
termination_by structural g => g
/-- `_mask_dict_convert` (graphicle/data.py:651-661). -/
def Given.convertKids : List (String × Given) → Py (List (String × RMask))
  | [] => .ok []
  | (k, g) :: rest =>
    match Given.convert g with
    | .error e => .error e
    | .ok m =>
      match Given.convertKids rest with
      | .error e => .error e
      | .ok ms => .ok ((k, m) :: ms)
termination_by structural gs => gs
end

/-- `MaskGroup(mapping, agg_op)` (graphicle/data.py:716-722). -/
def groupOfGiven (kids : List (String × Given)) (op : RawOp) : Py RMask :=
  match Given.convertKids kids with
  | .ok ks => .ok (.grp op ks)
  | .error e => .error e

/-- The conversion in `MaskGroup.__setitem__` (graphicle/data.py:804-805): whatever is no mask is given to `MaskArray`.
numpy makes a dictionary a scalar, its truth value. -/
def Given.assigned : Given → Py RMask
  | .mask m => .ok m
  | .values a => arrayMask (construct .scalar a)
  | .fields a => arrayMask (constructStructured .scalar a)
  | .mapping kids => arrayMask (construct .scalar ⟨[], [decide (kids.length ≠ 0)]⟩)

/-- `group[key] = value` (graphicle/data.py:800-806): the masks afterwards, and the exception raised. -/
def assignGiven (ks : Dict RMask) (k : String) (v : Given) : Dict RMask × Option PyErr :=
  match v.assigned with
  | .ok m => (Dict.set ks k m, none)
  | .error e => (ks, some e)

/-- A history of assignments, each of which may raise (graphicle/data.py:800-806). -/
def assignAll (ks : Dict RMask) : List (String × Given) → Dict RMask × List (Option PyErr)
  | [] => (ks, [])
  | (k, v) :: rest =>
    ((assignAll (assignGiven ks k v).1 rest).1, (assignGiven ks k v).2 :: (assignAll (assignGiven ks k v).1 rest).2)

end Gcl
