import Verif.Model.Convert
/-!
# Model of iteration, `serialize` and assignment to `data`

graphicle/data.py:514-515, 584-589, 1153-1154, 1299-1304, 1450-1452, 1798-1803, 1857-1859, 1907-1912, 1959-1960,
1995-2000, 2053-2054, 2142-2147, 2454-2456, 2654-2659 and the setters of `data` (578-582, 1187-1189, 1442-1444,
1868-1870, 1966-1968, 2082-2084; `AdjacencyList` has none).  Conversion to Python numbers is the identity.
-/
namespace Gcl
set_option autoImplicit false

/-- `list(array)`: for the classes of plain numbers `yield from self._data.tolist()`; for the others
`starmap(Element, map(methodcaller("tolist"), self._data))` (graphicle/data.py:1451-1452, 1858-1859, 2455-2456),
where each row of the buffer is unpacked into the named tuple: a row of another width, or a single number, is
`TypeError`. -/
def iterate {α : Type} (k : Kind) (a : Nd α) : Py (List (List α)) :=
  match k with
  | .scalar => .ok (a.flat.map (fun x => [x]))
  | _ =>
    match a.shape with
    | [] => .error .typeError
    | [n] => if n = 0 then .ok [] else .error .typeError
    | n :: c :: _ =>
      if n = 0 then .ok []
      else if c = k.cols then .ok (chunks c n a.flat)
      else .error .typeError

/-- `array.serialize()`: `tuple(self.data.tolist())` or `tuple(self)`, the latter for the classes with records
(graphicle/data.py:589, 1304, 1803, 1912, 2000, 2147, 2659). -/
def serializeArr {α : Type} (k : Kind) (a : Nd α) : Py (List (List α)) :=
  match k with
  | .scalar => .ok (a.flat.map (fun x => [x]))
  | _ => iterate k a

/-- `array.data = values` (graphicle/data.py:578-582, 1187-1189, 1442-1444, 1868-1870, 1966-1968, 2082-2084): the
converter of the field runs (`on_setattr=setters.convert`, data.py:450) and, only if it succeeds, the buffer is
replaced; `__attrs_post_init__` does not run.  The first component is the buffer afterwards.  `AdjacencyList.data`
has no setter. -/
def assignData {α : Type} (k : Kind) (old : Nd α) (values : Nd α) : Nd α × Py Unit :=
  match k with
  | .edges => (old, .error .attributeError)
  | _ =>
    match convertNd k.cols values with
    | .ok b => (b, .ok ())
    | .error e => (old, .error e)

/-- The same for a structured array.
Helper of `_array_field` (graphicle/data.py:423-443). -/
def assignStructured {α : Type} (k : Kind) (old : Nd α) (values : Structured α) : Nd α × Py Unit :=
  match k with
  | .edges => (old, .error .attributeError)
  | _ =>
    match convertStructured k.cols values with
    | .ok b => (b, .ok ())
    | .error e => (old, .error e)

end Gcl
