import Verif.Model.Composite
import Verif.Model.Convert
/-!
# Model of `==` and `!=` on the array classes

`_array_eq_prep`, `_array_eq`, `_array_ne` (graphicle/data.py:237-274), called by `__eq__` and `__ne__` of
`PdgArray`, `MomentumArray`, `ColorArray`, `HelicityArray`, `StatusArray` and `AdjacencyList`
(data.py:1167-1176, 1467-1476, 1896-1905, 1984-1993, 2066-2075, 2467-2475).

`beq` is equality of two elements (not reflexive for floating point numbers: nan).  Simplifications: the operand
has at most two dimensions; comparing arrays of two different classes, one of them with fields, is not modelled;
conversion of the operand to the dtype of the class is the identity.  `MaskArray` has its own comparison
(`Model/Mask.lean`).
-/
namespace Gcl
set_option autoImplicit false

/-- Common length of two broadcast axes (NumPy ≥ 1.25: `ValueError` if there is none).
Helper of `npCompare` (graphicle/data.py:267, 274). -/
def bcastLen (n q : Nat) : Py Nat :=
  if n = q then .ok n
  else if n = 1 then .ok q
  else if q = 1 then .ok n
  else .error .valueError

/-- An axis of length `1` or `N` repeated to length `N`.
Helper of `npCompare` (graphicle/data.py:267, 274). -/
def stretch {β : Type} (N : Nat) (l : List β) : List β :=
  if l.length = N then l else (l.take 1).flatMap (List.replicate N)

/-- `x == y` in numpy for a 1-D `x` and `y` of the given shape (graphicle/data.py:267, 274). -/
def npCompare {β : Type} (f : β → β → Bool) (xs : List β) (shape : List Nat) (ys : List β) : Py (Nd Bool) :=
  match shape with
  | [] => .ok ⟨[xs.length], xs.flatMap (fun x => ys.map (f x))⟩
  | [q] =>
    match bcastLen xs.length q with
    | .error e => .error e
    | .ok N => .ok ⟨[N], List.zipWith f (stretch N xs) (stretch N ys)⟩
  | m :: q :: _ =>
    match bcastLen xs.length q with
    | .error e => .error e
    | .ok N =>
      .ok ⟨[m, N], (chunks q m ys).flatMap (fun row => List.zipWith f (stretch N xs) (stretch N row))⟩

/-- `MaskArray(x == y)`, graphicle/data.py:267, 274. -/
def toMask (r : Py (Nd Bool)) : Py (List Bool) :=
  match r with
  | .error e => .error e
  | .ok a =>
    match construct .scalar a with
    | .error e => .error e
    | .ok b => .ok b.flat

/-- The other side of a comparison.
Helper of `prepScalar` (graphicle/data.py:237-260). -/
inductive EqOpd (α : Type) where
  | wrapped (a : Nd α)                       -- an instance of the same class, by its buffer
  | number (x : α)
  | sequence (l : List α)                    -- a list or tuple of numbers
  | rows (width : Nat) (rs : List (List α))  -- a list of tuples of this width
  | array (a : Nd α)                         -- an `ndarray` without fields
  | fields (a : Structured α)                -- an `ndarray` with fields
  | other                                    -- `None`, a string, a mapping, ...

/-- `np.array(values).view(dtype)` with `cols` fields (graphicle/data.py:259): the last axis is divided. -/
def viewFields {α : Type} (cols : Nat) (a : Nd α) : Py (List Nat × List (List α)) :=
  match a.shape with
  | [n] =>
    if n % cols = 0 then .ok ([n / cols], chunks cols (n / cols) a.flat) else .error .valueError
  | [m, n] =>
    if n % cols = 0 then .ok ([m, n / cols], chunks cols (m * (n / cols)) a.flat) else .error .valueError
  | _ => .error .valueError

/-- Equality of two records: all components are equal.
Helper of `arrayCompare` (graphicle/data.py:263-267). -/
def recEq {α : Type} (beq : α → α → Bool) (r s : List α) : Bool :=
  r.length == s.length && (List.zipWith beq r s).all id

/-- `_array_eq_prep` for the classes whose `data` has no fields (graphicle/data.py:237-260, first branch or
neither): the operand as numpy sees it in `x == y`. -/
def prepScalar {α : Type} : EqOpd α → Py (List Nat × List α)
  | .wrapped a => .ok ([a.flat.length], a.flat)
  | .number x => .ok ([], [x])
  | .sequence l => .ok ([l.length], l)
  | .rows w rs => .ok ([rs.length, w], rs.flatten)
  | .array a => .ok (a.shape, a.flat)
  | .fields _ => .error .typeError   -- not used, see `unrelatedLen`
  | .other => .error .typeError      -- not used, see `unrelatedLen`

/-- The operands numpy has no comparison of numbers with (graphicle/data.py:267, 274; NumPy ≥ 1.25): nothing is equal,
the result has the broadcast length.  An object which is no array counts as a single element. -/
def unrelatedLen {α : Type} (n : Nat) : EqOpd α → Option (Py Nat)
  | .other => some (.ok n)
  | .fields b => some (bcastLen n b.records.length)
  | _ => none

/-- `_array_eq_prep` for the classes whose `data` has fields (graphicle/data.py:243-260).  `AdjacencyList` is not
an `ArrayBase` (graphicle/base.py:216), so for it an instance of the same class is an arbitrary `Sequence`.  The
test `other.dtype == np.void` (data.py:248) fails for an array with fields, so the second branch is taken for every
`ndarray`, which is not a `Sequence`. -/
def prepFields {α : Type} (k : Kind) : EqOpd α → Py (List Nat × List (List α))
  | .wrapped a =>
    if k = .edges then
      if a.len ≠ 2 then .error .valueError else viewFields k.cols a
    else .ok ([(records k a).length], records k a)
  | .sequence l =>
    if l.length ≠ k.cols then .error .valueError else viewFields k.cols ⟨[l.length], l⟩
  | .rows w rs =>
    if rs.length ≠ k.cols then .error .valueError else viewFields k.cols ⟨[rs.length, w], rs.flatten⟩
  | _ => .error .valueError

/-- `self == other` / `self != other` for an instance of a class of kind `k` with buffer `a`: `_array_eq`
(graphicle/data.py:263-267) with `f` equality, `_array_ne` (270-274) with `f` its negation. -/
def arrayCompare {α : Type} (beq : α → α → Bool) (neg : Bool) (k : Kind) (a : Nd α) (o : EqOpd α) :
    Py (List Bool) :=
  match k with
  | .scalar =>
    match unrelatedLen a.flat.length o with
    | some (.error e) => .error e
    | some (.ok N) => toMask (.ok ⟨[N], List.replicate N neg⟩)
    | none =>
      match prepScalar o with
      | .error e => .error e
      | .ok (shape, ys) => toMask (npCompare (fun x y => xor neg (beq x y)) a.flat shape ys)
  | _ =>
    match prepFields k o with
    | .error e => .error e
    | .ok (shape, ys) => toMask (npCompare (fun x y => xor neg (recEq beq x y)) (records k a) shape ys)

/-- `array == other`.
Helper of `__eq__` (graphicle/data.py:263-267). -/
def arrayEq {α : Type} (beq : α → α → Bool) (k : Kind) (a : Nd α) (o : EqOpd α) : Py (List Bool) :=
  arrayCompare beq false k a o

/-- `array != other`.
Helper of `__ne__` (graphicle/data.py:269-274). -/
def arrayNe {α : Type} (beq : α → α → Bool) (k : Kind) (a : Nd α) (o : EqOpd α) : Py (List Bool) :=
  arrayCompare beq true k a o

/-- The buffer of an `AdjacencyList` given by its edges, one row each.
Helper of `Graph.eqTruth` (graphicle/data.py:2679). -/
def edgeBuffer (es : List (Int × Int)) : Nd Int := ⟨[es.length, 2], es.flatMap (fun e => [e.1, e.2])⟩

/-- Truth value of the `__eq__` generated by `@define` for `Graphicle` (graphicle/data.py:2679): `particles`, then
`adj`; the truth value of a mask is that its length is not zero.  The two operands share no attribute object. -/
def Graph.eqTruth {M W : Type} (g h : Graph M W) : Py Bool :=
  pyAnd (g.particles.eqTruth h.particles)
    (match arrayEq (· == ·) .edges (edgeBuffer g.adj.edges) (.wrapped (edgeBuffer h.adj.edges)) with
     | .error e => .error e
     | .ok m => .ok (m.length != 0))

end Gcl
