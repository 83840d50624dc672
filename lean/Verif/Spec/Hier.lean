import Verif.Spec.Hard
/-! # Specification vocabulary for the hierarchy of the hard process -/
namespace Gcl.Spec
set_option autoImplicit false

/-- `ds` lists, for every hard parton, which hard partons descend from it.  Parton `i` is an ancestor
of another parton `c`. -/
def isAnc (ds : List (List Bool)) (i c : Nat) : Bool :=
  i != c && (ds[i]?.bind (fun d => d[c]?)) == some true

/-- Number of hard partons descending from parton `i`. -/
def descCount (ds : List (List Bool)) (i : Nat) : Nat :=
  ((List.range ds.length).filter (isAnc ds i)).length

/-- Parton `i` is the closest ancestor of parton `c`: the ancestor with the fewest descendants, the
first one in record order among equals. -/
def IsParent (ds : List (List Bool)) (i c : Nat) : Prop :=
  isAnc ds i c = true ∧ ∀ j, isAnc ds j c = true → j ≠ i →
    descCount ds i < descCount ds j ∨ (descCount ds i = descCount ds j ∧ i < j)

/-- Descent is a strict order: transitive (and irreflexive, which `isAnc` is by definition, so also
without cycles). -/
def StrictDescent (ds : List (List Bool)) : Prop :=
  ∀ i j k, isAnc ds i j = true → isAnc ds j k = true → isAnc ds i k = true

/-- Descent is a forest order: strict, and the ancestors of every parton form a chain. -/
def ForestDescent (ds : List (List Bool)) : Prop :=
  StrictDescent ds ∧ ∀ i j c, isAnc ds i c = true → isAnc ds j c = true →
    i = j ∨ isAnc ds i j = true ∨ isAnc ds j i = true

/-- Position `i` is the only edge ending in vertex `v`. -/
def OnlyInto (es : List (Int × Int)) (v : Int) (i : Nat) : Prop :=
  (∃ e, es[i]? = some e ∧ e.2 = v) ∧ ∀ (j : Nat) (e : Int × Int), es[j]? = some e → e.2 = v → j = i

/-- `f` is the first position at which `d` is true. -/
def FirstTrue (d : List Bool) (f : Nat) : Prop :=
  d[f]? = some true ∧ ∀ j < f, d[j]? ≠ some true

/-- The mask of a parton without nested children: its descendant mask `d`, together with the edge
entering the source of the first selected edge, if exactly one edge does. -/
def LeafMask (es : List (Int × Int)) (d m : List Bool) : Prop :=
  m.length = d.length ∧ ∀ i : Nat, m[i]? = some true ↔ d[i]? = some true ∨
    ∃ (f : Nat) (e : Int × Int), FirstTrue d f ∧ es[f]? = some e ∧ OnlyInto es e.1 i

/-- The entry of parton `x` in the tree, given the nested children of every parton, its descendant
mask and the edges: an array for a parton without nested children; otherwise a group of the entries of
the children, in order, followed by `latent`, which is true where exactly one of "descends from the
parton" and "selected by some child" holds. -/
inductive TreeOf (kids : String → List String) (D : String → List Bool) (es : List (Int × Int)) :
    String → Mask → Prop
  | leaf {x m} : kids x = [] → LeafMask es (D x) m → TreeOf kids D es x (.arr m)
  | node {x ms L} : kids x ≠ [] → ms.length = (kids x).length →
      (∀ p ∈ (kids x).zip ms, TreeOf kids D es p.1 p.2) →
      L.length = (D x).length →
      (∀ i : Nat, i < L.length → (L[i]? = some true ↔
        ((D x)[i]? = some true ∧ ¬ ∃ p ∈ (kids x).zip ms, Holds i p.2) ∨
        ((D x)[i]? ≠ some true ∧ ∃ p ∈ (kids x).zip ms, Holds i p.2))) →
      TreeOf kids D es x (.grp .or ((kids x).zip ms ++ [("latent", .arr L)]))

/-- Positions of `d` at which the hard partons sit. -/
def atPartons (status : List Int) (d : List Bool) : List Bool :=
  (partons status).filterMap (fun p => d[p]?)

/-- The mask listed under a name. -/
def maskOf (desc : List (String × List Bool)) (x : String) : List Bool :=
  ((desc.find? (fun p => p.1 == x)).map Prod.snd).getD []

/-- `out` is the hierarchy of the partons whose descendant masks `desc` lists: `kids x` are the
partons whose closest ancestor is `x`; at the top are the partons with such children that have no
ancestor-parent themselves; every entry is as described by `TreeOf`. -/
structure HierarchyOf (status : List Int) (es : List (Int × Int)) (desc : List (String × List Bool))
    (kids : String → List String) (out : List (String × Mask)) : Prop where
  /-- children are listed in record order -/
  ordered : ∀ x, (kids x).Sublist (desc.map Prod.fst)
  /-- children are those whose closest ancestor is `x` -/
  parents : ∀ (i c : Nat) (x y : String), (desc.map Prod.fst)[i]? = some x →
    (desc.map Prod.fst)[c]? = some y →
    (y ∈ kids x ↔ IsParent (desc.map (fun p => atPartons status p.2)) i c)
  /-- only partons have children -/
  known : ∀ x, kids x ≠ [] → x ∈ desc.map Prod.fst
  /-- the top level -/
  top : out.map Prod.fst = (desc.map Prod.fst).filter (fun x => !(kids x).isEmpty &&
    (desc.map Prod.fst).all (fun z => !(kids z).contains x))
  /-- the entries -/
  entries : ∀ p ∈ out, TreeOf kids (maskOf desc) es p.1 p.2

/-- The end vertex of a hard parton that decays no further is not shared with another particle. -/
def PrivateEnds (status : List Int) (es : List (Int × Int)) : Prop :=
  ∀ (p : Nat) (e : Int × Int), p ∈ partons status → es[p]? = some e → (¬ ∃ w, (e.2, w) ∈ es) →
    ∀ (j : Nat) (e' : Int × Int), es[j]? = some e' → e'.2 = e.2 → j = p

end Gcl.Spec
