import Verif.Model.Heap
/-! # Specification vocabulary for masks as objects -/
namespace Gcl.Spec
set_option autoImplicit false
open Gcl

/-- The addresses an object refers to. -/
def refs : HObj → List Nat
  | .buf _ => []
  | .mask b => [b]
  | .group _ es => es.map Prod.snd

/-- Address `y` is reached from `x` by following references. -/
inductive Reaches (h : MHeap) (x : Nat) : Nat → Prop
  | here : Reaches h x x
  | step {y z : Nat} {o : HObj} : Reaches h x y → h[y]? = some o → z ∈ refs o → Reaches h x z

/-- There are no dangling references. -/
def Closed (h : MHeap) : Prop := ∀ (x : Nat) (o : HObj), h[x]? = some o → ∀ y ∈ refs o, y < h.length

/-- The object at `a` shows the mask `m` to a user reading it: the booleans of an array, the members of a
group in order with what they show. -/
inductive ShowsMask (h : MHeap) : Nat → Mask → Prop
  | arr {a b : Nat} {d : List Bool} : h[a]? = some (.mask b) → h[b]? = some (.buf d) → ShowsMask h a (.arr d)
  | grp {a : Nat} {op : Agg} {es : List (String × Nat)} {ks : List (String × Mask)} :
      h[a]? = some (.group op es) → ks.map Prod.fst = es.map Prod.fst →
      (∀ (i : Nat) (e : String × Nat) (k : String × Mask), es[i]? = some e → ks[i]? = some k →
        ShowsMask h e.2 k.2) →
      ShowsMask h a (.grp op ks)

/-- `x` is the group at `a` or a group nested in it, not below `key`. -/
inductive NestedGroup (h : MHeap) (key : String) (a : Nat) : Nat → Prop
  | self {op : Agg} {es : List (String × Nat)} : h[a]? = some (.group op es) → NestedGroup h key a a
  | member {x y : Nat} {k : String} {op op' : Agg} {es es' : List (String × Nat)} :
      NestedGroup h key a x → h[x]? = some (.group op es) → (k, y) ∈ es → k ≠ key →
      h[y]? = some (.group op' es') → NestedGroup h key a y

/-- The object without the entry `key`. -/
def HObj.without (key : String) : HObj → HObj
  | .group op es => .group op (es.filter (fun p => p.1 != key))
  | o => o

end Gcl.Spec
