import Verif.Model.ShareMem
import Verif.Spec.Heap
import Verif.Spec.Mask
/-! # Specification vocabulary for objects shared by groups -/
namespace Gcl.Spec
set_option autoImplicit false
open Gcl

/-- The object `v` of the heap `h'` was made for the value `m` when there were the objects of `h`: a mask or group
object is taken as it is, an array is the buffer of a new mask, other values are held by a new mask with a new buffer,
a mapping becomes a new group with `agg_op` "and" of objects made for its values. -/
inductive MadeFor (h h' : MHeap) : Member → Nat → Prop
  | obj (a : Nat) : MadeFor h h' (.obj a) a
  | array {b v : Nat} : h.length ≤ v → h'[v]? = some (.mask b) → MadeFor h h' (.array b) v
  | values {d : List Bool} {b v : Nat} : h.length ≤ v → h'[v]? = some (.mask b) → h.length ≤ b →
      h'[b]? = some (.buf d) → MadeFor h h' (.values d) v
  | mapping {ms : List (String × Member)} {es : List (String × Nat)} {v : Nat} :
      h.length ≤ v → h'[v]? = some (.group .and es) → ms.map Prod.fst = es.map Prod.fst →
      (∀ (i : Nat) (m : String × Member) (e : String × Nat), ms[i]? = some m → es[i]? = some e →
        MadeFor h h' m.2 e.2) →
      MadeFor h h' (.mapping ms) v

/-- The named objects below a dictionary in depth-first order (a group directly followed by its own members), never
entering a name `latent`. -/
inductive ObjOrder (h : MHeap) : List (String × Nat) → List (String × Nat) → Prop
  | nil : ObjOrder h [] []
  | latent {v : Nat} {rest out : List (String × Nat)} : ObjOrder h rest out → ObjOrder h (("latent", v) :: rest) out
  | leaf {k : String} {v b : Nat} {rest out : List (String × Nat)} : k ≠ "latent" → h[v]? = some (.mask b) →
      ObjOrder h rest out → ObjOrder h ((k, v) :: rest) ((k, v) :: out)
  | group {k : String} {v : Nat} {op : Agg} {es rest inner out : List (String × Nat)} : k ≠ "latent" →
      h[v]? = some (.group op es) → ObjOrder h es inner → ObjOrder h rest out →
      ObjOrder h ((k, v) :: rest) ((k, v) :: (inner ++ out))

/-- The mask objects below a dictionary in depth-first order, never entering a name `latent`. -/
inductive LeafObjs (h : MHeap) : List (String × Nat) → List (String × Nat) → Prop
  | nil : LeafObjs h [] []
  | latent {v : Nat} {rest out : List (String × Nat)} : LeafObjs h rest out → LeafObjs h (("latent", v) :: rest) out
  | leaf {k : String} {v b : Nat} {rest out : List (String × Nat)} : k ≠ "latent" → h[v]? = some (.mask b) →
      LeafObjs h rest out → LeafObjs h ((k, v) :: rest) ((k, v) :: out)
  | group {k : String} {v : Nat} {op : Agg} {es rest inner out : List (String × Nat)} : k ≠ "latent" →
      h[v]? = some (.group op es) → LeafObjs h es inner → LeafObjs h rest out →
      LeafObjs h ((k, v) :: rest) (inner ++ out)

/-- The same for a whole tree, whose own `latent` member is not left out. -/
inductive TopLeafObjs (h : MHeap) : List (String × Nat) → List (String × Nat) → Prop
  | nil : TopLeafObjs h [] []
  | leaf {k : String} {v b : Nat} {rest out : List (String × Nat)} : h[v]? = some (.mask b) →
      TopLeafObjs h rest out → TopLeafObjs h ((k, v) :: rest) ((k, v) :: out)
  | group {k : String} {v : Nat} {op : Agg} {es rest inner out : List (String × Nat)} :
      h[v]? = some (.group op es) → LeafObjs h es inner → TopLeafObjs h rest out →
      TopLeafObjs h ((k, v) :: rest) (inner ++ out)

/-- `v` is a mask object, made after those of `h`, with a buffer made after those of `h`. -/
def NewMask (h h' : MHeap) (v : Nat) : Prop := h.length ≤ v ∧ ∃ b, h'[v]? = some (.mask b) ∧ h.length ≤ b

/-- The entry `v` for the object `x` in the group given by `flatten("rise")`: a mask is itself the entry, a group is
represented by a new mask. -/
def Risen (h h' : MHeap) (x v : Nat) : Prop :=
  (∀ b, h[x]? = some (.mask b) → v = x) ∧ (∀ op es, h[x]? = some (.group op es) → NewMask h h' v)

/-- The entry `v` for the object `x` in the group given by `flatten("agg")`: a new mask, on the buffer of `x` if `x` is
a mask, and otherwise on a new one. -/
def Aggregated (h h' : MHeap) (x v : Nat) : Prop :=
  (∀ b, h[x]? = some (.mask b) → h.length ≤ v ∧ h'[v]? = some (.mask b)) ∧
  (∀ op es, h[x]? = some (.group op es) → NewMask h h' v)

/-- The objects a value of a mapping refers to exist. -/
inductive ValidMember (h : MHeap) : Member → Prop
  | obj {a : Nat} : a < h.length → ValidMember h (.obj a)
  | array {b : Nat} : b < h.length → ValidMember h (.array b)
  | values (d : List Bool) : ValidMember h (.values d)
  | mapping {ms : List (String × Member)} : (∀ k m, (k, m) ∈ ms → ValidMember h m) → ValidMember h (.mapping ms)

/-- Whatever two entries of a group have in common, directly or indirectly, existed already in `h`. -/
def NewApart (h h' : MHeap) (es : List (String × Nat)) : Prop :=
  ∀ (i j : Nat) (e f : String × Nat), i ≠ j → es[i]? = some e → es[j]? = some f →
    ∀ x, Reaches h' e.2 x → Reaches h' f.2 x → x < h.length

end Gcl.Spec
