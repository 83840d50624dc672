import Verif.Model.Mask
/-!
# Specification vocabulary for masks

Nothing here refers to the *functions* of the model, only to its data types.
-/
namespace Gcl.Spec
set_option autoImplicit false
open Gcl

/-- The child of a mask under a name. -/
def child : Mask → String → Option Mask
  | .arr _, _ => none
  | .grp _ ks, k => (ks.find? (fun p => p.1 == k)).map Prod.snd

/-- The mask found by following a path of names. -/
def at? : Mask → List String → Option Mask
  | m, [] => some m
  | m, k :: p => (child m k).bind (fun c => at? c p)

/-- What is visible at one node of the tree: a leaf with its booleans, or a group with its
aggregation operation and its keys in order. -/
inductive Node where
  | leaf (d : List Bool)
  | group (op : Agg) (keys : List String)
  deriving DecidableEq

/-- The visible node of a mask. -/
def node : Mask → Node
  | .arr d => .leaf d
  | .grp op ks => .group op (ks.map Prod.fst)

/-- The node found at a path, `none` if the path does not exist. -/
def look (m : Mask) (p : List String) : Option Node := (at? m p).map node

/-- Every group at any depth has pairwise distinct keys (as Python dictionaries do). -/
def UniqueKeys (m : Mask) : Prop :=
  ∀ p op ks, look m p = some (.group op ks) → ks.Nodup

/-- `m` is a group (not a leaf). -/
def IsGroup : Mask → Prop
  | .arr _ => False
  | .grp _ _ => True

/-- Position `i` is selected by the mask: leaves directly, `and` groups by all of their children,
`or` groups by at least one of them. -/
inductive Holds (i : Nat) : Mask → Prop
  | leaf {d} : d[i]? = some true → Holds i (.arr d)
  | all {ks} : (∀ k m, (k, m) ∈ ks → Holds i m) → Holds i (.grp .and ks)
  | any {ks k m} : (k, m) ∈ ks → Holds i m → Holds i (.grp .or ks)

/-- The mask has an aggregate of length `n`: all leaves have length `n`, no group is empty and none
has `agg_op` `none`. -/
inductive Aggregable (n : Nat) : Mask → Prop
  | leaf {d} : d.length = n → Aggregable n (.arr d)
  | group {op ks} : op ≠ .none → ks ≠ [] → (∀ k m, (k, m) ∈ ks → Aggregable n m) →
      Aggregable n (.grp op ks)

/-- Every group in the tree has aggregation operation `op`. -/
def AllAgg (op : Agg) (m : Mask) : Prop := ∀ p op' ks, look m p = some (.group op' ks) → op' = op

/-- `d` holds, at every position, exactly whether the position is selected by `m`. -/
def IsAggregate (m : Mask) (d : List Bool) : Prop :=
  Aggregable d.length m ∧ ∀ (i : Nat) (h : i < d.length), d[i] = true ↔ Holds i m

end Gcl.Spec

namespace Gcl.Spec
open Gcl

/-- What an operand of `&`, `|`, `==`, `!=` shows: the array itself, or the aggregate of a mask. -/
def Shows : Operand → List Bool → Prop
  | .mask m, d => IsAggregate m d
  | .ndarray d, d' => d' = d
  | .foreign, _ => False

/-- The operand is a `MaskArray`. -/
def IsMaskArray : Operand → Prop
  | .mask (.arr _) => True
  | _ => False

/-- The operand is a `MaskGroup`. -/
def IsMaskGroup : Operand → Prop
  | .mask (.grp _ _) => True
  | _ => False

/-- numpy's 1-D broadcasting rule. -/
def Broadcastable (n k : Nat) : Prop := n = k ∨ n = 1 ∨ k = 1

/-- Length of the broadcast result. -/
def bcastLen (n k : Nat) : Nat := if n = 1 then k else n

/-- Element `i` of an array stretched by broadcasting. -/
def stretched (x : List Bool) (i : Nat) : Option Bool := if x.length = 1 then x[0]? else x[i]?

/-- `z` is the broadcast elementwise application of `f` to `x` and `y`. -/
def Elementwise (f : Bool → Bool → Bool) (x y z : List Bool) : Prop :=
  z.length = bcastLen x.length y.length ∧
  ∀ i, i < z.length → ∃ p q, stretched x i = some p ∧ stretched y i = some q ∧ z[i]? = some (f p q)

/-- Two nodes look alike to `equal_to`: same kind; leaves with the same booleans; groups with the
same keys (as sequences if `ordered`, as sets otherwise). Aggregation operations are ignored. -/
def NodeAlike (ordered : Bool) : Option Node → Option Node → Prop
  | none, none => True
  | some (.leaf a), some (.leaf b) => a = b
  | some (.group _ k1), some (.group _ k2) => if ordered then k1 = k2 else ∀ k, k ∈ k1 ↔ k ∈ k2
  | _, _ => False

/-- The node with aggregation operation replaced by `and`. -/
def Node.resetAgg : Node → Node
  | .leaf d => .leaf d
  | .group _ ks => .group .and ks

/-- The node with `key` removed from the keys of a group. -/
def Node.without (key : String) : Node → Node
  | .leaf d => .leaf d
  | .group op ks => .group op (ks.filter (· != key))

/-- All named masks below the top level of a dictionary in depth-first order (a group directly
followed by its own members), never entering a name `latent`. -/
inductive Preorder : List (String × Mask) → List (String × Mask) → Prop
  | nil : Preorder [] []
  | latent {m rest out} : Preorder rest out → Preorder (("latent", m) :: rest) out
  | leaf {k d rest out} : k ≠ "latent" → Preorder rest out →
      Preorder ((k, .arr d) :: rest) ((k, .arr d) :: out)
  | group {k op ks rest inner out} : k ≠ "latent" → Preorder ks inner → Preorder rest out →
      Preorder ((k, .grp op ks) :: rest) ((k, .grp op ks) :: (inner ++ out))

/-- The leaves below a dictionary in depth-first order, never entering a name `latent`. -/
inductive LeafOrder : List (String × Mask) → List (String × List Bool) → Prop
  | nil : LeafOrder [] []
  | latent {m rest out} : LeafOrder rest out → LeafOrder (("latent", m) :: rest) out
  | leaf {k d rest out} : k ≠ "latent" → LeafOrder rest out →
      LeafOrder ((k, .arr d) :: rest) ((k, d) :: out)
  | group {k op ks rest inner out} : k ≠ "latent" → LeafOrder ks inner → LeafOrder rest out →
      LeafOrder ((k, .grp op ks) :: rest) (inner ++ out)

/-- Names without repetitions, each at the place of its first occurrence. -/
def firstNames : List String → List String
  | [] => []
  | k :: ks => k :: (firstNames ks).filter (· != k)

/-- `v` is the last one listed under the name `k`. -/
def LastNamed {β : Type} (l : List (String × β)) (k : String) (v : β) : Prop :=
  ∃ l1 l2, l = l1 ++ (k, v) :: l2 ∧ k ∉ l2.map Prod.fst

/-! ## Histories of a group used as a dictionary -/

/-- One user action on a group: item assignment, item deletion, or replacing the variable by
`group[[names]]`. -/
inductive DictOp where
  | set (k : String) (m : Mask)
  | del (k : String)
  | select (names : List String)

/-- The mask a key should show after a history (newest action first): the one last assigned and
not deleted since.  A deletion or selection naming an absent key raises and changes nothing. -/
def lastAssigned : List DictOp → String → Option Mask
  | [], _ => none
  | .set k' m :: h, k => if k' = k then some m else lastAssigned h k
  | .del k' :: h, k => if k' = k then none else lastAssigned h k
  | .select names :: h, k =>
    if names.all (fun n => (lastAssigned h n).isSome) then
      (if k ∈ names then lastAssigned h k else none)
    else lastAssigned h k

/-- The order in which the surviving keys should iterate (newest action first). -/
def survivingOrder : List DictOp → List String
  | [] => []
  | .set k _ :: h => if k ∈ survivingOrder h then survivingOrder h else survivingOrder h ++ [k]
  | .del k :: h => (survivingOrder h).filter (· != k)
  | .select names :: h =>
    if names.all (fun n => n ∈ survivingOrder h) then firstOccurrences [] names
    else survivingOrder h
where
  /-- names without repetitions, each at its first occurrence -/
  firstOccurrences : List String → List String → List String
    | seen, [] => seen
    | seen, n :: ns => if n ∈ seen then firstOccurrences seen ns
                       else firstOccurrences (seen ++ [n]) ns

end Gcl.Spec
