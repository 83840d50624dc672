import Verif.Model.Heap
/-! # Specification: what in-place updates mean on the value of a mask -/
namespace Gcl.Spec
set_option autoImplicit false
open Gcl

/-- The mapping with the value of `k` changed by `f`. -/
def onKey (k : String) (f : Mask → Mask) : List (String × Mask) → List (String × Mask)
  | [] => []
  | (k', m) :: rest => if k' = k then (k', f m) :: rest else (k', m) :: onKey k f rest

/-- The mask with its part `m[k1][k2]...` changed by `f`; unchanged if there is no such part. -/
def onPath (f : Mask → Mask) : List String → Mask → Mask
  | [], m => f m
  | _ :: _, .arr d => .arr d
  | k :: p, .grp op ks => .grp op (onKey k (onPath f p) ks)

/-- Assigning booleans: groups have none. -/
def assign (d : List Bool) : Mask → Mask
  | .arr _ => .arr d
  | m => m

/-- Assigning a member, removing a member, choosing the aggregation: arrays have none. -/
def onGroup (f : Agg → List (String × Mask) → Mask) : Mask → Mask
  | .grp op ks => f op ks
  | m => m

/-- What an update does to the value it is made on. -/
def edit : HOp → Mask → Mask
  | .write p d => onPath (assign d) p
  | .rebind p d => onPath (assign d) p
  | .addNew p k m => onPath (onGroup (fun op ks => .grp op (Dict.set ks k m))) p
  | .del p k => onPath (onGroup (fun op ks => .grp op (ks.filter (fun q => q.1 != k)))) p
  | .setAgg p op => onPath (onGroup (fun _ ks => .grp op ks)) p
  | .drop p key _ => onPath (Mask.drop key) p
  | .addOld _ _ _ => id

mutual
/-- How deeply a mask is nested. -/
def depth : Mask → Nat
  | .arr _ => 1
  | .grp _ ks => depthKids ks + 1
termination_by structural m => m
/-- The greatest depth of the members. -/
def depthKids : List (String × Mask) → Nat
  | [] => 0
  | (_, m) :: rest => max (depth m) (depthKids rest)
termination_by structural ks => ks
end

/-- The updates are of the kinds that put in no object from elsewhere, and Python's recursion limit is not met. -/
def Plain : List HOp → Mask → Prop
  | [], _ => True
  | .addOld _ _ _ :: _, _ => False
  | .drop p key fuel :: ops, m => depth m ≤ fuel ∧ Plain ops (edit (.drop p key fuel) m)
  | op :: ops, m => Plain ops (edit op m)

end Gcl.Spec
