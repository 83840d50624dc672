import Verif.Model.Mapping
/-! # Specification vocabulary for the mapping methods: an ordered map -/
namespace Gcl.Spec
set_option autoImplicit false
open Gcl

/-- An ordered map: the names in order, and the mask of each name. -/
structure OMap where
  order : List String
  look : String → Option RMask

/-- Put `m` under `k`: in its old place, or at the end. -/
def OMap.put (s : OMap) (k : String) (m : RMask) : OMap :=
  ⟨if k ∈ s.order then s.order else s.order ++ [k], fun x => if x = k then some m else s.look x⟩

/-- Take out `k`. -/
def OMap.out (s : OMap) (k : String) : OMap :=
  ⟨s.order.filter (· ≠ k), fun x => if x = k then none else s.look x⟩

/-- Put the pairs in one after the other; at the first key which is no string stop with `KeyError`. -/
def OMap.puts (s : OMap) : List (Option String × MArg) → OMap × MOut
  | [] => (s, .none)
  | (some k, v) :: rest => (s.put k v.toMask).puts rest
  | (none, _) :: _ => (s, .raised .keyError)

/-- What each call does to an ordered map and gives back. -/
def OMap.step (s : OMap) : MapOp → OMap × MOut
  | .set (some k) v => (s.put k v.toMask, .none)
  | .set none _ => (s, .raised .keyError)
  | .del k => if k ∈ s.order then (s.out k, .none) else (s, .raised .keyError)
  | .pop k default =>
    match s.look k, default with
    | some m, _ => (s.out k, .val (.mask m))
    | none, some v => (s, .val v)
    | none, none => (s, .raised .keyError)
  | .popitem =>
    match s.order with
    | [] => (s, .raised .keyError)
    | k :: _ =>
      match s.look k with
      | some m => (s.out k, .item k m)
      | none => (s, .raised .keyError)
  | .clear => (⟨[], fun _ => none⟩, .none)
  | .update ps => s.puts ps
  | .setdefault k v =>
    match s.look k with
    | some m => (s, .val (.mask m))
    | none => (s.put k v.toMask, .val v)

/-- A history on an ordered map. -/
def OMap.run (s : OMap) : List MapOp → OMap × List MOut
  | [] => (s, [])
  | o :: rest => (((s.step o).1.run rest).1, (s.step o).2 :: ((s.step o).1.run rest).2)

/-- The entries `ks` are the ordered map `s`. -/
def IsOMap (ks : List (String × RMask)) (s : OMap) : Prop :=
  ks.map Prod.fst = s.order ∧ s.order.Nodup ∧ ∀ k m, s.look k = some m ↔ (k, m) ∈ ks

end Gcl.Spec
