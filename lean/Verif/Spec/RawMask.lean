import Verif.Model.RawMask
/-! # Specification vocabulary for stored aggregation operations and printed trees -/
namespace Gcl.Spec
set_option autoImplicit false
open Gcl

/-- The spellings of the three operations: each letter in either case. -/
def spellings : Agg → List String
  | .and => ["and", "And", "aNd", "anD", "ANd", "AnD", "aND", "AND"]
  | .or => ["or", "Or", "oR", "OR"]
  | .none => ["none", "None", "nOne", "noNe", "nonE", "NOne", "NoNe", "NonE", "nONe", "nOnE", "noNE",
      "NONe", "NOnE", "NoNE", "nONE", "NONE"]

/-- What a stored operation means: a spelling of one of the three, and everything else is as good as `none`. -/
def meaning : RawOp → Agg
  | .str s => if s ∈ spellings .and then .and else if s ∈ spellings .or then .or else .none
  | .obj => .none

mutual
/-- The mask with the meaning of the stored operations. -/
def norm : RMask → Mask
  | .arr d => .arr d
  | .grp op ks => .grp (meaning op) (normKids ks)
termination_by structural m => m
/-- The masks of a group with the meaning of their stored operations. -/
def normKids : List (String × RMask) → List (String × Mask)
  | [] => []
  | (k, m) :: rest => (k, norm m) :: normKids rest
termination_by structural ks => ks
end

/-- Every stored operation in the tree is a string. -/
inductive Strings : RMask → Prop
  | arr {d} : Strings (.arr d)
  | grp {s ks} : (∀ k m, (k, m) ∈ ks → Strings m) → Strings (.grp (.str s) ks)

/-- The operation last assigned to `agg_op`. -/
def lastAgg (v : RawOp) : List GOp → RawOp
  | [] => v
  | .setAgg w :: rest => lastAgg w rest
  | _ :: rest => lastAgg v rest

/-- Leave out the assignments to `agg_op`. -/
def noAgg : List GOp → List GOp
  | [] => []
  | .setAgg _ :: rest => noAgg rest
  | o :: rest => o :: noAgg rest

/-- The lines of a tree of names: each name at its depth, followed by what is below it. -/
inductive Lines : Nat → List (String × RMask) → List (Nat × String) → Prop
  | nil {n} : Lines n [] []
  | leaf {n k d rest out} : Lines n rest out → Lines n ((k, .arr d) :: rest) ((n, k) :: out)
  | group {n k op ks rest inner out} : Lines (n + 1) ks inner → Lines n rest out →
      Lines n ((k, .grp op ks) :: rest) ((n, k) :: (inner ++ out))

/-- The names found by following a path of names in a dictionary (`path` ends with the name itself). -/
inductive Named : List (String × RMask) → List String → Prop
  | here {ks k m} : (k, m) ∈ ks → Named ks [k]
  | down {ks k op kk p} : (k, .grp op kk) ∈ ks → Named kk p → Named ks (k :: p)

end Gcl.Spec
