import Verif.Model.InPlace
/-! # Specification vocabulary for operators in place -/
namespace Gcl.Spec
set_option autoImplicit false
open Gcl

/-- The contents of a cell of memory. -/
def cell {α : Type} (m : List (List α)) (buf q : Nat) : Option α := m[buf]?.bind (fun xs => xs[q]?)

/-- The array lies in memory, in one piece. -/
def Placed {α : Type} (m : List (List α)) (a : ArrRef) : Prop :=
  (∃ xs, m[a.buf]? = some xs ∧ ∀ p ∈ a.pos, p < xs.length) ∧ contiguous a.pos = true

/-- `m'` is `m` with the array `a` overwritten by `vals`. -/
def Overwritten {α : Type} (m m' : List (List α)) (a : ArrRef) (vals : List α) : Prop :=
  vals.length = a.pos.length ∧
  (∀ j p : Nat, a.pos[j]? = some p → cell m' a.buf p = vals[j]?) ∧
  ∀ c q, ¬ (c = a.buf ∧ q ∈ a.pos) → cell m' c q = cell m c q

/-- The values `vs` stretched to length `n` are `ws`. -/
def Fits {α : Type} (n : Nat) (vs ws : List α) : Prop :=
  (vs.length = n ∧ ws = vs) ∨ ∃ x, vs = [x] ∧ ws = List.replicate n x

/-- The operand gives the record `ws[k]` for the position `k`. -/
def Supplies {α : Type} (m : List (List α)) (n : Nat) (ws : List α) : Arg α → Prop
  | .same b => Fits n (readArr m b) ws
  | .ndarray b => Fits n (readArr m b) ws
  | .sequence l => Fits n l ws
  | .number x => ws = List.replicate n x
  | .foreign _ => False
  | .other => False

/-- Each name is bound to an object, each object has its array in memory. -/
def Bound {α : Type} (s : PState α) : Prop :=
  (∀ o ∈ s.names, o < s.objs.length) ∧ ∀ p ∈ s.objs, Placed s.mem p.arr

/-- The operation binds the name `i` anew. -/
def Rebinds {α : Type} (i : Nat) : POp α → Prop
  | .augment j _ _ => j = i
  | .binary j _ _ => j = i
  | _ => False

/-- The operation is in place. -/
def InPlace {α : Type} : POp α → Prop
  | .augment .. => True
  | _ => False

/-- The operation gives another name to the object of name `i`. -/
def Renames {α : Type} (i : Nat) : POp α → Prop
  | .rename j => j = i
  | _ => False

end Gcl.Spec
