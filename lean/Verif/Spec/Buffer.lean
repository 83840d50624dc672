import Verif.Model.Buffer
/-! # Specification vocabulary for memory sharing -/
namespace Gcl.Spec
set_option autoImplicit false
open Gcl

/-- What the variable `i` shows. -/
def shows {α : Type} (s : BState α) (i : Nat) : Option (List α) := s.vars[i]?.map (readArr s.mem)

/-- All variables refer to existing memory. -/
def Sound {α : Type} (s : BState α) : Prop :=
  ∀ a ∈ s.vars, ∃ xs, s.mem[a.buf]? = some xs ∧ ∀ p ∈ a.pos, p < xs.length

/-- The variables an operation mentions. -/
def mentions {α : Type} : BOp α → List Nat
  | .wrap i _ => [i]
  | .npSlice i .. => [i]
  | .getitem i _ => [i]
  | .item i .. => [i]
  | .copy i => [i]
  | .write i .. => [i]
  | .assign i j _ => [i, j]

/-- The operation binds the variable `i` to another array. -/
def rebinds {α : Type} (i : Nat) : BOp α → Prop
  | .assign i' _ _ => i' = i
  | _ => False

/-- Two users; `owner[i]` says whose the variable `i` is. -/
structure Shared (α : Type) where
  s : BState α
  owner : List Bool

/-- A step of user `side`, who can only mention own variables and owns the variables the step makes.  (A step
mentioning a variable of the other user does not happen.) -/
def sideStep {α : Type} (t : Shared α) (side : Bool) (op : BOp α) : Shared α :=
  if (mentions op).all (fun i => t.owner[i]? == some side) then
    ⟨op.run t.s, t.owner ++ List.replicate ((op.run t.s).vars.length - t.s.vars.length) side⟩
  else t

/-- A history of the two users in any order. -/
def runSides {α : Type} (t : Shared α) : List (Bool × BOp α) → Shared α
  | [] => t
  | (side, op) :: rest => runSides (sideStep t side op) rest

/-- After `s` has become `s'` by making the variable `n`: one user has the variable `n`, the other all the others. -/
def split {α : Type} (s' : BState α) (n : Nat) : Shared α := ⟨s', (List.range s'.vars.length).map (fun i => i == n)⟩

/-- The new variable `n` and the other variables of `s'` are independent: after any history of a user working with
`n` (and what is made from it) and a user working with the rest, no further step of one changes what the
variables of the other show. -/
def Independent {α : Type} (s' : BState α) (n : Nat) : Prop :=
  ∀ (hist : List (Bool × BOp α)) (side : Bool) (op : BOp α) (t : Shared α), t = runSides (split s' n) hist →
    ∀ j, t.owner[j]? = some (!side) → shows (sideStep t side op).s j = shows t.s j ∧ (shows t.s j).isSome

/-- The new variable `n` shows, for ever, the records `idxs` of what the variable `i` shows. -/
def Tracks {α : Type} (s' : BState α) (n i : Nat) (idxs : List Nat) : Prop :=
  ∀ hist : List (BOp α), (∀ op ∈ hist, ¬ rebinds i op ∧ ¬ rebinds n op) →
    ∃ x, shows (runBufs s' hist) i = some x ∧ shows (runBufs s' hist) n = some (gather x idxs)

end Gcl.Spec
