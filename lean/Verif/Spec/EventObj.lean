import Verif.Model.EventObj
import Verif.Spec.InPlace
/-! # Specification vocabulary for events as objects -/
namespace Gcl.Spec
set_option autoImplicit false
open Gcl

/-- The records the attribute `a` of the event or particle set `x` shows. -/
def shown {α : Type} (s : EState α) (x : Nat) (a : Attr) : Option (List α) := (s.attr x a).bind s.records

/-- Every object exists and is of the right kind: arrays refer to existing memory and are contiguous, the attributes of
particle sets are arrays, events have a particle set and an array of edges. -/
def EventsSound {α : Type} (s : EState α) : Prop :=
  ∀ (i : Nat) (o : EObj), s.objs[i]? = some o →
    match o with
    | .arr r => Placed s.mem r
    | .set parts => ∀ a, a ≠ Attr.adj → s.isArr (parts a) = true
    | .graph p d => s.isSet p = true ∧ s.isArr d = true

/-- What `key` selects of the records `x`; of no records, none. -/
def picked {α : Type} (k : Key) (x : List α) : Py (List α) := if x = [] then .ok [] else k.apply x

/-- The object made last. -/
def newest {α : Type} (s : EState α) : Nat := s.objs.length - 1

/-- The objects an operation mentions. -/
def names {α : Type} : EOp α → List Nat
  | .array _ => []
  | .write x _ _ => [x]
  | .assign x y => [x, y]
  | .newSet given => particleAttrs.filterMap given
  | .newGraph p d => p.toList ++ d.toList
  | .setAttr x _ y => [x, y]
  | .setParticles g p => [g, p]
  | .setAdj g d => [g, d]
  | .setProperty g _ y => [g, y]
  | .copySet x => [x]
  | .copyGraph g => [g]
  | .getSet x _ => [x]
  | .getGraph g _ => [g]

/-- The operation puts an object or an array into the place of another, in the object `x`. -/
def replaces {α : Type} (x : Nat) : EOp α → Prop
  | .assign y _ => y = x
  | .setAttr y _ _ => y = x
  | .setParticles y _ => y = x
  | .setAdj y _ => y = x
  | _ => False

/-- The object `y` is the event or particle set `x`, its particles, or one of its attributes. -/
def within {α : Type} (s : EState α) (x y : Nat) : Prop :=
  y = x ∨ (∃ d, s.objs[x]? = some (.graph y d)) ∨ ∃ a, s.attr x a = some y

/-- Two users of the objects; `owner[i]` says whose the object `i` is. -/
structure Users (α : Type) where
  s : EState α
  owner : List Bool

/-- A step of user `side`, who can only mention own objects and owns the objects the step makes.  (A step mentioning an
object of the other user does not happen.) -/
def userStep {α : Type} (t : Users α) (side : Bool) (op : EOp α) : Users α :=
  if (names op).all (fun i => t.owner[i]? == some side) then
    ⟨(op.run t.s).1, t.owner ++ List.replicate ((op.run t.s).1.objs.length - t.s.objs.length) side⟩
  else t

/-- A history of the two users in any order. -/
def runUsers {α : Type} (t : Users α) : List (Bool × EOp α) → Users α
  | [] => t
  | (side, op) :: rest => runUsers (userStep t side op) rest

/-- The objects from number `n` on are independent of those before: if one user has those and another user these, then
after any history of the two no further step of one changes the attributes of the objects of the other, or anything
they show. -/
def Separate {α : Type} (s : EState α) (n : Nat) : Prop :=
  ∀ (hist : List (Bool × EOp α)) (side : Bool) (op : EOp α) (t : Users α),
    t = runUsers ⟨s, (List.range s.objs.length).map (fun i => decide (n ≤ i))⟩ hist →
    ∀ j, t.owner[j]? = some (!side) →
      (userStep t side op).s.records j = t.s.records j ∧
      ∀ a, (userStep t side op).s.attr j a = t.s.attr j a ∧ shown (userStep t side op).s j a = shown t.s j a

end Gcl.Spec
