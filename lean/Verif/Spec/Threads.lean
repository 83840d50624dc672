import Verif.Model.Threads
/-! # Specification vocabulary for threads reading cached attributes -/
namespace Gcl.Spec
set_option autoImplicit false
open Gcl

/-- `val o a` is what reading `a` of `o` gives when nobody else is there and nothing is stored: compute what the
attribute needs, then the attribute; the first exception ends it. -/
def ReadAlone {Obj Attr V : Type} (C : CachedClass Obj Attr V) (val : Obj → Attr → Py V) : Prop :=
  ∀ o a, val o a =
    match C.dep a with
    | none => C.compute o a none
    | some d =>
      match val o d with
      | .error e => .error e
      | .ok v => C.compute o a (some v)

/-- No attribute needs itself: `depth` counts how deep the needs are nested. -/
def Nested {Obj Attr V : Type} (C : CachedClass Obj Attr V) (depth : Attr → Nat) : Prop :=
  ∀ a d, C.dep a = some d → depth d < depth a

/-- Every thread has got through its reads. -/
def AllDone {Obj Attr V : Type} (w : World Obj Attr V) : Prop :=
  ∀ i, (w.thr i).cur = [] ∧ (w.thr i).todo = []

/-- Upper bound for the number of steps of a list of reads. -/
def readCost {Obj Attr : Type} (depth : Attr → Nat) (prog : List (Obj × Attr)) : Nat :=
  (prog.map (fun r => 6 * depth r.2 + 8)).sum

/-- A schedule that gives each of `n` threads a turn, in any order and with any repetitions, `k` times over. -/
inductive FairRounds (n : Nat) : Nat → List Nat → Prop where
  | zero (s : List Nat) : FairRounds n 0 s
  | succ (k : Nat) (r s : List Nat) (h : ∀ i, i < n → i ∈ r) (hs : FairRounds n k s) : FairRounds n (k + 1) (r ++ s)

end Gcl.Spec
