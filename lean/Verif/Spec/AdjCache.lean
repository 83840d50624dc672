import Verif.Model.AdjCache
/-! # Specification vocabulary for histories of reads and writes of an `AdjacencyList` -/
namespace Gcl.Spec
set_option autoImplicit false
open Gcl

/-- The reads that need the graph structure: roots, leaves, matrix and sparse form always, the descendants of a
vertex only if the vertex has an outgoing edge. -/
def needsStructure {W : Type} (E : List (Int × Int)) : AOp W → Bool
  | .roots => true
  | .leaves => true
  | .matrix => true
  | .sparse => true
  | .descendants v => E.any (fun e => e.1 == v)
  | .write _ => false
  | .setWeights _ => false

/-- The edges after one operation: in-place writes replace them by as many others. -/
def edgesStep {W : Type} (E : List (Int × Int)) : AOp W → List (Int × Int)
  | .write es => if es.length = E.length then es else E
  | _ => E

/-- The edges after a history. -/
def edgesNow {W : Type} (E : List (Int × Int)) : List (AOp W) → List (Int × Int)
  | [] => E
  | op :: rest => edgesNow (edgesStep E op) rest

/-- The edges there were when the structure was first needed (the present ones if it never was). -/
def edgesSeen {W : Type} (E : List (Int × Int)) : List (AOp W) → List (Int × Int)
  | [] => E
  | op :: rest => if needsStructure E op then E else edgesSeen (edgesStep E op) rest

/-- The weights last set. -/
def weightsNow {W : Type} (ws : List W) : List (AOp W) → List W
  | [] => ws
  | .setWeights ws' :: rest => weightsNow ws' rest
  | _ :: rest => weightsNow ws rest

end Gcl.Spec
