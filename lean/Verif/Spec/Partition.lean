import Mathlib.Order.Basic
import Verif.Spec.Hier
/-! # Specification vocabulary for `partition_descendants` -/
namespace Gcl.Spec
set_option autoImplicit false
open Gcl

/-- Particle `p` enters vertex `v`. -/
def Enters (es : List (Int × Int)) (v : Int) (p : Nat) : Prop := ∃ e, es[p]? = some e ∧ e.2 = v

/-- Vertex `v` is a hadronisation vertex: a particle with absolute status 80 to 90 leaves it. -/
def HadronVertex (es : List (Int × Int)) (status : List Int) (v : Int) : Prop :=
  ∃ (i : Nat) (e : Int × Int) (s : Int), es[i]? = some e ∧ status[i]? = some s ∧ e.1 = v ∧
    80 ≤ s.natAbs ∧ s.natAbs ≤ 90

/-- Particle `i` is final and descends from vertex `v`. -/
def HadronOf (es : List (Int × Int)) (final : List Bool) (v : Int) (i : Nat) : Prop :=
  final[i]? = some true ∧ ∃ e, es[i]? = some e ∧ Descends es v e

/-- Mask `d` contains a particle entering vertex `v`. -/
def Incident (es : List (Int × Int)) (v : Int) (d : List Bool) : Prop :=
  ∃ p : Nat, d[p]? = some true ∧ Enters es v p

/-- `p` is, of the particles entering `v`, the one nearest to particle `i`, the first one on ties. -/
def Nearest {M R : Type} [LT R] [LE R] (dist : M → M → R) (pmu : List M) (es : List (Int × Int))
    (v : Int) (i p : Nat) : Prop :=
  Enters es v p ∧ ∃ mi mp, pmu[i]? = some mi ∧ pmu[p]? = some mp ∧
    ∀ (q : Nat) (mq : M), Enters es v q → pmu[q]? = some mq →
      dist mp mi ≤ dist mq mi ∧ (q < p → dist mp mi < dist mq mi)

/-- What hadronisation vertex `v` does to one leaf `d`: nothing if no particle of `d` enters `v`; otherwise every final
particle descending from `v` gets the value `d` has at the nearest particle entering `v`. -/
structure LeafStep {M R : Type} [LT R] [LE R] (dist : M → M → R) (pmu : List M) (final : List Bool)
    (es : List (Int × Int)) (v : Int) (d d' : List Bool) : Prop where
  len : d'.length = d.length
  same : ∀ i : Nat, ¬ (HadronOf es final v i ∧ Incident es v d) → d'[i]? = d[i]?
  near : ∀ i : Nat, HadronOf es final v i → Incident es v d → ∃ p, Nearest dist pmu es v i p ∧
    (d'[i]? = some true ↔ d[p]? = some true)

/-- The effect of a sequence of vertices on one leaf. -/
inductive LeafSteps {M R : Type} [LT R] [LE R] (dist : M → M → R) (pmu : List M) (final : List Bool)
    (es : List (Int × Int)) : List Int → List Bool → List Bool → Prop
  | nil {d} : LeafSteps dist pmu final es [] d d
  | cons {v vs d d' d''} : LeafStep dist pmu final es v d d' → LeafSteps dist pmu final es vs d' d'' →
      LeafSteps dist pmu final es (v :: vs) d d''

/-- A path along which `partition_descendants` meets leaves: no `latent` below the first key. -/
def LeafPath (path : List String) : Prop := ∀ k ∈ path.tail, k ≠ "latent"

end Gcl.Spec

namespace Gcl.Spec
set_option autoImplicit false
open Gcl

/-- Trees `a` and `b` have the same groups and keys; the leaf `d` of `a` at a path for which `E` holds
has become some `d'` with `R d d'`, all other leaves are the same. -/
def MapsIf (E : List String → Prop) (R : List Bool → List Bool → Prop) (a b : Mask) : Prop :=
  ∀ path,
    (look a path = none → look b path = none) ∧
    (∀ op ks, look a path = some (.group op ks) → look b path = some (.group op ks)) ∧
    (∀ d, look a path = some (.leaf d) → ∃ d', look b path = some (.leaf d') ∧
      (E path → R d d') ∧ (¬ E path → d' = d))

end Gcl.Spec
