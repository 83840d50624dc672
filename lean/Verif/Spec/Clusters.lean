import Verif.Spec.Select
import Verif.Spec.Partition
import Verif.Spec.Index
import Verif.Model.Clusters
/-! # Specification vocabulary for `clusters` -/
namespace Gcl.Spec
set_option autoImplicit false
open Gcl

/-- Exactly one of the particles selected by `d` is an outgoing parton of the hard process, and it is
particle `j`. -/
def TheParton (status : List Int) (d : List Bool) (j : Nat) : Prop :=
  (d[j]? = some true ∧ Outgoing status j) ∧ ∀ j' : Nat, d[j']? = some true → Outgoing status j' → j' = j

/-- Particle `i` of the leaf `d` is strictly closer than `radius` to the outgoing parton of the leaf, in
pseudorapidity and azimuth. -/
def NearParton (tol radius : ℝ) (pmu : List P4) (status : List Int) (d : List Bool) (i : Nat) : Prop :=
  ∃ (j : Nat) (pj pi : P4), TheParton status d j ∧ pmu[j]? = some pj ∧ pmu[i]? = some pi ∧
    Near radius (pj.eta, pj.phi tol) pi

/-- The cluster of the entry at `path`: the particles of the leaves at or below it, reached without entering
`latent`; a leaf whose name is one of `keys` contributes only particles near its parton. -/
def InCluster (tol radius : ℝ) (pmu : List P4) (status : List Int) (hier : Mask) (keys path : List String)
    (i : Nat) : Prop :=
  ∃ (q : List String) (d : List Bool), "latent" ∉ q ∧ look hier (path ++ q) = some (.leaf d) ∧
    d[i]? = some true ∧
    ∀ k ∈ keys, (path ++ q).getLast? = some k → NearParton tol radius pmu status d i

end Gcl.Spec

namespace Gcl.Spec
set_option autoImplicit false
open Gcl

/-- An event `clusters` can be applied to: all columns have one entry per particle, names contain no colon
and none is `latent`, and no final particle enters a hadronisation vertex. -/
structure GoodEvent (nm : Int → String) (g : ClusterGraph) : Prop where
  pdg : g.pdg.length = g.edges.length
  status : g.status.length = g.edges.length
  final : g.final.length = g.edges.length
  pmu : g.pmu.length = g.edges.length
  colon : ∀ c ∈ g.pdg, ':' ∉ (nm c).toList
  latent : ∀ c ∈ g.pdg, nm c ≠ "latent"
  hadrons : ∀ (v : Int) (p : Nat), HadronVertex g.edges g.status v → Enters g.edges v p →
    g.final[p]? ≠ some true

/-- `out` lists the clusters of the entries of the tree `hier`: the names are those of the tree except
`latent`, each once; the mask of an entry is its cluster, restricted to the final particles in order. -/
def IsClusters (tol radius : ℝ) (g : ClusterGraph) (hier : Mask) (keys : List String)
    (out : List (String × List Bool)) : Prop :=
  (out.map Prod.fst).Nodup ∧
  (∀ k, k ∈ out.map Prod.fst ↔ ∃ p, "latent" ∉ p ++ [k] ∧ (look hier (p ++ [k])).isSome) ∧
  ∀ k m, (k, m) ∈ out → ∃ p full, "latent" ∉ p ++ [k] ∧ (look hier (p ++ [k])).isSome ∧
    full.length = g.edges.length ∧ m = selected full g.final ∧
    ∀ i : Nat, full[i]? = some true ↔ InCluster tol radius g.pmu g.status hier keys (p ++ [k]) i

end Gcl.Spec
