import Verif.Model.Select
import Verif.Spec.Physics
/-!
# The jet algorithm behind `fastjet_clusters`

`fastjet_clusters` (graphicle/select.py:139-153) hands the momenta to FastJet with the generalised-kt algorithm of the
exponent asked for, and takes the inclusive jets above `pt_cut`.  `Model/Select.lean` leaves FastJet a parameter; here is
what FastJet does: sequential recombination, as published with it.  Of two particles or pseudojets `i` and `j` the distance
is `min(scale i, scale j) * (ΔR / R)^2`, from the beam it is `scale i`.  Again and again the smallest of all is looked for:
if it is one from the beam, the pseudojet is a jet and is taken away; if it is one between two at less than `R`, these are
replaced by one with the sum of their momenta.  Among equal distances FastJet may take any (the order of its search is not
modelled).  Arithmetic is exact.
-/
namespace Gcl
set_option autoImplicit false
open Spec

/-- Scale and distance of an algorithm.  Helper of `KtRun` (graphicle/select.py:139-149). -/
structure KtRule where
  scale : P4 → ℝ
  dist : P4 → P4 → ℝ

/-- The distance of two pseudojets.  Helper of `KtRun` (graphicle/select.py:149-150). -/
noncomputable def KtRule.pair (S : KtRule) (R : ℝ) (a b : Jet) : ℝ :=
  min (S.scale a.pmu) (S.scale b.pmu) * (S.dist a.pmu b.pmu / R) ^ 2

/-- Two pseudojets recombined: four-momenta are added.  Helper of `KtRun` (graphicle/select.py:149-150). -/
def Jet.join (a b : Jet) : Jet := ⟨padd a.pmu b.pmu, a.constituents ++ b.constituents⟩

/-- No distance between the pseudojets or from the beam is smaller.  Helper of `KtRun` (graphicle/select.py:149-150). -/
def KtRule.Least (S : KtRule) (R : ℝ) (act : List Jet) (d : ℝ) : Prop :=
  (∀ a ∈ act, d ≤ S.scale a.pmu) ∧ act.Pairwise (fun a b => d ≤ S.pair R a b)

/-- The run of `fj.ClusterSequence` from the given pseudojets, with the jets it finds
(graphicle/select.py:149-150). -/
inductive KtRun (S : KtRule) (R : ℝ) : List Jet → List Jet → Prop where
  | done : KtRun S R [] []
  | beam {act rest jets : List Jet} {i : Jet} (h : act.Perm (i :: rest)) (least : S.Least R act (S.scale i.pmu))
      (next : KtRun S R rest jets) : KtRun S R act (i :: jets)
  | pair {act rest jets : List Jet} {i j : Jet} (h : act.Perm (i :: j :: rest)) (least : S.Least R act (S.pair R i j))
      (near : S.dist i.pmu j.pmu < R) (next : KtRun S R (i.join j :: rest) jets) : KtRun S R act jets

/-- What the run begins with: each particle by itself (graphicle/select.py:135-137, 150). -/
def ktInput (pmu : List P4) : List Jet := pmu.zipIdx.map (fun pi => ⟨pi.1, [pi.2]⟩)

/-- FastJet as it is used (graphicle/select.py:149-153): the jets of a run, those with enough transverse momentum, in any
order. -/
def RunsKt (rule : FjAlgo → KtRule) (fj : List P4 → FjAlgo → ℝ → ℝ → List Jet) : Prop :=
  ∀ (pmu : List P4) (algo : FjAlgo) (R ptMin : ℝ), 0 < R →
    ∃ jets, KtRun (rule algo) R (ktInput pmu) jets ∧
      (fj pmu algo R ptMin).Perm (jets.filter (fun j => decide (ptMin ≤ j.pmu.pt)))

/-- What `fastjet_clusters` can return with FastJet as described (graphicle/select.py:58-165). -/
def KtResult (rule : FjAlgo → KtRule) (argsort : List ℝ → List Nat) (pmu : List P4) (radius pVal : ℝ)
    (ptCut etaCut : Option ℝ) (topK : TopK) (masks : List (List Bool)) : Prop :=
  ∃ fj, RunsKt rule fj ∧ fastjetClusters fj argsort pmu radius pVal ptCut etaCut topK = .ok masks

end Gcl
