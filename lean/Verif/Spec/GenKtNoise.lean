import Verif.Spec.GenKt
import Verif.Spec.GenKtTies
/-! # Events with a little noise -/
namespace Gcl.Spec
set_option autoImplicit false
open Gcl

/-- No component of one momentum is further than `η` from that of another. -/
def Off (η : ℝ) (p' p : P4) : Prop := |p'.x - p.x| < η ∧ |p'.y - p.y| < η ∧ |p'.z - p.z| < η ∧ |p'.e - p.e| < η

/-- At no stage the algorithm can come to is a pseudojet along the beam, or are two exactly at the radius. -/
def Regular (S : KtRule) (R : ℝ) (act : List Jet) : Prop :=
  ∀ act', Relation.ReflTransGen (KtStep S R) act act' →
    (∀ j ∈ act', Visible j.pmu) ∧ ∀ i j rest, act'.Perm (i :: j :: rest) → S.dist i.pmu j.pmu ≠ R

/-- The event, with every momentum a little off, and soft particles after it, with little energy in all. -/
def Noisy (η : ℝ) (pmu softs pmu' : List P4) : Prop :=
  ∃ qs, pmu' = qs ++ softs ∧ List.Forall₂ (fun q p => Physical q ∧ Off η q p) qs pmu ∧
    (∀ s ∈ softs, Physical s) ∧ (softs.map P4.e).sum < η

/-- None of the jets found without cuts is exactly at a cut. -/
def OffCuts (rule : FjAlgo → KtRule) (argsort : List ℝ → List Nat) (pmu : List P4) (radius pVal ptCut : ℝ) (etaCut : Option ℝ) : Prop :=
  ∀ all, KtResult rule argsort pmu radius pVal none none .none all → ∀ m ∈ all, (momentumOf pmu m).pt ≠ ptCut ∧
    ∀ cut, etaCut = some cut → ∀ η, (momentumOf pmu m).eta = .fin η → |η| ≠ cut

end Gcl.Spec
