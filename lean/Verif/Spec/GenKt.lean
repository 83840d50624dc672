import Verif.Model.GenKt
import Verif.Props.MassSum
import Mathlib.Analysis.SpecialFunctions.Pow.Real
/-! # Specification vocabulary for the generalised-kt algorithm -/
namespace Gcl.Spec
set_option autoImplicit false
open Gcl Real

/-- The sum of the momenta a mask selects. -/
noncomputable def momentumOf (pmu : List P4) (m : List Bool) : P4 :=
  total (((pmu.zip m).filter Prod.snd).map Prod.fst)

/-- A physical momentum that is not along the beam. -/
def Visible (p : P4) : Prop := Physical p ∧ 0 < p.pt

/-- The rapidity of a visible momentum. -/
noncomputable def jetRapidity (p : P4) : ℝ := 1 / 2 * log ((p.e + p.z) / (p.e - p.z))

/-- The distances and scales of the generalised-kt algorithms: `pt ^ 2p` and the distance in rapidity and azimuth, for
visible momenta; of others only that distances are symmetric, and nothing is negative. -/
structure IsKtRule (rule : FjAlgo → KtRule) : Prop where
  kt : ∀ p, Visible p → (rule .kt).scale p = p.pt ^ 2
  cambridge : ∀ p, (rule .cambridge).scale p = 1
  antikt : ∀ p, Visible p → (rule .antikt).scale p = 1 / p.pt ^ 2
  genkt : ∀ n p, Visible p → (rule (.genkt n)).scale p = (p.pt ^ 2) ^ n
  nonneg : ∀ algo p, 0 ≤ (rule algo).scale p
  dist_nonneg : ∀ algo p q, 0 ≤ (rule algo).dist p q
  symm : ∀ algo p q, (rule algo).dist p q = (rule algo).dist q p
  dist : ∀ algo p q a, Visible p → Visible q → -π < a → a ≤ π → AngleEq p.xyPol.arg (q.xyPol.arg + a) →
    (rule algo).dist p q = sqrt ((jetRapidity p - jetRapidity q) ^ 2 + a ^ 2)

/-- No particles balance in transverse momentum: whatever is selected, its sum is visible. -/
def Unbalanced (pmu : List P4) : Prop := ∀ sel, sel.Sublist pmu → sel ≠ [] → Visible (total sel)

end Gcl.Spec
