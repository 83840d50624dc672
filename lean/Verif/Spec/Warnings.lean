import Verif.Model.Warnings
import Verif.Spec.Physics
/-! # Specification vocabulary for warning filters under threads -/
namespace Gcl.Spec
set_option autoImplicit false
open Gcl Real

/-- What a call gives by itself, when the filters of the process are `base`: the mass with 0 for a negative square; the
pseudorapidities; the azimuths, with a warning if a transverse momentum is negligible, shown, silent, or raised as
`base` has it. -/
def GivesAlone (tol : ℝ) (base : List WFilter) : WCall → WRes → Prop
  | .combinedMass ps, r => r = .number (.fin (combinedMass ps))
  | .eta ps, r => r = .array (ps.map P4.eta) false
  | .phi ps, r =>
    if (∃ p ∈ ps, |p.pt| ≤ tol) then
      (actionFor base .stability = .error ∧ r = .raised .stability) ∨
      (actionFor base .stability = .ignore ∧ r = .array (ps.map (P4.phi tol)) false) ∨
      (actionFor base .stability = .present ∧ r = .array (ps.map (P4.phi tol)) true)
    else r = .array (ps.map (P4.phi tol)) false

/-- The calls in which nothing warns: a squared mass that is not negative; all particles off the beam axis; no negligible
transverse momentum. -/
def Quiet (tol : ℝ) : WCall → Prop
  | .combinedMass ps => 0 ≤ mdot (total ps) (total ps)
  | .eta ps => ∀ p ∈ ps, 0 < p.pt
  | .phi ps => ∀ p ∈ ps, tol < p.pt

/-- What a call can give when other threads are inside such calls too. -/
def CanGive (tol : ℝ) : WCall → WRes → Prop
  | .combinedMass ps, r => r = .number (.fin (combinedMass ps)) ∨
      mdot (total ps) (total ps) < 0 ∧ r = .number .nan
  | .eta ps, r => r = .array (ps.map P4.eta) false ∨
      (∃ p ∈ ps, p.pt = 0) ∧ (r = .array (ps.map P4.eta) true ∨ r = .raised .runtime)
  | .phi ps, r => (¬ (∃ p ∈ ps, |p.pt| ≤ tol) ∧ r = .array (ps.map (P4.phi tol)) false) ∨
      (∃ p ∈ ps, |p.pt| ≤ tol) ∧ ((∃ b, r = .array (ps.map (P4.phi tol)) b) ∨ r = .raised .stability)

/-- While a thread has the filters changed, no other thread runs. -/
def Uninterrupted (tol : ℝ) : WWorld → List Nat → Prop
  | _, [] => True
  | w, i :: s => (∀ j, (w.thr j).saved ≠ none → j = i) ∧ Uninterrupted tol (warnStep tol w i) s

/-- The thread has got through its calls. -/
def CallsDone (w : WWorld) (i : Nat) : Prop := (w.thr i).code = [] ∧ (w.thr i).todo = []

end Gcl.Spec
