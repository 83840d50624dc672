import Verif.Model.Optimise
import Verif.Spec.EventShape
/-! # Specification vocabulary for `thrust` and `spherocity`: the contract of the optimiser -/
namespace Gcl.Spec
set_option autoImplicit false
open Gcl Real

/-- The bounds given to the optimiser. -/
def InDomain (x : ℝ × ℝ) : Prop := -(π / 2) ≤ x.1 ∧ x.1 ≤ π / 2 ∧ -(π / 2) ≤ x.2 ∧ x.2 ≤ π / 2

/-- What is asked of the optimiser, `asked` being the points asked for so far with the values obtained: it asks only
inside the bounds, and it stops with a point it asked for and the value obtained there, which is not larger than the
first value obtained. -/
inductive Honest : List ((ℝ × ℝ) × ℝ) → Opt → Prop
  | stop {asked x f first} : (x, f) ∈ asked → asked.getLast? = some first → f ≤ first.2 →
      Honest asked (.stop x f)
  | ask {asked x next} : InDomain x → (∀ r, Honest ((x, r.1) :: asked) (next r)) → Honest asked (.ask x next)

/-- The optimiser starts at the guess and keeps to the contract. -/
def Optimiser (minimize : ℝ × ℝ → Opt) : Prop :=
  ∀ g, ∃ next, minimize g = .ask g next ∧ ∀ r, Honest [(g, r.1)] (next r)

/-- Thrust along a direction `(a, b, c)`: `Σ|p·n| / Σ|p|`. -/
noncomputable def thrustAlong (ps : List P4) (n : ℝ × ℝ × ℝ) : ℝ :=
  sumOf (fun p => |p.x * n.1 + p.y * n.2.1 + p.z * n.2.2|) ps / sumOf norm3 ps

/-- Spherocity along a direction: `(4/π · Σ|p × n| / Σ|p|)²`. -/
noncomputable def spherocityAlong (ps : List P4) (n : ℝ × ℝ × ℝ) : ℝ :=
  (4 / π * sumOf (fun p => sqrt ((p.y * n.2.2 - p.z * n.2.1) ^ 2 + (p.z * n.1 - p.x * n.2.2) ^ 2 +
    (p.x * n.2.1 - p.y * n.1) ^ 2)) ps / sumOf norm3 ps) ^ 2

/-- A vector of length one. -/
def UnitVec (n : ℝ × ℝ × ℝ) : Prop := n.1 ^ 2 + n.2.1 ^ 2 + n.2.2 ^ 2 = 1

end Gcl.Spec
