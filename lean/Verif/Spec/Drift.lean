import Verif.Spec.Extremes
/-! # Events that drifted a little -/
namespace Gcl.Spec
set_option autoImplicit false
open Gcl Real

/-- Componentwise difference of two momenta. -/
noncomputable def pdiff (p q : P4) : P4 := ⟨q.x - p.x, q.y - p.y, q.z - p.z, q.e - p.e⟩

/-- Size of a 4-momentum: of its 3-momentum or of its energy, whichever is larger. -/
noncomputable def size4 (p : P4) : ℝ := max |p.e| (norm3 p)

/-- `qs` is `ps` with some particles lost, some new ones, and the others moved, all in any order: the sizes of what was
lost, of what is new and of the differences of the others add up to no more than `D`. -/
def Drift (size : P4 → ℝ) (D : ℝ) (ps qs : List P4) : Prop :=
  ∃ kept moved lost new : List P4, ps.Perm (kept ++ lost) ∧ qs.Perm (moved ++ new) ∧ kept.length = moved.length ∧
    (List.zipWith (fun p q => size (pdiff p q)) kept moved).sum + sumOf size lost + sumOf size new ≤ D

end Gcl.Spec
