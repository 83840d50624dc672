import Verif.Model.Cached
/-! # Specification: distances in the (pseudo)rapidity-azimuth plane -/
namespace Gcl.Spec
set_option autoImplicit false
open Gcl Real

/-- `a` is the angle, in `(-π, π]`, by which the transverse momentum of `q` has to be turned to point along that of
`p` (zero if one of them has none). -/
def AzimuthDiff (p q : P4) (a : ℝ) : Prop :=
  -π < a ∧ a ≤ π ∧
  sqrt (p.x ^ 2 + p.y ^ 2) * sqrt (q.x ^ 2 + q.y ^ 2) * cos a = p.x * q.x + p.y * q.y ∧
  sqrt (p.x ^ 2 + p.y ^ 2) * sqrt (q.x ^ 2 + q.y ^ 2) * sin a = p.y * q.x - p.x * q.y ∧
  ((p.x = 0 ∧ p.y = 0) ∨ (q.x = 0 ∧ q.y = 0) → a = 0)

/-- The distance for (pseudo)rapidities `r1`, `r2` and an azimuthal difference `a`: Euclidean if both are finite; a nan,
or twice the same infinity, counts as no difference; `+inf` otherwise. -/
def DistanceIs (r1 r2 : Fl) (a : ℝ) (d : Fl) : Prop :=
  (∀ y1 y2 : ℝ, r1 = .fin y1 → r2 = .fin y2 → d = .fin (sqrt ((y1 - y2) ^ 2 + a ^ 2))) ∧
  (r1 = .nan ∨ r2 = .nan ∨ (r1 = .pinf ∧ r2 = .pinf) ∨ (r1 = .ninf ∧ r2 = .ninf) → d = .fin |a|) ∧
  (r1 ≠ .nan → r2 ≠ .nan → r1 ≠ r2 → (r1 = .pinf ∨ r1 = .ninf ∨ r2 = .pinf ∨ r2 = .ninf) → d = .pinf)

/-- The attribute used. -/
def rapAttr (pseudo : Bool) : Qty := if pseudo then .eta else .rapidity

/-- A matrix with a row for each entry of `rs`, a column for each entry of `cs`, all entries satisfying `P`. -/
def MatrixOf {α β γ : Type} (P : Nat → Nat → α → β → γ → Prop) (rs : List α) (cs : List β) (M : List (List γ)) : Prop :=
  M.length = rs.length ∧
  ∀ (i : Nat) (r : α), rs[i]? = some r → ∃ row, M[i]? = some row ∧ row.length = cs.length ∧
    ∀ (j : Nat) (c : β), cs[j]? = some c → ∃ x, row[j]? = some x ∧ P i j r c x

end Gcl.Spec
