import Verif.Model.Compare
/-! # Specification vocabulary for comparisons -/
namespace Gcl.Spec
set_option autoImplicit false

/-- Two records have equal components. -/
def SameRecord {α : Type} (beq : α → α → Bool) (r s : List α) : Prop :=
  r.length = s.length ∧ ∀ (j : Nat) (x y : α), r[j]? = some x → s[j]? = some y → beq x y = true

/-- Sequences of `n` and `q` records can be compared, with `N` results: as many records, or one of the two has a
single record, which is compared with every record of the other. -/
def Comparable (n q N : Nat) : Prop := (n = q ∧ N = n) ∨ (n = 1 ∧ N = q) ∨ (q = 1 ∧ N = n)

/-- The record of `l` that takes part in comparison `i`. -/
def partner {β : Type} (l : List β) (i : Nat) : Option β := if l.length = 1 then l[0]? else l[i]?

/-- `m` has `N` elements, and element `i` says whether the two records number `i` are equal. -/
def ComparedTo {α : Type} (beq : α → α → Bool) (xs ys : List (List α)) (N : Nat) (m : List Bool) : Prop :=
  m.length = N ∧ ∀ i, i < N → ∃ x y b, partner xs i = some x ∧ partner ys i = some y ∧ m[i]? = some b ∧
    (b = true ↔ SameRecord beq x y)

end Gcl.Spec
