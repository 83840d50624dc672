/-!
# Specification of subscripts
-/
namespace Gcl.Spec
set_option autoImplicit false

/-- The elements of `a` standing at the `True` positions of `m`, in order. -/
def selected {α : Type} (a : List α) (m : List Bool) : List α :=
  ((a.zip m).filter (fun p => p.2)).map (fun p => p.1)

/-- `i` is a valid Python index into a sequence of length `n` and denotes position `j`. -/
def Denotes (n : Nat) (i : Int) (j : Nat) : Prop :=
  j < n ∧ (i = j ∨ i = (j : Int) - n)

/-- Python's rule for a slice bound: negative bounds count from the end, then the bound is clipped
to the interval `[lo, hi]`. -/
def bound (n : Nat) (lo hi : Int) (b : Int) : Int :=
  max lo (min hi (if b < 0 then b + n else b))

/-- Position `i` is selected by a slice with positive step `st`. -/
def InSliceUp (n : Nat) (start stop : Option Int) (st : Int) (i : Nat) : Prop :=
  let a := (start.map (bound n 0 n)).getD 0
  let z := (stop.map (bound n 0 n)).getD n
  a ≤ i ∧ (i : Int) < z ∧ st ∣ (i : Int) - a

/-- Position `i` is selected by a slice with negative step `st`. -/
def InSliceDown (n : Nat) (start stop : Option Int) (st : Int) (i : Nat) : Prop :=
  let a := (start.map (bound n (-1) (n - 1))).getD (n - 1)
  let z := (stop.map (bound n (-1) (n - 1))).getD (-1)
  z < i ∧ (i : Int) ≤ a ∧ st ∣ (i : Int) - a

/-- `m1` with its `True` positions replaced, in order, by the entries of `m2`. -/
def refineMask : List Bool → List Bool → List Bool
  | [], _ => []
  | false :: m1, m2 => false :: refineMask m1 m2
  | true :: m1, b :: m2 => b :: refineMask m1 m2
  | true :: m1, [] => false :: refineMask m1 []

end Gcl.Spec
