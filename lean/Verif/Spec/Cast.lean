import Verif.Model.Cast
/-! # Specification of stored values -/
namespace Gcl.Spec
set_option autoImplicit false

/-- The value is one of the element type: booleans for `bool`, integers within the bounds for the integer types, doubles
for `f8`. -/
def OfType (dt : DType) (v : Elem) : Prop :=
  match dt, v with
  | .bool, .bool _ => True
  | .i2, .int z => -32768 ≤ z ∧ z ≤ 32767
  | .i4, .int z => -2147483648 ≤ z ∧ z ≤ 2147483647
  | .f8, .flt _ => True
  | _, _ => False

/-- What is assumed of the platform: whatever integer an unrepresentable double becomes, it is one of the type; integers
up to `2 ^ 53` are doubles. -/
def Sane (p : Platform) : Prop :=
  (∀ x, -32768 ≤ p.junk 16 x ∧ p.junk 16 x ≤ 32767) ∧
  (∀ x, -2147483648 ≤ p.junk 32 x ∧ p.junk 32 x ≤ 2147483647) ∧
  ∀ z : Int, |z| ≤ 2 ^ 53 → p.nearest z = z

/-- The element `w` is what becomes of `v` in an array of type `dt`: values of the type are kept; booleans become 0 and
1, and all numbers but zero true (nan too); integers lose a multiple of the size of the type; doubles lose their
fraction if that leaves an integer of the type; integers become doubles if small enough. -/
structure StoredAs (dt : DType) (v w : Elem) : Prop where
  ofType : OfType dt w
  kept : OfType dt v → w = v
  boolInt : ∀ b : Bool, dt = .i2 ∨ dt = .i4 → v = .bool b → w = .int (if b then 1 else 0)
  boolFlt : ∀ b : Bool, dt = .f8 → v = .bool b → w = .flt (.fin (if b then 1 else 0))
  truthInt : ∀ z : Int, dt = .bool → v = .int z → (w = .bool true ↔ z ≠ 0)
  truthFlt : ∀ x : Fl, dt = .bool → v = .flt x → (w = .bool true ↔ x ≠ .fin 0)
  int16 : ∀ z : Int, dt = .i2 → v = .int z → ∃ z' q : Int, w = .int z' ∧ z = z' + q * 65536
  int32 : ∀ z : Int, dt = .i4 → v = .int z → ∃ z' q : Int, w = .int z' ∧ z = z' + q * 4294967296
  fraction : ∀ (x : ℝ) (n : Int), dt = .i2 ∨ dt = .i4 → v = .flt (.fin x) → OfType dt (.int n) →
    (|(n : ℝ)| ≤ |x| ∧ |x - n| < 1 ∧ 0 ≤ x * n) → w = .int n
  double : ∀ z : Int, dt = .f8 → v = .int z → |z| ≤ 2 ^ 53 → w = .flt (.fin z)

end Gcl.Spec
