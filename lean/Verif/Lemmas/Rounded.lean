import Verif.Spec.Rounded
import Verif.Lemmas.Momentum
/-! # Relative errors -/
namespace Gcl
set_option autoImplicit false
open Real Spec

/-- `y` is `x` up to `k` roundings. -/
def Near (u : ℝ) (k : Nat) (x y : ℝ) : Prop := ∃ t, (1 - u) ^ k ≤ t ∧ t ≤ (1 + u) ^ k ∧ y = x * t

section
variable {u : ℝ} (h0 : 0 ≤ u) (h1 : u < 1)
include h0 h1

theorem low_pos (k : Nat) : 0 < (1 - u) ^ k := pow_pos (by linarith) k
theorem low_le_one (k : Nat) : (1 - u) ^ k ≤ 1 := pow_le_one₀ (by linarith) (by linarith)
omit h1 in
theorem one_le_high (k : Nat) : 1 ≤ (1 + u) ^ k := one_le_pow₀ (by linarith)

/-- The error below is at most the one above. -/
theorem low_high (k : Nat) : 1 - (1 - u) ^ k ≤ (1 + u) ^ k - 1 := by
  have a := one_add_mul_le_pow (a := u) (by linarith) k
  have b := one_add_mul_le_pow (a := -u) (by linarith) k
  rw [← sub_eq_add_neg] at b
  linarith

theorem near_of_bounds {k : Nat} {x y : ℝ} (hx : 0 ≤ x) (hl : (1 - u) ^ k * x ≤ y) (hu : y ≤ (1 + u) ^ k * x) :
    Near u k x y := by
  rcases hx.eq_or_lt with rfl | hx
  · have : y = 0 := le_antisymm (by simpa using hu) (by simpa using hl)
    exact ⟨1, low_le_one h0 h1 k, one_le_high h0 k, by simp [this]⟩
  · exact ⟨y / x, by rw [le_div_iff₀ hx]; exact hl, by rw [div_le_iff₀ hx]; exact hu, by field_simp⟩

theorem near_of_abs {x y : ℝ} (h : |y - x| ≤ u * |x|) : Near u 1 x y := by
  rcases lt_trichotomy x 0 with hx | rfl | hx
  · rw [abs_of_neg hx, abs_le] at h
    refine ⟨y / x, ?_, ?_, (mul_div_cancel₀ y hx.ne).symm⟩
    · rw [le_div_iff_of_neg hx, pow_one]; linarith
    · rw [div_le_iff_of_neg hx, pow_one]; linarith
  · have : y = 0 := by simpa using h
    exact ⟨1, low_le_one h0 h1 1, one_le_high h0 1, by simp [this]⟩
  · rw [abs_of_pos hx, abs_le] at h
    refine near_of_bounds h0 h1 hx.le ?_ ?_ <;> rw [pow_one] <;> linarith

theorem near_trans {k l : Nat} {x y z : ℝ} (a : Near u k x y) (b : Near u l y z) : Near u (k + l) x z := by
  obtain ⟨s, a1, a2, rfl⟩ := a
  obtain ⟨t, b1, b2, rfl⟩ := b
  have hs := lt_of_lt_of_le (low_pos h0 h1 k) a1
  have ht := lt_of_lt_of_le (low_pos h0 h1 l) b1
  refine ⟨s * t, ?_, ?_, by ring⟩
  · rw [pow_add]; exact mul_le_mul a1 b1 (low_pos h0 h1 l).le hs.le
  · rw [pow_add]; exact mul_le_mul a2 b2 ht.le (by positivity)

theorem near_mul {k l : Nat} {x x' y y' : ℝ} (a : Near u k x x') (b : Near u l y y') :
    Near u (k + l) (x * y) (x' * y') := by
  obtain ⟨s, a1, a2, rfl⟩ := a
  obtain ⟨t, b1, b2, rfl⟩ := b
  have hs := lt_of_lt_of_le (low_pos h0 h1 k) a1
  have ht := lt_of_lt_of_le (low_pos h0 h1 l) b1
  refine ⟨s * t, ?_, ?_, by ring⟩
  · rw [pow_add]; exact mul_le_mul a1 b1 (low_pos h0 h1 l).le hs.le
  · rw [pow_add]; exact mul_le_mul a2 b2 ht.le (by positivity)

theorem near_abs {k : Nat} {x y : ℝ} (a : Near u k x y) : Near u k |x| |y| := by
  obtain ⟨s, a1, a2, rfl⟩ := a
  have hs := lt_of_lt_of_le (low_pos h0 h1 k) a1
  exact ⟨s, a1, a2, by rw [abs_mul, abs_of_pos hs]⟩

theorem near_sqrt {k : Nat} {x y : ℝ} (hx : 0 ≤ x) (a : Near u k x y) : Near u k (√x) (√y) := by
  obtain ⟨s, a1, a2, rfl⟩ := a
  have hs := lt_of_lt_of_le (low_pos h0 h1 k) a1
  refine ⟨√s, ?_, ?_, by rw [sqrt_mul hx]⟩
  · refine le_sqrt_of_sq_le (le_trans ?_ a1)
    have := low_pos h0 h1 k
    have := low_le_one h0 h1 k
    nlinarith
  · refine sqrt_le_iff.2 ⟨by positivity, le_trans a2 ?_⟩
    have := one_le_high h0 k
    nlinarith

theorem near_error {k : Nat} {x y : ℝ} (a : Near u k x y) : |y - x| ≤ ((1 + u) ^ k - 1) * |x| := by
  obtain ⟨s, a1, a2, rfl⟩ := a
  have : x * s - x = (s - 1) * x := by ring
  rw [this, abs_mul]
  refine mul_le_mul_of_nonneg_right ?_ (abs_nonneg x)
  rw [abs_le]
  have := low_high h0 h1 k
  constructor <;> linarith

theorem near_sign {k : Nat} {x y : ℝ} (a : Near u k x y) : (0 < y ↔ 0 < x) ∧ (y < 0 ↔ x < 0) ∧ (y = 0 ↔ x = 0) := by
  obtain ⟨s, a1, a2, rfl⟩ := a
  have hs := lt_of_lt_of_le (low_pos h0 h1 k) a1
  refine ⟨by rw [mul_pos_iff_of_pos_right hs], ?_, by simp [hs.ne']⟩
  exact ⟨fun h => by nlinarith, fun h => by nlinarith⟩

/-! ## The kernels -/

variable {A : Arith} (hA : Accurate u A)
include hA

theorem rootDiffA_near (a b : ℝ) : Near u 5 (rootDiffTwoSquares a b) (rootDiffTwoSquaresA A a b) := by
  unfold rootDiffTwoSquares rootDiffTwoSquaresA
  simp only
  have hd := near_of_abs h0 h1 (hA.sub |a| |b|)
  have hsd : Near u 2 (√|(|a| - |b|)|) (A.sqrt |(A.sub |a| |b|)|) :=
    near_trans h0 h1 (near_sqrt h0 h1 (abs_nonneg _) (near_abs h0 h1 hd)) (near_of_abs h0 h1 (hA.sqrt _ (abs_nonneg _)))
  have hs := near_of_abs h0 h1 (hA.add |a| |b|)
  have hpos : 0 ≤ |a| + |b| := by positivity
  have hpos' : 0 ≤ A.add |a| |b| := by
    obtain ⟨t, t1, _, ht⟩ := hs
    rw [ht]
    exact mul_nonneg hpos (le_trans (low_pos h0 h1 1).le t1)
  have hss : Near u 2 (√(|a| + |b|)) (A.sqrt (A.add |a| |b|)) :=
    near_trans h0 h1 (near_sqrt h0 h1 hpos hs) (near_of_abs h0 h1 (hA.sqrt _ hpos'))
  have hc : Near u 2 (copysign (√|(|a| - |b|)|) (|a| - |b|)) (copysign (A.sqrt |(A.sub |a| |b|)|) (A.sub |a| |b|)) := by
    obtain ⟨t, t1, t2, ht⟩ := near_abs h0 h1 hsd
    refine ⟨t, t1, t2, ?_⟩
    unfold copysign
    have := (near_sign h0 h1 hd).2.1
    by_cases hn : |a| - |b| < 0
    · rw [if_pos (this.2 hn), if_pos hn, ht]; ring
    · rw [if_neg (fun h => hn (this.1 h)), if_neg hn, ht]
  exact near_trans h0 h1 (near_mul h0 h1 hc hss) (near_of_abs h0 h1 (hA.mul _ _))

theorem hypot_near {k : Nat} (x : ℝ) {y y' : ℝ} (hy : Near u k y y') :
    Near u (k + 1) (√(x ^ 2 + y ^ 2)) (A.hypot x y') := by
  refine near_trans h0 h1 ?_ (near_of_abs h0 h1 (hA.hypot x y'))
  obtain ⟨t, t1, t2, rfl⟩ := hy
  have hl := low_pos h0 h1 k
  have hl1 := low_le_one h0 h1 k
  have hh := one_le_high h0 k
  have ht : 0 < t := lt_of_lt_of_le hl t1
  have q1 : ((1 - u) ^ k) ^ 2 ≤ t ^ 2 := pow_le_pow_left₀ hl.le t1 2
  have q2 : t ^ 2 ≤ ((1 + u) ^ k) ^ 2 := pow_le_pow_left₀ ht.le t2 2
  have q3 : ((1 - u) ^ k) ^ 2 ≤ 1 := pow_le_one₀ hl.le hl1
  have q4 : 1 ≤ ((1 + u) ^ k) ^ 2 := one_le_pow₀ hh
  refine near_of_bounds h0 h1 (sqrt_nonneg _) ?_ ?_
  · rw [show (1 - u) ^ k * √(x ^ 2 + y ^ 2) = √(((1 - u) ^ k) ^ 2 * (x ^ 2 + y ^ 2)) by
      rw [sqrt_mul (by positivity), sqrt_sq hl.le]]
    refine sqrt_le_sqrt ?_
    nlinarith [mul_nonneg (sub_nonneg.2 q3) (sq_nonneg x), mul_nonneg (sub_nonneg.2 q1) (sq_nonneg y)]
  · rw [show (1 + u) ^ k * √(x ^ 2 + y ^ 2) = √(((1 + u) ^ k) ^ 2 * (x ^ 2 + y ^ 2)) by
      rw [sqrt_mul (by positivity), sqrt_sq (by linarith)]]
    refine sqrt_le_sqrt ?_
    nlinarith [mul_nonneg (sub_nonneg.2 q4) (sq_nonneg x), mul_nonneg (sub_nonneg.2 q2) (sq_nonneg y)]

theorem spatialMagA_near (p : P4) : Near u 2 p.spatialMag (p.spatialMagA A) := by
  have : p.spatialMag = √(p.z ^ 2 + (√(p.x ^ 2 + p.y ^ 2)) ^ 2) := by
    rw [spatialMag_eq, sq_sqrt (by positivity), p3sq]; ring_nf
  rw [this]
  exact hypot_near h0 h1 hA p.z (near_of_abs h0 h1 (hA.hypot p.x p.y))

end

end Gcl
