import Verif.Spec.RoundedShift
import Verif.Lemmas.Rounded
/-! # Absolute errors -/
namespace Gcl
set_option autoImplicit false
open Real Spec

/-- `x'` is `x` up to `k` roundings of numbers as large as `M`, which bounds `x`. -/
def Err (v : ℝ) (k : Nat) (M x x' : ℝ) : Prop := |x' - x| ≤ ((1 + v) ^ k - 1) * M ∧ |x| ≤ M

section
variable {u v : ℝ} (h0 : 0 ≤ u) (h1 : u < 1) (hv : (1 + v) * (1 - u) = 1)
include h0 h1 hv

theorem v_pos : 0 ≤ v := by
  by_contra h
  nlinarith

theorem u_le_v : u ≤ v := by
  have := v_pos h0 h1 hv
  nlinarith

theorem one_le_v (k : Nat) : 1 ≤ (1 + v) ^ k := one_le_pow₀ (by have := v_pos h0 h1 hv; linarith)

theorem Err.mono {k l : Nat} {M N x x' : ℝ} (h : Err v k M x x') (hk : k ≤ l) (hM : M ≤ N) : Err v l N x x' := by
  have hM0 : 0 ≤ M := (abs_nonneg x).trans h.2
  have g : (1 + v) ^ k ≤ (1 + v) ^ l := pow_le_pow_right₀ (by have := v_pos h0 h1 hv; linarith) hk
  have := one_le_v h0 h1 hv k
  refine ⟨h.1.trans ?_, h.2.trans hM⟩
  exact mul_le_mul (by linarith) hM hM0 (by linarith)

theorem Err.of_near {k : Nat} {x x' : ℝ} (h : Near u k x x') : Err v k |x| x x' := by
  refine ⟨(near_error h0 h1 h).trans (mul_le_mul_of_nonneg_right ?_ (abs_nonneg _)), le_rfl⟩
  have : (1 + u) ^ k ≤ (1 + v) ^ k := pow_le_pow_left₀ (by linarith) (by have := u_le_v h0 h1 hv; linarith) k
  linarith

omit h0 h1 hv in
theorem Err.exact (x : ℝ) : Err v 0 |x| x x := ⟨by simp, le_rfl⟩

omit h0 h1 hv in
theorem Err.abs' {k : Nat} {M x x' : ℝ} (h : Err v k M x x') : Err v k M |x| |x'| :=
  ⟨(abs_abs_sub_abs_le_abs_sub _ _).trans h.1, by rw [abs_abs]; exact h.2⟩

/-- One more rounding. -/
theorem Err.round {k : Nat} {M x x' y : ℝ} (h : Err v k M x x') (hy : |y - x'| ≤ u * |x'|) : Err v (k + 1) M x y := by
  have hM0 : 0 ≤ M := (abs_nonneg x).trans h.2
  have g := one_le_v h0 h1 hv k
  have huv := u_le_v h0 h1 hv
  have hx' : |x'| ≤ (1 + v) ^ k * M := by
    have := abs_add_le x (x' - x)
    rw [add_sub_cancel] at this
    nlinarith [h.1, h.2]
  refine ⟨?_, h.2⟩
  have h2 : |y - x| ≤ |y - x'| + |x' - x| := abs_sub_le _ _ _
  have h3 : u * |x'| ≤ v * ((1 + v) ^ k * M) :=
    mul_le_mul huv hx' (abs_nonneg _) (h0.trans huv)
  rw [pow_succ]
  nlinarith [h.1]

/-- A factor that is one up to roundings. -/
theorem Err.factor {k l : Nat} {M x x' s : ℝ} (h : Err v k M x x') (hs : 1 ≤ s * (1 + v) ^ l) (hs' : s ≤ (1 + v) ^ l)
    (hs0 : 0 ≤ s) : Err v (k + l) M x (x' * s) := by
  have hM0 : 0 ≤ M := (abs_nonneg x).trans h.2
  have g := one_le_v h0 h1 hv k
  have gl := one_le_v h0 h1 hv l
  refine ⟨?_, h.2⟩
  have e1 : |s - 1| ≤ (1 + v) ^ l - 1 := by
    rw [abs_le]
    constructor
    · nlinarith [sq_nonneg ((1 + v) ^ l - 1)]
    · linarith
  have e : x' * s - x = (x' - x) * s + x * (s - 1) := by ring
  rw [e, pow_add]
  have a1 : |(x' - x) * s| ≤ ((1 + v) ^ k - 1) * M * (1 + v) ^ l := by
    rw [abs_mul, abs_of_nonneg hs0]
    exact mul_le_mul h.1 hs' hs0 (mul_nonneg (by linarith) hM0)
  have a2 : |x * (s - 1)| ≤ M * ((1 + v) ^ l - 1) := by
    rw [abs_mul]
    exact mul_le_mul h.2 e1 (abs_nonneg _) hM0
  have := abs_add_le ((x' - x) * s) (x * (s - 1))
  nlinarith

theorem Err.add' {k : Nat} {M N x x' y y' : ℝ} (a : Err v k M x x') (b : Err v k N y y') :
    Err v k (M + N) (x + y) (x' + y') := by
  refine ⟨?_, (abs_add_le _ _).trans (add_le_add a.2 b.2)⟩
  have : x' + y' - (x + y) = (x' - x) + (y' - y) := by ring
  rw [this, mul_add]
  exact (abs_add_le _ _).trans (add_le_add a.1 b.1)

theorem Err.sub' {k : Nat} {M N x x' y y' : ℝ} (a : Err v k M x x') (b : Err v k N y y') :
    Err v k (M + N) (x - y) (x' - y') := by
  have b' : Err v k N (-y) (-y') := ⟨by rw [show -y' - -y = -(y' - y) by ring, abs_neg]; exact b.1, by rw [abs_neg]; exact b.2⟩
  have := Err.add' h0 h1 hv a b'
  rwa [← sub_eq_add_neg, ← sub_eq_add_neg] at this

theorem Err.mul' {k l : Nat} {M N x x' y y' : ℝ} (a : Err v k M x x') (b : Err v l N y y') :
    Err v (k + l) (M * N) (x * y) (x' * y') := by
  have hM0 : 0 ≤ M := (abs_nonneg x).trans a.2
  have hN0 : 0 ≤ N := (abs_nonneg y).trans b.2
  have g := one_le_v h0 h1 hv k
  have gl := one_le_v h0 h1 hv l
  refine ⟨?_, by rw [abs_mul]; exact mul_le_mul a.2 b.2 (abs_nonneg _) hM0⟩
  have hx' : |x'| ≤ (1 + v) ^ k * M := by
    have := abs_add_le x (x' - x)
    rw [add_sub_cancel] at this
    nlinarith [a.1, a.2]
  have e : x' * y' - x * y = x' * (y' - y) + (x' - x) * y := by ring
  have a1 : |x' * (y' - y)| ≤ (1 + v) ^ k * M * (((1 + v) ^ l - 1) * N) := by
    rw [abs_mul]
    exact mul_le_mul hx' b.1 (abs_nonneg _) (mul_nonneg (by linarith) hM0)
  have a2 : |(x' - x) * y| ≤ ((1 + v) ^ k - 1) * M * N := by
    rw [abs_mul]
    exact mul_le_mul a.1 b.2 (abs_nonneg _) (mul_nonneg (by linarith) hM0)
  rw [e, pow_add]
  have := abs_add_le (x' * (y' - y)) ((x' - x) * y)
  nlinarith

variable {A : Arith} (hA : Accurate u A)
include hA

theorem Err.add {k : Nat} {M N x x' y y' : ℝ} (a : Err v k M x x') (b : Err v k N y y') :
    Err v (k + 1) (M + N) (x + y) (A.add x' y') :=
  (Err.add' h0 h1 hv a b).round h0 h1 hv (hA.add _ _)

theorem Err.sub {k : Nat} {M N x x' y y' : ℝ} (a : Err v k M x x') (b : Err v k N y y') :
    Err v (k + 1) (M + N) (x - y) (A.sub x' y') :=
  (Err.sub' h0 h1 hv a b).round h0 h1 hv (hA.sub _ _)

theorem Err.mul {k l : Nat} {M N x x' y y' : ℝ} (a : Err v k M x x') (b : Err v l N y y') :
    Err v (k + l + 1) (M * N) (x * y) (A.mul x' y') :=
  (Err.mul' h0 h1 hv a b).round h0 h1 hv (hA.mul _ _)

/-- Division by a positive number known up to `l` roundings. -/
theorem Err.div {k l : Nat} {M x x' y y' : ℝ} (a : Err v k M x x') (hy : 0 < y) (b : Near u l y y') :
    Err v (k + l + 1) (M / y) (x / y) (A.div x' y') := by
  obtain ⟨t, t1, t2, rfl⟩ := b
  have ht : 0 < t := lt_of_lt_of_le (low_pos h0 h1 l) t1
  have hgl : (1 + v) ^ l * (1 - u) ^ l = 1 := by rw [← mul_pow, hv, one_pow]
  have hgp : 0 < (1 + v) ^ l := pow_pos (by have := v_pos h0 h1 hv; linarith) l
  have hyt : y * t ≠ 0 := (mul_pos hy ht).ne'
  have a' : Err v k (M / y) (x / y) (x' / y) := by
    refine ⟨?_, by rw [abs_div, abs_of_pos hy]; exact div_le_div_of_nonneg_right a.2 hy.le⟩
    rw [← sub_div, abs_div, abs_of_pos hy, ← mul_div_assoc]
    exact div_le_div_of_nonneg_right a.1 hy.le
  have huv : (1 + u) ^ l ≤ (1 + v) ^ l := pow_le_pow_left₀ (by linarith) (by have := u_le_v h0 h1 hv; linarith) l
  have hf := a'.factor (l := l) (s := 1 / t) h0 h1 hv (by
      rw [one_div_mul_eq_div, le_div_iff₀ ht]; linarith) (by
      rw [div_le_iff₀ ht]
      calc (1 : ℝ) = (1 + v) ^ l * (1 - u) ^ l := hgl.symm
        _ ≤ (1 + v) ^ l * t := mul_le_mul_of_nonneg_left t1 hgp.le) (by positivity)
  rw [show x' / y * (1 / t) = x' / (y * t) by field_simp] at hf
  exact hf.round h0 h1 hv (hA.div _ _ hyt)

omit hv in
/-- Sums of numbers that are not negative keep their relative accuracy. -/
theorem near_add {k : Nat} {x x' y y' : ℝ} (hx : 0 ≤ x) (hy : 0 ≤ y) (a : Near u k x x') (b : Near u k y y') :
    Near u (k + 1) (x + y) (A.add x' y') := by
  refine near_trans h0 h1 ?_ (near_of_abs h0 h1 (hA.add x' y'))
  obtain ⟨s, s1, s2, rfl⟩ := a
  obtain ⟨t, t1, t2, rfl⟩ := b
  refine near_of_bounds h0 h1 (add_nonneg hx hy) ?_ ?_
  · nlinarith [mul_le_mul_of_nonneg_right s1 hx, mul_le_mul_of_nonneg_right t1 hy]
  · nlinarith [mul_le_mul_of_nonneg_right s2 hx, mul_le_mul_of_nonneg_right t2 hy]

omit hv hA in
theorem Near.mono {k l : Nat} {x x' : ℝ} (a : Near u k x x') (hk : k ≤ l) : Near u l x x' := by
  obtain ⟨s, s1, s2, rfl⟩ := a
  refine ⟨s, le_trans ?_ s1, s2.trans ?_, rfl⟩
  · exact pow_le_pow_of_le_one (by linarith) (by linarith) hk
  · exact pow_le_pow_right₀ (by linarith) hk

omit hv hA in
theorem Near.refl (x : ℝ) : Near u 0 x x := ⟨1, by simp, by simp, by simp⟩

omit hv in
theorem near_mulA {k l : Nat} {x x' y y' : ℝ} (a : Near u k x x') (b : Near u l y y') :
    Near u (k + l + 1) (x * y) (A.mul x' y') :=
  near_trans h0 h1 (near_mul h0 h1 a b) (near_of_abs h0 h1 (hA.mul _ _))

end

end Gcl
