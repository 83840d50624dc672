import Mathlib.Analysis.Complex.Angle
import Mathlib.Geometry.Euclidean.Angle.Unoriented.TriangleInequality
import Mathlib.Geometry.Euclidean.Triangle
import Verif.Lemmas.Rounded
/-! # Angles of complex numbers that are close to each other -/
namespace Gcl
set_option autoImplicit false
open Real InnerProductGeometry

theorem angle_near {z z' : ℂ} {ε : ℝ} (hz : z ≠ 0) (h : ‖z' - z‖ ≤ ε * ‖z‖) (hε : ε < 1) : angle z z' ≤ π / 2 * ε := by
  have hn : 0 < ‖z‖ := norm_pos_iff.2 hz
  have hz' : z' ≠ 0 := by
    rintro rfl
    rw [zero_sub, norm_neg] at h
    nlinarith
  have hn' : 0 < ‖z'‖ := norm_pos_iff.2 hz'
  have hε0 : 0 ≤ ε := by
    by_contra hc
    have := norm_nonneg (z' - z)
    nlinarith
  have hcos := norm_sub_sq_eq_norm_sq_add_norm_sq_sub_two_mul_norm_mul_norm_mul_cos_angle z z'
  rw [norm_sub_rev] at hcos
  have hsq : ‖z' - z‖ * ‖z' - z‖ ≤ (ε * ‖z‖) * (ε * ‖z‖) := mul_self_le_mul_self (norm_nonneg _) h
  have h0 := angle_nonneg z z'
  have hpi := angle_le_pi z z'
  have hcs := sin_sq_add_cos_sq (angle z z')
  have hs0 : 0 ≤ sin (angle z z') := sin_nonneg_of_nonneg_of_le_pi h0 hpi
  -- the angle is acute
  have hcpos : 0 < cos (angle z z') := by
    by_contra hc
    have : ‖z‖ * ‖z‖ ≤ ‖z' - z‖ * ‖z' - z‖ := by
      have h1 : 0 ≤ -(2 * ‖z‖ * ‖z'‖ * cos (angle z z')) := by
        have := mul_nonneg (mul_pos hn hn').le (neg_nonneg.2 (not_lt.1 hc))
        nlinarith
      nlinarith [mul_self_nonneg ‖z'‖]
    have h2 : ε * ε < 1 := by nlinarith
    nlinarith [mul_pos hn hn]
  have hlt : angle z z' ≤ π / 2 := by
    by_contra hc
    have := cos_nonpos_of_pi_div_two_le_of_le (not_le.1 hc).le (by linarith [pi_pos])
    linarith
  have hsin : sin (angle z z') ≤ ε := by
    have h1 : (‖z‖ * sin (angle z z')) * (‖z‖ * sin (angle z z')) ≤ (ε * ‖z‖) * (ε * ‖z‖) := by
      nlinarith [mul_self_nonneg (‖z‖ * cos (angle z z') - ‖z'‖)]
    have h2 := abs_le_of_sq_le_sq' (by simpa [sq] using h1) (by positivity)
    nlinarith [h2.2]
  have := mul_le_sin h0 hlt
  have hp := pi_pos
  have h3 : angle z z' = π / 2 * (2 / π * angle z z') := by field_simp
  rw [h3]
  exact mul_le_mul_of_nonneg_left (this.trans hsin) (by positivity)

/-- The modulus of the argument is stable. -/
theorem abs_arg_near {z z' : ℂ} {ε : ℝ} (h : ‖z' - z‖ ≤ ε * ‖z‖) (hε : ε < 1) (h0 : 0 ≤ ε) : |(|z'.arg| - |z.arg|)| ≤ π / 2 * ε := by
  by_cases hz : z = 0
  · subst hz
    rw [norm_zero, mul_zero, sub_zero, norm_le_zero_iff] at h
    subst h
    simp
    positivity
  · have hz' : z' ≠ 0 := by
      rintro rfl
      have hn : 0 < ‖z‖ := norm_pos_iff.2 hz
      rw [zero_sub, norm_neg] at h
      nlinarith
    have ha := angle_near hz h hε
    rw [← Complex.angle_one_right hz, ← Complex.angle_one_right hz', abs_le]
    have t1 := angle_le_angle_add_angle z' z (1 : ℂ)
    have t2 := angle_le_angle_add_angle z z' (1 : ℂ)
    rw [angle_comm z' z] at t1
    constructor <;> linarith

/-- Two roundings of a difference of products: relative to the sum of the magnitudes. -/
theorem round2 {u a b a' b' s : ℝ} (h0 : 0 ≤ u) (ha : |a' - a| ≤ u * |a|) (hb : |b' - b| ≤ u * |b|)
    (hs : |s - (a' + b')| ≤ u * |a' + b'|) : |s - (a + b)| ≤ ((1 + u) ^ 2 - 1) * (|a| + |b|) := by
  have h1 : |a' + b' - (a + b)| ≤ u * (|a| + |b|) := by
    have := abs_add_le (a' - a) (b' - b)
    have e : a' + b' - (a + b) = (a' - a) + (b' - b) := by ring
    rw [e]; nlinarith
  have h2 : |a' + b'| ≤ (1 + u) * (|a| + |b|) := by
    have t1 := abs_add_le (a' + b' - (a + b)) (a + b)
    have t2 := abs_add_le a b
    have e : a' + b' - (a + b) + (a + b) = a' + b' := by ring
    rw [e] at t1
    nlinarith
  have h3 := abs_add_le (s - (a' + b')) (a' + b' - (a + b))
  have e : s - (a' + b') + (a' + b' - (a + b)) = s - (a + b) := by ring
  rw [e] at h3
  nlinarith [mul_le_mul_of_nonneg_left h2 h0]

theorem norm_mk_le {a b c : ℝ} (ha : |a| ≤ c) (hb : |b| ≤ c) : ‖(⟨a, b⟩ : ℂ)‖ ≤ √2 * c := by
  have hc : 0 ≤ c := (abs_nonneg a).trans ha
  rw [Complex.norm_eq_sqrt_sq_add_sq]
  apply Real.sqrt_le_iff.2
  constructor
  · positivity
  · have e : (√2 * c) ^ 2 = 2 * c ^ 2 := by rw [mul_pow, Real.sq_sqrt (by norm_num)]
    rw [e]
    have h1 := sq_le_sq' (abs_le.1 ha).1 (abs_le.1 ha).2
    have h2 := sq_le_sq' (abs_le.1 hb).1 (abs_le.1 hb).2
    simp only
    linarith

theorem cs2 (a b c d : ℝ) : |a * c| + |b * d| ≤ √(a ^ 2 + b ^ 2) * √(c ^ 2 + d ^ 2) := by
  rw [← Real.sqrt_mul (by positivity)]
  apply Real.le_sqrt_of_sq_le
  rw [abs_mul, abs_mul]
  have e1 := sq_abs a; have e2 := sq_abs b; have e3 := sq_abs c; have e4 := sq_abs d
  nlinarith [sq_nonneg (|a| * |d| - |b| * |c|)]

end Gcl
