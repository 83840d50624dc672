import Mathlib.Tactic.Ring
import Mathlib.Tactic.Linarith
import Mathlib.Tactic.FieldSimp
import Mathlib.Tactic.NormNum
import Mathlib.Tactic.LinearCombination
import Verif.Spec.Physics
/-! # Lemmas on the kinematic functions -/
namespace Gcl
set_option autoImplicit false
open Real Spec

theorem pt_eq (p : P4) : p.pt = sqrt (p.x ^ 2 + p.y ^ 2) := by
  simp [P4.pt, P4.ztPol, P4.xyPol, Complex.norm_def, Complex.normSq_apply, pow_two]

theorem pt_nonneg (p : P4) : 0 ≤ p.pt := by rw [pt_eq]; exact sqrt_nonneg _

theorem pt_sq (p : P4) : p.pt ^ 2 = p.x ^ 2 + p.y ^ 2 := by rw [pt_eq, sq_sqrt (by positivity)]

theorem spatialMag_eq (p : P4) : p.spatialMag = sqrt (p3sq p) := by
  have h : p.ztPol.im = p.pt := rfl
  have h2 : p.ztPol.re = p.z := rfl
  rw [P4.spatialMag, Complex.norm_def, Complex.normSq_apply, h, h2]
  congr 1
  have := pt_sq p
  unfold p3sq; nlinarith

theorem p3sq_nonneg (p : P4) : 0 ≤ p3sq p := by unfold p3sq; positivity

theorem spatialMag_nonneg (p : P4) : 0 ≤ p.spatialMag := by rw [spatialMag_eq]; exact sqrt_nonneg _

theorem spatialMag_sq (p : P4) : p.spatialMag ^ 2 = p3sq p := by
  rw [spatialMag_eq, sq_sqrt (p3sq_nonneg p)]

theorem copysign_mul_self {x s : ℝ} (hx : 0 ≤ x) : copysign x s * |copysign x s| = if s < 0 then -(x * x) else x * x := by
  unfold copysign; split <;> simp [abs_of_nonneg hx]

/-- The signed square root: its signed square is the difference of squares. -/
theorem rootDiff_signed (a b : ℝ) :
    rootDiffTwoSquares a b * |rootDiffTwoSquares a b| = a ^ 2 - b ^ 2 := by
  unfold rootDiffTwoSquares
  simp only
  rw [abs_mul]
  have h1 := copysign_mul_self (x := sqrt |(|a| - |b|)|) (s := |a| - |b|) (sqrt_nonneg _)
  have h2 : sqrt (|a| + |b|) * |sqrt (|a| + |b|)| = |a| + |b| := by
    rw [abs_of_nonneg (sqrt_nonneg _), mul_self_sqrt (by positivity)]
  have h3 : copysign (sqrt |(|a| - |b|)|) (|a| - |b|) * sqrt (|a| + |b|) *
      (|copysign (sqrt |(|a| - |b|)|) (|a| - |b|)| * |sqrt (|a| + |b|)|) =
      (copysign (sqrt |(|a| - |b|)|) (|a| - |b|) * |copysign (sqrt |(|a| - |b|)|) (|a| - |b|)|) *
      (sqrt (|a| + |b|) * |sqrt (|a| + |b|)|) := by ring
  rw [h3, h1, h2, mul_self_sqrt (abs_nonneg _)]
  have hs : a ^ 2 - b ^ 2 = (|a| - |b|) * (|a| + |b|) := by
    have := sq_abs a; have := sq_abs b; ring_nf; linarith
  rw [hs]
  split
  · next h => rw [abs_of_neg h]; ring
  · next h => rw [abs_of_nonneg (not_lt.1 h)]

/-- A real number is determined by its signed square. -/
theorem signed_sq_inj {a b : ℝ} (h : a * |a| = b * |b|) : a = b := by
  rcases le_total 0 a with ha | ha <;> rcases le_total 0 b with hb | hb
  · rw [abs_of_nonneg ha, abs_of_nonneg hb] at h
    nlinarith [mul_self_eq_mul_self_iff.1 h, sq_nonneg (a - b), sq_nonneg (a + b)]
  · rw [abs_of_nonneg ha, abs_of_nonpos hb] at h
    have : a = 0 := by nlinarith [mul_self_nonneg b, mul_self_nonneg a, mul_self_eq_zero.1 (by nlinarith [mul_self_nonneg b, mul_self_nonneg a] : a * a = 0)]
    have : b = 0 := mul_self_eq_zero.1 (by nlinarith [mul_self_nonneg b, mul_self_nonneg a])
    linarith
  · rw [abs_of_nonpos ha, abs_of_nonneg hb] at h
    have : a = 0 := mul_self_eq_zero.1 (by nlinarith [mul_self_nonneg b, mul_self_nonneg a])
    have : b = 0 := mul_self_eq_zero.1 (by nlinarith [mul_self_nonneg b, mul_self_nonneg a])
    linarith
  · rw [abs_of_nonpos ha, abs_of_nonpos hb] at h
    have h : a * a = b * b := by linarith
    rcases mul_self_eq_mul_self_iff.1 h with h | h <;> linarith

theorem mass_signed (p : P4) : p.mass * |p.mass| = mdot p p := by
  unfold P4.mass
  rw [rootDiff_signed, spatialMag_sq]; unfold p3sq mdot; ring

theorem massT_signed (p : P4) : p.massT * |p.massT| = p.e ^ 2 - p.z ^ 2 := rootDiff_signed _ _

theorem mass_congr {p q : P4} (h : mdot p p = mdot q q) : p.mass = q.mass :=
  signed_sq_inj (by rw [mass_signed, mass_signed, h])

theorem massT_congr {p q : P4} (h : p.e ^ 2 - p.z ^ 2 = q.e ^ 2 - q.z ^ 2) : p.massT = q.massT :=
  signed_sq_inj (by rw [massT_signed, massT_signed, h])

/-- Rapidity of a forward timelike momentum. -/
theorem rapidity_eq {tol : ℝ} (ht : 0 ≤ tol) {p : P4} (h : tol < p.e - |p.z|) :
    p.rapidity tol = .fin (0.5 * log ((p.e + p.z) / (p.e - p.z))) := by
  unfold P4.rapidity rapidityOf
  have hd : 0 < p.e - |p.z| := lt_of_le_of_lt ht h
  have he : 0 < p.e + |p.z| := by have := abs_nonneg p.z; linarith
  simp only
  rw [if_pos (by rwa [abs_of_pos hd]), if_pos (div_pos he hd)]
  congr 1
  have hge : 0 ≤ 0.5 * log ((p.e + |p.z|) / (p.e - |p.z|)) := by
    apply mul_nonneg (by norm_num)
    apply log_nonneg
    rw [le_div_iff₀ hd]
    have := abs_nonneg p.z; linarith
  unfold copysign
  rw [abs_of_nonneg hge]
  split
  · next hz =>
    rw [abs_of_neg hz, ← mul_neg, ← log_inv, inv_div]
    congr 3 <;> ring
  · next hz => rw [abs_of_nonneg (not_lt.1 hz)]

theorem boost_pm (s : ℝ) (p : P4) :
    (p.shiftRapidity s).e + (p.shiftRapidity s).z = exp s * (p.e + p.z) ∧
    (p.shiftRapidity s).e - (p.shiftRapidity s).z = exp (-s) * (p.e - p.z) := by
  simp only [P4.shiftRapidity, cosh_neg, sinh_neg]
  have h1 := cosh_add_sinh s
  have h2 : cosh s - sinh s = exp (-s) := cosh_sub_sinh s
  constructor
  · rw [← h1]; ring
  · rw [← h2]; ring

end Gcl
