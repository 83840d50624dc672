import Mathlib.MeasureTheory.Measure.Lebesgue.VolumeOfBalls
import Mathlib.MeasureTheory.Constructions.HaarToSphere
import Mathlib.MeasureTheory.Integral.Gamma
import Mathlib.MeasureTheory.Integral.Prod
import Mathlib.MeasureTheory.Measure.Haar.InnerProductSpace
import Mathlib.Analysis.InnerProductSpace.ProdL2
import Mathlib.Analysis.InnerProductSpace.Projection.Reflection
/-! # Averages over all directions of space -/
namespace Gcl
set_option autoImplicit false
open Real MeasureTheory Set

/-- Euclidean space as a plane and a line. -/
abbrev Space3 := WithLp 2 (ℂ × ℝ)

theorem finrank_space : Module.finrank ℝ Space3 = 3 := by
  rw [LinearEquiv.finrank_eq (WithLp.linearEquiv 2 ℝ (ℂ × ℝ)), Module.finrank_prod, Complex.finrank_real_complex,
    Module.finrank_self]

theorem space_norm_sq (x : Space3) : ‖x‖ ^ 2 = ‖x.fst‖ ^ 2 + x.snd ^ 2 := by
  rw [WithLp.prod_norm_sq_eq_of_L2]; simp

theorem ball3 : (volume : Measure Space3).real (Metric.ball 0 1) = π * 4 / 3 := by
  rw [Measure.real, InnerProductSpace.volume_ball_of_dim_odd (k := 1) (by rw [finrank_space])]
  simp only [ENNReal.ofReal_one, one_pow, one_mul, finrank_space]
  rw [ENNReal.toReal_ofReal (by positivity)]
  norm_num [Nat.doubleFactorial]

theorem ball2 : (volume : Measure ℂ).real (Metric.ball 0 1) = π := by
  rw [Measure.real, Complex.volume_ball]
  simp

theorem gauss_moment3 : ∫ y in Ioi (0 : ℝ), y ^ 2 * (y * exp (-y ^ 2)) = 1 / 2 := by
  have h := integral_rpow_mul_exp_neg_rpow (p := 2) (q := 3) (by norm_num) (by norm_num)
  have : Gamma ((3 + 1) / 2) = 1 := by
    rw [show ((3 : ℝ) + 1) / 2 = 1 + 1 by norm_num, Real.Gamma_add_one one_ne_zero, Real.Gamma_one, mul_one]
  rw [this] at h
  norm_num at h
  rw [← h]
  congr 1; ext y; norm_cast; ring

theorem gauss_moment2 : ∫ y in Ioi (0 : ℝ), y * (y * exp (-y ^ 2)) = sqrt π / 4 := by
  have h := integral_rpow_mul_exp_neg_rpow (p := 2) (q := 2) (by norm_num) (by norm_num)
  have : Gamma ((2 + 1) / 2) = sqrt π / 2 := by
    rw [show ((2 : ℝ) + 1) / 2 = 1 / 2 + 1 by norm_num, Real.Gamma_add_one (by norm_num), Real.Gamma_one_half_eq]
    ring
  rw [this] at h
  have h2 : 1 / 2 * (sqrt π / 2) = sqrt π / 4 := by ring
  rw [h2] at h
  rw [← h]
  norm_cast
  congr 1; ext y; ring

theorem gauss_moment1 : ∫ y in Ioi (0 : ℝ), y * exp (-y ^ 2) = 1 / 2 := by
  have h := integral_rpow_mul_exp_neg_rpow (p := 2) (q := 1) (by norm_num) (by norm_num)
  have : Gamma ((1 + 1) / 2) = 1 := by norm_num
  rw [this] at h
  norm_num at h
  rw [← h]

theorem gauss_moment0 : ∫ y : ℝ, exp (-y ^ 2) = sqrt π := by
  simpa using integral_gaussian 1

theorem gauss_abs : ∫ y : ℝ, |y| * exp (-y ^ 2) = 1 := by
  have := integral_comp_abs (f := fun y => y * exp (-y ^ 2))
  simp only [sq_abs] at this
  rw [this, gauss_moment1]; norm_num

theorem norm_average : ∫ x : Space3, ‖x‖ * exp (-‖x‖ ^ 2) = 2 * π := by
  rw [integral_fun_norm_addHaar volume (fun r => r * exp (-r ^ 2)), finrank_space, ball3]
  simp only [smul_eq_mul, nsmul_eq_mul, show 3 - 1 = 2 by rfl]
  rw [gauss_moment3]; push_cast; ring

theorem plane_norm : ∫ w : ℂ, ‖w‖ * exp (-‖w‖ ^ 2) = π * sqrt π / 2 := by
  rw [integral_fun_norm_addHaar volume (fun r => r * exp (-r ^ 2)), Complex.finrank_real_complex, ball2]
  simp only [smul_eq_mul, nsmul_eq_mul, show 2 - 1 = 1 by rfl, pow_one]
  rw [gauss_moment2]; push_cast; ring

theorem plane_one : ∫ w : ℂ, exp (-‖w‖ ^ 2) = π := by
  rw [integral_fun_norm_addHaar volume (fun r => exp (-r ^ 2)), Complex.finrank_real_complex, ball2]
  simp only [smul_eq_mul, nsmul_eq_mul, show 2 - 1 = 1 by rfl, pow_one]
  rw [gauss_moment1]; push_cast; ring

theorem space_prod (f : ℂ → ℝ) (g : ℝ → ℝ) :
    ∫ x : Space3, f x.fst * g x.snd = (∫ w : ℂ, f w) * ∫ t : ℝ, g t := by
  have := (WithLp.volume_preserving_ofLp (U := ℂ) (V := ℝ)).integral_comp
    (MeasurableEquiv.toLp 2 (ℂ × ℝ)).symm.measurableEmbedding (fun q : ℂ × ℝ => f q.1 * g q.2)
  rw [← integral_prod_mul]
  exact this

theorem axis_average : ∫ x : Space3, |x.snd| * exp (-‖x‖ ^ 2) = π := by
  have : ∀ x : Space3, |x.snd| * exp (-‖x‖ ^ 2) = exp (-‖x.fst‖ ^ 2) * (|x.snd| * exp (-x.snd ^ 2)) := by
    intro x
    rw [space_norm_sq, neg_add, exp_add]; ring
  simp_rw [this]
  rw [space_prod (fun w => exp (-‖w‖ ^ 2)) (fun t => |t| * exp (-t ^ 2)), plane_one, gauss_abs, mul_one]

theorem off_average : ∫ x : Space3, ‖x.fst‖ * exp (-‖x‖ ^ 2) = π ^ 2 / 2 := by
  have : ∀ x : Space3, ‖x.fst‖ * exp (-‖x‖ ^ 2) = (‖x.fst‖ * exp (-‖x.fst‖ ^ 2)) * exp (-x.snd ^ 2) := by
    intro x
    rw [space_norm_sq, neg_add, exp_add]; ring
  simp_rw [this]
  rw [space_prod (fun w => ‖w‖ * exp (-‖w‖ ^ 2)) (fun t => exp (-t ^ 2)), plane_norm, gauss_moment0]
  have := Real.mul_self_sqrt pi_nonneg
  nlinarith


/-- The vertical unit vector. -/
noncomputable def up : Space3 := WithLp.toLp 2 (0, 1)

theorem norm_up : ‖up‖ = 1 := by
  have := space_norm_sq up
  simp only [up, norm_zero] at this
  have h : ‖up‖ ^ 2 = 1 := by simpa [up] using this
  nlinarith [norm_nonneg up]

theorem inner_up (x : Space3) : inner ℝ up x = x.snd := by
  rw [WithLp.prod_inner_apply]
  simp [up]

/-- Integrals of functions of the length and of the component along a direction are the same for all directions. -/
theorem direction_free (f : ℝ → ℝ → ℝ) (u : Space3) (hu : ‖u‖ = 1) :
    ∫ x : Space3, f (inner ℝ u x) ‖x‖ = ∫ x : Space3, f x.snd ‖x‖ := by
  let R : Space3 ≃ₗᵢ[ℝ] Space3 := (ℝ ∙ (up - u))ᗮ.reflection
  have hR : R up = u := Submodule.reflection_sub (by rw [norm_up, hu])
  have h := (LinearIsometryEquiv.measurePreserving R).integral_comp R.toHomeomorph.measurableEmbedding
    (fun x => f (inner ℝ u x) ‖x‖)
  rw [← h]
  congr 1
  ext x
  rw [← hR, R.inner_map_map, R.norm_map, inner_up]

theorem along_average (v : Space3) : ∫ x : Space3, |inner ℝ v x| * exp (-‖x‖ ^ 2) = π * ‖v‖ := by
  by_cases hv : v = 0
  · simp [hv]
  have hn : ‖v‖ ≠ 0 := norm_ne_zero_iff.2 hv
  have h := direction_free (fun a r => |a| * exp (-r ^ 2)) (‖v‖⁻¹ • v) (by rw [norm_smul]; simp [hn])
  rw [axis_average] at h
  rw [← h, mul_comm, ← integral_const_mul]
  congr 1
  ext x
  rw [real_inner_smul_left, abs_mul, abs_inv, abs_norm]
  field_simp

theorem across_average (v : Space3) :
    ∫ x : Space3, sqrt (‖v‖ ^ 2 * ‖x‖ ^ 2 - inner ℝ v x ^ 2) * exp (-‖x‖ ^ 2) = π ^ 2 / 2 * ‖v‖ := by
  by_cases hv : v = 0
  · simp [hv]
  have hn : 0 < ‖v‖ := norm_pos_iff.2 hv
  have h := direction_free (fun a r => sqrt (r ^ 2 - a ^ 2) * exp (-r ^ 2)) (‖v‖⁻¹ • v)
    (by rw [norm_smul]; simp [hn.ne'])
  have e : ∀ x : Space3, sqrt (‖x‖ ^ 2 - x.snd ^ 2) = ‖x.fst‖ := by
    intro x
    rw [space_norm_sq, add_sub_cancel_right, sqrt_sq (norm_nonneg _)]
  simp only [e] at h
  rw [off_average] at h
  rw [← h, mul_comm, ← integral_const_mul]
  congr 1
  ext x
  rw [real_inner_smul_left, ← mul_assoc]
  congr 1
  rw [← sqrt_sq hn.le, ← sqrt_mul (by positivity), sqrt_sq hn.le]
  congr 1
  field_simp

end Gcl
