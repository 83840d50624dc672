import Verif.Model.Guess
import Verif.Props.Extremes
import Verif.Props.EventShape
import Mathlib.MeasureTheory.Integral.Prod
import Mathlib.MeasureTheory.Integral.IntervalIntegral.Basic
import Mathlib.Analysis.SpecialFunctions.Integrals.Basic
/-!
# C141: the law of the initial guess of `thrust` and `spherocity`
-/
namespace Gcl
set_option autoImplicit false
open Spec Real MeasureTheory Set

/-- A law of directions is uniform over the sphere: a probability, of unit vectors only, that no rotation changes. -/
def Spec.UniformOnSphere (μ : Measure (ℝ × ℝ × ℝ)) : Prop :=
  IsProbabilityMeasure μ ∧ (∀ᵐ n ∂μ, UnitVec n) ∧
    ∀ M : Matrix (Fin 3) (Fin 3) ℝ, Orthogonal M → μ.map (rotVec M) = μ

/-- A vector of space turned by `M`. -/
noncomputable def turn (M : Matrix (Fin 3) (Fin 3) ℝ) : Space3 →ₗ[ℝ] Space3 where
  toFun x := momVec ⟨(rotVec M (x.fst.re, x.fst.im, x.snd)).1, (rotVec M (x.fst.re, x.fst.im, x.snd)).2.1,
    (rotVec M (x.fst.re, x.fst.im, x.snd)).2.2, 0⟩
  map_add' x y := by
    apply WithLp.ofLp_injective
    simp only [momVec, rotVec, Matrix.mulVec, dotProduct, Fin.sum_univ_three, WithLp.ofLp_add, Prod.mk_add_mk]
    refine Prod.ext (Complex.ext ?_ ?_) ?_ <;> simp <;> ring
  map_smul' c x := by
    apply WithLp.ofLp_injective
    simp only [momVec, rotVec, Matrix.mulVec, dotProduct, Fin.sum_univ_three, WithLp.ofLp_smul, Prod.smul_mk]
    refine Prod.ext (Complex.ext ?_ ?_) ?_ <;> simp <;> ring

theorem turn_norm {M : Matrix (Fin 3) (Fin 3) ℝ} (hM : Orthogonal M) (x : Space3) : ‖turn M x‖ = ‖x‖ := by
  have h := rotVec_dot hM (x.fst.re, x.fst.im, x.snd) (x.fst.re, x.fst.im, x.snd)
  have h1 := space_norm_sq' x
  refine (sq_eq_sq₀ (norm_nonneg _) (norm_nonneg _)).1 ?_
  rw [h1, show turn M x = momVec ⟨(rotVec M (x.fst.re, x.fst.im, x.snd)).1,
    (rotVec M (x.fst.re, x.fst.im, x.snd)).2.1, (rotVec M (x.fst.re, x.fst.im, x.snd)).2.2, 0⟩ from rfl,
    norm_momVec, norm3_sq]
  simp only [vdot] at h
  linarith

theorem dirOf_turn {M : Matrix (Fin 3) (Fin 3) ℝ} (hM : Orthogonal M) (x : Space3) :
    dirOf (turn M x) = rotVec M (dirOf x) := by
  unfold dirOf
  rw [turn_norm hM]
  simp only [turn, momVec, rotVec, Matrix.mulVec, dotProduct, Fin.sum_univ_three, LinearMap.coe_mk, AddHom.coe_mk]
  refine Prod.ext ?_ (Prod.ext ?_ ?_) <;> simp <;> ring

theorem measurable_dirOf : Measurable dirOf := by
  unfold dirOf
  have h1 : Measurable (fun x : Space3 => x.fst) := (continuous_fst.comp (WithLp.prod_continuous_ofLp 2 ℂ ℝ)).measurable
  have h2 : Measurable (fun x : Space3 => x.snd) := (continuous_snd.comp (WithLp.prod_continuous_ofLp 2 ℂ ℝ)).measurable
  fun_prop

/-- The direction of a point drawn from the unit ball. -/
noncomputable def ballLaw : Measure (ℝ × ℝ × ℝ) :=
  ((volume (Metric.ball (0 : Space3) 1))⁻¹ • volume.restrict (Metric.ball (0 : Space3) 1)).map dirOf

/-- There is a law which is uniform over the sphere. -/
theorem ballLaw_uniform : UniformOnSphere ballLaw := by
  have hv0 : volume (Metric.ball (0 : Space3) 1) ≠ 0 := (Metric.measure_ball_pos _ _ one_pos).ne'
  have hvt : volume (Metric.ball (0 : Space3) 1) ≠ ⊤ := measure_ball_lt_top.ne
  refine ⟨?_, ?_, ?_⟩
  · have : IsProbabilityMeasure
        ((volume (Metric.ball (0 : Space3) 1))⁻¹ • volume.restrict (Metric.ball (0 : Space3) 1)) := by
      constructor
      simp only [Measure.smul_apply, Measure.restrict_apply_univ, smul_eq_mul]
      exact ENNReal.inv_mul_cancel hv0 hvt
    exact Measure.isProbabilityMeasure_map measurable_dirOf.aemeasurable
  · unfold ballLaw
    rw [ae_map_iff measurable_dirOf.aemeasurable]
    · have : Nontrivial Space3 := Module.nontrivial_of_finrank_pos (R := ℝ) (by rw [finrank_space]; norm_num)
      have hz : ∀ᵐ x : Space3, x ≠ 0 := Measure.ae_ne volume 0
      refine Measure.ae_smul_measure (ae_restrict_of_ae ?_) _
      filter_upwards [hz] with x hx
      exact unit_dirOf hx
    · unfold UnitVec
      exact measurableSet_eq_fun (by fun_prop) (by fun_prop)
  · intro M hM
    let L : Space3 ≃ₗᵢ[ℝ] Space3 := LinearIsometry.toLinearIsometryEquiv ⟨turn M, turn_norm hM⟩ rfl
    have hL : ∀ x, L x = turn M x := fun x => rfl
    have hpre : L ⁻¹' (Metric.ball 0 1) = Metric.ball 0 1 := by
      ext x
      simp
    have hmp : (volume.restrict (Metric.ball (0 : Space3) 1)).map L = volume.restrict (Metric.ball (0 : Space3) 1) := by
      have := (LinearIsometryEquiv.measurePreserving L).restrict_preimage (s := Metric.ball 0 1) measurableSet_ball
      rw [hpre] at this
      exact this.map_eq
    have hrot : Measurable (rotVec M) := by
      unfold rotVec
      simp only [Matrix.mulVec, dotProduct, Fin.sum_univ_three]
      simp
      fun_prop
    unfold ballLaw
    rw [Measure.map_map hrot measurable_dirOf]
    have hc : rotVec M ∘ dirOf = dirOf ∘ L := by
      funext x
      exact (dirOf_turn hM x).symm
    rw [hc, ← Measure.map_map measurable_dirOf L.continuous.measurable, Measure.map_smul, hmp]

theorem measurable_axis : Measurable (fun g : ℝ × ℝ => anglesToAxis g.1 g.2) := by
  unfold anglesToAxis
  fun_prop

instance angleLaw_prob : IsProbabilityMeasure angleLaw := by
  constructor
  unfold angleLaw
  have : volume (Icc (-(π / 2)) (π / 2)) = ENNReal.ofReal π := by
    rw [Real.volume_Icc]; congr 1; ring
  simp only [Measure.smul_apply, Measure.restrict_apply_univ, this, smul_eq_mul]
  exact ENNReal.inv_mul_cancel (by simp [pi_pos]) ENNReal.ofReal_ne_top

theorem integral_angle (f : ℝ → ℝ) : ∫ t, f t ∂angleLaw = π⁻¹ * ∫ t in (-(π / 2))..(π / 2), f t := by
  unfold angleLaw
  rw [integral_smul_measure, intervalIntegral.integral_of_le (by linarith [pi_pos]), integral_Icc_eq_integral_Ioc]
  simp [ENNReal.toReal_inv, pi_pos.le]

theorem angle_cos_sq : ∫ t, cos t ^ 2 ∂angleLaw = 1 / 2 := by
  rw [integral_angle, integral_cos_sq]
  simp
  field_simp

theorem angle_sin_sq : ∫ t, sin t ^ 2 ∂angleLaw = 1 / 2 := by
  rw [integral_angle, integral_sin_sq]
  simp
  field_simp

theorem guess_moment (f : ℝ × ℝ × ℝ → ℝ) (hf : Measurable f) :
    ∫ n, f n ∂guessLaw = ∫ g, f (anglesToAxis g.1 g.2) ∂(angleLaw.prod angleLaw) :=
  integral_map measurable_axis.aemeasurable hf.aestronglyMeasurable

/-- **C141** (refutation of the documentation, "sampled from a uniform random distribution, over the surface of a
sphere"): the axis of the initial guess is a unit vector, but its law prefers the beam: the mean of the square of its
components is `1/4`, `1/4` and `1/2`, so it is not uniform over the sphere (there all three would be `1/3`). -/
theorem C141_false :
    (∀ᵐ n ∂guessLaw, UnitVec n) ∧
    ∫ n, n.1 ^ 2 ∂guessLaw = 1 / 4 ∧ ∫ n, n.2.1 ^ 2 ∂guessLaw = 1 / 4 ∧ ∫ n, n.2.2 ^ 2 ∂guessLaw = 1 / 2 ∧
    (∀ μ, UniformOnSphere μ → ∫ n, n.1 ^ 2 ∂μ = 1 / 3 ∧ ∫ n, n.2.1 ^ 2 ∂μ = 1 / 3 ∧ ∫ n, n.2.2 ^ 2 ∂μ = 1 / 3) ∧
    ¬ UniformOnSphere guessLaw := by
  have hu : ∀ᵐ n ∂guessLaw, UnitVec n := by
    unfold guessLaw
    rw [ae_map_iff measurable_axis.aemeasurable]
    · exact Filter.Eventually.of_forall (fun g => unitVec_angles g.1 g.2)
    · unfold UnitVec
      exact measurableSet_eq_fun (by fun_prop) (by fun_prop)
  have hx : ∫ n, n.1 ^ 2 ∂guessLaw = 1 / 4 := by
    rw [guess_moment (fun n => n.1 ^ 2) (by fun_prop)]
    have : ∀ g : ℝ × ℝ, (anglesToAxis g.1 g.2).1 ^ 2 = cos g.1 ^ 2 * sin g.2 ^ 2 := by
      intro g; simp only [anglesToAxis]; ring
    simp only [this]
    rw [integral_prod_mul (fun t => cos t ^ 2) (fun t => sin t ^ 2), angle_cos_sq, angle_sin_sq]
    norm_num
  have hy : ∫ n, n.2.1 ^ 2 ∂guessLaw = 1 / 4 := by
    rw [guess_moment (fun n => n.2.1 ^ 2) (by fun_prop)]
    have : ∀ g : ℝ × ℝ, (anglesToAxis g.1 g.2).2.1 ^ 2 = sin g.1 ^ 2 * sin g.2 ^ 2 := by
      intro g; simp only [anglesToAxis]; ring
    simp only [this]
    rw [integral_prod_mul (fun t => sin t ^ 2) (fun t => sin t ^ 2), angle_sin_sq]
    norm_num
  have hz : ∫ n, n.2.2 ^ 2 ∂guessLaw = 1 / 2 := by
    rw [guess_moment (fun n => n.2.2 ^ 2) (by fun_prop)]
    have : ∀ g : ℝ × ℝ, (anglesToAxis g.1 g.2).2.2 ^ 2 = 1 * cos g.2 ^ 2 := by
      intro g; simp only [anglesToAxis]; ring
    simp only [this]
    rw [integral_prod_mul (fun _ => (1 : ℝ)) (fun t => cos t ^ 2), angle_cos_sq]
    simp
  have hunif : ∀ μ, UniformOnSphere μ →
      ∫ n, n.1 ^ 2 ∂μ = 1 / 3 ∧ ∫ n, n.2.1 ^ 2 ∂μ = 1 / 3 ∧ ∫ n, n.2.2 ^ 2 ∂μ = 1 / 3 := by
    rintro μ ⟨hp, hn, hinv⟩
    let R : ℝ × ℝ × ℝ → ℝ × ℝ × ℝ := fun n => (n.2.1, n.2.2, n.1)
    have hR : Measurable R := by fun_prop
    have hM : rotVec !![0, 1, 0; 0, 0, 1; 1, 0, 0] = R := by
      funext n
      simp [rotVec, R, Matrix.mulVec, dotProduct, Fin.sum_univ_three]
    have h := hinv !![0, 1, 0; 0, 0, 1; 1, 0, 0] (by
      unfold Orthogonal
      ext i j
      fin_cases i <;> fin_cases j <;> simp [Matrix.mul_apply, Fin.sum_univ_three])
    rw [hM] at h
    have e1 : ∫ n, n.1 ^ 2 ∂μ = ∫ n, n.2.1 ^ 2 ∂μ := by
      conv_lhs => rw [← h]
      rw [integral_map hR.aemeasurable (by fun_prop)]
    have e2 : ∫ n, n.2.1 ^ 2 ∂μ = ∫ n, n.2.2 ^ 2 ∂μ := by
      conv_lhs => rw [← h]
      rw [integral_map hR.aemeasurable (by fun_prop)]
    have bound : ∀ f : ℝ × ℝ × ℝ → ℝ, Measurable f → (∀ n, UnitVec n → |f n| ≤ 1) → Integrable f μ := by
      intro f hf hb
      refine Integrable.of_bound hf.aestronglyMeasurable 1 ?_
      filter_upwards [hn] with n hn'
      exact hb n hn'
    have i1 : Integrable (fun n : ℝ × ℝ × ℝ => n.1 ^ 2) μ := bound _ (by fun_prop) (fun n h => by
      unfold UnitVec at h
      rw [abs_of_nonneg (sq_nonneg _)]; nlinarith [sq_nonneg n.2.1, sq_nonneg n.2.2])
    have i2 : Integrable (fun n : ℝ × ℝ × ℝ => n.2.1 ^ 2) μ := bound _ (by fun_prop) (fun n h => by
      unfold UnitVec at h
      rw [abs_of_nonneg (sq_nonneg _)]; nlinarith [sq_nonneg n.1, sq_nonneg n.2.2])
    have i3 : Integrable (fun n : ℝ × ℝ × ℝ => n.2.2 ^ 2) μ := bound _ (by fun_prop) (fun n h => by
      unfold UnitVec at h
      rw [abs_of_nonneg (sq_nonneg _)]; nlinarith [sq_nonneg n.1, sq_nonneg n.2.1])
    have es : ∫ n, (n.1 ^ 2 + n.2.1 ^ 2 + n.2.2 ^ 2) ∂μ = 1 := by
      rw [integral_congr_ae (g := fun _ => (1 : ℝ)) (by filter_upwards [hn] with n h using h)]
      simp
    have es' : ∫ n, (n.1 ^ 2 + n.2.1 ^ 2 + n.2.2 ^ 2) ∂μ =
        ∫ n, n.1 ^ 2 ∂μ + ∫ n, n.2.1 ^ 2 ∂μ + ∫ n, n.2.2 ^ 2 ∂μ := by
      rw [← integral_add i1 i2]
      exact integral_add (i1.add i2) i3
    rw [es'] at es
    refine ⟨?_, ?_, ?_⟩ <;> linarith
  refine ⟨hu, hx, hy, hz, hunif, fun h => ?_⟩
  have := (hunif _ h).1
  rw [hx] at this
  norm_num at this

end Gcl
