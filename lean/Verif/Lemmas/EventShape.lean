import Mathlib.Tactic.Positivity
import Mathlib.Analysis.SpecialFunctions.Trigonometric.Deriv
import Mathlib.Analysis.Calculus.Deriv.Mul
import Mathlib.Analysis.Calculus.Deriv.Add
import Mathlib.Analysis.Calculus.Deriv.Pow
import Mathlib.Analysis.Calculus.Deriv.Abs
import Mathlib.Analysis.SpecialFunctions.Sqrt
import Verif.Lemmas.Momentum
import Verif.Model.EventShape
import Verif.Spec.EventShape
/-! # Lemmas on the event shapes -/
namespace Gcl
set_option autoImplicit false
open Real Spec

theorem threeNorm_zero : threeNorm 0 0 0 = .error .zeroDivisionError := by
  simp [threeNorm, pyDiv]

theorem threeNorm_ok {x y z : ℝ} (h : x ≠ 0 ∨ y ≠ 0 ∨ z ≠ 0) :
    threeNorm x y z = .ok (sqrt (x ^ 2 + y ^ 2 + z ^ 2)) := by
  have hm : 0 < max (max |x| |y|) |z| := by
    rcases h with h | h | h
    · exact lt_of_lt_of_le (abs_pos.2 h) (le_trans (le_max_left _ _) (le_max_left _ _))
    · exact lt_of_lt_of_le (abs_pos.2 h) (le_trans (le_max_right _ _) (le_max_left _ _))
    · exact lt_of_lt_of_le (abs_pos.2 h) (le_max_right _ _)
  unfold threeNorm pyDiv
  simp only
  rw [if_neg hm.ne']
  simp only
  congr 1
  generalize max (max |x| |y|) |z| = m at hm
  rw [show x * (1 / m) * (x * (1 / m)) + y * (1 / m) * (y * (1 / m)) + z * (1 / m) * (z * (1 / m)) =
    (x ^ 2 + y ^ 2 + z ^ 2) / m ^ 2 by field_simp]
  rw [sqrt_div (by positivity), sqrt_sq hm.le]
  field_simp

theorem norm3_pos {p : P4} (h : Moving p) : 0 < norm3 p := by
  apply sqrt_pos.2
  rcases h with h | h | h
  · have := sq_pos_of_ne_zero h; positivity
  · have := sq_pos_of_ne_zero h; positivity
  · have := sq_pos_of_ne_zero h; positivity

theorem norm3_nonneg (p : P4) : 0 ≤ norm3 p := sqrt_nonneg _

theorem norm3_sq (p : P4) : norm3 p ^ 2 = p.x ^ 2 + p.y ^ 2 + p.z ^ 2 := sq_sqrt (by positivity)

theorem threeNorm_moving {p : P4} (h : Moving p) : threeNorm p.x p.y p.z = .ok (norm3 p) :=
  threeNorm_ok h

theorem threeNorm_still {p : P4} (h : ¬ Moving p) : threeNorm p.x p.y p.z = .error .zeroDivisionError := by
  unfold Moving at h
  simp only [not_or, not_not] at h
  rw [h.1, h.2.1, h.2.2]; exact threeNorm_zero

theorem sumOf_cons (f : P4 → ℝ) (p : P4) (ps : List P4) : sumOf f (p :: ps) = f p + sumOf f ps := by
  simp [sumOf]

theorem sumOf_nonneg {f : P4 → ℝ} (hf : ∀ p, 0 ≤ f p) (ps : List P4) : 0 ≤ sumOf f ps := by
  induction ps with
  | nil => simp [sumOf]
  | cons p ps ih => rw [sumOf_cons]; have := hf p; linarith

theorem sumOf_le {f g : P4 → ℝ} (h : ∀ p, f p ≤ g p) (ps : List P4) : sumOf f ps ≤ sumOf g ps := by
  induction ps with
  | nil => simp [sumOf]
  | cons p ps ih => rw [sumOf_cons, sumOf_cons]; have := h p; linarith

theorem sumOf_perm (f : P4 → ℝ) {ps qs : List P4} (h : ps.Perm qs) : sumOf f ps = sumOf f qs :=
  (h.map f).sum_eq

theorem sumOf_map (f : P4 → ℝ) (g : P4 → P4) (ps : List P4) :
    sumOf f (ps.map g) = sumOf (fun p => f (g p)) ps := by
  simp [sumOf, List.map_map, Function.comp_def]

theorem sumOf_congr {f g : P4 → ℝ} {ps : List P4} (h : ∀ p ∈ ps, f p = g p) : sumOf f ps = sumOf g ps := by
  unfold sumOf; rw [List.map_congr_left h]

theorem sumOf_mul_left (c : ℝ) (f : P4 → ℝ) (ps : List P4) :
    sumOf (fun p => c * f p) ps = c * sumOf f ps := by
  induction ps with
  | nil => simp [sumOf]
  | cons p ps ih => rw [sumOf_cons, sumOf_cons, ih]; ring

theorem sumOf_add (f g : P4 → ℝ) (ps : List P4) :
    sumOf (fun p => f p + g p) ps = sumOf f ps + sumOf g ps := by
  induction ps with
  | nil => simp [sumOf]
  | cons p ps ih => rw [sumOf_cons, sumOf_cons, sumOf_cons, ih]; ring

theorem sumOf_norm_pos {ps : List P4} (hne : ps ≠ []) (h : ∀ p ∈ ps, Moving p) : 0 < sumOf norm3 ps := by
  match ps, hne with
  | p :: ps, _ =>
    rw [sumOf_cons]
    have := norm3_pos (h p (by simp))
    have := sumOf_nonneg norm3_nonneg ps
    linarith

/-- Derivative of a sum over the particles. -/
theorem hasDerivAt_sumOf {f : ℝ → P4 → ℝ} {f' : P4 → ℝ} {t : ℝ} :
    ∀ ps : List P4, (∀ p ∈ ps, HasDerivAt (fun s => f s p) (f' p) t) →
      HasDerivAt (fun s => sumOf (f s) ps) (sumOf f' ps) t := by
  intro ps
  induction ps with
  | nil => intro _; simpa [sumOf] using hasDerivAt_const t (0 : ℝ)
  | cons p ps ih =>
    intro h
    simp only [sumOf_cons]
    exact (h p (by simp)).add (ih (fun q hq => h q (by simp [hq])))

/-! ## thrust -/

noncomputable def dPhi (φ θ : ℝ) (p : P4) : ℝ := p.y * sin θ * cos φ - p.x * sin θ * sin φ
noncomputable def dTheta (φ θ : ℝ) (p : P4) : ℝ := p.x * cos θ * cos φ + p.y * cos θ * sin φ - p.z * sin θ

theorem hasDerivAt_onAxis_phi (φ θ : ℝ) (p : P4) :
    HasDerivAt (fun t => onAxis t θ p) (dPhi φ θ p) φ := by
  unfold onAxis dPhi
  have h1 := (((hasDerivAt_cos φ).const_mul (sin θ)).const_mul p.x)
  have h2 := (((hasDerivAt_sin φ).const_mul (sin θ)).const_mul p.y)
  have := (h1.add h2).add_const (p.z * cos θ)
  refine this.congr_deriv ?_
  ring

theorem hasDerivAt_onAxis_theta (φ θ : ℝ) (p : P4) :
    HasDerivAt (fun t => onAxis φ t p) (dTheta φ θ p) θ := by
  unfold onAxis dTheta
  have h1 := (((hasDerivAt_sin θ).mul_const (cos φ)).const_mul p.x)
  have h2 := (((hasDerivAt_sin θ).mul_const (sin φ)).const_mul p.y)
  have h3 := (hasDerivAt_cos θ).const_mul p.z
  have := (h1.add h2).add h3
  refine this.congr_deriv ?_
  ring

theorem copysign_one (d : ℝ) : copysign 1 d = if d < 0 then -1 else 1 := by
  unfold copysign; simp

theorem hasDerivAt_abs_comp {f : ℝ → ℝ} {f' t : ℝ} (h : HasDerivAt f f' t) (h0 : f t ≠ 0) :
    HasDerivAt (fun s => |f s|) (copysign 1 (f t) * f') t := by
  rw [copysign_one]
  rcases lt_or_gt_of_ne h0 with hn | hp
  · rw [if_pos hn]
    exact ((hasDerivAt_abs_neg hn).comp t h).congr_deriv (by ring)
  · rw [if_neg (not_lt.2 hp.le)]
    exact ((hasDerivAt_abs_pos hp).comp t h).congr_deriv (by ring)

theorem thrustLoop_ok (φ θ : ℝ) : ∀ (ps : List P4) (acc : ThrustAcc), (∀ p ∈ ps, Moving p) →
    thrustLoop φ θ acc ps = .ok
      { absDot := acc.absDot + sumOf (fun p => |onAxis φ θ p|) ps
        norm := acc.norm + sumOf norm3 ps
        gradPhi := acc.gradPhi + sumOf (fun p => copysign 1 (onAxis φ θ p) * dPhi φ θ p) ps
        gradTheta := acc.gradTheta + sumOf (fun p => copysign 1 (onAxis φ θ p) * dTheta φ θ p) ps } := by
  intro ps
  induction ps with
  | nil => intro acc _; simp [thrustLoop, sumOf]
  | cons p ps ih =>
    intro acc h
    have hd : sin θ * cos φ * p.x + sin θ * sin φ * p.y + cos θ * p.z = onAxis φ θ p := by
      unfold onAxis; ring
    simp only [thrustLoop, thrustStep, threeNorm_moving (h p (by simp)), hd]
    rw [ih _ (fun q hq => h q (by simp [hq]))]
    simp only [sumOf_cons, dPhi, dTheta]
    congr 2 <;> ring

theorem thrustLoop_err (φ θ : ℝ) : ∀ (ps : List P4) (acc : ThrustAcc), (∃ p ∈ ps, ¬ Moving p) →
    thrustLoop φ θ acc ps = .error .zeroDivisionError := by
  intro ps
  induction ps with
  | nil => intro acc h; simp at h
  | cons p ps ih =>
    intro acc h
    by_cases hp : Moving p
    · simp only [thrustLoop, thrustStep, threeNorm_moving hp]
      apply ih
      obtain ⟨q, hq, hn⟩ := h
      rcases List.mem_cons.1 hq with rfl | hq
      · exact absurd hp hn
      · exact ⟨q, hq, hn⟩
    · simp only [thrustLoop, thrustStep, threeNorm_still hp]

/-- `|p·n| ≤ |p|`. -/
theorem abs_onAxis_le (φ θ : ℝ) (p : P4) : |onAxis φ θ p| ≤ norm3 p := by
  apply abs_le_of_sq_le_sq _ (norm3_nonneg p)
  rw [norm3_sq]
  have h1 := sin_sq_add_cos_sq θ
  have h2 := sin_sq_add_cos_sq φ
  have hoff : p.x ^ 2 + p.y ^ 2 + p.z ^ 2 - onAxis φ θ p ^ 2 =
      (p.y * cos θ - p.z * (sin θ * sin φ)) ^ 2 + (p.z * (sin θ * cos φ) - p.x * cos θ) ^ 2 +
      (p.x * (sin θ * sin φ) - p.y * (sin θ * cos φ)) ^ 2 := by
    have hu : (sin θ * cos φ) ^ 2 + (sin θ * sin φ) ^ 2 + cos θ ^ 2 = 1 := by
      linear_combination h1 + sin θ ^ 2 * h2
    unfold onAxis
    linear_combination -(p.x ^ 2 + p.y ^ 2 + p.z ^ 2) * hu
  nlinarith [sq_nonneg (p.y * cos θ - p.z * (sin θ * sin φ)),
    sq_nonneg (p.z * (sin θ * cos φ) - p.x * cos θ),
    sq_nonneg (p.x * (sin θ * sin φ) - p.y * (sin θ * cos φ))]

/-! ## spherocity -/

theorem offAxis_sq (φ θ : ℝ) (p : P4) : offAxis φ θ p ^ 2 = norm3 p ^ 2 - onAxis φ θ p ^ 2 := by
  have h1 := sin_sq_add_cos_sq θ
  have h2 := sin_sq_add_cos_sq φ
  have hu : (sin θ * cos φ) ^ 2 + (sin θ * sin φ) ^ 2 + cos θ ^ 2 = 1 := by
    linear_combination h1 + sin θ ^ 2 * h2
  unfold offAxis
  rw [sq_sqrt (by positivity), norm3_sq]
  unfold onAxis
  linear_combination (p.x ^ 2 + p.y ^ 2 + p.z ^ 2) * hu

/-- Derivative of the distance from the axis. -/
theorem hasDerivAt_offAxis {f : ℝ → ℝ × ℝ} {t d : ℝ} {p : P4}
    (hd : HasDerivAt (fun s => onAxis (f s).1 (f s).2 p) d t) (h0 : 0 < offAxis (f t).1 (f t).2 p) :
    HasDerivAt (fun s => offAxis (f s).1 (f s).2 p)
      (-(onAxis (f t).1 (f t).2 p * d) / offAxis (f t).1 (f t).2 p) t := by
  have hoff : ∀ s, offAxis (f s).1 (f s).2 p = sqrt (norm3 p ^ 2 - onAxis (f s).1 (f s).2 p ^ 2) := by
    intro s
    rw [← offAxis_sq, sqrt_sq (show 0 ≤ offAxis (f s).1 (f s).2 p from sqrt_nonneg _)]
  simp only [hoff] at h0 ⊢
  have hne : norm3 p ^ 2 - onAxis (f t).1 (f t).2 p ^ 2 ≠ 0 := (sqrt_pos.1 h0).ne'
  have := ((hd.pow 2).const_sub (norm3 p ^ 2)).sqrt hne
  refine this.congr_deriv ?_
  simp only [Pi.pow_apply]
  field_simp
  norm_num
  ring

theorem sphLoop_ok (φ θ : ℝ) : ∀ (ps : List P4) (acc : SphAcc), (∀ p ∈ ps, 0 < offAxis φ θ p) →
    sphLoop φ θ acc ps = .ok
      { cross := acc.cross + sumOf (offAxis φ θ) ps
        norm := acc.norm + sumOf norm3 ps
        gradPhi := acc.gradPhi + sumOf (fun p => 2 * (-(onAxis φ θ p * dPhi φ θ p) / offAxis φ θ p)) ps
        gradTheta := acc.gradTheta + sumOf (fun p => 2 * (-(onAxis φ θ p * dTheta φ θ p) / offAxis φ θ p)
          + (-2 * cos (2 * θ) * cos φ * p.x * (p.y - p.z)) / offAxis φ θ p) ps } := by
  intro ps
  induction ps with
  | nil => intro acc _; simp [sphLoop, sumOf]
  | cons p ps ih =>
    intro acc h
    have h0 := h p (by simp)
    have hmov : Moving p := by
      by_contra hm
      unfold Moving at hm
      simp only [not_or, not_not] at hm
      unfold offAxis at h0
      rw [hm.1, hm.2.1, hm.2.2] at h0
      simp at h0
    have hcr : threeNorm (p.y * cos θ - p.z * (sin θ * sin φ)) (p.z * (sin θ * cos φ) - p.x * cos θ)
        (p.x * (sin θ * sin φ) - p.y * (sin θ * cos φ)) = .ok (offAxis φ θ p) := by
      apply threeNorm_ok
      by_contra hm
      simp only [not_or, not_not] at hm
      unfold offAxis at h0
      rw [hm.1, hm.2.1, hm.2.2] at h0
      simp at h0
    simp only [sphLoop, sphStep, threeNorm_moving hmov, hcr, pyDiv, h0.ne', if_false]
    rw [ih _ (fun q hq => h q (by simp [hq]))]
    simp only [sumOf_cons]
    have e1 : sin θ ^ 2 = 1 - cos θ ^ 2 := by have := sin_sq_add_cos_sq θ; linarith
    have e2 : sin φ ^ 2 = 1 - cos φ ^ 2 := by have := sin_sq_add_cos_sq φ; linarith
    congr 2
    · ring
    · ring
    · rw [← add_assoc]; congr 2
      have : (-2 * (2 * cos θ * cos θ - 1) * (p.x * p.y * cos φ + p.y * p.z * sin φ) -
          0.5 * (2 * cos θ * sin θ) * (p.x * p.x + p.y * p.y +
            (p.x * p.x - p.y * p.y) * (2 * cos φ * cos φ - 1) - 2 * p.z * p.z +
            2 * p.x * p.y * (2 * cos φ * sin φ))) =
          2 * -(onAxis φ θ p * dTheta φ θ p) + (-2 * cos (2 * θ) * cos φ * p.x * (p.y - p.z)) := by
        rw [cos_two_mul]
        unfold onAxis dTheta
        ring_nf
        rw [e1, e2]
        ring
      rw [this]; ring
    · rw [← add_assoc]; congr 2
      have : (0.5 * (2 * cos θ * cos θ - 1 - 1) * (2 * p.x * p.y * (2 * cos φ * cos φ - 1) -
          (p.x * p.x - p.y * p.y) * (2 * cos φ * sin φ)) -
          2 * cos θ * sin θ * (p.y * p.z * cos φ - p.x * p.z * sin φ)) =
          2 * -(onAxis φ θ p * dPhi φ θ p) := by
        unfold onAxis dPhi
        ring_nf
        rw [e1, e2]
        ring
      rw [this]; ring

end Gcl
