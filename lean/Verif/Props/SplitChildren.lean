import Verif.Props.SoftHard
/-!
# C149: what the children of a split are

The documentation of `split_momentum` calls `angle` the angular displacement of the first child, and `split_hardest` is meant
to split physical particles without changing what an infrared and collinear safe observable sees.  Here is what the two
children are, for every axis.
-/
namespace Gcl
set_option autoImplicit false
open Real Spec
open scoped Matrix

/-- The angle between two 3-momenta, in `[0, π]`. -/
noncomputable def Spec.opening (p q : P4) : ℝ := arccos (dot3 p q / (norm3 p * norm3 q))

theorem split_dot {p c0 c1 : P4} {z angle : ℝ} {a : SphericalAngle} (h : IsSplit p z angle a c0 c1) :
    dot3 c0 p = z * (norm3 p ^ 2 - (1 - cos angle) * offAxis a.phi a.theta p ^ 2) := by
  have h4 := h.2.2.2
  rw [C80_rodrigues] at h4
  have e0 := congrFun h4 0
  have e1 := congrFun h4 1
  have e2 := congrFun h4 2
  simp [cross_apply, unitAxis, dotProduct, Fin.sum_univ_three] at e0 e1 e2
  rw [offAxis_sq, norm3_sq]
  unfold dot3 onAxis
  rw [e0, e1, e2]
  ring

theorem split_is {p c0 c1 : P4} {z angle : ℝ} {a : SphericalAngle}
    (h : splitMomentum [p] z angle a = .ok [c0, c1]) : IsSplit p z angle a c0 c1 := by
  obtain ⟨d0, d1, h1, h2, -⟩ := C82_split p z angle a
  rw [h1] at h
  injection h with h; injection h with ha hb; injection hb with hb
  subst ha hb; exact h2

theorem split_cos {p c0 c1 : P4} {z angle : ℝ} {a : SphericalAngle} (hp : Moving p) (hz : 0 < z)
    (h : IsSplit p z angle a c0 c1) :
    dot3 c0 p / (norm3 c0 * norm3 p) = cos angle + (1 - cos angle) * (onAxis a.phi a.theta p / norm3 p) ^ 2 := by
  have hn : norm3 p ≠ 0 := (norm3_pos hp).ne'
  rw [split_dot h, h.2.2.1, abs_of_pos hz, offAxis_sq]
  field_simp
  ring

/-- **C149** The angle between the first child and its parent: its cosine lies between that of `angle` and one, by the share
of the parent's 3-momentum along the axis. -/
theorem C149_turn (p c0 c1 : P4) (z angle : ℝ) (a : SphericalAngle) (hp : Moving p) (hz : 0 < z)
    (h : splitMomentum [p] z angle a = .ok [c0, c1]) :
    cos (opening c0 p) = cos angle + (1 - cos angle) * (onAxis a.phi a.theta p / norm3 p) ^ 2 ∧
    cos angle ≤ cos (opening c0 p) ∧ (0 ≤ angle → opening c0 p ≤ angle) := by
  have hc := split_cos hp hz (split_is h)
  have hn := norm3_pos hp
  have hle : cos angle ≤ dot3 c0 p / (norm3 c0 * norm3 p) := by
    rw [hc]; have := cos_le_one angle
    have := mul_nonneg (sub_nonneg.2 this) (sq_nonneg (onAxis a.phi a.theta p / norm3 p)); linarith
  have h1 : dot3 c0 p / (norm3 c0 * norm3 p) ≤ 1 := by
    have hs : (onAxis a.phi a.theta p / norm3 p) ^ 2 ≤ 1 := by
      rw [div_pow, div_le_one (by positivity)]
      have := offAxis_sq a.phi a.theta p
      nlinarith [sq_nonneg (offAxis a.phi a.theta p)]
    rw [hc]; have := cos_le_one angle; nlinarith
  have hcos : cos (opening c0 p) = dot3 c0 p / (norm3 c0 * norm3 p) :=
    cos_arccos (by linarith [neg_one_le_cos angle]) h1
  refine ⟨by rw [hcos, hc], by rw [hcos]; exact hle, fun h0 => ?_⟩
  by_cases hpi : angle ≤ π
  · calc opening c0 p ≤ arccos (cos angle) := arccos_le_arccos hle
      _ = angle := arccos_cos h0 hpi
  · exact (arccos_le_pi _).trans (le_of_not_ge hpi)

/-- **C149** For which axes `angle` is the displacement of the first child: those perpendicular to the parent. -/
theorem C149_angle (p c0 c1 : P4) (z angle : ℝ) (a : SphericalAngle) (hp : Moving p) (hz : 0 < z)
    (hα : 0 ≤ angle ∧ angle ≤ π) (h : splitMomentum [p] z angle a = .ok [c0, c1]) :
    opening c0 p = angle ↔ angle = 0 ∨ onAxis a.phi a.theta p = 0 := by
  have hn := norm3_pos hp
  obtain ⟨h1, h2, h3⟩ := C149_turn p c0 c1 z angle a hp hz h
  constructor
  · intro he
    rw [he] at h1
    have hz0 : (1 - cos angle) * (onAxis a.phi a.theta p / norm3 p) ^ 2 = 0 := by linarith
    rcases mul_eq_zero.1 hz0 with hc | hc
    · left
      have : cos angle = cos 0 := by rw [cos_zero]; linarith
      exact injOn_cos ⟨hα.1, hα.2⟩ ⟨le_rfl, pi_pos.le⟩ this
    · right
      have := pow_eq_zero_iff (two_ne_zero) |>.1 hc
      exact (div_eq_zero_iff.1 this).resolve_right hn.ne'
  · intro he
    refine injOn_cos ⟨arccos_nonneg _, arccos_le_pi _⟩ hα ?_
    change cos (opening c0 p) = cos angle
    rw [h1]
    rcases he with he | he
    · rw [he]; simp
    · rw [he]; simp

/-- **C149** The masses: the first child has the parent's times `z`; the squared mass of the second is lowered by what the turn
takes out of the 3-momentum across the axis. -/
theorem C149_mass (p c0 c1 : P4) (z angle : ℝ) (a : SphericalAngle)
    (h : splitMomentum [p] z angle a = .ok [c0, c1]) :
    mdot c0 c0 = z ^ 2 * mdot p p ∧
    mdot c1 c1 = (1 - z) ^ 2 * mdot p p - 2 * z * (1 - cos angle) * offAxis a.phi a.theta p ^ 2 := by
  have hs := split_is h
  have hd := split_dot hs
  have hc : mdot c0 c0 = z ^ 2 * mdot p p := by
    have h3 := hs.2.2.1
    have : norm3 c0 ^ 2 = z ^ 2 * norm3 p ^ 2 := by rw [h3, mul_pow, sq_abs]
    rw [norm3_sq, norm3_sq] at this
    unfold mdot; rw [hs.2.1]; linear_combination -this
  refine ⟨hc, ?_⟩
  have h1 := hs.1
  have hx : c1.x = p.x - c0.x := by rw [← h1]; simp [padd]
  have hy : c1.y = p.y - c0.y := by rw [← h1]; simp [padd]
  have hzz : c1.z = p.z - c0.z := by rw [← h1]; simp [padd]
  have he : c1.e = p.e - c0.e := by rw [← h1]; simp [padd]
  rw [norm3_sq] at hd
  unfold mdot at hc ⊢
  unfold dot3 at hd
  rw [hx, hy, hzz, he]
  rw [hs.2.1] at hc ⊢
  linear_combination hc + 2 * hd

/-- **C149** The second child has a non-negative mass exactly if the parent's squared mass pays for the turn. -/
theorem C149_physical (p c0 c1 : P4) (z angle : ℝ) (a : SphericalAngle)
    (h : splitMomentum [p] z angle a = .ok [c0, c1]) :
    0 ≤ c1.mass ↔ 2 * z * (1 - cos angle) * offAxis a.phi a.theta p ^ 2 ≤ (1 - z) ^ 2 * (p.mass * |p.mass|) := by
  have hm := (C149_mass p c0 c1 z angle a h).2
  rw [← mass_signed, ← mass_signed] at hm
  have hsg : 0 ≤ c1.mass ↔ 0 ≤ c1.mass * |c1.mass| := by
    constructor
    · intro h0; positivity
    · intro h0; by_contra hlt; push Not at hlt
      have := abs_pos.2 hlt.ne
      nlinarith
  rw [hsg, hm, sub_nonneg]

/-- **C149** Refuted: that the children of a physical particle are physical.  A massless particle that is split at an angle
about an axis it does not lie on has a second child of negative mass. -/
theorem C149_massless_false (p c0 c1 : P4) (z angle : ℝ) (a : SphericalAngle) (hm : p.mass = 0) (hz : 0 < z)
    (hα : 0 < angle ∧ angle ≤ π) (ho : offAxis a.phi a.theta p ≠ 0)
    (h : splitMomentum [p] z angle a = .ok [c0, c1]) : c1.mass < 0 := by
  rw [← not_le, C149_physical p c0 c1 z angle a h, hm]
  have hc : cos angle < 1 := by
    rw [← cos_zero]; exact cos_lt_cos_of_nonneg_of_le_pi le_rfl hα.2 hα.1
  have : 0 < 2 * z * (1 - cos angle) * offAxis a.phi a.theta p ^ 2 := by
    have : 0 < 1 - cos angle := by linarith
    positivity
  simp; linarith

/-- **C149** Refuted: the documentation of `split_hardest` for the default axis.  Of two massless particles, the hardest
is split at every angle in `(0, π]` and with every fraction: its first child is displaced by less than `angle` and its second
has a negative mass. -/
theorem C149_default_false : ∃ soft hard : P4, soft.mass = 0 ∧ hard.mass = 0 ∧ 0 < soft.e ∧ 0 < hard.e ∧
    ∀ z angle : ℝ, 0 < z ∧ z ≤ 1 / 2 → 0 < angle ∧ angle ≤ π →
      ∃ c0 c1, splitHardest [soft, hard] z angle none = .ok [soft, c0, c1] ∧ opening c0 hard < angle ∧ c1.mass < 0 := by
  have hm : ∀ p : P4, mdot p p = 0 → p.mass = 0 := by
    intro p hp
    have := mass_signed p
    rw [hp] at this
    rcases mul_eq_zero.1 this with h | h
    · exact h
    · exact abs_eq_zero.1 h
  have hs0 : P4.mass ⟨1, 0, 0, 1⟩ = 0 := hm _ (by unfold mdot; norm_num)
  have hh0 : P4.mass ⟨0, 3, 4, 5⟩ = 0 := hm _ (by unfold mdot; norm_num)
  have hps : P4.pt ⟨1, 0, 0, 1⟩ = 1 := by rw [pt_eq]; norm_num
  have hph : P4.pt ⟨0, 3, 4, 5⟩ = 3 := by
    rw [pt_eq]; norm_num
    rw [show (9 : ℝ) = 3 ^ 2 by norm_num]; exact sqrt_sq (by norm_num)
  have e1 : argmin ([⟨1, 0, 0, 1⟩, ⟨0, 3, 4, 5⟩] |>.map P4.pt) = .ok 0 := by
    simp only [List.map_cons, List.map_nil, hps, hph, argmin, argminFrom]
    norm_num
  have e2 : argmax ([⟨1, 0, 0, 1⟩, ⟨0, 3, 4, 5⟩] |>.map P4.pt) = .ok 1 := by
    obtain ⟨a, m, h1, h2, h3⟩ := argmax_spec ([⟨1, 0, 0, 1⟩, ⟨0, 3, 4, 5⟩] |>.map P4.pt) (by simp)
    rw [h1]
    simp only [List.map_cons, List.map_nil, hps, hph] at h2 h3
    rcases a with _ | _ | a
    · have := (h3 1 3 rfl).1
      simp at h2
      rw [← h2] at this
      norm_num at this
    · rfl
    · simp at h2
  have eax : softHardAxis [⟨1, 0, 0, 1⟩, ⟨0, 3, 4, 5⟩] = .ok (axisToAngles (0, -4, 3)) := by
    unfold softHardAxis
    rw [e1, e2]
    simp [cross3]
  have hon : onAxis (axisToAngles (0, -4, 3)).phi (axisToAngles (0, -4, 3)).theta ⟨0, 3, 4, 5⟩ = 7 / 5 := by
    obtain ⟨t, l, φ, h1, h2, h3, h4, h5, h6, _⟩ := C81_roundtrip 0 (-4) 3 (by norm_num)
    have ht : t = 4 := by
      rw [h1, show (0 : ℝ) ^ 2 + (-4) ^ 2 = 4 ^ 2 by norm_num]; exact sqrt_sq (by norm_num)
    have hl : l = 5 := by
      rw [h2, show (0 : ℝ) ^ 2 + (-4) ^ 2 + 3 ^ 2 = 5 ^ 2 by norm_num]; exact sqrt_sq (by norm_num)
    have hsin : sin φ = -1 := by rw [ht] at h5; linarith
    rw [ht, hl, hsin] at h6
    unfold SphericalAngle.toAxis anglesToAxis at h6
    simp only [Prod.mk.injEq] at h6
    unfold onAxis
    rw [h6.2.1, h6.2.2]; norm_num
  have hn : norm3 ⟨0, 3, 4, 5⟩ ^ 2 = 25 := by rw [norm3_sq]; norm_num
  have hmv : Moving ⟨0, 3, 4, 5⟩ := by simp [Moving]
  refine ⟨⟨1, 0, 0, 1⟩, ⟨0, 3, 4, 5⟩, hs0, hh0, by norm_num, by norm_num, fun z angle hz hα => ?_⟩
  obtain ⟨c0, c1, hsp, -, -⟩ := C82_split ⟨0, 3, 4, 5⟩ z angle (axisToAngles (0, -4, 3))
  refine ⟨c0, c1, ?_, ?_, ?_⟩
  · unfold splitHardest
    simp only [not_true_eq_false, hz.1, hz.2, and_self, if_false, List.length_cons, List.length_nil, eax, e2]
    simp [hsp]
  · refine lt_of_le_of_ne ((C149_turn _ c0 c1 z angle _ hmv hz.1 hsp).2.2 hα.1.le) fun he => ?_
    rcases (C149_angle _ c0 c1 z angle _ hmv hz.1 ⟨hα.1.le, hα.2⟩ hsp).1 he with h | h
    · exact hα.1.ne' h
    · rw [hon] at h; norm_num at h
  · refine C149_massless_false _ c0 c1 z angle _ hh0 hz.1 hα (fun h => ?_) hsp
    have := offAxis_sq (axisToAngles (0, -4, 3)).phi (axisToAngles (0, -4, 3)).theta ⟨0, 3, 4, 5⟩
    rw [h, hon, hn] at this; norm_num at this

/-- Non-vacuity: a heavy particle at `(0, 0, 3)` split about the `x` axis, which is perpendicular to it. -/
example : ∃ c0 c1, splitMomentum [⟨0, 0, 3, 5⟩] (1 / 4) 1 ⟨π / 2, 0⟩ = .ok [c0, c1] ∧ opening c0 ⟨0, 0, 3, 5⟩ = 1 ∧
    Moving ⟨0, 0, 3, 5⟩ := by
  obtain ⟨c0, c1, hsp, -, -⟩ := C82_split ⟨0, 0, 3, 5⟩ (1 / 4) 1 ⟨π / 2, 0⟩
  have hmv : Moving ⟨0, 0, 3, 5⟩ := by simp [Moving]
  refine ⟨c0, c1, hsp, ?_, hmv⟩
  rw [C149_angle _ c0 c1 _ 1 _ hmv (by norm_num) ⟨by norm_num, by linarith [two_le_pi]⟩ hsp]
  right; simp [onAxis]

end Gcl
