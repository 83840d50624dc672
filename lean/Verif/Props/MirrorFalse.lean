import Verif.Props.MirrorSel
import Verif.Props.MirrorKt
/-! # C162: what a mirror shows to be wrong; cases that meet the hypotheses -/
namespace Gcl
set_option autoImplicit false
open Spec Real

theorem xy_arg_neg (e : ℝ) : (P4.xyPol ⟨-1, 0, 0, e⟩).arg = π := by
  have : P4.xyPol ⟨-1, 0, 0, e⟩ = ((-1 : ℝ) : ℂ) := by apply Complex.ext <;> simp [P4.xyPol]
  rw [this, Complex.arg_ofReal_of_neg (by norm_num)]

theorem xy_arg_up (e : ℝ) : (P4.xyPol ⟨0, 1, 0, e⟩).arg = π / 2 := by
  have : P4.xyPol ⟨0, 1, 0, e⟩ = Complex.I := by apply Complex.ext <;> simp [P4.xyPol]
  rw [this, Complex.arg_I]

theorem xy_arg_down (e : ℝ) : (P4.xyPol ⟨0, -1, 0, e⟩).arg = -(π / 2) := by
  have : P4.xyPol ⟨0, -1, 0, e⟩ = -Complex.I := by apply Complex.ext <;> simp [P4.xyPol]
  rw [this, Complex.arg_neg_I]

theorem arg_cs {t : ℝ} (h1 : -π < t) (h2 : t ≤ π) : Complex.arg ⟨cos t, sin t⟩ = t := by
  have : (⟨cos t, sin t⟩ : ℂ) = Complex.cos t + Complex.sin t * Complex.I := by
    apply Complex.ext <;> simp [Complex.cos_ofReal_re, Complex.sin_ofReal_re]
  rw [this, Complex.arg_cos_add_sin_mul_I ⟨h1, h2⟩]

/-- **C162** False: that `weighted_centroid` of a mirrored event is the mirrored centroid.  With a particle on the half turn it is
not: the azimuth `3π/4` becomes `π/4`. -/
theorem C162_false {tol : ℝ} (h1 : tol < 1) :
    ∃ r, weightedCentroid tol [⟨-1, 0, 0, 1⟩, ⟨0, 1, 0, 1⟩] true = .ok (r, .fin (3 * π / 4)) ∧
      weightedCentroid tol ([⟨-1, 0, 0, 1⟩, ⟨0, 1, 0, 1⟩].map flipY) true = .ok (r, .fin (π / 4)) := by
  have p1 : P4.pt ⟨-1, 0, 0, 1⟩ = 1 := by rw [pt_eq]; norm_num
  have p2 : P4.pt ⟨0, 1, 0, 1⟩ = 1 := by rw [pt_eq]; norm_num
  have p3 : P4.pt ⟨0, -1, 0, 1⟩ = 1 := by rw [pt_eq]; norm_num
  have f1 : P4.phi tol ⟨-1, 0, 0, 1⟩ = .fin π := by
    unfold P4.phi; rw [p1, if_neg (by simpa using h1), xy_arg_neg]
  have f2 : P4.phi tol ⟨0, 1, 0, 1⟩ = .fin (π / 2) := by
    unfold P4.phi; rw [p2, if_neg (by simpa using h1), xy_arg_up]
  have f3 : P4.phi tol ⟨0, -1, 0, 1⟩ = .fin (-(π / 2)) := by
    unfold P4.phi; rw [p3, if_neg (by simpa using h1), xy_arg_down]
  have e0 : ∀ p : P4, p.z = 0 → p.pt = 1 → p.eta = .fin 0 := by
    intro p hz hp
    obtain ⟨h, g1, g2, -⟩ := (C89_eta p).1 (by rw [hp]; exact one_pos)
    rw [hz, hp, one_mul] at g2
    rw [g1, sinh_eq_zero.1 g2.symm]
  have e1 := e0 _ rfl p1
  have e2 := e0 _ rfl p2
  have e3 := e0 _ rfl p3
  have hpi := pi_pos
  have hm : [(⟨-1, 0, 0, 1⟩ : P4), ⟨0, 1, 0, 1⟩].map flipY = [⟨-1, 0, 0, 1⟩, ⟨0, -1, 0, 1⟩] := by simp [flipY]
  rw [hm]
  unfold weightedCentroid
  simp only [List.map_cons, List.map_nil, p1, p2, p3, f1, f2, f3, e1, e2, e3, List.sum_cons, List.sum_nil, flSum, Fl.mulR, Fl.addF, if_true]
  norm_num [Fl.divR, phaseRect]
  rw [show (π + π / 2) / 2 = 3 * π / 4 by ring, show (π + -(π / 2)) / 2 = π / 4 by ring, arg_cs (by linarith) (by linarith),
    arg_cs (by linarith) (by linarith)]
  exact ⟨_, ⟨rfl, rfl⟩, ⟨rfl, rfl⟩⟩

/-- **C162** False: that the gradient of the objective of `spherocity` is mirrored like that of `thrust` (its formula is wrong, see
C70).  Here the derivative by the inclination, which should change sign, is the same on both sides. -/
theorem C162_false_gradient : ∃ v a a' b : ℝ, b ≠ 0 ∧
    spherocityWithGrad 0 0 [⟨1, 1, 0, 2⟩] = .ok (v, a, b) ∧
    spherocityWithGrad (flipAxis true 0 0).1 (flipAxis true 0 0).2 ([⟨1, 1, 0, 2⟩].map flipZ) = .ok (v, a', b) := by
  have hn : threeNorm 1 1 0 = .ok (√2) := by rw [threeNorm_ok (by norm_num)]; norm_num
  have hn' : threeNorm 1 (-1) 0 = .ok (√2) := by rw [threeNorm_ok (by norm_num)]; norm_num
  have hn'' : threeNorm (-1) 1 0 = .ok (√2) := by rw [threeNorm_ok (by norm_num)]; norm_num
  have h2 : √2 ≠ 0 := by positivity
  have hp := pi_ne_zero
  have hm : [(⟨1, 1, 0, 2⟩ : P4)].map flipZ = [⟨1, 1, 0, 2⟩] := by simp [flipZ]
  rw [hm]
  have key : ∀ θ, sin θ = 0 → cos θ ^ 2 = 1 → spherocityWithGrad 0 θ [⟨1, 1, 0, 2⟩] =
      .ok ((4 / (π * √2)) ^ 2 * √2 * √2, 0, (4 / (π * √2)) ^ 2 * √2 * (1 / √2 * -2)) := by
    intro θ hs hc
    have hcc : 2 * cos θ * cos θ - 1 = 1 := by linear_combination 2 * hc
    have hx : threeNorm (1 * cos θ - 0 * (sin θ * sin 0)) (0 * (sin θ * cos 0) - 1 * cos θ)
        (1 * (sin θ * sin 0) - 1 * (sin θ * cos 0)) = .ok (√2) := by
      rw [threeNorm_congr (x' := 1) (y' := 1) (z' := 0) (by simp [hc]) (by simp [hc]) (by simp [hs]), hn]
    unfold spherocityWithGrad
    simp only [sphLoop, sphStep, hn, hx, pyDiv, if_neg h2, hcc]
    simp only [hs]
    rw [if_neg (by simp [hp])]
    simp
  refine ⟨_, _, _, _, ?_, key 0 (by simp) (by simp), key (π - 0) (by simp) (by simp)⟩
  positivity

/-- Non-vacuity: two records for which every condition of this property holds, and neither mirror leaves them as they are. -/
example : (∀ p ∈ [(⟨1, 2, 3, 4⟩ : P4), ⟨-2, 1, 0, 3⟩], Lively 1 p ∧ OffCut p ∧ flipZ p ∈ [(⟨1, 2, -3, 4⟩ : P4), ⟨-2, 1, 0, 3⟩]) ∧
    flipY ⟨1, 2, 3, 4⟩ ≠ ⟨1, 2, 3, 4⟩ := by
  constructor
  · intro p hp
    simp only [List.mem_cons, List.not_mem_nil, or_false] at hp
    rcases hp with rfl | rfl
    · exact ⟨Or.inl (by norm_num), Or.inl (by norm_num), by simp [flipZ]⟩
    · exact ⟨Or.inr (by norm_num), Or.inl (by norm_num), by simp [flipZ]⟩
  · simp only [flipY, ne_eq, P4.mk.injEq, not_and]
    norm_num

end Gcl
