import Mathlib.Topology.Order.Basic
import Mathlib.Topology.Algebra.Order.LiminfLimsup
import Mathlib.Order.Interval.Set.Infinite
import Verif.Props.ShapeRot
/-! # C97, C115: the spherocity of the event, over all axes -/
namespace Gcl
set_option autoImplicit false
open Spec Real Matrix

/-- On a meridian a moving particle is parallel to the axis at finitely many inclinations only. -/
theorem parallel_finite (φ : ℝ) (p : P4) (hp : Moving p) :
    {θ : ℝ | θ ∈ Set.Icc (-(π / 2)) (π / 2) ∧ offAxis φ θ p = 0}.Finite := by
  have split : ∀ θ, offAxis φ θ p = 0 → p.y * cos θ - p.z * (sin θ * sin φ) = 0 ∧
      p.z * (sin θ * cos φ) - p.x * cos θ = 0 := by
    intro θ h
    unfold offAxis at h
    rw [sqrt_eq_zero (by positivity)] at h
    constructor <;> nlinarith [sq_nonneg (p.y * cos θ - p.z * (sin θ * sin φ)),
      sq_nonneg (p.z * (sin θ * cos φ) - p.x * cos θ), sq_nonneg (p.x * (sin θ * sin φ) - p.y * (sin θ * cos φ))]
  by_cases hne : ∃ θ₀, θ₀ ∈ Set.Icc (-(π / 2)) (π / 2) ∧ offAxis φ θ₀ p = 0
  · obtain ⟨θ₀, hb, h0⟩ := hne
    refine Set.Finite.subset (Set.toFinite {θ₀, θ₀ - π, θ₀ + π}) ?_
    rintro θ ⟨hb', h⟩
    obtain ⟨a1, a2⟩ := split θ h
    obtain ⟨b1, b2⟩ := split θ₀ h0
    have hD : sin (θ - θ₀) = 0 := by
      rw [sin_sub]
      set D := sin θ * cos θ₀ - cos θ * sin θ₀ with hDdef
      have e1 : p.z * sin φ * D = 0 := by rw [hDdef]; linear_combination cos θ * b1 - cos θ₀ * a1
      have e2 : p.z * cos φ * D = 0 := by rw [hDdef]; linear_combination cos θ₀ * a2 - cos θ * b2
      have e3 : p.z * D = 0 := by
        have := sin_sq_add_cos_sq φ
        linear_combination sin φ * e1 + cos φ * e2 - p.z * D * this
      have e4 : p.x * D = 0 := by rw [hDdef]; linear_combination sin θ₀ * a2 - sin θ * b2
      have e5 : p.y * D = 0 := by rw [hDdef]; linear_combination sin θ * b1 - sin θ₀ * a1
      rcases hp with h | h | h
      · exact (mul_eq_zero.1 e4).resolve_left h
      · exact (mul_eq_zero.1 e5).resolve_left h
      · exact (mul_eq_zero.1 e3).resolve_left h
    obtain ⟨k, hk⟩ := sin_eq_zero_iff.1 hD
    have hpi := pi_pos
    have k1 : (k : ℝ) * π ≤ π := by linarith [hb.1, hb'.2]
    have k2 : -π ≤ (k : ℝ) * π := by linarith [hb.2, hb'.1]
    have k1' : (k : ℝ) ≤ 1 := by
      by_contra hc
      push Not at hc
      nlinarith
    have k2' : (-1 : ℝ) ≤ k := by
      by_contra hc
      push Not at hc
      nlinarith
    have k1'' : k ≤ 1 := by exact_mod_cast k1'
    have k2'' : -1 ≤ k := by exact_mod_cast k2'
    have : k = -1 ∨ k = 0 ∨ k = 1 := by omega
    rcases this with rfl | rfl | rfl
    · right; left; push_cast at hk; linarith
    · left; push_cast at hk; linarith
    · right; right; push_cast at hk; simp only [Set.mem_singleton_iff]; linarith
  · refine Set.Finite.subset Set.finite_empty ?_
    rintro θ h
    exact hne ⟨θ, h⟩

theorem spherocityAt_continuous (ps : List P4) (φ : ℝ) : Continuous (fun θ => spherocityAt ps φ θ) := by
  have h1 : Continuous (fun θ => sumOf (offAxis φ θ) ps) := by
    induction ps with
    | nil => simpa [sumOf] using continuous_const
    | cons p ps ih =>
      have : (fun θ => sumOf (offAxis φ θ) (p :: ps)) = fun θ => offAxis φ θ p + sumOf (offAxis φ θ) ps := by
        funext θ; simp [sumOf]
      rw [this]
      refine Continuous.add ?_ ih
      unfold offAxis
      fun_prop
  unfold spherocityAt
  fun_prop

/-- Near every point of the box, on the same meridian, there are points of the box where no particle is parallel to the
axis. -/
theorem exists_clear (φ θ : ℝ) (hθ : θ ∈ Set.Icc (-(π / 2)) (π / 2)) (ps : List P4) (hmov : ∀ p ∈ ps, Moving p)
    (U : Set ℝ) (hU : IsOpen U) (hm : θ ∈ U) :
    ∃ θ' ∈ U, θ' ∈ Set.Icc (-(π / 2)) (π / 2) ∧ ∀ p ∈ ps, offAxis φ θ' p ≠ 0 := by
  have hpi := pi_pos
  obtain ⟨ε, hε, hball⟩ := Metric.isOpen_iff.1 hU θ hm
  have hbad : {θ' : ℝ | θ' ∈ Set.Icc (-(π / 2)) (π / 2) ∧ ∃ p ∈ ps, offAxis φ θ' p = 0}.Finite := by
    have : {θ' : ℝ | θ' ∈ Set.Icc (-(π / 2)) (π / 2) ∧ ∃ p ∈ ps, offAxis φ θ' p = 0} =
        ⋃ p ∈ {p | p ∈ ps}, {θ' : ℝ | θ' ∈ Set.Icc (-(π / 2)) (π / 2) ∧ offAxis φ θ' p = 0} := by
      ext x
      simp only [Set.mem_setOf_eq, Set.mem_iUnion, exists_prop]
      tauto
    rw [this]
    exact Set.Finite.biUnion (List.finite_toSet ps) (fun p hp => parallel_finite φ p (hmov p hp))
  have hinf : ∃ lo hi : ℝ, lo < hi ∧ Set.Ioo lo hi ⊆ Set.Icc (-(π / 2)) (π / 2) ∧ Set.Ioo lo hi ⊆ U := by
    by_cases h : θ < π / 2
    · refine ⟨θ, min (π / 2) (θ + ε), by simp [h, hε], fun x hx => ⟨by linarith [hx.1, hθ.1], ?_⟩, fun x hx => hball ?_⟩
      · exact hx.2.le.trans (min_le_left _ _)
      · rw [Metric.mem_ball, dist_eq, abs_lt]
        have := lt_of_lt_of_le hx.2 (min_le_right _ _)
        constructor <;> linarith [hx.1]
    · refine ⟨max (-(π / 2)) (θ - ε), θ, ?_, fun x hx => ⟨?_, by linarith [hx.2, hθ.2]⟩, fun x hx => hball ?_⟩
      · rw [max_lt_iff]; constructor <;> linarith
      · exact (le_max_left _ _).trans hx.1.le
      · rw [Metric.mem_ball, dist_eq, abs_lt]
        have := lt_of_le_of_lt (le_max_right (-(π / 2)) (θ - ε)) hx.1
        constructor <;> linarith [hx.2]
  obtain ⟨lo, hi, hlt, hsub1, hsub2⟩ := hinf
  obtain ⟨x, hx1, hx2⟩ := (Set.Ioo_infinite hlt).exists_notMem_finite hbad
  refine ⟨x, hsub2 hx1, hsub1 hx1, fun p hp h0 => hx2 ⟨hsub1 hx1, p, hp, h0⟩⟩

/-- **C97** (the spherocity of the event): if the value found is the least of the objective at the points of the box
where the objective has a value, it is the minimum over *all* unit vectors of `(4/π · Σ|p × n| / Σ|p|)²`: also of those
parallel to a particle, for which the objective raises. -/
theorem C97_global_spherocity (minimize : ℝ × ℝ → Opt) (hopt : Optimiser minimize) (guess : ℝ × ℝ)
    (returnAxis : Bool) (ps : List P4) (s : ℝ) (a : Option (ℝ × ℝ × ℝ))
    (hr : spherocity minimize guess returnAxis ps = .ok (s, a))
    (hbest : ∀ φ θ r, InDomain (φ, θ) → spherocityWithGrad φ θ ps = .ok r → s ≤ r.1) (n : ℝ × ℝ × ℝ) (hn : UnitVec n) :
    s ≤ spherocityAlong ps n := by
  have hguess : ∃ r, spherocityWithGrad guess.1 guess.2 ps = .ok r := by
    obtain ⟨next, h1, -⟩ := hopt guess
    unfold spherocity at hr
    rw [h1] at hr
    unfold Opt.run at hr
    cases hc : spherocityWithGrad guess.1 guess.2 ps with
    | ok r => exact ⟨r, rfl⟩
    | error e => simp only [hc] at hr; cases hr
  obtain ⟨hne, hoff⟩ := (C76_exact guess.1 guess.2 ps).2.2.1.1 hguess
  have hmov : ∀ p ∈ ps, Moving p := by
    intro p hp
    by_contra hm
    unfold Moving at hm
    simp only [not_or, not_not] at hm
    have := hoff p hp
    unfold offAxis at this
    rw [hm.1, hm.2.1, hm.2.2] at this
    simp at this
  have hclear : ∀ φ θ, InDomain (φ, θ) → (∀ p ∈ ps, offAxis φ θ p ≠ 0) → s ≤ spherocityAt ps φ θ := by
    intro φ θ hd hc
    obtain ⟨g1, g2, h3, -⟩ := C70_gradient φ θ ps hne
      (fun p hp => lt_of_le_of_ne (sqrt_nonneg _) (Ne.symm (hc p hp)))
    exact hbest φ θ _ hd h3
  have hall : ∀ φ θ, InDomain (φ, θ) → s ≤ spherocityAt ps φ θ := by
    intro φ θ hd
    by_contra hlt
    push Not at hlt
    obtain ⟨θ', h1, h2, h3⟩ := exists_clear φ θ ⟨hd.2.2.1, hd.2.2.2⟩ ps hmov {θ | spherocityAt ps φ θ < s}
      (isOpen_lt (spherocityAt_continuous ps φ) continuous_const) hlt
    exact absurd (hclear φ θ' ⟨hd.1, hd.2.1, h2.1, h2.2⟩ h3) (not_le.2 h1)
  obtain ⟨φ, θ, h1, h2, h3, h4, h5⟩ := C90_domain n.1 n.2.1 n.2.2 hn
  have hle := hall φ θ ⟨h1, h2, h3, h4⟩
  rw [← spherocityAlong_angles] at hle
  rcases h5 with h5 | h5
  · rw [h5] at hle; exact hle
  · rw [h5] at hle
    have : spherocityAlong ps (-n.1, -n.2.1, -n.2.2) = spherocityAlong ps n := by
      unfold spherocityAlong
      congr 3
      congr 1
      funext p
      congr 1
      ring
    rwa [this] at hle

/-- **C115** The spherocity reported for a rotated event: if both searches return, with the best value inside the bounds,
both report the same spherocity, whatever the rotation, the optimisers and the guesses. -/
theorem C115_spherocity (min₁ min₂ : ℝ × ℝ → Opt) (h₁ : Optimiser min₁) (h₂ : Optimiser min₂) (g₁ g₂ : ℝ × ℝ)
    (hg₁ : InDomain g₁) (hg₂ : InDomain g₂) (r₁ r₂ : Bool) (M : Matrix (Fin 3) (Fin 3) ℝ) (hM : Orthogonal M)
    (ps : List P4) (s s' : ℝ) (a a' : Option (ℝ × ℝ × ℝ)) (e₁ : spherocity min₁ g₁ r₁ ps = .ok (s, a))
    (e₂ : spherocity min₂ g₂ r₂ (ps.map (rotP4 M)) = .ok (s', a'))
    (b₁ : ∀ φ θ r, InDomain (φ, θ) → spherocityWithGrad φ θ ps = .ok r → s ≤ r.1)
    (b₂ : ∀ φ θ r, InDomain (φ, θ) → spherocityWithGrad φ θ (ps.map (rotP4 M)) = .ok r → s' ≤ r.1) : s = s' := by
  have get : ∀ (m : ℝ × ℝ → Opt) (_ : Optimiser m) (g : ℝ × ℝ) (_ : InDomain g) (r : Bool) (qs : List P4) (s : ℝ)
      (b : Option (ℝ × ℝ × ℝ)), spherocity m g r qs = .ok (s, b) → ∃ n, UnitVec n ∧ s = spherocityAlong qs n := by
    intro m hm g hg r qs s b hs
    rcases C97_spherocity m hm g hg r qs with ⟨n, hn, hv, -⟩ | ⟨he, -⟩
    · rw [hv] at hs
      injection hs with hs
      exact ⟨n, hn, (congrArg Prod.fst hs).symm⟩
    · rw [he] at hs
      cases hs
  obtain ⟨n, hn, q⟩ := get min₁ h₁ g₁ hg₁ r₁ ps s a e₁
  obtain ⟨n', hn', q'⟩ := get min₂ h₂ g₂ hg₂ r₂ _ s' a' e₂
  apply le_antisymm
  · have e := (C115_along M hM ps (rotVec Mᵀ n')).2
    rw [rotVec_inv hM] at e
    rw [q', e]
    exact C97_global_spherocity min₁ h₁ g₁ r₁ _ _ a e₁ b₁ _ ((rotVec_unit (orthogonal_transpose hM) n').2 hn')
  · rw [q, ← (C115_along M hM ps n).2]
    exact C97_global_spherocity min₂ h₂ g₂ r₂ _ _ a' e₂ b₂ _ ((rotVec_unit hM n).2 hn)

section Example
/-- Four particles around the beam axis. -/
noncomputable def exCone : List P4 := [⟨1 / 2, 0, 1, 2⟩, ⟨-(1 / 2), 0, 1, 2⟩, ⟨0, 1 / 2, 1, 2⟩, ⟨0, -(1 / 2), 1, 2⟩]

private theorem le_of_sq_le_sq {a b : ℝ} (h : a ^ 2 ≤ b ^ 2) (hb : 0 ≤ b) : a ≤ b := (le_abs_self a).trans (abs_le_of_sq_le_sq h hb)

private theorem pair_bound (b α β : ℝ) (hb : 0 ≤ b) :
    2 * sqrt (b + ((β - α) / 2) ^ 2) ≤ sqrt (b + α ^ 2) + sqrt (b + β ^ 2) := by
  have h1 : 0 ≤ b + α ^ 2 := by positivity
  have h2 : 0 ≤ b + β ^ 2 := by positivity
  have key : b - α * β ≤ sqrt ((b + α ^ 2) * (b + β ^ 2)) := by
    apply le_sqrt_of_sq_le
    nlinarith [mul_nonneg hb (sq_nonneg (α + β))]
  apply le_of_sq_le_sq _ (by positivity)
  rw [mul_pow, sq_sqrt (by positivity), add_sq, sq_sqrt h1, sq_sqrt h2, mul_assoc, ← sqrt_mul h1]
  nlinarith

private theorem cone_bound (x y z : ℝ) (h : x ^ 2 + y ^ 2 + z ^ 2 = 1) :
    1 ≤ sqrt (5 / 4 * y ^ 2 + (z / 2) ^ 2) + sqrt (5 / 4 * x ^ 2 + (z / 2) ^ 2) := by
  have hP : 0 ≤ 5 / 4 * y ^ 2 + (z / 2) ^ 2 := by positivity
  have hQ : 0 ≤ 5 / 4 * x ^ 2 + (z / 2) ^ 2 := by positivity
  apply le_of_sq_le_sq _ (by positivity)
  rw [add_sq, sq_sqrt hP, sq_sqrt hQ, mul_assoc, ← sqrt_mul hP]
  have hz : z ^ 2 = 1 - x ^ 2 - y ^ 2 := by linarith
  by_cases hS : 2 / 3 ≤ x ^ 2 + y ^ 2
  · have := sqrt_nonneg ((5 / 4 * y ^ 2 + (z / 2) ^ 2) * (5 / 4 * x ^ 2 + (z / 2) ^ 2))
    nlinarith
  · push Not at hS
    have key : 1 / 4 - 3 / 8 * (x ^ 2 + y ^ 2) ≤
        sqrt ((5 / 4 * y ^ 2 + (z / 2) ^ 2) * (5 / 4 * x ^ 2 + (z / 2) ^ 2)) := by
      apply le_sqrt_of_sq_le
      rw [div_pow, hz]
      have hX := sq_nonneg x
      have hY := sq_nonneg y
      generalize x ^ 2 = X at *
      generalize y ^ 2 = Y at *
      nlinarith [mul_nonneg hX hY, mul_nonneg (add_nonneg hX hY) (sub_nonneg.2 hS.le)]
    nlinarith

/-- The spherocity of `exCone` is least along the beam. -/
private theorem exCone_least (φ θ : ℝ) : spherocityAt exCone 0 0 ≤ spherocityAt exCone φ θ := by
  have h0 : sumOf (offAxis 0 0) exCone = 2 := by
    have e : sqrt ((1 / 2 : ℝ) ^ 2) = 1 / 2 := sqrt_sq (by norm_num)
    have e' : sqrt ((-(1 / 2) : ℝ) ^ 2) = 1 / 2 := by rw [neg_sq]; exact e
    simp only [sumOf, exCone, List.map_cons, List.map_nil, List.sum_cons, List.sum_nil, offAxis, sin_zero, cos_zero,
      zero_mul, mul_zero, mul_one, sub_zero, zero_sub, neg_neg, neg_sq, ne_eq, OfNat.ofNat_ne_zero, not_false_eq_true,
      zero_pow, add_zero, zero_add, e]
    norm_num
  have h1 : 2 ≤ sumOf (offAxis φ θ) exCone := by
    set x := sin θ * cos φ with hx
    set y := sin θ * sin φ with hy
    set z := cos θ with hz
    have hu : x ^ 2 + y ^ 2 + z ^ 2 = 1 := by
      rw [hx, hy, hz]; nlinarith [sin_sq_add_cos_sq φ, sin_sq_add_cos_sq θ]
    have b1 := pair_bound (5 / 4 * y ^ 2) (x - z / 2) (x + z / 2) (by positivity)
    have b2 := pair_bound (5 / 4 * x ^ 2) (y - z / 2) (y + z / 2) (by positivity)
    have b3 := cone_bound x y z hu
    have c1 : ((x + z / 2 - (x - z / 2)) / 2) ^ 2 = (z / 2) ^ 2 := by ring
    have c2 : ((y + z / 2 - (y - z / 2)) / 2) ^ 2 = (z / 2) ^ 2 := by ring
    rw [c1] at b1
    rw [c2] at b2
    have d : sumOf (offAxis φ θ) exCone = (sqrt (5 / 4 * y ^ 2 + (x - z / 2) ^ 2) + sqrt (5 / 4 * y ^ 2 + (x + z / 2) ^ 2)) +
        (sqrt (5 / 4 * x ^ 2 + (y - z / 2) ^ 2) + sqrt (5 / 4 * x ^ 2 + (y + z / 2) ^ 2)) := by
      simp only [sumOf, exCone, List.map_cons, List.map_nil, List.sum_cons, List.sum_nil, offAxis, ← hx, ← hy, ← hz]
      have f1 : (0 * z - 1 * y) ^ 2 + (1 * x - 1 / 2 * z) ^ 2 + (1 / 2 * y - 0 * x) ^ 2 =
        5 / 4 * y ^ 2 + (x - z / 2) ^ 2 := by ring
      have f2 : (0 * z - 1 * y) ^ 2 + (1 * x - -(1 / 2) * z) ^ 2 + (-(1 / 2) * y - 0 * x) ^ 2 =
        5 / 4 * y ^ 2 + (x + z / 2) ^ 2 := by ring
      have f3 : (1 / 2 * z - 1 * y) ^ 2 + (1 * x - 0 * z) ^ 2 + (0 * y - 1 / 2 * x) ^ 2 =
        5 / 4 * x ^ 2 + (y - z / 2) ^ 2 := by ring
      have f4 : (-(1 / 2) * z - 1 * y) ^ 2 + (1 * x - 0 * z) ^ 2 + (0 * y - -(1 / 2) * x) ^ 2 =
        5 / 4 * x ^ 2 + (y + z / 2) ^ 2 := by ring
      rw [f1, f2, f3, f4]
      ring
    rw [d]
    linarith
  have hN : 0 ≤ sumOf norm3 exCone := List.sum_nonneg (by
    intro v hv; obtain ⟨p, -, rfl⟩ := List.mem_map.1 hv; exact sqrt_nonneg _)
  have hpi := pi_pos
  unfold spherocityAt
  apply pow_le_pow_left₀
  · rw [h0]; positivity
  · apply div_le_div_of_nonneg_right _ hN
    apply mul_le_mul_of_nonneg_left (by rw [h0]; exact h1) (by positivity)

-- non-vacuity of `C97_global_spherocity`: four particles around the beam axis, the search finds the beam axis
example : ∃ s : ℝ, spherocity onePointOpt (0, 0) false exCone = .ok (s, none) ∧ InDomain (0, 0) ∧
    ∀ φ θ r, InDomain (φ, θ) → spherocityWithGrad φ θ exCone = .ok r → s ≤ r.1 := by
  have hoff : ∀ p ∈ exCone, 0 < offAxis 0 0 p := by
    intro p hp
    have : p.x ^ 2 + p.y ^ 2 = 1 / 4 := by
      simp only [exCone, List.mem_cons, List.not_mem_nil, or_false] at hp
      rcases hp with rfl | rfl | rfl | rfl <;> norm_num
    unfold offAxis
    apply sqrt_pos.2
    simp only [sin_zero, cos_zero, zero_mul, mul_zero, mul_one, sub_zero, zero_sub]
    nlinarith
  obtain ⟨g1, g2, e, -⟩ := C70_gradient 0 0 exCone (by simp [exCone]) hoff
  refine ⟨spherocityAt exCone 0 0, ?_, ?_, ?_⟩
  · simp [spherocity, onePointOpt, Opt.run, e]
  · have := pi_pos
    refine ⟨?_, ?_, ?_, ?_⟩ <;> simp only <;> linarith
  · intro φ θ r _ hr
    obtain ⟨h1, h2⟩ := (C76_exact φ θ exCone).2.2.1.1 ⟨r, hr⟩
    obtain ⟨g1', g2', e', -⟩ := C70_gradient φ θ exCone h1 (fun p hp => lt_of_le_of_ne (sqrt_nonneg _) (Ne.symm (h2 p hp)))
    rw [hr] at e'
    cases e'
    exact exCone_least φ θ

end Example

end Gcl
