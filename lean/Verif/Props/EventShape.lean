import Verif.Lemmas.EventShape
/-!
# C69–C71, C76, C90: event shapes
-/
namespace Gcl
set_option autoImplicit false
open Real Spec

/-- **C69** For every axis and every non-empty set of moving particles the objective is the (negated)
thrust with respect to that axis, which lies in `[0, 1]`; and wherever no particle is perpendicular to the
axis, the (negated) returned gradient is its derivative with respect to azimuth and inclination. -/
theorem C69_thrust (φ θ : ℝ) (ps : List P4) (hne : ps ≠ []) (hmov : ∀ p ∈ ps, Moving p) :
    ∃ g1 g2, thrustWithGrad φ θ ps = .ok (-thrustAt ps φ θ, -g1, -g2) ∧
      0 ≤ thrustAt ps φ θ ∧ thrustAt ps φ θ ≤ 1 ∧
      ((∀ p ∈ ps, onAxis φ θ p ≠ 0) →
        HasDerivAt (fun t => thrustAt ps t θ) g1 φ ∧ HasDerivAt (fun t => thrustAt ps φ t) g2 θ) := by
  have hpos := sumOf_norm_pos hne hmov
  refine ⟨sumOf (fun p => copysign 1 (onAxis φ θ p) * dPhi φ θ p) ps / sumOf norm3 ps,
    sumOf (fun p => copysign 1 (onAxis φ θ p) * dTheta φ θ p) ps / sumOf norm3 ps, ?_, ?_, ?_, ?_⟩
  · unfold thrustWithGrad
    rw [thrustLoop_ok φ θ ps _ hmov]
    simp only [zero_add, pyDiv, hpos.ne', if_false]
    rfl
  · exact div_nonneg (sumOf_nonneg (fun p => abs_nonneg _) ps) hpos.le
  · rw [thrustAt, div_le_one hpos]
    exact sumOf_le (fun p => abs_onAxis_le φ θ p) ps
  · intro h0
    constructor
    · apply HasDerivAt.div_const
      exact hasDerivAt_sumOf (f := fun s p => |onAxis s θ p|) ps
        (fun p hp => hasDerivAt_abs_comp (hasDerivAt_onAxis_phi φ θ p) (h0 p hp))
    · apply HasDerivAt.div_const
      exact hasDerivAt_sumOf (f := fun s p => |onAxis φ s p|) ps
        (fun p hp => hasDerivAt_abs_comp (hasDerivAt_onAxis_theta φ θ p) (h0 p hp))

/-- **C69** The thrust does not change under overall scaling or reordering of the momenta. -/
theorem C69_invariant (φ θ c : ℝ) (hc : 0 < c) (ps qs : List P4) :
    thrustAt (ps.map (scale c)) φ θ = thrustAt ps φ θ ∧
    (ps.Perm qs → thrustAt ps φ θ = thrustAt qs φ θ) := by
  constructor
  · unfold thrustAt
    rw [sumOf_map, sumOf_map]
    have h1 : ∀ p : P4, |onAxis φ θ (scale c p)| = c * |onAxis φ θ p| := by
      intro p
      rw [show onAxis φ θ (scale c p) = c * onAxis φ θ p by unfold onAxis scale; ring, abs_mul,
        abs_of_pos hc]
    have h2 : ∀ p : P4, norm3 (scale c p) = c * norm3 p := by
      intro p
      unfold norm3 scale
      rw [show (c * p.x) ^ 2 + (c * p.y) ^ 2 + (c * p.z) ^ 2 = c ^ 2 * (p.x ^ 2 + p.y ^ 2 + p.z ^ 2) by
        ring, sqrt_mul (by positivity), sqrt_sq hc.le]
    simp only [h1, h2, sumOf_mul_left]
    rw [mul_div_mul_left _ _ hc.ne']
  · intro h
    unfold thrustAt
    rw [sumOf_perm _ h, sumOf_perm _ h]

-- non-vacuity: two particles, an axis neither is perpendicular to
example : (∀ p ∈ ([⟨1, 0, 2, 3⟩, ⟨0, 1, -1, 2⟩] : List P4), Moving p) ∧
    (∀ p ∈ ([⟨1, 0, 2, 3⟩, ⟨0, 1, -1, 2⟩] : List P4), onAxis 0 0 p ≠ 0) := by
  constructor
  · intro p hp
    simp at hp
    rcases hp with rfl | rfl <;> simp [Moving]
  · intro p hp
    simp at hp
    rcases hp with rfl | rfl <;> simp [onAxis]

/-- **C70** For every axis no particle is parallel to, the spherocity objective is the spherocity; the
azimuth component of the gradient is its derivative, and the inclination component is wrong by exactly
the term in which the code has `x*y` for `x*z`. -/
theorem C70_gradient (φ θ : ℝ) (ps : List P4) (hne : ps ≠ [])
    (hoff : ∀ p ∈ ps, 0 < offAxis φ θ p) :
    ∃ g1 g2, spherocityWithGrad φ θ ps = .ok (spherocityAt ps φ θ, g1,
        g2 + (4 / π / sumOf norm3 ps) ^ 2 * sumOf (offAxis φ θ) ps *
          sumOf (fun p => -2 * cos (2 * θ) * cos φ * p.x * (p.y - p.z) / offAxis φ θ p) ps) ∧
      HasDerivAt (fun t => spherocityAt ps t θ) g1 φ ∧
      HasDerivAt (fun t => spherocityAt ps φ t) g2 θ := by
  have hmov : ∀ p ∈ ps, Moving p := by
    intro p hp
    have h0 := hoff p hp
    by_contra hm
    unfold Moving at hm
    simp only [not_or, not_not] at hm
    unfold offAxis at h0
    rw [hm.1, hm.2.1, hm.2.2] at h0
    simp at h0
  have hpos := sumOf_norm_pos hne hmov
  have hpi := pi_pos
  set N := sumOf norm3 ps with hN
  set C := sumOf (offAxis φ θ) ps with hC
  have hd1 : HasDerivAt (fun t => sumOf (offAxis t θ) ps)
      (sumOf (fun p => -(onAxis φ θ p * dPhi φ θ p) / offAxis φ θ p) ps) φ :=
    hasDerivAt_sumOf (f := fun t => offAxis t θ) ps (fun p hp =>
      hasDerivAt_offAxis (f := fun t => (t, θ)) (hasDerivAt_onAxis_phi φ θ p) (hoff p hp))
  have hd2 : HasDerivAt (fun t => sumOf (offAxis φ t) ps)
      (sumOf (fun p => -(onAxis φ θ p * dTheta φ θ p) / offAxis φ θ p) ps) θ :=
    hasDerivAt_sumOf (f := fun t => offAxis φ t) ps (fun p hp =>
      hasDerivAt_offAxis (f := fun t => (φ, t)) (hasDerivAt_onAxis_theta φ θ p) (hoff p hp))
  refine ⟨(4 / π / N) ^ 2 * C *
      (2 * sumOf (fun p => -(onAxis φ θ p * dPhi φ θ p) / offAxis φ θ p) ps),
    (4 / π / N) ^ 2 * C *
      (2 * sumOf (fun p => -(onAxis φ θ p * dTheta φ θ p) / offAxis φ θ p) ps), ?_, ?_, ?_⟩
  · unfold spherocityWithGrad
    rw [sphLoop_ok φ θ ps _ hoff]
    simp only [zero_add, ← hN, ← hC]
    have hz : π * N ≠ 0 := by positivity
    simp only [pyDiv, hz, if_false, spherocityAt, ← hN, ← hC]
    rw [show 4 / (π * N) = 4 / π / N by field_simp]
    congr 2
    · field_simp
    · congr 1
      · rw [sumOf_mul_left]
      · rw [sumOf_add, sumOf_mul_left]; ring
  · have := ((hd1.const_mul (4 / π)).div_const N).pow 2
    refine this.congr_deriv ?_
    simp only [← hC, Nat.cast_ofNat, show 2 - 1 = 1 from rfl, pow_one]
    generalize sumOf _ ps = D
    ring
  · have := ((hd2.const_mul (4 / π)).div_const N).pow 2
    refine this.congr_deriv ?_
    simp only [← hC, Nat.cast_ofNat, show 2 - 1 = 1 from rfl, pow_one]
    generalize sumOf _ ps = D
    ring

/-- **C70** The expectation that it is the derivative is refuted: for one particle along `(1, 1, 0)` and the axis along `z`, the returned
inclination component is not the derivative. -/
theorem C70_false : ∃ (ps : List P4) (φ θ v g1 g2 : ℝ),
    spherocityWithGrad φ θ ps = .ok (v, g1, g2) ∧ ¬ HasDerivAt (fun t => spherocityAt ps φ t) g2 θ := by
  have hoff1 : offAxis 0 0 ⟨1, 1, 0, 2⟩ = sqrt 2 := by
    unfold offAxis; norm_num
  have h2 : (0 : ℝ) < sqrt 2 := by positivity
  obtain ⟨g1, g2, h1, _, h3⟩ := C70_gradient 0 0 [⟨1, 1, 0, 2⟩] (by simp)
    (by intro p hp; simp at hp; subst hp; rw [hoff1]; exact h2)
  refine ⟨_, 0, 0, _, _, _, h1, fun hd => ?_⟩
  have := hd.unique h3
  have hN : (0 : ℝ) < sumOf norm3 [⟨1, 1, 0, 2⟩] := sumOf_norm_pos (by simp)
    (by intro p hp; simp at hp; subst hp; simp [Moving])
  have hpi := pi_pos
  have hC : sumOf (offAxis 0 0) [⟨1, 1, 0, 2⟩] = sqrt 2 := by simp [sumOf, hoff1]
  have hE : sumOf (fun p => -2 * cos (2 * 0) * cos 0 * p.x * (p.y - p.z) / offAxis 0 0 p)
      [⟨1, 1, 0, 2⟩] = -2 / sqrt 2 := by simp [sumOf, hoff1]
  rw [hC, hE] at this
  have hk : 0 < (4 / π / sumOf norm3 [⟨1, 1, 0, 2⟩]) ^ 2 := by positivity
  have : (4 / π / sumOf norm3 [⟨1, 1, 0, 2⟩]) ^ 2 * sqrt 2 * (-2 / sqrt 2) = 0 := by linarith
  rw [mul_assoc, mul_div_cancel₀ _ h2.ne'] at this
  linarith

/-! ## C71 -/

/-- One summand of the C-parameter. -/
private noncomputable def cTerm (p q : P4) : ℝ := norm3 p * norm3 q - dot3 p q ^ 2 / (norm3 p * norm3 q)

private theorem dot_self (p : P4) : dot3 p p = norm3 p ^ 2 := by rw [norm3_sq]; unfold dot3; ring

private theorem cTerm_self {p : P4} (h : Moving p) : cTerm p p = 0 := by
  have := norm3_pos h
  unfold cTerm; rw [dot_self]; field_simp; ring

private theorem cTerm_symm (p q : P4) : cTerm p q = cTerm q p := by
  unfold cTerm
  rw [show dot3 p q = dot3 q p by unfold dot3; ring, mul_comm (norm3 p)]

private theorem dot_sq_le (p q : P4) : dot3 p q ^ 2 ≤ (norm3 p * norm3 q) ^ 2 := by
  rw [mul_pow, norm3_sq, norm3_sq]
  unfold dot3
  nlinarith [sq_nonneg (p.x * q.y - p.y * q.x), sq_nonneg (p.x * q.z - p.z * q.x),
    sq_nonneg (p.y * q.z - p.z * q.y)]

private theorem cTerm_nonneg (p q : P4) : 0 ≤ cTerm p q := by
  unfold cTerm
  have hp := norm3_nonneg p
  have hq := norm3_nonneg q
  rcases (mul_nonneg hp hq).lt_or_eq with h | h
  · rw [sub_nonneg, div_le_iff₀ h]
    have := dot_sq_le p q; nlinarith
  · rw [← h]; simp

private theorem cInner_ok (p : P4) (hp : Moving p) : ∀ (qs : List P4) (out : ℝ), (∀ q ∈ qs, Moving q) →
    cInner p (norm3 p) out qs = .ok (out + 2 * sumOf (cTerm p) qs) := by
  intro qs
  induction qs with
  | nil => intro out _; simp [cInner, sumOf]
  | cons q qs ih =>
    intro out h
    have hq := h q (by simp)
    have hne : norm3 p * norm3 q ≠ 0 := (mul_pos (norm3_pos hp) (norm3_pos hq)).ne'
    simp only [cInner, threeNorm_moving hq, pyDiv, hne, if_false]
    rw [ih _ (fun r hr => h r (by simp [hr])), sumOf_cons]
    congr 1
    unfold cTerm dot3
    ring

private theorem pairSum_cons (p : P4) (hp : Moving p) (ps : List P4) :
    sumOf (fun a => sumOf (cTerm a) (p :: ps)) (p :: ps) =
      2 * sumOf (cTerm p) ps + sumOf (fun a => sumOf (cTerm a) ps) ps := by
  rw [sumOf_cons, sumOf_cons, cTerm_self hp]
  simp only [sumOf_cons]
  rw [sumOf_add]
  simp only [cTerm_symm _ p]
  rw [show (fun a => cTerm p a) = cTerm p from rfl]
  ring

private theorem cOuter_ok : ∀ (ps : List P4) (out nsum : ℝ), (∀ p ∈ ps, Moving p) →
    cOuter out nsum ps = .ok (out + sumOf (fun p => sumOf (cTerm p) ps) ps, nsum + sumOf norm3 ps) := by
  intro ps
  induction ps with
  | nil => intro out nsum _; simp [cOuter, sumOf]
  | cons p ps ih =>
    intro out nsum h
    have hp := h p (by simp)
    simp only [cOuter, threeNorm_moving hp, cInner_ok p hp (p :: ps) out h]
    rw [ih _ _ (fun q hq => h q (by simp [hq])), pairSum_cons p hp, sumOf_cons, sumOf_cons,
      cTerm_self hp]
    congr 2 <;> ring

/-- `Σᵢⱼ (pᵢ·pⱼ)²/(|pᵢ||pⱼ|) ≥ (Σ|p|)²/3`: the trace inequality for the linearised sphericity tensor. -/
private theorem trace_bound (ps : List P4) (h : ∀ p ∈ ps, Moving p) :
    sumOf norm3 ps ^ 2 ≤
      3 * sumOf (fun p => sumOf (fun q => dot3 p q ^ 2 / (norm3 p * norm3 q)) ps) ps := by
  let M (f g : P4 → ℝ) : ℝ := sumOf (fun p => f p * g p / norm3 p) ps
  have expand : ∀ p q : P4, dot3 p q ^ 2 / (norm3 p * norm3 q) =
      (p.x * p.x / norm3 p) * (q.x * q.x / norm3 q) + (p.y * p.y / norm3 p) * (q.y * q.y / norm3 q)
      + (p.z * p.z / norm3 p) * (q.z * q.z / norm3 q)
      + (2 * (p.x * p.y / norm3 p)) * (q.x * q.y / norm3 q)
      + (2 * (p.x * p.z / norm3 p)) * (q.x * q.z / norm3 q)
      + (2 * (p.y * p.z / norm3 p)) * (q.y * q.z / norm3 q) := by
    intro p q
    unfold dot3
    rw [div_eq_mul_inv, mul_inv]
    ring
  have inner : ∀ p : P4, sumOf (fun q => dot3 p q ^ 2 / (norm3 p * norm3 q)) ps =
      M P4.x P4.x * (p.x * p.x / norm3 p) + M P4.y P4.y * (p.y * p.y / norm3 p)
      + M P4.z P4.z * (p.z * p.z / norm3 p) + (2 * M P4.x P4.y) * (p.x * p.y / norm3 p)
      + (2 * M P4.x P4.z) * (p.x * p.z / norm3 p) + (2 * M P4.y P4.z) * (p.y * p.z / norm3 p) := by
    intro p
    simp only [expand, sumOf_add, sumOf_mul_left]
    ring
  simp only [inner, sumOf_add, sumOf_mul_left]
  have htr : sumOf norm3 ps = M P4.x P4.x + M P4.y P4.y + M P4.z P4.z := by
    simp only [M]
    rw [← sumOf_add, ← sumOf_add]
    apply sumOf_congr
    intro p hp
    have := norm3_pos (h p hp)
    field_simp
    rw [norm3_sq]
  rw [htr]
  change _ ≤ 3 * (M P4.x P4.x * M P4.x P4.x + M P4.y P4.y * M P4.y P4.y + M P4.z P4.z * M P4.z P4.z
    + 2 * M P4.x P4.y * M P4.x P4.y + 2 * M P4.x P4.z * M P4.x P4.z + 2 * M P4.y P4.z * M P4.y P4.z)
  nlinarith [sq_nonneg (M P4.x P4.x - M P4.y P4.y), sq_nonneg (M P4.x P4.x - M P4.z P4.z),
    sq_nonneg (M P4.y P4.y - M P4.z P4.z), sq_nonneg (M P4.x P4.y), sq_nonneg (M P4.x P4.z),
    sq_nonneg (M P4.y P4.z)]

/-- **C71** For every non-empty set of moving particles `c_parameter` is the C-parameter, and it lies in
`[0, 1]`. -/
theorem C71_value (ps : List P4) (hne : ps ≠ []) (hmov : ∀ p ∈ ps, Moving p) :
    cParameter ps = .ok (cParam ps) ∧ 0 ≤ cParam ps ∧ cParam ps ≤ 1 := by
  have hpos := sumOf_norm_pos hne hmov
  have hc : cParam ps = 3 / 2 * sumOf (fun p => sumOf (cTerm p) ps) ps / sumOf norm3 ps ^ 2 := rfl
  refine ⟨?_, ?_, ?_⟩
  · unfold cParameter
    rw [cOuter_ok ps 0 0 hmov]
    have : sumOf norm3 ps * sumOf norm3 ps ≠ 0 := (mul_pos hpos hpos).ne'
    simp only [zero_add, pyDiv, this, if_false]
    rw [hc]; congr 1; ring
  · rw [hc]
    apply div_nonneg _ (by positivity)
    apply mul_nonneg (by norm_num)
    exact sumOf_nonneg (fun p => sumOf_nonneg (cTerm_nonneg p) ps) ps
  · rw [hc, div_le_one (by positivity)]
    have hb := trace_bound ps hmov
    have hs : sumOf (fun p => sumOf (cTerm p) ps) ps =
        sumOf norm3 ps ^ 2 - sumOf (fun p => sumOf (fun q => dot3 p q ^ 2 / (norm3 p * norm3 q)) ps) ps := by
      have : ∀ p, sumOf (cTerm p) ps = sumOf norm3 ps * norm3 p +
          (-1) * sumOf (fun q => dot3 p q ^ 2 / (norm3 p * norm3 q)) ps := by
        intro p
        rw [mul_comm, ← sumOf_mul_left, ← sumOf_mul_left, ← sumOf_add]
        apply sumOf_congr
        intro q _
        unfold cTerm; ring
      simp only [this]
      rw [sumOf_add, sumOf_mul_left, sumOf_mul_left]; ring
    rw [hs]; linarith

/-- **C71** It vanishes for collinear momenta. -/
theorem C71_collinear (ps : List P4) (hmov : ∀ p ∈ ps, Moving p) (u : P4)
    (hcol : ∀ p ∈ ps, ∃ c, p.x = c * u.x ∧ p.y = c * u.y ∧ p.z = c * u.z) : cParam ps = 0 := by
  have : sumOf (fun p => sumOf (cTerm p) ps) ps = 0 := by
    rw [sumOf_congr (g := fun _ => 0 * 1)]
    · rw [sumOf_mul_left]; simp
    · intro p hp
      rw [sumOf_congr (g := fun _ => 0 * 1)]
      · rw [sumOf_mul_left]; simp
      · intro q hq
        obtain ⟨c, c1, c2, c3⟩ := hcol p hp
        obtain ⟨d, d1, d2, d3⟩ := hcol q hq
        have hpp := mul_pos (norm3_pos (hmov p hp)) (norm3_pos (hmov q hq))
        have : dot3 p q ^ 2 = (norm3 p * norm3 q) ^ 2 := by
          rw [mul_pow, norm3_sq, norm3_sq]
          unfold dot3
          rw [c1, c2, c3, d1, d2, d3]; ring
        unfold cTerm
        rw [this]; field_simp; ring
  have hc : cParam ps = 3 / 2 * sumOf (fun p => sumOf (cTerm p) ps) ps / sumOf norm3 ps ^ 2 := rfl
  rw [hc, this]; simp

/-- **C71** It does not depend on the order of the particles, on a common scale, or on a common rotation
(any map preserving scalar products of 3-momenta). -/
theorem C71_invariant (ps qs : List P4) (c : ℝ) (hc : 0 < c) (R : P4 → P4)
    (hR : ∀ p q, dot3 (R p) (R q) = dot3 p q) :
    (ps.Perm qs → cParam ps = cParam qs) ∧ cParam (ps.map (scale c)) = cParam ps ∧
    cParam (ps.map R) = cParam ps := by
  refine ⟨fun h => ?_, ?_, ?_⟩
  · unfold cParam
    rw [sumOf_perm norm3 h, sumOf_perm _ h]
    congr 2
    apply sumOf_congr
    intro p _
    exact sumOf_perm _ h
  · have hn : ∀ p : P4, norm3 (scale c p) = c * norm3 p := by
      intro p
      unfold norm3 scale
      rw [show (c * p.x) ^ 2 + (c * p.y) ^ 2 + (c * p.z) ^ 2 = c ^ 2 * (p.x ^ 2 + p.y ^ 2 + p.z ^ 2) by
        ring, sqrt_mul (by positivity), sqrt_sq hc.le]
    have ht : ∀ p q : P4, norm3 (scale c p) * norm3 (scale c q) -
        dot3 (scale c p) (scale c q) ^ 2 / (norm3 (scale c p) * norm3 (scale c q)) =
        c ^ 2 * (norm3 p * norm3 q - dot3 p q ^ 2 / (norm3 p * norm3 q)) := by
      intro p q
      rw [hn, hn, show dot3 (scale c p) (scale c q) = c ^ 2 * dot3 p q by unfold dot3 scale; ring]
      have : (c ^ 2 * dot3 p q) ^ 2 / (c * norm3 p * (c * norm3 q)) =
          c ^ 2 * (dot3 p q ^ 2 / (norm3 p * norm3 q)) := by
        rw [show c * norm3 p * (c * norm3 q) = c ^ 2 * (norm3 p * norm3 q) by ring,
          show (c ^ 2 * dot3 p q) ^ 2 = c ^ 2 * (c ^ 2 * dot3 p q ^ 2) by ring,
          mul_div_mul_left _ _ (by positivity), mul_div_assoc]
      rw [this]; ring
    unfold cParam
    simp only [sumOf_map, ht]
    simp only [hn, sumOf_mul_left]
    rw [show 3 / 2 * (c ^ 2 * sumOf (fun p => sumOf (fun q => norm3 p * norm3 q -
        dot3 p q ^ 2 / (norm3 p * norm3 q)) ps) ps) = c ^ 2 * (3 / 2 * sumOf (fun p => sumOf (fun q =>
        norm3 p * norm3 q - dot3 p q ^ 2 / (norm3 p * norm3 q)) ps) ps) by ring, mul_pow,
      mul_div_mul_left _ _ (by positivity)]
  · have hn : ∀ p : P4, norm3 (R p) = norm3 p := by
      intro p
      have := hR p p
      unfold norm3
      congr 1
      unfold dot3 at this
      linarith
    unfold cParam
    simp only [sumOf_map, hn, hR]

-- non-vacuity: three mutually orthogonal particles of equal energy are maximally spherical
example : ∀ p ∈ ([⟨1, 0, 0, 1⟩, ⟨0, 1, 0, 1⟩, ⟨0, 0, 1, 1⟩] : List P4), Moving p := by
  intro p hp
  simp at hp
  rcases hp with rfl | rfl | rfl <;> simp [Moving]

/-! ## C76 -/

/-- **C76** `_three_norm` is the Euclidean norm, except that it raises `ZeroDivisionError` for the zero
vector. -/
theorem C76_norm (x y z : ℝ) :
    threeNorm x y z = if x = 0 ∧ y = 0 ∧ z = 0 then .error .zeroDivisionError
      else .ok (sqrt (x ^ 2 + y ^ 2 + z ^ 2)) := by
  split
  · next h => obtain ⟨rfl, rfl, rfl⟩ := h; exact threeNorm_zero
  · next h => apply threeNorm_ok; tauto

private theorem cInner_err (p : P4) (hp : Moving p) : ∀ (qs : List P4) (out : ℝ),
    (∃ q ∈ qs, ¬ Moving q) → cInner p (norm3 p) out qs = .error .zeroDivisionError := by
  intro qs
  induction qs with
  | nil => intro out h; simp at h
  | cons q qs ih =>
    intro out h
    by_cases hq : Moving q
    · have hne : norm3 p * norm3 q ≠ 0 := (mul_pos (norm3_pos hp) (norm3_pos hq)).ne'
      simp only [cInner, threeNorm_moving hq, pyDiv, hne, if_false]
      apply ih
      obtain ⟨r, hr, hn⟩ := h
      rcases List.mem_cons.1 hr with rfl | hr
      · exact absurd hq hn
      · exact ⟨r, hr, hn⟩
    · simp only [cInner, threeNorm_still hq]

private theorem sphLoop_err (φ θ : ℝ) : ∀ (ps : List P4) (acc : SphAcc),
    (∃ p ∈ ps, offAxis φ θ p = 0) → sphLoop φ θ acc ps = .error .zeroDivisionError := by
  intro ps
  induction ps with
  | nil => intro acc h; simp at h
  | cons p ps ih =>
    intro acc h
    by_cases hp : offAxis φ θ p = 0
    · by_cases hm : Moving p
      · have hsq : offAxis φ θ p ^ 2 = 0 := by rw [hp]; norm_num
        unfold offAxis at hsq
        rw [sq_sqrt (by positivity)] at hsq
        have h1 : p.y * cos θ - p.z * (sin θ * sin φ) = 0 := by
          nlinarith [sq_nonneg (p.y * cos θ - p.z * (sin θ * sin φ)),
            sq_nonneg (p.z * (sin θ * cos φ) - p.x * cos θ),
            sq_nonneg (p.x * (sin θ * sin φ) - p.y * (sin θ * cos φ))]
        have h2 : p.z * (sin θ * cos φ) - p.x * cos θ = 0 := by
          nlinarith [sq_nonneg (p.y * cos θ - p.z * (sin θ * sin φ)),
            sq_nonneg (p.z * (sin θ * cos φ) - p.x * cos θ),
            sq_nonneg (p.x * (sin θ * sin φ) - p.y * (sin θ * cos φ))]
        have h3 : p.x * (sin θ * sin φ) - p.y * (sin θ * cos φ) = 0 := by
          nlinarith [sq_nonneg (p.y * cos θ - p.z * (sin θ * sin φ)),
            sq_nonneg (p.z * (sin θ * cos φ) - p.x * cos θ),
            sq_nonneg (p.x * (sin θ * sin φ) - p.y * (sin θ * cos φ))]
        simp only [sphLoop, sphStep, threeNorm_moving hm, h1, h2, h3, threeNorm_zero]
      · simp only [sphLoop, sphStep, threeNorm_still hm]
    · have h0 : 0 < offAxis φ θ p := lt_of_le_of_ne (sqrt_nonneg _) (Ne.symm hp)
      have hstep := sphLoop_ok φ θ [p] acc (by intro q hq; simp at hq; subst hq; exact h0)
      simp only [sphLoop] at hstep ⊢
      cases hs : sphStep φ θ acc p with
      | error e => rw [hs] at hstep; cases hstep
      | ok acc' =>
        apply ih
        obtain ⟨r, hr, hn⟩ := h
        rcases List.mem_cons.1 hr with rfl | hr
        · exact absurd hn hp
        · exact ⟨r, hr, hn⟩

/-- **C76** Exactly when the event shapes are defined: thrust and C-parameter iff there is a particle and
none is at rest, the spherocity for an axis iff moreover none is parallel to that axis; all raise
`ZeroDivisionError` otherwise. -/
theorem C76_exact (φ θ : ℝ) (ps : List P4) :
    ((∃ r, thrustWithGrad φ θ ps = .ok r) ↔ ps ≠ [] ∧ ∀ p ∈ ps, Moving p) ∧
    ((∃ r, cParameter ps = .ok r) ↔ ps ≠ [] ∧ ∀ p ∈ ps, Moving p) ∧
    ((∃ r, spherocityWithGrad φ θ ps = .ok r) ↔ ps ≠ [] ∧ ∀ p ∈ ps, offAxis φ θ p ≠ 0) ∧
    (∀ e, thrustWithGrad φ θ ps = .error e ∨ cParameter ps = .error e ∨
      spherocityWithGrad φ θ ps = .error e → e = .zeroDivisionError) := by
  have ht_nil : ∀ φ θ, thrustWithGrad φ θ [] = .error .zeroDivisionError := by
    intro φ θ; simp [thrustWithGrad, thrustLoop, pyDiv]
  have hc_nil : cParameter [] = .error .zeroDivisionError := by simp [cParameter, cOuter, pyDiv]
  have hs_nil : ∀ φ θ, spherocityWithGrad φ θ [] = .error .zeroDivisionError := by
    intro φ θ; simp [spherocityWithGrad, sphLoop, pyDiv]
  have ht_err : (∃ p ∈ ps, ¬ Moving p) → thrustWithGrad φ θ ps = .error .zeroDivisionError := by
    intro h; unfold thrustWithGrad; rw [thrustLoop_err φ θ ps _ h]
  have hc_err : (∃ p ∈ ps, ¬ Moving p) → cParameter ps = .error .zeroDivisionError := by
    intro h
    unfold cParameter
    cases ps with
    | nil => simp at h
    | cons p ps =>
      have : cOuter 0 0 (p :: ps) = .error .zeroDivisionError := by
        by_cases hp : Moving p
        · simp only [cOuter, threeNorm_moving hp, cInner_err p hp (p :: ps) 0 h]
        · simp only [cOuter, threeNorm_still hp]
      rw [this]
  have hs_err : (∃ p ∈ ps, offAxis φ θ p = 0) → spherocityWithGrad φ θ ps = .error .zeroDivisionError := by
    intro h; unfold spherocityWithGrad; rw [sphLoop_err φ θ ps _ h]
  have ht : (ps ≠ [] ∧ ∀ p ∈ ps, Moving p) ∨ thrustWithGrad φ θ ps = .error .zeroDivisionError := by
    by_cases h1 : ps = []
    · right; rw [h1]; exact ht_nil φ θ
    · by_cases h2 : ∀ p ∈ ps, Moving p
      · exact Or.inl ⟨h1, h2⟩
      · right; apply ht_err; push Not at h2; exact h2
  have hc : (ps ≠ [] ∧ ∀ p ∈ ps, Moving p) ∨ cParameter ps = .error .zeroDivisionError := by
    by_cases h1 : ps = []
    · right; rw [h1]; exact hc_nil
    · by_cases h2 : ∀ p ∈ ps, Moving p
      · exact Or.inl ⟨h1, h2⟩
      · right; apply hc_err; push Not at h2; exact h2
  have hs : (ps ≠ [] ∧ ∀ p ∈ ps, offAxis φ θ p ≠ 0) ∨
      spherocityWithGrad φ θ ps = .error .zeroDivisionError := by
    by_cases h1 : ps = []
    · right; rw [h1]; exact hs_nil φ θ
    · by_cases h2 : ∀ p ∈ ps, offAxis φ θ p ≠ 0
      · exact Or.inl ⟨h1, h2⟩
      · right; apply hs_err; push Not at h2; exact h2
  have ht' : (ps ≠ [] ∧ ∀ p ∈ ps, Moving p) → ∃ r, thrustWithGrad φ θ ps = .ok r := by
    rintro ⟨h1, h2⟩
    obtain ⟨g1, g2, h, _⟩ := C69_thrust φ θ ps h1 h2
    exact ⟨_, h⟩
  have hs' : (ps ≠ [] ∧ ∀ p ∈ ps, offAxis φ θ p ≠ 0) → ∃ r, spherocityWithGrad φ θ ps = .ok r := by
    rintro ⟨h1, h2⟩
    obtain ⟨g1, g2, h, _⟩ := C70_gradient φ θ ps h1
      (fun p hp => lt_of_le_of_ne (sqrt_nonneg _) (h2 p hp).symm)
    exact ⟨_, h⟩
  have hc' : (ps ≠ [] ∧ ∀ p ∈ ps, Moving p) → ∃ r, cParameter ps = .ok r := by
    rintro ⟨h1, h2⟩
    exact ⟨_, (C71_value ps h1 h2).1⟩
  refine ⟨⟨?_, ht'⟩, ⟨?_, hc'⟩, ⟨?_, hs'⟩, ?_⟩
  · rintro ⟨r, hr⟩; rcases ht with h | h
    · exact h
    · rw [h] at hr; cases hr
  · rintro ⟨r, hr⟩; rcases hc with h | h
    · exact h
    · rw [h] at hr; cases hr
  · rintro ⟨r, hr⟩; rcases hs with h | h
    · exact h
    · rw [h] at hr; cases hr
  · rintro e (h | h | h)
    · rcases ht with h1 | h1
      · obtain ⟨r, hr⟩ := ht' h1; rw [hr] at h; cases h
      · rw [h1] at h; cases h; rfl
    · rcases hc with h1 | h1
      · obtain ⟨r, hr⟩ := hc' h1; rw [hr] at h; cases h
      · rw [h1] at h; cases h; rfl
    · rcases hs with h1 | h1
      · obtain ⟨r, hr⟩ := hs' h1; rw [hr] at h; cases h
      · rw [h1] at h; cases h; rfl

/-- **C76** The expectation that they always exist is refuted: one particle at rest among others makes thrust and C-parameter raise
`ZeroDivisionError`, for every axis. -/
theorem C76_false (φ θ : ℝ) : ∃ ps : List P4, ps ≠ [] ∧ (∃ p ∈ ps, Moving p) ∧
    thrustWithGrad φ θ ps = .error .zeroDivisionError ∧ cParameter ps = .error .zeroDivisionError ∧
    spherocityWithGrad φ θ ps = .error .zeroDivisionError := by
  have hn : ¬ Moving ⟨0, 0, 0, 1⟩ := by simp [Moving]
  have hm : Moving ⟨1, 0, 0, 1⟩ := by simp [Moving]
  obtain ⟨h1, h2, h3, h4⟩ := C76_exact φ θ [⟨0, 0, 0, 1⟩, ⟨1, 0, 0, 1⟩]
  have hnot : ¬ ∀ p ∈ ([⟨0, 0, 0, 1⟩, ⟨1, 0, 0, 1⟩] : List P4), Moving p := fun h => hn (h _ (by simp))
  refine ⟨[⟨0, 0, 0, 1⟩, ⟨1, 0, 0, 1⟩], by simp, ⟨_, by simp, hm⟩, ?_, ?_, ?_⟩
  · cases h : thrustWithGrad φ θ [⟨0, 0, 0, 1⟩, ⟨1, 0, 0, 1⟩] with
    | ok r => exact absurd (h1.1 ⟨r, h⟩).2 hnot
    | error e => rw [h4 e (Or.inl h)]
  · cases h : cParameter [⟨0, 0, 0, 1⟩, ⟨1, 0, 0, 1⟩] with
    | ok r => exact absurd (h2.1 ⟨r, h⟩).2 hnot
    | error e => rw [h4 e (Or.inr (Or.inl h))]
  · cases h : spherocityWithGrad φ θ [⟨0, 0, 0, 1⟩, ⟨1, 0, 0, 1⟩] with
    | ok r =>
      have := (h3.1 ⟨r, h⟩).2 ⟨0, 0, 0, 1⟩ (by simp)
      exact absurd (by simp [offAxis]) this
    | error e => rw [h4 e (Or.inr (Or.inr h))]

/-! ## C90 -/

/-- **C90** `thrust` and `spherocity` search azimuth and inclination in `[-π/2, π/2]` only.  This loses
nothing: every unit vector, or its opposite, is the axis of such a pair of angles; and the values for an
axis and its opposite agree. -/
theorem C90_domain (x y z : ℝ) (h : x ^ 2 + y ^ 2 + z ^ 2 = 1) :
    ∃ φ θ : ℝ, -(π / 2) ≤ φ ∧ φ ≤ π / 2 ∧ -(π / 2) ≤ θ ∧ θ ≤ π / 2 ∧
      (anglesToAxis φ θ = (x, y, z) ∨ anglesToAxis φ θ = (-x, -y, -z)) := by
  -- the case `z ≥ 0`
  have key : ∀ x y z : ℝ, x ^ 2 + y ^ 2 + z ^ 2 = 1 → 0 ≤ z → ∃ φ θ : ℝ, -(π / 2) ≤ φ ∧ φ ≤ π / 2 ∧
      -(π / 2) ≤ θ ∧ θ ≤ π / 2 ∧ anglesToAxis φ θ = (x, y, z) := by
    intro x y z h hz
    have hz1 : z ≤ 1 := by nlinarith [sq_nonneg x, sq_nonneg y]
    have hpi := pi_pos
    set r := sqrt (x ^ 2 + y ^ 2) with hr
    have hr2 : r ^ 2 = x ^ 2 + y ^ 2 := sq_sqrt (by positivity)
    have hr0 : 0 ≤ r := sqrt_nonneg _
    have hsin : sin (arccos z) = r := by
      rw [sin_arccos, hr]; congr 1; linarith
    have hcos : cos (arccos z) = z := cos_arccos (by linarith) hz1
    have ht0 := arccos_nonneg z
    have ht1 : arccos z ≤ π / 2 := arccos_le_pi_div_two.2 hz
    rcases hr0.lt_or_eq with hrp | hr00
    · -- off the z axis
      have hy : -1 ≤ y / r ∧ y / r ≤ 1 := by
        have : |y| ≤ r := abs_le_of_sq_le_sq (by nlinarith [sq_nonneg x]) hr0
        obtain ⟨a, b⟩ := abs_le.1 this
        exact ⟨by rw [le_div_iff₀ hrp]; linarith, by rw [div_le_one hrp]; exact b⟩
      have hcosA : ∀ t : ℝ, -1 ≤ t → t ≤ 1 → cos (arcsin t) = sqrt (1 - t ^ 2) := fun t _ _ => cos_arcsin t
      have hroot : sqrt (1 - (y / r) ^ 2) = |x| / r := by
        rw [show 1 - (y / r) ^ 2 = (x / r) ^ 2 by field_simp; linarith, sqrt_sq_eq_abs, abs_div,
          abs_of_pos hrp]
      rcases le_total 0 x with hx | hx
      · refine ⟨arcsin (y / r), arccos z, neg_pi_div_two_le_arcsin _, arcsin_le_pi_div_two _,
          by linarith, ht1, ?_⟩
        unfold anglesToAxis
        rw [hsin, hcos, sin_arcsin hy.1 hy.2, cos_arcsin, hroot, abs_of_nonneg hx]
        congr 2 <;> field_simp
      · refine ⟨arcsin (-(y / r)), -arccos z, neg_pi_div_two_le_arcsin _, arcsin_le_pi_div_two _,
          by linarith, by linarith, ?_⟩
        unfold anglesToAxis
        rw [sin_neg, cos_neg, hsin, hcos, arcsin_neg, sin_neg, cos_neg, sin_arcsin hy.1 hy.2, cos_arcsin,
          hroot, abs_of_nonpos hx]
        congr 2 <;> field_simp
    · have hx0 : x = 0 := by nlinarith [sq_nonneg x, sq_nonneg y]
      have hy0 : y = 0 := by nlinarith [sq_nonneg x, sq_nonneg y]
      refine ⟨0, arccos z, by linarith, by linarith, by linarith, ht1, ?_⟩
      unfold anglesToAxis
      rw [hsin, hcos, ← hr00, hx0, hy0]
      simp
  rcases le_total 0 z with hz | hz
  · obtain ⟨φ, θ, h1, h2, h3, h4, h5⟩ := key x y z h hz
    exact ⟨φ, θ, h1, h2, h3, h4, Or.inl h5⟩
  · obtain ⟨φ, θ, h1, h2, h3, h4, h5⟩ := key (-x) (-y) (-z) (by nlinarith) (by linarith)
    exact ⟨φ, θ, h1, h2, h3, h4, Or.inr h5⟩

/-- **C90** Thrust and spherocity depend on the axis only up to sign (two pairs of angles denoting the same
or opposite unit vectors give the same values). -/
theorem C90_sign (ps : List P4) (φ θ φ' θ' : ℝ) (a b c : ℝ) (h : anglesToAxis φ θ = (a, b, c))
    (h' : anglesToAxis φ' θ' = (a, b, c) ∨ anglesToAxis φ' θ' = (-a, -b, -c)) :
    thrustAt ps φ θ = thrustAt ps φ' θ' ∧ spherocityAt ps φ θ = spherocityAt ps φ' θ' := by
  unfold anglesToAxis at h h'
  simp only [Prod.mk.injEq] at h h'
  obtain ⟨h1, h2, h3⟩ := h
  have key : ∀ p : P4, |onAxis φ θ p| = |onAxis φ' θ' p| ∧ offAxis φ θ p = offAxis φ' θ' p := by
    intro p
    unfold onAxis offAxis
    rw [h1, h2, h3]
    rcases h' with ⟨g1, g2, g3⟩ | ⟨g1, g2, g3⟩
    · rw [g1, g2, g3]; exact ⟨rfl, rfl⟩
    · rw [g1, g2, g3]
      refine ⟨by rw [← abs_neg]; congr 1; ring, by congr 1; ring⟩
  unfold thrustAt spherocityAt
  constructor
  · rw [sumOf_congr (fun p _ => (key p).1)]
  · rw [sumOf_congr (fun p _ => (key p).2)]

example : (0 : ℝ) ^ 2 + (3 / 5) ^ 2 + (-4 / 5) ^ 2 = 1 := by norm_num

end Gcl
