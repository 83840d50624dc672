import Verif.Props.Optimise
import Verif.Props.Transform
import Verif.Props.Rotation
/-! # C115: thrust and spherocity of a rotated event -/
namespace Gcl
set_option autoImplicit false
open Spec Real Matrix

/-- A rotation (or reflection) of space. -/
def Spec.Orthogonal (M : Matrix (Fin 3) (Fin 3) ℝ) : Prop := Mᵀ * M = 1

/-- A vector rotated by `M`. -/
noncomputable def Spec.rotVec (M : Matrix (Fin 3) (Fin 3) ℝ) (n : ℝ × ℝ × ℝ) : ℝ × ℝ × ℝ :=
  ((M *ᵥ ![n.1, n.2.1, n.2.2]) 0, (M *ᵥ ![n.1, n.2.1, n.2.2]) 1, (M *ᵥ ![n.1, n.2.1, n.2.2]) 2)

/-- A particle whose 3-momentum is rotated by `M`. -/
noncomputable def Spec.rotP4 (M : Matrix (Fin 3) (Fin 3) ℝ) (p : P4) : P4 :=
  ⟨(M *ᵥ ![p.x, p.y, p.z]) 0, (M *ᵥ ![p.x, p.y, p.z]) 1, (M *ᵥ ![p.x, p.y, p.z]) 2, p.e⟩

/-- Scalar product of two vectors. -/
def vdot (a b : ℝ × ℝ × ℝ) : ℝ := a.1 * b.1 + a.2.1 * b.2.1 + a.2.2 * b.2.2

/-- The 3-momentum as a vector. -/
def vec3 (p : P4) : ℝ × ℝ × ℝ := (p.x, p.y, p.z)

theorem rotVec_dot {M : Matrix (Fin 3) (Fin 3) ℝ} (h : Orthogonal M) (a b : ℝ × ℝ × ℝ) :
    vdot (rotVec M a) (rotVec M b) = vdot a b := by
  have e : (M *ᵥ ![a.1, a.2.1, a.2.2]) ⬝ᵥ (M *ᵥ ![b.1, b.2.1, b.2.2]) =
      ![a.1, a.2.1, a.2.2] ⬝ᵥ ![b.1, b.2.1, b.2.2] := by
    rw [dotProduct_mulVec, vecMul_mulVec, ← dotProduct_mulVec, h, one_mulVec]
  rw [dotProduct, dotProduct, Fin.sum_univ_three, Fin.sum_univ_three] at e
  simpa [vdot, rotVec] using e

theorem vec3_rot (M : Matrix (Fin 3) (Fin 3) ℝ) (p : P4) : vec3 (rotP4 M p) = rotVec M (vec3 p) := rfl

theorem norm3_vec (p : P4) : norm3 p = sqrt (vdot (vec3 p) (vec3 p)) := by
  unfold norm3 vdot vec3
  congr 1
  ring

theorem cross_vec (p : P4) (n : ℝ × ℝ × ℝ) :
    (p.y * n.2.2 - p.z * n.2.1) ^ 2 + (p.z * n.1 - p.x * n.2.2) ^ 2 + (p.x * n.2.1 - p.y * n.1) ^ 2 =
      vdot (vec3 p) (vec3 p) * vdot n n - vdot (vec3 p) n ^ 2 := by
  unfold vdot vec3
  ring

theorem rotVec_unit {M : Matrix (Fin 3) (Fin 3) ℝ} (h : Orthogonal M) (n : ℝ × ℝ × ℝ) :
    UnitVec (rotVec M n) ↔ UnitVec n := by
  have e := rotVec_dot h n n
  unfold vdot at e
  unfold UnitVec
  constructor
  · intro h1; nlinarith
  · intro h1; nlinarith

theorem orthogonal_transpose {M : Matrix (Fin 3) (Fin 3) ℝ} (h : Orthogonal M) : Orthogonal Mᵀ := by
  unfold Orthogonal
  rw [transpose_transpose]
  exact mul_eq_one_comm.1 h

theorem rotVec_inv {M : Matrix (Fin 3) (Fin 3) ℝ} (h : Orthogonal M) (n : ℝ × ℝ × ℝ) :
    rotVec M (rotVec Mᵀ n) = n := by
  have h2 : M * Mᵀ = 1 := mul_eq_one_comm.1 h
  have e : ![(rotVec Mᵀ n).1, (rotVec Mᵀ n).2.1, (rotVec Mᵀ n).2.2] = Mᵀ *ᵥ ![n.1, n.2.1, n.2.2] := by
    funext i
    fin_cases i <;> rfl
  unfold rotVec at e ⊢
  rw [e, mulVec_mulVec, h2, one_mulVec]
  rfl

/-- **C115** Thrust and spherocity of a rotated event along a rotated direction are those of the event along the
direction, for every rotation. -/
theorem C115_along (M : Matrix (Fin 3) (Fin 3) ℝ) (h : Orthogonal M) (ps : List P4) (n : ℝ × ℝ × ℝ) :
    thrustAlong (ps.map (rotP4 M)) (rotVec M n) = thrustAlong ps n ∧
    spherocityAlong (ps.map (rotP4 M)) (rotVec M n) = spherocityAlong ps n := by
  have hn : sumOf norm3 (ps.map (rotP4 M)) = sumOf norm3 ps := by
    unfold sumOf
    rw [List.map_map]
    congr 1
    apply List.map_congr_left
    intro p _
    rw [Function.comp, norm3_vec, norm3_vec, vec3_rot, rotVec_dot h]
  constructor
  · unfold thrustAlong
    rw [hn]
    congr 1
    unfold sumOf
    rw [List.map_map]
    congr 1
    apply List.map_congr_left
    intro p _
    exact congrArg abs (rotVec_dot h (vec3 p) n)
  · unfold spherocityAlong
    rw [hn]
    congr 3
    unfold sumOf
    rw [List.map_map]
    congr 1
    apply List.map_congr_left
    intro p _
    simp only [Function.comp]
    rw [cross_vec, cross_vec, vec3_rot, rotVec_dot h, rotVec_dot h, rotVec_dot h]

theorem rotP4_moving {M : Matrix (Fin 3) (Fin 3) ℝ} (h : Orthogonal M) (p : P4) : Moving (rotP4 M p) ↔ Moving p := by
  have key : ∀ q : P4, Moving q ↔ 0 < vdot (vec3 q) (vec3 q) := by
    intro q
    unfold Moving vdot vec3
    constructor
    · rintro (h | h | h)
      · nlinarith [sq_pos_of_ne_zero h, sq_nonneg q.y, sq_nonneg q.z]
      · nlinarith [sq_pos_of_ne_zero h, sq_nonneg q.x, sq_nonneg q.z]
      · nlinarith [sq_pos_of_ne_zero h, sq_nonneg q.x, sq_nonneg q.y]
    · intro h
      by_contra hn
      push Not at hn
      obtain ⟨h1, h2, h3⟩ := hn
      simp [h1, h2, h3] at h
  rw [key, key, vec3_rot, rotVec_dot h]

/-- **C115** The thrust reported for a rotated event: if both searches find the best value inside the bounds, both
report the same thrust, whatever the rotation, the optimisers and the guesses. -/
theorem C115_thrust (min₁ min₂ : ℝ × ℝ → Opt) (h₁ : Optimiser min₁) (h₂ : Optimiser min₂) (g₁ g₂ : ℝ × ℝ)
    (hg₁ : InDomain g₁) (hg₂ : InDomain g₂) (r₁ r₂ : Bool) (M : Matrix (Fin 3) (Fin 3) ℝ) (hM : Orthogonal M)
    (ps : List P4) (t t' : ℝ) (a a' : Option (ℝ × ℝ × ℝ)) (e₁ : thrust min₁ g₁ r₁ ps = .ok (t, a))
    (e₂ : thrust min₂ g₂ r₂ (ps.map (rotP4 M)) = .ok (t', a'))
    (b₁ : ∀ φ θ, InDomain (φ, θ) → thrustAt ps φ θ ≤ t)
    (b₂ : ∀ φ θ, InDomain (φ, θ) → thrustAt (ps.map (rotP4 M)) φ θ ≤ t') : t = t' := by
  have get : ∀ (m : ℝ × ℝ → Opt) (_ : Optimiser m) (g : ℝ × ℝ) (_ : InDomain g) (r : Bool) (qs : List P4) (s : ℝ)
      (b : Option (ℝ × ℝ × ℝ)), thrust m g r qs = .ok (s, b) → ∃ n, UnitVec n ∧ s = thrustAlong qs n := by
    intro m hm g hg r qs s b hs
    obtain ⟨c1, c2⟩ := C97_thrust m hm g hg r qs
    by_cases hq : qs ≠ [] ∧ ∀ p ∈ qs, Moving p
    · obtain ⟨n, hn, hv, -⟩ := c1 hq.1 hq.2
      rw [hv] at hs
      injection hs with hs
      exact ⟨n, hn, (congrArg Prod.fst hs).symm⟩
    · rw [c2 hq] at hs
      cases hs
  obtain ⟨n, hn, rfl⟩ := get min₁ h₁ g₁ hg₁ r₁ ps t a e₁
  obtain ⟨n', hn', rfl⟩ := get min₂ h₂ g₂ hg₂ r₂ _ t' a' e₂
  apply le_antisymm
  · rw [← (C115_along M hM ps n).1]
    exact C97_global min₂ g₂ r₂ _ _ a' e₂ b₂ _ ((rotVec_unit hM n).2 hn)
  · have e := (C115_along M hM ps (rotVec Mᵀ n')).1
    rw [rotVec_inv hM] at e
    rw [e]
    exact C97_global min₁ g₁ r₁ _ _ a e₁ b₁ _ ((rotVec_unit (orthogonal_transpose hM) n').2 hn')

/-- **C115** Whether `thrust` can be computed does not depend on the orientation of the event. -/
theorem C115_defined (min₁ min₂ : ℝ × ℝ → Opt) (h₁ : Optimiser min₁) (h₂ : Optimiser min₂) (g₁ g₂ : ℝ × ℝ)
    (hg₁ : InDomain g₁) (hg₂ : InDomain g₂) (r₁ r₂ : Bool) (M : Matrix (Fin 3) (Fin 3) ℝ) (hM : Orthogonal M)
    (ps : List P4) : thrust min₁ g₁ r₁ ps = .error .zeroDivisionError ↔
      thrust min₂ g₂ r₂ (ps.map (rotP4 M)) = .error .zeroDivisionError := by
  have key : ∀ (m : ℝ × ℝ → Opt) (_ : Optimiser m) (g : ℝ × ℝ) (_ : InDomain g) (r : Bool) (qs : List P4),
      thrust m g r qs = .error .zeroDivisionError ↔ ¬ (qs ≠ [] ∧ ∀ p ∈ qs, Moving p) := by
    intro m hm g hg r qs
    obtain ⟨c1, c2⟩ := C97_thrust m hm g hg r qs
    refine ⟨fun he hq => ?_, c2⟩
    obtain ⟨n, -, hv, -⟩ := c1 hq.1 hq.2
    rw [hv] at he
    cases he
  rw [key min₁ h₁ g₁ hg₁, key min₂ h₂ g₂ hg₂]
  simp only [ne_eq, List.map_eq_nil_iff, List.forall_mem_map, rotP4_moving hM]

/-- **C115** The C-parameter of a rotated event, errors included. -/
theorem C115_cParameter (M : Matrix (Fin 3) (Fin 3) ℝ) (hM : Orthogonal M) (ps : List P4) :
    cParameter (ps.map (rotP4 M)) = cParameter ps := by
  by_cases h : ps ≠ [] ∧ ∀ p ∈ ps, Moving p
  · rw [(C71_value ps h.1 h.2).1, (C71_value (ps.map (rotP4 M)) (by simpa using h.1) (by
      simpa only [List.forall_mem_map, rotP4_moving hM] using h.2)).1,
      (C71_invariant ps ps 1 one_pos (rotP4 M) (fun p q => rotVec_dot hM (vec3 p) (vec3 q))).2.2]
  · have h' : ¬ (ps.map (rotP4 M) ≠ [] ∧ ∀ p ∈ ps.map (rotP4 M), Moving p) := by
      simpa only [ne_eq, List.map_eq_nil_iff, List.forall_mem_map, rotP4_moving hM] using h
    have err : ∀ qs : List P4, ¬ (qs ≠ [] ∧ ∀ p ∈ qs, Moving p) → cParameter qs = .error .zeroDivisionError := by
      intro qs hq
      obtain ⟨-, e2, -, e4⟩ := C76_exact 0 0 qs
      cases hc : cParameter qs with
      | error e => rw [e4 e (Or.inr (Or.inl hc))]
      | ok r => exact absurd (e2.1 ⟨r, hc⟩) hq
    rw [err ps h, err _ h']

/-- **C115** The rotations the library makes are covered: `rotation_matrix`, and `shift_phi` (a rotation around the
beam). -/
theorem C115_library (angle s : ℝ) (axis : SphericalAngle) :
    Orthogonal (rotationMatrix angle axis) ∧
    Orthogonal !![cos s, -sin s, 0; sin s, cos s, 0; 0, 0, 1] ∧
    ∀ p : P4, p.shiftPhi s = rotP4 !![cos s, -sin s, 0; sin s, cos s, 0; 0, 0, 1] p := by
  refine ⟨(C80_orthogonal angle axis).2.1, ?_, ?_⟩
  · unfold Orthogonal
    ext i j
    have := sin_sq_add_cos_sq s
    fin_cases i <;> fin_cases j <;> simp [Matrix.mul_apply, Fin.sum_univ_three] <;> nlinarith
  · intro p
    obtain ⟨h1, h2, h3, h4⟩ := shiftPhi_xy s p
    have e : ∀ q r : P4, q.x = r.x → q.y = r.y → q.z = r.z → q.e = r.e → q = r := by
      rintro ⟨⟩ ⟨⟩ h1 h2 h3 h4
      simp_all
    apply e
    · rw [h1]; simp [rotP4, Matrix.mulVec, dotProduct, Fin.sum_univ_three]; ring
    · rw [h2]; simp [rotP4, Matrix.mulVec, dotProduct, Fin.sum_univ_three]; ring
    · rw [h3]; simp [rotP4, Matrix.mulVec, dotProduct, Fin.sum_univ_three]
    · rw [h4]; rfl

/-- An optimiser that keeps to the contract by stopping at the guess. -/
noncomputable def onePointOpt (g : ℝ × ℝ) : Opt := .ask g (fun r => .stop g r.1)

theorem onePointOpt_ok : Optimiser onePointOpt := fun _ =>
  ⟨_, rfl, fun r => .stop (first := (_, r.1)) (by simp) rfl le_rfl⟩

/-- The rotation taking the beam axis to the first axis. -/
def zToX : Matrix (Fin 3) (Fin 3) ℝ := !![0, 0, 1; 0, 1, 0; -1, 0, 0]

theorem zToX_orthogonal : Orthogonal zToX := by
  unfold Orthogonal
  ext i j
  fin_cases i <;> fin_cases j <;> simp [zToX, Matrix.mul_apply, Fin.sum_univ_three]

theorem zToX_beam : rotP4 zToX ⟨0, 0, 1, 1⟩ = ⟨1, 0, 0, 1⟩ := by
  simp [rotP4, zToX, Matrix.mulVec, dotProduct, Fin.sum_univ_three]

/-- **C115** For `spherocity` the last point is refuted: with one and the same optimiser and guess an event can raise
`ZeroDivisionError` and the rotated event not. -/
theorem C115_false : ¬ ∀ (min : ℝ × ℝ → Opt), Optimiser min → ∀ g, InDomain g → ∀ (r : Bool)
    (M : Matrix (Fin 3) (Fin 3) ℝ), Orthogonal M → ∀ ps : List P4,
    (spherocity min g r ps = .error .zeroDivisionError ↔
      spherocity min g r (ps.map (rotP4 M)) = .error .zeroDivisionError) := by
  intro h
  have hg : InDomain (0, 0) := by
    have := pi_pos
    refine ⟨?_, ?_, ?_, ?_⟩ <;> simp <;> linarith
  have key : ∀ ps : List P4, spherocity onePointOpt (0, 0) false ps = .error .zeroDivisionError ↔
      ¬ (ps ≠ [] ∧ ∀ p ∈ ps, offAxis 0 0 p ≠ 0) := by
    intro ps
    obtain ⟨-, -, e3, e4⟩ := C76_exact 0 0 ps
    rw [← e3]
    unfold spherocity onePointOpt
    simp only [Opt.run]
    cases hc : spherocityWithGrad 0 0 ps with
    | error e => simp [e4 e (Or.inr (Or.inr hc))]
    | ok r => simp
  have h1 := h onePointOpt onePointOpt_ok (0, 0) hg false zToX zToX_orthogonal [⟨0, 0, 1, 1⟩]
  rw [key, key, List.map_cons, List.map_nil, zToX_beam] at h1
  simp [offAxis] at h1

-- non-vacuity of `C115_thrust`: one particle along the beam, turned to the first axis; both searches find thrust 1
example : ∃ t : ℝ, thrust onePointOpt (0, 0) false [⟨0, 0, 1, 1⟩] = .ok (t, none) ∧
    thrust onePointOpt (0, π / 2) false ([⟨0, 0, 1, 1⟩].map (rotP4 zToX)) = .ok (t, none) ∧
    (∀ φ θ, InDomain (φ, θ) → thrustAt [⟨0, 0, 1, 1⟩] φ θ ≤ t) ∧
    (∀ φ θ, InDomain (φ, θ) → thrustAt ([⟨0, 0, 1, 1⟩].map (rotP4 zToX)) φ θ ≤ t) := by
  rw [List.map_cons, List.map_nil, zToX_beam]
  have m1 : ∀ p ∈ [(⟨0, 0, 1, 1⟩ : P4)], Moving p := by simp [Moving]
  have m2 : ∀ p ∈ [(⟨1, 0, 0, 1⟩ : P4)], Moving p := by simp [Moving]
  refine ⟨1, ?_, ?_, fun φ θ _ => ?_, fun φ θ _ => ?_⟩
  · obtain ⟨g1, g2, e, -⟩ := C69_thrust 0 0 [⟨0, 0, 1, 1⟩] (by simp) m1
    simp [thrust, onePointOpt, Opt.run, e, thrustAt, sumOf, norm3, onAxis]
  · obtain ⟨g1, g2, e, -⟩ := C69_thrust 0 (π / 2) [⟨1, 0, 0, 1⟩] (by simp) m2
    simp [thrust, onePointOpt, Opt.run, e, thrustAt, sumOf, norm3, onAxis]
  · obtain ⟨g1, g2, -, -, e, -⟩ := C69_thrust φ θ [⟨0, 0, 1, 1⟩] (by simp) m1
    exact e
  · obtain ⟨g1, g2, -, -, e, -⟩ := C69_thrust φ θ [⟨1, 0, 0, 1⟩] (by simp) m2
    exact e

end Gcl
