import Verif.Props.Optimise
import Verif.Props.Transform
import Verif.Props.Kinematics
/-! # C113: event shapes and masses under collinear splittings and soft emissions -/
namespace Gcl
set_option autoImplicit false
open Spec Real Filter Topology

/-- Homogeneous of degree one. -/
def Spec.Homog (f : P4 → ℝ) : Prop := ∀ c : ℝ, 0 < c → ∀ p, f (scale c p) = c * f p

/-- Two sets of momenta with the same sums of homogeneous quantities and the same answers to homogeneous questions. -/
structure Alike (ps qs : List P4) : Prop where
  nil : ps = [] ↔ qs = []
  all : ∀ P : P4 → Prop, (∀ c : ℝ, 0 < c → ∀ p, P (scale c p) ↔ P p) → ((∀ p ∈ ps, P p) ↔ ∀ p ∈ qs, P p)
  sum : ∀ f : P4 → ℝ, Homog f → sumOf f ps = sumOf f qs

theorem Alike.of_perm {ps qs : List P4} (h : ps.Perm qs) : Alike ps qs where
  nil := ⟨fun e => by subst e; exact h.symm.eq_nil, fun e => by subst e; exact h.eq_nil⟩
  all P _ := ⟨fun a p hp => a p (h.mem_iff.2 hp), fun a p hp => a p (h.mem_iff.1 hp)⟩
  sum f _ := sumOf_perm f h

theorem Alike.trans {a b c : List P4} (h1 : Alike a b) (h2 : Alike b c) : Alike a c where
  nil := h1.nil.trans h2.nil
  all P hP := (h1.all P hP).trans (h2.all P hP)
  sum f hf := (h1.sum f hf).trans (h2.sum f hf)

theorem Alike.split (p : P4) (ps : List P4) {z : ℝ} (h0 : 0 < z) (h1 : z < 1) :
    Alike (scale z p :: scale (1 - z) p :: ps) (p :: ps) where
  nil := by simp
  all P hP := by
    simp only [List.mem_cons, forall_eq_or_imp]
    rw [hP z h0 p, hP (1 - z) (by linarith) p]
    tauto
  sum f hf := by
    rw [sumOf_cons, sumOf_cons, sumOf_cons, hf z h0, hf (1 - z) (by linarith)]
    ring

theorem onAxis_scale (φ θ c : ℝ) (p : P4) : onAxis φ θ (scale c p) = c * onAxis φ θ p := by
  simp only [onAxis, scale]; ring

theorem norm3_scale {c : ℝ} (hc : 0 < c) (p : P4) : norm3 (scale c p) = c * norm3 p := by
  unfold norm3
  rw [show (scale c p).x ^ 2 + (scale c p).y ^ 2 + (scale c p).z ^ 2 = c ^ 2 * (p.x ^ 2 + p.y ^ 2 + p.z ^ 2) by
    simp only [scale]; ring, sqrt_mul (sq_nonneg c), sqrt_sq hc.le]

theorem offAxis_scale (φ θ : ℝ) {c : ℝ} (hc : 0 < c) (p : P4) :
    offAxis φ θ (scale c p) = c * offAxis φ θ p := by
  unfold offAxis
  rw [show ((scale c p).y * cos θ - (scale c p).z * (sin θ * sin φ)) ^ 2 +
      ((scale c p).z * (sin θ * cos φ) - (scale c p).x * cos θ) ^ 2 +
      ((scale c p).x * (sin θ * sin φ) - (scale c p).y * (sin θ * cos φ)) ^ 2 =
      c ^ 2 * ((p.y * cos θ - p.z * (sin θ * sin φ)) ^ 2 + (p.z * (sin θ * cos φ) - p.x * cos θ) ^ 2 +
        (p.x * (sin θ * sin φ) - p.y * (sin θ * cos φ)) ^ 2) by
    simp only [scale]; ring, sqrt_mul (sq_nonneg c), sqrt_sq hc.le]

theorem moving_scale {c : ℝ} (hc : 0 < c) (p : P4) : Moving (scale c p) ↔ Moving p := by
  simp only [Moving, scale, ne_eq, mul_eq_zero, hc.ne', false_or]

theorem copysign_scale {c : ℝ} (hc : 0 < c) (d : ℝ) : copysign 1 (c * d) = copysign 1 d := by
  rw [copysign_one, copysign_one]
  have : c * d < 0 ↔ d < 0 := by
    constructor
    · intro h; by_contra hd; push Not at hd; nlinarith [mul_nonneg hc.le hd]
    · intro h; exact mul_neg_of_pos_of_neg hc h
  simp only [this]

theorem Alike.thrust {ps qs : List P4} (h : Alike ps qs) (φ θ : ℝ) :
    thrustWithGrad φ θ ps = thrustWithGrad φ θ qs := by
  unfold thrustWithGrad
  have hm := h.all Moving (fun c hc p => moving_scale hc p)
  by_cases hp : ∀ p ∈ ps, Moving p
  · rw [thrustLoop_ok φ θ ps _ hp, thrustLoop_ok φ θ qs _ (hm.1 hp)]
    have e1 := h.sum (fun p => |onAxis φ θ p|) (fun c hc p => by
      simp only [onAxis_scale, abs_mul, abs_of_pos hc])
    have e2 := h.sum norm3 (fun c hc p => norm3_scale hc p)
    have e3 := h.sum (fun p => copysign 1 (onAxis φ θ p) * dPhi φ θ p) (fun c hc p => by
      simp only [onAxis_scale, copysign_scale hc]; simp only [dPhi, scale]; ring)
    have e4 := h.sum (fun p => copysign 1 (onAxis φ θ p) * dTheta φ θ p) (fun c hc p => by
      simp only [onAxis_scale, copysign_scale hc]; simp only [dTheta, scale]; ring)
    rw [e1, e2, e3, e4]
  · have hq := hp
    rw [hm] at hq
    push Not at hp hq
    rw [thrustLoop_err φ θ ps _ hp, thrustLoop_err φ θ qs _ hq]

theorem Alike.spherocity {ps qs : List P4} (h : Alike ps qs) (φ θ : ℝ) :
    spherocityWithGrad φ θ ps = spherocityWithGrad φ θ qs := by
  have hm := h.all (fun p => 0 < offAxis φ θ p) (fun c hc p => by
    rw [offAxis_scale φ θ hc]; exact mul_pos_iff_of_pos_left hc)
  by_cases hp : ∀ p ∈ ps, 0 < offAxis φ θ p
  · unfold spherocityWithGrad
    rw [sphLoop_ok φ θ ps _ hp, sphLoop_ok φ θ qs _ (hm.1 hp)]
    have e1 := h.sum (offAxis φ θ) (fun c hc p => offAxis_scale φ θ hc p)
    have e2 := h.sum norm3 (fun c hc p => norm3_scale hc p)
    have e3 := h.sum (fun p => 2 * (-(onAxis φ θ p * dPhi φ θ p) / offAxis φ θ p)) (fun c hc p => by
      simp only [onAxis_scale, offAxis_scale φ θ hc]
      rw [show -(c * onAxis φ θ p * dPhi φ θ (scale c p)) = c * (c * -(onAxis φ θ p * dPhi φ θ p)) by
        simp only [dPhi, scale]; ring, mul_div_mul_left _ _ hc.ne', ]
      ring)
    have e4 := h.sum (fun p => 2 * (-(onAxis φ θ p * dTheta φ θ p) / offAxis φ θ p)
          + (-2 * cos (2 * θ) * cos φ * p.x * (p.y - p.z)) / offAxis φ θ p) (fun c hc p => by
      simp only [onAxis_scale, offAxis_scale φ θ hc]
      rw [show -(c * onAxis φ θ p * dTheta φ θ (scale c p)) = c * (c * -(onAxis φ θ p * dTheta φ θ p)) by
        simp only [dTheta, scale]; ring, mul_div_mul_left _ _ hc.ne',
        show -2 * cos (2 * θ) * cos φ * (scale c p).x * ((scale c p).y - (scale c p).z) =
          c * (c * (-2 * cos (2 * θ) * cos φ * p.x * (p.y - p.z))) by simp only [scale]; ring,
        mul_div_mul_left _ _ hc.ne']
      ring)
    rw [e1, e2, e3, e4]
  · have hq := hp
    rw [hm] at hq
    have key : ∀ rs : List P4, (¬ ∀ p ∈ rs, 0 < offAxis φ θ p) →
        spherocityWithGrad φ θ rs = .error .zeroDivisionError := by
      intro rs hr
      obtain ⟨-, -, h3, h4⟩ := C76_exact φ θ rs
      cases hres : spherocityWithGrad φ θ rs with
      | error e => rw [h4 e (Or.inr (Or.inr hres))]
      | ok r =>
        exfalso
        apply hr
        intro p hp
        exact lt_of_le_of_ne (sqrt_nonneg _) ((h3.1 ⟨r, hres⟩).2 p hp).symm
    rw [key ps hp, key qs hq]

theorem Alike.cParam {ps qs : List P4} (h : Alike ps qs) : cParam ps = cParam qs := by
  have term : ∀ (c : ℝ), 0 < c → ∀ p q : P4,
      norm3 p * norm3 (scale c q) - dot3 p (scale c q) ^ 2 / (norm3 p * norm3 (scale c q)) =
        c * (norm3 p * norm3 q - dot3 p q ^ 2 / (norm3 p * norm3 q)) := by
    intro c hc p q
    rw [norm3_scale hc, show dot3 p (scale c q) ^ 2 = c * (c * dot3 p q ^ 2) by
      simp only [dot3, scale]; ring, show norm3 p * (c * norm3 q) = c * (norm3 p * norm3 q) by ring,
      mul_div_mul_left _ _ hc.ne']
    ring
  have term' : ∀ (c : ℝ), 0 < c → ∀ p q : P4,
      norm3 (scale c p) * norm3 q - dot3 (scale c p) q ^ 2 / (norm3 (scale c p) * norm3 q) =
        c * (norm3 p * norm3 q - dot3 p q ^ 2 / (norm3 p * norm3 q)) := by
    intro c hc p q
    have := term c hc q p
    rw [show norm3 (scale c p) * norm3 q = norm3 q * norm3 (scale c p) by ring,
      show dot3 (scale c p) q = dot3 q (scale c p) by simp only [dot3]; ring, this,
      show dot3 q p = dot3 p q by simp only [dot3]; ring, mul_comm (norm3 q) (norm3 p)]
  unfold Spec.cParam
  rw [h.sum norm3 (fun c hc p => norm3_scale hc p)]
  have inner : ∀ p : P4, sumOf (fun q => norm3 p * norm3 q - dot3 p q ^ 2 / (norm3 p * norm3 q)) ps =
      sumOf (fun q => norm3 p * norm3 q - dot3 p q ^ 2 / (norm3 p * norm3 q)) qs :=
    fun p => h.sum _ (fun c hc q => term c hc p q)
  simp only [inner]
  rw [h.sum (fun p => sumOf (fun q => norm3 p * norm3 q - dot3 p q ^ 2 / (norm3 p * norm3 q)) qs) (fun c hc p => by
    simp only [term' c hc p]
    rw [sumOf_mul_left])]

theorem Alike.cParameter {ps qs : List P4} (h : Alike ps qs) : cParameter ps = cParameter qs := by
  have hm := h.all Moving (fun c hc p => moving_scale hc p)
  have key : ∀ rs : List P4, ¬ (rs ≠ [] ∧ ∀ p ∈ rs, Moving p) → Gcl.cParameter rs = .error .zeroDivisionError := by
    intro rs hr
    obtain ⟨-, h2, -, h4⟩ := C76_exact 0 0 rs
    cases hres : Gcl.cParameter rs with
    | error e => rw [h4 e (Or.inr (Or.inl hres))]
    | ok r => exact absurd (h2.1 ⟨r, hres⟩) hr
  by_cases hp : ps ≠ [] ∧ ∀ p ∈ ps, Moving p
  · rw [(C71_value ps hp.1 hp.2).1, (C71_value qs (fun e => hp.1 (h.nil.2 e)) (hm.1 hp.2)).1, h.cParam]
  · rw [key ps hp, key qs (fun ⟨a, b⟩ => hp ⟨fun e => a (h.nil.1 e), hm.2 b⟩)]

/-- **C113** A particle of `ps` split into collinear fractions `z` and `1 - z`, the result in any order: thrust and
spherocity (for every optimiser, guess and choice of return value), the C-parameter and the combined mass are exactly the
same, exceptions included. -/
theorem C113_collinear (p : P4) (ps qs rs : List P4) (z : ℝ) (h0 : 0 < z) (h1 : z < 1)
    (hq : qs.Perm (p :: ps)) (hr : rs.Perm (scale z p :: scale (1 - z) p :: ps)) :
    (∀ minimize guess returnAxis, thrust minimize guess returnAxis rs = thrust minimize guess returnAxis qs) ∧
    (∀ minimize guess returnAxis, spherocity minimize guess returnAxis rs = spherocity minimize guess returnAxis qs) ∧
    cParameter rs = cParameter qs ∧ combinedMass rs = combinedMass qs := by
  have ha : Alike rs qs := (Alike.of_perm hr).trans ((Alike.split p ps h0 h1).trans (Alike.of_perm hq.symm))
  refine ⟨fun m g r => ?_, fun m g r => ?_, ha.cParameter, ?_⟩
  · unfold thrust
    simp only [ha.thrust]
  · unfold spherocity
    simp only [ha.spherocity]
  · have ht : total rs = total qs := by
      have hs : ∀ f : P4 → ℝ, Homog f → (rs.map f).sum = (qs.map f).sum := fun f hf => ha.sum f hf
      unfold total
      rw [hs P4.x (fun c _ p => rfl), hs P4.y (fun c _ p => rfl), hs P4.z (fun c _ p => rfl),
        hs P4.e (fun c _ p => rfl)]
    unfold combinedMass
    rw [ht]

/-- **C113** `split_hardest` with a vanishing angle (modulo `2π`) is such a splitting. -/
theorem C113_split_hardest (ps : List P4) (z angle : ℝ) (axis : Option SphericalAngle) (out : List P4)
    (hang : AngleEq angle 0) (hout : splitHardest ps z angle axis = .ok out) :
    (∀ minimize guess returnAxis, thrust minimize guess returnAxis out = thrust minimize guess returnAxis ps) ∧
    (∀ minimize guess returnAxis, spherocity minimize guess returnAxis out = spherocity minimize guess returnAxis ps) ∧
    cParameter out = cParameter ps ∧ combinedMass out = combinedMass ps := by
  have herr := (C83_errors ps z angle axis).1
  have hno : ¬ (¬ (0 < z ∧ z ≤ 1 / 2) ∨ (axis = none ∧ ps.length < 2) ∨ ps = []) := by
    intro h
    rw [herr.2 h] at hout
    cases hout
  push Not at hno
  obtain ⟨hz, hax, hne⟩ := hno
  obtain ⟨a, ha⟩ : ∃ a, splitHardest ps z angle (some a) = .ok out := by
    cases axis with
    | some a => exact ⟨a, hout⟩
    | none =>
      obtain ⟨a, -, h⟩ := C83_noaxis ps z angle (hax rfl)
      exact ⟨a, by rw [← h]; exact hout⟩
  obtain ⟨pre, post, p, c0, c1, e1, -, -, e2, e3, -, -⟩ := C83_split ps z angle a hz hne
  rw [e2] at ha
  cases ha
  have hrot : rotationMatrix angle a = 1 := by
    obtain ⟨k, hk⟩ := hang
    have hs : sin angle = 0 := by
      rw [hk, zero_add, show (k : ℝ) * (2 * π) = ((2 * k : ℤ) : ℝ) * π by push_cast; ring]
      exact sin_int_mul_pi _
    have hc : cos angle = 1 := by rw [hk, zero_add]; exact cos_int_mul_two_pi k
    unfold rotationMatrix
    rw [hs, hc]
    ext i j
    by_cases hij : i = j
    · subst hij; simp
    · simp [hij]
  obtain ⟨s1, s2, -, s4⟩ := e3
  rw [hrot, Matrix.one_mulVec] at s4
  have x0 : c0.x = z * p.x := by simpa using congrFun s4 0
  have y0 : c0.y = z * p.y := by simpa using congrFun s4 1
  have z0 : c0.z = z * p.z := by simpa using congrFun s4 2
  have hc0 : c0 = scale z p := P4.ext x0 y0 z0 s2
  have hc1 : c1 = scale (1 - z) p := by
    have hx := congrArg P4.x s1
    have hy := congrArg P4.y s1
    have hzz := congrArg P4.z s1
    have he := congrArg P4.e s1
    simp only [padd] at hx hy hzz he
    apply P4.ext <;> simp only [scale] <;> linarith
  subst hc0 hc1
  refine C113_collinear p (pre ++ post) ps _ z hz.1 (by linarith [hz.2]) ?_ ?_
  · rw [e1]; exact List.perm_middle
  · exact (List.perm_append_comm (l₁ := pre ++ post) (l₂ := [scale z p, scale (1 - z) p]))

/-- **C113** At any angle `split_hardest` keeps the combined mass. -/
theorem C113_mass (ps : List P4) (z angle : ℝ) (axis : Option SphericalAngle) (out : List P4)
    (hout : splitHardest ps z angle axis = .ok out) : combinedMass out = combinedMass ps := by
  have herr := (C83_errors ps z angle axis).1
  have hno : ¬ (¬ (0 < z ∧ z ≤ 1 / 2) ∨ (axis = none ∧ ps.length < 2) ∨ ps = []) := by
    intro h
    rw [herr.2 h] at hout
    cases hout
  push Not at hno
  obtain ⟨hz, hax, hne⟩ := hno
  obtain ⟨a, ha⟩ : ∃ a, splitHardest ps z angle (some a) = .ok out := by
    cases axis with
    | some a => exact ⟨a, hout⟩
    | none =>
      obtain ⟨a, -, h⟩ := C83_noaxis ps z angle (hax rfl)
      exact ⟨a, by rw [← h]; exact hout⟩
  obtain ⟨pre, post, p, c0, c1, -, -, -, e2, -, e4, -⟩ := C83_split ps z angle a hz hne
  rw [e2] at ha
  cases ha
  unfold combinedMass
  rw [e4]

/-! ## soft emissions -/

theorem sumOf_soft {f : P4 → ℝ} (hf : Homog f) {ε : ℝ} (hε : 0 < ε) (ps : List P4) (q : P4) :
    sumOf f (ps ++ [scale ε q]) = sumOf f ps + ε * f q := by
  simp only [sumOf, List.map_append, List.sum_append, List.map_cons, List.map_nil, List.sum_cons, List.sum_nil,
    hf ε hε q, add_zero]

theorem tendsto_affine (a b : ℝ) : Tendsto (fun ε : ℝ => a + ε * b) (𝓝[>] 0) (𝓝 a) := by
  have : Tendsto (fun ε : ℝ => a + ε * b) (𝓝 0) (𝓝 (a + 0 * b)) := by
    apply Continuous.tendsto
    fun_prop
  rw [zero_mul, add_zero] at this
  exact this.mono_left nhdsWithin_le_nhds

/-- **C113** Adding a particle whose momentum goes to zero changes thrust, C-parameter and (for an axis no particle is
parallel to) spherocity by less and less: for every scale `ε > 0` of the new particle's momentum they are defined, and
they tend to the values without it. -/
theorem C113_soft (ps : List P4) (hne : ps ≠ []) (hmov : ∀ p ∈ ps, Moving p) (q : P4) (hq : Moving q) (φ θ : ℝ) :
    (∃ (f : ℝ → ℝ) (v : ℝ), (∀ ε, 0 < ε → ∃ g1 g2, thrustWithGrad φ θ (ps ++ [scale ε q]) = .ok (f ε, g1, g2)) ∧
      (∃ g1 g2, thrustWithGrad φ θ ps = .ok (v, g1, g2)) ∧ Tendsto f (𝓝[>] 0) (𝓝 v)) ∧
    (∃ (f : ℝ → ℝ) (v : ℝ), (∀ ε, 0 < ε → cParameter (ps ++ [scale ε q]) = .ok (f ε)) ∧
      cParameter ps = .ok v ∧ Tendsto f (𝓝[>] 0) (𝓝 v)) ∧
    ((∀ p ∈ ps, offAxis φ θ p ≠ 0) → offAxis φ θ q ≠ 0 → ∃ (f : ℝ → ℝ) (v : ℝ),
      (∀ ε, 0 < ε → ∃ g1 g2, spherocityWithGrad φ θ (ps ++ [scale ε q]) = .ok (f ε, g1, g2)) ∧
      (∃ g1 g2, spherocityWithGrad φ θ ps = .ok (v, g1, g2)) ∧ Tendsto f (𝓝[>] 0) (𝓝 v)) := by
  have hN := sumOf_norm_pos hne hmov
  have hne' : ∀ ε, ps ++ [scale ε q] ≠ [] := by simp
  have hmov' : ∀ ε, 0 < ε → ∀ p ∈ ps ++ [scale ε q], Moving p := by
    intro ε hε p hp
    rcases List.mem_append.1 hp with hp | hp
    · exact hmov p hp
    · rw [List.mem_singleton.1 hp]; exact (moving_scale hε q).2 hq
  have hn : Homog norm3 := fun c hc p => norm3_scale hc p
  refine ⟨⟨fun ε => -thrustAt (ps ++ [scale ε q]) φ θ, -thrustAt ps φ θ, ?_, ?_, ?_⟩,
    ⟨fun ε => cParam (ps ++ [scale ε q]), cParam ps, ?_, (C71_value ps hne hmov).1, ?_⟩, ?_⟩
  · intro ε hε
    obtain ⟨g1, g2, h, -⟩ := C69_thrust φ θ _ (hne' ε) (hmov' ε hε)
    exact ⟨_, _, h⟩
  · obtain ⟨g1, g2, h, -⟩ := C69_thrust φ θ ps hne hmov
    exact ⟨_, _, h⟩
  · have ho : Homog (fun p => |onAxis φ θ p|) := fun c hc p => by simp only [onAxis_scale, abs_mul, abs_of_pos hc]
    refine Tendsto.neg ?_
    unfold thrustAt
    refine ((tendsto_affine (sumOf (fun p => |onAxis φ θ p|) ps) |onAxis φ θ q|).div
      (tendsto_affine (sumOf norm3 ps) (norm3 q)) hN.ne').congr' ?_
    filter_upwards [self_mem_nhdsWithin] with ε hε
    simp only [Pi.div_apply]
    rw [sumOf_soft ho hε, sumOf_soft hn hε]
  · intro ε hε
    exact (C71_value _ (hne' ε) (hmov' ε hε)).1
  · let t (p r : P4) : ℝ := norm3 p * norm3 r - dot3 p r ^ 2 / (norm3 p * norm3 r)
    have hsymm : ∀ p r, t p r = t r p := by
      intro p r
      simp only [t]
      rw [mul_comm (norm3 p) (norm3 r), show dot3 p r = dot3 r p by simp only [dot3]; ring]
    have ht : ∀ p, Homog (t p) := by
      intro p c hc r
      simp only [t]
      rw [norm3_scale hc, show dot3 p (scale c r) ^ 2 = c * (c * dot3 p r ^ 2) by
        simp only [dot3, scale]; ring, show norm3 p * (c * norm3 r) = c * (norm3 p * norm3 r) by ring,
        mul_div_mul_left _ _ hc.ne']
      ring
    have hS : ∀ ε, 0 < ε → sumOf (fun p => sumOf (t p) (ps ++ [scale ε q])) (ps ++ [scale ε q]) =
        sumOf (fun p => sumOf (t p) ps) ps + ε * (2 * sumOf (t q) ps + ε * t q q) := by
      intro ε hε
      have h1 : ∀ p, sumOf (t p) (ps ++ [scale ε q]) = sumOf (t p) ps + ε * t p q := fun p => sumOf_soft (ht p) hε ps q
      simp only [h1]
      have hh : Homog (fun p => sumOf (t p) ps + ε * t p q) := by
        intro c hc p
        have h2 : ∀ r, t (scale c p) r = c * t p r := fun r => by rw [hsymm, ht r c hc p, hsymm]
        have h3 : sumOf (t (scale c p)) ps = c * sumOf (t p) ps := by
          rw [← sumOf_mul_left]; exact sumOf_congr (fun r _ => h2 r)
        simp only [h3, h2]; ring
      rw [sumOf_soft hh hε, sumOf_add, sumOf_mul_left,
        show sumOf (fun p => t p q) ps = sumOf (t q) ps from sumOf_congr (fun p _ => hsymm p q)]
      ring
    have key : Tendsto (fun ε : ℝ => 3 / 2 * (sumOf (fun p => sumOf (t p) ps) ps +
        ε * (2 * sumOf (t q) ps + ε * t q q)) / (sumOf norm3 ps + ε * norm3 q) ^ 2) (𝓝[>] 0) (𝓝 (cParam ps)) := by
      have h1 : Tendsto (fun ε : ℝ => 3 / 2 * (sumOf (fun p => sumOf (t p) ps) ps +
          ε * (2 * sumOf (t q) ps + ε * t q q))) (𝓝[>] 0) (𝓝 (3 / 2 * sumOf (fun p => sumOf (t p) ps) ps)) := by
        have : Tendsto (fun ε : ℝ => 3 / 2 * (sumOf (fun p => sumOf (t p) ps) ps +
          ε * (2 * sumOf (t q) ps + ε * t q q))) (𝓝 0) (𝓝 (3 / 2 * (sumOf (fun p => sumOf (t p) ps) ps +
          0 * (2 * sumOf (t q) ps + 0 * t q q)))) := by
          apply Continuous.tendsto (f := fun ε : ℝ => 3 / 2 * (sumOf (fun p => sumOf (t p) ps) ps +
            ε * (2 * sumOf (t q) ps + ε * t q q)))
          fun_prop
        rw [zero_mul, add_zero] at this
        exact this.mono_left nhdsWithin_le_nhds
      exact h1.div ((tendsto_affine (sumOf norm3 ps) (norm3 q)).pow 2) (pow_ne_zero 2 hN.ne')
    refine key.congr' ?_
    filter_upwards [self_mem_nhdsWithin] with ε hε
    unfold cParam
    rw [sumOf_soft hn hε]
    exact congrArg (fun y => 3 / 2 * y / (sumOf norm3 ps + ε * norm3 q) ^ 2) (hS ε hε).symm
  · intro hoff hoffq
    have pos : ∀ p, offAxis φ θ p ≠ 0 → 0 < offAxis φ θ p := fun p h => lt_of_le_of_ne (sqrt_nonneg _) h.symm
    have ho : Homog (offAxis φ θ) := fun c hc p => offAxis_scale φ θ hc p
    refine ⟨fun ε => spherocityAt (ps ++ [scale ε q]) φ θ, spherocityAt ps φ θ, ?_, ?_, ?_⟩
    · intro ε hε
      obtain ⟨g1, g2, h, -⟩ := C70_gradient φ θ (ps ++ [scale ε q]) (hne' ε) (by
        intro p hp
        rcases List.mem_append.1 hp with hp | hp
        · exact pos p (hoff p hp)
        · rw [List.mem_singleton.1 hp, offAxis_scale φ θ hε]; exact mul_pos hε (pos q hoffq))
      exact ⟨_, _, h⟩
    · obtain ⟨g1, g2, h, -⟩ := C70_gradient φ θ ps hne (fun p hp => pos p (hoff p hp))
      exact ⟨_, _, h⟩
    · unfold spherocityAt
      refine ((((tendsto_affine (sumOf (offAxis φ θ) ps) (offAxis φ θ q)).const_mul (4 / π)).div
        (tendsto_affine (sumOf norm3 ps) (norm3 q)) hN.ne').pow 2).congr' ?_
      filter_upwards [self_mem_nhdsWithin] with ε hε
      simp only [Pi.div_apply]
      rw [sumOf_soft ho hε, sumOf_soft hn hε]

/-- **C113** The combined mass is unchanged in the limit too, and at the limit. -/
theorem C113_soft_mass (ps : List P4) (q : P4) :
    Tendsto (fun ε => combinedMass (ps ++ [scale ε q])) (𝓝 0) (𝓝 (combinedMass ps)) := by
  have e : ∀ qs : List P4, combinedMass qs = sqrt ((total qs).e ^ 2 - (total qs).x ^ 2 - (total qs).y ^ 2 -
      (total qs).z ^ 2) := by
    intro qs
    have h1 : (total qs).x ^ 2 * (-1) + (total qs).y ^ 2 * (-1) + (total qs).z ^ 2 * (-1) + (total qs).e ^ 2 * 1 =
        (total qs).e ^ 2 - (total qs).x ^ 2 - (total qs).y ^ 2 - (total qs).z ^ 2 := by ring
    unfold combinedMass
    simp only [h1]
    split
    · next h => rw [sqrt_eq_zero_of_nonpos h.le]
    · rfl
  have t : ∀ ε, total (ps ++ [scale ε q]) = ⟨(total ps).x + ε * q.x, (total ps).y + ε * q.y, (total ps).z + ε * q.z,
      (total ps).e + ε * q.e⟩ := by
    intro ε
    simp [total, scale]
  simp only [e, t]
  have hc : Continuous (fun ε : ℝ => sqrt (((total ps).e + ε * q.e) ^ 2 - ((total ps).x + ε * q.x) ^ 2 -
      ((total ps).y + ε * q.y) ^ 2 - ((total ps).z + ε * q.z) ^ 2)) := by fun_prop
  have := hc.tendsto 0
  simpa using this

/-- **C113** The limit itself is not allowed: with a particle of vanishing momentum thrust and C-parameter raise
`ZeroDivisionError`. -/
theorem C113_false : ¬ ∀ (ps : List P4) (q : P4) (φ θ : ℝ), ps ≠ [] → (∀ p ∈ ps, Moving p) →
    thrustWithGrad φ θ (ps ++ [scale 0 q]) = thrustWithGrad φ θ ps ∧
    cParameter (ps ++ [scale 0 q]) = cParameter ps := by
  intro h
  have hm : ∀ p ∈ [(⟨1, 0, 0, 1⟩ : P4)], Moving p := by simp [Moving]
  obtain ⟨h1, -⟩ := h [⟨1, 0, 0, 1⟩] ⟨1, 1, 1, 2⟩ 0 0 (by simp) hm
  obtain ⟨g1, g2, h2, -⟩ := C69_thrust 0 0 [⟨1, 0, 0, 1⟩] (by simp) hm
  rw [h2] at h1
  have := (C76_exact 0 0 ([⟨1, 0, 0, 1⟩] ++ [scale 0 ⟨1, 1, 1, 2⟩])).1.1 ⟨_, h1⟩
  have := this.2 (scale 0 ⟨1, 1, 1, 2⟩) (by simp)
  simp [Moving, scale] at this

/-- **C113** At the limit itself the event shapes raise, whatever the other particles and the axis are. -/
theorem C113_zero (ps : List P4) (q : P4) (φ θ : ℝ) :
    thrustWithGrad φ θ (ps ++ [scale 0 q]) = .error .zeroDivisionError ∧
    cParameter (ps ++ [scale 0 q]) = .error .zeroDivisionError ∧
    spherocityWithGrad φ θ (ps ++ [scale 0 q]) = .error .zeroDivisionError := by
  obtain ⟨h1, h2, h3, h4⟩ := C76_exact φ θ (ps ++ [scale 0 q])
  have hnot : ¬ ∀ p ∈ ps ++ [scale 0 q], Moving p := fun h => by
    have := h (scale 0 q) (by simp)
    simp [Moving, scale] at this
  refine ⟨?_, ?_, ?_⟩
  · cases h : thrustWithGrad φ θ (ps ++ [scale 0 q]) with
    | ok r => exact absurd (h1.1 ⟨r, h⟩).2 hnot
    | error e => rw [h4 e (Or.inl h)]
  · cases h : cParameter (ps ++ [scale 0 q]) with
    | ok r => exact absurd (h2.1 ⟨r, h⟩).2 hnot
    | error e => rw [h4 e (Or.inr (Or.inl h))]
  · cases h : spherocityWithGrad φ θ (ps ++ [scale 0 q]) with
    | ok r =>
      have := (h3.1 ⟨r, h⟩).2 (scale 0 q) (by simp)
      exact absurd (by simp [offAxis, scale]) this
    | error e => rw [h4 e (Or.inr (Or.inr h))]

-- non-vacuity: two particles, the harder of which is split collinearly
example : ∃ out, splitHardest [⟨3, 0, 4, 5⟩, ⟨0, 1, 0, 1⟩] (1 / 4) 0 (some ⟨1, 2⟩) = .ok out ∧
    (∀ p ∈ [(⟨3, 0, 4, 5⟩ : P4), ⟨0, 1, 0, 1⟩], Moving p) ∧ out.length = 3 ∧ AngleEq 0 0 := by
  obtain ⟨pre, post, p, c0, c1, -, -, -, h, -, -, hl⟩ := C83_split [⟨3, 0, 4, 5⟩, ⟨0, 1, 0, 1⟩] (1 / 4) 0 ⟨1, 2⟩
    (by norm_num) (by simp)
  exact ⟨_, h, by simp [Moving], hl, 0, by simp⟩
-- and the shapes are defined for it
example : ∃ c, cParameter [(⟨3, 0, 4, 5⟩ : P4), ⟨0, 1, 0, 1⟩] = .ok c :=
  (C76_exact 0 0 _).2.1.2 ⟨by simp, by simp [Moving]⟩

end Gcl
