import Verif.Props.ShiftEta
import Verif.Props.RoundedSum
import Verif.Model.NonFinite
/-!
# C145: infinite and nan components, and what is left after an experimental shift
-/
namespace Gcl
set_option autoImplicit false
open Real Classical Spec

/-- **C145** For finite components the attributes are those of Model/Momentum.lean (C56, C57, C89 and so on). -/
theorem C145_finite (neg : Bool) {tol : ℝ} (ht : 0 ≤ tol) (s : ℝ) (p : P4) :
    (P4F.of p).pt = .fin p.pt ∧ (P4F.of p).eta = p.eta ∧ (P4F.of p).rapidity neg tol = p.rapidity tol ∧
    (P4F.of p).phi tol = p.phi tol ∧ (P4F.of p).theta = .fin p.theta ∧
    (P4F.of p).mass neg = .fin p.mass ∧ (P4F.of p).massT neg = .fin p.massT ∧
    (P4F.of p).shiftRapidity s = P4F.of (p.shiftRapidity s) := by
  have hpt : (P4F.of p).pt = .fin p.pt := by simp [P4F.pt, P4F.of, Fl.hypot, pt_eq]
  have hmag : (P4F.of p).spatialMag = .fin p.spatialMag := by
    rw [P4F.spatialMag, hpt]
    simp only [P4F.of, Fl.hypot, spatialMag_eq, p3sq, pt_sq]
    congr 2; ring
  have hroot : ∀ a b : ℝ, rootDiffF neg (.fin a) (.fin b) = .fin (rootDiffTwoSquares a b) := by
    intro a b
    simp [rootDiffF, rootDiffTwoSquares, Fl.abs, Fl.sub, Fl.sqrt, Fl.copysign, Fl.mul, Fl.addF, copysign]
  refine ⟨hpt, ?_, ?_, ?_, ?_, ?_, ?_, ?_⟩
  · rw [P4F.eta, hmag]
    simp only [P4F.of, Fl.div, Fl.divR, P4.eta]
    by_cases h : p.spatialMag = 0
    · have hz : p.z = 0 := by
        have := spatialMag_sq p
        rw [h, p3sq] at this
        nlinarith [sq_nonneg p.x, sq_nonneg p.y, sq_nonneg p.z]
      simp [h, hz, Fl.arctanh]
    · simp [h, Fl.arctanh]
  · simp only [P4F.rapidity, P4F.of, rapidityF, Fl.abs, Fl.sub, Fl.lt, P4.rapidity, rapidityOf, Fl.addF]
    by_cases h : tol < |p.e - (|p.z|)|
    · have h0 : p.e - |p.z| ≠ 0 := by
        intro h0; rw [h0, abs_zero] at h; linarith
      simp only [h, if_true, Fl.div, Fl.divR, h0, if_false, Fl.log]
      by_cases h1 : 0 < (p.e + |p.z|) / (p.e - |p.z|)
      · simp [h1, Fl.mul, Fl.copysign, copysign]
      · by_cases h2 : (p.e + |p.z|) / (p.e - |p.z|) = 0
        · have h5 : (0.5 : ℝ) ≠ 0 := by norm_num
          have h6 : (0 : ℝ) < 0.5 := by norm_num
          simp [h2, Fl.mul, Fl.copysign, copysignInf, h5, h6]
        · simp [h1, h2, Fl.mul, Fl.copysign]
    · simp [h, Fl.copysign, copysignInf]
  · rw [P4F.phi, hpt]
    simp [P4F.of, Fl.arctan2, P4.phi, Fl.IsClose, P4.xyPol]
  · rw [P4F.theta, hpt]; rfl
  · rw [P4F.mass, hmag]; exact hroot _ _
  · exact hroot _ _
  · simp [P4F.shiftRapidity, P4F.of, P4.shiftRapidity, Fl.mul, Fl.sub]

/-- **C145** `pt` looks at `x` and `y` only: infinite if one of them is - even if the other is nan -, otherwise nan if
one of them is, otherwise `√(x² + y²)`. -/
theorem C145_pt (p : P4F) :
    (p.x.IsInf ∨ p.y.IsInf → p.pt = .pinf) ∧
    (¬ p.x.IsInf → ¬ p.y.IsInf → (p.x = .nan ∨ p.y = .nan) → p.pt = .nan) ∧
    (∀ x y : ℝ, p.x = .fin x → p.y = .fin y → p.pt = .fin √(x ^ 2 + y ^ 2)) := by
  obtain ⟨x, y, z, e⟩ := p
  cases x <;> cases y <;> simp [P4F.pt, Fl.hypot, Fl.IsInf]

/-- The values `pt` can have. -/
theorem ptF_cases (p : P4F) : p.pt = .pinf ∨ p.pt = .nan ∨
    ∃ x y : ℝ, p.x = .fin x ∧ p.y = .fin y ∧ p.pt = .fin √(x ^ 2 + y ^ 2) := by
  obtain ⟨x, y, z, e⟩ := p
  cases x <;> cases y <;> simp [P4F.pt, Fl.hypot, Fl.IsInf]

/-- **C145** `eta` never looks at the energy.  It is nan if `pz` is nan or infinite; for finite `pz` it is zero if `pt`
is infinite, nan if `pt` is, and for finite `x`, `y`, `z` what it is for finite components. -/
theorem C145_eta (p : P4F) :
    (∀ e, ({ p with e := e } : P4F).eta = p.eta) ∧
    (p.z = .nan ∨ p.z.IsInf → p.eta = .nan) ∧
    (∀ z : ℝ, p.z = .fin z → (p.pt = .pinf → p.eta = .fin 0) ∧ (p.pt = .nan → p.eta = .nan)) ∧
    (∀ x y z e : ℝ, p.x = .fin x → p.y = .fin y → p.z = .fin z → p.eta = (⟨x, y, z, e⟩ : P4).eta) := by
  refine ⟨fun e => rfl, ?_, ?_, ?_⟩
  · intro h
    obtain ⟨x, y, z, e⟩ := p
    rcases ptF_cases ⟨x, y, z, e⟩ with h1 | h1 | ⟨a, b, -, -, h1⟩ <;>
      cases z <;> simp_all [P4F.eta, P4F.spatialMag, Fl.hypot, Fl.IsInf, Fl.div, Fl.arctanh]
  · intro z hz
    obtain ⟨x, y, z', e⟩ := p
    simp only at hz; subst hz
    constructor <;> intro h <;>
      simp [P4F.eta, P4F.spatialMag, h, Fl.hypot, Fl.IsInf, Fl.div, Fl.arctanh]
  · intro x y z e hx hy hz
    rw [← (C145_finite false le_rfl 0 ⟨x, y, z, e⟩).2.1]
    simp [P4F.eta, P4F.of, P4F.spatialMag, P4F.pt, hx, hy, hz]

/-- **C145** `theta` never looks at the energy.  It is nan iff `pt` or `pz` is; otherwise infinities are as far away as
can be: the angle is `0` or `π` for infinite `pz` alone, `π/2` for infinite `pt` alone, `π/4` or `3π/4` for both. -/
theorem C145_theta (p : P4F) :
    (∀ e, ({ p with e := e } : P4F).theta = p.theta) ∧
    (p.theta = .nan ↔ p.pt = .nan ∨ p.z = .nan) ∧
    (∀ a : ℝ, p.pt = .fin a → (p.z = .pinf → p.theta = .fin 0) ∧ (p.z = .ninf → p.theta = .fin π)) ∧
    (p.pt = .pinf → (∀ z : ℝ, p.z = .fin z → p.theta = .fin (π / 2)) ∧
      (p.z = .pinf → p.theta = .fin (π / 4)) ∧ (p.z = .ninf → p.theta = .fin (3 * π / 4))) := by
  obtain ⟨x, y, z, e⟩ := p
  refine ⟨fun e => rfl, ?_, ?_, ?_⟩
  · rcases ptF_cases ⟨x, y, z, e⟩ with h1 | h1 | ⟨a, b, -, -, h1⟩ <;>
      cases z <;> simp [P4F.theta, h1, Fl.arctan2]
  · intro a ha
    rcases ptF_cases ⟨x, y, z, e⟩ with h1 | h1 | ⟨c, d, -, -, h1⟩
    · rw [h1] at ha; cases ha
    · rw [h1] at ha; cases ha
    · have : ¬ √(c ^ 2 + d ^ 2) < 0 := not_lt.2 (sqrt_nonneg _)
      constructor <;> rintro rfl <;> simp [P4F.theta, h1, Fl.arctan2, this]
  · intro h
    refine ⟨?_, ?_, ?_⟩
    · intro a; rintro rfl; simp [P4F.theta, h, Fl.arctan2]
    · rintro rfl; simp [P4F.theta, h, Fl.arctan2]
    · rintro rfl; simp [P4F.theta, h, Fl.arctan2]

/-- **C145** `phi` looks at `x` and `y` only.  It is nan iff one of them is nan, or both are finite and `pt` is within
the tolerance of zero; infinities give multiples of `π/4`. -/
theorem C145_phi (tol : ℝ) (p : P4F) :
    (∀ z e, ({ p with z := z, e := e } : P4F).phi tol = p.phi tol) ∧
    (p.phi tol = .nan ↔ p.x = .nan ∨ p.y = .nan ∨
      ∃ x y : ℝ, p.x = .fin x ∧ p.y = .fin y ∧ √(x ^ 2 + y ^ 2) ≤ tol) ∧
    (∀ x y : ℝ, p.x = .fin x → p.y = .fin y → tol < √(x ^ 2 + y ^ 2) → p.phi tol = .fin (Complex.arg ⟨x, y⟩)) ∧
    (∀ x : ℝ, p.x = .fin x → (p.y = .pinf → p.phi tol = .fin (π / 2)) ∧ (p.y = .ninf → p.phi tol = .fin (-(π / 2)))) ∧
    (∀ y : ℝ, p.y = .fin y → (p.x = .pinf → p.phi tol = .fin 0) ∧
      (p.x = .ninf → p.phi tol = .fin (if y < 0 then -π else π))) ∧
    (p.x = .pinf → (p.y = .pinf → p.phi tol = .fin (π / 4)) ∧ (p.y = .ninf → p.phi tol = .fin (-(π / 4)))) ∧
    (p.x = .ninf → (p.y = .pinf → p.phi tol = .fin (3 * π / 4)) ∧
      (p.y = .ninf → p.phi tol = .fin (-(3 * π / 4)))) := by
  obtain ⟨x, y, z, e⟩ := p
  refine ⟨fun z e => rfl, ?_, ?_, ?_⟩
  · cases x <;> cases y <;> simp [P4F.phi, P4F.pt, Fl.hypot, Fl.IsInf, Fl.IsClose, Fl.arctan2,
      abs_of_nonneg (sqrt_nonneg _)]
  · rintro a b ⟨⟩ ⟨⟩ h
    simp [P4F.phi, P4F.pt, Fl.hypot, Fl.IsClose, Fl.arctan2, abs_of_nonneg (sqrt_nonneg _), not_le.2 h]
  · cases x <;> cases y <;> simp [P4F.phi, P4F.pt, Fl.hypot, Fl.IsInf, Fl.IsClose, Fl.arctan2]

/-- **C145** `rapidity` looks at the energy and `pz` only.  If the energy is nan, it is infinite with the sign of `pz`;
if `pz` is nan, infinite with one sign or the other; if the energy is `+inf` and `pz` infinite, infinite with the sign
of `pz`; and in all other cases with an infinite component it is nan. -/
theorem C145_rapidity (neg : Bool) (tol : ℝ) (p : P4F) :
    (∀ x y, ({ p with x := x, y := y } : P4F).rapidity neg tol = p.rapidity neg tol) ∧
    (p.e = .nan → (∀ z : ℝ, p.z = .fin z → p.rapidity neg tol = if z < 0 then .ninf else .pinf) ∧
      (p.z.IsInf → p.rapidity neg tol = p.z)) ∧
    (p.z = .nan → p.rapidity neg tol = if neg then .ninf else .pinf) ∧
    (p.e = .pinf → p.z.IsInf → p.rapidity neg tol = p.z) ∧
    (p.e.IsInf → (∃ z : ℝ, p.z = .fin z) → p.rapidity neg tol = .nan) ∧
    (p.e = .ninf → p.z.IsInf → p.rapidity neg tol = .nan) ∧
    (∀ e : ℝ, p.e = .fin e → p.z.IsInf → p.rapidity neg tol = .nan) := by
  obtain ⟨x, y, z, e⟩ := p
  refine ⟨fun z e => rfl, ?_⟩
  cases z <;> cases e <;> simp [P4F.rapidity, rapidityF, Fl.abs, Fl.sub, Fl.lt, Fl.copysign, Fl.IsInf, Fl.addF,
    Fl.div, Fl.log, Fl.mul, Fl.divR]

/-- **C145** The transverse mass looks at the energy and `pz` only.  It is nan if one of them is, or both are infinite;
`+inf` if the energy alone is infinite, `-inf` if `pz` alone is. -/
theorem C145_mass_t (neg : Bool) (p : P4F) :
    (∀ x y, ({ p with x := x, y := y } : P4F).massT neg = p.massT neg) ∧
    (p.massT neg = .nan ↔ p.e = .nan ∨ p.z = .nan ∨ (p.e.IsInf ∧ p.z.IsInf)) ∧
    (∀ z : ℝ, p.z = .fin z → p.e.IsInf → p.massT neg = .pinf) ∧
    (∀ e : ℝ, p.e = .fin e → p.z.IsInf → p.massT neg = .ninf) := by
  obtain ⟨x, y, z, e⟩ := p
  refine ⟨fun z e => rfl, ?_⟩
  cases z <;> cases e <;> simp [P4F.massT, rootDiffF, Fl.abs, Fl.sub, Fl.copysign, Fl.IsInf, Fl.addF,
    Fl.sqrt, Fl.mul]

/-- The values the modulus of the momentum can have. -/
theorem magF_cases (p : P4F) :
    (p.spatialMag = .pinf ∧ (p.x.IsInf ∨ p.y.IsInf ∨ p.z.IsInf)) ∨
    (p.spatialMag = .nan ∧ ¬ (p.x.IsInf ∨ p.y.IsInf ∨ p.z.IsInf) ∧ (p.x = .nan ∨ p.y = .nan ∨ p.z = .nan)) ∨
    (∃ a : ℝ, p.spatialMag = .fin a ∧ ∃ x y z : ℝ, p.x = .fin x ∧ p.y = .fin y ∧ p.z = .fin z) := by
  obtain ⟨x, y, z, e⟩ := p
  cases x <;> cases y <;> cases z <;> simp [P4F.spatialMag, P4F.pt, Fl.hypot, Fl.IsInf]

/-- **C145** The mass is `-inf` if the energy is finite and some component of the momentum infinite - even if another
is nan -; `+inf` if the energy is infinite and the momentum finite; and nan iff the energy is nan, or no component of
the momentum is infinite but some is nan, or the energy and some component of the momentum are infinite. -/
theorem C145_mass (neg : Bool) (p : P4F) :
    (∀ e : ℝ, p.e = .fin e → (p.x.IsInf ∨ p.y.IsInf ∨ p.z.IsInf) → p.mass neg = .ninf) ∧
    (p.e.IsInf → (∃ x y z : ℝ, p.x = .fin x ∧ p.y = .fin y ∧ p.z = .fin z) → p.mass neg = .pinf) ∧
    (p.mass neg = .nan ↔ p.e = .nan ∨
      (¬ (p.x.IsInf ∨ p.y.IsInf ∨ p.z.IsInf) ∧ (p.x = .nan ∨ p.y = .nan ∨ p.z = .nan)) ∨
      (p.e.IsInf ∧ (p.x.IsInf ∨ p.y.IsInf ∨ p.z.IsInf))) := by
  rcases magF_cases p with ⟨h1, h2⟩ | ⟨h1, h2, h3⟩ | ⟨a, h1, u, v, w, hu, hv, hw⟩
  · have : ¬ ∃ x y z : ℝ, p.x = .fin x ∧ p.y = .fin y ∧ p.z = .fin z := by
      rintro ⟨a, b, c, ha, hb, hc⟩; simp [ha, hb, hc, Fl.IsInf] at h2
    generalize hI : (p.x.IsInf ∨ p.y.IsInf ∨ p.z.IsInf) = I at *
    rw [P4F.mass, h1]
    cases p.e <;> simp_all [rootDiffF, Fl.abs, Fl.sub, Fl.copysign, Fl.IsInf, Fl.addF, Fl.sqrt, Fl.mul]
  · have : ¬ ∃ x y z : ℝ, p.x = .fin x ∧ p.y = .fin y ∧ p.z = .fin z := by
      rintro ⟨a, b, c, ha, hb, hc⟩; simp [ha, hb, hc] at h3
    rw [P4F.mass, h1]
    generalize hI : (p.x.IsInf ∨ p.y.IsInf ∨ p.z.IsInf) = I at *
    generalize hN : (p.x = .nan ∨ p.y = .nan ∨ p.z = .nan) = N at *
    cases p.e <;> simp_all [rootDiffF, Fl.abs, Fl.sub, Fl.copysign, Fl.IsInf, Fl.addF, Fl.sqrt, Fl.mul]
  · rw [P4F.mass, h1]
    cases p.e <;> simp_all [rootDiffF, Fl.abs, Fl.sub, Fl.copysign, Fl.IsInf, Fl.addF, Fl.sqrt, Fl.mul]

/-- **C145** After `shift_eta(s, experimental=True)` a particle off the beam axis with pseudorapidity `h` has the `pt` and
`phi` it had and pseudorapidity `h + s`; its masses are nan; but its rapidity is not: it is infinite, with the sign of
`h + s`. -/
theorem C145_experimental (neg : Bool) (tol s : ℝ) (p : P4) (hp : 0 < p.pt) :
    ∃ h : ℝ, p.eta = .fin h ∧ (shiftEtaExp s p).toP4F.pt = .fin p.pt ∧
      (shiftEtaExp s p).toP4F.phi tol = p.phi tol ∧ (shiftEtaExp s p).toP4F.eta = .fin (h + s) ∧
      (shiftEtaExp s p).toP4F.mass neg = .nan ∧ (shiftEtaExp s p).toP4F.massT neg = .nan ∧
      (shiftEtaExp s p).toP4F.rapidity neg tol = if h + s < 0 then .ninf else .pinf := by
  obtain ⟨h, z', h1, h2, h3⟩ := C63_experimental s p hp
  have hz : z' = p.pt * sinh (h + s) := by
    have := congrArg ExpRec.z h2
    simp only [shiftEtaExp, h1, Fl.addR, Fl.fin.injEq] at this
    exact this.symm
  have hneg : z' < 0 ↔ h + s < 0 := by
    rw [hz, mul_neg_iff]
    simp [hp, hp.le, sinh_neg_iff, not_lt.2 hp.le]
  refine ⟨h, h1, ?_, ?_, ?_, ?_, ?_, ?_⟩ <;> rw [h2]
  · simp [ExpRec.toP4F, P4F.pt, Fl.hypot, pt_eq]
  · simp [ExpRec.toP4F, P4F.phi, P4F.pt, Fl.hypot, Fl.IsClose, Fl.arctan2, P4.phi, pt_eq, P4.xyPol]
  · rw [(C145_eta _).2.2.2 p.x p.y z' 0 rfl rfl rfl, (h3 0).2]
  · exact (C145_mass neg _).2.2.2 (Or.inl rfl)
  · exact (C145_mass_t neg _).2.1.2 (Or.inl rfl)
  · rw [((C145_rapidity neg tol _).2.1 rfl).1 z' rfl]
    simp [hneg]

example : (0 : ℝ) < (⟨3, 4, 12, 13⟩ : P4).pt := by rw [pt_eq]; norm_num

/-- **C145** After `shift_eta(s, experimental=True)` a particle on the beam axis has no pseudorapidity and no polar angle
any more (nan), and its masses are nan; its rapidity is infinite, of a sign nothing is known about. -/
theorem C145_experimental_beam (neg : Bool) (tol s : ℝ) (p : P4) (hp : p.pt = 0) :
    (shiftEtaExp s p).toP4F.pt = .fin 0 ∧ (shiftEtaExp s p).toP4F.eta = .nan ∧ (shiftEtaExp s p).toP4F.theta = .nan ∧
      (shiftEtaExp s p).toP4F.mass neg = .nan ∧ (shiftEtaExp s p).toP4F.massT neg = .nan ∧
      (shiftEtaExp s p).toP4F.rapidity neg tol = if neg then .ninf else .pinf := by
  rw [C63_experimental_beam s p hp]
  refine ⟨?_, ?_, ?_, ?_, ?_, ?_⟩
  · rw [pt_eq] at hp
    simp [ExpRec.toP4F, P4F.pt, Fl.hypot, hp]
  · exact (C145_eta _).2.1 (Or.inl rfl)
  · exact (C145_theta _).2.1.2 (Or.inr rfl)
  · exact (C145_mass neg _).2.2.2 (Or.inl rfl)
  · exact (C145_mass_t neg _).2.1.2 (Or.inl rfl)
  · exact (C145_rapidity neg tol _).2.2.1 rfl

/-- **C145** The documentation of `shift_eta(experimental=True)` says that attributes which rely on the energy will be
nan (graphicle/data.py:1686-1688).  The rapidity relies on the energy and is nan for no particle and no shift. -/
theorem C145_false (neg : Bool) (tol s : ℝ) (p : P4) : (shiftEtaExp s p).toP4F.rapidity neg tol ≠ .nan := by
  rcases (pt_nonneg p).eq_or_lt with h | h
  · rw [(C145_experimental_beam neg tol s p h.symm).2.2.2.2.2]
    cases neg <;> simp
  · obtain ⟨a, -, -, -, -, -, -, h7⟩ := C145_experimental neg tol s p h
    rw [h7]; split <;> simp

/-- **C145** So `delta_R(pseudo=False)` of two particles after `shift_eta(experimental=True)` is either infinite or only
the difference in azimuth, depending on whether the new pseudorapidities have opposite signs: how far apart they are
in pseudorapidity makes no difference. -/
theorem C145_distance (neg : Bool) (tol s : ℝ) (p q : P4) (hp : 0 < p.pt) (hq : 0 < q.pt) :
    ∃ h k : ℝ, p.eta = .fin h ∧ q.eta = .fin k ∧
      ((h + s < 0 ↔ k + s < 0) → deltaRCell ((shiftEtaExp s p).toP4F.rapidity neg tol)
        ((shiftEtaExp s q).toP4F.rapidity neg tol) p.xyPol q.xyPol =
          .fin |(p.xyPol * (starRingEnd ℂ) q.xyPol).arg|) ∧
      (¬ (h + s < 0 ↔ k + s < 0) → deltaRCell ((shiftEtaExp s p).toP4F.rapidity neg tol)
        ((shiftEtaExp s q).toP4F.rapidity neg tol) p.xyPol q.xyPol = .pinf) := by
  obtain ⟨h, h1, -, -, -, -, -, h2⟩ := C145_experimental neg tol s p hp
  obtain ⟨k, k1, -, -, -, -, -, k2⟩ := C145_experimental neg tol s q hq
  refine ⟨h, k, h1, k1, ?_, ?_⟩ <;> intro hs <;> rw [h2, k2] <;> clear h2 k2 <;>
    by_cases a : h + s < 0 <;> by_cases b : k + s < 0
  all_goals first
    | (exfalso; revert hs; simp only [a, b]; simp; done)
    | simp [a, b, deltaRCell, hypotFl, Fl.sub, sqrt_sq_eq_abs]

/-- **C145** Boosting a particle of infinite energy and finite `pz`: by zero, `pz` becomes nan; by anything else, the
energy stays and `pz` becomes infinite; and boosting back does not undo it: energy and `pz` are then nan. -/
theorem C145_boost (p : P4F) (z : ℝ) (hz : p.z = .fin z) (he : p.e = .pinf) (s : ℝ) :
    (p.shiftRapidity 0 = ⟨p.x, p.y, .nan, .pinf⟩) ∧
    (0 < s → p.shiftRapidity s = ⟨p.x, p.y, .pinf, .pinf⟩) ∧ (s < 0 → p.shiftRapidity s = ⟨p.x, p.y, .ninf, .pinf⟩) ∧
    (s ≠ 0 → (p.shiftRapidity s).shiftRapidity (-s) = ⟨p.x, p.y, .nan, .nan⟩) := by
  obtain ⟨x, y, z', e⟩ := p
  simp only at hz he
  subst hz he
  have hc := cosh_pos s
  refine ⟨?_, ?_, ?_, ?_⟩
  · simp [P4F.shiftRapidity, Fl.mul, Fl.sub]
  · intro hs
    have := sinh_pos_iff.2 hs
    simp [P4F.shiftRapidity, Fl.mul, Fl.sub, hc.ne', hc, this, this.ne', not_lt.2 this.le, hs.ne', not_lt.2 hs.le]
  · intro hs
    have := sinh_neg_iff.2 hs
    simp [P4F.shiftRapidity, Fl.mul, Fl.sub, hc.ne', hc, this, this.ne, hs, hs.ne]
  · intro hs
    rcases lt_or_gt_of_ne hs with hs | hs
    · have := sinh_neg_iff.2 hs
      simp [P4F.shiftRapidity, Fl.mul, Fl.sub, hc.ne', hc, this, this.ne, hs, hs.ne, not_lt.2 hs.le, not_lt.2 this.le]
    · have := sinh_pos_iff.2 hs
      simp [P4F.shiftRapidity, Fl.mul, Fl.sub, hc.ne', hc, this, this.ne', not_lt.2 this.le, hs.ne', not_lt.2 hs.le, hs]

/-- What the sum of a column is, if it has not infinities of both signs.  Lemma of `sumF_eq`. -/
noncomputable def classify (l : List Fl) : Fl :=
  if Fl.nan ∈ l then .nan else if Fl.pinf ∈ l then .pinf else if Fl.ninf ∈ l then .ninf
  else .fin (l.map (fun a => match a with | .fin x => x | _ => 0)).sum

theorem classify_append (a b : List Fl) (h : ¬ (Fl.pinf ∈ a ++ b ∧ Fl.ninf ∈ a ++ b)) :
    (classify a).addF (classify b) = classify (a ++ b) ∧
      ¬ ((classify a).IsInf ∧ (classify b).IsInf ∧ classify a ≠ classify b) := by
  simp only [List.mem_append] at h
  by_cases a1 : Fl.nan ∈ a <;> by_cases a2 : Fl.pinf ∈ a <;> by_cases a3 : Fl.ninf ∈ a <;>
  by_cases b1 : Fl.nan ∈ b <;> by_cases b2 : Fl.pinf ∈ b <;> by_cases b3 : Fl.ninf ∈ b <;>
  first
    | (exfalso; revert h; simp only [a2, b2, a3, b3]; simp; done)
    | simp [classify, a1, a2, a3, b1, b2, b3, Fl.addF, Fl.IsInf]

theorem evalF_classify (xs : List Fl) (t : SumTree)
    (h : ¬ (Fl.pinf ∈ t.leaves.map (fun i => xs.getD i (.fin 0)) ∧
      Fl.ninf ∈ t.leaves.map (fun i => xs.getD i (.fin 0)))) :
    t.evalF xs = some (classify (t.leaves.map (fun i => xs.getD i (.fin 0)))) := by
  induction t with
  | leaf i =>
    simp only [SumTree.evalF, SumTree.leaves, List.map_cons, List.map_nil, Option.some.injEq]
    cases xs.getD i (.fin 0) <;> simp [classify]
  | node l r ihl ihr =>
    simp only [SumTree.leaves, List.map_append] at h ⊢
    have h' := h
    simp only [List.mem_append] at h'
    rw [SumTree.evalF, ihl (fun k => h' ⟨.inl k.1, .inl k.2⟩), ihr (fun k => h' ⟨.inr k.1, .inr k.2⟩)]
    obtain ⟨h1, h2⟩ := classify_append _ _ h
    simp only [if_neg h2, h1]

theorem sumF_eq (t : SumTree) (xs : List Fl) (ht : Orders xs.length t) (h : ¬ (Fl.pinf ∈ xs ∧ Fl.ninf ∈ xs)) :
    sumF t xs = some (classify xs) := by
  cases xs with
  | nil => simp [sumF, classify]
  | cons x xs =>
    have hp : (t.leaves.map (fun i => (x :: xs).getD i (.fin 0))).Perm (x :: xs) := by
      have h1 := (List.Perm.map (fun i => (x :: xs).getD i (.fin 0)) ht)
      refine h1.trans (.of_eq ?_)
      refine List.ext_getElem (by simp) (fun i h1 h2 => ?_)
      simp at h1
      simp [List.getElem?_eq_getElem h2]
    have hc : classify (t.leaves.map (fun i => (x :: xs).getD i (.fin 0))) = classify (x :: xs) := by
      simp only [classify, hp.mem_iff, (hp.map _).sum_eq]
    rw [sumF, evalF_classify _ _ (by rw [hp.mem_iff, hp.mem_iff]; exact h), hc]

theorem mass_table {a b c d : Fl} (n1 : a ≠ .nan) (n2 : b ≠ .nan) (n3 : c ≠ .nan) (n4 : d ≠ .nan)
    (h : ¬ (d.IsInf ∧ (a.IsInf ∨ b.IsInf ∨ c.IsInf))) :
    (d.IsInf → sqrtOrZero ((((d.mul d).sub (a.mul a)).sub (b.mul b)).sub (c.mul c)) = .pinf) ∧
    (a.IsInf ∨ b.IsInf ∨ c.IsInf → sqrtOrZero ((((d.mul d).sub (a.mul a)).sub (b.mul b)).sub (c.mul c)) = .fin 0) := by
  have sq : ∀ u : Fl, u ≠ .nan → (u.IsInf ∧ u.mul u = .pinf) ∨ (¬ u.IsInf ∧ ∃ r, u.mul u = .fin r) := by
    intro u hu
    cases u <;> simp_all [Fl.IsInf, Fl.mul]
  rcases sq a n1 with ⟨a1, a2⟩ | ⟨a1, ra, a2⟩ <;> rcases sq b n2 with ⟨b1, b2⟩ | ⟨b1, rb, b2⟩ <;>
    rcases sq c n3 with ⟨c1, c2⟩ | ⟨c1, rc, c2⟩ <;> rcases sq d n4 with ⟨d1, d2⟩ | ⟨d1, rd, d2⟩ <;>
    simp only [a1, b1, c1, d1, true_or, or_true, and_self, not_true_eq_false, or_self, and_false, not_false_eq_true] at h <;>
    simp [a1, b1, c1, d1, a2, b2, c2, d2, Fl.sub, sqrtOrZero]

/-- **C145** `combined_mass` of records with infinite and nan components, whatever the order of summation, if in no
column there are infinities of both signs and not both an energy and a component of a momentum are infinite: nan if
any component of any record is; otherwise `+inf` if an energy is infinite, and zero - not nan - if a component of a
momentum is. -/
theorem C145_combined_mass (t : SumTree) (blas : Fl) (ps : List P4F) (ht : Orders ps.length t)
    (hsign : ∀ c ∈ [P4F.x, P4F.y, P4F.z, P4F.e], ¬ (Fl.pinf ∈ ps.map c ∧ Fl.ninf ∈ ps.map c))
    (hboth : ¬ ((∃ p ∈ ps, p.e.IsInf) ∧ ∃ p ∈ ps, p.x.IsInf ∨ p.y.IsInf ∨ p.z.IsInf)) :
    ((∃ p ∈ ps, p.x = .nan ∨ p.y = .nan ∨ p.z = .nan ∨ p.e = .nan) → combinedMassF t blas ps = .nan) ∧
    ((∀ p ∈ ps, p.x ≠ .nan ∧ p.y ≠ .nan ∧ p.z ≠ .nan ∧ p.e ≠ .nan) →
      ((∃ p ∈ ps, p.e.IsInf) → combinedMassF t blas ps = .pinf) ∧
      ((∃ p ∈ ps, p.x.IsInf ∨ p.y.IsInf ∨ p.z.IsInf) → combinedMassF t blas ps = .fin 0)) ∧
    (∀ qs : List P4, ps = qs.map P4F.of → combinedMassF t blas ps = .fin (combinedMass qs)) := by
  have hs : ∀ c ∈ [P4F.x, P4F.y, P4F.z, P4F.e], sumF t (ps.map c) = some (classify (ps.map c)) :=
    fun c hc => sumF_eq t _ (by simpa using ht) (hsign c hc)
  have key : ∀ c : P4F → Fl, (classify (ps.map c) = .nan ↔ ∃ p ∈ ps, c p = .nan) := by
    intro c
    unfold classify
    split_ifs <;> simp_all
  have kinf : ∀ c : P4F → Fl, ((classify (ps.map c)).IsInf ↔ (¬ ∃ p ∈ ps, c p = .nan) ∧ ∃ p ∈ ps, (c p).IsInf) := by
    intro c
    have e : ∀ a : Fl, a.IsInf ↔ a = .pinf ∨ a = .ninf := by intro a; cases a <;> simp [Fl.IsInf]
    unfold classify
    simp only [List.mem_map, e]
    split_ifs with h1 h2 h3
    · simp; intro h; obtain ⟨p, hp, hc⟩ := h1; exact absurd hc (h p hp)
    · simp only [true_or, true_iff]; exact ⟨h1, by obtain ⟨p, hp, hc⟩ := h2; exact ⟨p, hp, .inl hc⟩⟩
    · simp only [or_true, true_iff]; exact ⟨h1, by obtain ⟨p, hp, hc⟩ := h3; exact ⟨p, hp, .inr hc⟩⟩
    · simp only [reduceCtorEq, or_self, false_iff]
      rintro ⟨-, p, hp, hc | hc⟩
      · exact h2 ⟨p, hp, hc⟩
      · exact h3 ⟨p, hp, hc⟩
  have hno : ¬ ((classify (ps.map P4F.e)).IsInf ∧ ((classify (ps.map P4F.x)).IsInf ∨ (classify (ps.map P4F.y)).IsInf ∨
      (classify (ps.map P4F.z)).IsInf)) := by
    rw [kinf, kinf, kinf, kinf]
    rintro ⟨⟨-, h1⟩, h2⟩
    refine hboth ⟨h1, ?_⟩
    rcases h2 with ⟨-, p, hp, h⟩ | ⟨-, p, hp, h⟩ | ⟨-, p, hp, h⟩
    · exact ⟨p, hp, .inl h⟩
    · exact ⟨p, hp, .inr (.inl h)⟩
    · exact ⟨p, hp, .inr (.inr h)⟩
  have hval : combinedMassF t blas ps =
      sqrtOrZero (((((classify (ps.map P4F.e)).mul (classify (ps.map P4F.e))).sub
        ((classify (ps.map P4F.x)).mul (classify (ps.map P4F.x)))).sub
        ((classify (ps.map P4F.y)).mul (classify (ps.map P4F.y)))).sub
        ((classify (ps.map P4F.z)).mul (classify (ps.map P4F.z)))) := by
    rw [combinedMassF, hs _ (by simp), hs _ (by simp), hs _ (by simp), hs _ (by simp)]
    simp only [if_neg hno]
  refine ⟨?_, ?_, ?_⟩
  · rintro ⟨p, hp, h⟩
    have : classify (ps.map P4F.x) = .nan ∨ classify (ps.map P4F.y) = .nan ∨ classify (ps.map P4F.z) = .nan ∨
        classify (ps.map P4F.e) = .nan := by
      simp only [key]
      rcases h with h | h | h | h
      · exact .inl ⟨p, hp, h⟩
      · exact .inr (.inl ⟨p, hp, h⟩)
      · exact .inr (.inr (.inl ⟨p, hp, h⟩))
      · exact .inr (.inr (.inr ⟨p, hp, h⟩))
    rw [hval]
    clear hval hno kinf key hs
    generalize classify (ps.map P4F.x) = a at *
    generalize classify (ps.map P4F.y) = b at *
    generalize classify (ps.map P4F.z) = c at *
    generalize classify (ps.map P4F.e) = d at *
    rcases this with rfl | rfl | rfl | rfl
    · cases d <;> simp [Fl.mul, Fl.sub, sqrtOrZero]
    · cases d <;> cases a <;> simp [Fl.mul, Fl.sub, sqrtOrZero]
    · cases d <;> cases a <;> cases b <;> simp [Fl.mul, Fl.sub, sqrtOrZero]
    · simp [Fl.mul, Fl.sub, sqrtOrZero]
  · intro hnn
    have n1 : classify (ps.map P4F.x) ≠ .nan := by
      rw [Ne, key]; rintro ⟨p, hp, h⟩; exact (hnn p hp).1 h
    have n2 : classify (ps.map P4F.y) ≠ .nan := by
      rw [Ne, key]; rintro ⟨p, hp, h⟩; exact (hnn p hp).2.1 h
    have n3 : classify (ps.map P4F.z) ≠ .nan := by
      rw [Ne, key]; rintro ⟨p, hp, h⟩; exact (hnn p hp).2.2.1 h
    have n4 : classify (ps.map P4F.e) ≠ .nan := by
      rw [Ne, key]; rintro ⟨p, hp, h⟩; exact (hnn p hp).2.2.2 h
    have i1 : (classify (ps.map P4F.e)).IsInf ↔ ∃ p ∈ ps, p.e.IsInf := by
      rw [kinf, and_iff_right]; rintro ⟨p, hp, h⟩; exact (hnn p hp).2.2.2 h
    have i2 : ((classify (ps.map P4F.x)).IsInf ∨ (classify (ps.map P4F.y)).IsInf ∨ (classify (ps.map P4F.z)).IsInf) ↔
        ∃ p ∈ ps, p.x.IsInf ∨ p.y.IsInf ∨ p.z.IsInf := by
      rw [kinf, kinf, kinf, and_iff_right, and_iff_right, and_iff_right]
      · constructor
        · rintro (⟨p, hp, h⟩ | ⟨p, hp, h⟩ | ⟨p, hp, h⟩)
          · exact ⟨p, hp, .inl h⟩
          · exact ⟨p, hp, .inr (.inl h)⟩
          · exact ⟨p, hp, .inr (.inr h)⟩
        · rintro ⟨p, hp, h | h | h⟩
          · exact .inl ⟨p, hp, h⟩
          · exact .inr (.inl ⟨p, hp, h⟩)
          · exact .inr (.inr ⟨p, hp, h⟩)
      · rintro ⟨p, hp, h⟩; exact (hnn p hp).2.2.1 h
      · rintro ⟨p, hp, h⟩; exact (hnn p hp).2.1 h
      · rintro ⟨p, hp, h⟩; exact (hnn p hp).1 h
    rw [← i1, ← i2, hval]
    clear hval i1 i2 kinf key hs
    generalize classify (ps.map P4F.x) = a at *
    generalize classify (ps.map P4F.y) = b at *
    generalize classify (ps.map P4F.z) = c at *
    generalize classify (ps.map P4F.e) = d at *
    exact mass_table n1 n2 n3 n4 hno
  · rintro qs rfl
    have hc : ∀ (c : P4F → Fl) (d : P4 → ℝ), (∀ q, c (P4F.of q) = .fin (d q)) →
        classify ((qs.map P4F.of).map c) = .fin (qs.map d).sum := by
      intro c d hcd
      simp [classify, hcd, Function.comp_def]
    rw [hval, hc P4F.x P4.x (fun _ => rfl), hc P4F.y P4.y (fun _ => rfl), hc P4F.z P4.z (fun _ => rfl),
      hc P4F.e P4.e (fun _ => rfl)]
    have he : (qs.map P4.e).sum * (qs.map P4.e).sum - (qs.map P4.x).sum * (qs.map P4.x).sum -
        (qs.map P4.y).sum * (qs.map P4.y).sum - (qs.map P4.z).sum * (qs.map P4.z).sum =
        (qs.map P4.x).sum ^ 2 * (-1) + (qs.map P4.y).sum ^ 2 * (-1) + (qs.map P4.z).sum ^ 2 * (-1) +
          (qs.map P4.e).sum ^ 2 * 1 := by ring
    simp only [Fl.mul, Fl.sub, combinedMass, total, he, sqrtOrZero]
    congr

example : (combinedMassF (.node (.leaf 0) (.leaf 1)) .nan [⟨.fin 1, .fin 2, .fin 3, .nan⟩, ⟨.fin 1, .pinf, .fin 3, .fin 9⟩] =
    .nan) ∧ combinedMassF (.node (.leaf 0) (.leaf 1)) .nan [⟨.fin 1, .fin 2, .fin 3, .fin 7⟩, ⟨.fin 1, .pinf, .fin 3, .fin 9⟩] =
    .fin 0 := by
  constructor
  · refine (C145_combined_mass _ _ _ (by simp [Orders, SumTree.leaves, List.range_succ]) ?_ ?_).1 ⟨_, List.mem_cons_self, by simp⟩
    · intro c hc; simp only [List.mem_cons, List.not_mem_nil, or_false] at hc
      rcases hc with rfl | rfl | rfl | rfl <;> simp
    · simp [Fl.IsInf]
  · refine ((C145_combined_mass _ _ _ (by simp [Orders, SumTree.leaves, List.range_succ]) ?_ ?_).2.1 ?_).2 ?_
    · intro c hc; simp only [List.mem_cons, List.not_mem_nil, or_false] at hc
      rcases hc with rfl | rfl | rfl | rfl <;> simp
    · simp [Fl.IsInf]
    · simp
    · simp [Fl.IsInf]

/-- Infinities of both signs meet somewhere, in whatever order they are added. -/
theorem evalF_clash (xs : List Fl) (t : SumTree) (hn : Fl.nan ∉ t.leaves.map (fun i => xs.getD i (.fin 0)))
    (hp : Fl.pinf ∈ t.leaves.map (fun i => xs.getD i (.fin 0)))
    (hm : Fl.ninf ∈ t.leaves.map (fun i => xs.getD i (.fin 0))) : t.evalF xs = none := by
  induction t with
  | leaf i =>
    simp only [SumTree.leaves, List.map_cons, List.map_nil, List.mem_singleton] at hp hm
    rw [← hp] at hm; exact absurd hm (by simp)
  | node l r ihl ihr =>
    simp only [SumTree.leaves, List.map_append, List.mem_append, not_or] at hn hp hm
    by_cases cl : Fl.pinf ∈ l.leaves.map (fun i => xs.getD i (.fin 0)) ∧ Fl.ninf ∈ l.leaves.map (fun i => xs.getD i (.fin 0))
    · rw [SumTree.evalF, ihl hn.1 cl.1 cl.2]
    by_cases cr : Fl.pinf ∈ r.leaves.map (fun i => xs.getD i (.fin 0)) ∧ Fl.ninf ∈ r.leaves.map (fun i => xs.getD i (.fin 0))
    · rw [SumTree.evalF, ihr hn.2 cr.1 cr.2]
      cases l.evalF xs <;> rfl
    rw [SumTree.evalF, evalF_classify xs l cl, evalF_classify xs r cr]
    generalize l.leaves.map (fun i => xs.getD i (.fin 0)) = a at *
    generalize r.leaves.map (fun i => xs.getD i (.fin 0)) = b at *
    have : (classify a).IsInf ∧ (classify b).IsInf ∧ classify a ≠ classify b := by
      rcases hp with h1 | h1 <;> rcases hm with h2 | h2
      · exact absurd ⟨h1, h2⟩ cl
      · have h3 : Fl.pinf ∉ b := fun h => cr ⟨h, h2⟩
        simp [classify, hn.1, hn.2, h1, h2, h3, Fl.IsInf]
      · have h3 : Fl.pinf ∉ a := fun h => cl ⟨h, h2⟩
        simp [classify, hn.1, hn.2, h1, h2, h3, Fl.IsInf]
      · exact absurd ⟨h1, h2⟩ cr
    simp only [if_pos this]

/-- **C145** `combined_mass` where a column without nan has infinities of both signs, whatever the order of summation:
zero, not nan, as numpy warns of the sum and any warning is answered with zero. -/
theorem C145_combined_mass_clash (t : SumTree) (blas : Fl) (ps : List P4F) (ht : Orders ps.length t) (c : P4F → Fl)
    (hc : c ∈ [P4F.x, P4F.y, P4F.z, P4F.e]) (hn : ∀ p ∈ ps, c p ≠ .nan) (hp : ∃ p ∈ ps, c p = .pinf)
    (hm : ∃ p ∈ ps, c p = .ninf) : combinedMassF t blas ps = .fin 0 := by
  have key : sumF t (ps.map c) = none := by
    have hperm : (t.leaves.map (fun i => (ps.map c).getD i (.fin 0))).Perm (ps.map c) := by
      refine (List.Perm.map (fun i => (ps.map c).getD i (.fin 0)) ht).trans (.of_eq ?_)
      refine List.ext_getElem (by simp) (fun i h1 h2 => ?_)
      simp at h1
      simp [h1]
    have e : sumF t (ps.map c) = t.evalF (ps.map c) := by
      cases ps with
      | nil => obtain ⟨p, h, -⟩ := hp; simp at h
      | cons p ps => rfl
    rw [e]
    refine evalF_clash _ _ ?_ ?_ ?_ <;> rw [hperm.mem_iff, List.mem_map]
    · rintro ⟨p, h1, h2⟩; exact hn p h1 h2
    · exact hp
    · exact hm
  simp only [List.mem_cons, List.not_mem_nil, or_false] at hc
  unfold combinedMassF
  rcases hc with rfl | rfl | rfl | rfl <;> rw [key]
  · cases sumF t (ps.map P4F.x) <;> rfl
  · cases sumF t (ps.map P4F.x) <;> cases sumF t (ps.map P4F.y) <;> rfl
  · cases sumF t (ps.map P4F.x) <;> cases sumF t (ps.map P4F.y) <;> cases sumF t (ps.map P4F.z) <;> rfl

example : combinedMassF (.node (.leaf 0) (.leaf 1)) .nan [⟨.fin 1, .ninf, .fin 3, .nan⟩, ⟨.fin 1, .pinf, .fin 3, .fin 9⟩] =
    .fin 0 :=
  C145_combined_mass_clash _ _ _ (by simp [Orders, SumTree.leaves, List.range_succ]) P4F.y (by simp) (by simp) (by simp) (by simp)

/-- **C145** So the combined mass of momenta after `shift_eta(experimental=True)` is nan, unless there are none. -/
theorem C145_experimental_mass (t : SumTree) (blas : Fl) (s : ℝ) (ps : List P4) (hne : ps ≠ [])
    (ht : Orders ps.length t) : combinedMassF t blas (ps.map (fun p => (shiftEtaExp s p).toP4F)) = .nan := by
  have hz : ∀ p : P4, ¬ (shiftEtaExp s p).z.IsInf := by
    intro p
    rcases (pt_nonneg p).eq_or_lt with h | h
    · rw [C63_experimental_beam s p h.symm]; simp [Fl.IsInf]
    · obtain ⟨_, z', _, h2, _⟩ := C63_experimental s p h
      rw [h2]; simp [Fl.IsInf]
  refine (C145_combined_mass t blas _ (by simpa using ht) ?_ ?_).1 ?_
  · intro c hc
    simp only [List.mem_cons, List.not_mem_nil, or_false] at hc
    rcases hc with rfl | rfl | rfl | rfl
    · simp [ExpRec.toP4F]
    · simp [ExpRec.toP4F]
    · rintro ⟨h1, -⟩
      simp only [List.map_map, List.mem_map, Function.comp_def, ExpRec.toP4F] at h1
      obtain ⟨p, -, h1⟩ := h1
      exact hz p (by rw [h1]; trivial)
    · simp [ExpRec.toP4F]
  · rintro ⟨⟨p, hp, h⟩, -⟩
    simp only [List.mem_map] at hp
    obtain ⟨q, -, rfl⟩ := hp
    exact h
  · obtain ⟨p, hp⟩ := List.exists_mem_of_ne_nil _ hne
    exact ⟨_, List.mem_map_of_mem hp, .inr (.inr (.inr rfl))⟩

end Gcl
