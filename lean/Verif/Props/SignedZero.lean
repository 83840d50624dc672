import Verif.Spec.SignedZero
import Verif.Props.DeltaR
/-!
# Properties with signed zeros
-/
namespace Gcl
set_option autoImplicit false
open Real

open Spec

theorem isNeg_iff (a : Sg) : a.IsNeg ↔ (a.val < 0 ∨ (a.val = 0 ∧ a.bit = true)) := Iff.rfl
theorem not_isNeg_iff (a : Sg) : ¬ a.IsNeg ↔ (0 < a.val ∨ (a.val = 0 ∧ a.bit = false)) := by
  unfold Sg.IsNeg
  rcases lt_trichotomy a.val 0 with h | h | h
  · simp [h, h.ne, not_lt.2 h.le]
  · cases hb : a.bit <;> simp [h]
  · simp [h, h.ne', not_lt.2 h.le]

theorem signsDiffer_iff (a b : Sg) : SignsDiffer a b ↔ ¬ (a.IsNeg ↔ b.IsNeg) := by
  have : SignsDiffer a b ↔ (a.IsNeg ∧ ¬ b.IsNeg) ∨ (¬ a.IsNeg ∧ b.IsNeg) := by
    rw [not_isNeg_iff, not_isNeg_iff]; rfl
  rw [this]; tauto

theorem signsDiffer_comm (a b : Sg) : SignsDiffer a b ↔ SignsDiffer b a := by
  rw [signsDiffer_iff, signsDiffer_iff]; tauto

theorem neg_isNeg (a : Sg) : a.neg.IsNeg ↔ ¬ a.IsNeg := by
  rw [not_isNeg_iff]; unfold Sg.IsNeg Sg.neg
  simp

theorem mul_isNeg (a b : Sg) : (a.mul b).IsNeg ↔ SignsDiffer a b := by
  rw [signsDiffer_iff]
  unfold Sg.mul
  rw [Sg.IsNeg]
  simp only [decide_eq_true_eq]
  by_cases h : a.val * b.val = 0
  · simp [h]
  · have ha : a.val ≠ 0 := left_ne_zero_of_mul h
    have hb : b.val ≠ 0 := right_ne_zero_of_mul h
    simp only [h, false_and, or_false, Sg.IsNeg, ha, hb]
    rw [mul_neg_iff]
    rcases lt_or_gt_of_ne ha with h1 | h1 <;> rcases lt_or_gt_of_ne hb with h2 | h2 <;>
      simp [h1, h2, h1.not_gt, h2.not_gt]

theorem mul_val (v w : SgC) : (v.mul w.conj).val = v.val * (starRingEnd ℂ) w.val := by
  apply Complex.ext <;> simp [SgC.mul, SgC.conj, SgC.val, Sg.mul, Sg.sub, Sg.add, Sg.neg, Complex.mul_re,
    Complex.mul_im]

theorem mul_val' (v w : SgC) : (v.mul w).val = v.val * w.val := by
  apply Complex.ext <;> simp [SgC.mul, SgC.val, Sg.mul, Sg.sub, Sg.add, Sg.neg, Complex.mul_re, Complex.mul_im,
    sub_eq_add_neg]

/-- A zero sum is negative only if both parts are zero and negative. -/
theorem add_zero_isNeg (a b : Sg) (h : a.val + b.val = 0) : (a.add b).IsNeg ↔ a.IsNeg ∧ b.IsNeg := by
  unfold Sg.add
  rw [Sg.IsNeg]
  simp only [h, lt_irrefl, false_or, true_and, decide_eq_true_eq]

/-- The angle of a nonzero number, up to the sign of `π`. -/
theorem angle_of_ne (w : SgC) (h : w.val ≠ 0) : w.angle = w.val.arg ∨ (w.angle = -π ∧ w.val.arg = π) := by
  unfold SgC.angle
  by_cases hi : w.im.val = 0
  · have hr : w.re.val ≠ 0 := by
      intro hr; apply h; apply Complex.ext <;> simp [SgC.val, hr, hi]
    have hv : w.val = ((w.re.val : ℝ) : ℂ) := by apply Complex.ext <;> simp [SgC.val, hi]
    rw [hv]
    rcases lt_or_gt_of_ne hr with h1 | h1
    · rw [Complex.arg_ofReal_of_neg h1]
      have : w.re.IsNeg := Or.inl h1
      simp only [hi, if_true, this]
      split_ifs <;> simp
    · rw [Complex.arg_ofReal_of_nonneg h1.le]
      have : ¬ w.re.IsNeg := (not_isNeg_iff _).2 (Or.inl h1)
      simp [hi, this]
  · simp [hi]

theorem hypotFl_congr (r : Fl) (a b : ℝ) (h : a ^ 2 = b ^ 2) : hypotFl r a = hypotFl r b := by
  cases r <;> simp [hypotFl, h]

theorem val_eq_zero (w : SgC) : w.val = 0 ↔ w.re.val = 0 ∧ w.im.val = 0 := by
  simp [SgC.val, Complex.ext_iff]

open Classical in
/-- The angle between a zero and any other transverse momentum. -/
theorem angle_zero (v w : SgC) (h : v.val = 0 ∨ w.val = 0) :
    (v.mul w.conj).angle ^ 2 = (if OppositeQuadrants v w then π else 0) ^ 2 := by
  have hz : (v.re.val = 0 ∧ v.im.val = 0) ∨ (w.re.val = 0 ∧ w.im.val = 0) := by
    simpa only [val_eq_zero] using h
  have h1 : v.re.val * w.re.val = 0 := by rcases hz with ⟨a, b⟩ | ⟨a, b⟩ <;> simp [a]
  have h2 : v.im.val * w.im.val = 0 := by rcases hz with ⟨a, b⟩ | ⟨a, b⟩ <;> simp [b]
  have hre : (v.mul w.conj).re.IsNeg ↔ OppositeQuadrants v w := by
    simp only [SgC.mul, SgC.conj, Sg.sub]
    rw [add_zero_isNeg, mul_isNeg, neg_isNeg, mul_isNeg, OppositeQuadrants, signsDiffer_iff v.im, neg_isNeg,
      signsDiffer_iff v.im]
    · tauto
    · simp [Sg.mul, Sg.neg, h1, h2]
  have him : (v.mul w.conj).im.val = 0 := by
    have := mul_val v w
    have hh : v.val * (starRingEnd ℂ) w.val = 0 := by rcases h with h | h <;> simp [h]
    rw [hh] at this
    exact ((val_eq_zero _).1 this).2
  unfold SgC.angle
  rw [if_pos him]
  by_cases hq : OppositeQuadrants v w
  · rw [if_pos (hre.2 hq), if_pos hq]
    split_ifs <;> simp
  · rw [if_neg (fun h => hq (hre.1 h)), if_neg hq]

open Classical in
/-- **C142** The distance with signed zeros.  If neither transverse momentum is zero, the signs of zeros have no effect.
If one is zero, the azimuthal difference is `π` exactly if the two, by their sign bits, lie in opposite quadrants, and `0`
otherwise. -/
theorem C142_distance (r1 r2 : Fl) (w1 w2 : SgC) :
    (w1.val ≠ 0 → w2.val ≠ 0 → deltaRCellS r1 r2 w1 w2 = deltaRCell r1 r2 w1.val w2.val) ∧
    (w1.val = 0 ∨ w2.val = 0 →
      deltaRCellS r1 r2 w1 w2 = hypotFl (r1.sub r2) (if OppositeQuadrants w1 w2 then π else 0)) := by
  constructor
  · intro h1 h2
    unfold deltaRCellS deltaRCell
    apply hypotFl_congr
    have hv := mul_val w1 w2
    have hne : (w1.mul w2.conj).val ≠ 0 := by rw [hv]; simp [h1, h2]
    rcases angle_of_ne _ hne with h | ⟨h, h'⟩
    · rw [h, hv]
    · rw [h, ← hv, h']; ring
  · intro h
    exact hypotFl_congr _ _ _ (angle_zero w1 w2 h)

theorem oppositeQuadrants_comm (v w : SgC) : OppositeQuadrants v w ↔ OppositeQuadrants w v := by
  unfold OppositeQuadrants; rw [signsDiffer_comm v.re, signsDiffer_comm v.im]

theorem hypotFl_sub_comm (r1 r2 : Fl) (a : ℝ) : hypotFl (r1.sub r2) a = hypotFl (r2.sub r1) a := by
  cases r1 <;> cases r2 <;> simp [Fl.sub, hypotFl]
  congr 2; ring

/-- **C142** Distances stay symmetric, and zero between equal momenta, the signs of their zeros included. -/
theorem C142_symm (r1 r2 : Fl) (w1 w2 : SgC) :
    deltaRCellS r1 r2 w1 w2 = deltaRCellS r2 r1 w2 w1 ∧ deltaRCellS r1 r1 w1 w1 = .fin 0 := by
  constructor
  · by_cases h : w1.val = 0 ∨ w2.val = 0
    · rw [(C142_distance r1 r2 w1 w2).2 h, (C142_distance r2 r1 w2 w1).2 h.symm, hypotFl_sub_comm]
      by_cases hq : OppositeQuadrants w1 w2
      · rw [if_pos hq, if_pos ((oppositeQuadrants_comm w1 w2).1 hq)]
      · rw [if_neg hq, if_neg (fun h => hq ((oppositeQuadrants_comm w1 w2).2 h))]
    · push Not at h
      rw [(C142_distance r1 r2 w1 w2).1 h.1 h.2, (C142_distance r2 r1 w2 w1).1 h.2 h.1, C65_symm]
  · by_cases h : w1.val = 0
    · rw [(C142_distance r1 r1 w1 w1).2 (Or.inl h), if_neg]
      · cases r1 <;> simp [Fl.sub, hypotFl]
      · intro hq
        exact (signsDiffer_iff _ _).1 hq.1 Iff.rfl
    · rw [(C142_distance r1 r1 w1 w1).1 h h, C65_self]

/-- **C142** Azimuth and polar angle.  The azimuth is the argument, but `-π` for a momentum along the negative `x` axis
with `y = -0`, so that it lies in `[-π, π]`; the polar angle is that of the values, but for a particle at rest it is `π` if
`z = -0`. -/
theorem C142_angles (tol : ℝ) (ht : 0 ≤ tol) (p : P4S) :
    (¬ (p.x.val < 0 ∧ p.y.val = 0 ∧ p.y.bit = true) → p.phi tol = p.vals.phi tol) ∧
    (tol < |p.vals.pt| → p.x.val < 0 → p.y.val = 0 → p.y.bit = true →
      p.phi tol = .fin (-π) ∧ p.vals.phi tol = .fin π) ∧
    (∀ a, p.phi tol = .fin a → -π ≤ a ∧ a ≤ π) ∧
    (p.vals.pt ≠ 0 ∨ p.z.val ≠ 0 ∨ p.z.bit = false → p.theta = p.vals.theta) ∧
    (p.vals.pt = 0 → p.z.val = 0 → p.z.bit = true → p.theta = π ∧ p.vals.theta = 0) := by
  have hv : p.xyPol.val = p.vals.xyPol := rfl
  have hpt : p.vals.pt = ‖p.xyPol.val‖ := rfl
  have key : ∀ h : ¬ |p.vals.pt| ≤ tol, p.xyPol.val ≠ 0 := by
    intro h h0
    rw [hpt, h0] at h; simp at h; linarith
  have hz : p.ztPol.val = p.vals.ztPol := rfl
  have hptn : 0 ≤ p.vals.pt := norm_nonneg _
  refine ⟨?_, ?_, ?_, ?_, ?_⟩
  · intro hn
    unfold P4S.phi P4.phi
    split_ifs with h
    · rfl
    · rcases angle_of_ne _ (key h) with h1 | ⟨h1, h2⟩
      · rw [h1, hv]
      · exfalso
        apply hn
        rw [Complex.arg_eq_pi_iff] at h2
        refine ⟨h2.1, h2.2, ?_⟩
        have hy : p.xyPol.im.val = 0 := h2.2
        have hx : p.xyPol.re.IsNeg := Or.inl h2.1
        unfold SgC.angle at h1
        rw [if_pos hy, if_pos hx] at h1
        split_ifs at h1 with h3
        · rcases h3 with h3 | h3
          · exact absurd hy h3.ne
          · exact h3.2
        · linarith [pi_pos]
  · intro h hx hy hb
    have h' := not_le.2 h
    unfold P4S.phi P4.phi
    rw [if_neg h', if_neg h']
    constructor
    · have h1 : p.xyPol.im.val = 0 := hy
      have h2 : p.xyPol.re.IsNeg := Or.inl hx
      have h3 : p.xyPol.im.IsNeg := Or.inr ⟨hy, hb⟩
      unfold SgC.angle
      rw [if_pos h1, if_pos h2, if_pos h3]
    · rw [Complex.arg_eq_pi_iff.2 ⟨hx, hy⟩]
  · intro a ha
    unfold P4S.phi at ha
    split_ifs at ha with h
    cases ha
    rcases angle_of_ne _ (key h) with h1 | ⟨h1, h2⟩
    · rw [h1]; exact ⟨(Complex.neg_pi_lt_arg _).le, Complex.arg_le_pi _⟩
    · rw [h1]; constructor <;> linarith [pi_pos]
  · intro hc
    show p.ztPol.angle = p.vals.ztPol.arg
    rw [← hz]
    by_cases h0 : p.ztPol.val = 0
    · obtain ⟨h1, h2⟩ := (val_eq_zero _).1 h0
      have hb : p.z.bit = false := by
        rcases hc with hc | hc | hc
        · exact absurd h2 hc
        · exact absurd h1 hc
        · exact hc
      have hn : ¬ p.ztPol.re.IsNeg := (not_isNeg_iff _).2 (Or.inr ⟨h1, hb⟩)
      unfold SgC.angle
      rw [if_pos h2, if_neg hn, h0, Complex.arg_zero]
    · rcases angle_of_ne _ h0 with h1 | ⟨h1, h2⟩
      · exact h1
      · exfalso
        rw [Complex.arg_eq_pi_iff] at h2
        have hy : p.ztPol.im.val = 0 := h2.2
        have hn : ¬ p.ztPol.im.IsNeg := (not_isNeg_iff _).2 (Or.inr ⟨hy, rfl⟩)
        unfold SgC.angle at h1
        rw [if_pos hy, if_pos (show p.ztPol.re.IsNeg from Or.inl h2.1), if_neg hn] at h1
        linarith [pi_pos]
  · intro h1 h2 h3
    constructor
    · show p.ztPol.angle = π
      have hy : p.ztPol.im.val = 0 := h1
      have hn : ¬ p.ztPol.im.IsNeg := (not_isNeg_iff _).2 (Or.inr ⟨hy, rfl⟩)
      unfold SgC.angle
      rw [if_pos hy, if_pos (show p.ztPol.re.IsNeg from Or.inr ⟨h2, h3⟩), if_neg hn]
    · show p.vals.ztPol.arg = 0
      rw [← hz, (val_eq_zero _).2 ⟨h2, h1⟩, Complex.arg_zero]

/-- **C142** The rapidity is that of the values, but `-inf` instead of `+inf` for an energy within the tolerance of zero
and `z = -0`. -/
theorem C142_rapidity (tol : ℝ) (p : P4S) :
    (p.z.val ≠ 0 ∨ p.z.bit = false ∨ tol < |p.e.val| ∧ p.e.val ≠ 0 → p.rapidity tol = p.vals.rapidity tol) ∧
    (p.z.val = 0 → p.z.bit = true → |p.e.val| ≤ tol →
      p.rapidity tol = .ninf ∧ p.vals.rapidity tol = .pinf) := by
  have hsame : (p.z.val ≠ 0 ∨ p.z.bit = false) → (p.z.IsNeg ↔ p.z.val < 0) := by
    intro h
    unfold Sg.IsNeg
    rcases h with h | h <;> simp [h]
  constructor
  · intro h
    by_cases hn : p.z.val ≠ 0 ∨ p.z.bit = false
    · by_cases hz : p.z.val < 0
      · have hneg : p.z.IsNeg := (hsame hn).2 hz
        simp only [P4S.rapidity, P4.rapidity, rapidityOf, copysignS, copysignInfS, copysign, copysignInf, hneg, hz,
          P4S.vals, if_true]
      · have hneg : ¬ p.z.IsNeg := fun h => hz ((hsame hn).1 h)
        simp only [P4S.rapidity, P4.rapidity, rapidityOf, copysignS, copysignInfS, copysign, copysignInf, hneg, hz,
          P4S.vals, if_false]
    · push Not at hn
      have he : tol < |p.e.val| ∧ p.e.val ≠ 0 := by
        rcases h with h | h | h
        · exact absurd hn.1 h
        · exact absurd h hn.2
        · exact h
      simp [P4S.rapidity, P4.rapidity, rapidityOf, copysignS, copysign, P4S.vals, hn.1, he.1, he.2]
  · intro h1 h2 h3
    have hneg : p.z.IsNeg := Or.inr ⟨h1, h2⟩
    simp [P4S.rapidity, P4.rapidity, rapidityOf, copysignInfS, copysignInf, P4S.vals, h1, not_lt.2 h3, hneg]

theorem shiftPhi_vals (s : Sg) (p : P4S) : (p.shiftPhi s).vals = p.vals.shiftPhi s.val := by
  have h : (p.shiftPhi s).xyPol.val = (P4S.rotOp s).val * p.xyPol.val := mul_val' _ _
  have hr : (P4S.rotOp s).val = Complex.exp (s.val * Complex.I) := by
    rw [Complex.exp_mul_I]
    apply Complex.ext <;> simp [P4S.rotOp, SgC.val, ← Complex.ofReal_cos, ← Complex.ofReal_sin]
  rw [hr] at h
  have hx := congrArg Complex.re h
  have hy := congrArg Complex.im h
  unfold P4.shiftPhi
  ext
  · exact hx
  · exact hy
  · rfl
  · rfl

/-- **C142** Rotations.  Between particles of nonzero transverse momentum, `delta_R` is unchanged by a common
rotation, the signs of zeros included. -/
theorem C142_rotation (pseudo : Bool) {tol : ℝ} (ht : 0 ≤ tol) (s : Sg) (p q : P4S) (hp : p.vals.pt ≠ 0)
    (hq : q.vals.pt ≠ 0) : (p.shiftPhi s).deltaR pseudo tol (q.shiftPhi s) = p.deltaR pseudo tol q := by
  have hne : ∀ p : P4S, p.vals.pt ≠ 0 → p.xyPol.val ≠ 0 := fun p h h0 => h (by
    show ‖p.xyPol.val‖ = 0
    rw [h0, norm_zero])
  have hrot : ∀ p : P4S, p.vals.pt ≠ 0 → (p.shiftPhi s).xyPol.val ≠ 0 := by
    intro p h
    show ((P4S.rotOp s).mul p.xyPol).val ≠ 0
    rw [mul_val']
    refine mul_ne_zero ?_ (hne p h)
    intro h0
    obtain ⟨h1, h2⟩ := (val_eq_zero _).1 h0
    have h3 : cos s.val = 0 := h1
    have h4 : sin s.val = 0 := h2
    have := sin_sq_add_cos_sq s.val
    rw [h3, h4] at this; norm_num at this
  have hv : ∀ p : P4S, (p.shiftPhi s).xyPol.val = (p.vals.shiftPhi s.val).xyPol := by
    intro p; rw [← shiftPhi_vals]; rfl
  have hinv := C65_invariant ht s.val p.vals q.vals
  cases pseudo
  · simp only [P4S.deltaR, Bool.false_eq_true, if_false]
    rw [(C142_distance _ _ _ _).1 (hrot p hp) (hrot q hq), (C142_distance _ _ _ _).1 (hne p hp) (hne q hq), hv, hv]
    have e1 : ∀ p : P4S, (p.shiftPhi s).rapidity tol = p.rapidity tol := fun p => rfl
    rw [e1, e1]
    unfold deltaRCell
    rw [C62_difference]
    rfl
  · simp only [P4S.deltaR, if_true]
    rw [(C142_distance _ _ _ _).1 (hrot p hp) (hrot q hq), (C142_distance _ _ _ _).1 (hne p hp) (hne q hq), hv, hv]
    show deltaRCell (p.shiftPhi s).vals.eta (q.shiftPhi s).vals.eta _ _ = _
    rw [shiftPhi_vals, shiftPhi_vals]
    exact hinv.1

theorem oppositeQuadrants_iff (v w : SgC) :
    OppositeQuadrants v w ↔ ¬ (v.re.IsNeg ↔ w.re.IsNeg) ∧ ¬ (v.im.IsNeg ↔ w.im.IsNeg) := by
  unfold OppositeQuadrants; rw [signsDiffer_iff, signsDiffer_iff]

/-- **C142** But a rotation can change the distance to a particle without transverse momentum, from `0` to `π`; two
particles whose components are equal numbers can be at distance `π`; and two particles all of whose components are zero
can be at infinite distance. -/
theorem C142_false (tol : ℝ) (ht : 0 ≤ tol) (h1 : tol < 1) :
    (∃ (s : Sg) (p q : P4S), p.deltaR false tol q = .fin 0 ∧
      (p.shiftPhi s).deltaR false tol (q.shiftPhi s) = .fin π) ∧
    (∃ p q : P4S, p.vals = q.vals ∧ p.deltaR false tol q = .fin π) ∧
    (∃ p q : P4S, p.vals = ⟨0, 0, 0, 0⟩ ∧ q.vals = ⟨0, 0, 0, 0⟩ ∧ p.deltaR false tol q = .pinf) := by
  have hr : ∀ p : P4S, p.z = ⟨0, false⟩ → p.e = ⟨1, false⟩ → p.rapidity tol = .fin 0 := by
    intro p hz he
    rw [(C142_rapidity tol p).1 (Or.inr (Or.inl (by rw [hz])))]
    simp [P4.rapidity, rapidityOf, copysign, P4S.vals, hz, he, h1]
  have hpi : ∀ a : ℝ, hypotFl (Fl.sub (.fin 0) (.fin 0)) a = .fin |a| := by
    intro a; simp [Fl.sub, hypotFl, sqrt_sq_eq_abs]
  refine ⟨⟨⟨π / 3, false⟩, ⟨⟨0, false⟩, ⟨0, false⟩, ⟨0, false⟩, ⟨1, false⟩⟩,
    ⟨⟨-1, false⟩, ⟨1 / 2, false⟩, ⟨0, false⟩, ⟨1, false⟩⟩, ?_, ?_⟩,
    ⟨⟨⟨0, false⟩, ⟨0, false⟩, ⟨0, false⟩, ⟨1, false⟩⟩, ⟨⟨0, true⟩, ⟨0, true⟩, ⟨0, false⟩, ⟨1, false⟩⟩, rfl, ?_⟩,
    ⟨⟨⟨0, false⟩, ⟨0, false⟩, ⟨0, false⟩, ⟨0, false⟩⟩, ⟨⟨0, false⟩, ⟨0, false⟩, ⟨0, true⟩, ⟨0, false⟩⟩, rfl, rfl, ?_⟩⟩
  · simp only [P4S.deltaR, Bool.false_eq_true, if_false]
    rw [hr _ rfl rfl, hr _ rfl rfl, (C142_distance _ _ _ _).2 (Or.inl ((val_eq_zero _).2 ⟨rfl, rfl⟩)), if_neg, hpi, abs_zero]
    rw [oppositeQuadrants_iff]
    rintro ⟨-, h⟩
    apply h
    simp [P4S.xyPol, Sg.IsNeg]
  · simp only [P4S.deltaR, Bool.false_eq_true, if_false]
    rw [hr _ rfl rfl, hr _ rfl rfl, (C142_distance _ _ _ _).2 (Or.inl ((val_eq_zero _).2 ⟨?_, ?_⟩)), if_pos, hpi,
      abs_of_pos pi_pos]
    · have hc : cos (π / 3) = 1 / 2 := cos_pi_div_three
      have hs : sin (π / 3) = √3 / 2 := sin_pi_div_three
      have h3 : 1 < √3 := by
        rw [Real.lt_sqrt] <;> norm_num
      rw [oppositeQuadrants_iff]
      constructor
      · have a : ¬ (P4S.shiftPhi ⟨π / 3, false⟩ ⟨⟨0, false⟩, ⟨0, false⟩, ⟨0, false⟩, ⟨1, false⟩⟩).xyPol.re.IsNeg := by
          rw [not_isNeg_iff]; right
          constructor
          · simp [P4S.shiftPhi, P4S.xyPol, P4S.rotOp, SgC.mul, Sg.mul, Sg.sub, Sg.add, Sg.neg]
          · simp [P4S.shiftPhi, P4S.xyPol, P4S.rotOp, SgC.mul, Sg.mul, Sg.sub, Sg.add, Sg.neg, Sg.IsNeg, hc, hs]
        have b : (P4S.shiftPhi ⟨π / 3, false⟩ ⟨⟨-1, false⟩, ⟨1 / 2, false⟩, ⟨0, false⟩, ⟨1, false⟩⟩).xyPol.re.IsNeg := by
          left
          simp [P4S.shiftPhi, P4S.xyPol, P4S.rotOp, SgC.mul, Sg.mul, Sg.sub, Sg.add, Sg.neg]
          linarith
        tauto
      · have a : ¬ (P4S.shiftPhi ⟨π / 3, false⟩ ⟨⟨0, false⟩, ⟨0, false⟩, ⟨0, false⟩, ⟨1, false⟩⟩).xyPol.im.IsNeg := by
          rw [not_isNeg_iff]; right
          constructor
          · simp [P4S.shiftPhi, P4S.xyPol, P4S.rotOp, SgC.mul, Sg.mul, Sg.sub, Sg.add, Sg.neg]
          · simp [P4S.shiftPhi, P4S.xyPol, P4S.rotOp, SgC.mul, Sg.mul, Sg.sub, Sg.add, Sg.neg, Sg.IsNeg, hc, hs]
        have b : (P4S.shiftPhi ⟨π / 3, false⟩ ⟨⟨-1, false⟩, ⟨1 / 2, false⟩, ⟨0, false⟩, ⟨1, false⟩⟩).xyPol.im.IsNeg := by
          left
          simp [P4S.shiftPhi, P4S.xyPol, P4S.rotOp, SgC.mul, Sg.mul, Sg.add]
          linarith
        tauto
    · simp [P4S.shiftPhi, P4S.xyPol, P4S.rotOp, SgC.mul, Sg.mul, Sg.sub, Sg.add, Sg.neg]
    · simp [P4S.shiftPhi, P4S.xyPol, P4S.rotOp, SgC.mul, Sg.mul, Sg.sub, Sg.add, Sg.neg]
  · simp only [P4S.deltaR, Bool.false_eq_true, if_false]
    rw [hr _ rfl rfl, hr _ rfl rfl, (C142_distance _ _ _ _).2 (Or.inl ((val_eq_zero _).2 ⟨rfl, rfl⟩)), if_pos, hpi,
      abs_of_pos pi_pos]
    rw [oppositeQuadrants_iff]
    simp [P4S.xyPol, Sg.IsNeg]
  · simp only [P4S.deltaR, Bool.false_eq_true, if_false]
    rw [((C142_rapidity tol ⟨⟨0, false⟩, ⟨0, false⟩, ⟨0, true⟩, ⟨0, false⟩⟩).2 rfl rfl (by simpa using ht)).1,
      (C142_rapidity tol ⟨⟨0, false⟩, ⟨0, false⟩, ⟨0, false⟩, ⟨0, false⟩⟩).1 (Or.inr (Or.inl rfl))]
    simp [P4.rapidity, rapidityOf, copysignInf, P4S.vals, not_lt.2 ht, deltaRCellS, Fl.sub, hypotFl]

example : (⟨⟨-1, false⟩, ⟨0, true⟩, ⟨0, false⟩, ⟨2, false⟩⟩ : P4S).phi 0 = .fin (-π) :=
  ((C142_angles 0 le_rfl ⟨⟨-1, false⟩, ⟨0, true⟩, ⟨0, false⟩, ⟨2, false⟩⟩).2.1 (by
    simp [P4.pt, P4.ztPol, P4.xyPol, P4S.vals, Complex.ext_iff]) (by norm_num) rfl rfl).1
example : (⟨⟨0, false⟩, ⟨1, true⟩, ⟨0, false⟩, ⟨2, false⟩⟩ : P4S).vals.pt ≠ 0 := by
  simp [P4.pt, P4.ztPol, P4.xyPol, P4S.vals, Complex.ext_iff]

end Gcl
