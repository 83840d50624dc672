import Verif.Lemmas.RoundedR
import Verif.Model.RoundedR
import Verif.Props.Rounded
import Verif.Props.DeltaR
/-! # C136: accuracy of azimuthal differences and distances when arithmetic rounds -/
namespace Gcl
set_option autoImplicit false
open Spec Real

/-- Every operation has a relative error of at most `u`, the arctangent included. -/
structure Spec.AccurateR (u : ℝ) (A : ArithR) : Prop extends Accurate u A.toArith where
  atan2 : ∀ y x, |A.atan2 y x - Complex.arg ⟨x, y⟩| ≤ u * |Complex.arg ⟨x, y⟩|

/-- The error of the angle of a product of two complex numbers: two roundings of its components. -/
noncomputable def Spec.angleError (u : ℝ) : ℝ := π / 2 * (√2 * ((1 + u) ^ 2 - 1))

section
variable {u : ℝ} {A : ArithR} (h0 : 0 ≤ u) (h1 : u ≤ 1 / 4) (hA : AccurateR u A)
include h0 h1 hA

omit h1 in
theorem mulConjA_near (w1 w2 : ℂ) :
    ‖mulConjA A w1 w2 - w1 * (starRingEnd ℂ) w2‖ ≤ √2 * ((1 + u) ^ 2 - 1) * ‖w1 * (starRingEnd ℂ) w2‖ := by
  have hr := round2 (a := w1.re * w2.re) (b := -(w1.im * -w2.im)) (a' := A.mul w1.re w2.re) (b' := -A.mul w1.im (-w2.im))
    (s := (mulConjA A w1 w2).re) h0 (hA.mul _ _)
    (by rw [abs_neg, ← neg_sub', abs_neg]; exact hA.mul _ _)
    (by have := hA.sub (A.mul w1.re w2.re) (A.mul w1.im (-w2.im)); simpa [mulConjA, sub_eq_add_neg] using this)
  have hi := round2 (a := w1.re * -w2.im) (b := w1.im * w2.re) (a' := A.mul w1.re (-w2.im)) (b' := A.mul w1.im w2.re)
    (s := (mulConjA A w1 w2).im) h0 (hA.mul _ _) (hA.mul _ _) (hA.add _ _)
  have hu : 0 ≤ (1 + u) ^ 2 - 1 := by nlinarith
  have hnorm : ‖w1 * (starRingEnd ℂ) w2‖ = √(w1.re ^ 2 + w1.im ^ 2) * √(w2.re ^ 2 + w2.im ^ 2) := by
    rw [norm_mul, RCLike.norm_conj, Complex.norm_eq_sqrt_sq_add_sq, Complex.norm_eq_sqrt_sq_add_sq]
  have c1 := cs2 w1.re w1.im w2.re w2.im
  have c2 := cs2 w1.re w1.im w2.im w2.re
  rw [add_comm (w2.im ^ 2)] at c2
  rw [← hnorm] at c1 c2
  have e : mulConjA A w1 w2 - w1 * (starRingEnd ℂ) w2 =
      ⟨(mulConjA A w1 w2).re - (w1.re * w2.re + -(w1.im * -w2.im)), (mulConjA A w1 w2).im - (w1.re * -w2.im + w1.im * w2.re)⟩ := by
    apply Complex.ext <;> simp
  rw [e, mul_assoc]
  apply norm_mk_le
  · refine hr.trans (mul_le_mul_of_nonneg_left ?_ hu)
    rw [abs_neg, abs_mul w1.im, abs_neg, ← abs_mul]
    exact c1
  · refine hi.trans (mul_le_mul_of_nonneg_left ?_ hu)
    rw [abs_mul w1.re, abs_neg, ← abs_mul]
    exact c2

omit hA in
theorem angleError_small : √2 * ((1 + u) ^ 2 - 1) < 1 := by
  have h2 : √2 < 1.5 := by
    rw [Real.sqrt_lt' (by norm_num)]; norm_num
  have : (1 + u) ^ 2 - 1 ≤ 0.5625 := by nlinarith
  have h3 : 0 ≤ (1 + u) ^ 2 - 1 := by nlinarith
  nlinarith

/-- **C136** The azimuthal difference of two particles: its magnitude is right within one relative rounding plus an
absolute error of a few, also where the momenta are almost parallel, or back to back. -/
theorem C136_dphi (w1 w2 : ℂ) :
    |(|dphiA A w1 w2| - |(w1 * (starRingEnd ℂ) w2).arg|)| ≤
      u * |(w1 * (starRingEnd ℂ) w2).arg| + (1 + u) * angleError u := by
  have hu : 0 ≤ (1 + u) ^ 2 - 1 := by nlinarith
  have hb := abs_arg_near (mulConjA_near h0 hA w1 w2) (angleError_small h0 h1) (by positivity)
  have ha := hA.atan2 (mulConjA A w1 w2).im (mulConjA A w1 w2).re
  change |dphiA A w1 w2 - (mulConjA A w1 w2).arg| ≤ u * |(mulConjA A w1 w2).arg| at ha
  have t1 := (abs_abs_sub_abs_le (dphiA A w1 w2) (mulConjA A w1 w2).arg).trans ha
  have t2 := abs_le.1 t1
  have t3 := abs_le.1 hb
  unfold angleError
  rw [abs_le]
  constructor <;> nlinarith

theorem norm_mk_abs (a b : ℝ) : ‖(⟨a, |b|⟩ : ℂ)‖ = √(a ^ 2 + b ^ 2) := by
  rw [Complex.norm_eq_sqrt_sq_add_sq]; simp

/-- **C136** The distance of two particles with finite (pseudo)rapidities known within errors adding up to `ρ`. -/
theorem C136_distance (r1 r2 s1 s2 ρ : ℝ) (hρ : |s1 - r1| + |s2 - r2| ≤ ρ) (w1 w2 : ℂ) :
    ∃ d, deltaRCellA A (.fin s1) (.fin s2) w1 w2 = .fin d ∧
      |d - √((r1 - r2) ^ 2 + (w1 * (starRingEnd ℂ) w2).arg ^ 2)| ≤
        ((1 + u) ^ 2 - 1) * √((r1 - r2) ^ 2 + (w1 * (starRingEnd ℂ) w2).arg ^ 2) + (1 + u) ^ 2 * (ρ + angleError u) := by
  refine ⟨_, rfl, ?_⟩
  have hE := C136_dphi h0 h1 hA w1 w2
  have hs := hA.sub s1 s2
  have hh := hA.hypot (A.sub s1 s2) (dphiA A w1 w2)
  generalize dphiA A w1 w2 = ψ at *
  generalize (w1 * (starRingEnd ℂ) w2).arg = θ at *
  generalize A.sub s1 s2 = a' at *
  generalize A.hypot a' ψ = d at *
  have hE0 : 0 ≤ angleError u := by
    unfold angleError
    have : 0 ≤ (1 + u) ^ 2 - 1 := by nlinarith
    positivity
  set E := angleError u
  have ha : |a' - (r1 - r2)| ≤ u * |r1 - r2| + (1 + u) * ρ := by
    have t1 : |s1 - s2 - (r1 - r2)| ≤ ρ := by
      have := abs_sub (s1 - r1) (s2 - r2)
      have e : s1 - s2 - (r1 - r2) = s1 - r1 - (s2 - r2) := by ring
      rw [e]; linarith
    have t2 := abs_le.1 t1
    have t3 : |s1 - s2| ≤ |r1 - r2| + ρ := by
      have := abs_add_le (s1 - s2 - (r1 - r2)) (r1 - r2)
      have e : s1 - s2 - (r1 - r2) + (r1 - r2) = s1 - s2 := by ring
      rw [e] at this; linarith
    have t4 := abs_add_le (a' - (s1 - s2)) (s1 - s2 - (r1 - r2))
    have e : a' - (s1 - s2) + (s1 - s2 - (r1 - r2)) = a' - (r1 - r2) := by ring
    rw [e] at t4
    nlinarith [mul_le_mul_of_nonneg_left t3 h0]
  have hρ0 : 0 ≤ ρ := (by positivity : (0 : ℝ) ≤ |s1 - r1| + |s2 - r2|).trans hρ
  rw [abs_of_nonneg (Real.sqrt_nonneg _)] at hh
  rw [← norm_mk_abs h0 h1 hA a' ψ] at hh
  rw [← norm_mk_abs h0 h1 hA (r1 - r2) θ]
  set R := ‖(⟨r1 - r2, |θ|⟩ : ℂ)‖ with hR
  have hdiff : ‖(⟨a', |ψ|⟩ : ℂ) - ⟨r1 - r2, |θ|⟩‖ ≤ u * R + (1 + u) * (ρ + E) := by
    have e : (⟨a', |ψ|⟩ : ℂ) - ⟨r1 - r2, |θ|⟩ = ⟨a' - (r1 - r2), |ψ| - |θ|⟩ := by apply Complex.ext <;> simp
    rw [e, Complex.norm_eq_sqrt_sq_add_sq]
    have hm : ‖(⟨u * |r1 - r2| + (1 + u) * ρ, u * |θ| + (1 + u) * E⟩ : ℂ)‖ ≤ u * R + (1 + u) * (ρ + E) := by
      have e2 : (⟨u * |r1 - r2| + (1 + u) * ρ, u * |θ| + (1 + u) * E⟩ : ℂ) =
          (u : ℂ) * ⟨|r1 - r2|, |θ|⟩ + ((1 + u : ℝ) : ℂ) * ⟨ρ, E⟩ := by
        apply Complex.ext <;> simp
      rw [e2]
      refine (norm_add_le _ _).trans ?_
      rw [norm_mul, norm_mul, Complex.norm_real, Complex.norm_real, Real.norm_of_nonneg h0, Real.norm_of_nonneg (by linarith)]
      have e3 : ‖(⟨|r1 - r2|, |θ|⟩ : ℂ)‖ = R := by
        rw [hR, Complex.norm_eq_sqrt_sq_add_sq, Complex.norm_eq_sqrt_sq_add_sq]; simp
      have e4 : ‖(⟨ρ, E⟩ : ℂ)‖ ≤ ρ + E := by
        have := Complex.norm_le_abs_re_add_abs_im (⟨ρ, E⟩ : ℂ)
        simpa [abs_of_nonneg hρ0, abs_of_nonneg hE0] using this
      rw [e3]
      have : 0 ≤ 1 + u := by linarith
      nlinarith [mul_le_mul_of_nonneg_left e4 this]
    refine le_trans ?_ hm
    rw [Complex.norm_eq_sqrt_sq_add_sq]
    apply Real.sqrt_le_sqrt
    simp only
    have q1 := sq_le_sq' (abs_le.1 ha).1 (abs_le.1 ha).2
    have q2 := sq_le_sq' (abs_le.1 hE).1 (abs_le.1 hE).2
    linarith
  have hn := abs_le.1 ((abs_norm_sub_norm_le _ _).trans hdiff)
  have hh' := abs_le.1 hh
  rw [← hR] at hn
  have hR0 : 0 ≤ R := norm_nonneg _
  rw [abs_le]
  constructor <;> nlinarith

/-- The rapidity of a particle with `|z| < e`. -/
noncomputable def Spec.trueRapidity (p : P4) : ℝ := log ((p.e + p.z) / (p.e - p.z)) / 2

/-- The distance of two particles by rapidity. -/
noncomputable def Spec.trueRapDist (p q : P4) : ℝ :=
  √((trueRapidity p - trueRapidity q) ^ 2 + (p.xyPol * (starRingEnd ℂ) q.xyPol).arg ^ 2)

/-- **C136** `delta_R(..., pseudo=False)` from the four-momenta: finite, and right within two relative roundings plus a
few absolute ones, for particles with `|z| < e` above the tolerance. -/
theorem C136_delta_R {tol : ℝ} (ht : 0 ≤ tol) (p q : P4) (hp : |p.z| < p.e) (hq : |q.z| < q.e)
    (hpt : tol < (1 - u) * (p.e - |p.z|)) (hqt : tol < (1 - u) * (q.e - |q.z|)) :
    ∃ d, rapDistA A tol p q = .fin d ∧
      |d - trueRapDist p q| ≤ ((1 + u) ^ 2 - 1) * trueRapDist p q + (1 + u) ^ 2 *
        (((1 + u) ^ 2 - 1) * (|trueRapidity p| + |trueRapidity q|) - 3 * (1 + u) ^ 2 * log (1 - u) + angleError u) := by
  obtain ⟨y, y1, y2⟩ := (C118_rapidity h0 (by linarith) hA.toAccurate ht p hp).1 hpt
  obtain ⟨y', y1', y2'⟩ := (C118_rapidity h0 (by linarith) hA.toAccurate ht q hq).1 hqt
  unfold rapDistA
  rw [y1, y1']
  obtain ⟨d, d1, d2⟩ := C136_distance h0 h1 hA (trueRapidity p) (trueRapidity q) y y'
    (((1 + u) ^ 2 - 1) * (|trueRapidity p| + |trueRapidity q|) - 3 * (1 + u) ^ 2 * log (1 - u))
    (by unfold trueRapidity; linarith) p.xyPol q.xyPol
  exact ⟨d, d1, d2⟩

omit h1 hA in
theorem log_near {x ε : ℝ} (h : |x - 1| ≤ ε) (hε : ε < 1) : |log x| ≤ -log (1 - ε) := by
  obtain ⟨h2, h3⟩ := abs_le.1 h
  have hx : 0 < x := by linarith
  have hε0 : 0 ≤ ε := (abs_nonneg _).trans h
  rw [abs_le]
  constructor
  · rw [neg_neg]; exact log_le_log (by linarith) (by linarith)
  · rw [← log_inv]
    apply log_le_log hx
    have : x ≤ 1 + ε := by linarith
    refine this.trans ?_
    rw [← one_div, le_div_iff₀ (by linarith)]; nlinarith

omit h0 h1 hA in
theorem artanh_near {r s ε : ℝ} (hr : |r| < 1) (h : |s - r| ≤ ε * (1 - |r|)) (hε : ε < 1) :
    |s| < 1 ∧ |artanh s - artanh r| ≤ -log (1 - ε) := by
  obtain ⟨r1, r2⟩ := abs_lt.1 hr
  have hpos : 0 < 1 - |r| := by linarith
  have hs : |s| < 1 := by
    have t := abs_add_le (s - r) r
    rw [sub_add_cancel] at t
    nlinarith
  obtain ⟨s1, s2⟩ := abs_lt.1 hs
  refine ⟨hs, ?_⟩
  have hε0 : 0 ≤ ε := by
    by_contra hc
    have := abs_nonneg (s - r)
    nlinarith
  rw [artanh_eq_half_log ⟨by linarith, by linarith⟩, artanh_eq_half_log ⟨by linarith, by linarith⟩,
    log_div (by linarith) (by linarith), log_div (by linarith) (by linarith)]
  have k1 : |(1 + s) / (1 + r) - 1| ≤ ε := by
    rw [div_sub_one (by linarith), abs_div, abs_of_pos (by linarith : 0 < 1 + r), div_le_iff₀ (by linarith)]
    have e : 1 + s - (1 + r) = s - r := by ring
    rw [e]
    refine h.trans (mul_le_mul_of_nonneg_left ?_ hε0)
    linarith [neg_abs_le r]
  have k2 : |(1 - s) / (1 - r) - 1| ≤ ε := by
    rw [div_sub_one (by linarith), abs_div, abs_of_pos (by linarith : 0 < 1 - r), div_le_iff₀ (by linarith)]
    have e : 1 - s - (1 - r) = -(s - r) := by ring
    rw [e, abs_neg]
    refine h.trans (mul_le_mul_of_nonneg_left ?_ hε0)
    linarith [le_abs_self r]
  have l1 := abs_le.1 (log_near hε0 k1 hε)
  have l2 := abs_le.1 (log_near hε0 k2 hε)
  rw [log_div (by linarith) (by linarith)] at l1 l2
  rw [abs_le]
  constructor <;> linarith

/-- **C136** The pseudorapidity of a particle not too close to the beam, in units of the rounding: finite, with a
relative error of one rounding plus an absolute one that grows with `|z| / (|p| - |z|)`. -/
theorem C136_eta (p : P4) (hp : ((1 + u) / (1 - u) ^ 2 - 1) * |p.z| < p.spatialMag - |p.z|) :
    ∃ y, p.etaA A.toArith = .fin y ∧
      |y - artanh (p.z / p.spatialMag)| ≤ u * |artanh (p.z / p.spatialMag)| +
        (1 + u) * -log (1 - ((1 + u) / (1 - u) ^ 2 - 1) * |p.z| / (p.spatialMag - |p.z|)) := by
  have hlow : 0 < (1 - u) ^ 2 := by nlinarith
  have hκ : 0 ≤ (1 + u) / (1 - u) ^ 2 - 1 := by
    rw [sub_nonneg, one_le_div hlow]; nlinarith
  set κ := (1 + u) / (1 - u) ^ 2 - 1 with hκd
  have hz0 := abs_nonneg p.z
  have hgap : 0 < p.spatialMag - |p.z| := lt_of_le_of_lt (by positivity) hp
  have hm : 0 < p.spatialMag := by linarith
  obtain ⟨t0, t1, t2, t3⟩ := spatialMagA_near h0 (by linarith) hA.toAccurate p
  set m := p.spatialMag
  set m' := p.spatialMagA A.toArith
  have n1 : (1 - u) ^ 2 * m ≤ m' := by rw [t3]; nlinarith
  have n2 : m' ≤ (1 + u) ^ 2 * m := by rw [t3]; nlinarith
  have hm' : 0 < m' := lt_of_lt_of_le (by positivity) n1
  have hdiv := hA.div p.z m' hm'.ne'
  set s := A.div p.z m'
  set r := p.z / m
  have hr : |r| < 1 := by
    rw [abs_div, abs_of_pos hm, div_lt_one hm]; linarith
  have hsr : |s - r| ≤ κ * |r| := by
    -- `z / m'` lies between `r / (1 + u)²` and `r / (1 - u)²`
    have hq : p.z / m' = r * (m / m') := by
      change p.z / m' = p.z / m * (m / m')
      rw [div_mul_div_cancel₀ hm.ne']
    have b1 : m / m' ≤ 1 / (1 - u) ^ 2 := by
      rw [div_le_div_iff₀ hm' hlow]; linarith
    have b2 : 1 / (1 + u) ^ 2 ≤ m / m' := by
      rw [div_le_div_iff₀ (by positivity) hm']; linarith
    have hpos : 0 < m / m' := by positivity
    rw [hq] at hdiv
    have e : s - r = (s - r * (m / m')) + r * (m / m' - 1) := by ring
    have hA1 : 1 / (1 - u) ^ 2 * (1 - u) ^ 2 = 1 := one_div_mul_cancel hlow.ne'
    have hA2 : 1 / (1 + u) ^ 2 * (1 + u) ^ 2 = 1 := one_div_mul_cancel (by positivity)
    set c1 := 1 / (1 - u) ^ 2
    set c2 := 1 / (1 + u) ^ 2
    have hκc : κ = (1 + u) * c1 - 1 := by simp only [hκd, c1]; ring
    set t := m / m'
    have habs : |r * t| = |r| * t := by rw [abs_mul, abs_of_pos hpos]
    rw [habs] at hdiv
    have key : u * t + |t - 1| ≤ κ := by
      rw [hκc]
      rcases le_total 1 t with h | h
      · rw [abs_of_nonneg (by linarith)]; nlinarith
      · rw [abs_of_nonpos (by linarith)]
        have hc1 : 1 ≤ c1 := by rw [one_le_div hlow]; nlinarith
        have hc2 : 0 < c2 := by positivity
        have : c2 ≥ 1 - 2 * u := by
          simp only [c2, ge_iff_le]
          rw [le_div_iff₀ (by positivity)]
          nlinarith [mul_nonneg h0 h0, mul_nonneg (mul_nonneg h0 h0) h0]
        have hc1' : c1 ≥ 1 + 2 * u := by
          simp only [c1, ge_iff_le]
          rw [le_div_iff₀ hlow]
          nlinarith [mul_nonneg h0 h0, mul_nonneg (mul_nonneg h0 h0) h0]
        nlinarith
    rw [e]
    refine (abs_add_le _ _).trans ?_
    rw [abs_mul r]
    have := mul_le_mul_of_nonneg_right key (abs_nonneg r)
    nlinarith
  set ε := κ * |p.z| / (m - |p.z|) with hεd
  have hε : ε < 1 := by rw [div_lt_one hgap]; exact hp
  have hsr' : |s - r| ≤ ε * (1 - |r|) := by
    refine hsr.trans (le_of_eq ?_)
    have er : |r| = |p.z| / m := by simp only [r]; rw [abs_div, abs_of_pos hm]
    rw [er, hεd]
    field_simp
  obtain ⟨hs, hart⟩ := artanh_near hr hsr' hε
  obtain ⟨s1, s2⟩ := abs_lt.1 hs
  refine ⟨A.arctanh s, ?_, ?_⟩
  · unfold P4.etaA
    simp only
    rw [if_neg hm'.ne', if_neg (by change s ≠ 1; linarith), if_neg (by change s ≠ -1; linarith), if_pos ⟨s1, s2⟩]
  · have ha := hA.arctanh s s1 s2
    have t1 := abs_add_le (A.arctanh s - artanh s) (artanh s - artanh r)
    rw [sub_add_sub_cancel] at t1
    have t2 := abs_add_le (artanh s - artanh r) (artanh r)
    rw [sub_add_cancel] at t2
    have t4 := mul_le_mul_of_nonneg_left t2 h0
    have t5 := mul_le_mul_of_nonneg_left hart h0
    rw [mul_add] at t4
    rw [add_mul, one_mul]
    exact t1.trans (by linarith)

/-- **C136** So `delta_R` by pseudorapidity of two particles not too close to the beam is right within two relative
roundings plus the absolute errors of the pseudorapidities and of the angle. -/
theorem C136_delta_R_eta (p q : P4) (hp : ((1 + u) / (1 - u) ^ 2 - 1) * |p.z| < p.spatialMag - |p.z|)
    (hq : ((1 + u) / (1 - u) ^ 2 - 1) * |q.z| < q.spatialMag - |q.z|) :
    ∃ d, etaDistA A p q = .fin d ∧
      |d - √((artanh (p.z / p.spatialMag) - artanh (q.z / q.spatialMag)) ^ 2 +
          (p.xyPol * (starRingEnd ℂ) q.xyPol).arg ^ 2)| ≤
        ((1 + u) ^ 2 - 1) * √((artanh (p.z / p.spatialMag) - artanh (q.z / q.spatialMag)) ^ 2 +
          (p.xyPol * (starRingEnd ℂ) q.xyPol).arg ^ 2) +
        (1 + u) ^ 2 * ((u * |artanh (p.z / p.spatialMag)| +
            (1 + u) * -log (1 - ((1 + u) / (1 - u) ^ 2 - 1) * |p.z| / (p.spatialMag - |p.z|))) +
          (u * |artanh (q.z / q.spatialMag)| +
            (1 + u) * -log (1 - ((1 + u) / (1 - u) ^ 2 - 1) * |q.z| / (q.spatialMag - |q.z|))) + angleError u) := by
  obtain ⟨y, y1, y2⟩ := C136_eta h0 h1 hA p hp
  obtain ⟨y', y1', y2'⟩ := C136_eta h0 h1 hA q hq
  unfold etaDistA
  rw [y1, y1']
  exact C136_distance h0 h1 hA _ _ y y' _ (add_le_add y2 y2') p.xyPol q.xyPol
end

/-- Sums, differences and products are the exact ones, rounded by one and the same function, which treats positive and
negative numbers alike; angles and moduli too. IEEE arithmetic has this form. -/
structure Spec.Rounds (rnd : ℝ → ℝ) (A : ArithR) : Prop where
  add : ∀ x y, A.add x y = rnd (x + y)
  sub : ∀ x y, A.sub x y = rnd (x - y)
  mul : ∀ x y, A.mul x y = rnd (x * y)
  odd : ∀ x, rnd (-x) = -rnd x
  atan2 : ∀ y x, |A.atan2 (-y) x| = |A.atan2 y x|
  hypot : ∀ x y, A.hypot x y = A.hypot |x| (|y|)

/-- **C136** Then the distance computed does not depend on which particle comes first: `b.delta_R(a)` is exactly the
transpose of `a.delta_R(b)`. -/
theorem C136_symmetric {rnd : ℝ → ℝ} {A : ArithR} (hR : Rounds rnd A) (r1 r2 : Fl) (w1 w2 : ℂ) :
    deltaRCellA A r1 r2 w1 w2 = deltaRCellA A r2 r1 w2 w1 := by
  have hphi : |dphiA A w1 w2| = |dphiA A w2 w1| := by
    have him : (mulConjA A w2 w1).im = -(mulConjA A w1 w2).im := by
      simp only [mulConjA, hR.add, hR.mul]
      have a1 : rnd (w2.re * -w1.im) = -rnd (w1.im * w2.re) := by rw [← hR.odd]; congr 1; ring
      have a2 : rnd (w1.re * -w2.im) = -rnd (w2.im * w1.re) := by rw [← hR.odd]; congr 1; ring
      rw [a1, a2, ← hR.odd (_ + _)]
      congr 1
      ring
    have hre : (mulConjA A w2 w1).re = (mulConjA A w1 w2).re := by
      simp only [mulConjA, hR.sub, hR.mul]
      rw [mul_comm w2.re, mul_neg, mul_neg, mul_comm w2.im]
    unfold dphiA
    rw [him, hre, hR.atan2]
  have hh : ∀ a b, |a| = |b| → A.hypot a (dphiA A w1 w2) = A.hypot b (dphiA A w2 w1) := by
    intro a b e
    rw [hR.hypot a, hR.hypot b, e, hphi]
  unfold deltaRCellA
  cases r1 <;> cases r2 <;> simp [subFlA, Fl.sub, hh 0 0 rfl]
  rename_i a b
  apply hh
  rw [hR.sub, hR.sub, ← abs_neg, ← hR.odd, neg_sub]

/-- **C136** And particles with parallel transverse momenta and the same rapidity are at distance exactly zero, so that
no rounding separates a particle from its rescaled copies. -/
theorem C136_collinear {u : ℝ} {rnd : ℝ → ℝ} {A : ArithR} (h1 : u ≤ 1) (hA : AccurateR u A) (hR : Rounds rnd A)
    (r : ℝ) (w : ℂ) (t : ℝ) (ht : 0 ≤ t) : deltaRCellA A (.fin r) (.fin r) w (t * w) = .fin 0 := by
  have nonneg : ∀ x, 0 ≤ x → 0 ≤ rnd x := by
    intro x hx
    have := hA.add x 0
    rw [hR.add, add_zero, abs_of_nonneg hx] at this
    have := (abs_le.1 this).1
    nlinarith
  have zero : rnd 0 = 0 := by
    have := hR.odd 0
    rw [neg_zero] at this; linarith
  have him : (mulConjA A w (t * w)).im = 0 := by
    simp only [mulConjA, hR.add, hR.mul, Complex.re_ofReal_mul, Complex.im_ofReal_mul]
    rw [mul_neg, hR.odd, show w.im * (t * w.re) = w.re * (t * w.im) by ring, neg_add_cancel, zero]
  have hre : 0 ≤ (mulConjA A w (t * w)).re := by
    simp only [mulConjA, hR.sub, hR.mul, Complex.re_ofReal_mul, Complex.im_ofReal_mul]
    rw [mul_neg, hR.odd, sub_neg_eq_add]
    apply nonneg
    apply add_nonneg <;> apply nonneg
    · nlinarith [mul_nonneg ht (mul_self_nonneg w.re)]
    · nlinarith [mul_nonneg ht (mul_self_nonneg w.im)]
  have hphi : dphiA A w (t * w) = 0 := by
    have := hA.atan2 (mulConjA A w (t * w)).im (mulConjA A w (t * w)).re
    have e : Complex.arg ⟨(mulConjA A w (t * w)).re, (mulConjA A w (t * w)).im⟩ = 0 := by
      rw [Complex.arg_eq_zero_iff]; exact ⟨hre, him⟩
    rw [e, abs_zero, mul_zero, sub_zero, abs_nonpos_iff] at this
    exact this
  have hsub : A.sub r r = 0 := by rw [hR.sub, sub_self, zero]
  have hh := hA.hypot 0 0
  simp at hh
  simp only [deltaRCellA, subFlA, hsub, hphi, hh]

/-- Rounds numbers between one and `1 + u` down to one. -/
noncomputable def exOne (u x : ℝ) : ℝ := if 1 ≤ |x| ∧ |x| ≤ 1 + u then (if 0 < x then 1 else -1) else x

theorem exOne_near {u : ℝ} (h0 : 0 ≤ u) (x : ℝ) : |exOne u x - x| ≤ u * |x| := by
  unfold exOne
  split_ifs with h hx
  · rw [abs_of_pos hx] at h ⊢
    rw [abs_of_nonpos (by linarith)]; nlinarith
  · rw [abs_of_nonpos (not_lt.1 hx)] at h ⊢
    rw [abs_of_nonneg (by linarith)]; nlinarith
  · rw [sub_self, abs_zero]; positivity

theorem exOne_odd {u : ℝ} (x : ℝ) : exOne u (-x) = -exOne u x := by
  unfold exOne
  rw [abs_neg]
  split_ifs with h h2 h3 h3
  · linarith
  · simp
  · simp
  · exfalso
    have : x = 0 := by linarith
    rw [this, abs_zero] at h; linarith
  · rfl

/-- An arithmetic that rounds in this way. -/
noncomputable def exRound (u : ℝ) : ArithR where
  toArith := { Arith.exact with
    add := fun x y => exOne u (x + y), sub := fun x y => exOne u (x - y), mul := fun x y => exOne u (x * y) }
  atan2 y x := Complex.arg ⟨x, y⟩

theorem exRound_accurate {u : ℝ} (h0 : 0 ≤ u) : AccurateR u (exRound u) := by
  have e := accurate_exact h0
  refine ⟨⟨fun x y => exOne_near h0 _, fun x y => exOne_near h0 _, fun x y => exOne_near h0 _, e.div, e.sqrt, e.log, e.hypot,
    e.arctanh⟩, fun y x => ?_⟩
  change |Complex.arg ⟨x, y⟩ - Complex.arg ⟨x, y⟩| ≤ _
  rw [sub_self, abs_zero]; positivity

theorem exRound_rounds {u : ℝ} : Rounds (exOne u) (exRound u) := by
  refine ⟨fun _ _ => rfl, fun _ _ => rfl, fun _ _ => rfl, exOne_odd, fun y x => ?_, fun x y => ?_⟩
  · change |Complex.arg ⟨x, -y⟩| = |Complex.arg ⟨x, y⟩|
    have : (⟨x, -y⟩ : ℂ) = (starRingEnd ℂ) ⟨x, y⟩ := by apply Complex.ext <;> simp
    rw [this, Complex.arg_conj]
    split_ifs with h
    · rw [h]
    · rw [abs_neg]
  · change √(x ^ 2 + y ^ 2) = √(|x| ^ 2 + |y| ^ 2)
    rw [sq_abs, sq_abs]

/-- **C136** The error of the distance is not relative to the distance: for every accuracy `u > 0` there is an arithmetic
that rounds with that accuracy in which two particles of the same rapidity with different azimuths are at distance zero. -/
theorem C136_false {u : ℝ} (h0 : 0 < u) : ∃ (A : ArithR) (rnd : ℝ → ℝ), AccurateR u A ∧ Rounds rnd A ∧
    ∃ w1 w2 : ℂ, (w1 * (starRingEnd ℂ) w2).arg ≠ 0 ∧ ∀ r, deltaRCellA A (.fin r) (.fin r) w1 w2 = .fin 0 := by
  refine ⟨exRound u, exOne u, exRound_accurate h0.le, exRound_rounds, ⟨1, 1⟩, ⟨1, 1 + u⟩, ?_, fun r => ?_⟩
  · intro h
    have := (Complex.arg_eq_zero_iff.1 h).2
    simp at this
    linarith
  · have hR := exRound_rounds (u := u)
    have e1 : exOne u 1 = 1 := by
      unfold exOne; rw [if_pos ⟨by simp, by simp; linarith⟩]; simp
    have e2 : exOne u (1 + u) = 1 := by
      unfold exOne
      rw [if_pos ⟨by rw [abs_of_pos (by linarith)]; linarith, by rw [abs_of_pos (by linarith)]⟩, if_pos (by linarith)]
    have e0 : exOne u 0 = 0 := by unfold exOne; rw [if_neg (by simp)]
    have hpos : 0 ≤ exOne u (1 + 1) := by
      unfold exOne; split_ifs <;> norm_num at *
    have him : (mulConjA (exRound u) ⟨1, 1⟩ ⟨1, 1 + u⟩).im = 0 := by
      simp only [mulConjA, hR.add, hR.mul, one_mul]
      rw [exOne_odd, e1, e2]; simp [e0]
    have hre : 0 ≤ (mulConjA (exRound u) ⟨1, 1⟩ ⟨1, 1 + u⟩).re := by
      simp only [mulConjA, hR.sub, hR.mul, one_mul]
      rw [exOne_odd, e1, e2, sub_neg_eq_add]; exact hpos
    have hphi : dphiA (exRound u) ⟨1, 1⟩ ⟨1, 1 + u⟩ = 0 := by
      change Complex.arg (mulConjA (exRound u) ⟨1, 1⟩ ⟨1, 1 + u⟩) = 0
      exact Complex.arg_eq_zero_iff.2 ⟨hre, him⟩
    have hs : (exRound u).sub r r = 0 := by rw [hR.sub, sub_self, e0]
    have hh : (exRound u).hypot 0 0 = 0 := by
      change √((0 : ℝ) ^ 2 + 0 ^ 2) = 0
      simp
    simp only [deltaRCellA, subFlA, hs, hphi, hh]

/-- **C136** With exact arithmetic these are the distances the other properties are about. -/
theorem C136_exact (tol : ℝ) (r1 r2 : Fl) (w1 w2 : ℂ) (p q : P4) :
    deltaRCellA .exact r1 r2 w1 w2 = deltaRCell r1 r2 w1 w2 ∧
    rapDistA .exact tol p q = deltaRCell (p.rapidity tol) (q.rapidity tol) p.xyPol q.xyPol ∧
    etaDistA .exact p q = deltaRCell p.eta q.eta p.xyPol q.xyPol := by
  have h : ∀ (r1 r2 : Fl) (w1 w2 : ℂ), deltaRCellA .exact r1 r2 w1 w2 = deltaRCell r1 r2 w1 w2 := by
    intro r1 r2 w1 w2
    have hm : mulConjA .exact w1 w2 = w1 * (starRingEnd ℂ) w2 := by
      apply Complex.ext <;> simp [mulConjA, ArithR.exact, Arith.exact]
    have hp : dphiA .exact w1 w2 = (w1 * (starRingEnd ℂ) w2).arg := by
      rw [← hm]; rfl
    have hs : subFlA .exact r1 r2 = r1.sub r2 := by
      cases r1 <;> cases r2 <;> rfl
    unfold deltaRCellA deltaRCell hypotFl
    rw [hs, hp]
    cases r1.sub r2 <;> rfl
  obtain ⟨-, -, -, e1, e2⟩ := C118_exact tol p
  obtain ⟨-, -, -, e1', e2'⟩ := C118_exact tol q
  refine ⟨h _ _ _ _, ?_, ?_⟩
  · unfold rapDistA; rw [h]
    change deltaRCell (p.rapidityA .exact tol) (q.rapidityA .exact tol) _ _ = _
    rw [e1, e1']
  · unfold etaDistA; rw [h]
    change deltaRCell (p.etaA .exact) (q.etaA .exact) _ _ = _
    rw [e2, e2']

-- non-vacuity: double precision, an arithmetic that does round, and particles within the hypotheses
example : AccurateR (2 ^ (-53 : ℤ)) (exRound (2 ^ (-53 : ℤ))) := exRound_accurate (by positivity)
example : (2 : ℝ) ^ (-53 : ℤ) ≤ 1 / 4 := by norm_num
example : (exRound 0.5).mul 1.2 1 ≠ 1.2 * 1 := by
  change exOne 0.5 (1.2 * 1) ≠ _
  unfold exOne
  rw [if_pos (by rw [abs_of_pos] <;> norm_num), if_pos (by norm_num)]; norm_num
example : ((⟨3, 4, 12, 14⟩ : P4).e - |(⟨3, 4, 12, 14⟩ : P4).z| : ℝ) = 2 := by norm_num
example : ((1 + (1 / 100 : ℝ)) / (1 - 1 / 100) ^ 2 - 1) * |(⟨3, 4, 12, 14⟩ : P4).z| <
    (⟨3, 4, 12, 14⟩ : P4).spatialMag - |(⟨3, 4, 12, 14⟩ : P4).z| := by
  rw [spatialMag_eq]
  unfold p3sq
  rw [show (3 : ℝ) ^ 2 + 4 ^ 2 + 12 ^ 2 = 13 ^ 2 by norm_num, sqrt_sq (by norm_num)]
  norm_num

end Gcl
