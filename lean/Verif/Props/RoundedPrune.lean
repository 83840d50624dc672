import Verif.Spec.RoundedPrune
import Verif.Props.Prune
/-!
# C156: pruning around a centre when arithmetic rounds
-/
namespace Gcl
set_option autoImplicit false
open Spec Real

/-- The modulus of two components with errors. -/
theorem hypot_both_near {u ρ E a θ a' ψ d : ℝ} (h0 : 0 ≤ u) (hρ0 : 0 ≤ ρ) (hE0 : 0 ≤ E)
    (ha : |a' - a| ≤ u * |a| + (1 + u) * ρ) (hE : |(|ψ| - |θ|)| ≤ u * |θ| + (1 + u) * E)
    (hh : |d - √(a' ^ 2 + ψ ^ 2)| ≤ u * √(a' ^ 2 + ψ ^ 2)) :
    |d - √(a ^ 2 + θ ^ 2)| ≤ ((1 + u) ^ 2 - 1) * √(a ^ 2 + θ ^ 2) + (1 + u) ^ 2 * (ρ + E) := by
  have hnm : ∀ a b : ℝ, ‖(⟨a, |b|⟩ : ℂ)‖ = √(a ^ 2 + b ^ 2) := by
    intro a b; rw [Complex.norm_eq_sqrt_sq_add_sq]; simp
  rw [← hnm a' ψ] at hh
  rw [← hnm a θ]
  set R := ‖(⟨a, |θ|⟩ : ℂ)‖ with hR
  have hdiff : ‖(⟨a', |ψ|⟩ : ℂ) - ⟨a, |θ|⟩‖ ≤ u * R + (1 + u) * (ρ + E) := by
    have e : (⟨a', |ψ|⟩ : ℂ) - ⟨a, |θ|⟩ = ⟨a' - a, |ψ| - |θ|⟩ := by apply Complex.ext <;> simp
    rw [e, Complex.norm_eq_sqrt_sq_add_sq]
    have hm : ‖(⟨u * |a| + (1 + u) * ρ, u * |θ| + (1 + u) * E⟩ : ℂ)‖ ≤ u * R + (1 + u) * (ρ + E) := by
      have e2 : (⟨u * |a| + (1 + u) * ρ, u * |θ| + (1 + u) * E⟩ : ℂ) =
          (u : ℂ) * ⟨|a|, |θ|⟩ + ((1 + u : ℝ) : ℂ) * ⟨ρ, E⟩ := by
        apply Complex.ext <;> simp
      rw [e2]
      refine (norm_add_le _ _).trans ?_
      rw [norm_mul, norm_mul, Complex.norm_real, Complex.norm_real, Real.norm_of_nonneg h0, Real.norm_of_nonneg (by linarith)]
      have e3 : ‖(⟨|a|, |θ|⟩ : ℂ)‖ = R := by
        rw [hR, Complex.norm_eq_sqrt_sq_add_sq, Complex.norm_eq_sqrt_sq_add_sq]; simp
      have e4 : ‖(⟨ρ, E⟩ : ℂ)‖ ≤ ρ + E := by
        have := Complex.norm_le_abs_re_add_abs_im (⟨ρ, E⟩ : ℂ)
        simpa [abs_of_nonneg hρ0, abs_of_nonneg hE0] using this
      rw [e3]
      have : 0 ≤ 1 + u := by linarith
      nlinarith [mul_le_mul_of_nonneg_left e4 this]
    refine le_trans ?_ hm
    rw [Complex.norm_eq_sqrt_sq_add_sq]
    apply Real.sqrt_le_sqrt
    simp only
    have q1 := sq_le_sq' (abs_le.1 ha).1 (abs_le.1 ha).2
    have q2 := sq_le_sq' (abs_le.1 hE).1 (abs_le.1 hE).2
    linarith
  have hn := abs_le.1 ((abs_norm_sub_norm_le _ _).trans hdiff)
  have hh' := abs_le.1 hh
  rw [← hR] at hn
  have hR0 : 0 ≤ R := norm_nonneg _
  rw [abs_le]
  constructor <;> nlinarith

section
variable {u : ℝ} {A : ArithP} (h0 : 0 ≤ u) (h1 : u ≤ 1 / 8) (hA : AccurateP u A)
include h0 h1 hA

omit h0 h1 in
theorem expA_near (φ : ℝ) : ‖expA A φ - Complex.exp (φ * Complex.I)‖ ≤ u := by
  have e : expA A φ - Complex.exp (φ * Complex.I) = ⟨A.cos φ - Real.cos φ, A.sin φ - Real.sin φ⟩ := by
    apply Complex.ext <;> simp [expA, Complex.exp_ofReal_mul_I_re, Complex.exp_ofReal_mul_I_im]
  rw [e, Complex.norm_eq_sqrt_sq_add_sq]
  have hu : 0 ≤ u := by
    have h1 := (abs_nonneg _).trans (hA.cos 0)
    simpa using h1
  rw [Real.sqrt_le_left hu]
  have q1 := sq_le_sq' (abs_le.1 (hA.cos φ)).1 (abs_le.1 (hA.cos φ)).2
  have q2 := sq_le_sq' (abs_le.1 (hA.sin φ)).1 (abs_le.1 (hA.sin φ)).2
  rw [mul_pow, sq_abs] at q1 q2
  have := Real.sin_sq_add_cos_sq φ
  simp only
  nlinarith [sq_nonneg u]

/-- **C156** The angle to the centre: its magnitude is right within one relative rounding plus an absolute error of a few. -/
theorem C156_angle (φ : ℝ) (w : ℂ) :
    |(|dphiA A.toArithR w (expA A φ)| - |(w * (starRingEnd ℂ) (Complex.exp (φ * Complex.I))).arg|)| ≤
      u * |(w * (starRingEnd ℂ) (Complex.exp (φ * Complex.I))).arg| + (1 + u) * centreAngleError u := by
  have hu : 0 ≤ (1 + u) ^ 2 - 1 := by nlinarith
  have hw1 : ‖Complex.exp (φ * Complex.I)‖ = 1 := Complex.norm_exp_ofReal_mul_I φ
  have hn := expA_near hA φ
  have hw2 : ‖expA A φ‖ ≤ 1 + u := by
    have := norm_add_le (expA A φ - Complex.exp (φ * Complex.I)) (Complex.exp (φ * Complex.I))
    rw [sub_add_cancel, hw1] at this
    linarith
  have hm := mulConjA_near h0 hA.toAccurateR w (expA A φ)
  have hz : ‖w * (starRingEnd ℂ) (Complex.exp (φ * Complex.I))‖ = ‖w‖ := by
    rw [norm_mul, RCLike.norm_conj, hw1, mul_one]
  have h2 : √2 < 1.5 := by rw [Real.sqrt_lt' (by norm_num)]; norm_num
  have hs2 : 0 ≤ √2 := Real.sqrt_nonneg _
  have near : ‖mulConjA A.toArithR w (expA A φ) - w * (starRingEnd ℂ) (Complex.exp (φ * Complex.I))‖ ≤
      (√2 * ((1 + u) ^ 2 - 1) * (1 + u) + u) * ‖w * (starRingEnd ℂ) (Complex.exp (φ * Complex.I))‖ := by
    have t := norm_add_le (mulConjA A.toArithR w (expA A φ) - w * (starRingEnd ℂ) (expA A φ))
      (w * (starRingEnd ℂ) (expA A φ) - w * (starRingEnd ℂ) (Complex.exp (φ * Complex.I)))
    rw [sub_add_sub_cancel] at t
    have t2 : ‖w * (starRingEnd ℂ) (expA A φ) - w * (starRingEnd ℂ) (Complex.exp (φ * Complex.I))‖ ≤ ‖w‖ * u := by
      rw [← mul_sub, ← map_sub, norm_mul, RCLike.norm_conj]
      exact mul_le_mul_of_nonneg_left hn (norm_nonneg _)
    have t3 : ‖w * (starRingEnd ℂ) (expA A φ)‖ ≤ ‖w‖ * (1 + u) := by
      rw [norm_mul, RCLike.norm_conj]
      exact mul_le_mul_of_nonneg_left hw2 (norm_nonneg _)
    rw [hz]
    have t4 : 0 ≤ √2 * ((1 + u) ^ 2 - 1) := by positivity
    nlinarith [mul_le_mul_of_nonneg_left t3 t4]
  have hε0 : 0 ≤ √2 * ((1 + u) ^ 2 - 1) * (1 + u) + u := by positivity
  have hε : √2 * ((1 + u) ^ 2 - 1) * (1 + u) + u < 1 := by
    have b1 : ((1 + u) ^ 2 - 1) * (1 + u) ≤ 0.3 := by nlinarith
    have b0 : 0 ≤ ((1 + u) ^ 2 - 1) * (1 + u) := by positivity
    nlinarith
  have hb := abs_arg_near near hε hε0
  have ha := hA.atan2 (mulConjA A.toArithR w (expA A φ)).im (mulConjA A.toArithR w (expA A φ)).re
  change |dphiA A.toArithR w (expA A φ) - (mulConjA A.toArithR w (expA A φ)).arg| ≤
    u * |(mulConjA A.toArithR w (expA A φ)).arg| at ha
  have t1 := (abs_abs_sub_abs_le (dphiA A.toArithR w (expA A φ)) (mulConjA A.toArithR w (expA A φ)).arg).trans ha
  change _ ≤ centreAngleError u at hb
  obtain ⟨b1, b2⟩ := abs_le.1 hb
  obtain ⟨c1, c2⟩ := abs_le.1 t1
  rw [abs_le]
  constructor <;> nlinarith

/-- **C156** The distance `centroid_prune` compares with the radius: within two relative roundings plus the errors of
pseudorapidity and angle of the true one. -/
theorem C156_distance (eta0 phi0 : ℝ) (p : P4) (hp : OffBeam u p) :
    ∃ d, |d - fromCentre eta0 phi0 p| ≤ ((1 + u) ^ 2 - 1) * fromCentre eta0 phi0 p +
        (1 + u) ^ 2 * (etaError u p + centreAngleError u) ∧
      ∀ radius, withinCentreA A radius eta0 phi0 p = decide (d < radius) := by
  obtain ⟨y, y1, y2⟩ := C136_eta h0 (by linarith) hA.toAccurateR p hp
  refine ⟨A.hypot (A.sub y eta0) (dphiA A.toArithR p.xyPol (expA A phi0)), ?_, fun radius => ?_⟩
  · have hE0 : 0 ≤ centreAngleError u := by
      unfold centreAngleError
      have : 0 ≤ (1 + u) ^ 2 - 1 := by nlinarith
      positivity
    have hρ0 : 0 ≤ etaError u p := (abs_nonneg _).trans y2
    have hh := hA.hypot (A.sub y eta0) (dphiA A.toArithR p.xyPol (expA A phi0))
    rw [abs_of_nonneg (Real.sqrt_nonneg ((A.sub y eta0) ^ 2 + _))] at hh
    refine hypot_both_near h0 hρ0 hE0 ?_ (C156_angle h0 h1 hA phi0 p.xyPol) hh
    have hs := hA.sub y eta0
    change |y - artanh (p.z / p.spatialMag)| ≤ etaError u p at y2
    generalize artanh (p.z / p.spatialMag) = r at *
    have t3 := abs_add_le (y - r) (r - eta0)
    have t4 := abs_add_le (A.sub y eta0 - (y - eta0)) (y - r)
    rw [sub_add_sub_cancel] at t3
    have e : A.sub y eta0 - (y - eta0) + (y - r) = A.sub y eta0 - (r - eta0) := by ring
    rw [e] at t4
    nlinarith [mul_le_mul_of_nonneg_left t3 h0]
  · unfold withinCentreA
    rw [y1]
    rfl

/-- **C156** A particle clearly inside the radius is kept, one clearly outside is dropped, however the operations round. -/
theorem C156_decided (eta0 phi0 radius : ℝ) (p : P4) (hp : OffBeam u p) :
    ((1 + u) ^ 2 * (fromCentre eta0 phi0 p + etaError u p + centreAngleError u) < radius →
      withinCentreA A radius eta0 phi0 p = true) ∧
    (radius + (1 + u) ^ 2 * (etaError u p + centreAngleError u) ≤ (2 - (1 + u) ^ 2) * fromCentre eta0 phi0 p →
      withinCentreA A radius eta0 phi0 p = false) := by
  obtain ⟨d, h2, h3⟩ := C156_distance h0 h1 hA eta0 phi0 p hp
  rw [h3]
  obtain ⟨h4, h5⟩ := abs_le.1 h2
  constructor
  · intro h; rw [decide_eq_true_eq]; nlinarith
  · intro h; rw [decide_eq_false_iff_not, not_lt]; nlinarith

omit h0 in
/-- **C156** A radius that is not positive keeps nothing. -/
theorem C156_nonpos (eta0 phi0 radius : ℝ) (p : P4) (hr : radius ≤ 0) : withinCentreA A radius eta0 phi0 p = false := by
  unfold withinCentreA
  split
  · rename_i d _
    have := hA.hypot d (dphiA A.toArithR p.xyPol (expA A phi0))
    rw [abs_of_nonneg (Real.sqrt_nonneg _)] at this
    have h3 := Real.sqrt_nonneg (d ^ 2 + dphiA A.toArithR p.xyPol (expA A phi0) ^ 2)
    have := (abs_le.1 this).1
    rw [decide_eq_false_iff_not, not_lt]
    nlinarith
  all_goals rfl

end

/-- **C156** However the operations round, a larger radius never removes a particle. -/
theorem C156_monotone (A : ArithP) (eta0 phi0 r r' : ℝ) (hr : r ≤ r') (p : P4)
    (h : withinCentreA A r eta0 phi0 p = true) : withinCentreA A r' eta0 phi0 p = true := by
  unfold withinCentreA at h ⊢
  split at h
  · rename_i d e
    rw [decide_eq_true_eq] at h
    simp only [decide_eq_true_eq]
    linarith
  all_goals cases h

/-- **C156** Particles at rest, and those whose pseudorapidity comes out infinite or nan, are dropped for every radius. -/
theorem C156_beam (A : ArithP) (eta0 phi0 r : ℝ) (p : P4) (h : ∀ y, p.etaA A.toArith ≠ .fin y) :
    withinCentreA A r eta0 phi0 p = false := by
  unfold withinCentreA
  cases he : p.etaA A.toArith with
  | fin y => exact absurd he (h y)
  | _ => rfl

/-- **C156** `centroid_prune` decides each particle by itself: without a mask one entry per particle; with a mask an entry
per entry of the mask, true only at masked particles; a mask of the wrong length is an `IndexError`. -/
theorem C156_prune (A : ArithP) (pmu : List P4) (radius eta0 phi0 : ℝ) :
    (∃ out, centroidPruneA A pmu radius none eta0 phi0 = .ok out ∧ out.length = pmu.length ∧
      ∀ i : Nat, out[i]? = some true ↔ ∃ p, pmu[i]? = some p ∧ withinCentreA A radius eta0 phi0 p = true) ∧
    (∀ m : List Bool, m.length = pmu.length → ∃ out, centroidPruneA A pmu radius (some m) eta0 phi0 = .ok out ∧
      out.length = pmu.length ∧ ∀ i : Nat, out[i]? = some true ↔ m[i]? = some true ∧
        ∃ p, pmu[i]? = some p ∧ withinCentreA A radius eta0 phi0 p = true) ∧
    ∀ m : List Bool, m.length ≠ pmu.length → centroidPruneA A pmu radius (some m) eta0 phi0 = .error .indexError := by
  refine ⟨⟨_, rfl, by simp, fun i => ?_⟩, fun m hlen => ?_, fun m hlen => ?_⟩
  · rw [List.getElem?_map]
    cases pmu[i]? <;> simp
  · have hsel := gather_eq_selected pmu m hlen
    have hlt : ∀ j ∈ trueIdxs m, j < pmu.length := by
      intro j hj
      have := (List.getElem?_eq_some_iff.1 ((mem_trueIdxs m j).1 hj)).1
      omega
    set vals := (selected pmu m).map (withinCentreA A radius eta0 phi0) with hv
    have hvl : vals.length = (trueIdxs m).length := by
      rw [hv, List.length_map, ← hsel]
      exact gather_length pmu _ hlt
    obtain ⟨g1, g2, g3⟩ := setMaskVals_go_spec (List.replicate m.length false) m vals (by simp) hvl
    refine ⟨setMaskVals.go (List.replicate m.length false) m vals, ?_, by rw [← hlen]; simpa using g1, ?_⟩
    · simp only [centroidPruneA, (C20_mask pmu m).1 hlen, ← hv]
      simp [setMaskVals, hvl]
    · intro i
      by_cases hm : m[i]? = some true
      · obtain ⟨b, hb⟩ := List.mem_iff_getElem?.1 ((mem_trueIdxs m i).2 hm)
        rw [g3 b i hb]
        have hi : i < pmu.length := hlt i ((mem_trueIdxs m i).2 hm)
        have hgb : (selected pmu m)[b]? = some pmu[i] := by
          rw [← hsel, gather_getElem? _ _ hlt, hb]; simp [hi]
        rw [hv, List.getElem?_map, hgb]
        simp [hm, hi]
      · rw [g2 i hm]
        constructor
        · intro h
          exfalso
          rw [List.getElem?_replicate] at h
          split at h <;> simp at h
        · exact fun h => absurd h.1 hm
  · simp only [centroidPruneA, (C20_mask pmu m).2 hlen]

/-- **C156** Without rounding this is the `centroid_prune` of C55. -/
theorem C156_exact (tol : ℝ) (pmu : List P4) (radius : ℝ) (mask : Option (List Bool)) (eta0 phi0 : ℝ) :
    centroidPruneA .exact pmu radius mask eta0 phi0 = centroidPrune tol pmu radius mask (some (.fin eta0, .fin phi0)) := by
  have hw : withinCentreA .exact radius eta0 phi0 = withinCentre radius (.fin eta0, .fin phi0) := by
    funext p
    have hx : expA .exact phi0 = Complex.exp (phi0 * Complex.I) := by
      apply Complex.ext <;> simp [expA, ArithP.exact, Complex.exp_ofReal_mul_I_re, Complex.exp_ofReal_mul_I_im]
    have hm : mulConjA .exact p.xyPol (expA .exact phi0) =
        p.xyPol * (starRingEnd ℂ) (Complex.exp (phi0 * Complex.I)) := by
      rw [hx]
      apply Complex.ext <;> simp [mulConjA, ArithR.exact, Arith.exact]
    have hd : dphiA .exact p.xyPol (expA .exact phi0) =
        (p.xyPol * (starRingEnd ℂ) (Complex.exp (phi0 * Complex.I))).arg := by
      unfold dphiA
      rw [hm]
      rfl
    have he : p.etaA ArithP.exact.toArith = p.eta := (C118_exact 0 p).2.2.2.2
    unfold withinCentreA withinCentre
    rw [he]
    change (match subFlA .exact p.eta (.fin eta0) with
      | .fin d => decide (√(d ^ 2 + (dphiA .exact p.xyPol (expA .exact phi0)) ^ 2) < radius)
      | .nan => false | .pinf => false | .ninf => false) = _
    rw [hd]
    cases p.eta <;> rfl
  unfold centroidPruneA centroidPrune isWithin
  rw [hw]
  cases mask <;> rfl

/-- Exact arithmetic but for the modulus, which is always rounded up. -/
noncomputable def exUp (u : ℝ) : ArithP := { ArithP.exact with hypot := fun x y => (1 + u) * √(x ^ 2 + y ^ 2) }

theorem exUp_accurate {u : ℝ} (h0 : 0 ≤ u) : AccurateP u (exUp u) := by
  have e := accurate_exact h0
  refine ⟨⟨⟨e.add, e.sub, e.mul, e.div, e.sqrt, e.log, fun x y => ?_, e.arctanh⟩, fun y x => ?_⟩, fun x => ?_, fun x => ?_⟩
  · change |(1 + u) * √(x ^ 2 + y ^ 2) - √(x ^ 2 + y ^ 2)| ≤ _
    have : (1 + u) * √(x ^ 2 + y ^ 2) - √(x ^ 2 + y ^ 2) = u * √(x ^ 2 + y ^ 2) := by ring
    rw [this, abs_mul, abs_of_nonneg h0]
  · change |Complex.arg ⟨x, y⟩ - Complex.arg ⟨x, y⟩| ≤ _
    rw [sub_self, abs_zero]; positivity
  · change |Real.cos x - Real.cos x| ≤ _
    rw [sub_self, abs_zero]; positivity
  · change |Real.sin x - Real.sin x| ≤ _
    rw [sub_self, abs_zero]; positivity

/-- **C156** The expectation that rounding does not change which particles are kept is refuted for every accuracy: some
rounding drops a particle inside the radius. -/
theorem C156_false {u : ℝ} (h0 : 0 < u) : ∃ (A : ArithP) (p : P4) (radius : ℝ), AccurateP u A ∧
    (∀ tol, centroidPrune tol [p] radius none (some (.fin 1, .fin 0)) = .ok [true]) ∧
    centroidPruneA A [p] radius none 1 0 = .ok [false] := by
  have key : ∀ c : ℝ, 0 ≤ c → ∀ B : ArithP, B = exUp c → ∀ r : ℝ,
      withinCentreA B r 1 0 ⟨1, 0, 0, 1⟩ = decide ((1 + c) < r) := by
    rintro c hc B rfl r
    have he : (⟨1, 0, 0, 1⟩ : P4).etaA (exUp c).toArith = .fin 0 := by
      have h2 : 0 < (1 + c) ^ 2 := by positivity
      simp [P4.etaA, P4.spatialMagA, P4.ptA, exUp, ArithP.exact, ArithR.exact, Arith.exact]
      exact ⟨by linarith, (Real.sqrt_pos.2 h2).ne'⟩
    have hd : dphiA (exUp c).toArithR (⟨1, 0, 0, 1⟩ : P4).xyPol (expA (exUp c) 0) = 0 := by
      simp [dphiA, mulConjA, expA, P4.xyPol, exUp, ArithP.exact, ArithR.exact, Arith.exact]
      exact Complex.arg_one
    unfold withinCentreA
    rw [he, hd]
    simp [subFlA, exUp, ArithP.exact, ArithR.exact, Arith.exact]
  refine ⟨exUp u, ⟨1, 0, 0, 1⟩, 1 + u / 2, exUp_accurate h0.le, fun tol => ?_, ?_⟩
  · rw [← C156_exact tol]
    have h : ArithP.exact = exUp 0 := by simp [exUp, ArithP.exact, ArithR.exact, Arith.exact]
    simp only [centroidPruneA, List.map_cons, List.map_nil, key 0 le_rfl _ h]
    simp [h0]
  · simp only [centroidPruneA, List.map_cons, List.map_nil, key u h0.le _ rfl]
    simp
    linarith

/-- The hypotheses of `C156_decided` are met: with an accuracy of one in a thousand, a particle at the centre is kept by a
radius of one, and dropped when the centre is five units of pseudorapidity away. -/
example (A : ArithP) (hA : AccurateP (1 / 1000) A) : withinCentreA A 1 0 0 ⟨1, 0, 0, 1⟩ = true ∧
    withinCentreA A 1 5 0 ⟨1, 0, 0, 1⟩ = false := by
  have hs : (⟨1, 0, 0, 1⟩ : P4).spatialMag = 1 := by rw [spatialMag_eq]; simp [p3sq]
  have hp : OffBeam (1 / 1000) ⟨1, 0, 0, 1⟩ := by
    unfold OffBeam
    rw [hs]
    norm_num
  have he : etaError (1 / 1000) ⟨1, 0, 0, 1⟩ = 0 := by simp [etaError]
  have hf : ∀ c : ℝ, fromCentre c 0 ⟨1, 0, 0, 1⟩ = |c| := by
    intro c
    have : ((⟨1, 0, 0, 1⟩ : P4).xyPol).arg = 0 := Complex.arg_one
    simp [fromCentre, this, Real.sqrt_sq_eq_abs]
  have hE : centreAngleError (1 / 1000) ≤ 1 / 100 := by
    unfold centreAngleError
    have h2 : √2 < 1.5 := by rw [Real.sqrt_lt' (by norm_num)]; norm_num
    have h3 : 0 ≤ √2 := Real.sqrt_nonneg _
    have h4 := Real.pi_le_four
    have h5 := Real.pi_pos
    nlinarith [mul_nonneg h5.le h3]
  constructor
  · refine (C156_decided (by norm_num) (by norm_num) hA 0 0 1 _ hp).1 ?_
    rw [he, hf, abs_zero]
    linarith
  · refine (C156_decided (by norm_num) (by norm_num) hA 5 0 1 _ hp).2 ?_
    rw [he, hf, abs_of_pos (by norm_num : (0 : ℝ) < 5)]
    linarith

end Gcl
