import Verif.Spec.Select
import Verif.Spec.Index
import Verif.Props.Index
import Verif.Props.Rotation
import Verif.Lemmas.Partition
/-!
# C55: `centroid_prune`
-/
namespace Gcl
set_option autoImplicit false
open Real Spec

/-- A particle of finite pseudorapidity has transverse momentum. -/
theorem xyPol_ne_zero_of_eta {p : P4} {η : ℝ} (h : p.eta = .fin η) : p.xyPol ≠ 0 := by
  intro h0
  have hpt : p.ztPol = (p.z : ℂ) := by
    apply Complex.ext
    · rfl
    · show ‖p.xyPol‖ = 0
      rw [h0, norm_zero]
  have hm : p.spatialMag = |p.z| := by
    rw [P4.spatialMag, hpt, Complex.norm_real, Real.norm_eq_abs]
  unfold P4.eta at h
  rw [hm] at h
  by_cases hz : p.z = 0
  · simp [hz] at h
  · rcases lt_or_gt_of_ne hz with hz' | hz'
    · have : p.z / |p.z| = -1 := by rw [abs_of_neg hz', div_neg, div_self hz]
      norm_num [hz, this] at h; cases h
    · have : p.z / |p.z| = 1 := by rw [abs_of_pos hz', div_self hz]
      simp [hz, this] at h

theorem conj_exp_I (f : ℝ) :
    (starRingEnd ℂ) (Complex.exp (f * Complex.I)) = Complex.exp ((-f : ℝ) * Complex.I) := by
  rw [← Complex.exp_conj]; congr 1; simp

theorem angleEq_unique {a b : ℝ} (h : AngleEq a b) (ha : -π < a) (ha' : a ≤ π) (hb : -π < b)
    (hb' : b ≤ π) : a = b := by
  obtain ⟨k, hk⟩ := h
  have hpi := Real.pi_pos
  have h1 : (k : ℝ) < 1 := by
    by_contra hc; push Not at hc; nlinarith
  have h2 : (-1 : ℝ) < k := by
    by_contra hc; push Not at hc; nlinarith
  have h1' : k < 1 := by exact_mod_cast h1
  have h2' : -1 < k := by exact_mod_cast h2
  have : k = 0 := by omega
  subst this; simpa using hk

theorem angleFrom_spec {w : ℂ} (hw : w ≠ 0) (f : ℝ) :
    AngleEq w.arg (f + (w * (starRingEnd ℂ) (Complex.exp (f * Complex.I))).arg) := by
  rw [conj_exp_I]
  have h := Complex.arg_mul_coe_angle hw (Complex.exp_ne_zero ((-f : ℝ) * Complex.I))
  rw [Complex.arg_exp_mul_I, Real.Angle.coe_toIocMod, ← Real.Angle.coe_add,
    Real.Angle.angle_eq_iff_two_pi_dvd_sub] at h
  obtain ⟨k, hk⟩ := h
  refine ⟨-k, ?_⟩
  rw [Int.cast_neg]
  linarith

/-- The comparison made for one particle is `Near`. -/
theorem withinCentre_iff (radius : ℝ) (centre : Fl × Fl) (p : P4) :
    withinCentre radius centre p = true ↔ Near radius centre p := by
  obtain ⟨c1, c2⟩ := centre
  unfold withinCentre
  constructor
  · intro h
    cases hη : p.eta with
    | fin η =>
      rw [hη] at h
      cases c1 with
      | fin η0 =>
        cases c2 with
        | fin φ0 =>
          refine ⟨η, η0, φ0, _, hη, rfl, Complex.neg_pi_lt_arg _, Complex.arg_le_pi _,
            angleFrom_spec (xyPol_ne_zero_of_eta hη) φ0, ?_⟩
          simp only [Fl.sub, angleFrom, npHypot, Fl.ltB, decide_eq_true_eq] at h
          have h0 := sqrt_nonneg ((η - η0) ^ 2 +
            (p.xyPol * (starRingEnd ℂ) (Complex.exp (φ0 * Complex.I))).arg ^ 2)
          have hr : 0 < radius := lt_of_le_of_lt h0 h
          exact ⟨hr, (sqrt_lt' hr).1 h⟩
        | pinf => simp [Fl.sub, angleFrom, npHypot, Fl.ltB] at h
        | ninf => simp [Fl.sub, angleFrom, npHypot, Fl.ltB] at h
        | nan => simp [Fl.sub, angleFrom, npHypot, Fl.ltB] at h
      | pinf => cases c2 <;> simp [Fl.sub, angleFrom, npHypot, Fl.ltB] at h
      | ninf => cases c2 <;> simp [Fl.sub, angleFrom, npHypot, Fl.ltB] at h
      | nan => cases c2 <;> simp [Fl.sub, angleFrom, npHypot, Fl.ltB] at h
    | pinf => rw [hη] at h; cases c1 <;> cases c2 <;> simp [Fl.sub, angleFrom, npHypot, Fl.ltB] at h
    | ninf => rw [hη] at h; cases c1 <;> cases c2 <;> simp [Fl.sub, angleFrom, npHypot, Fl.ltB] at h
    | nan => rw [hη] at h; cases c1 <;> cases c2 <;> simp [Fl.sub, angleFrom, npHypot, Fl.ltB] at h
  · rintro ⟨η, η0, φ0, a, h1, h2, ha, ha', hang, hr, hd⟩
    obtain ⟨rfl, rfl⟩ := Prod.mk.inj h2
    have hsp := angleFrom_spec (xyPol_ne_zero_of_eta h1) φ0
    have : a = (p.xyPol * (starRingEnd ℂ) (Complex.exp (φ0 * Complex.I))).arg := by
      apply angleEq_unique _ ha ha' (Complex.neg_pi_lt_arg _) (Complex.arg_le_pi _)
      obtain ⟨k, hk⟩ := hang
      obtain ⟨k', hk'⟩ := hsp
      exact ⟨k' - k, by push_cast; linarith⟩
    rw [h1]
    simp only [Fl.sub, angleFrom, npHypot, Fl.ltB, decide_eq_true_eq]
    rw [← this]
    exact (sqrt_lt' hr).2 hd

theorem isWithin_eq (tol : ℝ) (ps : List P4) (radius : ℝ) (centre : Option (Fl × Fl)) :
    isWithin tol ps radius centre = ps.map (withinCentre radius (centreUsed tol ps centre)) := by
  cases centre <;> rfl

/-- **C55** Without a mask: one entry per particle, true exactly for the particles strictly closer to the
centre than `radius`. -/
theorem C55_all (tol : ℝ) (pmu : List P4) (radius : ℝ) (centre : Option (Fl × Fl)) :
    ∃ out, centroidPrune tol pmu radius none centre = .ok out ∧ out.length = pmu.length ∧
      ∀ (i : Nat) (p : P4), pmu[i]? = some p →
        (out[i]? = some true ↔ Near radius (centreUsed tol pmu centre) p) := by
  refine ⟨_, rfl, by simp [isWithin_eq], fun i p hp => ?_⟩
  rw [isWithin_eq, List.getElem?_map, hp, ← withinCentre_iff]
  simp

theorem gather_eq_selected {α : Type} (a : List α) (m : List Bool) (h : m.length = a.length) :
    gather a (trueIdxs m) = selected a m := by
  have := (C20_mask a m).1 h
  simpa [Key.apply, Key.resolve, h] using this

/-- **C55** With a mask over the particles: the result has its length and is true exactly at the masked
particles strictly closer than `radius` to the centre (which is by default that of the masked particles). -/
theorem C55_masked (tol : ℝ) (pmu : List P4) (radius : ℝ) (mask : List Bool)
    (centre : Option (Fl × Fl)) (hlen : mask.length = pmu.length) :
    ∃ out, centroidPrune tol pmu radius (some mask) centre = .ok out ∧ out.length = mask.length ∧
      ∀ i : Nat, out[i]? = some true ↔ mask[i]? = some true ∧
        ∃ p, pmu[i]? = some p ∧ Near radius (centreUsed tol (selected pmu mask) centre) p := by
  have hsel := gather_eq_selected pmu mask hlen
  have hlt : ∀ j ∈ trueIdxs mask, j < pmu.length := by
    intro j hj
    have := (List.getElem?_eq_some_iff.1 ((mem_trueIdxs mask j).1 hj)).1
    omega
  set vals := isWithin tol (selected pmu mask) radius centre with hv
  have hvl : vals.length = (trueIdxs mask).length := by
    rw [hv, isWithin_eq, List.length_map, ← hsel]
    exact gather_length pmu _ hlt
  obtain ⟨g1, g2, g3⟩ := setMaskVals_go_spec (List.replicate mask.length false) mask vals
    (by simp) hvl
  refine ⟨setMaskVals.go (List.replicate mask.length false) mask vals, ?_, by simpa using g1, ?_⟩
  · simp only [centroidPrune, (C20_mask pmu mask).1 hlen, ← hv]
    simp [setMaskVals, hvl]
  · intro i
    by_cases hm : mask[i]? = some true
    · obtain ⟨b, hb⟩ := List.mem_iff_getElem?.1 ((mem_trueIdxs mask i).2 hm)
      rw [g3 b i hb]
      have hi : i < pmu.length := hlt i ((mem_trueIdxs mask i).2 hm)
      have hgb : (selected pmu mask)[b]? = some pmu[i] := by
        rw [← hsel, gather_getElem? _ _ hlt, hb]; simp [hi]
      rw [hv, isWithin_eq, List.getElem?_map, hgb]
      simp only [Option.map_some, Option.some.injEq, hm, true_and]
      rw [withinCentre_iff]
      simp [hi]
    · rw [g2 i hm]
      constructor
      · intro h
        exfalso
        rw [List.getElem?_replicate] at h
        split at h <;> simp at h
      · exact fun h => absurd h.1 hm

/-- **C55** A mask of the wrong length is an `IndexError`. -/
theorem C55_mismatch (tol : ℝ) (pmu : List P4) (radius : ℝ) (mask : List Bool)
    (centre : Option (Fl × Fl)) (hlen : mask.length ≠ pmu.length) :
    centroidPrune tol pmu radius (some mask) centre = .error .indexError := by
  simp only [centroidPrune, (C20_mask pmu mask).2 hlen]

/-- **C55** When `centroid_prune` raises: `ValueError` exactly for an object that is not a `MomentumArray`, `IndexError` exactly for
a mask of another length; otherwise it returns a mask. -/
theorem C55_raises (tol : ℝ) (pmu : PmuArg) (radius : ℝ) (mask : Option (List Bool)) (centre : Option (Fl × Fl)) :
    (centroidPruneCall tol pmu radius mask centre = .error .valueError ↔ pmu = .other) ∧
    (centroidPruneCall tol pmu radius mask centre = .error .indexError ↔
      ∃ ps m, pmu = .momentum ps ∧ mask = some m ∧ m.length ≠ ps.length) ∧
    ((∃ out, centroidPruneCall tol pmu radius mask centre = .ok out) ↔
      ∃ ps, pmu = .momentum ps ∧ ∀ m, mask = some m → m.length = ps.length) := by
  cases pmu with
  | other => simp [centroidPruneCall, paramCheck]
  | momentum ps =>
    simp only [centroidPruneCall, paramCheck]
    cases mask with
    | none =>
      obtain ⟨o, e, -, -⟩ := C55_all tol ps radius centre
      simp [e]
    | some m =>
      by_cases hl : m.length = ps.length
      · obtain ⟨o, e, -, -⟩ := C55_masked tol ps radius m centre hl
        simp [e, hl]
      · simp [C55_mismatch tol ps radius m centre hl, hl]

theorem near_mono {r r' : ℝ} (h : r ≤ r') {c : Fl × Fl} {p : P4} (hn : Near r c p) : Near r' c p := by
  obtain ⟨η, η0, φ0, a, h1, h2, h3, h4, h5, h6, h7⟩ := hn
  exact ⟨η, η0, φ0, a, h1, h2, h3, h4, h5, by linarith, by nlinarith⟩

/-- **C55** A larger radius never removes a particle. -/
theorem C55_monotone (tol : ℝ) (pmu : List P4) (r r' : ℝ) (mask : Option (List Bool))
    (centre : Option (Fl × Fl)) (out out' : List Bool) (hr : r ≤ r')
    (h : centroidPrune tol pmu r mask centre = .ok out)
    (h' : centroidPrune tol pmu r' mask centre = .ok out') (i : Nat) (hi : out[i]? = some true) :
    out'[i]? = some true := by
  cases mask with
  | none =>
    obtain ⟨o, e, l, s⟩ := C55_all tol pmu r centre
    obtain ⟨o', e', l', s'⟩ := C55_all tol pmu r' centre
    rw [h] at e; rw [h'] at e'; cases e; cases e'
    have hil := (List.getElem?_eq_some_iff.1 hi).1
    have hp : pmu[i]? = some (pmu[i]'(by omega)) := List.getElem?_eq_getElem _
    exact (s' i _ hp).2 (near_mono hr ((s i _ hp).1 hi))
  | some m =>
    by_cases hlen : m.length = pmu.length
    · obtain ⟨o, e, l, s⟩ := C55_masked tol pmu r m centre hlen
      obtain ⟨o', e', l', s'⟩ := C55_masked tol pmu r' m centre hlen
      rw [h] at e; rw [h'] at e'; cases e; cases e'
      obtain ⟨a, p, hp, hn⟩ := (s i).1 hi
      exact (s' i).2 ⟨a, p, hp, near_mono hr hn⟩
    · rw [C55_mismatch tol pmu r m centre hlen] at h; cases h

/-- **C55** A radius that is not positive keeps nothing. -/
theorem C55_nonpos (tol : ℝ) (pmu : List P4) (r : ℝ) (mask : Option (List Bool))
    (centre : Option (Fl × Fl)) (out : List Bool) (hr : r ≤ 0)
    (h : centroidPrune tol pmu r mask centre = .ok out) (i : Nat) : out[i]? ≠ some true := by
  intro hi
  cases mask with
  | none =>
    obtain ⟨o, e, l, s⟩ := C55_all tol pmu r centre
    rw [h] at e; cases e
    have hil := (List.getElem?_eq_some_iff.1 hi).1
    have hp : pmu[i]? = some (pmu[i]'(by omega)) := List.getElem?_eq_getElem _
    obtain ⟨_, _, _, _, _, _, _, _, _, h6, _⟩ := (s i _ hp).1 hi
    linarith
  | some m =>
    by_cases hlen : m.length = pmu.length
    · obtain ⟨o, e, l, s⟩ := C55_masked tol pmu r m centre hlen
      rw [h] at e; cases e
      obtain ⟨a, p, hp, hn⟩ := (s i).1 hi
      obtain ⟨_, _, _, _, _, _, _, _, _, h6, _⟩ := hn
      linarith
    · rw [C55_mismatch tol pmu r m centre hlen] at h; cases h

theorem eta_x_axis (p : P4) (hz : p.z = 0) (hx : p.x ≠ 0) : p.eta = .fin 0 := by
  have hs : p.spatialMag ≠ 0 := by
    intro h
    have := spatialMag_sq p
    rw [h] at this
    unfold p3sq at this
    have : 0 < p.x ^ 2 := by positivity
    nlinarith [sq_nonneg p.y, sq_nonneg p.z]
  unfold P4.eta
  rw [if_neg hs]
  simp [hz]

/-- Witness: with centre `(0, 0)` and radius 1, a particle along `+x` is kept, also through a mask. -/
example : Near 1 (.fin 0, .fin 0) ⟨5, 0, 0, 5⟩ := by
  refine ⟨0, 0, 0, 0, eta_x_axis _ rfl (by norm_num), rfl, by linarith [Real.pi_pos],
    Real.pi_pos.le, ⟨0, ?_⟩, by norm_num, by norm_num⟩
  have : (P4.xyPol ⟨5, 0, 0, 5⟩) = ((5 : ℝ) : ℂ) := by apply Complex.ext <;> rfl
  rw [this, Complex.arg_ofReal_of_nonneg (by norm_num)]; simp

/-- Witness: a particle along `-x` is at distance `π` of that centre and is dropped. -/
example : ¬ Near 1 (.fin 0, .fin 0) ⟨-5, 0, 0, 5⟩ := by
  rintro ⟨η, η0, φ0, a, h1, h2, h3, h4, h5, h6, h7⟩
  obtain ⟨e1, e2⟩ := Prod.mk.inj h2
  injection e1 with e1; injection e2 with e2
  have : (P4.xyPol ⟨-5, 0, 0, 5⟩) = ((-5 : ℝ) : ℂ) := by apply Complex.ext <;> simp [P4.xyPol]
  rw [this, Complex.arg_ofReal_of_neg (by norm_num), ← e2, zero_add] at h5
  have := angleEq_unique h5 (by linarith [Real.pi_pos]) le_rfl h3 h4
  rw [← this] at h7
  nlinarith [Real.two_le_pi, sq_nonneg (η - η0)]

/-- Finding: if the transverse momenta balance, the default centre has no azimuth and nothing is kept,
whatever the radius. -/
theorem C55_balanced (tol : ℝ) (pmu : List P4) (radius : ℝ) (out : List Bool)
    (htol : 0 ≤ tol) (hx : (pmu.map P4.x).sum = 0) (hy : (pmu.map P4.y).sum = 0)
    (h : centroidPrune tol pmu radius none none = .ok out) (i : Nat) : out[i]? ≠ some true := by
  intro hi
  obtain ⟨o, e, l, s⟩ := C55_all tol pmu radius none
  rw [h] at e; cases e
  have hil := (List.getElem?_eq_some_iff.1 hi).1
  have hp : pmu[i]? = some (pmu[i]'(by omega)) := List.getElem?_eq_getElem _
  obtain ⟨_, _, _, _, _, h2, _⟩ := (s i _ hp).1 hi
  have h3 := (Prod.mk.inj h2).2
  have hpt : (total pmu).pt = 0 := by
    rw [pt_eq]; simp [total, hx, hy]
  simp [P4.phi, hpt, htol] at h3

/-- Witness: two particles back to back. -/
example : (([⟨5, 0, 0, 5⟩, ⟨-5, 0, 0, 5⟩] : List P4).map P4.x).sum = 0 ∧
    (([⟨5, 0, 0, 5⟩, ⟨-5, 0, 0, 5⟩] : List P4).map P4.y).sum = 0 := by norm_num

end Gcl
