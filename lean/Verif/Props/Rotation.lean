import Mathlib.Analysis.SpecialFunctions.Trigonometric.Angle
import Verif.Lemmas.Momentum
import Verif.Lemmas.Hier
import Verif.Props.Index
import Verif.Props.Kinematics
/-!
# C62, C68, C89: rotations, aggregation, meaning of the derived quantities
-/
namespace Gcl
set_option autoImplicit false
open Real Spec

/-- `shift_phi` written out: a rotation of the transverse components. -/
theorem shiftPhi_xy (s : ℝ) (p : P4) : (p.shiftPhi s).x = cos s * p.x - sin s * p.y ∧
    (p.shiftPhi s).y = cos s * p.y + sin s * p.x ∧ (p.shiftPhi s).z = p.z ∧ (p.shiftPhi s).e = p.e := by
  have hre : (Complex.exp (s * Complex.I)).re = cos s := Complex.exp_ofReal_mul_I_re s
  have him : (Complex.exp (s * Complex.I)).im = sin s := Complex.exp_ofReal_mul_I_im s
  simp [P4.shiftPhi, P4.xyPol, Complex.mul_re, Complex.mul_im, hre, him]

theorem shiftPhi_xyPol (s : ℝ) (p : P4) :
    (p.shiftPhi s).xyPol = Complex.exp (s * Complex.I) * p.xyPol := by
  apply Complex.ext <;> rfl

/-- **C62** What an azimuthal rotation leaves unchanged: `pz`, energy, `pt`, mass and all Minkowski
products. -/
theorem C62_invariants (s : ℝ) (p q : P4) :
    (p.shiftPhi s).z = p.z ∧ (p.shiftPhi s).e = p.e ∧ (p.shiftPhi s).pt = p.pt ∧
    (p.shiftPhi s).mass = p.mass ∧ mdot (p.shiftPhi s) (q.shiftPhi s) = mdot p q := by
  have hm : ∀ p q : P4, mdot (p.shiftPhi s) (q.shiftPhi s) = mdot p q := by
    intro p q
    obtain ⟨h1, h2, h3, h4⟩ := shiftPhi_xy s p
    obtain ⟨g1, g2, g3, g4⟩ := shiftPhi_xy s q
    unfold mdot
    rw [h1, h2, h3, h4, g1, g2, g3, g4]
    linear_combination (-p.x * q.x - p.y * q.y) * sin_sq_add_cos_sq s
  obtain ⟨h1, h2, h3, h4⟩ := shiftPhi_xy s p
  refine ⟨h3, h4, ?_, mass_congr (hm p p), hm p q⟩
  rw [pt_eq, pt_eq, h1, h2]
  congr 1
  linear_combination (p.x ^ 2 + p.y ^ 2) * sin_sq_add_cos_sq s

/-- **C62** The azimuth of a particle with `pt` above the tolerance increases by `s` modulo `2π`; where
`pt` is within the tolerance it is nan before and after. -/
theorem C62_azimuth {tol : ℝ} (ht : 0 ≤ tol) (s : ℝ) (p : P4) :
    (tol < p.pt → ∃ a b, p.phi tol = .fin a ∧ (p.shiftPhi s).phi tol = .fin b ∧ AngleEq b (a + s)) ∧
    (p.pt ≤ tol → p.phi tol = .nan ∧ (p.shiftPhi s).phi tol = .nan) := by
  have hpt := (C62_invariants s p p).2.2.1
  have hn := pt_nonneg p
  constructor
  · intro h
    refine ⟨p.xyPol.arg, (p.shiftPhi s).xyPol.arg, ?_, ?_, ?_⟩
    · unfold P4.phi; rw [if_neg (by rw [abs_of_nonneg hn]; exact not_le.2 h)]
    · unfold P4.phi; rw [if_neg (by rw [hpt, abs_of_nonneg hn]; exact not_le.2 h)]
    · rw [shiftPhi_xyPol]
      have h0 : p.xyPol ≠ 0 := by
        intro h0
        have : p.pt = 0 := by simp [P4.pt, P4.ztPol, h0]
        linarith
      have := Complex.arg_mul_coe_angle (Complex.exp_ne_zero (s * Complex.I)) h0
      rw [Complex.arg_exp_mul_I, Real.Angle.coe_toIocMod] at this
      rw [← Real.Angle.coe_add, Real.Angle.angle_eq_iff_two_pi_dvd_sub] at this
      obtain ⟨k, hk⟩ := this
      refine ⟨k, ?_⟩
      linarith
  · intro h
    unfold P4.phi
    have h' : |p.pt| ≤ tol := by rwa [abs_of_nonneg hn]
    rw [hpt, if_pos h', if_pos h']
    exact ⟨rfl, rfl⟩

/-- **C62** Rotations compose additively, `-s` undoes `s`, and `2π` is the identity. -/
theorem C62_compose (a b : ℝ) (p : P4) :
    (p.shiftPhi a).shiftPhi b = p.shiftPhi (a + b) ∧ (p.shiftPhi a).shiftPhi (-a) = p ∧
    p.shiftPhi (a + 2 * π) = p.shiftPhi a ∧ p.shiftPhi 0 = p := by
  have hext : ∀ q r : P4, q.x = r.x → q.y = r.y → q.z = r.z → q.e = r.e → q = r := by
    intro q r; exact fun h1 h2 h3 h4 => P4.ext h1 h2 h3 h4
  have hc : ∀ a b, (p.shiftPhi a).shiftPhi b = p.shiftPhi (a + b) := by
    intro a b
    obtain ⟨h1, h2, h3, h4⟩ := shiftPhi_xy a p
    obtain ⟨g1, g2, g3, g4⟩ := shiftPhi_xy b (p.shiftPhi a)
    obtain ⟨k1, k2, k3, k4⟩ := shiftPhi_xy (a + b) p
    apply hext
    · rw [g1, k1, h1, h2, cos_add, sin_add]; ring
    · rw [g2, k2, h1, h2, cos_add, sin_add]; ring
    · rw [g3, k3, h3]
    · rw [g4, k4, h4]
  have h0 : p.shiftPhi 0 = p := by
    obtain ⟨h1, h2, h3, h4⟩ := shiftPhi_xy 0 p
    apply hext <;> simp [*]
  refine ⟨hc a b, by rw [hc, add_neg_cancel, h0], ?_, h0⟩
  obtain ⟨h1, h2, h3, h4⟩ := shiftPhi_xy a p
  obtain ⟨k1, k2, k3, k4⟩ := shiftPhi_xy (a + 2 * π) p
  apply hext <;> simp [*]

/-- **C62** A common rotation preserves the azimuthal difference of two particles (as computed by
`delta_R`: the argument of `w₁ · conj w₂`). -/
theorem C62_difference (s : ℝ) (p q : P4) :
    (p.shiftPhi s).xyPol * (starRingEnd ℂ) (q.shiftPhi s).xyPol = p.xyPol * (starRingEnd ℂ) q.xyPol := by
  rw [shiftPhi_xyPol, shiftPhi_xyPol, map_mul]
  have : Complex.exp (s * Complex.I) * (starRingEnd ℂ) (Complex.exp (s * Complex.I)) = 1 := by
    rw [Complex.mul_conj, Complex.normSq_eq_norm_sq, Complex.norm_exp_ofReal_mul_I]; simp
  linear_combination (p.xyPol * (starRingEnd ℂ) q.xyPol) * this

/-- **C62** A scalar shift (or an array of one shift) rotates every particle by it, an array of the same
length rotates particle `i` by entry `i`; any other array raises `ValueError`. -/
theorem C62_array (ps : List P4) :
    (∀ s, shiftPhi (.scalar s) ps = .ok (ps.map (P4.shiftPhi s))) ∧
    (∀ s, shiftPhi (.array [s]) ps = .ok (ps.map (P4.shiftPhi s))) ∧
    (∀ ss : List ℝ, ss.length = ps.length → ∃ out, shiftPhi (.array ss) ps = .ok out ∧
      out.length = ps.length ∧ ∀ (i : Nat) (s : ℝ) (p : P4), ss[i]? = some s → ps[i]? = some p →
        out[i]? = some (p.shiftPhi s)) ∧
    (∀ ss : List ℝ, ss.length ≠ ps.length → ss.length ≠ 1 →
      shiftPhi (.array ss) ps = .error .valueError) := by
  have h := fun sh => applyShift_spec P4.shiftPhi sh ps
  exact ⟨fun s => (h _).1 s rfl, fun s => (h _).2.2.1 s rfl, fun ss => (h _).2.1 ss rfl,
    fun ss => (h _).2.2.2 ss rfl⟩

-- non-vacuity: a particle along x rotated by a right angle points along y
example : ((⟨1, 0, 2, 3⟩ : P4).shiftPhi (π / 2)).x = 0 ∧ ((⟨1, 0, 2, 3⟩ : P4).shiftPhi (π / 2)).y = 1 ∧
    (1e-10 : ℝ) < (⟨1, 0, 2, 3⟩ : P4).pt := by
  obtain ⟨h1, h2, _, _⟩ := shiftPhi_xy (π / 2) ⟨1, 0, 2, 3⟩
  refine ⟨by rw [h1]; simp, by rw [h2]; simp, ?_⟩
  rw [pt_eq]; norm_num

/-! ## C68 -/

/-- **C68** `aggregate_momenta` succeeds exactly when every mask has one entry per particle, and then
gives, mask by mask, the sum of the selected particles; otherwise it raises `IndexError`. -/
theorem C68_aggregate (ps : List P4) (masks : List (List Bool)) :
    ((∀ m ∈ masks, m.length = ps.length) →
      aggregateMomenta ps masks = .ok (masks.map (fun m => total (selected ps m)))) ∧
    ((∃ m ∈ masks, m.length ≠ ps.length) → aggregateMomenta ps masks = .error .indexError) := by
  induction masks with
  | nil => simp [aggregateMomenta]
  | cons m ms ih =>
    obtain ⟨g1, g2⟩ := C20_mask ps m
    constructor
    · intro h
      simp only [aggregateMomenta]
      rw [g1 (h m (by simp)), ih.1 (fun m' hm' => h m' (by simp [hm']))]
      rfl
    · intro h
      simp only [aggregateMomenta]
      by_cases hm : m.length = ps.length
      · rw [g1 hm]
        simp only
        rw [ih.2 ?_]
        obtain ⟨m', hm', hne⟩ := h
        rcases List.mem_cons.1 hm' with rfl | h'
        · exact absurd hm hne
        · exact ⟨m', h', hne⟩
      · rw [g2 hm]

private theorem sum_selected_partition (f : P4 → ℝ) : ∀ (ps : List P4) (masks : List (List Bool)),
    (∀ m ∈ masks, m.length = ps.length) →
    (∀ i : Nat, i < ps.length → (masks.map (fun m => m[i]?.getD false)).count true = 1) →
    (masks.map (fun m => ((selected ps m).map f).sum)).sum = (ps.map f).sum := by
  intro ps
  induction ps with
  | nil =>
    intro masks h _
    have : ∀ m ∈ masks, ((selected ([] : List P4) m).map f).sum = 0 := by
      intro m _; simp [selected]
    rw [List.map_congr_left this]; simp
  | cons p ps ih =>
    intro masks hlen hone
    have hsplit : ∀ ms : List (List Bool), (∀ m ∈ ms, m.length = (p :: ps).length) →
        (ms.map (fun m => ((selected (p :: ps) m).map f).sum)).sum =
        ((ms.map (fun m => m[0]?.getD false)).count true : ℝ) * f p +
        ((ms.map List.tail).map (fun m => ((selected ps m).map f).sum)).sum := by
      intro ms
      induction ms with
      | nil => intro _; simp
      | cons m ms ihm =>
        intro hm
        have hl := hm m (by simp)
        match m, hl with
        | b :: m, _ =>
          have := ihm (fun m' hm' => hm m' (by simp [hm']))
          simp only [List.map_cons, List.sum_cons, this, selected_cons, List.tail_cons]
          cases b
          · simp; ring
          · simp; ring
    rw [hsplit masks hlen]
    have h0 := hone 0 (by simp)
    rw [h0, ih]
    · simp
    · intro m hm
      obtain ⟨m', hm', rfl⟩ := List.mem_map.1 hm
      have := hlen m' hm'
      simp [this]
    · intro i hi
      have := hone (i + 1) (by simpa using hi)
      rw [← this, List.map_map]
      congr 1
      apply List.map_congr_left
      intro m _
      cases m <;> simp

/-- **C68** For masks forming a partition (every particle in exactly one of them) the aggregates add up
to the total momentum. -/
theorem C68_partition (ps : List P4) (masks : List (List Bool))
    (hlen : ∀ m ∈ masks, m.length = ps.length)
    (hpart : ∀ i : Nat, i < ps.length → ∃ k : Nat, (∃ m, masks[k]? = some m ∧ m[i]? = some true) ∧
      ∀ k' : Nat, (∃ m, masks[k']? = some m ∧ m[i]? = some true) → k' = k) :
    ∃ out, aggregateMomenta ps masks = .ok out ∧ out.length = masks.length ∧ total out = total ps := by
  refine ⟨_, (C68_aggregate ps masks).1 hlen, by simp, ?_⟩
  have hone : ∀ i : Nat, i < ps.length → (masks.map (fun m => m[i]?.getD false)).count true = 1 := by
    intro i hi
    rw [count_one_iff]
    obtain ⟨k, ⟨m, h1, h2⟩, h3⟩ := hpart i hi
    refine ⟨k, by simp [h1, h2], fun j hj => h3 j ?_⟩
    rw [List.getElem?_map] at hj
    cases hmj : masks[j]? with
    | none => rw [hmj] at hj; simp at hj
    | some m' =>
      rw [hmj] at hj
      refine ⟨m', rfl, ?_⟩
      simp at hj
      cases hmi : m'[i]? with
      | none => rw [hmi] at hj; simp at hj
      | some b => rw [hmi] at hj; simp at hj; rw [hj]
  have key := fun f => sum_selected_partition f ps masks hlen hone
  ext
  · rw [show (total ps).x = (ps.map P4.x).sum from rfl, ← key P4.x]
    simp only [total, List.map_map]; rfl
  · rw [show (total ps).y = (ps.map P4.y).sum from rfl, ← key P4.y]
    simp only [total, List.map_map]; rfl
  · rw [show (total ps).z = (ps.map P4.z).sum from rfl, ← key P4.z]
    simp only [total, List.map_map]; rfl
  · rw [show (total ps).e = (ps.map P4.e).sum from rfl, ← key P4.e]
    simp only [total, List.map_map]; rfl

-- non-vacuity: two masks partitioning three particles
example : ∀ i ∈ List.range 3, ∃ k ∈ List.range 2,
    (([[true, false, true], [false, true, false]] : List (List Bool)).getD k []).getD i false = true := by
  decide

/-! ## C89 -/

/-- **C89** Transverse momentum and polar angle have their textbook meaning. -/
theorem C89_pt_theta (p : P4) :
    0 ≤ p.pt ∧ p.pt ^ 2 = p.x ^ 2 + p.y ^ 2 ∧ 0 ≤ p.theta ∧ p.theta ≤ π ∧
    p.z = sqrt (p3sq p) * cos p.theta ∧ p.pt = sqrt (p3sq p) * sin p.theta := by
  have him : p.ztPol.im = p.pt := rfl
  refine ⟨pt_nonneg p, pt_sq p, ?_, Complex.arg_le_pi _, ?_, ?_⟩
  · rw [P4.theta, Complex.arg_nonneg_iff, him]; exact pt_nonneg p
  · rw [← spatialMag_eq]
    exact (Complex.norm_mul_cos_arg p.ztPol).symm
  · rw [← spatialMag_eq]
    exact (Complex.norm_mul_sin_arg p.ztPol).symm

/-- **C89** The azimuth: nan where `pt` is within the tolerance, else the angle in `(-π, π]` with
`px = pt cos φ`, `py = pt sin φ`. -/
theorem C89_phi {tol : ℝ} (p : P4) :
    (p.pt ≤ tol → p.phi tol = .nan) ∧
    (tol < p.pt → ∃ a, p.phi tol = .fin a ∧ -π < a ∧ a ≤ π ∧ p.x = p.pt * cos a ∧ p.y = p.pt * sin a) := by
  have hn : ‖p.xyPol‖ = p.pt := rfl
  unfold P4.phi
  rw [abs_of_nonneg (pt_nonneg p)]
  refine ⟨fun h => if_pos h, fun h => ⟨_, if_neg (not_le.2 h), Complex.neg_pi_lt_arg _,
    Complex.arg_le_pi _, ?_, ?_⟩⟩
  · rw [← hn, Complex.norm_mul_cos_arg]; rfl
  · rw [← hn, Complex.norm_mul_sin_arg]; rfl

/-- **C89** The pseudorapidity: finite exactly for `pt > 0`, with `pz = pt sinh η` and
`|p| = pt cosh η`; infinite with the sign of `pz` for particles along the beam; nan for zero momentum. -/
theorem C89_eta (p : P4) :
    (0 < p.pt → ∃ h, p.eta = .fin h ∧ p.z = p.pt * sinh h ∧ sqrt (p3sq p) = p.pt * cosh h) ∧
    (p.pt = 0 → 0 < p.z → p.eta = .pinf) ∧ (p.pt = 0 → p.z < 0 → p.eta = .ninf) ∧
    (p.pt = 0 → p.z = 0 → p.eta = .nan) := by
  have hsq : p.spatialMag ^ 2 = p.pt ^ 2 + p.z ^ 2 := by
    rw [spatialMag_sq, pt_sq]; rfl
  have hmn := spatialMag_nonneg p
  refine ⟨fun h => ?_, fun h hz => ?_, fun h hz => ?_, fun h hz => ?_⟩
  · have hm : 0 < p.spatialMag := by
      rcases hmn.lt_or_eq with h' | h'
      · exact h'
      · rw [← h'] at hsq; nlinarith [sq_nonneg p.z, sq_pos_of_pos h]
    have hlt : |p.z| < p.spatialMag := abs_lt_of_sq_lt_sq (by nlinarith [sq_pos_of_pos h]) hmn
    obtain ⟨l1, l2⟩ := abs_lt.1 hlt
    have r1 : p.z / p.spatialMag < 1 := by rw [div_lt_one hm]; exact l2
    have r2 : -1 < p.z / p.spatialMag := by rw [lt_div_iff₀ hm]; linarith
    refine ⟨artanh (p.z / p.spatialMag), ?_, ?_, ?_⟩
    · unfold P4.eta
      simp only
      rw [if_neg hm.ne', if_neg r1.ne, if_neg r2.ne', if_pos ⟨r2, r1⟩]
    all_goals
      have hs : sqrt (1 - (p.z / p.spatialMag) ^ 2) = p.pt / p.spatialMag := by
        rw [show 1 - (p.z / p.spatialMag) ^ 2 = (p.pt / p.spatialMag) ^ 2 by
          field_simp; linarith]
        exact sqrt_sq (by positivity)
    · rw [sinh_artanh ⟨r2, r1⟩, hs]; field_simp
    · rw [cosh_artanh ⟨r2, r1⟩, hs, ← spatialMag_eq]; field_simp
  · have hm : p.spatialMag = p.z := by
      rw [h] at hsq
      nlinarith [sq_nonneg (p.spatialMag - p.z)]
    unfold P4.eta
    simp only
    rw [hm, if_neg hz.ne', if_pos (div_self hz.ne')]
  · have hm : p.spatialMag = -p.z := by
      rw [h] at hsq
      nlinarith [sq_nonneg (p.spatialMag - p.z)]
    unfold P4.eta
    simp only
    have hne : p.z / -p.z = -1 := by rw [div_neg, div_self hz.ne]
    rw [hm, if_neg (by linarith), hne, if_neg (by norm_num), if_pos rfl]
  · have hm : p.spatialMag = 0 := by
      rw [h, hz] at hsq
      nlinarith
    unfold P4.eta
    rw [if_pos hm]

/-- **C89** The rapidity: for `E - |pz|` above the tolerance, the `y` with `E = mT cosh y`,
`pz = mT sinh y`; within the tolerance, infinite with the sign of `pz`. -/
theorem C89_rapidity {tol : ℝ} (ht : 0 ≤ tol) (p : P4) :
    (tol < p.e - |p.z| → ∃ y, p.rapidity tol = .fin y ∧ p.e = p.massT * cosh y ∧
      p.z = p.massT * sinh y) ∧
    (|p.e - (|p.z|)| ≤ tol → p.rapidity tol = if p.z < 0 then .ninf else .pinf) := by
  constructor
  · intro h
    refine ⟨_, rapidity_eq ht h, ?_⟩
    have hz := abs_lt.1 (show |p.z| < p.e by linarith)
    have ha : 0 < p.e + p.z := by linarith
    have hb : 0 < p.e - p.z := by linarith
    have hm : p.massT = sqrt (p.e + p.z) * sqrt (p.e - p.z) := by
      apply signed_sq_inj
      rw [massT_signed, abs_of_nonneg (by positivity), mul_mul_mul_comm, mul_self_sqrt ha.le,
        mul_self_sqrt hb.le]; ring
    have he : exp (0.5 * log ((p.e + p.z) / (p.e - p.z))) = sqrt (p.e + p.z) / sqrt (p.e - p.z) := by
      rw [← sqrt_div ha.le, sqrt_eq_rpow, rpow_def_of_pos (div_pos ha hb)]
      congr 1; ring
    have hsa := sqrt_pos.2 ha
    have hsb := sqrt_pos.2 hb
    have h1 := mul_self_sqrt ha.le
    have h2 := mul_self_sqrt hb.le
    rw [cosh_eq, sinh_eq, exp_neg, he, hm]
    constructor
    · field_simp; nlinarith
    · field_simp; nlinarith
  · intro h
    unfold P4.rapidity rapidityOf
    simp only
    rw [if_neg (not_lt.2 h)]; rfl

example : ∃ h, (⟨3, 4, 0, 6⟩ : P4).eta = .fin h := by
  have : 0 < (⟨3, 4, 0, 6⟩ : P4).pt := by rw [pt_eq]; norm_num
  obtain ⟨h, hh, _⟩ := (C89_eta ⟨3, 4, 0, 6⟩).1 this
  exact ⟨h, hh⟩

end Gcl
