import Verif.Spec.Mirror
import Verif.Props.Units
import Verif.Props.UnitsShapes
/-! # C162: mirror images -/
namespace Gcl
set_option autoImplicit false
open Spec Real

theorem flipZ_flipZ (p : P4) : flipZ (flipZ p) = p := by simp [flipZ]
theorem flipY_flipY (p : P4) : flipY (flipY p) = p := by simp [flipY]

theorem flipZ_pt (p : P4) : (flipZ p).pt = p.pt := rfl

theorem flipY_xyPol (p : P4) : (flipY p).xyPol = (starRingEnd ℂ) p.xyPol := by
  apply Complex.ext <;> simp [P4.xyPol, flipY]

theorem flipY_pt (p : P4) : (flipY p).pt = p.pt := by rw [pt_eq, pt_eq]; simp [flipY]

theorem flipZ_spatialMag (p : P4) : (flipZ p).spatialMag = p.spatialMag := by
  rw [spatialMag_eq, spatialMag_eq]; simp [p3sq, flipZ]

theorem flipY_spatialMag (p : P4) : (flipY p).spatialMag = p.spatialMag := by
  rw [spatialMag_eq, spatialMag_eq]; simp [p3sq, flipY]

theorem artanh_negR (r : ℝ) : artanh (-r) = -artanh r := by
  unfold artanh
  rw [show (1 + -r) / (1 - -r) = ((1 + r) / (1 - r))⁻¹ by rw [inv_div]; ring_nf, sqrt_inv, log_inv]

theorem flipZ_eta (p : P4) : (flipZ p).eta = flNeg p.eta := by
  unfold P4.eta
  rw [flipZ_spatialMag]
  simp only [flipZ, neg_div]
  generalize p.z / p.spatialMag = r
  split
  · rfl
  · by_cases h1 : r = 1
    · subst h1; norm_num [flNeg]
    · by_cases h2 : r = -1
      · subst h2; norm_num [flNeg]
      · have h3 : ¬ (-r = 1) := fun h => h2 (by linarith)
        have h4 : ¬ (-r = -1) := fun h => h1 (by linarith)
        simp only [h1, h2, h3, h4, if_false]
        by_cases h5 : -1 < r ∧ r < 1
        · rw [if_pos h5, if_pos ⟨by linarith, by linarith⟩]; simp only [flNeg]; congr 1; exact artanh_negR r
        · rw [if_neg h5, if_neg (fun h => h5 ⟨by linarith [h.2], by linarith [h.1]⟩)]; rfl

theorem flipY_eta (p : P4) : (flipY p).eta = p.eta := by
  unfold P4.eta
  rw [flipY_spatialMag]; rfl

theorem flipZ_rapidity {tol : ℝ} (h0 : 0 ≤ tol) (p : P4) (h : Lively tol p) : (flipZ p).rapidity tol = flNeg (p.rapidity tol) := by
  unfold P4.rapidity rapidityOf
  simp only [flipZ, abs_neg]
  by_cases hz : p.z = 0
  · have ht : tol < |p.e| := by rcases h with h | h; exacts [absurd hz h, h]
    have he : p.e ≠ 0 := fun he => by rw [he, abs_zero] at ht; linarith
    simp only [hz, abs_zero, sub_zero, add_zero, neg_zero, div_self he]
    rw [if_pos ht, if_pos one_pos]; simp [flNeg, copysign]
  · have hc : ∀ x, copysign x (-p.z) = -copysign x p.z := by
      intro x; unfold copysign
      rcases lt_or_gt_of_ne hz with h | h
      · rw [if_pos h, if_neg (by linarith)]; simp
      · simp [h, not_lt.2 h.le]
    have hi : copysignInf (-p.z) = flNeg (copysignInf p.z) := by
      unfold copysignInf
      rcases lt_or_gt_of_ne hz with h | h
      · rw [if_pos h, if_neg (by linarith)]; rfl
      · simp [h, not_lt.2 h.le, flNeg]
    rw [hc, hi]
    split
    · split
      · rfl
      · split <;> rfl
    · rfl

theorem flipY_rapidity (tol : ℝ) (p : P4) : (flipY p).rapidity tol = p.rapidity tol := rfl

theorem arg_conj_eq (w : ℂ) : Fl.fin ((starRingEnd ℂ) w).arg = angNeg (.fin w.arg) := by
  simp only [angNeg]
  rw [Complex.arg_conj]
  split_ifs with h
  · rw [h]
  · rfl

theorem flipY_phi (tol : ℝ) (p : P4) : (flipY p).phi tol = angNeg (p.phi tol) := by
  unfold P4.phi
  rw [flipY_pt, flipY_xyPol]
  split
  · rfl
  · exact arg_conj_eq _

theorem rest_iff (p : P4) : p.ztPol = 0 ↔ p.x = 0 ∧ p.y = 0 ∧ p.z = 0 := by
  have h : p.pt = 0 ↔ p.x = 0 ∧ p.y = 0 := by
    rw [pt_eq, sqrt_eq_zero (by positivity)]
    constructor
    · intro h; constructor <;> nlinarith [sq_nonneg p.x, sq_nonneg p.y]
    · rintro ⟨a, b⟩; rw [a, b]; ring
  rw [Complex.ext_iff]
  show p.z = 0 ∧ p.pt = 0 ↔ _
  rw [h]; tauto

theorem flipZ_theta (p : P4) (h : p.x ≠ 0 ∨ p.y ≠ 0 ∨ p.z ≠ 0) : (flipZ p).theta = π - p.theta := by
  have hz : p.ztPol ≠ 0 := by
    rw [Ne, rest_iff]; tauto
  have e : (flipZ p).ztPol = -(starRingEnd ℂ) p.ztPol := by
    apply Complex.ext
    · simp [P4.ztPol, flipZ]
    · simp [P4.ztPol, flipZ, P4.xyPol]
  have him : 0 ≤ p.ztPol.im := pt_nonneg p
  unfold P4.theta
  rw [e]
  rcases him.lt_or_eq with him | him
  · rw [Complex.arg_neg_eq_arg_add_pi_of_im_neg (by simpa using him), Complex.arg_conj, if_neg]
    · ring
    · intro h
      rw [Complex.arg_eq_pi_iff] at h
      linarith [h.2]
  · have hc : (starRingEnd ℂ) p.ztPol = p.ztPol := Complex.conj_eq_iff_im.2 him.symm
    rw [hc]
    have hw : p.ztPol = ((p.ztPol.re : ℝ) : ℂ) := Complex.ext rfl (by simp [him.symm])
    have hr : p.ztPol.re ≠ 0 := fun h => hz (by rw [hw, h]; simp)
    rw [hw]
    rcases lt_or_gt_of_ne hr with h | h
    · rw [Complex.arg_ofReal_of_neg h, ← Complex.ofReal_neg, Complex.arg_ofReal_of_nonneg (by linarith)]; ring
    · rw [Complex.arg_ofReal_of_nonneg h.le, ← Complex.ofReal_neg, Complex.arg_ofReal_of_neg (by linarith)]; ring

/-- **C162** In a mirror across the beam transverse momentum, masses and azimuth are the same, pseudorapidity and rapidity change
sign, and the polar angle becomes its supplement.  (A record with vanishing `z` and energy has a rapidity decided by the sign of a
zero, and a particle at rest has polar angle zero by convention.) -/
theorem C162_across {tol : ℝ} (h0 : 0 ≤ tol) (p : P4) :
    (flipZ p).pt = p.pt ∧ (flipZ p).mass = p.mass ∧ (flipZ p).massT = p.massT ∧ (flipZ p).phi tol = p.phi tol ∧
    (flipZ p).eta = flNeg p.eta ∧ (Lively tol p → (flipZ p).rapidity tol = flNeg (p.rapidity tol)) ∧
    ((p.x ≠ 0 ∨ p.y ≠ 0 ∨ p.z ≠ 0) → (flipZ p).theta = π - p.theta) := by
  refine ⟨rfl, ?_, ?_, rfl, flipZ_eta p, flipZ_rapidity h0 p, flipZ_theta p⟩
  · unfold P4.mass; rw [flipZ_spatialMag]; rfl
  · unfold P4.massT rootDiffTwoSquares; simp [flipZ]

/-- **C162** In a mirror along the beam everything but the azimuth is the same; the azimuth changes sign, but for the half turn. -/
theorem C162_along (tol : ℝ) (p : P4) :
    (flipY p).pt = p.pt ∧ (flipY p).mass = p.mass ∧ (flipY p).massT = p.massT ∧ (flipY p).eta = p.eta ∧
    (flipY p).rapidity tol = p.rapidity tol ∧ (flipY p).theta = p.theta ∧ (flipY p).phi tol = angNeg (p.phi tol) := by
  refine ⟨flipY_pt p, ?_, rfl, flipY_eta p, rfl, ?_, flipY_phi tol p⟩
  · unfold P4.mass; rw [flipY_spatialMag]; rfl
  · have e : (flipY p).ztPol = p.ztPol := by
      apply Complex.ext
      · rfl
      · exact flipY_pt p
    unfold P4.theta; rw [e]

theorem sub_neg_neg (a b : Fl) : (flNeg a).sub (flNeg b) = flNeg (a.sub b) := by
  cases a <;> cases b <;> simp [flNeg, Fl.sub]; ring

theorem hypotFl_neg (a : Fl) (d : ℝ) : hypotFl (flNeg a) d = hypotFl a d := by
  cases a <;> simp [flNeg, hypotFl]

theorem hypotFl_arg (a : Fl) (w : ℂ) : hypotFl a ((starRingEnd ℂ) w).arg = hypotFl a w.arg := by
  have : ((starRingEnd ℂ) w).arg ^ 2 = w.arg ^ 2 := by
    rw [Complex.arg_conj]; split_ifs with h
    · rw [h]
    · ring
  cases a <;> simp [hypotFl, this]

theorem cell_flipZ (p q : P4) : deltaRCell (flipZ p).eta (flipZ q).eta (flipZ p).xyPol (flipZ q).xyPol =
    deltaRCell p.eta q.eta p.xyPol q.xyPol := by
  unfold deltaRCell
  rw [flipZ_eta, flipZ_eta, sub_neg_neg, hypotFl_neg]; rfl

theorem cell_conj (a b : Fl) (p q : P4) : deltaRCell a b (flipY p).xyPol (flipY q).xyPol = deltaRCell a b p.xyPol q.xyPol := by
  unfold deltaRCell
  rw [flipY_xyPol, flipY_xyPol, ← map_mul, hypotFl_arg]

theorem cell_rap_flipZ {tol : ℝ} (h0 : 0 ≤ tol) (p q : P4) (hp : Lively tol p) (hq : Lively tol q) :
    deltaRCell ((flipZ p).rapidity tol) ((flipZ q).rapidity tol) (flipZ p).xyPol (flipZ q).xyPol =
      deltaRCell (p.rapidity tol) (q.rapidity tol) p.xyPol q.xyPol := by
  unfold deltaRCell
  rw [flipZ_rapidity h0 p hp, flipZ_rapidity h0 q hq, sub_neg_neg, hypotFl_neg]; rfl

/-- **C162** Distances are the same in both mirrors. -/
theorem C162_distance {tol : ℝ} (h0 : 0 ≤ tol) (p q : P4) :
    deltaRCell (flipZ p).eta (flipZ q).eta (flipZ p).xyPol (flipZ q).xyPol = deltaRCell p.eta q.eta p.xyPol q.xyPol ∧
    deltaRCell (flipY p).eta (flipY q).eta (flipY p).xyPol (flipY q).xyPol = deltaRCell p.eta q.eta p.xyPol q.xyPol ∧
    (Lively tol p → Lively tol q →
      deltaRCell ((flipZ p).rapidity tol) ((flipZ q).rapidity tol) (flipZ p).xyPol (flipZ q).xyPol =
        deltaRCell (p.rapidity tol) (q.rapidity tol) p.xyPol q.xyPol) ∧
    deltaRCell ((flipY p).rapidity tol) ((flipY q).rapidity tol) (flipY p).xyPol (flipY q).xyPol =
      deltaRCell (p.rapidity tol) (q.rapidity tol) p.xyPol q.xyPol :=
  ⟨cell_flipZ p q, by rw [flipY_eta, flipY_eta, cell_conj], cell_rap_flipZ h0 p q, by rw [flipY_rapidity, flipY_rapidity, cell_conj]⟩

/-- **C162** Boosts and rotations turn into their opposites. -/
theorem C162_shifts (s : ℝ) (p : P4) :
    (flipZ p).shiftRapidity s = flipZ (p.shiftRapidity (-s)) ∧ (flipY p).shiftRapidity s = flipY (p.shiftRapidity s) ∧
    (flipZ p).shiftPhi s = flipZ (p.shiftPhi s) ∧ (flipY p).shiftPhi s = flipY (p.shiftPhi (-s)) := by
  refine ⟨?_, rfl, rfl, ?_⟩
  · simp only [P4.shiftRapidity, flipZ, P4.mk.injEq, neg_neg, cosh_neg, sinh_neg]
    refine ⟨trivial, trivial, by ring, by ring⟩
  · unfold P4.shiftPhi
    rw [flipY_xyPol]
    have : Complex.exp (s * Complex.I) = (starRingEnd ℂ) (Complex.exp ((-s : ℝ) * Complex.I)) := by
      rw [← Complex.exp_conj]; simp
    rw [this, ← map_mul]
    simp only [flipY, Complex.conj_re, Complex.conj_im]

theorem total_flipZ (ps : List P4) : total (ps.map flipZ) = flipZ (total ps) := by
  refine P4.ext ?_ ?_ ?_ ?_ <;> simp only [total, flipZ, List.map_map] <;> try rfl
  induction ps with
  | nil => simp
  | cons p ps ih => simp only [List.map_cons, List.sum_cons, ih]; simp only [Function.comp, flipZ, flipY]; ring

theorem total_flipY (ps : List P4) : total (ps.map flipY) = flipY (total ps) := by
  refine P4.ext ?_ ?_ ?_ ?_ <;> simp only [total, flipY, List.map_map] <;> try rfl
  induction ps with
  | nil => simp
  | cons p ps ih => simp only [List.map_cons, List.sum_cons, ih]; simp only [Function.comp, flipZ, flipY]; ring

theorem mulR_neg (a : Fl) (x : ℝ) : (flNeg a).mulR x = flNeg (a.mulR x) := by
  cases a <;> simp only [flNeg, Fl.mulR]
  · congr 1; ring
  · split_ifs <;> rfl
  · split_ifs <;> rfl

theorem addF_neg (a b : Fl) : (flNeg a).addF (flNeg b) = flNeg (a.addF b) := by
  cases a <;> cases b <;> simp [flNeg, Fl.addF]; ring

theorem flSum_neg (l : List Fl) : flSum (l.map flNeg) = flNeg (flSum l) := by
  induction l with
  | nil => simp [flSum, flNeg]
  | cons a l ih => simp only [List.map_cons, flSum, ih, addF_neg]

theorem divR_neg (a : Fl) (x : ℝ) : (flNeg a).divR x = flNeg (a.divR x) := by
  cases a with
  | fin y =>
    simp only [flNeg, Fl.divR]
    rcases lt_trichotomy y 0 with h | h | h
    · by_cases hx : x = 0
      · simp [hx, h.ne, not_lt.2 h.le, h]
      · simp [hx, neg_div]
    · by_cases hx : x = 0 <;> simp [hx, h]
    · by_cases hx : x = 0
      · simp [hx, h.ne', not_lt.2 h.le, h]
      · simp [hx, neg_div]
  | nan => rfl
  | pinf => simp only [flNeg, Fl.divR]; split_ifs <;> rfl
  | ninf => simp only [flNeg, Fl.divR]; split_ifs <;> rfl

theorem phaseRect_neg (a : Fl) : phaseRect (flNeg a) = (phaseRect a).map angNeg := by
  cases a with
  | fin x =>
    simp only [flNeg, phaseRect, Except.map]
    rw [← arg_conj_eq]
    congr 3
    apply Complex.ext <;> simp
  | _ => rfl

theorem offCut_phi (tol : ℝ) (p : P4) (h : OffCut p) : (flipY p).phi tol = flNeg (p.phi tol) := by
  rw [flipY_phi]
  unfold P4.phi
  split
  · rfl
  · simp only [angNeg]
    rw [if_neg]
    · rfl
    · rw [Complex.arg_eq_pi_iff]
      rintro ⟨h1, h2⟩
      simp only [P4.xyPol] at h1 h2
      rcases h with h | h
      · exact h h2
      · linarith

/-- **C162** Sums of momenta are mirrored and the combined mass is the same; of the centroids one coordinate changes sign, where the
weighted mean needs the particles off the half turn. -/
theorem C162_sums {tol : ℝ} (h0 : 0 ≤ tol) (ps : List P4) (pseudo : Bool) :
    total (ps.map flipZ) = flipZ (total ps) ∧ total (ps.map flipY) = flipY (total ps) ∧
    combinedMass (ps.map flipZ) = combinedMass ps ∧ combinedMass (ps.map flipY) = combinedMass ps ∧
    (∀ ms, aggregateMomenta (ps.map flipZ) ms = (aggregateMomenta ps ms).map (List.map flipZ) ∧
      aggregateMomenta (ps.map flipY) ms = (aggregateMomenta ps ms).map (List.map flipY)) ∧
    ((pseudo = true ∨ Lively tol (total ps)) → resultantCoords tol (ps.map flipZ) pseudo =
      (flNeg (resultantCoords tol ps pseudo).1, (resultantCoords tol ps pseudo).2)) ∧
    resultantCoords tol (ps.map flipY) pseudo = ((resultantCoords tol ps pseudo).1, angNeg (resultantCoords tol ps pseudo).2) ∧
    ((pseudo = true ∨ ∀ p ∈ ps, Lively tol p) → weightedCentroid tol (ps.map flipZ) pseudo =
      (weightedCentroid tol ps pseudo).map (fun r => (flNeg r.1, r.2))) ∧
    ((∀ p ∈ ps, OffCut p) → weightedCentroid tol (ps.map flipY) pseudo =
      (weightedCentroid tol ps pseudo).map (fun r => (r.1, angNeg r.2))) := by
  refine ⟨total_flipZ ps, total_flipY ps, ?_, ?_,
    fun ms => ⟨aggregate_map _ total_flipZ ps ms, aggregate_map _ total_flipY ps ms⟩, ?_, ?_, ?_, ?_⟩
  · unfold combinedMass; rw [total_flipZ]; simp [flipZ]
  · unfold combinedMass; rw [total_flipY]; simp [flipY]
  · intro h
    unfold resultantCoords
    rw [total_flipZ]
    refine Prod.ext ?_ rfl
    cases pseudo with
    | true => exact flipZ_eta _
    | false => exact flipZ_rapidity h0 _ (by simpa using h)
  · unfold resultantCoords
    rw [total_flipY]
    refine Prod.ext ?_ (flipY_phi tol _)
    cases pseudo with
    | true => exact flipY_eta _
    | false => rfl
  · intro h
    unfold weightedCentroid
    have e : (ps.map flipZ).map (fun p => (if pseudo = true then p.eta else p.rapidity tol).mulR p.pt) =
        (ps.map (fun p => (if pseudo = true then p.eta else p.rapidity tol).mulR p.pt)).map flNeg := by
      rw [List.map_map, List.map_map]
      refine List.map_congr_left (fun p hp => ?_)
      simp only [Function.comp, flipZ_pt, ← mulR_neg]
      cases pseudo with
      | true => simp [flipZ_eta]
      | false => simp [flipZ_rapidity h0 p (by simpa using (h.resolve_left (by simp)) p hp)]
    simp only
    rw [e, flSum_neg, divR_neg]
    have e2 : (ps.map flipZ).map (fun p => (p.phi tol).mulR p.pt) = ps.map (fun p => (p.phi tol).mulR p.pt) := by
      rw [List.map_map]; rfl
    have e3 : (ps.map flipZ).map P4.pt = ps.map P4.pt := by rw [List.map_map]; rfl
    rw [e2, e3]
    cases phaseRect ((flSum (ps.map (fun p => (p.phi tol).mulR p.pt))).divR (ps.map P4.pt).sum) <;> rfl
  · intro h
    unfold weightedCentroid
    have e : (ps.map flipY).map (fun p => (if pseudo = true then p.eta else p.rapidity tol).mulR p.pt) =
        ps.map (fun p => (if pseudo = true then p.eta else p.rapidity tol).mulR p.pt) := by
      rw [List.map_map]
      refine List.map_congr_left (fun p hp => ?_)
      simp only [Function.comp, flipY_pt, flipY_eta, flipY_rapidity]
    have e2 : (ps.map flipY).map (fun p => (p.phi tol).mulR p.pt) = (ps.map (fun p => (p.phi tol).mulR p.pt)).map flNeg := by
      rw [List.map_map, List.map_map]
      refine List.map_congr_left (fun p hp => ?_)
      simp only [Function.comp, flipY_pt, ← mulR_neg, offCut_phi tol p (h p hp)]
    have e3 : (ps.map flipY).map P4.pt = ps.map P4.pt := by
      rw [List.map_map]; exact List.map_congr_left (fun p _ => flipY_pt p)
    simp only
    rw [e, e2, e3, flSum_neg, divR_neg, phaseRect_neg]
    cases phaseRect ((flSum (ps.map (fun p => (p.phi tol).mulR p.pt))).divR (ps.map P4.pt).sum) <;> rfl

end Gcl
