import Verif.Props.PartitionSafety
import Verif.Props.ClusterSym
import Verif.Props.Centroid
import Verif.Props.MassSum
import Verif.Model.MassWeight
/-!
# C160: the unit of the momenta

Another unit multiplies all momenta by a positive number `c`.  The zero tolerance of the code is a number too; if it is
converted along with the momenta nothing else changes.
-/
namespace Gcl
set_option autoImplicit false
open Spec Real

/-! ## One record -/

theorem copysign_units {c : ℝ} (hc : 0 < c) (x s : ℝ) : copysign x (c * s) = copysign x s := by
  have : c * s < 0 ↔ s < 0 := by
    constructor
    · intro h; by_contra hs; exact absurd h (not_lt.2 (mul_nonneg hc.le (not_lt.1 hs)))
    · intro h; exact mul_neg_of_pos_of_neg hc h
  simp [copysign, this]

theorem rootDiff_units {c : ℝ} (hc : 0 < c) (a b : ℝ) :
    rootDiffTwoSquares (c * a) (c * b) = c * rootDiffTwoSquares a b := by
  unfold rootDiffTwoSquares
  simp only [abs_mul, abs_of_pos hc, ← mul_sub, ← mul_add]
  rw [copysign_units hc, sqrt_mul hc.le, sqrt_mul hc.le]
  have h1 : copysign (√c * √|(|a| - |b|)|) (|a| - |b|) = √c * copysign (√|(|a| - |b|)|) (|a| - |b|) := by
    unfold copysign
    split <;> simp [abs_mul, abs_of_nonneg (sqrt_nonneg _)]
  rw [h1]
  have := mul_self_sqrt hc.le
  linear_combination copysign (√|(|a| - |b|)|) (|a| - |b|) * √(|a| + |b|) * this

theorem rapidity_units {c : ℝ} (hc : 0 < c) (tol : ℝ) (p : P4) : (scale c p).rapidity (c * tol) = p.rapidity tol := by
  have hs : ∀ s, copysignInf (c * s) = copysignInf s := by
    intro s
    have : c * s < 0 ↔ s < 0 := by
      constructor
      · intro h; by_contra hs; exact absurd h (not_lt.2 (mul_nonneg hc.le (not_lt.1 hs)))
      · intro h; exact mul_neg_of_pos_of_neg hc h
    simp [copysignInf, this]
  unfold P4.rapidity rapidityOf
  simp only [scale, abs_mul, abs_of_pos hc, ← mul_sub, ← mul_add]
  rw [mul_div_mul_left _ _ hc.ne', copysign_units hc, hs]
  simp only [mul_lt_mul_iff_right₀ hc]

theorem phi_units {c : ℝ} (hc : 0 < c) (tol : ℝ) (p : P4) : (scale c p).phi (c * tol) = p.phi tol := by
  unfold P4.phi
  rw [pt_scale hc, abs_mul, abs_of_pos hc, xyPol_scale, Complex.arg_real_mul _ hc]
  simp only [mul_le_mul_iff_right₀ hc]

theorem total_units (c : ℝ) (ps : List P4) : total (ps.map (scale c)) = scale c (total ps) := by
  simp only [total, scale, List.map_map, P4.mk.injEq]
  refine ⟨?_, ?_, ?_, ?_⟩ <;> rw [← List.sum_map_mul_left] <;> rfl

/-- **C160** In another unit `pt`, energy, mass and transverse mass are converted, the polar angle and the pseudorapidity
stay as they are, and so do rapidity and azimuth if the zero tolerance is converted along. -/
theorem C160_quantities {c : ℝ} (hc : 0 < c) (tol : ℝ) (p : P4) :
    (scale c p).pt = c * p.pt ∧ (scale c p).mass = c * p.mass ∧ (scale c p).massT = c * p.massT ∧
    (scale c p).theta = p.theta ∧ (scale c p).eta = p.eta ∧ (scale c p).rapidity (c * tol) = p.rapidity tol ∧
    (scale c p).phi (c * tol) = p.phi tol := by
  refine ⟨pt_scale hc p, ?_, rootDiff_units hc _ _, ?_, eta_scale hc p, rapidity_units hc tol p, phi_units hc tol p⟩
  · unfold P4.mass
    rw [spatialMag_scale hc]
    exact rootDiff_units hc _ _
  · have : (scale c p).ztPol = c * p.ztPol := by
      apply Complex.ext
      · simp [P4.ztPol, scale]
      · have := pt_scale hc p
        simpa [P4.pt] using this
    unfold P4.theta
    rw [this, Complex.arg_real_mul _ hc]

/-- **C160** With the tolerance as it is: the rapidity of a momentum slower than light along the beam by more than the
tolerance in both units is the same, and so is the azimuth of one with a transverse momentum above the tolerance in both. -/
theorem C160_fixed {c tol : ℝ} (hc : 0 < c) (p : P4) :
    (tol < |p.e - (|p.z|)| → tol < c * |p.e - (|p.z|)| → (scale c p).rapidity tol = p.rapidity tol) ∧
    (tol < p.pt → tol < c * p.pt → (scale c p).phi tol = p.phi tol) := by
  constructor
  · intro h1 h2
    rw [← rapidity_units hc tol p]
    unfold P4.rapidity rapidityOf
    have e : |(scale c p).e - (|(scale c p).z|)| = c * |p.e - (|p.z|)| := by
      simp only [scale, abs_mul, abs_of_pos hc, ← mul_sub]
    simp only [e, if_pos h2, if_pos (mul_lt_mul_of_pos_left h1 hc)]
  · intro h1 h2
    unfold P4.phi
    rw [pt_scale hc, abs_of_nonneg (mul_nonneg hc.le (pt_nonneg p)), abs_of_nonneg (pt_nonneg p), if_neg (not_le.2 h1),
      if_neg (not_le.2 h2), xyPol_scale, Complex.arg_real_mul _ hc]

/-- **C160** The tolerance is not unit-free: for every tolerance there is a momentum with a finite rapidity and an azimuth
which has an infinite rapidity and no azimuth in another unit. -/
theorem C160_false {tol : ℝ} (ht : 0 < tol) : ∃ (p : P4) (c y a : ℝ), 0 < c ∧ Physical p ∧
    p.rapidity tol = .fin y ∧ p.phi tol = .fin a ∧
    (scale c p).rapidity tol = .pinf ∧ (scale c p).phi tol = .nan := by
  have hp : (⟨2 * tol, 0, 0, 2 * tol⟩ : P4).pt = 2 * tol := by
    rw [pt_eq]
    simp only [ne_eq, OfNat.ofNat_ne_zero, not_false_eq_true, zero_pow, add_zero]
    exact sqrt_sq (by linarith)
  refine ⟨⟨2 * tol, 0, 0, 2 * tol⟩, 1 / 2, copysign (0.5 * log 1) 0, (P4.xyPol ⟨2 * tol, 0, 0, 2 * tol⟩).arg, by norm_num, ⟨by simp only; linarith, by simp⟩, ?_, ?_, ?_, ?_⟩
  · unfold P4.rapidity rapidityOf
    simp only [abs_zero, sub_zero, add_zero]
    rw [abs_of_pos (by linarith), if_pos (by linarith), div_self (by linarith), if_pos one_pos]
  · unfold P4.phi
    rw [hp, abs_of_pos (by linarith), if_neg (by linarith)]
  · unfold P4.rapidity rapidityOf
    simp only [scale, mul_zero, abs_zero, sub_zero, add_zero]
    rw [if_neg (by rw [abs_of_pos (by linarith)]; linarith)]
    simp [copysignInf]
  · unfold P4.phi
    rw [pt_scale (by norm_num), hp, abs_of_pos (by linarith), if_pos (by linarith)]

/-- **C160** `delta_R` is the same, of pseudorapidities and, with the tolerance converted, of rapidities. -/
theorem C160_distance {c : ℝ} (hc : 0 < c) (tol : ℝ) (p q : P4) :
    deltaRCell (scale c p).eta (scale c q).eta (scale c p).xyPol (scale c q).xyPol =
      deltaRCell p.eta q.eta p.xyPol q.xyPol ∧
    deltaRCell ((scale c p).rapidity (c * tol)) ((scale c q).rapidity (c * tol)) (scale c p).xyPol (scale c q).xyPol =
      deltaRCell (p.rapidity tol) (q.rapidity tol) p.xyPol q.xyPol := by
  refine ⟨cell_scale hc hc p q, ?_⟩
  unfold deltaRCell
  rw [rapidity_units hc, rapidity_units hc, xyPol_scale, xyPol_scale, map_mul, Complex.conj_ofReal,
    show (c : ℂ) * p.xyPol * ((c : ℂ) * (starRingEnd ℂ) q.xyPol) = ((c * c : ℝ) : ℂ) * (p.xyPol * (starRingEnd ℂ) q.xyPol) by
      push_cast; ring, Complex.arg_real_mul _ (mul_pos hc hc)]

/-! ## Sums and centroids -/

theorem mulR_units {c : ℝ} (hc : 0 < c) (a : Fl) (x : ℝ) : a.mulR (c * x) = (a.mulR x).mulR c := by
  have h0 : c * x = 0 ↔ x = 0 := by simp [hc.ne']
  have h1 : 0 < c * x ↔ 0 < x := by simp [mul_pos_iff_of_pos_left hc]
  cases a with
  | fin y => simp only [Fl.mulR]; ring_nf
  | nan => rfl
  | pinf =>
    simp only [Fl.mulR, h0, h1]
    split
    · rfl
    · split <;> simp [Fl.mulR, hc.ne', hc]
  | ninf =>
    simp only [Fl.mulR, h0, h1]
    split
    · rfl
    · split <;> simp [Fl.mulR, hc.ne', hc]

theorem mulR_add_units {c : ℝ} (hc : 0 < c) (a b : Fl) : (a.mulR c).addF (b.mulR c) = (a.addF b).mulR c := by
  cases a <;> cases b <;> simp [Fl.mulR, Fl.addF, hc.ne', hc, add_mul]

theorem flSum_units {c : ℝ} (hc : 0 < c) (l : List Fl) : flSum (l.map (fun a => a.mulR c)) = (flSum l).mulR c := by
  induction l with
  | nil => simp [flSum, Fl.mulR]
  | cons b l ih => simp only [List.map_cons, flSum]; rw [ih, mulR_add_units hc]

theorem divR_units {c : ℝ} (hc : 0 < c) (a : Fl) (x : ℝ) : (a.mulR c).divR (c * x) = a.divR x := by
  have h0 : c * x = 0 ↔ x = 0 := by simp [hc.ne']
  have h1 : c * x < 0 ↔ x < 0 := by
    constructor
    · intro h; by_contra hs; exact absurd h (not_lt.2 (mul_nonneg hc.le (not_lt.1 hs)))
    · intro h; exact mul_neg_of_pos_of_neg hc h
  cases a with
  | fin y =>
    simp only [Fl.mulR, Fl.divR, h0]
    have e : y * c / (c * x) = y / x := by rw [mul_comm y c, mul_div_mul_left _ _ hc.ne']
    simp only [e, mul_eq_zero, hc.ne', or_false, mul_pos_iff_of_pos_right hc]
  | nan => rfl
  | pinf => simp [Fl.mulR, Fl.divR, hc.ne', hc, h1]
  | ninf => simp [Fl.mulR, Fl.divR, hc.ne', hc, h1]

/-- **C160** The sums of momenta are converted and with them `combined_mass`, also with weights; the two centroids stay. -/
theorem C160_sums {c : ℝ} (hc : 0 < c) (tol : ℝ) (ps : List P4) (pseudo : Bool) :
    total (ps.map (scale c)) = scale c (total ps) ∧
    combinedMass (ps.map (scale c)) = c * combinedMass ps ∧
    (∀ w, combinedMassArg (ps.map (scale c)) w = (combinedMassArg ps w).map (c * ·)) ∧
    (∀ ms, aggregateMomenta (ps.map (scale c)) ms = (aggregateMomenta ps ms).map (List.map (scale c))) ∧
    resultantCoords (c * tol) (ps.map (scale c)) pseudo = resultantCoords tol ps pseudo ∧
    weightedCentroid (c * tol) (ps.map (scale c)) pseudo = weightedCentroid tol ps pseudo := by
  have hmass : ∀ ps : List P4, combinedMass (ps.map (scale c)) = c * combinedMass ps := by
    intro ps
    unfold combinedMass
    rw [total_units]
    generalize total ps = t
    have e : (scale c t).x ^ 2 * (-1) + (scale c t).y ^ 2 * (-1) + (scale c t).z ^ 2 * (-1) + (scale c t).e ^ 2 * 1 =
        c ^ 2 * (t.x ^ 2 * (-1) + t.y ^ 2 * (-1) + t.z ^ 2 * (-1) + t.e ^ 2 * 1) := by simp only [scale]; ring
    simp only
    rw [e]
    generalize t.x ^ 2 * (-1) + t.y ^ 2 * (-1) + t.z ^ 2 * (-1) + t.e ^ 2 * 1 = m
    by_cases hm : m < 0
    · rw [if_pos (mul_neg_of_pos_of_neg (by positivity) hm), if_pos hm, mul_zero]
    · rw [if_neg (not_lt.2 (mul_nonneg (by positivity) (not_lt.1 hm))), if_neg hm, sqrt_mul (by positivity), sqrt_sq hc.le]
  have hw : ∀ ws, combinedMassW (ps.map (scale c)) ws = (combinedMassW ps ws).map (c * ·) := by
    intro ws
    have hb : bcast2 (fun (w p : P4) => (⟨w.x * p.x, w.y * p.y, w.z * p.z, w.e * p.e⟩ : P4)) ws (ps.map (scale c)) =
        (bcast2 (fun (w p : P4) => (⟨w.x * p.x, w.y * p.y, w.z * p.z, w.e * p.e⟩ : P4)) ws ps).map (List.map (scale c)) := by
      have hsc : ∀ w p : P4, (⟨w.x * (scale c p).x, w.y * (scale c p).y, w.z * (scale c p).z, w.e * (scale c p).e⟩ : P4) =
          scale c ⟨w.x * p.x, w.y * p.y, w.z * p.z, w.e * p.e⟩ := by
        intro w p
        simp only [scale, P4.mk.injEq]
        refine ⟨by ring, by ring, by ring, by ring⟩
      have hfun : (fun w p : P4 => (⟨w.x * (scale c p).x, w.y * (scale c p).y, w.z * (scale c p).z, w.e * (scale c p).e⟩ : P4)) =
          fun w p => scale c ⟨w.x * p.x, w.y * p.y, w.z * p.z, w.e * p.e⟩ := by
        funext w p; exact hsc w p
      unfold bcast2
      rw [List.length_map]
      split
      · simp only [Except.map, List.zipWith_map_right, List.map_zipWith]
        exact congrArg _ (congrArg (fun f => List.zipWith f ws ps) hfun)
      · match ws, ps with
        | [w], ps => simp only [Except.map, List.map_map, Function.comp_def, hsc]
        | [], [p] => rfl
        | w :: w' :: ws, [p] => simp only [Except.map, List.map_map, List.map_cons, List.map_nil, Function.comp_def, hsc]
        | [], [] => rfl
        | [], _ :: _ :: _ => rfl
        | _ :: _ :: _, [] => rfl
        | _ :: _ :: _, _ :: _ :: _ => rfl
    unfold combinedMassW
    rw [hb]
    cases bcast2 (fun (w p : P4) => (⟨w.x * p.x, w.y * p.y, w.z * p.z, w.e * p.e⟩ : P4)) ws ps with
    | error e => rfl
    | ok qs => simp only [Except.map, hmass]
  refine ⟨total_units c ps, hmass ps, ?_, fun ms => aggregate_map (scale c) (total_units c) ps ms, ?_, ?_⟩
  · intro w
    cases w with
    | absent => simp only [combinedMassArg, Except.map, hmass]
    | notArray => rfl
    | _ =>
      simp only [combinedMassArg]
      split
      · rfl
      · exact hw _
  · unfold resultantCoords
    rw [total_units]
    simp only [eta_scale hc, rapidity_units hc, phi_units hc]
  · unfold weightedCentroid
    simp only [List.map_map, Function.comp_def, pt_scale hc, eta_scale hc, rapidity_units hc, phi_units hc, mulR_units hc]
    have e1 : (ps.map (fun p => c * p.pt)).sum = c * (ps.map P4.pt).sum := by rw [← List.sum_map_mul_left]
    have e2 : ∀ g : P4 → Fl, flSum (ps.map (fun p => (g p).mulR c)) = (flSum (ps.map g)).mulR c := by
      intro g
      rw [← flSum_units hc, List.map_map]; rfl
    rw [e1, e2 (fun p => (if pseudo = true then p.eta else p.rapidity tol).mulR p.pt), e2 (fun p => (p.phi tol).mulR p.pt),
      divR_units hc, divR_units hc]

/-- GeV to MeV: the hypotheses of `C160_fixed` hold of a concrete momentum with both the code's tolerance and `c = 1000`. -/
example : (1 / 100000000 : ℝ) < |(⟨3, 4, 1, 6⟩ : P4).e - (|(⟨3, 4, 1, 6⟩ : P4).z|)| ∧
    (1 / 100000000 : ℝ) < 1000 * |(⟨3, 4, 1, 6⟩ : P4).e - (|(⟨3, 4, 1, 6⟩ : P4).z|)| ∧
    (1 / 100000000 : ℝ) < (⟨3, 4, 1, 6⟩ : P4).pt ∧ (1 / 100000000 : ℝ) < 1000 * (⟨3, 4, 1, 6⟩ : P4).pt := by
  have h : (⟨3, 4, 1, 6⟩ : P4).pt = 5 := by
    rw [pt_eq]; rw [show ((3:ℝ)^2 + 4^2) = 5^2 by norm_num]; simp
  rw [h]
  norm_num

end Gcl
