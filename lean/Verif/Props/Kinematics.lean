import Mathlib.Analysis.Complex.ExponentialBounds
import Verif.Lemmas.Momentum
/-!
# C61, C67: boosts and masses
-/
namespace Gcl
set_option autoImplicit false
open Real Spec

/-- **C61** `shift_rapidity(s)` increases the rapidity of every forward timelike particle by `s`
(`tol` is the code's zero tolerance: where `E - |pz|` is within it, the code reports an infinite
rapidity). -/
theorem C61_rapidity {tol : ℝ} (ht : 0 ≤ tol) (s : ℝ) (p : P4) (h : tol < p.e - |p.z|)
    (h' : tol < (p.shiftRapidity s).e - |(p.shiftRapidity s).z|) :
    ∃ y, p.rapidity tol = .fin y ∧ (p.shiftRapidity s).rapidity tol = .fin (y + s) := by
  refine ⟨_, rapidity_eq ht h, ?_⟩
  rw [rapidity_eq ht h']
  obtain ⟨h1, h2⟩ := boost_pm s p
  rw [h1, h2]
  have hz := abs_lt.1 (show |p.z| < p.e by linarith)
  have ha : 0 < p.e + p.z := by linarith
  have hb : 0 < p.e - p.z := by linarith
  congr 1
  rw [log_div (by positivity) (by positivity), log_mul (by positivity) ha.ne',
    log_mul (by positivity) hb.ne', log_exp, log_exp, log_div ha.ne' hb.ne']
  ring

/-- **C61** With zero tolerance the second hypothesis follows: a boost keeps a momentum forward timelike. -/
theorem C61_timelike (s : ℝ) (p : P4) (h : |p.z| < p.e) :
    |(p.shiftRapidity s).z| < (p.shiftRapidity s).e ∧
    ∃ y, p.rapidity 0 = .fin y ∧ (p.shiftRapidity s).rapidity 0 = .fin (y + s) := by
  have key : |(p.shiftRapidity s).z| < (p.shiftRapidity s).e := by
    obtain ⟨h1, h2⟩ := boost_pm s p
    have hz := abs_lt.1 h
    have e1 := mul_pos (exp_pos s) (show 0 < p.e + p.z by linarith)
    have e2 := mul_pos (exp_pos (-s)) (show 0 < p.e - p.z by linarith)
    rw [abs_lt]; constructor <;> linarith
  exact ⟨key, C61_rapidity le_rfl s p (by linarith) (by linarith)⟩

/-- **C61** What a boost leaves unchanged: `px`, `py`, `pt`, mass, transverse mass and all Minkowski
products. -/
theorem C61_invariants (s : ℝ) (p q : P4) :
    (p.shiftRapidity s).x = p.x ∧ (p.shiftRapidity s).y = p.y ∧ (p.shiftRapidity s).pt = p.pt ∧
    (p.shiftRapidity s).mass = p.mass ∧ (p.shiftRapidity s).massT = p.massT ∧
    mdot (p.shiftRapidity s) (q.shiftRapidity s) = mdot p q := by
  have hc : cosh s ^ 2 = sinh s ^ 2 + 1 := cosh_sq s
  have hm : ∀ p q : P4, mdot (p.shiftRapidity s) (q.shiftRapidity s) = mdot p q := by
    intro p q
    simp only [mdot, P4.shiftRapidity, cosh_neg, sinh_neg]
    linear_combination (p.e * q.e - p.z * q.z) * hc
  refine ⟨rfl, rfl, by rw [pt_eq, pt_eq]; rfl, mass_congr (hm p p), massT_congr ?_, hm p q⟩
  simp only [P4.shiftRapidity, cosh_neg, sinh_neg]
  linear_combination (p.e ^ 2 - p.z ^ 2) * hc

/-- **C61** Boosts compose additively, and `-s` undoes `s`. -/
theorem C61_compose (a b : ℝ) (p : P4) :
    (p.shiftRapidity a).shiftRapidity b = p.shiftRapidity (a + b) ∧
    (p.shiftRapidity a).shiftRapidity (-a) = p ∧ p.shiftRapidity 0 = p := by
  have hcomp : ∀ a b, (p.shiftRapidity a).shiftRapidity b = p.shiftRapidity (a + b) := by
    intro a b
    ext <;> simp only [P4.shiftRapidity, cosh_neg, sinh_neg, cosh_add, sinh_add] <;> ring
  have h0 : p.shiftRapidity 0 = p := by ext <;> simp [P4.shiftRapidity]
  exact ⟨hcomp a b, by rw [hcomp, add_neg_cancel, h0], h0⟩

theorem total_cons (p : P4) (ps : List P4) : total (p :: ps) = padd p (total ps) := by
  simp [total, padd]

theorem total_append (ps qs : List P4) : total (ps ++ qs) = padd (total ps) (total qs) := by
  simp [total, padd]

/-- **C61** Boosting commutes with summing. -/
theorem C61_sum (s : ℝ) (ps : List P4) :
    total (ps.map (P4.shiftRapidity s)) = (total ps).shiftRapidity s := by
  induction ps with
  | nil => ext <;> simp [total, P4.shiftRapidity]
  | cons p ps ih =>
    rw [List.map_cons, total_cons, ih, total_cons]
    ext <;> simp only [padd, P4.shiftRapidity] <;> ring

/-- How a shift argument is distributed over an array of `n` particles: which shift particle `i` gets. -/
theorem applyShift_spec {α β : Type} (f : ℝ → α → β) (shift : ShiftArg) (ps : List α) :
    (∀ s, shift = .scalar s → applyShift f shift ps = .ok (ps.map (f s))) ∧
    (∀ ss, shift = .array ss → ss.length = ps.length → ∃ out, applyShift f shift ps = .ok out ∧
      out.length = ps.length ∧ ∀ (i : Nat) (s : ℝ) (p : α), ss[i]? = some s → ps[i]? = some p →
        out[i]? = some (f s p)) ∧
    (∀ s, shift = .array [s] → applyShift f shift ps = .ok (ps.map (f s))) ∧
    (∀ ss, shift = .array ss → ss.length ≠ ps.length → ss.length ≠ 1 →
      applyShift f shift ps = .error .valueError) := by
  refine ⟨?_, ?_, ?_, ?_⟩
  · rintro s rfl; rfl
  · rintro ss rfl h
    refine ⟨List.zipWith f ss ps, by simp [applyShift, h], by simp [h], ?_⟩
    intro i s p h1 h2
    simp [List.getElem?_zipWith, h1, h2]
  · rintro s rfl
    show (if [s].length = ps.length then _ else _) = _
    split
    · next h =>
      match ps, h with
      | [p], _ => rfl
    · rfl
  · rintro ss rfl h1 h2
    simp only [applyShift, h1, if_false]
    match ss, h2 with
    | [], _ => rfl
    | [_], h2 => exact absurd rfl h2
    | _ :: _ :: _, _ => rfl

/-- **C61** A scalar shift (or an array of one shift) boosts every particle by it, an array of shifts of
the same length boosts particle `i` by entry `i`; any other array raises `ValueError`. -/
theorem C61_array (ps : List P4) :
    (∀ s, shiftRapidity (.scalar s) ps = .ok (ps.map (P4.shiftRapidity s))) ∧
    (∀ s, shiftRapidity (.array [s]) ps = .ok (ps.map (P4.shiftRapidity s))) ∧
    (∀ ss : List ℝ, ss.length = ps.length → ∃ out, shiftRapidity (.array ss) ps = .ok out ∧
      out.length = ps.length ∧ ∀ (i : Nat) (s : ℝ) (p : P4), ss[i]? = some s → ps[i]? = some p →
        out[i]? = some (p.shiftRapidity s)) ∧
    (∀ ss : List ℝ, ss.length ≠ ps.length → ss.length ≠ 1 →
      shiftRapidity (.array ss) ps = .error .valueError) := by
  have h := fun sh => applyShift_spec P4.shiftRapidity sh ps
  exact ⟨fun s => (h _).1 s rfl, fun s => (h _).2.2.1 s rfl, fun ss => (h _).2.1 ss rfl,
    fun ss => (h _).2.2.2 ss rfl⟩

-- non-vacuity: a massive particle at rest, boosted, with the code's tolerance
example : ∃ y, (⟨0, 0, 0, 1⟩ : P4).rapidity 1e-10 = .fin y ∧
    ((⟨0, 0, 0, 1⟩ : P4).shiftRapidity 1).rapidity 1e-10 = .fin (y + 1) := by
  apply C61_rapidity (by norm_num)
  · norm_num
  · simp only [P4.shiftRapidity, cosh_neg, sinh_neg]
    have := cosh_sub_sinh 1
    have h2 := sinh_pos_iff.2 (show (0 : ℝ) < 1 by norm_num)
    have h3 : exp (-1) > 0.1 := by
      have h4 := Real.exp_one_lt_d9
      rw [exp_neg, gt_iff_lt, lt_inv_comm₀ (by norm_num) (exp_pos 1)]
      linarith
    simp only [mul_zero, mul_one, sub_zero, zero_sub, neg_neg]
    rw [abs_of_pos h2]
    linarith

/-- **C67** Mass and transverse mass are the signed square roots of `E² - |p|²` and `E² - pz²`. -/
theorem C67_mass (p : P4) :
    p.mass * |p.mass| = p.e ^ 2 - (p.x ^ 2 + p.y ^ 2 + p.z ^ 2) ∧
    p.massT * |p.massT| = p.e ^ 2 - p.z ^ 2 := by
  refine ⟨by rw [mass_signed]; unfold mdot; ring, massT_signed p⟩

/-- **C67** `combined_mass` is the mass of the summed momentum, or zero where that is negative (spacelike). -/
theorem C67_combined (ps : List P4) :
    combinedMass ps = max 0 (total ps).mass ∧ 0 ≤ combinedMass ps ∧
    (0 ≤ mdot (total ps) (total ps) → combinedMass ps ^ 2 = mdot (total ps) (total ps)) := by
  have hm := mass_signed (total ps)
  have he : (total ps).x ^ 2 * (-1) + (total ps).y ^ 2 * (-1) + (total ps).z ^ 2 * (-1)
      + (total ps).e ^ 2 * 1 = mdot (total ps) (total ps) := by unfold mdot; ring
  have hc : combinedMass ps = max 0 (total ps).mass := by
    unfold combinedMass
    simp only [he]
    split
    · next h =>
      rw [max_eq_left]
      by_contra hpos
      have hpos := not_le.1 hpos
      rw [← hm, abs_of_pos hpos] at h
      nlinarith
    · next h =>
      have h := not_lt.1 h
      have hge : 0 ≤ (total ps).mass := by
        by_contra hneg
        have hneg := not_le.1 hneg
        rw [← hm, abs_of_neg hneg] at h
        nlinarith
      rw [max_eq_right hge, ← hm, abs_of_nonneg hge, sqrt_mul_self hge]
  refine ⟨hc, by rw [hc]; exact le_max_left _ _, fun h => ?_⟩
  unfold combinedMass
  simp only [he]
  rw [if_neg (not_lt.2 h), sq_sqrt h]

/-- **C67** `combined_mass` does not depend on the order of the particles, and is unchanged by boosting
or rotating them all. -/
theorem C67_invariant (ps qs : List P4) (s : ℝ) :
    (ps.Perm qs → combinedMass ps = combinedMass qs) ∧
    combinedMass (ps.map (P4.shiftRapidity s)) = combinedMass ps ∧
    combinedMass (ps.map (P4.shiftPhi s)) = combinedMass ps := by
  refine ⟨fun h => ?_, ?_, ?_⟩
  · have : total ps = total qs := by
      ext <;> simp only [total] <;> exact (h.map _).sum_eq
    rw [(C67_combined ps).1, (C67_combined qs).1, this]
  · rw [(C67_combined _).1, (C67_combined ps).1, C61_sum, (C61_invariants s (total ps) (total ps)).2.2.2.1]
  · have hs : total (ps.map (P4.shiftPhi s)) = (total ps).shiftPhi s := by
      induction ps with
      | nil => ext <;> simp [total, P4.shiftPhi, P4.xyPol, Complex.mul_re, Complex.mul_im]
      | cons p ps ih =>
        rw [List.map_cons, total_cons, ih, total_cons]
        ext <;> simp [padd, P4.shiftPhi, P4.xyPol, Complex.mul_re, Complex.mul_im] <;> ring
    have hm : ((total ps).shiftPhi s).mass = (total ps).mass := by
      apply mass_congr
      have hre : (Complex.exp (s * Complex.I)).re = cos s := Complex.exp_ofReal_mul_I_re s
      have him : (Complex.exp (s * Complex.I)).im = sin s := Complex.exp_ofReal_mul_I_im s
      simp only [mdot, P4.shiftPhi, P4.xyPol, Complex.mul_re, Complex.mul_im, hre, him]
      linear_combination (-(total ps).x ^ 2 - (total ps).y ^ 2) * sin_sq_add_cos_sq s
    rw [(C67_combined _).1, (C67_combined ps).1, hs, hm]

/-- **C67** With weights, the mass of the weighted momenta; unequal numbers of rows raise `ValueError`. -/
theorem C67_weights (ps ws : List P4) :
    (ws.length = ps.length → ∃ qs : List P4, combinedMassW ps ws = .ok (combinedMass qs) ∧
      qs.length = ps.length ∧ ∀ (i : Nat) (p w q : P4), ps[i]? = some p → ws[i]? = some w →
        qs[i]? = some q → q = ⟨w.x * p.x, w.y * p.y, w.z * p.z, w.e * p.e⟩) ∧
    (ws.length ≠ ps.length → ws.length ≠ 1 → ps.length ≠ 1 →
      combinedMassW ps ws = .error .valueError) := by
  constructor
  · intro h
    refine ⟨_, by simp only [combinedMassW, bcast2, h, if_true]; rfl, by simp [h], ?_⟩
    intro i p w q h1 h2 h3
    simp [List.getElem?_zipWith, h1, h2] at h3
    exact h3.symm
  · intro h1 h2 h3
    simp only [combinedMassW, bcast2, h1, if_false]
    match ws, ps, h2, h3 with
    | [_], _, h2, _ => exact absurd rfl h2
    | _, [_], _, h3 => exact absurd rfl h3
    | [], [], _, _ => rfl
    | [], _ :: _ :: _, _, _ => rfl
    | _ :: _ :: _, [], _, _ => rfl
    | _ :: _ :: _, _ :: _ :: _, _, _ => rfl

-- non-vacuity: two back-to-back massless particles of energy 1 have combined mass 2
example : combinedMass [⟨1, 0, 0, 1⟩, ⟨-1, 0, 0, 1⟩] = 2 := by
  have : sqrt 4 = 2 := by rw [show (4 : ℝ) = 2 ^ 2 by norm_num, sqrt_sq (by norm_num)]
  simp only [combinedMass, total, List.map_cons, List.map_nil, List.sum_cons, List.sum_nil]
  norm_num
  exact this

end Gcl
