import Verif.Model.ShiftEta
import Verif.Props.Rotation
/-!
# C63, C64: `shift_eta`
-/
namespace Gcl
set_option autoImplicit false
open Real Spec

/-- **C63** With `experimental=True` every particle off the beam axis gets its pseudorapidity increased by
`s`, with `px`, `py` (hence `pt`) unchanged. -/
theorem C63_experimental (s : ℝ) (p : P4) (hp : 0 < p.pt) :
    ∃ h z', p.eta = .fin h ∧ shiftEtaExp s p = ⟨p.x, p.y, .fin z'⟩ ∧
      ∀ e, (⟨p.x, p.y, z', e⟩ : P4).pt = p.pt ∧ (⟨p.x, p.y, z', e⟩ : P4).eta = .fin (h + s) := by
  obtain ⟨h, h1, _, _⟩ := (C89_eta p).1 hp
  refine ⟨h, p.pt * sinh (h + s), h1, by simp [shiftEtaExp, h1, Fl.addR], fun e => ?_⟩
  have hpt : (⟨p.x, p.y, p.pt * sinh (h + s), e⟩ : P4).pt = p.pt := by rw [pt_eq, pt_eq]
  refine ⟨hpt, ?_⟩
  obtain ⟨g, g1, g2, _⟩ := (C89_eta ⟨p.x, p.y, p.pt * sinh (h + s), e⟩).1 (by rw [hpt]; exact hp)
  rw [g1, hpt] at *
  have := mul_left_cancel₀ hp.ne' g2
  rw [sinh_injective this]

/-- **C63** With `experimental=True` a particle on the beam axis gets `pz = nan`, whatever the shift; `px` and `py`
(which are zero) stay. -/
theorem C63_experimental_beam (s : ℝ) (p : P4) (hp : p.pt = 0) : shiftEtaExp s p = ⟨p.x, p.y, .nan⟩ := by
  obtain ⟨-, h2, h3, h4⟩ := C89_eta p
  rcases lt_trichotomy p.z 0 with k | k | k
  · simp [shiftEtaExp, h3 hp k, Fl.addR, hp]
  · simp [shiftEtaExp, h4 hp k, Fl.addR]
  · simp [shiftEtaExp, h2 hp k, Fl.addR, hp]

example : shiftEtaExp 3 ⟨0, 0, -7, 7⟩ = ⟨0, 0, .nan⟩ := C63_experimental_beam 3 _ (by rw [pt_eq]; norm_num)

/-- **C63** A scalar (or one-element array) is applied to every particle, an array of the same length
elementwise; other lengths raise `ValueError`. -/
theorem C63_experimental_array (ps : List P4) :
    (∀ s, shiftEtaExperimental (.scalar s) ps = .ok (ps.map (shiftEtaExp s))) ∧
    (∀ ss : List ℝ, ss.length = ps.length → ∃ out, shiftEtaExperimental (.array ss) ps = .ok out ∧
      out.length = ps.length ∧ ∀ (i : Nat) (s : ℝ) (p : P4), ss[i]? = some s → ps[i]? = some p →
        out[i]? = some (shiftEtaExp s p)) ∧
    (∀ ss : List ℝ, ss.length ≠ ps.length → ss.length ≠ 1 →
      shiftEtaExperimental (.array ss) ps = .error .valueError) := by
  have h := fun sh => applyShift_spec shiftEtaExp sh ps
  exact ⟨fun s => (h _).1 s rfl, fun ss => (h _).2.1 ss rfl, fun ss => (h _).2.2.2 ss rfl⟩

/-- Rapidity `y` of a forward timelike momentum determines `E - |pz|`. -/
theorem e_sub_absz {p : P4} {y : ℝ} (h : |p.z| < p.e) (hr : p.rapidity 0 = .fin y) :
    p.e - |p.z| = p.massT * exp (-|y|) ∧ 0 < p.massT := by
  obtain ⟨y', h1, h2, h3⟩ := (C89_rapidity le_rfl p).1 (by linarith)
  rw [hr] at h1
  cases h1
  have hm : 0 < p.massT := by
    have : 0 < p.massT * cosh y := by rw [← h2]; exact lt_of_le_of_lt (abs_nonneg _) h
    exact (mul_pos_iff_of_pos_right (cosh_pos y)).1 this
  refine ⟨?_, hm⟩
  rw [h3, h2, abs_mul, abs_of_pos hm, ← cosh_abs y, abs_sinh, ← mul_sub, cosh_sub_sinh]

/-- Boosting by `t - y` takes rapidity `y` to `t`. -/
theorem boost_to {tol : ℝ} (ht : 0 ≤ tol) {p : P4} {y : ℝ} (t : ℝ) (h : tol < p.e - |p.z|)
    (hr : p.rapidity tol = .fin y) (hb : tol < p.massT * exp (-|t|)) :
    (p.shiftRapidity (t - y)).rapidity tol = .fin t ∧
    tol < (p.shiftRapidity (t - y)).e - |(p.shiftRapidity (t - y)).z| := by
  have h0 : |p.z| < p.e := by linarith
  have hr0 : p.rapidity 0 = .fin y := by rw [rapidity_eq le_rfl (by linarith), ← rapidity_eq ht h, hr]
  obtain ⟨k1, y', k2, k3⟩ := C61_timelike (t - y) p h0
  rw [hr0] at k2; cases k2
  rw [add_sub_cancel] at k3
  have hlt : tol < (p.shiftRapidity (t - y)).e - |(p.shiftRapidity (t - y)).z| := by
    rw [(e_sub_absz k1 k3).1, (C61_invariants (t - y) p p).2.2.2.2.1]; exact hb
  refine ⟨?_, hlt⟩
  obtain ⟨y'', e1, e2⟩ := C61_rapidity ht (t - y) p h hlt
  rw [hr] at e1; cases e1
  rw [e2, add_sub_cancel]

/-- Once the rapidity of the sum is the target, the loop changes nothing any more. -/
theorem loop_fixed {tol absTol t : ℝ} (ps : List P4) (hr : (total ps).rapidity tol = .fin t) (n : Nat) :
    ∃ w, shiftEtaLoop tol absTol (.fin t) n ps (total ps).eta = .done ps w ∧
      (w = true ↔ (n = 0 ∨ ¬ (total ps).eta.IsClose (.fin t) absTol)) := by
  induction n with
  | zero => exact ⟨true, rfl, by simp⟩
  | succ n ih =>
    by_cases hc : (total ps).eta.IsClose (.fin t) absTol
    · exact ⟨false, by simp [shiftEtaLoop, hc], by simp [hc]⟩
    · obtain ⟨w, h1, h2⟩ := ih
      refine ⟨w, ?_, by rw [h2]; simp [hc]⟩
      have hmap : ps.map (P4.shiftRapidity 0) = ps := by
        conv_rhs => rw [← List.map_id ps]
        exact List.map_congr_left (fun p _ => (C61_compose 0 0 p).2.2)
      have hs : (Fl.fin t).sub ((total ps).rapidity tol) = .fin 0 := by
        rw [hr]; simp [Fl.sub]
      simp only [shiftEtaLoop, hc, if_false, hs, hmap]
      exact h1

/-- **C63, C64** What `shift_eta(s)` really does, for a system off the beam axis with pseudorapidity `h`
and `E - |pz|` above the tolerance, before and after: if `s` is within `abs_tol` of zero, nothing, without
warning.  Otherwise all particles are boosted so that the summed momentum has **rapidity** `h + s`,
whatever `max_corrections ≥ 1` is; and it warns unless there was a second iteration to find the
pseudorapidity within `abs_tol` of the target. -/
theorem C63_rapidity {tol absTol : ℝ} (ht : 0 ≤ tol) (ha : 0 ≤ absTol) (ps : List P4) (s h : ℝ)
    (n : Nat) (hn : 0 < n) (hh : (total ps).eta = .fin h) (hz : tol < (total ps).e - |(total ps).z|)
    (hb : tol < (total ps).massT * exp (-|h + s|)) :
    (|s| ≤ absTol → shiftEta tol ps (.scalar s) n absTol = .ok (.done ps false)) ∧
    (absTol < |s| → ∃ c w, shiftEta tol ps (.scalar s) n absTol =
        .ok (.done (ps.map (P4.shiftRapidity c)) w) ∧
      (total (ps.map (P4.shiftRapidity c))).rapidity tol = .fin (h + s) ∧
      (w = true ↔ (n = 1 ∨
        ¬ (total (ps.map (P4.shiftRapidity c))).eta.IsClose (.fin (h + s)) absTol))) := by
  obtain ⟨n, rfl⟩ : ∃ m, n = m + 1 := ⟨n - 1, by omega⟩
  have hclose : (Fl.fin h).IsClose (.fin (h + s)) absTol ↔ |s| ≤ absTol := by
    simp [Fl.IsClose]
  have hrun : shiftEta tol ps (.scalar s) (n + 1 : Nat) absTol =
      .ok (shiftEtaLoop tol absTol (.fin (h + s)) (n + 1) ps (.fin h)) := by
    simp [shiftEta, hh, Fl.addR, not_lt.2 ha]
  rw [hrun]
  constructor
  · intro hs
    simp [shiftEtaLoop, hclose.2 hs]
  · intro hs
    obtain ⟨y, hy, _⟩ := (C89_rapidity ht (total ps)).1 hz
    obtain ⟨b1, _⟩ := boost_to ht (h + s) hz hy hb
    rw [← C61_sum] at b1
    obtain ⟨w, l1, l2⟩ := loop_fixed (absTol := absTol) (ps.map (P4.shiftRapidity (h + s - y))) b1 n
    refine ⟨h + s - y, w, ?_, b1, by rw [l2]; simp⟩
    have hnc : ¬ (Fl.fin h).IsClose (.fin (h + s)) absTol := by rw [hclose]; exact not_le.2 hs
    simp only [shiftEtaLoop, hnc, if_false, hy, Fl.sub]
    rw [l1]

/-- For a sum with rapidity `t`, pseudorapidity and rapidity agree exactly when the sum is massless or
`t = 0`. -/
theorem eta_eq_iff {tol t : ℝ} (ht : 0 ≤ tol) {p : P4} (hpt : 0 < p.pt) (hz : tol < p.e - |p.z|)
    (hr : p.rapidity tol = .fin t) (hm : 0 ≤ mdot p p) :
    p.eta = .fin t ↔ (mdot p p = 0 ∨ t = 0) := by
  obtain ⟨h, h1, h2, h3⟩ := (C89_eta p).1 hpt
  obtain ⟨y, y1, y2, y3⟩ := (C89_rapidity ht p).1 hz
  rw [hr] at y1; cases y1
  have hmt : 0 < p.massT := by
    have h0 : 0 < p.massT * cosh t := by rw [← y2]; linarith [abs_nonneg p.z]
    exact (mul_pos_iff_of_pos_right (cosh_pos t)).1 h0
  have hsq : p.massT ^ 2 = p.pt ^ 2 + mdot p p := by
    have := massT_signed p
    rw [abs_of_pos hmt] at this
    rw [pt_sq]; unfold mdot; linarith
  have heq : p.eta = .fin t ↔ p.pt * sinh t = p.massT * sinh t := by
    rw [h1, ← y3, h2]
    constructor
    · intro h; cases h; rfl
    · intro h
      rw [sinh_injective (mul_left_cancel₀ hpt.ne' h)]
  rw [heq]
  constructor
  · intro h
    by_cases h0 : t = 0
    · exact Or.inr h0
    · left
      have : sinh t ≠ 0 := fun h' => h0 (sinh_eq_zero.1 h')
      have := mul_right_cancel₀ this h
      rw [← this] at hsq; linarith
  · rintro (h | h)
    · rw [h, add_zero] at hsq
      have : p.massT = p.pt := by
        nlinarith
      rw [this]
    · rw [h]; simp

/-- **C63** For a massless system (or target pseudorapidity zero) the summed momentum
has pseudorapidity `h + s`.  (For all other systems it does not: `C63_false`.) -/
theorem C63_massless {tol absTol : ℝ} (ht : 0 ≤ tol) (ha : 0 ≤ absTol) (ps : List P4) (s h : ℝ)
    (n : Nat) (hn : 0 < n) (hh : (total ps).eta = .fin h) (hz : tol < (total ps).e - |(total ps).z|)
    (hb : tol < (total ps).massT * exp (-|h + s|)) (hs : absTol < |s|)
    (hm : mdot (total ps) (total ps) = 0 ∨ (0 ≤ mdot (total ps) (total ps) ∧ h + s = 0)) :
    ∃ out w, shiftEta tol ps (.scalar s) n absTol = .ok (.done out w) ∧
      (total out).eta = .fin (h + s) := by
  obtain ⟨c, w, h1, h2, _⟩ := (C63_rapidity ht ha ps s h n hn hh hz hb).2 hs
  refine ⟨_, w, h1, ?_⟩
  have hpt : 0 < (total ps).pt := by
    rcases (pt_nonneg (total ps)).lt_or_eq with h' | h'
    · exact h'
    · have := C89_eta (total ps)
      rcases lt_trichotomy (total ps).z 0 with hz' | hz' | hz'
      · rw [this.2.2.1 h'.symm hz'] at hh; cases hh
      · rw [this.2.2.2 h'.symm hz'] at hh; cases hh
      · rw [this.2.1 h'.symm hz'] at hh; cases hh
  rw [C61_sum] at h2 ⊢
  have inv := C61_invariants c (total ps) (total ps)
  have hz' : (0 : ℝ) < ((total ps).shiftRapidity c).e - |((total ps).shiftRapidity c).z| := by
    have := (C61_timelike c (total ps) (by linarith)).1; linarith
  have h20 : ((total ps).shiftRapidity c).rapidity 0 = .fin (h + s) := by
    by_cases htol : tol < ((total ps).shiftRapidity c).e - |((total ps).shiftRapidity c).z|
    · rw [rapidity_eq le_rfl hz', ← rapidity_eq ht htol, h2]
    · exfalso
      rw [(C89_rapidity ht _).2 (by rw [abs_of_pos hz']; exact not_lt.1 htol)] at h2
      split at h2 <;> cases h2
  rw [eta_eq_iff le_rfl (by rw [inv.2.2.1]; exact hpt) hz' h20
    (by rw [inv.2.2.2.2.2]; rcases hm with h | h; · rw [h]
        exact h.1)]
  rw [inv.2.2.2.2.2]
  exact hm.imp id (fun h => h.2)

/-- **C63** The expectation that the pseudorapidity reaches the target is refuted: for *every* massive system off the beam axis and every shift to a
nonzero target, the pseudorapidity of the result is not the target, however many corrections are
allowed. -/
theorem C63_false {tol absTol : ℝ} (ht : 0 ≤ tol) (ha : 0 ≤ absTol) (ps : List P4) (s h : ℝ)
    (n : Nat) (hn : 0 < n) (hh : (total ps).eta = .fin h) (hz : tol < (total ps).e - |(total ps).z|)
    (hb : tol < (total ps).massT * exp (-|h + s|)) (hs : absTol < |s|)
    (hm : 0 < mdot (total ps) (total ps)) (ht0 : h + s ≠ 0) (out : List P4) (w : Bool)
    (hout : shiftEta tol ps (.scalar s) n absTol = .ok (.done out w)) :
    (total out).eta ≠ .fin (h + s) := by
  obtain ⟨c, w', h1, h2, _⟩ := (C63_rapidity ht ha ps s h n hn hh hz hb).2 hs
  rw [hout] at h1; cases h1
  have hpt : 0 < (total ps).pt := by
    rcases (pt_nonneg (total ps)).lt_or_eq with h' | h'
    · exact h'
    · have := C89_eta (total ps)
      rcases lt_trichotomy (total ps).z 0 with hz' | hz' | hz'
      · rw [this.2.2.1 h'.symm hz'] at hh; cases hh
      · rw [this.2.2.2 h'.symm hz'] at hh; cases hh
      · rw [this.2.1 h'.symm hz'] at hh; cases hh
  rw [C61_sum] at h2 ⊢
  have inv := C61_invariants c (total ps) (total ps)
  have hz' : (0 : ℝ) < ((total ps).shiftRapidity c).e - |((total ps).shiftRapidity c).z| := by
    have := (C61_timelike c (total ps) (by linarith)).1; linarith
  have h20 : ((total ps).shiftRapidity c).rapidity 0 = .fin (h + s) := by
    by_cases htol : tol < ((total ps).shiftRapidity c).e - |((total ps).shiftRapidity c).z|
    · rw [rapidity_eq le_rfl hz', ← rapidity_eq ht htol, h2]
    · exfalso
      rw [(C89_rapidity ht _).2 (by rw [abs_of_pos hz']; exact not_lt.1 htol)] at h2
      split at h2 <;> cases h2
  rw [Ne, eta_eq_iff le_rfl (by rw [inv.2.2.1]; exact hpt) hz' h20
    (by rw [inv.2.2.2.2.2]; exact hm.le), inv.2.2.2.2.2]
  rintro (h | h)
  · exact hm.ne' h
  · exact ht0 h

/-- **C63** A system along the beam has infinite pseudorapidity and stays where it is, without a warning, whatever the
shift; a system at rest has none, and there is no correction to apply. -/
theorem C63_beam {tol absTol : ℝ} (ha : 0 ≤ absTol) (ps : List P4) (s : ℝ) (n : Nat) (hn : 0 < n)
    (hp : (total ps).pt = 0) :
    ((total ps).z ≠ 0 → shiftEta tol ps (.scalar s) n absTol = .ok (.done ps false)) ∧
    ((total ps).z = 0 → shiftEta tol ps (.scalar s) n absTol = .ok .nonFinite) := by
  have hm : (total ps).spatialMag = |(total ps).z| := by
    rw [spatialMag_eq, ← sqrt_sq_eq_abs]
    congr 1
    have := pt_sq (total ps)
    rw [hp] at this
    unfold p3sq
    linarith
  obtain ⟨k, rfl⟩ : ∃ k, n = k + 1 := ⟨n - 1, by omega⟩
  have hk : ((k + 1 : Nat) : Int).toNat = k + 1 := by simp
  have hc : ¬ (0 < ((k + 1 : Nat) : Int).toNat ∧ absTol < 0) := fun h => absurd h.2 (not_lt.2 ha)
  constructor
  · intro hz
    have he : (total ps).eta = .pinf ∨ (total ps).eta = .ninf := by
      unfold P4.eta
      rw [hm, if_neg (abs_ne_zero.2 hz)]
      rcases lt_or_gt_of_ne hz with c | c
      · right
        have : (total ps).z / |(total ps).z| = -1 := by rw [abs_of_neg c, div_neg, div_self hz]
        simp only
        rw [this, if_neg (by norm_num), if_pos rfl]
      · left
        have : (total ps).z / |(total ps).z| = 1 := by rw [abs_of_pos c, div_self hz]
        simp only
        rw [this, if_pos rfl]
    unfold shiftEta
    simp only
    rw [if_neg hc, hk]
    rcases he with h | h <;> rw [h] <;> simp [shiftEtaLoop, Fl.addR, Fl.IsClose]
  · intro hz
    have he : (total ps).eta = .nan := by
      unfold P4.eta
      rw [hm, if_pos (by rw [hz, abs_zero])]
    unfold shiftEta
    simp only
    rw [if_neg hc, hk, he]
    simp [shiftEtaLoop, Fl.addR, Fl.IsClose, Fl.sub]

/-- Two particles going down the beam. -/
example : shiftEta 1e-10 [⟨1, 0, -2, 3⟩, ⟨-1, 0, -5, 6⟩] (.scalar 7) 10 1e-14 =
    .ok (.done [⟨1, 0, -2, 3⟩, ⟨-1, 0, -5, 6⟩] false) :=
  (C63_beam (by norm_num) _ 7 10 (by norm_num) (by rw [pt_eq]; norm_num [total])).1 (by norm_num [total])

/-- **C63** The documented elementwise shift by an array fails with `TypeError` (arrays of other than one
element). -/
theorem C63_array_false (tol absTol : ℝ) (ps : List P4) (ss : List ℝ) (n : Nat) (hn : 0 < n)
    (hs : ss.length ≠ 1) : shiftEta tol ps (.array ss) n absTol = .error .typeError := by
  match ss, hs with
  | [], _ => simp [shiftEta, hn]
  | [_], h => exact absurd rfl h
  | _ :: _ :: _, _ => simp [shiftEta, hn]

/-- **C63** The arguments: with `max_corrections ≤ 0` the momenta come back unchanged and with a warning, whatever the
shift and the tolerance; otherwise a negative tolerance is a `ValueError`, and a tolerance of zero or more, with a
single shift, no error. -/
theorem C63_args (tol absTol : ℝ) (ps : List P4) (shift : ShiftArg) (n : Int) :
    (n ≤ 0 → shiftEta tol ps shift n absTol = .ok (.done ps true)) ∧
    (0 < n → absTol < 0 → ∀ s, shift = .scalar s ∨ shift = .array [s] →
      shiftEta tol ps shift n absTol = .error .valueError) ∧
    (0 ≤ absTol → ∀ s, shift = .scalar s ∨ shift = .array [s] →
      ∃ out, shiftEta tol ps shift n absTol = .ok out ∧ shiftEta tol ps (.scalar s) n absTol = .ok out) := by
  refine ⟨fun hn => ?_, fun hn ha s hs => ?_, fun ha s hs => ?_⟩
  · have h0 : n.toNat = 0 := by omega
    match shift with
    | .scalar s => simp [shiftEta, h0, shiftEtaLoop]
    | .array [] => simp [shiftEta, h0]
    | .array [s] => simp [shiftEta, h0, shiftEtaLoop]
    | .array (_ :: _ :: _) => simp [shiftEta, h0]
  · rcases hs with rfl | rfl <;> simp [shiftEta, hn, ha]
  · rcases hs with rfl | rfl <;> simp [shiftEta, not_lt.2 ha]

/-- A call without corrections. -/
example : shiftEta 1e-10 [⟨1, 0, -2, 3⟩] (.array [1, 2]) 0 (-1) = .ok (.done [⟨1, 0, -2, 3⟩] true) :=
  (C63_args _ _ _ _ _).1 (by norm_num)

private theorem loop_nowarn {tol absTol : ℝ} {target : Fl} : ∀ (n : Nat) (ps out : List P4),
    shiftEtaLoop tol absTol target n ps (total ps).eta = .done out false →
    (total out).eta.IsClose target absTol := by
  intro n
  induction n with
  | zero => intro ps out h; simp [shiftEtaLoop] at h
  | succ n ih =>
    intro ps out h
    simp only [shiftEtaLoop] at h
    split at h
    · next hc => cases h; exact hc
    · split at h
      · exact ih _ _ h
      · cases h

/-- **C64** One direction is true, for every input: without a warning, the summed momentum of the result
is within `abs_tol` of the target pseudorapidity. -/
theorem C64_nowarn (tol absTol : ℝ) (ps : List P4) (s : ℝ) (n : Int) (out : List P4)
    (h : shiftEta tol ps (.scalar s) n absTol = .ok (.done out false)) :
    (total out).eta.IsClose ((total ps).eta.addR s) absTol := by
  simp only [shiftEta] at h
  split at h
  · cases h
  · injection h with h
    exact loop_nowarn _ _ _ h

/-- **C64** Exactly when it warns, for a system off the beam axis with `E - |pz|` above the tolerance before and
after: if the result misses the target by more than `abs_tol`, and also if a correction was needed and only one
was permitted. -/
theorem C64_exact {tol absTol : ℝ} (ht : 0 ≤ tol) (ha : 0 ≤ absTol) (ps : List P4) (s h : ℝ)
    (n : Nat) (hn : 0 < n) (hh : (total ps).eta = .fin h) (hz : tol < (total ps).e - |(total ps).z|)
    (hb : tol < (total ps).massT * exp (-|h + s|)) :
    ∃ out w, shiftEta tol ps (.scalar s) n absTol = .ok (.done out w) ∧
      (w = true ↔ ¬ (total out).eta.IsClose (.fin (h + s)) absTol ∨ (absTol < |s| ∧ n = 1)) := by
  obtain ⟨h1, h2⟩ := C63_rapidity ht ha ps s h n hn hh hz hb
  rcases le_or_gt |s| absTol with hs | hs
  · refine ⟨ps, false, h1 hs, ?_⟩
    have := C64_nowarn tol absTol ps s n ps (h1 hs)
    rw [hh] at this
    have this : ((total ps).eta).IsClose (.fin (h + s)) absTol := by rw [hh]; exact this
    simp [this, not_lt.2 hs]
  · obtain ⟨c, w, e1, _, e3⟩ := h2 hs
    refine ⟨_, w, e1, ?_⟩
    rw [e3]
    simp only [hs, true_and]
    exact or_comm

private def exMassless : List P4 := [⟨1, 0, 0, 1⟩]

private theorem ex_total : total exMassless = ⟨1, 0, 0, 1⟩ := by simp [total, exMassless]
private theorem ex_pt : (⟨1, 0, 0, 1⟩ : P4).pt = 1 := by rw [pt_eq]; norm_num
private theorem ex_eta (e : ℝ) : (⟨1, 0, 0, e⟩ : P4).eta = .fin 0 := by
  have hp : (⟨1, 0, 0, e⟩ : P4).pt = 1 := by rw [pt_eq]; norm_num
  obtain ⟨h, h1, h2, _⟩ := (C89_eta ⟨1, 0, 0, e⟩).1 (by rw [hp]; norm_num)
  rw [h1]
  rw [hp, one_mul] at h2
  rw [sinh_eq_zero.1 h2.symm]
private theorem ex_bound {m : ℝ} (hm : 1 ≤ m) : (1e-10 : ℝ) < m * exp (-|(0 : ℝ) + 1|) := by
  have h3 : exp (-1) > 0.1 := by
    have h4 := Real.exp_one_lt_d9
    rw [exp_neg, gt_iff_lt, lt_inv_comm₀ (by norm_num) (exp_pos 1)]
    linarith
  rw [zero_add, abs_one]
  nlinarith

/-- **C64** The converse expectation is refuted: a massless particle shifted with
`max_corrections=1` and the default tolerances arrives exactly at the target, and the warning is issued
all the same. -/
theorem C64_false : ∃ (ps out : List P4) (s : ℝ),
    shiftEta 1e-10 ps (.scalar s) 1 1e-10 = .ok (.done out true) ∧
    (total out).eta = (total ps).eta.addR s := by
  have hmt : (⟨1, 0, 0, 1⟩ : P4).massT = 1 := by
    apply signed_sq_inj; rw [massT_signed]; norm_num
  have hn : (0 : ℕ) < 1 := by norm_num
  have hh : (total exMassless).eta = .fin 0 := by rw [ex_total]; exact ex_eta 1
  have hz : (1e-10 : ℝ) < (total exMassless).e - |(total exMassless).z| := by rw [ex_total]; norm_num
  have hb : (1e-10 : ℝ) < (total exMassless).massT * exp (-|(0 : ℝ) + 1|) := by
    rw [ex_total, hmt]; exact ex_bound le_rfl
  have ha : (0 : ℝ) ≤ 1e-10 := by norm_num
  obtain ⟨c, w, h1, _, h3⟩ := (C63_rapidity ha ha exMassless 1 0 1 hn hh hz hb).2 (by norm_num)
  obtain ⟨out, w', g1, g2⟩ := C63_massless ha ha exMassless 1 0 1 hn hh hz hb (by norm_num)
    (Or.inl (by rw [ex_total]; simp [mdot]))
  have hw : w = true := h3.2 (Or.inl rfl)
  rw [hw] at h1
  rw [h1] at g1
  cases g1
  exact ⟨exMassless, _, 1, h1, by rw [g2, hh]; rfl⟩

-- non-vacuity of C63_false: a massive particle, the code's tolerances
example : ∃ c w, shiftEta 1e-10 [⟨1, 0, 0, 2⟩] (.scalar 1) 10 1e-10 =
      .ok (.done ([⟨1, 0, 0, 2⟩].map (P4.shiftRapidity c)) w) ∧
    (total ([⟨1, 0, 0, 2⟩].map (P4.shiftRapidity c))).eta ≠ .fin (0 + 1) := by
  have ht : total [⟨1, 0, 0, 2⟩] = ⟨1, 0, 0, 2⟩ := by simp [total]
  have hmt : (⟨1, 0, 0, 2⟩ : P4).massT = 2 := by
    apply signed_sq_inj; rw [massT_signed]; norm_num
  have hh : (total [⟨1, 0, 0, 2⟩]).eta = .fin 0 := by rw [ht]; exact ex_eta 2
  have hz : (1e-10 : ℝ) < (total [⟨1, 0, 0, 2⟩]).e - |(total [⟨1, 0, 0, 2⟩]).z| := by
    rw [ht]; norm_num
  have hb : (1e-10 : ℝ) < (total [⟨1, 0, 0, 2⟩]).massT * exp (-|(0 : ℝ) + 1|) := by
    rw [ht, hmt]; exact ex_bound (by norm_num)
  have ha : (0 : ℝ) ≤ 1e-10 := by norm_num
  obtain ⟨c, w, h1, _, _⟩ := (C63_rapidity ha ha [⟨1, 0, 0, 2⟩] 1 0 10 (by norm_num) hh hz hb).2
    (by norm_num)
  refine ⟨c, w, h1, C63_false ha ha _ 1 0 10 (by norm_num) hh hz hb (by norm_num) ?_ (by norm_num) _ w h1⟩
  rw [ht]; norm_num [mdot]

end Gcl
