import Verif.Model.Centroid
import Verif.Props.Rotation
import Verif.Props.Kinematics
/-!
# C75, C91: centroids
-/
namespace Gcl
set_option autoImplicit false
open Real Spec

/-- The chosen (pseudo)rapidity of a particle. -/
noncomputable abbrev Spec.rapOf (tol : ℝ) (pseudo : Bool) (p : P4) : Fl :=
  if pseudo then p.eta else p.rapidity tol

theorem flSum_fin (ps : List P4) (g : P4 → Fl) (f : P4 → ℝ) (h : ∀ p ∈ ps, g p = .fin (f p)) :
    flSum (ps.map (fun p => (g p).mulR p.pt)) = .fin ((ps.map (fun p => f p * p.pt)).sum) := by
  induction ps with
  | nil => rfl
  | cons p ps ih =>
    rw [List.map_cons, flSum, ih (fun q hq => h q (List.mem_cons_of_mem _ hq)), h p (by simp)]
    simp [Fl.mulR, Fl.addF]

theorem ptSum_pos {ps : List P4} (hne : ps ≠ []) (h : ∀ p ∈ ps, 0 < p.pt) : 0 < (ps.map P4.pt).sum := by
  cases ps with
  | nil => exact absurd rfl hne
  | cons p ps =>
    simp only [List.map_cons, List.sum_cons]
    have h1 := h p (by simp)
    have h2 : 0 ≤ (ps.map P4.pt).sum := List.sum_nonneg (by
      intro x hx
      obtain ⟨q, _, rfl⟩ := List.mem_map.1 hx
      exact pt_nonneg q)
    linarith

theorem phaseRect_fin (t : ℝ) : ∃ a, phaseRect (.fin t) = .ok (.fin a) ∧ -π < a ∧ a ≤ π ∧ AngleEq a t := by
  refine ⟨_, rfl, Complex.neg_pi_lt_arg _, Complex.arg_le_pi _, ?_⟩
  have e : (⟨cos t, sin t⟩ : ℂ) = Complex.cos t + Complex.sin t * Complex.I := by
    apply Complex.ext <;> simp [← Complex.ofReal_cos, ← Complex.ofReal_sin]
  rw [e, Complex.arg_cos_add_sin_mul_I_eq_toIocMod]
  refine ⟨-(toIocDiv two_pi_pos (-π) t), ?_⟩
  have := toIocMod_add_toIocDiv_zsmul two_pi_pos (-π) t
  rw [zsmul_eq_mul] at this
  push_cast
  linarith

/-- **C75** For momenta with `pt` beyond the tolerance and finite (pseudo)rapidities, the result is the
`pt`-weighted mean of the rapidities and, in `(-π, π]`, an angle congruent to the `pt`-weighted mean of the
azimuths. -/
theorem C75_value {tol : ℝ} (ht : 0 ≤ tol) (ps : List P4) (pseudo : Bool) (hne : ps ≠ [])
    (hpt : ∀ p ∈ ps, tol < p.pt) (y : P4 → ℝ) (hy : ∀ p ∈ ps, rapOf tol pseudo p = .fin (y p)) :
    ∃ a, weightedCentroid tol ps pseudo =
        .ok (.fin ((ps.map (fun p => y p * p.pt)).sum / (ps.map P4.pt).sum), .fin a) ∧
      -π < a ∧ a ≤ π ∧
      AngleEq a ((ps.map (fun p => p.xyPol.arg * p.pt)).sum / (ps.map P4.pt).sum) := by
  have hpos := ptSum_pos hne (fun p hp => lt_of_le_of_lt ht (hpt p hp))
  have hphi : ∀ p ∈ ps, p.phi tol = .fin p.xyPol.arg := by
    intro p hp
    unfold P4.phi
    rw [abs_of_nonneg (pt_nonneg p), if_neg (not_le.2 (hpt p hp))]
  obtain ⟨a, h1, h2, h3, h4⟩ :=
    phaseRect_fin ((ps.map (fun p => p.xyPol.arg * p.pt)).sum / (ps.map P4.pt).sum)
  refine ⟨a, ?_, h2, h3, h4⟩
  unfold weightedCentroid
  simp only [flSum_fin ps _ y hy, flSum_fin ps _ _ hphi, Fl.divR, hpos.ne', if_false, h1]

/-- **C75** The rapidity component lies between any bounds of the rapidities. -/
theorem C75_bounds {tol : ℝ} (ht : 0 ≤ tol) (ps : List P4) (pseudo : Bool) (hne : ps ≠ [])
    (hpt : ∀ p ∈ ps, tol < p.pt) (lo hi : ℝ)
    (hy : ∀ p ∈ ps, ∃ y, rapOf tol pseudo p = .fin y ∧ lo ≤ y ∧ y ≤ hi) :
    ∃ r a, weightedCentroid tol ps pseudo = .ok (.fin r, .fin a) ∧ lo ≤ r ∧ r ≤ hi := by
  classical
  let y : P4 → ℝ := fun p => if h : p ∈ ps then (hy p h).choose else 0
  have hyy : ∀ p ∈ ps, rapOf tol pseudo p = .fin (y p) ∧ lo ≤ y p ∧ y p ≤ hi := by
    intro p hp
    simp only [y, dif_pos hp]
    exact (hy p hp).choose_spec
  obtain ⟨a, h1, _⟩ := C75_value ht ps pseudo hne hpt y (fun p hp => (hyy p hp).1)
  have hpos := ptSum_pos hne (fun p hp => lt_of_le_of_lt ht (hpt p hp))
  refine ⟨_, a, h1, ?_, ?_⟩
  · rw [le_div_iff₀ hpos, ← List.sum_map_mul_left]
    exact List.sum_le_sum (fun p hp => mul_le_mul_of_nonneg_right (hyy p hp).2.1 (pt_nonneg p))
  · rw [div_le_iff₀ hpos, ← List.sum_map_mul_left]
    exact List.sum_le_sum (fun p hp => mul_le_mul_of_nonneg_right (hyy p hp).2.2 (pt_nonneg p))

/-- Rotations leave the (pseudo)rapidity and `pt` alone. -/
theorem rapOf_shiftPhi (tol s : ℝ) (pseudo : Bool) (p : P4) :
    rapOf tol pseudo (p.shiftPhi s) = rapOf tol pseudo p ∧ (p.shiftPhi s).pt = p.pt := by
  obtain ⟨h1, h2, h3, h4⟩ := shiftPhi_xy s p
  have hpt : (p.shiftPhi s).pt = p.pt := by
    rw [pt_eq, pt_eq, h1, h2]
    congr 1
    have := sin_sq_add_cos_sq s
    linear_combination (p.x ^ 2 + p.y ^ 2) * this
  have hm : (p.shiftPhi s).spatialMag = p.spatialMag := by
    rw [spatialMag_eq, spatialMag_eq]
    congr 1
    unfold p3sq
    rw [h1, h2, h3]
    have := sin_sq_add_cos_sq s
    linear_combination (p.x ^ 2 + p.y ^ 2) * this
  refine ⟨?_, hpt⟩
  unfold rapOf P4.eta P4.rapidity
  rw [hm, h3, h4]

/-- The azimuth of a rotated momentum: the old one plus the shift, up to a whole number of turns, which is
zero if the sum is still in `(-π, π]`. -/
theorem arg_shiftPhi (s : ℝ) (p : P4) (hp : 0 < p.pt) :
    ∃ k : ℤ, (p.shiftPhi s).xyPol.arg = p.xyPol.arg + s + k * (2 * π) ∧
      (-π < p.xyPol.arg + s ∧ p.xyPol.arg + s ≤ π → k = 0) := by
  have hne : p.xyPol ≠ 0 := by
    intro h
    have : p.pt = ‖p.xyPol‖ := rfl
    rw [h] at this; simp at this; linarith
  have hxy : (p.shiftPhi s).xyPol = Complex.exp (s * Complex.I) * p.xyPol := by
    apply Complex.ext <;> rfl
  have hform : (p.shiftPhi s).xyPol = (‖p.xyPol‖ : ℂ) *
      (Complex.cos ((p.xyPol.arg + s : ℝ)) + Complex.sin ((p.xyPol.arg + s : ℝ)) * Complex.I) := by
    rw [hxy]
    nth_rw 1 [← Complex.norm_mul_exp_arg_mul_I p.xyPol]
    rw [← Complex.exp_mul_I]
    push_cast
    rw [add_mul, Complex.exp_add]; ring
  rw [hform, Complex.arg_mul_cos_add_sin_mul_I_eq_toIocMod (by simpa using hne)]
  refine ⟨-(toIocDiv two_pi_pos (-π) (p.xyPol.arg + s)), ?_, fun h => ?_⟩
  · have := toIocMod_add_toIocDiv_zsmul two_pi_pos (-π) (p.xyPol.arg + s)
    rw [zsmul_eq_mul] at this
    push_cast
    linarith
  · rw [neg_eq_zero]
    exact toIocDiv_eq_of_sub_zsmul_mem_Ioc two_pi_pos (by simp only [zero_smul, sub_zero, Set.mem_Ioc]; constructor <;> linarith [h.1, h.2])

/-- **C75** The exact effect of rotating all momenta
by `s`: the rapidity component is unchanged; the azimuth moves by `s` plus the `pt`-weighted mean of the whole
turns `k p` by which the individual azimuths must be brought back into `(-π, π]`.  In particular it moves by exactly `s` (modulo
`2π`) whenever no particle crosses `±π`. -/
theorem C75_rotation {tol : ℝ} (ht : 0 ≤ tol) (ps : List P4) (pseudo : Bool) (hne : ps ≠ [])
    (hpt : ∀ p ∈ ps, tol < p.pt) (hy : ∀ p ∈ ps, ∃ y, rapOf tol pseudo p = .fin y) (s : ℝ) :
    ∃ (r a a' : ℝ) (k : P4 → ℤ),
      weightedCentroid tol ps pseudo = .ok (.fin r, .fin a) ∧
      weightedCentroid tol (ps.map (P4.shiftPhi s)) pseudo = .ok (.fin r, .fin a') ∧
      AngleEq a' (a + s + (ps.map (fun p => (k p : ℝ) * p.pt)).sum / (ps.map P4.pt).sum * (2 * π)) ∧
      (∀ p ∈ ps, -π < p.xyPol.arg + s + k p * (2 * π) ∧ p.xyPol.arg + s + k p * (2 * π) ≤ π) ∧
      ((∀ p ∈ ps, -π < p.xyPol.arg + s ∧ p.xyPol.arg + s ≤ π) → AngleEq a' (a + s)) := by
  classical
  have hp0 : ∀ p ∈ ps, 0 < p.pt := fun p hp => lt_of_le_of_lt ht (hpt p hp)
  let y : P4 → ℝ := fun p => if h : ∃ y, rapOf tol pseudo p = .fin y then h.choose else 0
  have hyy : ∀ p, (∃ y, rapOf tol pseudo p = .fin y) → rapOf tol pseudo p = .fin (y p) := by
    intro p hp
    simp only [y, dif_pos hp]
    exact hp.choose_spec
  let k : P4 → ℤ := fun p => if h : 0 < p.pt then (arg_shiftPhi s p h).choose else 0
  have hk : ∀ p ∈ ps, (p.shiftPhi s).xyPol.arg = p.xyPol.arg + s + k p * (2 * π) ∧
      (-π < p.xyPol.arg + s ∧ p.xyPol.arg + s ≤ π → k p = 0) := by
    intro p hp
    simp only [k, dif_pos (hp0 p hp)]
    exact (arg_shiftPhi s p (hp0 p hp)).choose_spec
  have hy' : ∀ p, y (p.shiftPhi s) = y p := by
    intro p
    simp only [y, (rapOf_shiftPhi tol s pseudo p).1]
  obtain ⟨a, h1, _, _, h4⟩ := C75_value ht ps pseudo hne hpt y (fun p hp => hyy p (hy p hp))
  obtain ⟨a', h1', _, _, h4'⟩ := C75_value ht (ps.map (P4.shiftPhi s)) pseudo (by simpa using hne)
    (by
      intro q hq
      obtain ⟨p, hp, rfl⟩ := List.mem_map.1 hq
      rw [(rapOf_shiftPhi tol s pseudo p).2]; exact hpt p hp) y
    (by
      intro q hq
      obtain ⟨p, hp, rfl⟩ := List.mem_map.1 hq
      exact hyy _ (by rw [(rapOf_shiftPhi tol s pseudo p).1]; exact hy p hp))
  have hpos := ptSum_pos hne hp0
  have epts : ((ps.map (P4.shiftPhi s)).map P4.pt).sum = (ps.map P4.pt).sum := by
    rw [List.map_map]
    congr 1
    apply List.map_congr_left
    intro p _
    exact (rapOf_shiftPhi tol s pseudo p).2
  have erap : ((ps.map (P4.shiftPhi s)).map (fun p => y p * p.pt)).sum =
      (ps.map (fun p => y p * p.pt)).sum := by
    rw [List.map_map]
    congr 1
    apply List.map_congr_left
    intro p _
    simp only [Function.comp, hy', (rapOf_shiftPhi tol s pseudo p).2]
  have ephi : ((ps.map (P4.shiftPhi s)).map (fun p => p.xyPol.arg * p.pt)).sum =
      (ps.map (fun p => p.xyPol.arg * p.pt)).sum + s * (ps.map P4.pt).sum +
        (ps.map (fun p => (k p : ℝ) * p.pt)).sum * (2 * π) := by
    clear h1 h1' h4 h4' epts erap hpos hne
    induction ps with
    | nil => simp
    | cons p ps ih =>
      have := ih (fun q hq => hpt q (by simp [hq])) (fun q hq => hy q (by simp [hq]))
        (fun q hq => hp0 q (by simp [hq])) (fun q hq => hk q (by simp [hq]))
      simp only [List.map_cons, List.sum_cons]
      rw [this, (hk p (by simp)).1, (rapOf_shiftPhi tol s pseudo p).2]
      ring
  rw [epts, erap] at h1'
  rw [epts, ephi] at h4'
  obtain ⟨m, hm⟩ := h4
  obtain ⟨m', hm'⟩ := h4'
  have main : AngleEq a' (a + s + (ps.map (fun p => (k p : ℝ) * p.pt)).sum / (ps.map P4.pt).sum *
      (2 * π)) := by
    refine ⟨m' - m, ?_⟩
    rw [hm', hm, add_div, add_div, mul_div_assoc, div_self hpos.ne']
    push_cast
    ring
  refine ⟨_, a, a', k, h1, h1', main, fun p hp => ?_, fun hno => ?_⟩
  · rw [← (hk p hp).1]
    exact ⟨Complex.neg_pi_lt_arg _, Complex.arg_le_pi _⟩
  have hz : (ps.map (fun p => (k p : ℝ) * p.pt)).sum = 0 := by
    rw [List.sum_eq_zero]
    intro x hx
    obtain ⟨p, hp, rfl⟩ := List.mem_map.1 hx
    simp [(hk p hp).2 (hno p hp)]
  simpa [hz] using main

/-- **C75** The expectation that the azimuth moves by `s` is refuted in general: two opposite particles on the `x` axis, rotated by half a turn
(which swaps them), have the same centroid azimuth before and after. -/
theorem C75_false : ∃ (tol s : ℝ) (ps : List P4) (r a a' : ℝ), 0 < tol ∧ (∀ p ∈ ps, tol < p.pt) ∧
    weightedCentroid tol ps true = .ok (.fin r, .fin a) ∧
    weightedCentroid tol (ps.map (P4.shiftPhi s)) true = .ok (.fin r, .fin a') ∧
    ¬ AngleEq a' (a + s) := by
  have hrot : ([⟨-1, 0, 0, 1⟩, ⟨1, 0, 0, 1⟩] : List P4).map (P4.shiftPhi π) =
      [⟨1, 0, 0, 1⟩, ⟨-1, 0, 0, 1⟩] := by
    simp only [List.map_cons, List.map_nil, List.cons.injEq, and_true]
    refine ⟨P4.ext ?_ ?_ rfl rfl, P4.ext ?_ ?_ rfl rfl⟩
    · rw [(shiftPhi_xy _ _).1]; simp
    · rw [(shiftPhi_xy _ _).2.1]; simp
    · rw [(shiftPhi_xy _ _).1]; simp
    · rw [(shiftPhi_xy _ _).2.1]; simp
  have p1 : P4.pt ⟨1, 0, 0, 1⟩ = 1 := by rw [pt_eq]; norm_num
  have p2 : P4.pt ⟨-1, 0, 0, 1⟩ = 1 := by rw [pt_eq]; norm_num
  have m1 : P4.spatialMag ⟨1, 0, 0, 1⟩ = 1 := by rw [spatialMag_eq]; norm_num [p3sq]
  have m2 : P4.spatialMag ⟨-1, 0, 0, 1⟩ = 1 := by rw [spatialMag_eq]; norm_num [p3sq]
  have a1 : (P4.xyPol ⟨1, 0, 0, 1⟩).arg = 0 := by
    have : P4.xyPol ⟨1, 0, 0, 1⟩ = 1 := by apply Complex.ext <;> rfl
    rw [this]; exact Complex.arg_one
  have a2 : (P4.xyPol ⟨-1, 0, 0, 1⟩).arg = π := by
    have : P4.xyPol ⟨-1, 0, 0, 1⟩ = -1 := by apply Complex.ext <;> simp [P4.xyPol]
    rw [this]; exact Complex.arg_neg_one
  have e1 : P4.eta ⟨1, 0, 0, 1⟩ = .fin 0 := by simp [P4.eta, m1]
  have e2 : P4.eta ⟨-1, 0, 0, 1⟩ = .fin 0 := by simp [P4.eta, m2]
  obtain ⟨a, h1, _, _, h4⟩ := C75_value (tol := 1 / 2) (by norm_num)
    [⟨-1, 0, 0, 1⟩, ⟨1, 0, 0, 1⟩] true (by simp) (by simp [p1, p2]; norm_num) (fun _ => 0)
    (by simp [rapOf, e1, e2])
  obtain ⟨a', h1', _, _, h4'⟩ := C75_value (tol := 1 / 2) (by norm_num)
    [⟨1, 0, 0, 1⟩, ⟨-1, 0, 0, 1⟩] true (by simp) (by simp [p1, p2]; norm_num) (fun _ => 0)
    (by simp [rapOf, e1, e2])
  refine ⟨1 / 2, π, [⟨-1, 0, 0, 1⟩, ⟨1, 0, 0, 1⟩], 0, a, a', by norm_num, by simp [p1, p2]; norm_num,
    ?_, ?_, ?_⟩
  · rw [h1]; simp
  · rw [hrot, h1']; simp
  · rintro ⟨k, hk⟩
    obtain ⟨m, hm⟩ := h4
    obtain ⟨m', hm'⟩ := h4'
    simp only [List.map_cons, List.map_nil, List.sum_cons, List.sum_nil, a1, a2, p1, p2] at hm hm'
    rw [hm, hm'] at hk
    have hpi := pi_pos
    have : ((2 * m' : ℤ) : ℝ) = ((2 * m + 1 + 2 * k : ℤ) : ℝ) := by
      push_cast
      have : π * (2 * (m' : ℝ)) = π * (2 * m + 1 + 2 * k) := by linarith
      exact mul_left_cancel₀ hpi.ne' this
    have := Int.cast_injective this
    omega

theorem flSum_nan (l : List Fl) (h : Fl.nan ∈ l) : flSum l = .nan := by
  induction l with
  | nil => simp at h
  | cons a l ih =>
    rw [flSum]
    rcases List.mem_cons.1 h with h | h
    · rw [← h]; rfl
    · rw [ih h]; cases a <;> rfl

/-- **C75** (boundary) A single particle whose `pt` is within the tolerance makes the azimuth nan. -/
theorem C75_beam (tol : ℝ) (ps : List P4) (pseudo : Bool) (p : P4) (hp : p ∈ ps) (h : p.pt ≤ tol) :
    ∃ r, weightedCentroid tol ps pseudo = .ok (r, .nan) := by
  have : flSum (ps.map (fun p => (p.phi tol).mulR p.pt)) = .nan := by
    apply flSum_nan
    refine List.mem_map.2 ⟨p, hp, ?_⟩
    rw [(C89_phi p).1 h]; rfl
  unfold weightedCentroid
  simp only [this, Fl.divR, phaseRect]
  exact ⟨_, rfl⟩

theorem ptSum_nonneg (ps : List P4) : 0 ≤ (ps.map P4.pt).sum := List.sum_nonneg (by
  intro x hx
  obtain ⟨q, _, rfl⟩ := List.mem_map.1 hx
  exact pt_nonneg q)

theorem ptSum_zero {ps : List P4} (h : (ps.map P4.pt).sum = 0) : ∀ p ∈ ps, p.pt = 0 := by
  induction ps with
  | nil => simp
  | cons q ps ih =>
    simp only [List.map_cons, List.sum_cons] at h
    have h1 := pt_nonneg q
    have h2 := ptSum_nonneg ps
    intro p hp
    rcases List.mem_cons.1 hp with rfl | hp
    · linarith
    · exact ih (by linarith) p hp

theorem flSum_cases (l : List Fl) :
    (.nan ∈ l → flSum l = .nan) ∧
    (.pinf ∈ l → .ninf ∈ l → flSum l = .nan) ∧
    (.pinf ∈ l → .nan ∉ l → .ninf ∉ l → flSum l = .pinf) ∧
    (.ninf ∈ l → .nan ∉ l → .pinf ∉ l → flSum l = .ninf) ∧
    (.nan ∉ l → .pinf ∉ l → .ninf ∉ l → ∃ x, flSum l = .fin x) := by
  induction l with
  | nil => simp [flSum]
  | cons a l ih =>
    obtain ⟨i1, i2, i3, i4, i5⟩ := ih
    have key : Fl.nan ∈ l ∨ (Fl.nan ∉ l ∧ Fl.pinf ∈ l ∧ Fl.ninf ∈ l) ∨
        (Fl.nan ∉ l ∧ Fl.pinf ∈ l ∧ Fl.ninf ∉ l) ∨ (Fl.nan ∉ l ∧ Fl.pinf ∉ l ∧ Fl.ninf ∈ l) ∨
        (Fl.nan ∉ l ∧ Fl.pinf ∉ l ∧ Fl.ninf ∉ l) := by
      by_cases h1 : Fl.nan ∈ l <;> by_cases h2 : Fl.pinf ∈ l <;> by_cases h3 : Fl.ninf ∈ l <;> simp [h1, h2, h3]
    rcases key with h | ⟨h, k, m⟩ | ⟨h, k, m⟩ | ⟨h, k, m⟩ | ⟨h, k, m⟩
    · have := i1 h
      simp only [flSum, this]
      cases a <;> simp_all [Fl.addF]
    · have := i2 k m
      simp only [flSum, this]
      cases a <;> simp_all [Fl.addF]
    · have := i3 k h m
      simp only [flSum, this]
      cases a <;> simp_all [Fl.addF]
    · have := i4 m h k
      simp only [flSum, this]
      cases a <;> simp_all [Fl.addF]
    · obtain ⟨x, this⟩ := i5 h k m
      simp only [flSum, this]
      cases a <;> simp_all [Fl.addF]

theorem mulR_cases (v : Fl) (x : ℝ) (hx : 0 ≤ x) :
    (v.mulR x = .nan ↔ v = .nan ∨ ((v = .pinf ∨ v = .ninf) ∧ x = 0)) ∧
    (v.mulR x = .pinf ↔ v = .pinf ∧ 0 < x) ∧ (v.mulR x = .ninf ↔ v = .ninf ∧ 0 < x) := by
  rcases hx.eq_or_lt with h | h
  · subst h
    cases v <;> simp [Fl.mulR]
  · cases v <;> simp [Fl.mulR, h.ne', h]

/-- **C75** (all events) The function never raises, and its first component follows the rules of floating-point
arithmetic: nan as soon as one particle has no rapidity, or an infinite one and no `pt`, or two particles have
opposite infinite rapidities, or no particle has `pt`; otherwise infinite if some rapidity is; otherwise finite. The
second component is finite or nan. -/
theorem C75_total (tol : ℝ) (ps : List P4) (pseudo : Bool) :
    ∃ r a, weightedCentroid tol ps pseudo = .ok (r, a) ∧ (a = .nan ∨ ∃ t, a = .fin t) ∧
      ((∃ p ∈ ps, rapOf tol pseudo p = .nan) → r = .nan) ∧
      ((∃ p ∈ ps, (rapOf tol pseudo p = .pinf ∨ rapOf tol pseudo p = .ninf) ∧ p.pt = 0) → r = .nan) ∧
      ((∃ p ∈ ps, rapOf tol pseudo p = .pinf) → (∃ p ∈ ps, rapOf tol pseudo p = .ninf) → r = .nan) ∧
      ((∀ p ∈ ps, p.pt = 0) → r = .nan ∧ a = .nan) ∧
      ((∃ p ∈ ps, rapOf tol pseudo p = .pinf) →
        (∀ p ∈ ps, (∃ y, rapOf tol pseudo p = .fin y) ∨ (rapOf tol pseudo p = .pinf ∧ 0 < p.pt)) → r = .pinf) ∧
      ((∃ p ∈ ps, rapOf tol pseudo p = .ninf) →
        (∀ p ∈ ps, (∃ y, rapOf tol pseudo p = .fin y) ∨ (rapOf tol pseudo p = .ninf ∧ 0 < p.pt)) → r = .ninf) ∧
      ((∀ p ∈ ps, ∃ y, rapOf tol pseudo p = .fin y) → (∃ p ∈ ps, 0 < p.pt) → ∃ y, r = .fin y) := by
  set R := rapOf tol pseudo with hR
  set L := ps.map (fun p => (R p).mulR p.pt) with hL
  set S := (ps.map P4.pt).sum with hS
  have hS0 : 0 ≤ S := ptSum_nonneg ps
  have hpos : ∀ p ∈ ps, 0 < p.pt → 0 < S := by
    intro p hp h
    rcases hS0.eq_or_lt with h' | h'
    · exact absurd (ptSum_zero h'.symm p hp) h.ne'
    · exact h'
  obtain ⟨s1, s2, s3, s4, s5⟩ := flSum_cases L
  have n1 : Fl.nan ∈ L ↔ ∃ p ∈ ps, R p = .nan ∨ ((R p = .pinf ∨ R p = .ninf) ∧ p.pt = 0) := by
    rw [hL, List.mem_map]
    exact exists_congr fun p => and_congr_right fun _ => (mulR_cases (R p) p.pt (pt_nonneg p)).1
  have n2 : Fl.pinf ∈ L ↔ ∃ p ∈ ps, R p = .pinf ∧ 0 < p.pt := by
    rw [hL, List.mem_map]
    exact exists_congr fun p => and_congr_right fun _ => (mulR_cases (R p) p.pt (pt_nonneg p)).2.1
  have n3 : Fl.ninf ∈ L ↔ ∃ p ∈ ps, R p = .ninf ∧ 0 < p.pt := by
    rw [hL, List.mem_map]
    exact exists_congr fun p => and_congr_right fun _ => (mulR_cases (R p) p.pt (pt_nonneg p)).2.2
  -- the azimuths
  set Q := flSum (ps.map (fun p => (p.phi tol).mulR p.pt)) with hQ
  have hphi : Q = .nan ∨ ∃ x, Q = .fin x := by
    obtain ⟨t1, _, _, _, t5⟩ := flSum_cases (ps.map (fun p => (p.phi tol).mulR p.pt))
    by_cases hn : Fl.nan ∈ ps.map (fun p => (p.phi tol).mulR p.pt)
    · exact .inl (t1 hn)
    · have hp : ∀ p : P4, p.phi tol = .nan ∨ ∃ x, p.phi tol = .fin x := by
        intro p
        rcases le_or_gt p.pt tol with h | h
        · exact .inl ((C89_phi p).1 h)
        · obtain ⟨a, h, _⟩ := (C89_phi p).2 h
          exact .inr ⟨a, h⟩
      refine .inr (t5 hn ?_ ?_)
      · intro h
        obtain ⟨p, _, h⟩ := List.mem_map.1 h
        have := ((mulR_cases _ _ (pt_nonneg p)).2.1.1 h).1
        rcases hp p with h | ⟨_, h⟩ <;> rw [h] at this <;> cases this
      · intro h
        obtain ⟨p, _, h⟩ := List.mem_map.1 h
        have := ((mulR_cases _ _ (pt_nonneg p)).2.2.1 h).1
        rcases hp p with h | ⟨_, h⟩ <;> rw [h] at this <;> cases this
  have hQ0 : S = 0 → Q = .nan ∨ Q = .fin 0 := by
    intro h0
    have hz := ptSum_zero h0
    rcases hphi with h | ⟨x, h⟩
    · exact .inl h
    · right
      by_cases hne : ∃ p ∈ ps, p.phi tol = .nan
      · obtain ⟨p, hp, hn⟩ := hne
        have := flSum_nan (ps.map (fun p => (p.phi tol).mulR p.pt)) (List.mem_map.2 ⟨p, hp, by rw [hn]; rfl⟩)
        rw [← hQ, h] at this
        cases this
      · have hf : ∀ p ∈ ps, p.phi tol = .fin p.xyPol.arg := by
          intro p hp
          have h1 : tol < p.pt := by
            by_contra h1
            exact hne ⟨p, hp, (C89_phi p).1 (not_lt.1 h1)⟩
          unfold P4.phi
          rw [abs_of_nonneg (pt_nonneg p), if_neg (not_le.2 h1)]
        rw [hQ, flSum_fin ps _ _ hf]
        congr 1
        apply List.sum_eq_zero
        intro x hx
        obtain ⟨p, hp, rfl⟩ := List.mem_map.1 hx
        rw [hz p hp, mul_zero]
  have hW : ∃ a, weightedCentroid tol ps pseudo = .ok ((flSum L).divR S, a) ∧ (a = .nan ∨ ∃ t, a = .fin t) ∧
      (S = 0 → a = .nan) := by
    have hd : Q.divR S = .nan ∨ (S ≠ 0 ∧ ∃ x, Q.divR S = .fin x) := by
      by_cases h0 : S = 0
      · rcases hQ0 h0 with h | h <;> simp [h, Fl.divR, h0]
      · rcases hphi with h | ⟨x, h⟩ <;> simp [h, Fl.divR, h0]
    unfold weightedCentroid
    simp only []
    rw [← hS, ← hQ]
    rcases hd with h | ⟨h0, x, h⟩
    · rw [h]
      exact ⟨.nan, rfl, .inl rfl, fun _ => rfl⟩
    · obtain ⟨a, ha, _⟩ := phaseRect_fin x
      rw [h, ha]
      exact ⟨.fin a, rfl, .inr ⟨a, rfl⟩, fun h => absurd h h0⟩
  obtain ⟨a, ha, ha1, ha2⟩ := hW
  refine ⟨(flSum L).divR S, a, ha, ha1, ?_, ?_, ?_, ?_, ?_, ?_, ?_⟩
  · rintro ⟨p, hp, h⟩
    rw [s1 (n1.2 ⟨p, hp, .inl h⟩)]; rfl
  · rintro ⟨p, hp, h⟩
    rw [s1 (n1.2 ⟨p, hp, .inr h⟩)]; rfl
  · rintro ⟨p, hp, h⟩ ⟨q, hq, h'⟩
    by_cases hp0 : p.pt = 0
    · rw [s1 (n1.2 ⟨p, hp, .inr ⟨.inl h, hp0⟩⟩)]; rfl
    · by_cases hq0 : q.pt = 0
      · rw [s1 (n1.2 ⟨q, hq, .inr ⟨.inr h', hq0⟩⟩)]; rfl
      · rw [s2 (n2.2 ⟨p, hp, h, lt_of_le_of_ne (pt_nonneg p) (Ne.symm hp0)⟩)
          (n3.2 ⟨q, hq, h', lt_of_le_of_ne (pt_nonneg q) (Ne.symm hq0)⟩)]
        rfl
  · intro hz
    have hS' : S = 0 := List.sum_eq_zero (by
      intro x hx
      obtain ⟨p, hp, rfl⟩ := List.mem_map.1 hx
      exact hz p hp)
    refine ⟨?_, ha2 hS'⟩
    by_cases hn : Fl.nan ∈ L
    · rw [s1 hn]; rfl
    · have hf : ∀ p ∈ ps, ∃ y, R p = .fin y := by
        intro p hp
        have := fun h => hn (n1.2 ⟨p, hp, h⟩)
        have h0 := hz p hp
        clear_value R; cases hr : R p <;> simp [hr, h0] at this ⊢
      have h2 : ∀ p ∈ ps, (R p).mulR p.pt = .fin 0 := by
        intro p hp
        obtain ⟨y, h⟩ := hf p hp
        rw [h, hz p hp]; simp [Fl.mulR]
      have h3 : flSum L = .fin 0 := by
        rw [hL, List.map_congr_left h2]
        clear * -
        induction ps with
        | nil => rfl
        | cons p ps ih => rw [List.map_cons, flSum, ih]; simp [Fl.addF]
      rw [h3, hS']; simp [Fl.divR]
  · rintro ⟨p, hp, h⟩ hall
    have hpp : 0 < p.pt := by
      rcases hall p hp with ⟨y, h'⟩ | h'
      · rw [h] at h'; cases h'
      · exact h'.2
    rw [s3 (n2.2 ⟨p, hp, h, hpp⟩) ?_ ?_]
    · simp [Fl.divR, not_lt.2 hS0]
    · rw [n1]; rintro ⟨q, hq, h⟩
      rcases hall q hq with ⟨y, h'⟩ | ⟨h', h''⟩ <;> simp [h'] at h <;> linarith
    · rw [n3]; rintro ⟨q, hq, h, _⟩
      rcases hall q hq with ⟨y, h'⟩ | ⟨h', h''⟩ <;> simp [h'] at h
  · rintro ⟨p, hp, h⟩ hall
    have hpp : 0 < p.pt := by
      rcases hall p hp with ⟨y, h'⟩ | h'
      · rw [h] at h'; cases h'
      · exact h'.2
    rw [s4 (n3.2 ⟨p, hp, h, hpp⟩) ?_ ?_]
    · simp [Fl.divR, not_lt.2 hS0]
    · rw [n1]; rintro ⟨q, hq, h⟩
      rcases hall q hq with ⟨y, h'⟩ | ⟨h', h''⟩ <;> simp [h'] at h <;> linarith
    · rw [n2]; rintro ⟨q, hq, h, _⟩
      rcases hall q hq with ⟨y, h'⟩ | ⟨h', h''⟩ <;> simp [h'] at h
  · rintro hall ⟨p, hp, hpp⟩
    obtain ⟨x, hx⟩ := s5 (by rw [n1]; rintro ⟨q, hq, h⟩; obtain ⟨y, h'⟩ := hall q hq; simp [h'] at h)
      (by rw [n2]; rintro ⟨q, hq, h, _⟩; obtain ⟨y, h'⟩ := hall q hq; simp [h'] at h)
      (by rw [n3]; rintro ⟨q, hq, h, _⟩; obtain ⟨y, h'⟩ := hall q hq; simp [h'] at h)
    rw [hx]
    simp [Fl.divR, (hpos p hp hpp).ne']

/-- A particle with `e = |pz|` and `pt > 0` beside an ordinary one: the fifth clause applies. -/
example : ∃ a, weightedCentroid (1 / 2) [⟨1, 0, 2, 2⟩, ⟨1, 0, 0, 1⟩] false = .ok (.pinf, a) := by
  have p1 : P4.pt ⟨1, 0, 2, 2⟩ = 1 := by rw [pt_eq]; norm_num
  have r1 : rapOf (1 / 2) false ⟨1, 0, 2, 2⟩ = .pinf := by
    norm_num [rapOf, P4.rapidity, rapidityOf, copysignInf]
  have r2 : rapOf (1 / 2) false ⟨1, 0, 0, 1⟩ = .fin 0 := by
    norm_num [rapOf, P4.rapidity, rapidityOf, copysign]
  obtain ⟨r, a, h, _, _, _, _, _, h5, _⟩ := C75_total (1 / 2) [⟨1, 0, 2, 2⟩, ⟨1, 0, 0, 1⟩] false
  refine ⟨a, ?_⟩
  rw [h, h5 ⟨_, by simp, r1⟩ ?_]
  intro p hp
  simp only [List.mem_cons, List.not_mem_nil, or_false] at hp
  rcases hp with rfl | rfl
  · exact .inr ⟨r1, by rw [p1]; norm_num⟩
  · exact .inl ⟨0, r2⟩

/-- Two particles on the same side: the hypotheses of `C75_rotation` hold and its last clause applies
to a quarter turn. -/
example : ∃ ps : List P4, ps.length = 2 ∧ (∀ p ∈ ps, (1 / 2 : ℝ) < p.pt) ∧
    (∀ p ∈ ps, ∃ y, rapOf (1 / 2) true p = .fin y) ∧
    ∀ p ∈ ps, -π < p.xyPol.arg + π / 2 ∧ p.xyPol.arg + π / 2 ≤ π := by
  have p1 : P4.pt ⟨1, 0, 0, 1⟩ = 1 := by rw [pt_eq]; norm_num
  have m1 : P4.spatialMag ⟨1, 0, 0, 1⟩ = 1 := by rw [spatialMag_eq]; norm_num [p3sq]
  have a1 : (P4.xyPol ⟨1, 0, 0, 1⟩).arg = 0 := by
    have : P4.xyPol ⟨1, 0, 0, 1⟩ = 1 := by apply Complex.ext <;> rfl
    rw [this]; exact Complex.arg_one
  have e1 : P4.eta ⟨1, 0, 0, 1⟩ = .fin 0 := by simp [P4.eta, m1]
  have hpi := pi_pos
  refine ⟨[⟨1, 0, 0, 1⟩, ⟨1, 0, 0, 1⟩], rfl, ?_, ?_, ?_⟩
  · simp [p1]; norm_num
  · simp [rapOf, e1]
  · simp only [List.mem_cons, List.not_mem_nil, or_false, or_self, forall_eq, a1]
    constructor <;> linarith

/-- **C91** `resultant_coords` moves with the particles: under a common rotation the azimuth moves by `s`
(modulo `2π`) and the rapidity stays; under a common boost the azimuth stays and the true rapidity moves by
`s`. -/
theorem C91_resultant {tol : ℝ} (ht : 0 ≤ tol) (ps : List P4) (pseudo : Bool) (s : ℝ) :
    (resultantCoords tol (ps.map (P4.shiftPhi s)) pseudo).1 = (resultantCoords tol ps pseudo).1 ∧
    ((total ps).pt ≤ tol → (resultantCoords tol ps pseudo).2 = .nan ∧
      (resultantCoords tol (ps.map (P4.shiftPhi s)) pseudo).2 = .nan) ∧
    (tol < (total ps).pt → ∃ a a', (resultantCoords tol ps pseudo).2 = .fin a ∧
      (resultantCoords tol (ps.map (P4.shiftPhi s)) pseudo).2 = .fin a' ∧ -π < a' ∧ a' ≤ π ∧
      AngleEq a' (a + s)) ∧
    (resultantCoords tol (ps.map (P4.shiftRapidity s)) pseudo).2 = (resultantCoords tol ps pseudo).2 ∧
    (tol < (total ps).e - |(total ps).z| →
      tol < (total (ps.map (P4.shiftRapidity s))).e - |(total (ps.map (P4.shiftRapidity s))).z| →
      ∃ y, (resultantCoords tol ps false).1 = .fin y ∧
        (resultantCoords tol (ps.map (P4.shiftRapidity s)) false).1 = .fin (y + s)) := by
  have hsum : total (ps.map (P4.shiftPhi s)) = (total ps).shiftPhi s := by
    induction ps with
    | nil =>
      have := shiftPhi_xy s (total [])
      apply P4.ext
      · rw [this.1]; simp [total]
      · rw [this.2.1]; simp [total]
      · rw [this.2.2.1]; simp [total]
      · rw [this.2.2.2]; simp [total]
    | cons p ps ih =>
      rw [List.map_cons, total_cons, total_cons, ih]
      have h1 := shiftPhi_xy s p
      have h2 := shiftPhi_xy s (total ps)
      have h3 := shiftPhi_xy s (padd p (total ps))
      apply P4.ext
      · rw [h3.1]; simp only [padd]; rw [h1.1, h2.1]; ring
      · rw [h3.2.1]; simp only [padd]; rw [h1.2.1, h2.2.1]; ring
      · rw [h3.2.2.1]; simp only [padd]; rw [h1.2.2.1, h2.2.2.1]
      · rw [h3.2.2.2]; simp only [padd]; rw [h1.2.2.2, h2.2.2.2]
  have hboost := C61_sum s ps
  refine ⟨?_, fun h => ?_, fun h => ?_, ?_, fun h h' => ?_⟩
  · unfold resultantCoords
    rw [hsum]
    exact (rapOf_shiftPhi tol s pseudo (total ps)).1
  · unfold resultantCoords
    rw [hsum]
    refine ⟨(C89_phi _).1 h, (C89_phi _).1 ?_⟩
    rw [(rapOf_shiftPhi tol s pseudo (total ps)).2]; exact h
  · have h0 : 0 < (total ps).pt := lt_of_le_of_lt ht h
    obtain ⟨k, hk, _⟩ := arg_shiftPhi s (total ps) h0
    unfold resultantCoords
    rw [hsum]
    refine ⟨(total ps).xyPol.arg, ((total ps).shiftPhi s).xyPol.arg, ?_, ?_, Complex.neg_pi_lt_arg _,
      Complex.arg_le_pi _, k, by rw [hk]⟩
    · simp only [P4.phi]
      rw [abs_of_nonneg (pt_nonneg _), if_neg (not_le.2 h)]
    · simp only [P4.phi]
      rw [abs_of_nonneg (pt_nonneg _), (rapOf_shiftPhi tol s pseudo (total ps)).2, if_neg (not_le.2 h)]
  · unfold resultantCoords
    simp only
    rw [hboost]
    rfl
  · unfold resultantCoords
    simp only [Bool.false_eq_true, if_false]
    rw [hboost] at h' ⊢
    exact C61_rapidity ht s (total ps) h h'

end Gcl
