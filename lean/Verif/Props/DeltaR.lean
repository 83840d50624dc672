import Mathlib.Analysis.Complex.Angle
import Mathlib.Geometry.Euclidean.Angle.Unoriented.TriangleInequality
import Mathlib.Data.List.Nodup
import Verif.Model.DeltaR
import Verif.Spec.DeltaR
import Verif.Props.Rotation
/-!
# C65, C66: `delta_R`
-/
namespace Gcl
set_option autoImplicit false
open Real Spec

theorem abs_arg_mul_conj_comm (w1 w2 : ℂ) :
    |(w1 * (starRingEnd ℂ) w2).arg| = |(w2 * (starRingEnd ℂ) w1).arg| := by
  have : w2 * (starRingEnd ℂ) w1 = (starRingEnd ℂ) (w1 * (starRingEnd ℂ) w2) := by
    simp [mul_comm]
  rw [this, Complex.arg_conj]
  split
  · next h => rw [h]
  · simp

theorem arg_mul_conj_self (w : ℂ) : (w * (starRingEnd ℂ) w).arg = 0 := by
  rw [Complex.mul_conj]
  exact Complex.arg_ofReal_of_nonneg (Complex.normSq_nonneg w)

theorem arg_mul_conj_eq_div {w1 w2 : ℂ} (h2 : w2 ≠ 0) :
    (w1 * (starRingEnd ℂ) w2).arg = (w1 / w2).arg := by
  have : w1 * (starRingEnd ℂ) w2 = (Complex.normSq w2 : ℂ) * (w1 / w2) := by
    rw [Complex.normSq_eq_conj_mul_self]; field_simp
  rw [this, Complex.arg_real_mul _ (Complex.normSq_pos.2 h2)]

/-- Triangle inequality of the azimuthal differences. -/
theorem dphi_triangle {a b c : ℂ} (ha : a ≠ 0) (hb : b ≠ 0) (hc : c ≠ 0) :
    |(a * (starRingEnd ℂ) c).arg| ≤ |(a * (starRingEnd ℂ) b).arg| + |(b * (starRingEnd ℂ) c).arg| := by
  rw [arg_mul_conj_eq_div hc, arg_mul_conj_eq_div hb, arg_mul_conj_eq_div hc,
    ← Complex.angle_eq_abs_arg ha hc, ← Complex.angle_eq_abs_arg ha hb, ← Complex.angle_eq_abs_arg hb hc]
  exact InnerProductGeometry.angle_le_angle_add_angle a b c

/-- Triangle inequality in the plane, for `|a| ≤ |b| + |c|` componentwise. -/
theorem hypot_triangle {a b c x y z : ℝ} (h1 : |a| ≤ |b| + |c|) (h2 : |x| ≤ |y| + |z|) :
    sqrt (a ^ 2 + x ^ 2) ≤ sqrt (b ^ 2 + y ^ 2) + sqrt (c ^ 2 + z ^ 2) := by
  have hb := sqrt_nonneg (b ^ 2 + y ^ 2)
  have hc := sqrt_nonneg (c ^ 2 + z ^ 2)
  apply (sqrt_le_left (by positivity)).2
  have e1 := sq_sqrt (show 0 ≤ b ^ 2 + y ^ 2 by positivity)
  have e2 := sq_sqrt (show 0 ≤ c ^ 2 + z ^ 2 by positivity)
  have hcs : |b| * |c| + |y| * |z| ≤ sqrt (b ^ 2 + y ^ 2) * sqrt (c ^ 2 + z ^ 2) := by
    rw [← sqrt_mul (by positivity)]
    apply le_sqrt_of_sq_le
    have : (|b| * |c| + |y| * |z|) ^ 2 + (|b| * |z| - |y| * |c|) ^ 2 =
        (b ^ 2 + y ^ 2) * (c ^ 2 + z ^ 2) := by
      have := sq_abs b; have := sq_abs c; have := sq_abs y; have := sq_abs z
      calc _ = (|b| ^ 2 + |y| ^ 2) * (|c| ^ 2 + |z| ^ 2) := by ring
        _ = _ := by simp only [sq_abs]
    nlinarith [sq_nonneg (|b| * |z| - |y| * |c|)]
  have ha2 : a ^ 2 ≤ (|b| + |c|) ^ 2 := by
    rw [← sq_abs a]; exact pow_le_pow_left₀ (abs_nonneg _) h1 2
  have hx2 : x ^ 2 ≤ (|y| + |z|) ^ 2 := by
    rw [← sq_abs x]; exact pow_le_pow_left₀ (abs_nonneg _) h2 2
  have := sq_abs b; have := sq_abs c; have := sq_abs y; have := sq_abs z
  nlinarith

/-- **C65** A distance is a non-negative number or `+inf`, never nan. -/
theorem C65_nonneg (r1 r2 : Fl) (w1 w2 : ℂ) :
    deltaRCell r1 r2 w1 w2 = .pinf ∨ ∃ x, deltaRCell r1 r2 w1 w2 = .fin x ∧ 0 ≤ x := by
  unfold deltaRCell
  cases r1.sub r2 with
  | fin d => exact Or.inr ⟨_, rfl, sqrt_nonneg _⟩
  | nan => exact Or.inr ⟨_, rfl, sqrt_nonneg _⟩
  | pinf => exact Or.inl rfl
  | ninf => exact Or.inl rfl

/-- The angle of `w1 * conj w2` turns the azimuth of `w2` to that of `w1`. -/
theorem arg_mul_conj_angleEq {w1 w2 : ℂ} (h1 : w1 ≠ 0) (h2 : w2 ≠ 0) :
    AngleEq w1.arg (w2.arg + (w1 * (starRingEnd ℂ) w2).arg) := by
  have h := Complex.arg_mul_coe_angle h1 (show (starRingEnd ℂ) w2 ≠ 0 by simpa using h2)
  rw [Complex.arg_conj_coe_angle, ← Real.Angle.coe_neg, ← Real.Angle.coe_add,
    Real.Angle.angle_eq_iff_two_pi_dvd_sub] at h
  obtain ⟨k, hk⟩ := h
  refine ⟨-k, ?_⟩
  push_cast
  linarith

/-- **C65** For finite (pseudo)rapidities, the distance is the Euclidean one: the difference in
(pseudo)rapidity and an angle `a ∈ (-π, π]` with `φ₁ ≡ φ₂ + a`. -/
theorem C65_value (y1 y2 : ℝ) (w1 w2 : ℂ) :
    ∃ a, deltaRCell (.fin y1) (.fin y2) w1 w2 = .fin (sqrt ((y1 - y2) ^ 2 + a ^ 2)) ∧
      -π < a ∧ a ≤ π ∧ (w1 ≠ 0 → w2 ≠ 0 → AngleEq w1.arg (w2.arg + a)) := by
  refine ⟨_, rfl, Complex.neg_pi_lt_arg _, Complex.arg_le_pi _, arg_mul_conj_angleEq⟩

/-- **C65** The distance for every kind of (pseudo)rapidity.  One angle `a` of the two transverse momenta counts
(zero if these are equal): finite (pseudo)rapidities give the Euclidean distance; a nan, or twice the same
infinity, counts as no difference, so the distance is `|a|`; in all other cases it is `+inf`. -/
theorem C65_cell (w1 w2 : ℂ) :
    ∃ a, -π < a ∧ a ≤ π ∧ (w1 ≠ 0 → w2 ≠ 0 → AngleEq w1.arg (w2.arg + a)) ∧ (w1 = w2 → a = 0) ∧
      ∀ r1 r2 : Fl,
        (∀ y1 y2 : ℝ, r1 = .fin y1 → r2 = .fin y2 →
          deltaRCell r1 r2 w1 w2 = .fin (sqrt ((y1 - y2) ^ 2 + a ^ 2))) ∧
        (r1 = .nan ∨ r2 = .nan ∨ (r1 = .pinf ∧ r2 = .pinf) ∨ (r1 = .ninf ∧ r2 = .ninf) →
          deltaRCell r1 r2 w1 w2 = .fin |a|) ∧
        (r1 ≠ .nan → r2 ≠ .nan → r1 ≠ r2 → (r1 = .pinf ∨ r1 = .ninf ∨ r2 = .pinf ∨ r2 = .ninf) →
          deltaRCell r1 r2 w1 w2 = .pinf) := by
  refine ⟨(w1 * (starRingEnd ℂ) w2).arg, Complex.neg_pi_lt_arg _, Complex.arg_le_pi _, ?_, ?_, ?_⟩
  · exact arg_mul_conj_angleEq
  · rintro rfl; exact arg_mul_conj_self w1
  · intro r1 r2
    have hs : ∀ d : ℝ, sqrt (0 ^ 2 + d ^ 2) = |d| := by
      intro d; rw [show (0 : ℝ) ^ 2 + d ^ 2 = d ^ 2 by ring, sqrt_sq_eq_abs]
    refine ⟨?_, ?_, ?_⟩
    · rintro y1 y2 rfl rfl; rfl
    · rintro (rfl | rfl | ⟨rfl, rfl⟩ | ⟨rfl, rfl⟩)
      · cases r2 <;> simp [deltaRCell, Fl.sub, hypotFl, hs, sqrt_sq_eq_abs]
      · cases r1 <;> simp [deltaRCell, Fl.sub, hypotFl, hs, sqrt_sq_eq_abs]
      · simp [deltaRCell, Fl.sub, hypotFl, hs, sqrt_sq_eq_abs]
      · simp [deltaRCell, Fl.sub, hypotFl, hs, sqrt_sq_eq_abs]
    · intro n1 n2 hne h
      cases r1 <;> cases r2 <;> simp_all [deltaRCell, Fl.sub, hypotFl]

/-- **C65** Symmetry. -/
theorem C65_symm (r1 r2 : Fl) (w1 w2 : ℂ) : deltaRCell r1 r2 w1 w2 = deltaRCell r2 r1 w2 w1 := by
  have h := abs_arg_mul_conj_comm w1 w2
  have hsq : (w1 * (starRingEnd ℂ) w2).arg ^ 2 = (w2 * (starRingEnd ℂ) w1).arg ^ 2 := by
    rw [← sq_abs, h, sq_abs]
  unfold deltaRCell
  cases r1 <;> cases r2 <;> simp [Fl.sub, hypotFl, hsq]
  ring_nf

/-- **C65** Zero between equal momenta. -/
theorem C65_self (r : Fl) (w : ℂ) : deltaRCell r r w w = .fin 0 := by
  unfold deltaRCell
  rw [arg_mul_conj_self]
  cases r <;> simp [Fl.sub, hypotFl]

/-- **C65** At equal finite (pseudo)rapidity the distance is at most `π`. -/
theorem C65_azimuth (y : ℝ) (w1 w2 : ℂ) :
    ∃ x, deltaRCell (.fin y) (.fin y) w1 w2 = .fin x ∧ 0 ≤ x ∧ x ≤ π := by
  refine ⟨_, rfl, sqrt_nonneg _, ?_⟩
  rw [sub_self]
  simp only [ne_eq, OfNat.ofNat_ne_zero, not_false_eq_true, zero_pow, zero_add]
  rw [sqrt_sq_eq_abs]
  exact Complex.abs_arg_le_pi _

/-- **C65** The triangle inequality, for (pseudo)rapidities that are not nan and nonzero transverse
momenta. -/
theorem C65_triangle (r1 r2 r3 : Fl) (w1 w2 w3 : ℂ) (h1 : w1 ≠ 0) (h2 : w2 ≠ 0) (h3 : w3 ≠ 0)
    (n1 : r1 ≠ .nan) (n2 : r2 ≠ .nan) (n3 : r3 ≠ .nan) :
    FlLe (deltaRCell r1 r3 w1 w3) (flAdd (deltaRCell r1 r2 w1 w2) (deltaRCell r2 r3 w2 w3)) := by
  have ht := dphi_triangle h1 h2 h3
  unfold deltaRCell
  cases r1 <;> cases r2 <;> cases r3 <;> simp [Fl.sub, hypotFl, flAdd, FlLe] at n1 n2 n3 ⊢
  · next a b c =>
    refine hypot_triangle ?_ ht
    have := abs_sub_le a b c; exact this
  · rw [sqrt_sq_eq_abs, sqrt_sq_eq_abs, sqrt_sq_eq_abs]; exact ht
  · rw [sqrt_sq_eq_abs, sqrt_sq_eq_abs, sqrt_sq_eq_abs]; exact ht

/-- **C65** A common azimuthal rotation changes no distance; nor does a common boost when true rapidities
are used (both particles forward timelike, before and after, beyond the tolerance). -/
theorem C65_invariant {tol : ℝ} (ht : 0 ≤ tol) (s : ℝ) (p q : P4) :
    (deltaRCell (p.shiftPhi s).eta (q.shiftPhi s).eta (p.shiftPhi s).xyPol (q.shiftPhi s).xyPol =
      deltaRCell p.eta q.eta p.xyPol q.xyPol) ∧
    (deltaRCell ((p.shiftPhi s).rapidity tol) ((q.shiftPhi s).rapidity tol) (p.shiftPhi s).xyPol
        (q.shiftPhi s).xyPol = deltaRCell (p.rapidity tol) (q.rapidity tol) p.xyPol q.xyPol) ∧
    (tol < p.e - |p.z| → tol < (p.shiftRapidity s).e - |(p.shiftRapidity s).z| →
      tol < q.e - |q.z| → tol < (q.shiftRapidity s).e - |(q.shiftRapidity s).z| →
      deltaRCell ((p.shiftRapidity s).rapidity tol) ((q.shiftRapidity s).rapidity tol)
        (p.shiftRapidity s).xyPol (q.shiftRapidity s).xyPol =
      deltaRCell (p.rapidity tol) (q.rapidity tol) p.xyPol q.xyPol) := by
  have heta : ∀ p : P4, (p.shiftPhi s).eta = p.eta := by
    intro p
    obtain ⟨h1, h2, h3, h4⟩ := shiftPhi_xy s p
    have hm : (p.shiftPhi s).spatialMag = p.spatialMag := by
      rw [spatialMag_eq, spatialMag_eq]
      unfold p3sq
      rw [h1, h2, h3]
      congr 1
      linear_combination (p.x ^ 2 + p.y ^ 2) * sin_sq_add_cos_sq s
    unfold P4.eta
    rw [hm, h3]
  refine ⟨?_, ?_, fun a1 a2 a3 a4 => ?_⟩
  · unfold deltaRCell; rw [heta, heta, C62_difference]
  · unfold deltaRCell; rw [C62_difference]; rfl
  · obtain ⟨y, e1, e2⟩ := C61_rapidity ht s p a1 a2
    obtain ⟨y', f1, f2⟩ := C61_rapidity ht s q a3 a4
    rw [e1, e2, f1, f2]
    unfold deltaRCell
    have hx : ∀ p : P4, (p.shiftRapidity s).xyPol = p.xyPol := fun p => rfl
    rw [hx, hx]
    simp [Fl.sub]

-- non-vacuity of the triangle inequality's hypotheses, with an infinite pseudorapidity
example : (Fl.pinf ≠ .nan) ∧ ((⟨1, 2⟩ : ℂ) ≠ 0) := by
  refine ⟨by simp, fun h => ?_⟩
  have := congrArg Complex.re h
  simp at this

/-! ## C66 -/

theorem interleave_perm {its : List (List Write)} {tr : List Write} (h : Interleave its tr) :
    tr.Perm its.flatten := by
  induction h with
  | done its h =>
    have : its.flatten = [] := List.flatten_eq_nil_iff.2 h
    rw [this]
  | step pre post w t tr _ ih =>
    simp only [List.flatten_append, List.flatten_cons, List.cons_append] at ih ⊢
    exact (ih.cons w).trans List.perm_middle.symm

theorem runWrites_notMem {ws : List Write} : ∀ (mem : Nat × Nat → Fl) (c : Nat × Nat),
    (∀ v, (c, v) ∉ ws) → runWrites mem ws c = mem c := by
  induction ws with
  | nil => intro mem c _; rfl
  | cons w ws ih =>
    intro mem c h
    rw [runWrites, ih _ c (fun v hv => h v (List.mem_cons_of_mem _ hv))]
    have : c ≠ w.1 := by rintro rfl; exact h w.2 (by simp)
    simp [this]

theorem runWrites_mem {ws : List Write} : ∀ (mem : Nat × Nat → Fl) (c : Nat × Nat) (v : Fl),
    (ws.map Prod.fst).Nodup → (c, v) ∈ ws → runWrites mem ws c = v := by
  induction ws with
  | nil => intro mem c v _ h; simp at h
  | cons w ws ih =>
    intro mem c v hnd h
    simp only [List.map_cons, List.nodup_cons] at hnd
    rw [runWrites]
    rcases List.mem_cons.1 h with h | h
    · subst h
      rw [runWrites_notMem]
      · simp
      · intro v' hv'; exact hnd.1 (List.mem_map.2 ⟨_, hv', rfl⟩)
    · exact ih _ c v hnd.2 h

private theorem mem_general (c1 c2 : Cloud) (i : Nat) (cell : Nat × Nat) (v : Fl) :
    (cell, v) ∈ generalIter c1 c2 i ↔ cell.1 = i ∧ ∃ p q, c1[i]? = some p ∧ c2[cell.2]? = some q ∧
      v = deltaRCell p.1 q.1 p.2 q.2 := by
  unfold generalIter
  cases h : c1[i]? with
  | none => simp
  | some p =>
    obtain ⟨a, b⟩ := cell
    simp only [List.mem_map, Prod.mk.injEq]
    constructor
    · rintro ⟨⟨q, j⟩, hq, ⟨rfl, rfl⟩, rfl⟩
      rw [List.mem_zipIdx_iff_getElem?] at hq
      exact ⟨rfl, p, q, rfl, hq, rfl⟩
    · rintro ⟨rfl, p', q, hp, hq, rfl⟩
      cases hp
      exact ⟨(q, b), by rw [List.mem_zipIdx_iff_getElem?]; exact hq, ⟨rfl, rfl⟩, rfl⟩

private theorem mem_symmetric (c : Cloud) (i : Nat) (cell : Nat × Nat) (v : Fl) :
    (cell, v) ∈ symmetricIter c i ↔ ∃ p, c[i]? = some p ∧
      ((cell = (i, i) ∧ v = .fin 0) ∨ ∃ j q, i < j ∧ c[j]? = some q ∧
        (cell = (i, j) ∨ cell = (j, i)) ∧ v = deltaRCell p.1 q.1 p.2 q.2) := by
  unfold symmetricIter
  cases h : c[i]? with
  | none => simp
  | some p =>
    have hmem : ∀ (q : Fl × ℂ) (j : Nat), (q, j) ∈ c.zipIdx.drop (i + 1) ↔ (i < j ∧ c[j]? = some q) := by
      intro q j
      rw [List.mem_drop_iff_getElem]
      constructor
      · rintro ⟨k, hk, he⟩
        simp only [List.getElem_zipIdx, Nat.zero_add, Prod.mk.injEq] at he
        obtain ⟨rfl, rfl⟩ := he
        exact ⟨by omega, by simp⟩
      · rintro ⟨hij, hq⟩
        obtain ⟨hj, rfl⟩ := List.getElem?_eq_some_iff.1 hq
        exact ⟨j - (i + 1), by simp; omega, by simp; constructor <;> [congr 1; skip] <;> omega⟩
    simp only [List.mem_cons, List.mem_flatMap, Prod.mk.injEq, List.not_mem_nil, or_false]
    constructor
    · rintro (⟨h1, h2⟩ | ⟨⟨q, j⟩, hq, hw⟩)
      · exact ⟨p, rfl, Or.inl ⟨h1, h2⟩⟩
      · obtain ⟨g1, g2⟩ := (hmem q j).1 hq
        rcases hw with ⟨h1, h2⟩ | ⟨h1, h2⟩
        · exact ⟨p, rfl, Or.inr ⟨j, q, g1, g2, Or.inl h1, h2⟩⟩
        · exact ⟨p, rfl, Or.inr ⟨j, q, g1, g2, Or.inr h1, h2⟩⟩
    · rintro ⟨p', hp, h | ⟨j, q, g1, g2, hc, hv⟩⟩
      · exact Or.inl h
      · cases hp
        refine Or.inr ⟨(q, j), (hmem q j).2 ⟨g1, g2⟩, ?_⟩
        rcases hc with hc | hc
        · exact Or.inl ⟨hc, hv⟩
        · exact Or.inr ⟨hc, hv⟩

private theorem zipIdx_snd_nodup {α : Type} (l : List α) : (l.zipIdx.map Prod.snd).Nodup := by
  have h : l.zipIdx.map Prod.snd = List.range' 0 l.length := List.zipIdx_map_snd 0 l
  rw [h]
  exact List.nodup_range'

private theorem general_nodup (c1 c2 : Cloud) (i : Nat) :
    ((generalIter c1 c2 i).map Prod.fst).Nodup := by
  unfold generalIter
  cases c1[i]? with
  | none => simp
  | some p =>
    simp only [List.map_map]
    have h := zipIdx_snd_nodup c2
    have h2 : (((c2.zipIdx.map Prod.snd).map (fun j => (i, j)))).Nodup :=
      h.map (fun a b hab => by simpa using hab)
    rw [List.map_map] at h2
    exact h2

private theorem symmetric_nodup (c : Cloud) (i : Nat) :
    ((symmetricIter c i).map Prod.fst).Nodup := by
  unfold symmetricIter
  cases c[i]? with
  | none => simp
  | some p =>
    have hgt : ∀ q ∈ c.zipIdx.drop (i + 1), i < q.2 := by
      intro q hq
      obtain ⟨k, hk, he⟩ := List.mem_drop_iff_getElem.1 hq
      rw [← he]; simp; omega
    have hnd : ((c.zipIdx.drop (i + 1)).map Prod.snd).Nodup := by
      rw [List.map_drop]; exact (zipIdx_snd_nodup c).sublist (List.drop_sublist _ _)
    generalize c.zipIdx.drop (i + 1) = l at hgt hnd
    simp only [List.map_cons, List.map_flatMap, List.map_nil]
    rw [List.nodup_cons]
    constructor
    · intro h
      obtain ⟨q, hq, hm⟩ := List.mem_flatMap.1 h
      have := hgt q hq
      simp at hm
      omega
    · rw [List.nodup_flatMap]
      constructor
      · intro q hq
        have := hgt q hq
        simp; omega
      · have hp : l.Pairwise (fun a b => a.2 ≠ b.2) := List.pairwise_map.1 hnd
        have hp2 : l.Pairwise (fun a b => a.2 ≠ b.2 ∧ i < a.2 ∧ i < b.2) := by
          rw [List.pairwise_iff_getElem] at hp ⊢
          intro a b ha hb hab
          exact ⟨hp a b ha hb hab, hgt _ (List.getElem_mem _), hgt _ (List.getElem_mem _)⟩
        refine hp2.imp ?_
        rintro a b ⟨h1, h2, h3⟩
        simp only [Function.onFun]
        rw [List.disjoint_left]
        intro cell hc hc'
        simp at hc hc'
        rcases hc with rfl | rfl <;> simp at hc' <;> omega

private theorem loop_nodup (f : Nat → List Write) (n : Nat) (h1 : ∀ i, ((f i).map Prod.fst).Nodup)
    (key : Nat × Nat → Nat) (h2 : ∀ i, ∀ w ∈ f i, key w.1 = i) :
    ((((List.range n).map f).flatten).map Prod.fst).Nodup := by
  rw [List.map_flatten, List.map_map, List.nodup_flatten]
  constructor
  · intro l hl
    obtain ⟨i, _, rfl⟩ := List.mem_map.1 hl
    exact h1 i
  · rw [List.pairwise_map]
    refine (List.nodup_range (n := n)).imp ?_
    intro a b hab
    rw [List.disjoint_left]
    intro c hc hc'
    obtain ⟨w, hw, rfl⟩ := List.mem_map.1 hc
    obtain ⟨w', hw', he⟩ := List.mem_map.1 hc'
    exact hab (by rw [← h2 a w hw, ← h2 b w' hw', he])

/-- **C66** For every interleaving of the iterations of the parallel loop, and whatever the uninitialised
memory contained: no cell is written twice, the cells written are exactly those of the matrix, and cell
`(i, j)` ends up with the distance between particle `i` of the first and particle `j` of the second set.
With `same = true` (the symmetric routine) the second set is the first. -/
theorem C66_schedule (same : Bool) (c1 c2 : Cloud) (hsame : same = true → c2 = c1) (tr : List Write)
    (h : Interleave (deltaRLoop same c1 c2) tr) (mem : Nat × Nat → Fl) :
    (tr.map Prod.fst).Nodup ∧
    (∀ i j : Nat, (i, j) ∈ tr.map Prod.fst ↔ (i < c1.length ∧ j < c2.length)) ∧
    (∀ (i j : Nat) (p q : Fl × ℂ), c1[i]? = some p → c2[j]? = some q →
      runWrites mem tr (i, j) = deltaRCell p.1 q.1 p.2 q.2) ∧
    (∀ i j : Nat, ¬ (i < c1.length ∧ j < c2.length) → runWrites mem tr (i, j) = mem (i, j)) := by
  have hperm := interleave_perm h
  -- it is enough to know the writes up to order
  have main : ((deltaRLoop same c1 c2).flatten.map Prod.fst).Nodup ∧
      ∀ (i j : Nat) (v : Fl), ((i, j), v) ∈ (deltaRLoop same c1 c2).flatten ↔
        ∃ p q, c1[i]? = some p ∧ c2[j]? = some q ∧ v = deltaRCell p.1 q.1 p.2 q.2 := by
    unfold deltaRLoop
    cases same with
    | false =>
      refine ⟨loop_nodup _ _ (general_nodup c1 c2) Prod.fst
        (fun i w hw => ((mem_general c1 c2 i w.1 w.2).1 hw).1), fun i j v => ?_⟩
      simp only [Bool.false_eq_true, if_false, List.mem_flatten, List.mem_map, List.mem_range]
      constructor
      · rintro ⟨_, ⟨a, ha, rfl⟩, hm⟩
        obtain ⟨h1, p, q, h2, h3, h4⟩ := (mem_general c1 c2 a (i, j) v).1 hm
        simp only at h1; subst h1
        exact ⟨p, q, h2, h3, h4⟩
      · rintro ⟨p, q, h1, h2, h3⟩
        obtain ⟨hi, _⟩ := List.getElem?_eq_some_iff.1 h1
        exact ⟨_, ⟨i, hi, rfl⟩, (mem_general c1 c2 i (i, j) v).2 ⟨rfl, p, q, h1, h2, h3⟩⟩
    | true =>
      obtain rfl := hsame rfl
      refine ⟨loop_nodup _ _ (symmetric_nodup c2) (fun c => min c.1 c.2) (fun i w hw => ?_),
        fun i j v => ?_⟩
      · obtain ⟨p, _, ⟨h1, _⟩ | ⟨j, q, hij, _, h1 | h1, _⟩⟩ := (mem_symmetric c2 i w.1 w.2).1 hw <;>
          simp only [h1] <;> omega
      · simp only [if_true, List.mem_flatten, List.mem_map, List.mem_range]
        constructor
        · rintro ⟨_, ⟨a, ha, rfl⟩, hm⟩
          obtain ⟨p, hp, ⟨h1, h2⟩ | ⟨b, q, hab, hq, h1 | h1, h2⟩⟩ := (mem_symmetric c2 a (i, j) v).1 hm
          · simp at h1
            obtain ⟨rfl, rfl⟩ := h1
            exact ⟨p, p, hp, hp, by rw [h2, C65_self]⟩
          · simp at h1
            obtain ⟨rfl, rfl⟩ := h1
            exact ⟨p, q, hp, hq, h2⟩
          · simp at h1
            obtain ⟨rfl, rfl⟩ := h1
            exact ⟨q, p, hq, hp, by rw [h2, C65_symm]⟩
        · rintro ⟨p, q, h1, h2, h3⟩
          obtain ⟨hi, _⟩ := List.getElem?_eq_some_iff.1 h1
          obtain ⟨hj, _⟩ := List.getElem?_eq_some_iff.1 h2
          rcases Nat.lt_trichotomy i j with hlt | rfl | hgt
          · exact ⟨_, ⟨i, hi, rfl⟩, (mem_symmetric c2 i (i, j) v).2
              ⟨p, h1, Or.inr ⟨j, q, hlt, h2, Or.inl rfl, h3⟩⟩⟩
          · rw [h1] at h2; cases h2
            exact ⟨_, ⟨i, hi, rfl⟩, (mem_symmetric c2 i (i, i) v).2
              ⟨p, h1, Or.inl ⟨rfl, by rw [h3, C65_self]⟩⟩⟩
          · exact ⟨_, ⟨j, hj, rfl⟩, (mem_symmetric c2 j (i, j) v).2
              ⟨q, h2, Or.inr ⟨i, p, hgt, h1, Or.inr rfl, by rw [h3, C65_symm]⟩⟩⟩
  obtain ⟨m1, m2⟩ := main
  have hnd : (tr.map Prod.fst).Nodup := (hperm.map Prod.fst).nodup_iff.2 m1
  have hcells : ∀ i j : Nat, (i, j) ∈ tr.map Prod.fst ↔ (i < c1.length ∧ j < c2.length) := by
    intro i j
    rw [(hperm.map Prod.fst).mem_iff, List.mem_map]
    constructor
    · rintro ⟨⟨⟨a, b⟩, v⟩, hm, he⟩
      simp only [Prod.mk.injEq] at he
      obtain ⟨rfl, rfl⟩ := he
      obtain ⟨p, q, h1, h2, _⟩ := (m2 a b v).1 hm
      exact ⟨(List.getElem?_eq_some_iff.1 h1).1, (List.getElem?_eq_some_iff.1 h2).1⟩
    · rintro ⟨hi, hj⟩
      exact ⟨_, (m2 i j _).2 ⟨c1[i], c2[j], by simp, by simp, rfl⟩, rfl⟩
  refine ⟨hnd, hcells, fun i j p q h1 h2 => ?_, fun i j hn => ?_⟩
  · exact runWrites_mem mem (i, j) _ hnd (hperm.mem_iff.2 ((m2 i j _).2 ⟨p, q, h1, h2, rfl⟩))
  · apply runWrites_notMem
    intro v hv
    exact hn ((hcells i j).1 (List.mem_map.2 ⟨_, hv, rfl⟩))

/-- **C66** Hence any two schedules agree, with each other and between the symmetric routine
(`delta_R(p, p)`) and the general one (`delta_R(p, p.copy())`), on every cell of the matrix. -/
theorem C66_agree (c : Cloud) (same same' : Bool) (tr tr' : List Write)
    (h : Interleave (deltaRLoop same c c) tr) (h' : Interleave (deltaRLoop same' c c) tr')
    (mem mem' : Nat × Nat → Fl) (i j : Nat) (hi : i < c.length) (hj : j < c.length) :
    runWrites mem tr (i, j) = runWrites mem' tr' (i, j) := by
  rw [(C66_schedule same c c (fun _ => rfl) tr h mem).2.2.1 i j c[i] c[j] (by simp) (by simp),
    (C66_schedule same' c c (fun _ => rfl) tr' h' mem').2.2.1 i j c[i] c[j] (by simp) (by simp)]

/-- The transpose clause of **C65** for the matrices: `delta_R(a, b)[i, j] = delta_R(b, a)[j, i]`. -/
theorem C65_transpose (c1 c2 : Cloud) (tr tr' : List Write)
    (h : Interleave (deltaRLoop false c1 c2) tr) (h' : Interleave (deltaRLoop false c2 c1) tr')
    (mem mem' : Nat × Nat → Fl) (i j : Nat) (hi : i < c1.length) (hj : j < c2.length) :
    runWrites mem tr (i, j) = runWrites mem' tr' (j, i) := by
  rw [(C66_schedule false c1 c2 (by simp) tr h mem).2.2.1 i j c1[i] c2[j] (by simp) (by simp),
    (C66_schedule false c2 c1 (by simp) tr' h' mem').2.2.1 j i c2[j] c1[i] (by simp) (by simp), C65_symm]

/-- Every loop has a schedule (the serial one), so the theorems above are not vacuous. -/
theorem interleave_serial (its : List (List Write)) : Interleave its its.flatten := by
  have aux : ∀ (its pre : List (List Write)), (∀ t ∈ pre, t = []) → Interleave (pre ++ its) its.flatten := by
    intro its
    induction its with
    | nil => intro pre h; exact .done _ (by simpa using h)
    | cons t its ih =>
      intro pre h
      induction t with
      | nil =>
        have := ih (pre ++ [[]]) (by
          intro t ht
          rcases List.mem_append.1 ht with h1 | h1
          · exact h t h1
          · simpa using h1)
        simpa using this
      | cons w t iht =>
        simp only [List.flatten_cons, List.cons_append] at iht ⊢
        exact .step pre its w t _ iht
  simpa using aux its [] (by simp)

example (c : Cloud) : ∃ tr, Interleave (deltaRLoop true c c) tr := ⟨_, interleave_serial _⟩

end Gcl
