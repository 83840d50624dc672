import Verif.Props.Extremes
import Verif.Props.Kinematics
import Verif.Spec.Drift
/-! # C167: how much event shapes and masses change when the event drifts -/
namespace Gcl
set_option autoImplicit false
open Spec Real

/-- What moves by no more than `L` times the size of the difference moves, summed over the event, by no more than
`L` times the drift. -/
theorem drift_sum {V : Type} [NormedAddCommGroup V] (f : P4 → V) (size : P4 → ℝ) {L : ℝ}
    (hz : ∀ p, ‖f p‖ ≤ L * size p) (hf : ∀ p q, ‖f q - f p‖ ≤ L * size (pdiff p q)) (hL : 0 ≤ L)
    {D : ℝ} {ps qs : List P4} (h : Drift size D ps qs) : ‖(qs.map f).sum - (ps.map f).sum‖ ≤ L * D := by
  obtain ⟨kept, moved, lost, new, h1, h2, hlen, hD⟩ := h
  have hs : ∀ l : List P4, ‖(l.map f).sum‖ ≤ L * sumOf size l := by
    intro l
    induction l with
    | nil => simp [sumOf]
    | cons p l ih =>
      rw [sumOf_cons, List.map_cons, List.sum_cons, mul_add]
      exact (norm_add_le _ _).trans (add_le_add (hz p) ih)
  have hm : ∀ (k m : List P4), k.length = m.length → ‖(m.map f).sum - (k.map f).sum‖ ≤
      L * (List.zipWith (fun p q => size (pdiff p q)) k m).sum := by
    intro k
    induction k with
    | nil =>
      intro m hm
      rw [List.length_nil, eq_comm, List.length_eq_zero_iff] at hm
      simp [hm]
    | cons p k ih =>
      intro m hm
      cases m with
      | nil => simp at hm
      | cons q m =>
        rw [List.zipWith_cons_cons, List.sum_cons, mul_add, List.map_cons, List.map_cons, List.sum_cons, List.sum_cons,
          add_sub_add_comm]
        exact (norm_add_le _ _).trans (add_le_add (hf p q) (ih m (by simpa using hm)))
  rw [(h1.map f).sum_eq, (h2.map f).sum_eq, List.map_append, List.map_append, List.sum_append, List.sum_append,
    show (moved.map f).sum + (new.map f).sum - ((kept.map f).sum + (lost.map f).sum) =
      ((moved.map f).sum - (kept.map f).sum) + (-(lost.map f).sum + (new.map f).sum) by abel]
  calc _ ≤ ‖(moved.map f).sum - (kept.map f).sum‖ + (‖-(lost.map f).sum‖ + ‖(new.map f).sum‖) :=
        (norm_add_le _ _).trans (by gcongr; exact norm_add_le _ _)
    _ ≤ L * (List.zipWith (fun p q => size (pdiff p q)) kept moved).sum + (L * sumOf size lost + L * sumOf size new) := by
        rw [norm_neg]
        exact add_le_add (hm _ _ hlen) (add_le_add (hs _) (hs _))
    _ = L * ((List.zipWith (fun p q => size (pdiff p q)) kept moved).sum + sumOf size lost + sumOf size new) := by ring
    _ ≤ L * D := by gcongr

/-- The same for numbers. -/
theorem drift_sumOf (f : P4 → ℝ) (size : P4 → ℝ) {L : ℝ} (hz : ∀ p, |f p| ≤ L * size p)
    (hf : ∀ p q, |f q - f p| ≤ L * size (pdiff p q)) (hL : 0 ≤ L)
    {D : ℝ} {ps qs : List P4} (h : Drift size D ps qs) : |sumOf f qs - sumOf f ps| ≤ L * D :=
  drift_sum f size hz hf hL h

theorem momVec_pdiff (p q : P4) : momVec (pdiff p q) = momVec q - momVec p := by
  refine (WithLp.ofLp_injective 2) (Prod.ext ?_ ?_)
  · exact Complex.ext rfl rfl
  · rfl

theorem norm3_drift {D : ℝ} {ps qs : List P4} (h : Drift norm3 D ps qs) : |sumOf norm3 qs - sumOf norm3 ps| ≤ D := by
  have := drift_sumOf norm3 norm3 (L := 1) (fun p => by rw [abs_of_nonneg (norm3_nonneg p), one_mul])
    (fun p q => by
      rw [one_mul, ← norm_momVec p, ← norm_momVec q, ← norm_momVec (pdiff p q), momVec_pdiff]
      exact abs_norm_sub_norm_le _ _) zero_le_one h
  rwa [one_mul] at this

theorem along_drift {n : ℝ × ℝ × ℝ} (hn : UnitVec n) {D : ℝ} {ps qs : List P4} (h : Drift norm3 D ps qs) :
    |sumOf (fun p => |alongN n p|) qs - sumOf (fun p => |alongN n p|) ps| ≤ D := by
  have := drift_sumOf (fun p => |alongN n p|) norm3 (L := 1) (fun p => by rw [abs_abs, one_mul]; exact along_le hn p)
    (fun p q => by
      rw [one_mul]
      refine (abs_abs_sub_abs_le _ _).trans (le_trans (le_of_eq ?_) (along_le hn (pdiff p q)))
      simp only [alongN, pdiff]
      congr 1
      ring) zero_le_one h
  rwa [one_mul] at this

/-- The cross product with `n`. -/
noncomputable def crossP (n : ℝ × ℝ × ℝ) (p : P4) : P4 :=
  ⟨p.y * n.2.2 - p.z * n.2.1, p.z * n.1 - p.x * n.2.2, p.x * n.2.1 - p.y * n.1, 0⟩

theorem across_drift {n : ℝ × ℝ × ℝ} (hn : UnitVec n) {D : ℝ} {ps qs : List P4} (h : Drift norm3 D ps qs) :
    |sumOf (acrossN n) qs - sumOf (acrossN n) ps| ≤ D := by
  have hcr : ∀ p, acrossN n p = ‖momVec (crossP n p)‖ := fun p => by rw [norm_momVec]; rfl
  have := drift_sumOf (acrossN n) norm3 (L := 1)
    (fun p => by rw [abs_of_nonneg (across_nonneg n p), one_mul]; exact across_le hn p)
    (fun p q => by
      rw [one_mul, hcr, hcr]
      refine (abs_norm_sub_norm_le _ _).trans (le_trans (le_of_eq ?_) (across_le hn (pdiff p q)))
      rw [← momVec_pdiff, norm_momVec, acrossN, norm3]
      simp only [crossP, pdiff]
      congr 1
      ring) zero_le_one h
  rwa [one_mul] at this

/-- A quotient of two sums that both drift by no more than `K` and `D`. -/
theorem ratio_drift {a b a' b' K D : ℝ} (hb : 0 < b) (hb' : 0 < b') (ha' : 0 ≤ a') (hle : a' ≤ b')
    (h1 : |a' - a| ≤ K) (h2 : |b' - b| ≤ D) : |a' / b' - a / b| ≤ (K + D) / b := by
  have e : a' / b' - a / b = (a' - a) / b - (a' / b') * ((b' - b) / b) := by field_simp; ring
  rw [e]
  calc _ ≤ |(a' - a) / b| + |(a' / b') * ((b' - b) / b)| := abs_sub _ _
    _ = |a' - a| / b + (a' / b') * (|b' - b| / b) := by
      rw [abs_mul, abs_div (a' - a), abs_div (b' - b), abs_of_pos hb, abs_of_nonneg (div_nonneg ha' hb'.le)]
    _ ≤ K / b + 1 * (D / b) := by
      gcongr
      exact (div_le_one hb').2 hle
    _ = _ := by ring

/-- **C167** Thrust and spherocity along every axis, and the C-parameter, of an event that drifted: thrust changes by no more than `2 D / Σ|p|`,
spherocity by no more than `(4/π)² · 4 D / Σ|p|`, where `D` is the drift. -/
theorem C167_axis {D : ℝ} {ps qs : List P4} (h : Drift norm3 D ps qs) (hp : ps ≠ []) (hpm : ∀ p ∈ ps, Moving p)
    (hq : qs ≠ []) (hqm : ∀ q ∈ qs, Moving q) (n : ℝ × ℝ × ℝ) (hn : UnitVec n) :
    |thrustAlong qs n - thrustAlong ps n| ≤ 2 * D / sumOf norm3 ps ∧
    |spherocityAlong qs n - spherocityAlong ps n| ≤ (4 / π) ^ 2 * (4 * D / sumOf norm3 ps) := by
  have hb := sumOf_norm_pos hp hpm
  have hb' := sumOf_norm_pos hq hqm
  have hN := norm3_drift h
  constructor
  · have := ratio_drift hb hb' (sumOf_nonneg (fun p => abs_nonneg _) qs) (sumOf_le (along_le hn) qs) (along_drift hn h) hN
    rw [← two_mul] at this
    exact this
  · have hr := ratio_drift hb hb' (sumOf_nonneg (across_nonneg n) qs) (sumOf_le (across_le hn) qs) (across_drift hn h) hN
    have hC : ∀ l, spherocityAlong l n = (4 / π) ^ 2 * (sumOf (acrossN n) l / sumOf norm3 l) ^ 2 := by
      intro l
      change (4 / π * sumOf (acrossN n) l / sumOf norm3 l) ^ 2 = _
      ring
    have h1 : ∀ l, 0 < sumOf norm3 l → 0 ≤ sumOf (acrossN n) l / sumOf norm3 l ∧ sumOf (acrossN n) l / sumOf norm3 l ≤ 1 :=
      fun l hl => ⟨div_nonneg (sumOf_nonneg (across_nonneg n) l) hl.le, (div_le_one hl).2 (sumOf_le (across_le hn) l)⟩
    obtain ⟨p0, p1⟩ := h1 ps hb
    obtain ⟨q0, q1⟩ := h1 qs hb'
    rw [hC, hC, ← mul_sub, abs_mul, abs_of_nonneg (by positivity : (0 : ℝ) ≤ (4 / π) ^ 2), sq_sub_sq, abs_mul]
    gcongr
    have hs : |sumOf (acrossN n) qs / sumOf norm3 qs + sumOf (acrossN n) ps / sumOf norm3 ps| ≤ 2 := by
      rw [abs_of_nonneg (add_nonneg q0 p0)]; linarith
    calc _ ≤ 2 * ((D + D) / sumOf norm3 ps) := mul_le_mul hs hr (abs_nonneg _) (by norm_num)
      _ = _ := by ring

/-- `p pᵀ / |p|`. -/
noncomputable def tens (p : P4) : EuclideanSpace ℝ (Fin 3 × Fin 3) :=
  WithLp.toLp 2 (fun i => ![p.x, p.y, p.z] i.1 * ![p.x, p.y, p.z] i.2 / norm3 p)

theorem inner_tens (p q : P4) : inner ℝ (tens p) (tens q) = dot3 p q ^ 2 / (norm3 p * norm3 q) := by
  rw [PiLp.inner_apply, Fintype.sum_prod_type]
  simp only [Fin.sum_univ_three, tens]
  simp
  unfold dot3
  ring

theorem norm_tens (p : P4) : ‖tens p‖ = norm3 p := by
  have h := real_inner_self_eq_norm_sq (tens p)
  rw [inner_tens, show dot3 p p = norm3 p ^ 2 by rw [norm3_sq]; unfold dot3; ring] at h
  rcases eq_or_ne (norm3 p) 0 with h0 | h0
  · rw [h0] at h ⊢
    simpa using h.symm
  · have e : (norm3 p ^ 2) ^ 2 / (norm3 p * norm3 p) = norm3 p ^ 2 := by field_simp
    rw [e] at h
    exact ((sq_eq_sq₀ (norm3_nonneg p) (norm_nonneg _)).1 h).symm

theorem dot3_abs (p q : P4) : |dot3 p q| ≤ norm3 p * norm3 q := by
  have : dot3 p q = inner ℝ (momVec p) (momVec q) := by
    rw [inner_momVec]; rfl
  rw [this, ← norm_momVec, ← norm_momVec]
  exact abs_real_inner_le_norm _ _

theorem tens_lip (p q : P4) : ‖tens q - tens p‖ ≤ √2 * norm3 (pdiff p q) := by
  apply abs_le_of_sq_le_sq' _ (mul_nonneg (sqrt_nonneg _) (norm3_nonneg _)) |>.2
  rw [mul_pow, sq_sqrt (by norm_num), norm_sub_sq_real, norm_tens, norm_tens, inner_tens]
  have hd : norm3 (pdiff p q) ^ 2 = norm3 p ^ 2 + norm3 q ^ 2 - 2 * dot3 q p := by
    rw [norm3_sq, norm3_sq, norm3_sq]; simp only [pdiff, dot3]; ring
  rw [hd]
  have ha := norm3_nonneg p
  have hb := norm3_nonneg q
  have hcs := dot3_abs q p
  rcases (mul_nonneg hb ha).eq_or_lt with h0 | h0
  · rw [← h0] at hcs ⊢
    have : dot3 q p = 0 := abs_nonpos_iff.1 hcs
    rw [this]
    simp
    nlinarith [sq_nonneg (norm3 p), sq_nonneg (norm3 q)]
  · set m := norm3 q * norm3 p with hm
    have e : dot3 q p ^ 2 / m = 2 * dot3 q p - m + (m - dot3 q p) ^ 2 / m := by field_simp; ring
    have : 0 ≤ (m - dot3 q p) ^ 2 / m := by positivity
    rw [e]
    nlinarith [sq_nonneg (norm3 p - norm3 q)]

theorem cParam_tens (ps : List P4) (hE : 0 < sumOf norm3 ps) :
    cParam ps = 3 / 2 * (1 - (‖(ps.map tens).sum‖ / sumOf norm3 ps) ^ 2) := by
  have hi : ∀ (v : EuclideanSpace ℝ (Fin 3 × Fin 3)) (l : List P4),
      inner ℝ v (l.map tens).sum = sumOf (fun q => inner ℝ v (tens q)) l := by
    intro v l
    induction l with
    | nil => simp [sumOf]
    | cons q l ih => rw [List.map_cons, List.sum_cons, inner_add_right, ih, sumOf_cons]
  have hi' : ∀ (v : EuclideanSpace ℝ (Fin 3 × Fin 3)) (l : List P4),
      inner ℝ (l.map tens).sum v = sumOf (fun q => inner ℝ (tens q) v) l := by
    intro v l
    rw [real_inner_comm, hi]
    exact sumOf_congr (fun q _ => real_inner_comm _ _)
  have hn : ‖(ps.map tens).sum‖ ^ 2 = sumOf (fun p => sumOf (fun q => dot3 p q ^ 2 / (norm3 p * norm3 q)) ps) ps := by
    rw [← real_inner_self_eq_norm_sq, hi']
    refine sumOf_congr (fun p _ => ?_)
    rw [hi]
    exact sumOf_congr (fun q _ => inner_tens p q)
  have hsub : ∀ (f g : P4 → ℝ) (l : List P4), sumOf (fun p => f p - g p) l = sumOf f l - sumOf g l := by
    intro f g l
    induction l with
    | nil => simp [sumOf]
    | cons q l ih => rw [sumOf_cons, sumOf_cons, sumOf_cons, ih]; ring
  have hEE : sumOf (fun p => sumOf (fun q => norm3 p * norm3 q) ps) ps = sumOf norm3 ps ^ 2 := by
    have : (fun p => sumOf (fun q => norm3 p * norm3 q) ps) = fun p => sumOf norm3 ps * norm3 p := by
      funext p; rw [sumOf_mul_left, mul_comm]
    rw [this, sumOf_mul_left, sq]
  unfold cParam
  simp only [hsub]
  rw [hEE, ← hn]
  field_simp

/-- **C167** The C-parameter of an event that drifted by `D` changes by no more than `3 (1 + √2) D / Σ|p|`. -/
theorem C167_c_parameter {D : ℝ} {ps qs : List P4} (h : Drift norm3 D ps qs) {c c' : ℝ} (hp : cParameter ps = .ok c)
    (hq : cParameter qs = .ok c') : |c' - c| ≤ 3 * (1 + √2) * D / sumOf norm3 ps := by
  obtain ⟨hp1, hp2⟩ := (C76_exact 0 0 ps).2.1.1 ⟨c, hp⟩
  obtain ⟨hq1, hq2⟩ := (C76_exact 0 0 qs).2.1.1 ⟨c', hq⟩
  have hb := sumOf_norm_pos hp1 hp2
  have hb' := sumOf_norm_pos hq1 hq2
  have e := (C71_value ps hp1 hp2).1
  have e' := (C71_value qs hq1 hq2).1
  rw [hp] at e; rw [hq] at e'
  injection e with e
  injection e' with e'
  rw [e, e', cParam_tens ps hb, cParam_tens qs hb']
  have hle : ∀ l : List P4, ‖(l.map tens).sum‖ ≤ sumOf norm3 l := by
    intro l
    induction l with
    | nil => simp [sumOf]
    | cons q l ih =>
      rw [List.map_cons, List.sum_cons, sumOf_cons]
      exact (norm_add_le _ _).trans (add_le_add (norm_tens q).le ih)
  have hU : |‖(qs.map tens).sum‖ - ‖(ps.map tens).sum‖| ≤ √2 * D :=
    (abs_norm_sub_norm_le _ _).trans (drift_sum tens norm3 (fun p => by
      rw [norm_tens]
      have : (1 : ℝ) ≤ √2 := by rw [Real.one_le_sqrt]; norm_num
      nlinarith [norm3_nonneg p]) tens_lip (sqrt_nonneg _) h)
  have hr := ratio_drift hb hb' (norm_nonneg _) (hle qs) hU (norm3_drift h)
  have h1 : ∀ l, 0 < sumOf norm3 l → 0 ≤ ‖(l.map tens).sum‖ / sumOf norm3 l ∧ ‖(l.map tens).sum‖ / sumOf norm3 l ≤ 1 :=
    fun l hl => ⟨div_nonneg (norm_nonneg _) hl.le, (div_le_one hl).2 (hle l)⟩
  obtain ⟨p0, p1⟩ := h1 ps hb
  obtain ⟨q0, q1⟩ := h1 qs hb'
  set r := ‖(ps.map tens).sum‖ / sumOf norm3 ps
  set r' := ‖(qs.map tens).sum‖ / sumOf norm3 qs
  have hs : |r' + r| ≤ 2 := by rw [abs_of_nonneg (add_nonneg q0 p0)]; linarith
  rw [show 3 / 2 * (1 - r' ^ 2) - 3 / 2 * (1 - r ^ 2) = -(3 / 2 * ((r' + r) * (r' - r))) by ring, abs_neg, abs_mul, abs_mul,
    abs_of_pos (by norm_num : (0 : ℝ) < 3 / 2)]
  calc _ ≤ 3 / 2 * (2 * ((√2 * D + D) / sumOf norm3 ps)) := by
        gcongr
    _ = _ := by ring

/-- **C167** The thrust of the event: where the searches find the best axes, the values returned for the event and for
the event that drifted differ by no more than `2 D / Σ|p|`, whatever the optimisers and initial guesses. -/
theorem C167_thrust {D : ℝ} {ps qs : List P4} (h : Drift norm3 D ps qs)
    (min₁ min₂ : ℝ × ℝ → Opt) (h₁ : Optimiser min₁) (h₂ : Optimiser min₂) (g₁ g₂ : ℝ × ℝ) (hg₁ : InDomain g₁)
    (hg₂ : InDomain g₂) (r₁ r₂ : Bool) (t t' : ℝ) (a a' : Option (ℝ × ℝ × ℝ))
    (hp : thrust min₁ g₁ r₁ ps = .ok (t, a)) (hq : thrust min₂ g₂ r₂ qs = .ok (t', a'))
    (hbest : ∀ φ θ, InDomain (φ, θ) → thrustAt ps φ θ ≤ t) (hbest' : ∀ φ θ, InDomain (φ, θ) → thrustAt qs φ θ ≤ t') :
    |t' - t| ≤ 2 * D / sumOf norm3 ps := by
  have key : ∀ (min : ℝ × ℝ → Opt), Optimiser min → ∀ g, InDomain g → ∀ (r : Bool) (l : List P4) (s : ℝ)
      (b : Option (ℝ × ℝ × ℝ)), thrust min g r l = .ok (s, b) →
      (l ≠ [] ∧ ∀ p ∈ l, Moving p) ∧ ∃ n, UnitVec n ∧ s = thrustAlong l n := by
    intro min hmin g hg r l s b hl
    have h97 := C97_thrust min hmin g hg r l
    have hok : l ≠ [] ∧ ∀ p ∈ l, Moving p := by
      by_contra hc
      rw [h97.2 hc] at hl
      cases hl
    obtain ⟨n, hn, hv, _⟩ := h97.1 hok.1 hok.2
    rw [hl] at hv
    exact ⟨hok, n, hn, by injection hv with hv; exact (Prod.mk.inj hv).1⟩
  obtain ⟨⟨hp1, hp2⟩, n, hn, ht⟩ := key min₁ h₁ g₁ hg₁ r₁ ps t a hp
  obtain ⟨⟨hq1, hq2⟩, n', hn', ht'⟩ := key min₂ h₂ g₂ hg₂ r₂ qs t' a' hq
  have b1 := C97_global min₁ g₁ r₁ ps t a hp hbest n' hn'
  have b2 := C97_global min₂ g₂ r₂ qs t' a' hq hbest' n hn
  have d1 := abs_le.1 (C167_axis h hp1 hp2 hq1 hq2 n hn).1
  have d2 := abs_le.1 (C167_axis h hp1 hp2 hq1 hq2 n' hn').1
  rw [abs_le]
  constructor <;> linarith [d1.1, d2.2]

/-- **C167** The spherocity of the event, in the same way. -/
theorem C167_spherocity {D : ℝ} {ps qs : List P4} (h : Drift norm3 D ps qs)
    (min₁ min₂ : ℝ × ℝ → Opt) (h₁ : Optimiser min₁) (h₂ : Optimiser min₂) (g₁ g₂ : ℝ × ℝ) (hg₁ : InDomain g₁)
    (hg₂ : InDomain g₂) (r₁ r₂ : Bool) (s s' : ℝ) (a a' : Option (ℝ × ℝ × ℝ))
    (hp : spherocity min₁ g₁ r₁ ps = .ok (s, a)) (hq : spherocity min₂ g₂ r₂ qs = .ok (s', a'))
    (hbest : ∀ φ θ r, InDomain (φ, θ) → spherocityWithGrad φ θ ps = .ok r → s ≤ r.1)
    (hbest' : ∀ φ θ r, InDomain (φ, θ) → spherocityWithGrad φ θ qs = .ok r → s' ≤ r.1) :
    |s' - s| ≤ (4 / π) ^ 2 * (4 * D / sumOf norm3 ps) := by
  have key : ∀ (min : ℝ × ℝ → Opt), Optimiser min → ∀ g, InDomain g → ∀ (r : Bool) (l : List P4) (s : ℝ)
      (b : Option (ℝ × ℝ × ℝ)), spherocity min g r l = .ok (s, b) →
      (l ≠ [] ∧ ∀ p ∈ l, Moving p) ∧ ∃ n, UnitVec n ∧ s = spherocityAlong l n := by
    intro min hmin g hg r l s b hl
    rcases C97_spherocity min hmin g hg r l with ⟨n, hn, hv, hpos, _⟩ | ⟨he, _⟩
    · have hv' := hv
      rw [hl] at hv
      have hs : s = spherocityAlong l n := by injection hv with hv; exact (Prod.mk.inj hv).1
      refine ⟨?_, n, hn, hs⟩
      have hguess : ∃ r, spherocityWithGrad g.1 g.2 l = .ok r := by
        obtain ⟨next, h1, -⟩ := hmin g
        unfold spherocity at hl
        rw [h1] at hl
        unfold Opt.run at hl
        cases hc : spherocityWithGrad g.1 g.2 l with
        | ok r => exact ⟨r, rfl⟩
        | error e => simp only [hc] at hl; cases hl
      obtain ⟨hne, hoff⟩ := (C76_exact g.1 g.2 l).2.2.1.1 hguess
      refine ⟨hne, fun p hp => ?_⟩
      by_contra hm
      unfold Moving at hm
      simp only [not_or, not_not] at hm
      have := hoff p hp
      unfold offAxis at this
      rw [hm.1, hm.2.1, hm.2.2] at this
      simp at this
    · rw [hl] at he; cases he
  obtain ⟨⟨hp1, hp2⟩, n, hn, ht⟩ := key min₁ h₁ g₁ hg₁ r₁ ps s a hp
  obtain ⟨⟨hq1, hq2⟩, n', hn', ht'⟩ := key min₂ h₂ g₂ hg₂ r₂ qs s' a' hq
  have b1 := C97_global_spherocity min₁ h₁ g₁ r₁ ps s a hp hbest n' hn'
  have b2 := C97_global_spherocity min₂ h₂ g₂ r₂ qs s' a' hq hbest' n hn
  have d1 := abs_le.1 (C167_axis h hp1 hp2 hq1 hq2 n hn).2
  have d2 := abs_le.1 (C167_axis h hp1 hp2 hq1 hq2 n' hn').2
  rw [abs_le]
  constructor <;> linarith [d1.2, d2.1]

/-- **C167** The square of the combined mass of an event that drifted by `D`, energies included, changes by no more than
`2 D (|E| + |P| + D)`, with `E` and `P` the summed energy and momentum. -/
theorem C167_mass {D : ℝ} {ps qs : List P4} (h : Drift size4 D ps qs) :
    |combinedMass qs ^ 2 - combinedMass ps ^ 2| ≤ 2 * D * (|(total ps).e| + norm3 (total ps) + D) := by
  have hM : ∀ l : List P4, combinedMass l ^ 2 = max 0 ((total l).e ^ 2 - norm3 (total l) ^ 2) := by
    intro l
    rw [norm3_sq]
    have e : (total l).x ^ 2 * (-1) + (total l).y ^ 2 * (-1) + (total l).z ^ 2 * (-1) + (total l).e ^ 2 * 1 =
        (total l).e ^ 2 - ((total l).x ^ 2 + (total l).y ^ 2 + (total l).z ^ 2) := by ring
    unfold combinedMass
    simp only [e]
    split_ifs with hlt
    · rw [max_eq_left hlt.le]; norm_num
    · rw [sq_sqrt (not_lt.1 hlt), max_eq_right (not_lt.1 hlt)]
  have hv : ∀ l : List P4, momVec (total l) = (l.map momVec).sum := by
    intro l
    induction l with
    | nil =>
      refine (WithLp.ofLp_injective 2) (Prod.ext ?_ ?_)
      · exact Complex.ext rfl rfl
      · rfl
    | cons p l ih =>
      rw [List.map_cons, List.sum_cons, ← ih]
      refine (WithLp.ofLp_injective 2) (Prod.ext ?_ ?_)
      · exact Complex.ext (by simp [momVec, total]) (by simp [momVec, total])
      · simp [momVec, total]
  have hE : |(total qs).e - (total ps).e| ≤ D := by
    have := drift_sumOf P4.e size4 (L := 1) (fun p => by rw [one_mul]; exact le_max_left _ _)
      (fun p q => by rw [one_mul]; exact le_max_left _ _) zero_le_one h
    rwa [one_mul] at this
  have hP : |norm3 (total qs) - norm3 (total ps)| ≤ D := by
    rw [← norm_momVec, ← norm_momVec, hv, hv]
    refine (abs_norm_sub_norm_le _ _).trans ?_
    have := drift_sum momVec size4 (L := 1) (fun p => by rw [one_mul, norm_momVec]; exact le_max_right _ _)
      (fun p q => by rw [one_mul, ← momVec_pdiff, norm_momVec]; exact le_max_right _ _) zero_le_one h
    rwa [one_mul] at this
  have sqd : ∀ a a' : ℝ, |a' - a| ≤ D → |a' ^ 2 - a ^ 2| ≤ D * (2 * |a| + D) := by
    intro a a' ha
    have hD : 0 ≤ D := (abs_nonneg _).trans ha
    rw [sq_sub_sq, mul_comm, abs_mul]
    have : |a' + a| ≤ 2 * |a| + D := by
      rw [show a' + a = (a' - a) + 2 * a by ring]
      refine (abs_add_le _ _).trans ?_
      rw [abs_mul, abs_two]
      linarith
    exact mul_le_mul ha this (abs_nonneg _) hD
  rw [hM, hM]
  rw [max_comm, max_comm 0 ((total ps).e ^ 2 - norm3 (total ps) ^ 2)]
  refine (abs_max_sub_max_le_abs _ _ _).trans ?_
  have h1 := sqd _ _ hE
  have h2 := sqd _ _ hP
  rw [abs_of_nonneg (norm3_nonneg (total ps))] at h2
  rw [show (total qs).e ^ 2 - norm3 (total qs) ^ 2 - ((total ps).e ^ 2 - norm3 (total ps) ^ 2) =
    ((total qs).e ^ 2 - (total ps).e ^ 2) - (norm3 (total qs) ^ 2 - norm3 (total ps) ^ 2) by ring]
  refine (abs_sub _ _).trans ?_
  linarith

/-- **C167** No multiple of the drift bounds the change of the combined mass itself: it grows like the square root of a
small addition to a massless particle. -/
theorem C167_false : ¬ ∃ K : ℝ, ∀ (D : ℝ) (ps qs : List P4), Drift size4 D ps qs → sumOf P4.e ps = 1 →
    |combinedMass qs - combinedMass ps| ≤ K * D := by
  rintro ⟨K, hK⟩
  have h := fun ε hε => hK ε [⟨1, 0, 0, 1⟩] [⟨1, 0, 0, 1⟩, ⟨0, 0, 0, ε⟩]
    ⟨[⟨1, 0, 0, 1⟩], [⟨1, 0, 0, 1⟩], [], [⟨0, 0, 0, ε⟩], by simp, by simp, rfl, hε⟩ (by simp [sumOf])
  have hc : ∀ ε : ℝ, 0 < ε → √(2 * ε) ≤ K * ε := by
    intro ε hε
    have := h ε (by simp [sumOf, size4, pdiff, norm3, hε.le, abs_of_pos hε])
    have e1 : combinedMass [⟨1, 0, 0, 1⟩] = 0 := by simp [combinedMass, total]
    have e2 : combinedMass [⟨1, 0, 0, 1⟩, ⟨0, 0, 0, ε⟩] = √(2 * ε + ε ^ 2) := by
      have e : ((1 : ℝ) + 0) ^ 2 * (-1) + (0 + 0) ^ 2 * (-1) + (0 + 0) ^ 2 * (-1) + (1 + ε) ^ 2 * 1 = 2 * ε + ε ^ 2 := by ring
      simp only [combinedMass, total, List.map_cons, List.map_nil, List.sum_cons, List.sum_nil, add_zero] at e ⊢
      rw [if_neg (by nlinarith [sq_nonneg ε])]
      congr 1
    rw [e1, e2, sub_zero, abs_of_nonneg (sqrt_nonneg _)] at this
    exact (sqrt_le_sqrt (by nlinarith [sq_nonneg ε])).trans this
  have hK0 : 0 < K := by
    have := hc 1 one_pos
    have h2 : (0 : ℝ) < √(2 * 1) := by positivity
    linarith
  have := hc (1 / K ^ 2) (by positivity)
  have e : K * (1 / K ^ 2) = 1 / K := by field_simp
  rw [e, show 2 * (1 / K ^ 2) = 2 / K ^ 2 by ring, sqrt_div (by norm_num), sqrt_sq hK0.le] at this
  rw [div_le_div_iff_of_pos_right hK0] at this
  have h2 : (1 : ℝ) < √2 := by rw [Real.lt_sqrt (by norm_num)]; norm_num
  linarith

/-! ## The hypotheses can be met -/

/-- A particle turned a little, one lost, one new, all in another order: drift at most 1/2. -/
example : Drift norm3 (1 / 2) [⟨3, 0, 0, 3⟩, ⟨0, 4, 0, 4⟩, ⟨0, 0, 1 / 10, 1⟩] [⟨0, 4, 0, 5⟩, ⟨1 / 10, 0, 0, 1⟩, ⟨3, 3 / 10, 0, 4⟩] := by
  refine ⟨[⟨3, 0, 0, 3⟩, ⟨0, 4, 0, 4⟩], [⟨3, 3 / 10, 0, 4⟩, ⟨0, 4, 0, 5⟩], [⟨0, 0, 1 / 10, 1⟩], [⟨1 / 10, 0, 0, 1⟩],
    List.Perm.refl _, ?_, rfl, ?_⟩
  · exact List.perm_append_comm (α := P4) (l₁ := [⟨0, 4, 0, 5⟩, ⟨1 / 10, 0, 0, 1⟩])
  · simp only [sumOf, norm3, pdiff, List.zipWith_cons_cons, List.zipWith_nil_right, List.map_cons, List.map_nil,
      List.sum_cons, List.sum_nil]
    have h1 : √((3 - 3) ^ 2 + (3 / 10 - 0) ^ 2 + (0 - 0) ^ 2) = (3 / 10 : ℝ) := by
      rw [show ((3 - 3) ^ 2 + (3 / 10 - 0) ^ 2 + (0 - 0) ^ 2 : ℝ) = (3 / 10) ^ 2 by norm_num, sqrt_sq (by norm_num)]
    have h2 : √((0 - 0) ^ 2 + (4 - 4) ^ 2 + (0 - 0) ^ 2) = (0 : ℝ) := by norm_num
    have h3 : √(0 ^ 2 + 0 ^ 2 + (1 / 10) ^ 2) = (1 / 10 : ℝ) := by
      rw [show (0 ^ 2 + 0 ^ 2 + (1 / 10) ^ 2 : ℝ) = (1 / 10) ^ 2 by norm_num, sqrt_sq (by norm_num)]
    have h4 : √((1 / 10) ^ 2 + 0 ^ 2 + 0 ^ 2) = (1 / 10 : ℝ) := by
      rw [show ((1 / 10) ^ 2 + 0 ^ 2 + 0 ^ 2 : ℝ) = (1 / 10) ^ 2 by norm_num, sqrt_sq (by norm_num)]
    rw [h1, h2, h3, h4]
    norm_num

end Gcl
