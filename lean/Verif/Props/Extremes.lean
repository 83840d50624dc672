import Verif.Lemmas.Average
import Verif.Props.SphGlobal
import Verif.Spec.Extremes
/-! # C140: event shapes at their extremes -/
namespace Gcl
set_option autoImplicit false
open Spec Real MeasureTheory

theorem exists_nonneg_of_integral {F : Space3 → ℝ} (hF : Integrable F) (h0 : ∫ x, F x = 0) :
    ∃ x, x ≠ 0 ∧ 0 ≤ F x := by
  by_contra hc
  push Not at hc
  have hz : ∀ᵐ x : Space3, x ≠ 0 := by
    have : Nontrivial Space3 := Module.nontrivial_of_finrank_pos (R := ℝ) (by rw [finrank_space]; norm_num)
    exact Measure.ae_ne volume 0
  have hn : 0 ≤ᵐ[volume] fun x => -F x := by
    filter_upwards [hz] with x hx
    have := hc x hx
    simp only [Pi.zero_apply]; linarith
  have he := (integral_eq_zero_iff_of_nonneg_ae hn hF.neg).1 (by rw [integral_neg, h0, neg_zero])
  have hf : ∀ᵐ x : Space3, False := by
    filter_upwards [hz, he] with x hx hx'
    have := hc x hx
    simp at hx'
    linarith
  simp only [Filter.eventually_false_iff_eq_bot, ae_eq_bot] at hf
  exact NeZero.ne (volume : Measure Space3) hf

/-- The 3-momentum as a vector. -/
noncomputable def momVec (p : P4) : Space3 := WithLp.toLp 2 (⟨p.x, p.y⟩, p.z)

theorem norm_momVec (p : P4) : ‖momVec p‖ = norm3 p := by
  have h := space_norm_sq (momVec p)
  have h2 : ‖(momVec p).fst‖ ^ 2 = p.x ^ 2 + p.y ^ 2 := by
    simp only [momVec]
    rw [Complex.sq_norm, Complex.normSq_apply]
    change p.x * p.x + p.y * p.y = _
    ring
  rw [h2] at h
  unfold norm3
  rw [show (momVec p).snd = p.z from rfl] at h
  rw [← h, sqrt_sq (norm_nonneg _)]

theorem inner_momVec (p : P4) (x : Space3) :
    inner ℝ (momVec p) x = p.x * x.fst.re + p.y * x.fst.im + p.z * x.snd := by
  rw [WithLp.prod_inner_apply]
  simp only [momVec, Complex.inner]
  simp
  ring

/-- The direction of a vector. -/
noncomputable def dirOf (x : Space3) : ℝ × ℝ × ℝ := (x.fst.re / ‖x‖, x.fst.im / ‖x‖, x.snd / ‖x‖)

theorem space_norm_sq' (x : Space3) : ‖x‖ ^ 2 = x.fst.re ^ 2 + x.fst.im ^ 2 + x.snd ^ 2 := by
  rw [space_norm_sq, Complex.sq_norm, Complex.normSq_apply]; ring

theorem unit_dirOf {x : Space3} (hx : x ≠ 0) : UnitVec (dirOf x) := by
  have hn : ‖x‖ ≠ 0 := norm_ne_zero_iff.2 hx
  have := space_norm_sq' x
  simp only [UnitVec, dirOf]
  field_simp
  linarith

theorem thrustAlong_dirOf (ps : List P4) {x : Space3} (hx : x ≠ 0) :
    thrustAlong ps (dirOf x) = sumOf (fun p => |inner ℝ (momVec p) x|) ps / (sumOf norm3 ps * ‖x‖) := by
  have hn : 0 < ‖x‖ := norm_pos_iff.2 hx
  have : ∀ p : P4, |p.x * (dirOf x).1 + p.y * (dirOf x).2.1 + p.z * (dirOf x).2.2| =
      ‖x‖⁻¹ * |inner ℝ (momVec p) x| := by
    intro p
    rw [inner_momVec, ← abs_of_pos (inv_pos.2 hn), ← abs_mul]
    congr 1
    simp only [dirOf]; field_simp
  unfold thrustAlong
  simp only [this]
  rw [sumOf_mul_left]
  field_simp

theorem spherocityAlong_dirOf (ps : List P4) {x : Space3} (hx : x ≠ 0) :
    spherocityAlong ps (dirOf x) =
      (4 / π * (sumOf (fun p => sqrt (‖momVec p‖ ^ 2 * ‖x‖ ^ 2 - inner ℝ (momVec p) x ^ 2)) ps /
        (sumOf norm3 ps * ‖x‖))) ^ 2 := by
  have hn : 0 < ‖x‖ := norm_pos_iff.2 hx
  have : ∀ p : P4, sqrt ((p.y * (dirOf x).2.2 - p.z * (dirOf x).2.1) ^ 2 +
      (p.z * (dirOf x).1 - p.x * (dirOf x).2.2) ^ 2 + (p.x * (dirOf x).2.1 - p.y * (dirOf x).1) ^ 2) =
      ‖x‖⁻¹ * sqrt (‖momVec p‖ ^ 2 * ‖x‖ ^ 2 - inner ℝ (momVec p) x ^ 2) := by
    intro p
    have h1 : ‖x‖⁻¹ = sqrt ((‖x‖⁻¹) ^ 2) := by rw [sqrt_sq (inv_pos.2 hn).le]
    rw [h1, ← sqrt_mul (by positivity)]
    congr 1
    rw [inner_momVec, norm_momVec, norm3_sq, space_norm_sq']
    simp only [dirOf]; field_simp; ring
  unfold spherocityAlong
  simp only [this]
  rw [sumOf_mul_left]
  congr 1
  field_simp

theorem sum_integral (f : P4 → Space3 → ℝ) (c : ℝ) (ps : List P4) (hi : ∀ p ∈ ps, Integrable (f p))
    (hf : ∀ p ∈ ps, ∫ x, f p x = c * norm3 p) :
    Integrable (fun x => sumOf (fun p => f p x) ps) ∧ ∫ x, sumOf (fun p => f p x) ps = c * sumOf norm3 ps := by
  induction ps with
  | nil => simp [sumOf]
  | cons p ps ih =>
    obtain ⟨h1, h2⟩ := ih (fun q hq => hi q (List.mem_cons_of_mem _ hq)) (fun q hq => hf q (List.mem_cons_of_mem _ hq))
    have h3 := hi p (List.mem_cons_self)
    have h4 := hf p (List.mem_cons_self)
    simp only [sumOf_cons]
    exact ⟨h3.add h1, by rw [integral_add h3 h1, h2, h4]; ring⟩

theorem integrable_of_pos {F : Space3 → ℝ} (h : 0 < ∫ x, F x) : Integrable F := by
  by_contra hc
  rw [integral_undef hc] at h
  exact lt_irrefl _ h

/-- Some direction is at least as good as the average one. -/
theorem exists_direction (f : P4 → Space3 → ℝ) (c : ℝ) (hc : 0 < c) (ps : List P4) (hmov : ∀ p ∈ ps, Moving p)
    (hf : ∀ p, ∫ x, f p x * exp (-‖x‖ ^ 2) = c * norm3 p) :
    (∃ x, x ≠ 0 ∧ c * (sumOf norm3 ps * ‖x‖) ≤ 2 * π * sumOf (fun p => f p x) ps) ∧
    (∃ x, x ≠ 0 ∧ 2 * π * sumOf (fun p => f p x) ps ≤ c * (sumOf norm3 ps * ‖x‖)) := by
  have hN : Integrable (fun x : Space3 => ‖x‖ * exp (-‖x‖ ^ 2)) :=
    integrable_of_pos (by rw [norm_average]; positivity)
  obtain ⟨h1, h2⟩ := sum_integral (fun p x => f p x * exp (-‖x‖ ^ 2)) c ps
    (fun p hp => integrable_of_pos (by rw [hf]; exact mul_pos hc (norm3_pos (hmov p hp)))) (fun p _ => hf p)
  have hs : ∀ x : Space3, sumOf (fun p => f p x * exp (-‖x‖ ^ 2)) ps = sumOf (fun p => f p x) ps * exp (-‖x‖ ^ 2) := by
    intro x
    rw [mul_comm, ← sumOf_mul_left]
    exact sumOf_congr (fun p _ => mul_comm _ _)
  simp only [hs] at h1 h2
  constructor
  · obtain ⟨x, hx, h⟩ := exists_nonneg_of_integral
      (F := fun x => 2 * π * (sumOf (fun p => f p x) ps * exp (-‖x‖ ^ 2)) -
        c * sumOf norm3 ps * (‖x‖ * exp (-‖x‖ ^ 2))) ((h1.const_mul _).sub (hN.const_mul _))
      (by rw [integral_sub (h1.const_mul _) (hN.const_mul _), integral_const_mul, integral_const_mul, h2,
            norm_average]; ring)
    refine ⟨x, hx, ?_⟩
    have he := exp_pos (-‖x‖ ^ 2)
    by_contra hlt
    push Not at hlt
    nlinarith
  · obtain ⟨x, hx, h⟩ := exists_nonneg_of_integral
      (F := fun x => c * sumOf norm3 ps * (‖x‖ * exp (-‖x‖ ^ 2)) -
        2 * π * (sumOf (fun p => f p x) ps * exp (-‖x‖ ^ 2))) ((hN.const_mul _).sub (h1.const_mul _))
      (by rw [integral_sub (hN.const_mul _) (h1.const_mul _), integral_const_mul, integral_const_mul, h2,
            norm_average]; ring)
    refine ⟨x, hx, ?_⟩
    have he := exp_pos (-‖x‖ ^ 2)
    by_contra hlt
    push Not at hlt
    nlinarith

/-- Along some axis the thrust is at least one half. -/
theorem exists_thrust_half (ps : List P4) (hne : ps ≠ []) (hmov : ∀ p ∈ ps, Moving p) :
    ∃ n, UnitVec n ∧ 1 / 2 ≤ thrustAlong ps n := by
  obtain ⟨⟨x, hx, h⟩, _⟩ := exists_direction (fun p x => |inner ℝ (momVec p) x|) π pi_pos ps hmov
    (fun p => by rw [along_average, norm_momVec])
  have hS := sumOf_norm_pos hne hmov
  have hn : 0 < ‖x‖ := norm_pos_iff.2 hx
  refine ⟨dirOf x, unit_dirOf hx, ?_⟩
  rw [thrustAlong_dirOf ps hx, le_div_iff₀ (mul_pos hS hn)]
  have := pi_pos
  nlinarith

/-- Along some axis the spherocity is at most one. -/
theorem exists_spherocity_one (ps : List P4) (hne : ps ≠ []) (hmov : ∀ p ∈ ps, Moving p) :
    ∃ n, UnitVec n ∧ spherocityAlong ps n ≤ 1 := by
  obtain ⟨_, x, hx, h⟩ := exists_direction
    (fun p x => sqrt (‖momVec p‖ ^ 2 * ‖x‖ ^ 2 - inner ℝ (momVec p) x ^ 2)) (π ^ 2 / 2) (by positivity) ps hmov
    (fun p => by rw [across_average, norm_momVec])
  have hS := sumOf_norm_pos hne hmov
  have hn : 0 < ‖x‖ := norm_pos_iff.2 hx
  refine ⟨dirOf x, unit_dirOf hx, ?_⟩
  rw [spherocityAlong_dirOf ps hx]
  have hp := pi_pos
  have h0 : 0 ≤ sumOf (fun p => sqrt (‖momVec p‖ ^ 2 * ‖x‖ ^ 2 - inner ℝ (momVec p) x ^ 2)) ps :=
    sumOf_nonneg (fun p => sqrt_nonneg _) ps
  have h1 : 4 / π * (sumOf (fun p => sqrt (‖momVec p‖ ^ 2 * ‖x‖ ^ 2 - inner ℝ (momVec p) x ^ 2)) ps /
      (sumOf norm3 ps * ‖x‖)) ≤ 1 := by
    rw [div_mul_div_comm, div_le_one (by positivity)]
    nlinarith
  exact pow_le_one₀ (by positivity) h1

/-! ## One axis -/

theorem sumOf_eq_iff {f g : P4 → ℝ} (h : ∀ p, f p ≤ g p) (ps : List P4) :
    sumOf f ps = sumOf g ps ↔ ∀ p ∈ ps, f p = g p := by
  refine ⟨fun he => ?_, sumOf_congr⟩
  induction ps with
  | nil => simp
  | cons p ps ih =>
    rw [sumOf_cons, sumOf_cons] at he
    have h1 := h p
    have h2 := sumOf_le h ps
    intro q hq
    rcases List.mem_cons.1 hq with rfl | hq
    · linarith
    · exact ih (by linarith) q hq

theorem le_of_sq_le_sq₀' {a b : ℝ} (h : a ^ 2 ≤ b ^ 2) (hb : 0 ≤ b) : a ≤ b :=
  (le_abs_self a).trans (abs_le_of_sq_le_sq h hb)

/-- Component along `n`. -/
def alongN (n : ℝ × ℝ × ℝ) (p : P4) : ℝ := p.x * n.1 + p.y * n.2.1 + p.z * n.2.2

/-- Size of the component perpendicular to `n`. -/
noncomputable def acrossN (n : ℝ × ℝ × ℝ) (p : P4) : ℝ :=
  sqrt ((p.y * n.2.2 - p.z * n.2.1) ^ 2 + (p.z * n.1 - p.x * n.2.2) ^ 2 + (p.x * n.2.1 - p.y * n.1) ^ 2)

theorem along_across {n : ℝ × ℝ × ℝ} (hn : UnitVec n) (p : P4) :
    |alongN n p| ^ 2 + acrossN n p ^ 2 = norm3 p ^ 2 := by
  unfold acrossN alongN
  rw [sq_sqrt (by positivity), norm3_sq, sq_abs]
  unfold UnitVec at hn
  linear_combination (p.x ^ 2 + p.y ^ 2 + p.z ^ 2) * hn

theorem along_le {n : ℝ × ℝ × ℝ} (hn : UnitVec n) (p : P4) : |alongN n p| ≤ norm3 p :=
  le_of_sq_le_sq₀' (by have := along_across hn p; nlinarith [sq_nonneg (acrossN n p)]) (norm3_nonneg p)

theorem across_nonneg (n : ℝ × ℝ × ℝ) (p : P4) : 0 ≤ acrossN n p := sqrt_nonneg _

theorem across_le {n : ℝ × ℝ × ℝ} (hn : UnitVec n) (p : P4) : acrossN n p ≤ norm3 p :=
  le_of_sq_le_sq₀' (by have := along_across hn p; nlinarith [sq_nonneg (|alongN n p|)]) (norm3_nonneg p)

theorem minkowski {n : ℝ × ℝ × ℝ} (hn : UnitVec n) (ps : List P4) :
    sumOf (fun p => |alongN n p|) ps ^ 2 + sumOf (acrossN n) ps ^ 2 ≤ sumOf norm3 ps ^ 2 := by
  induction ps with
  | nil => simp [sumOf]
  | cons p ps ih =>
    simp only [sumOf_cons]
    have h := along_across hn p
    have hN := sumOf_nonneg norm3_nonneg ps
    have hq := norm3_nonneg p
    have hc : |alongN n p| * sumOf (fun p => |alongN n p|) ps + acrossN n p * sumOf (acrossN n) ps ≤
        norm3 p * sumOf norm3 ps := by
      apply le_of_sq_le_sq₀' _ (by positivity)
      rw [mul_pow (norm3 p), ← h]
      nlinarith [sq_nonneg (|alongN n p| * sumOf (acrossN n) ps - acrossN n p * sumOf (fun p => |alongN n p|) ps),
        sq_nonneg (|alongN n p|), sq_nonneg (acrossN n p)]
    nlinarith

theorem parallel_iff {n : ℝ × ℝ × ℝ} (hn : UnitVec n) (p : P4) : |alongN n p| = norm3 p ↔ ParallelTo n p := by
  have h := along_across hn p
  constructor
  · intro he
    rw [he] at h
    have h0 : acrossN n p ^ 2 = 0 := by linarith
    unfold acrossN at h0
    rw [sq_sqrt (by positivity)] at h0
    have q1 := sq_nonneg (p.y * n.2.2 - p.z * n.2.1)
    have q2 := sq_nonneg (p.z * n.1 - p.x * n.2.2)
    have q3 := sq_nonneg (p.x * n.2.1 - p.y * n.1)
    have a1 : p.y * n.2.2 - p.z * n.2.1 = 0 := pow_eq_zero_iff (two_ne_zero) |>.1 (by linarith)
    have a2 : p.z * n.1 - p.x * n.2.2 = 0 := pow_eq_zero_iff (two_ne_zero) |>.1 (by linarith)
    have a3 : p.x * n.2.1 - p.y * n.1 = 0 := pow_eq_zero_iff (two_ne_zero) |>.1 (by linarith)
    unfold UnitVec at hn
    refine ⟨alongN n p, ?_, ?_, ?_⟩ <;> unfold alongN
    · linear_combination (-p.x) * hn + n.2.1 * a3 - n.2.2 * a2
    · linear_combination (-p.y) * hn - n.1 * a3 + n.2.2 * a1
    · linear_combination (-p.z) * hn + n.1 * a2 - n.2.1 * a1
  · rintro ⟨c, h1, h2, h3⟩
    have h0 : acrossN n p = 0 := by
      unfold acrossN
      rw [h1, h2, h3]
      ring_nf
      simp
    rw [h0] at h
    have h4 : |alongN n p| ^ 2 = norm3 p ^ 2 := by linarith
    exact (sq_eq_sq₀ (abs_nonneg _) (norm3_nonneg p)).1 h4

/-- **C140** (one axis): for every event of moving particles and every axis, thrust `T` and spherocity `S` along it
satisfy `T² + (π/4)² S ≤ 1 ≤ T + (π/4) √S` and `S ≤ (4/π)²`; `T = 1` exactly if all particles are parallel to the axis,
`T = 0` exactly if all are perpendicular to it. -/
theorem C140_axis (ps : List P4) (hne : ps ≠ []) (hmov : ∀ p ∈ ps, Moving p) (n : ℝ × ℝ × ℝ) (hn : UnitVec n) :
    thrustAlong ps n ^ 2 + (π / 4) ^ 2 * spherocityAlong ps n ≤ 1 ∧
    1 ≤ thrustAlong ps n + π / 4 * sqrt (spherocityAlong ps n) ∧
    spherocityAlong ps n ≤ (4 / π) ^ 2 ∧
    (thrustAlong ps n = 1 ↔ ∀ p ∈ ps, ParallelTo n p) ∧
    (thrustAlong ps n = 0 ↔ ∀ p ∈ ps, PerpendicularTo n p) := by
  have hS := sumOf_norm_pos hne hmov
  have hp := pi_pos
  have hT : thrustAlong ps n = sumOf (fun p => |alongN n p|) ps / sumOf norm3 ps := rfl
  have hC : spherocityAlong ps n = (4 / π * (sumOf (acrossN n) ps / sumOf norm3 ps)) ^ 2 := by
    unfold spherocityAlong
    rw [mul_div_assoc]
    rfl
  have hA : 0 ≤ sumOf (fun p => |alongN n p|) ps := sumOf_nonneg (fun p => abs_nonneg _) ps
  have hB : 0 ≤ sumOf (acrossN n) ps := sumOf_nonneg (across_nonneg n) ps
  refine ⟨?_, ?_, ?_, ?_, ?_⟩
  · have := minkowski hn ps
    rw [hT, hC]
    have e : (sumOf (fun p => |alongN n p|) ps / sumOf norm3 ps) ^ 2 +
        (π / 4) ^ 2 * (4 / π * (sumOf (acrossN n) ps / sumOf norm3 ps)) ^ 2 =
        (sumOf (fun p => |alongN n p|) ps ^ 2 + sumOf (acrossN n) ps ^ 2) / sumOf norm3 ps ^ 2 := by
      field_simp
    rw [e, div_le_one (by positivity)]
    exact this
  · rw [hT, hC, sqrt_sq (by positivity)]
    have e : sumOf (fun p => |alongN n p|) ps / sumOf norm3 ps +
        π / 4 * (4 / π * (sumOf (acrossN n) ps / sumOf norm3 ps)) =
        (sumOf (fun p => |alongN n p|) ps + sumOf (acrossN n) ps) / sumOf norm3 ps := by
      field_simp
    rw [e, le_div_iff₀ hS, one_mul, ← sumOf_add]
    apply sumOf_le
    intro p
    apply le_of_sq_le_sq₀' _ (add_nonneg (abs_nonneg _) (across_nonneg n p))
    rw [← along_across hn p]
    nlinarith [mul_nonneg (abs_nonneg (alongN n p)) (across_nonneg n p)]
  · rw [hC]
    have h1 : sumOf (acrossN n) ps / sumOf norm3 ps ≤ 1 := by
      rw [div_le_one hS]; exact sumOf_le (across_le hn) ps
    apply pow_le_pow_left₀ (by positivity)
    calc 4 / π * (sumOf (acrossN n) ps / sumOf norm3 ps) ≤ 4 / π * 1 := by gcongr
      _ = 4 / π := mul_one _
  · rw [hT, div_eq_one_iff_eq hS.ne', sumOf_eq_iff (along_le hn)]
    exact forall₂_congr (fun p _ => parallel_iff hn p)
  · rw [hT, div_eq_zero_iff, or_iff_left hS.ne']
    have h0 : sumOf (fun _ => (0 : ℝ)) ps = 0 := by
      have := sumOf_mul_left 0 (fun _ => (0 : ℝ)) ps
      simpa using this
    rw [eq_comm, ← h0, sumOf_eq_iff (fun p => abs_nonneg _)]
    refine forall₂_congr (fun p _ => ?_)
    rw [eq_comm, abs_eq_zero]
    rfl

/-- **C140** (thrust of the event): when the search finds the best axis inside its bounds, the thrust returned lies
between 1/2 and 1, and it is 1 exactly if all momenta lie on one line. -/
theorem C140_thrust (minimize : ℝ × ℝ → Opt) (hopt : Optimiser minimize) (guess : ℝ × ℝ) (hg : InDomain guess)
    (returnAxis : Bool) (ps : List P4) (t : ℝ) (a : Option (ℝ × ℝ × ℝ))
    (hr : thrust minimize guess returnAxis ps = .ok (t, a))
    (hbest : ∀ φ θ, InDomain (φ, θ) → thrustAt ps φ θ ≤ t) :
    1 / 2 ≤ t ∧ t ≤ 1 ∧ (t = 1 ↔ OnOneLine ps) := by
  have h97 := C97_thrust minimize hopt guess hg returnAxis ps
  have hok : ps ≠ [] ∧ ∀ p ∈ ps, Moving p := by
    by_contra hc
    rw [h97.2 hc] at hr
    cases hr
  obtain ⟨hne, hmov⟩ := hok
  obtain ⟨n, hn, hv, _, h1, _⟩ := h97.1 hne hmov
  rw [hr] at hv
  have ht : t = thrustAlong ps n := by injection hv with hv; exact (Prod.mk.inj hv).1
  have hall := C97_global minimize guess returnAxis ps t a hr hbest
  obtain ⟨m, hm, hhalf⟩ := exists_thrust_half ps hne hmov
  refine ⟨hhalf.trans (hall m hm), ht ▸ h1, ?_, ?_⟩
  · intro h
    exact ⟨n, hn, ((C140_axis ps hne hmov n hn).2.2.2.1).1 (by rw [← ht, h])⟩
  · rintro ⟨m, hm, hpar⟩
    have := hall m hm
    rw [((C140_axis ps hne hmov m hm).2.2.2.1).2 hpar] at this
    exact le_antisymm (ht ▸ h1) this

/-- **C140** (spherocity of the event): when the search finds the best axis inside its bounds, the spherocity returned
is positive and at most 1. -/
theorem C140_spherocity (minimize : ℝ × ℝ → Opt) (hopt : Optimiser minimize) (guess : ℝ × ℝ) (hg : InDomain guess)
    (returnAxis : Bool) (ps : List P4) (s : ℝ) (a : Option (ℝ × ℝ × ℝ))
    (hr : spherocity minimize guess returnAxis ps = .ok (s, a))
    (hbest : ∀ φ θ r, InDomain (φ, θ) → spherocityWithGrad φ θ ps = .ok r → s ≤ r.1) :
    0 < s ∧ s ≤ 1 := by
  rcases C97_spherocity minimize hopt guess hg returnAxis ps with ⟨n, hn, hv, hpos, _⟩ | ⟨he, _⟩
  · rw [hr] at hv
    have hs : s = spherocityAlong ps n := by injection hv with hv; exact (Prod.mk.inj hv).1
    refine ⟨hs ▸ hpos, ?_⟩
    have hguess : ∃ r, spherocityWithGrad guess.1 guess.2 ps = .ok r := by
      obtain ⟨next, h1, -⟩ := hopt guess
      unfold spherocity at hr
      rw [h1] at hr
      unfold Opt.run at hr
      cases hc : spherocityWithGrad guess.1 guess.2 ps with
      | ok r => exact ⟨r, rfl⟩
      | error e => simp only [hc] at hr; cases hr
    obtain ⟨hne, hoff⟩ := (C76_exact guess.1 guess.2 ps).2.2.1.1 hguess
    have hmov : ∀ p ∈ ps, Moving p := by
      intro p hp
      by_contra hm
      unfold Moving at hm
      simp only [not_or, not_not] at hm
      have := hoff p hp
      unfold offAxis at this
      rw [hm.1, hm.2.1, hm.2.2] at this
      simp at this
    obtain ⟨m, hm, h1⟩ := exists_spherocity_one ps hne hmov
    exact (C97_global_spherocity minimize hopt guess returnAxis ps s a hr hbest m hm).trans h1
  · rw [hr] at he; cases he

theorem tensor_form (ps : List P4) (hmov : ∀ p ∈ ps, Moving p) :
    ∃ xx yy zz xy xz yz : ℝ, (∀ n : ℝ × ℝ × ℝ, sumOf (fun p => (p.x * n.1 + p.y * n.2.1 + p.z * n.2.2) ^ 2 / norm3 p) ps =
        xx * n.1 ^ 2 + yy * n.2.1 ^ 2 + zz * n.2.2 ^ 2 + 2 * xy * (n.1 * n.2.1) + 2 * xz * (n.1 * n.2.2) +
          2 * yz * (n.2.1 * n.2.2)) ∧
      sumOf norm3 ps = xx + yy + zz ∧
      cParam ps = 3 / 2 * (sumOf norm3 ps ^ 2 -
        (xx ^ 2 + yy ^ 2 + zz ^ 2 + 2 * xy ^ 2 + 2 * xz ^ 2 + 2 * yz ^ 2)) / sumOf norm3 ps ^ 2 := by
  let M (f g : P4 → ℝ) : ℝ := sumOf (fun p => f p * g p / norm3 p) ps
  refine ⟨M P4.x P4.x, M P4.y P4.y, M P4.z P4.z, M P4.x P4.y, M P4.x P4.z, M P4.y P4.z, ?_, ?_, ?_⟩
  · intro n
    have : ∀ p : P4, (p.x * n.1 + p.y * n.2.1 + p.z * n.2.2) ^ 2 / norm3 p =
        n.1 ^ 2 * (p.x * p.x / norm3 p) + n.2.1 ^ 2 * (p.y * p.y / norm3 p) + n.2.2 ^ 2 * (p.z * p.z / norm3 p)
        + (2 * (n.1 * n.2.1)) * (p.x * p.y / norm3 p) + (2 * (n.1 * n.2.2)) * (p.x * p.z / norm3 p)
        + (2 * (n.2.1 * n.2.2)) * (p.y * p.z / norm3 p) := by
      intro p; ring
    simp only [this, sumOf_add, sumOf_mul_left, M]
    ring
  · simp only [M]
    rw [← sumOf_add, ← sumOf_add]
    apply sumOf_congr
    intro p hp
    have := norm3_pos (hmov p hp)
    field_simp
    rw [norm3_sq]
  · have expand : ∀ p q : P4, norm3 p * norm3 q - dot3 p q ^ 2 / (norm3 p * norm3 q) =
        norm3 p * norm3 q + (-(p.x * p.x / norm3 p)) * (q.x * q.x / norm3 q)
        + (-(p.y * p.y / norm3 p)) * (q.y * q.y / norm3 q)
        + (-(p.z * p.z / norm3 p)) * (q.z * q.z / norm3 q)
        + (-2 * (p.x * p.y / norm3 p)) * (q.x * q.y / norm3 q)
        + (-2 * (p.x * p.z / norm3 p)) * (q.x * q.z / norm3 q)
        + (-2 * (p.y * p.z / norm3 p)) * (q.y * q.z / norm3 q) := by
      intro p q
      unfold dot3
      rw [div_eq_mul_inv, mul_inv]
      ring
    have inner : ∀ p : P4, sumOf (fun q => norm3 p * norm3 q - dot3 p q ^ 2 / (norm3 p * norm3 q)) ps =
        sumOf norm3 ps * norm3 p + (-M P4.x P4.x) * (p.x * p.x / norm3 p) + (-M P4.y P4.y) * (p.y * p.y / norm3 p)
        + (-M P4.z P4.z) * (p.z * p.z / norm3 p) + (-2 * M P4.x P4.y) * (p.x * p.y / norm3 p)
        + (-2 * M P4.x P4.z) * (p.x * p.z / norm3 p) + (-2 * M P4.y P4.z) * (p.y * p.z / norm3 p) := by
      intro p
      simp only [expand, sumOf_add, sumOf_mul_left, M]
      ring
    unfold cParam
    simp only [inner, sumOf_add, sumOf_mul_left]
    congr 2
    simp only [M]
    ring

/-- **C140** (C-parameter): for every event of moving particles, `c_parameter` is 0 exactly if all momenta lie on one
line, and 1 exactly if no direction is preferred. -/
theorem C140_c_parameter (ps : List P4) (hne : ps ≠ []) (hmov : ∀ p ∈ ps, Moving p) :
    (cParameter ps = .ok 0 ↔ OnOneLine ps) ∧ (cParameter ps = .ok 1 ↔ Isotropic ps) := by
  have hS := sumOf_norm_pos hne hmov
  rw [(C71_value ps hne hmov).1]
  have inj : ∀ a b : ℝ, (Except.ok a : Py ℝ) = .ok b ↔ a = b := fun a b => ⟨fun h => by injection h, fun h => by rw [h]⟩
  rw [inj, inj]
  constructor
  · constructor
    · intro h0
      match ps, hne with
      | p :: ps, _ =>
        have hp := norm3_pos (hmov p (List.mem_cons_self))
        have hz : sumOf (fun a => sumOf (fun q => norm3 a * norm3 q - dot3 a q ^ 2 / (norm3 a * norm3 q)) (p :: ps))
            (p :: ps) = 0 := by
          unfold cParam at h0
          rw [div_eq_zero_iff, or_iff_left (by positivity), mul_eq_zero, or_iff_right (by norm_num)] at h0
          exact h0
        have hnn : ∀ a q : P4, 0 ≤ norm3 a * norm3 q - dot3 a q ^ 2 / (norm3 a * norm3 q) := by
          intro a q
          have ha := norm3_nonneg a
          have hq := norm3_nonneg q
          rcases (mul_nonneg ha hq).lt_or_eq with h | h
          · rw [sub_nonneg, div_le_iff₀ h]
            have : dot3 a q ^ 2 ≤ (norm3 a * norm3 q) ^ 2 := by
              rw [mul_pow, norm3_sq, norm3_sq]
              unfold dot3
              nlinarith [sq_nonneg (a.x * q.y - a.y * q.x), sq_nonneg (a.x * q.z - a.z * q.x),
                sq_nonneg (a.y * q.z - a.z * q.y)]
            nlinarith
          · rw [← h]; simp
        have zero : sumOf (fun _ => (0 : ℝ)) (p :: ps) = 0 := by
          have := sumOf_mul_left 0 (fun _ => (0 : ℝ)) (p :: ps)
          simpa using this
        have h1 := (sumOf_eq_iff (f := fun _ => 0) (fun a => sumOf_nonneg (hnn a) (p :: ps)) (p :: ps)).1
          (by rw [zero, hz]) p (List.mem_cons_self)
        have h2 := (sumOf_eq_iff (f := fun _ => 0) (fun q => hnn p q) (p :: ps)).1 (by rw [zero]; exact h1)
        refine ⟨(p.x / norm3 p, p.y / norm3 p, p.z / norm3 p), ?_, fun q hq => ?_⟩
        · unfold UnitVec
          have := norm3_sq p
          field_simp
          linarith
        · have hq' := norm3_pos (hmov q hq)
          have h3 := h2 q hq
          refine (parallel_iff ?_ q).1 ?_
          · unfold UnitVec
            have := norm3_sq p
            field_simp
            linarith
          · have h4 : dot3 p q ^ 2 = (norm3 p * norm3 q) ^ 2 := by
              have : norm3 p * norm3 q = dot3 p q ^ 2 / (norm3 p * norm3 q) := by linarith
              rw [eq_div_iff (by positivity)] at this
              linarith
            have h5 : alongN (p.x / norm3 p, p.y / norm3 p, p.z / norm3 p) q = dot3 p q / norm3 p := by
              unfold alongN dot3
              field_simp
            rw [h5]
            refine (sq_eq_sq₀ (abs_nonneg _) hq'.le).1 ?_
            rw [sq_abs, div_pow, h4]
            field_simp
    · rintro ⟨n, _, hpar⟩
      exact C71_collinear ps hmov ⟨n.1, n.2.1, n.2.2, 0⟩ hpar
  · obtain ⟨xx, yy, zz, xy, xz, yz, hform, htr, hc⟩ := tensor_form ps hmov
    have hiff : cParam ps = 1 ↔ 3 * (xx ^ 2 + yy ^ 2 + zz ^ 2 + 2 * xy ^ 2 + 2 * xz ^ 2 + 2 * yz ^ 2) =
        (xx + yy + zz) ^ 2 := by
      rw [hc, div_eq_one_iff_eq (by positivity), htr]
      constructor <;> intro h <;> linarith
    rw [hiff]
    constructor
    · intro h n hn
      have q1 := sq_nonneg (xx - yy)
      have q2 := sq_nonneg (xx - zz)
      have q3 := sq_nonneg (yy - zz)
      have q4 := sq_nonneg xy
      have q5 := sq_nonneg xz
      have q6 := sq_nonneg yz
      have z1 : xx - yy = 0 := pow_eq_zero_iff (two_ne_zero) |>.1 (by nlinarith)
      have z2 : xx - zz = 0 := pow_eq_zero_iff (two_ne_zero) |>.1 (by nlinarith)
      have z3 : xy = 0 := pow_eq_zero_iff (two_ne_zero) |>.1 (by nlinarith)
      have z4 : xz = 0 := pow_eq_zero_iff (two_ne_zero) |>.1 (by nlinarith)
      have z5 : yz = 0 := pow_eq_zero_iff (two_ne_zero) |>.1 (by nlinarith)
      rw [hform n, htr, z3, z4, z5, show yy = xx by linarith, show zz = xx by linarith]
      unfold UnitVec at hn
      linear_combination xx * hn
    · intro h
      have f (n : ℝ × ℝ × ℝ) (hn : UnitVec n) := (hform n).symm.trans (h n hn)
      rw [htr] at f
      have a1 := f (1, 0, 0) (by norm_num [UnitVec])
      have a2 := f (0, 1, 0) (by norm_num [UnitVec])
      have a3 := f (0, 0, 1) (by norm_num [UnitVec])
      have b1 := f (3 / 5, 4 / 5, 0) (by norm_num [UnitVec])
      have b2 := f (3 / 5, 0, 4 / 5) (by norm_num [UnitVec])
      have b3 := f (0, 3 / 5, 4 / 5) (by norm_num [UnitVec])
      norm_num at a1 a2 a3 b1 b2 b3
      have c1 : xy = 0 := by linarith
      have c2 : xz = 0 := by linarith
      have c3 : yz = 0 := by linarith
      have d1 : yy = xx := by linarith
      have d2 : zz = xx := by linarith
      rw [c1, c2, c3, d1, d2]
      ring

-- a pencil of two particles has thrust 1, and the search finds it
example : thrust onePointOpt (0, 0) false [⟨0, 0, 1, 1⟩, ⟨0, 0, -2, 2⟩] = .ok (1, none) ∧ InDomain (0, 0) ∧
    ∀ φ θ, InDomain (φ, θ) → thrustAt [⟨0, 0, 1, 1⟩, ⟨0, 0, -2, 2⟩] φ θ ≤ 1 := by
  have hm : ∀ p ∈ [(⟨0, 0, 1, 1⟩ : P4), ⟨0, 0, -2, 2⟩], Moving p := by
    intro p hp
    simp only [List.mem_cons, List.not_mem_nil, or_false] at hp
    rcases hp with rfl | rfl <;> simp [Moving]
  have hd : InDomain (0, 0) := by
    have := pi_pos
    refine ⟨?_, ?_, ?_, ?_⟩ <;> simp only <;> linarith
  have hv : ∃ g1 g2, thrustWithGrad 0 0 [⟨0, 0, 1, 1⟩, ⟨0, 0, -2, 2⟩] = .ok (-1, -g1, -g2) := by
    obtain ⟨g1, g2, h, _⟩ := C69_thrust 0 0 [⟨0, 0, 1, 1⟩, ⟨0, 0, -2, 2⟩] (by simp) hm
    have h1 : thrustAt [⟨0, 0, 1, 1⟩, ⟨0, 0, -2, 2⟩] 0 0 = 1 := by
      rw [← thrustAlong_angles]
      refine ((C140_axis _ (by simp) hm _ (unitVec_angles 0 0)).2.2.2.1).2 ?_
      intro p hp
      simp only [List.mem_cons, List.not_mem_nil, or_false] at hp
      rcases hp with rfl | rfl
      · exact ⟨1, by simp [anglesToAxis], by simp [anglesToAxis], by simp [anglesToAxis]⟩
      · exact ⟨-2, by simp [anglesToAxis], by simp [anglesToAxis], by simp [anglesToAxis]⟩
    rw [h1] at h
    exact ⟨g1, g2, h⟩
  obtain ⟨g1, g2, h⟩ := hv
  refine ⟨?_, hd, fun φ θ _ => ?_⟩
  · simp [thrust, onePointOpt, Opt.run, h]
  · obtain ⟨_, _, _, _, h1, _⟩ := C69_thrust φ θ [⟨0, 0, 1, 1⟩, ⟨0, 0, -2, 2⟩] (by simp) hm
    exact h1

-- three particles along the axes of space: no direction is preferred, so the C-parameter is 1
example : Isotropic [⟨1, 0, 0, 1⟩, ⟨0, 1, 0, 1⟩, ⟨0, 0, 1, 1⟩] := by
  intro n hn
  unfold UnitVec at hn
  norm_num [sumOf, norm3]
  linarith

end Gcl
