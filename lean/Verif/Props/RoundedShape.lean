import Verif.Model.RoundedShape
import Verif.Lemmas.AbsError
import Verif.Lemmas.EventShape
import Verif.Props.EventShape
import Verif.Props.RoundedShift
/-!
# C146: accuracy of the event shapes when arithmetic rounds
-/
namespace Gcl
set_option autoImplicit false
open Real Spec

/-- Cauchy-Schwarz for sums of magnitudes. -/
theorem cauchy3 (a b c x y z : ℝ) :
    |a * x| + |b * y| + |c * z| ≤ √(a ^ 2 + b ^ 2 + c ^ 2) * √(x ^ 2 + y ^ 2 + z ^ 2) := by
  rw [← sqrt_mul (by positivity)]
  refine le_sqrt_of_sq_le ?_
  rw [abs_mul, abs_mul, abs_mul, ← sq_abs a, ← sq_abs b, ← sq_abs c, ← sq_abs x, ← sq_abs y, ← sq_abs z]
  generalize |a| = a, |b| = b, |c| = c, |x| = x, |y| = y, |z| = z
  nlinarith [sq_nonneg (a * y - b * x), sq_nonneg (a * z - c * x), sq_nonneg (b * z - c * y)]

section
variable {u v : ℝ} (h0 : 0 ≤ u) (h1 : u < 1) (hv : (1 + v) * (1 - u) = 1)

section
variable {A : Arith} (hA : Accurate u A)
include h0 h1 hA

/-- `_three_norm` is accurate to nine roundings, and raises `ZeroDivisionError` exactly for the zero vector. -/
theorem threeNormA_near (x y z : ℝ) :
    (x = 0 ∧ y = 0 ∧ z = 0 → threeNormA A x y z = .error .zeroDivisionError) ∧
    (¬ (x = 0 ∧ y = 0 ∧ z = 0) → ∃ r, threeNormA A x y z = .ok r ∧ 0 < r ∧
      Near u 9 (√(x ^ 2 + y ^ 2 + z ^ 2)) r) := by
  constructor
  · rintro ⟨rfl, rfl, rfl⟩
    simp [threeNormA, pyDivA]
  · intro h
    have hm : 0 < max (max |x| |y|) |z| := by
      by_contra hm
      have hm := not_lt.1 hm
      simp only [max_le_iff, abs_nonpos_iff] at hm
      exact h ⟨hm.1.1, hm.1.2, hm.2⟩
    set m := max (max |x| |y|) |z| with hmd
    have hr : Near u 1 (1 / m) (A.div 1 m) := near_of_abs h0 h1 (hA.div 1 m hm.ne')
    have hc : ∀ c : ℝ, Near u 5 ((c * (1 / m)) * (c * (1 / m)))
        (A.mul (A.mul c (A.div 1 m)) (A.mul c (A.div 1 m))) := by
      intro c
      have := near_mulA h0 h1 hA (Near.refl h0 h1 c) hr
      exact near_mulA h0 h1 hA this this
    have hs := near_add h0 h1 hA (add_nonneg (mul_self_nonneg _) (mul_self_nonneg _)) (mul_self_nonneg _)
      (near_add h0 h1 hA (mul_self_nonneg _) (mul_self_nonneg _) (hc x) (hc y))
      ((hc z).mono h0 h1 (by norm_num : 5 ≤ 6))
    have hnn : 0 ≤ x * (1 / m) * (x * (1 / m)) + y * (1 / m) * (y * (1 / m)) + z * (1 / m) * (z * (1 / m)) :=
      add_nonneg (add_nonneg (mul_self_nonneg _) (mul_self_nonneg _)) (mul_self_nonneg _)
    set S' := A.add (A.add (A.mul (A.mul x (A.div 1 m)) (A.mul x (A.div 1 m)))
      (A.mul (A.mul y (A.div 1 m)) (A.mul y (A.div 1 m)))) (A.mul (A.mul z (A.div 1 m)) (A.mul z (A.div 1 m))) with hS'
    have hS0 : 0 ≤ S' := by
      obtain ⟨t, t1, _, ht⟩ := hs
      rw [ht]
      exact mul_nonneg hnn (le_trans (low_pos h0 h1 _).le t1)
    have hq : Near u 8 _ (A.sqrt S') :=
      near_trans h0 h1 (near_sqrt h0 h1 hnn hs) (near_of_abs h0 h1 (hA.sqrt _ hS0))
    have hfin := near_mulA h0 h1 hA (Near.refl h0 h1 m) hq
    have hval : m * √(x * (1 / m) * (x * (1 / m)) + y * (1 / m) * (y * (1 / m)) + z * (1 / m) * (z * (1 / m))) =
        √(x ^ 2 + y ^ 2 + z ^ 2) := by
      rw [show x * (1 / m) * (x * (1 / m)) + y * (1 / m) * (y * (1 / m)) + z * (1 / m) * (z * (1 / m)) =
        (x ^ 2 + y ^ 2 + z ^ 2) / m ^ 2 by field_simp, sqrt_div (by positivity), sqrt_sq hm.le]
      field_simp
    rw [hval] at hfin
    refine ⟨A.mul m (A.sqrt S'), ?_, ?_, hfin⟩
    · have : pyDivA A 1 m = .ok (A.div 1 m) := by simp [pyDivA, hm.ne']
      simp only [threeNormA, ← hmd, this, ← hS']
    · refine (near_sign h0 h1 hfin).1.2 (sqrt_pos.2 ?_)
      by_contra hle
      refine h ⟨?_, ?_, ?_⟩ <;> nlinarith [sq_nonneg x, sq_nonneg y, sq_nonneg z]

/-- **C146** `_three_norm` has a relative error of at most nine roundings, and raises `ZeroDivisionError` exactly for the
zero vector. -/
theorem C146_norm (x y z : ℝ) :
    (x = 0 ∧ y = 0 ∧ z = 0 → threeNormA A x y z = .error .zeroDivisionError) ∧
    (¬ (x = 0 ∧ y = 0 ∧ z = 0) → ∃ r, threeNormA A x y z = .ok r ∧ 0 < r ∧
      |r - √(x ^ 2 + y ^ 2 + z ^ 2)| ≤ ((1 + u) ^ 9 - 1) * √(x ^ 2 + y ^ 2 + z ^ 2)) := by
  obtain ⟨a, b⟩ := threeNormA_near h0 h1 hA x y z
  refine ⟨a, fun h => ?_⟩
  obtain ⟨r, e, r0, hn⟩ := b h
  refine ⟨r, e, r0, ?_⟩
  have := near_error h0 h1 hn
  rwa [abs_of_nonneg (sqrt_nonneg _)] at this

/-- A moving particle's norm. -/
theorem normA_moving {p : P4} (hp : Moving p) :
    ∃ r, threeNormA A p.x p.y p.z = .ok r ∧ 0 < r ∧ Near u 9 (norm3 p) r :=
  (threeNormA_near h0 h1 hA p.x p.y p.z).2 (by unfold Moving at hp; tauto)

theorem normA_still {p : P4} (hp : ¬ Moving p) : threeNormA A p.x p.y p.z = .error .zeroDivisionError :=
  (threeNormA_near h0 h1 hA p.x p.y p.z).1 (by unfold Moving at hp; tauto)

end

/-! ## Thrust -/

section
variable {A : ArithS} (hA : AccurateS u A)
include h0 h1 hv hA

/-- A component of the axis is accurate to three roundings. -/
theorem axisA_near (φ θ : ℝ) :
    Near u 3 (sin θ * cos φ) (axisA A φ θ).1 ∧ Near u 3 (sin θ * sin φ) (axisA A φ θ).2.1 ∧
      Near u 3 (cos θ) (axisA A φ θ).2.2 := by
  have s := near_of_abs h0 h1 (hA.sin θ)
  have c := near_of_abs h0 h1 (hA.cos φ)
  have s' := near_of_abs h0 h1 (hA.sin φ)
  have c' := near_of_abs h0 h1 (hA.cos θ)
  exact ⟨near_mulA h0 h1 hA.base s c, near_mulA h0 h1 hA.base s s', c'.mono h0 h1 (by norm_num)⟩

omit h0 h1 hv hA in
theorem axis_unit (φ θ : ℝ) : (sin θ * cos φ) ^ 2 + (sin θ * sin φ) ^ 2 + cos θ ^ 2 = 1 := by
  nlinarith [sin_sq_add_cos_sq θ, sin_sq_add_cos_sq φ]

/-- The projection on the axis, with its error in units of the momentum. -/
theorem dotA_err (φ θ : ℝ) (p : P4) : Err v 6 (norm3 p) (onAxis φ θ p) (dotA A.toArith (axisA A φ θ) p) := by
  obtain ⟨ax, ay, az⟩ := axisA_near h0 h1 hv hA φ θ
  have t : ∀ {a a' : ℝ} (c : ℝ), Near u 3 a a' → Err v 4 |a * c| (a * c) (A.mul a' c) := fun c ha =>
    Err.of_near h0 h1 hv (near_mulA h0 h1 hA.base ha (Near.refl h0 h1 c))
  have h := Err.add h0 h1 hv hA.base (Err.add h0 h1 hv hA.base (t p.x ax) (t p.y ay))
    ((t p.z az).mono h0 h1 hv (by norm_num : 4 ≤ 5) le_rfl)
  have hM := cauchy3 (sin θ * cos φ) (sin θ * sin φ) (cos θ) p.x p.y p.z
  rw [axis_unit, sqrt_one, one_mul] at hM
  have := h.mono h0 h1 hv le_rfl hM
  rw [show sin θ * cos φ * p.x + sin θ * sin φ * p.y + cos θ * p.z = onAxis φ θ p by unfold onAxis; ring] at this
  exact this

theorem thrustLoopA_err (φ θ : ℝ) : ∀ (ps : List P4) (c : Nat) (s s' w w' : ℝ), (∀ p ∈ ps, Moving p) →
    0 ≤ w → Err v (6 + c) w s s' → Near u (9 + c) w w' →
    ∃ S' W', thrustLoopA A.toArith (axisA A φ θ) s' w' ps = .ok (S', W') ∧
      Err v (6 + c + ps.length) (w + sumOf norm3 ps) (s + sumOf (fun p => |onAxis φ θ p|) ps) S' ∧
      Near u (9 + c + ps.length) (w + sumOf norm3 ps) W' := by
  intro ps
  induction ps with
  | nil => intro c s s' w w' _ hw a b; exact ⟨s', w', rfl, by simpa [sumOf] using a, by simpa [sumOf] using b⟩
  | cons p ps ih =>
    intro c s s' w w' hmov hw a b
    obtain ⟨r, hr, -, hn⟩ := normA_moving h0 h1 hA.base (hmov p List.mem_cons_self)
    have hd := ((dotA_err h0 h1 hv hA φ θ p).abs').mono h0 h1 hv (by omega : 6 ≤ 6 + c) le_rfl
    have a' := Err.add h0 h1 hv hA.base a hd
    have b' := near_add h0 h1 hA.base hw (sqrt_nonneg _) b (hn.mono h0 h1 (by omega : 9 ≤ 9 + c))
    obtain ⟨S', W', e, k1, k2⟩ := ih (c + 1) _ _ _ _ (fun q hq => hmov q (List.mem_cons_of_mem _ hq))
      (add_nonneg hw (sqrt_nonneg _)) a' b'
    refine ⟨S', W', ?_, ?_, ?_⟩
    · simp only [thrustLoopA, hr]; exact e
    · rw [sumOf_cons, sumOf_cons, ← add_assoc, ← add_assoc, List.length_cons,
        show 6 + c + (ps.length + 1) = 6 + (c + 1) + ps.length by omega]
      exact k1
    · rw [sumOf_cons, ← add_assoc, List.length_cons, show 9 + c + (ps.length + 1) = 9 + (c + 1) + ps.length by omega]
      exact k2

/-- **C146** For every axis and every non-empty set of `n` moving particles the value computed with rounding is the
(negated) thrust with an *absolute* error of at most `16 + 2n` roundings, however the momenta are distributed and however
much they cancel in the projections. -/
theorem C146_thrust (φ θ : ℝ) (ps : List P4) (hne : ps ≠ []) (hmov : ∀ p ∈ ps, Moving p) :
    ∃ T', thrustA A φ θ ps = .ok (-T') ∧ |T' - thrustAt ps φ θ| ≤ (1 + v) ^ (16 + 2 * ps.length) - 1 := by
  obtain ⟨S', W', e, k1, k2⟩ := thrustLoopA_err h0 h1 hv hA φ θ ps 0 0 0 0 0 hmov le_rfl
    ⟨by simp, by simp⟩ ⟨1, (low_le_one h0 h1 _), one_le_high h0 _, by simp⟩
  simp only [zero_add, add_zero] at k1 k2
  have hpos : 0 < sumOf norm3 ps := sumOf_norm_pos hne hmov
  have hW : W' ≠ 0 := ((near_sign h0 h1 k2).2.2).not.2 hpos.ne'
  refine ⟨A.div S' W', by simp [thrustA, e, pyDivA, hW], ?_⟩
  have := (Err.div h0 h1 hv hA.base k1 hpos k2).1
  rw [div_self hpos.ne', mul_one] at this
  rw [show 16 + 2 * ps.length = 6 + ps.length + (9 + ps.length) + 1 by ring]
  exact this

end

/-! ## C-parameter -/

section
variable {A : Arith} (hA : Accurate u A)
include h0 h1 hv hA

omit h0 h1 hv hA in
theorem dot3_le (p q : P4) : |p.x * q.x| + |p.y * q.y| + |p.z * q.z| ≤ norm3 p * norm3 q :=
  cauchy3 _ _ _ _ _ _

/-- The term of a pair, with its error in units of the product of the momenta. -/
theorem cTermA_err {p q : P4} {ni nj : ℝ} (hp : Moving p) (hq : Moving q) (hi : Near u 9 (norm3 p) ni)
    (hj : Near u 9 (norm3 q) nj) :
    ∃ d, pyDivA A (A.mul (A.add (A.add (A.mul p.x q.x) (A.mul p.y q.y)) (A.mul p.z q.z))
        (A.add (A.add (A.mul p.x q.x) (A.mul p.y q.y)) (A.mul p.z q.z))) (A.mul ni nj) = .ok d ∧
      Err v 29 (4 * (norm3 p * norm3 q)) (2 * (norm3 p * norm3 q - dot3 p q ^ 2 / (norm3 p * norm3 q)))
        (A.mul 2 (A.sub (A.mul ni nj) d)) := by
  have hn := mul_pos (norm3_pos hp) (norm3_pos hq)
  have t : ∀ a b : ℝ, Err v 1 |a * b| (a * b) (A.mul a b) := fun a b =>
    Err.of_near h0 h1 hv (near_of_abs h0 h1 (hA.mul a b))
  have hd := (Err.add h0 h1 hv hA (Err.add h0 h1 hv hA (t p.x q.x) (t p.y q.y))
    ((t p.z q.z).mono h0 h1 hv (by norm_num : 1 ≤ 2) le_rfl)).mono h0 h1 hv le_rfl (dot3_le p q)
  have hdd := Err.mul h0 h1 hv hA hd hd
  have hprod := near_mulA h0 h1 hA hi hj
  have hne : A.mul ni nj ≠ 0 := ((near_sign h0 h1 hprod).2.2).not.2 hn.ne'
  have hq := Err.div h0 h1 hv hA hdd hn hprod
  have hp' := (Err.of_near h0 h1 hv hprod).mono h0 h1 hv (by norm_num : 19 ≤ 27) (le_of_eq (abs_of_pos hn))
  rw [mul_div_assoc, div_self hn.ne', mul_one] at hq
  have hs := Err.sub h0 h1 hv hA hp' hq
  have hf := Err.mul h0 h1 hv hA (Err.exact 2) hs
  refine ⟨A.div _ _, if_neg hne, ?_⟩
  have := hf.mono h0 h1 hv (le_refl _) (show |(2 : ℝ)| * (norm3 p * norm3 q + norm3 p * norm3 q) ≤
    4 * (norm3 p * norm3 q) by rw [abs_of_pos (by norm_num)]; linarith)
  rw [show dot3 p q ^ 2 = (p.x * q.x + p.y * q.y + p.z * q.z) * (p.x * q.x + p.y * q.y + p.z * q.z) by
    unfold dot3; ring]
  exact this

theorem cInnerA_err {p : P4} {ni : ℝ} (hp : Moving p) (hi : Near u 9 (norm3 p) ni) :
    ∀ (qs : List P4) (c : Nat) (M out out' : ℝ), (∀ q ∈ qs, Moving q) → Err v (29 + c) M out out' →
    ∃ o o', cInner p (norm3 p) out qs = .ok o ∧ cInnerA A p ni out' qs = .ok o' ∧
      Err v (29 + c + qs.length) (M + 4 * (norm3 p * sumOf norm3 qs)) o o' := by
  intro qs
  induction qs with
  | nil => intro c M out out' _ a; exact ⟨out, out', rfl, rfl, by simpa [sumOf] using a⟩
  | cons q qs ih =>
    intro c M out out' hmov a
    have hq := hmov q List.mem_cons_self
    obtain ⟨nj, hr, -, hn⟩ := normA_moving h0 h1 hA hq
    obtain ⟨d, hd, he⟩ := cTermA_err h0 h1 hv hA hp hq hi hn
    have a' := Err.add h0 h1 hv hA a (he.mono h0 h1 hv (by omega : 29 ≤ 29 + c) le_rfl)
    obtain ⟨o, o', e1, e2, k⟩ := ih (c + 1) _ _ _ (fun q hq => hmov q (List.mem_cons_of_mem _ hq)) a'
    have hnn := mul_pos (norm3_pos hp) (norm3_pos hq)
    refine ⟨o, o', ?_, ?_, ?_⟩
    · rw [cInner, threeNorm_moving hq]
      simp only [pyDiv, hnn.ne', if_false]
      rw [← e1]
      congr 1
      unfold dot3; ring
    · rw [cInnerA, hr]
      simp only [hd]
      exact e2
    · rw [sumOf_cons, List.length_cons, show 29 + c + (qs.length + 1) = 29 + (c + 1) + qs.length by omega,
        show M + 4 * (norm3 p * (norm3 q + sumOf norm3 qs)) =
          M + 4 * (norm3 p * norm3 q) + 4 * (norm3 p * sumOf norm3 qs) by ring]
      exact k

/-- The number of pairs `i ≤ j`. -/
def pairsN (n : Nat) : Nat := n * (n + 1) / 2

omit h0 h1 hv hA in
theorem pairsN_succ (n : Nat) : pairsN (n + 1) = pairsN n + (n + 1) := by
  unfold pairsN
  rw [show (n + 1) * (n + 1 + 1) = n * (n + 1) + 2 * (n + 1) by ring]
  omega

theorem cOuterA_err : ∀ (ps : List P4) (c d : Nat) (M out out' w w' : ℝ), (∀ q ∈ ps, Moving q) → 0 ≤ w →
    Err v (29 + c) M out out' → Near u (9 + d) w w' →
    ∃ o o' s', cOuter out w ps = .ok (o, w + sumOf norm3 ps) ∧ cOuterA A out' w' ps = .ok (o', s') ∧
      Err v (29 + c + pairsN ps.length) (M + 4 * sumOf norm3 ps ^ 2) o o' ∧
      Near u (9 + d + ps.length) (w + sumOf norm3 ps) s' := by
  intro ps
  induction ps with
  | nil =>
    intro c d M out out' w w' _ _ a b
    exact ⟨out, out', w', by simp [cOuter, sumOf], rfl, by simpa [sumOf, pairsN] using a, by simpa [sumOf] using b⟩
  | cons p ps ih =>
    intro c d M out out' w w' hmov hw a b
    have hp := hmov p List.mem_cons_self
    obtain ⟨ni, hr, -, hn⟩ := normA_moving h0 h1 hA hp
    obtain ⟨o1, o1', e1, e2, k⟩ := cInnerA_err h0 h1 hv hA hp hn (p :: ps) c M out out' hmov a
    have b' := near_add h0 h1 hA hw (norm3_pos hp).le b (hn.mono h0 h1 (by omega : 9 ≤ 9 + d))
    rw [List.length_cons, add_assoc] at k
    obtain ⟨o, o', s', f1, f2, k1, k2⟩ := ih (c + (ps.length + 1)) (d + 1) _ o1 o1' _ _
      (fun q hq => hmov q (List.mem_cons_of_mem _ hq)) (add_nonneg hw (norm3_pos hp).le) k b'
    refine ⟨o, o', s', ?_, ?_, ?_, ?_⟩
    · rw [cOuter, threeNorm_moving hp]
      simp only [e1, f1, sumOf_cons, add_assoc]
    · rw [cOuterA, hr]
      simp only [e2, f2]
    · rw [List.length_cons, pairsN_succ]
      refine k1.mono h0 h1 hv (by omega) ?_
      rw [sumOf_cons]
      have hS : 0 ≤ sumOf norm3 ps := by
        clear ih k1 k2 f1 f2 e1 e2 k a hmov
        induction ps with
        | nil => simp [sumOf]
        | cons q qs ih => rw [sumOf_cons]; exact add_nonneg (sqrt_nonneg _) ih
      nlinarith [norm3_pos hp, mul_nonneg (norm3_pos hp).le hS]
    · rw [sumOf_cons, ← add_assoc, List.length_cons, show 9 + d + (ps.length + 1) = 9 + (d + 1) + ps.length by omega]
      exact k2

/-- **C146** For every non-empty set of `n` moving particles the C-parameter computed with rounding has an *absolute*
error of at most six times `50 + 2n + n(n+1)/2` roundings, however much the terms of collinear pairs cancel. -/
theorem C146_c_parameter (ps : List P4) (hne : ps ≠ []) (hmov : ∀ p ∈ ps, Moving p) :
    ∃ C', cParameterA A ps = .ok C' ∧
      |C' - cParam ps| ≤ 6 * ((1 + v) ^ (50 + 2 * ps.length + ps.length * (ps.length + 1) / 2) - 1) := by
  obtain ⟨o, o', s', f1, f2, k1, k2⟩ := cOuterA_err h0 h1 hv hA ps 0 0 0 0 0 0 0 hmov le_rfl
    ⟨by simp, by simp⟩ ⟨1, (low_le_one h0 h1 _), one_le_high h0 _, by simp⟩
  simp only [zero_add, add_zero] at k1 k2 f1
  have hpos : 0 < sumOf norm3 ps := sumOf_norm_pos hne hmov
  have hden := near_mulA h0 h1 hA k2 k2
  have hpos2 := mul_pos hpos hpos
  have hs : A.mul s' s' ≠ 0 := ((near_sign h0 h1 hden).2.2).not.2 hpos2.ne'
  have hnum := Err.mul h0 h1 hv hA (Err.exact 1.5) k1
  have hq := Err.div h0 h1 hv hA hnum hpos2 hden
  have hC : 1.5 * o / (sumOf norm3 ps * sumOf norm3 ps) = cParam ps := by
    have := (C71_value ps hne hmov).1
    rw [cParameter, f1] at this
    simpa [pyDiv, hpos2.ne', hpos.ne'] using this
  refine ⟨A.div (A.mul 1.5 o') (A.mul s' s'), by simp only [cParameterA, f2, pyDivA, hs, if_false], ?_⟩
  have hM : |(1.5 : ℝ)| * (4 * sumOf norm3 ps ^ 2) / (sumOf norm3 ps * sumOf norm3 ps) = 6 := by
    rw [abs_of_pos (by norm_num)]; field_simp; norm_num
  rw [hC, hM] at hq
  have := hq.1
  rw [show 0 + (29 + pairsN ps.length) + 1 + (9 + ps.length + (9 + ps.length) + 1) + 1 =
    50 + 2 * ps.length + ps.length * (ps.length + 1) / 2 by unfold pairsN; ring] at this
  linarith

/-- Without particles, or with one at rest, the rounded functions raise `ZeroDivisionError`, too. -/
theorem cInnerA_still {p : P4} {ni : ℝ} (hp : Moving p) (hi : Near u 9 (norm3 p) ni) :
    ∀ (qs : List P4) (out' : ℝ), (∃ q ∈ qs, ¬ Moving q) → cInnerA A p ni out' qs = .error .zeroDivisionError := by
  intro qs
  induction qs with
  | nil => rintro out' ⟨q, hq, -⟩; simp at hq
  | cons q qs ih =>
    rintro out' ⟨r, hr, hs⟩
    by_cases hq : Moving q
    · obtain ⟨nj, h, -, hn⟩ := normA_moving h0 h1 hA hq
      obtain ⟨d, hd, -⟩ := cTermA_err h0 h1 hv hA hp hq hi hn
      rw [cInnerA, h]
      simp only [hd]
      refine ih _ ⟨r, ?_, hs⟩
      rcases List.mem_cons.1 hr with rfl | hr
      · exact absurd hq hs
      · exact hr
    · rw [cInnerA, normA_still h0 h1 hA hq]

end

section
variable {A : ArithS} (hA : AccurateS u A)
include h0 h1 hv hA

/-- **C146** Thrust and C-parameter computed with rounding raise in the same cases as the exact ones: exactly if there is
no particle, or one at rest. -/
theorem C146_raises (φ θ : ℝ) (ps : List P4) :
    ((∃ r, thrustA A φ θ ps = .ok r) ↔ ps ≠ [] ∧ ∀ p ∈ ps, Moving p) ∧
    ((∃ r, cParameterA A.toArith ps = .ok r) ↔ ps ≠ [] ∧ ∀ p ∈ ps, Moving p) ∧
    (∀ e, thrustA A φ θ ps = .error e ∨ cParameterA A.toArith ps = .error e → e = .zeroDivisionError) := by
  by_cases h : ps ≠ [] ∧ ∀ p ∈ ps, Moving p
  · obtain ⟨T, hT, -⟩ := C146_thrust h0 h1 hv hA φ θ ps h.1 h.2
    obtain ⟨C, hC, -⟩ := C146_c_parameter h0 h1 hv hA.base ps h.1 h.2
    rw [hT, hC]
    simp [h]
    exact h.2
  · have key : thrustA A φ θ ps = .error .zeroDivisionError ∧ cParameterA A.toArith ps = .error .zeroDivisionError := by
      by_cases hne : ps = []
      · subst hne
        have h00 : A.mul 0 0 = 0 := by simpa using hA.base.mul 0 0
        simp [thrustA, thrustLoopA, pyDivA, cParameterA, cOuterA, h00]
      · have hs : ∃ p ∈ ps, ¬ Moving p := by
          by_contra hs
          exact h ⟨hne, fun p hp => by by_contra hm; exact hs ⟨p, hp, hm⟩⟩
        have t : ∀ (qs : List P4) (s w : ℝ), (∃ p ∈ qs, ¬ Moving p) →
            thrustLoopA A.toArith (axisA A φ θ) s w qs = .error .zeroDivisionError := by
          intro qs
          induction qs with
          | nil => rintro s w ⟨p, hp, -⟩; simp at hp
          | cons q qs ih =>
            rintro s w ⟨p, hp, hs⟩
            by_cases hq : Moving q
            · obtain ⟨r, hr, -⟩ := normA_moving h0 h1 hA.base hq
              rw [thrustLoopA, hr]
              refine ih _ _ ⟨p, ?_, hs⟩
              rcases List.mem_cons.1 hp with rfl | hp
              · exact absurd hq hs
              · exact hp
            · rw [thrustLoopA, normA_still h0 h1 hA.base hq]
        have c : ∀ (qs : List P4) (s w : ℝ), (∃ p ∈ qs, ¬ Moving p) →
            cOuterA A.toArith s w qs = .error .zeroDivisionError := by
          intro qs
          cases qs with
          | nil => rintro s w ⟨p, hp, -⟩; simp at hp
          | cons q qs =>
            rintro s w hs
            by_cases hq : Moving q
            · obtain ⟨r, hr, -, hn⟩ := normA_moving h0 h1 hA.base hq
              rw [cOuterA, hr]
              simp only [cInnerA_still h0 h1 hv hA.base hq hn (q :: qs) s hs]
            · rw [cOuterA, normA_still h0 h1 hA.base hq]
        exact ⟨by rw [thrustA, t ps 0 0 hs], by rw [cParameterA, c ps 0 0 hs]⟩
    rw [key.1, key.2]
    simp only [h, iff_false]
    refine ⟨by simp, by simp, ?_⟩
    rintro e (h | h) <;> cases h <;> rfl

/-! ## Spherocity -/

/-- The distance from the axis, with its error in units of the momentum. -/
theorem crossA_err (φ θ : ℝ) (p : P4) (cn : ℝ)
    (h : threeNormA A.toArith (crossA A.toArith (axisA A φ θ) p).1 (crossA A.toArith (axisA A φ θ) p).2.1
      (crossA A.toArith (axisA A φ θ) p).2.2 = .ok cn) :
    Err v 14 (2 * norm3 p) (offAxis φ θ p) cn := by
  obtain ⟨ax, ay, az⟩ := axisA_near h0 h1 hv hA φ θ
  have hu := axis_unit φ θ
  have hN : 0 ≤ norm3 p := sqrt_nonneg _
  have hNsq : norm3 p ^ 2 = p.x ^ 2 + p.y ^ 2 + p.z ^ 2 := sq_sqrt (by positivity)
  have t : ∀ {a a' : ℝ} (c : ℝ), Near u 3 a a' → Err v 4 |c * a| (c * a) (A.mul c a') := fun c ha => by
    have := Err.of_near h0 h1 hv (near_mulA h0 h1 hA.base (Near.refl h0 h1 c) ha)
    exact this
  have bd : ∀ a b c d : ℝ, a ^ 2 + b ^ 2 ≤ 1 → c ^ 2 + d ^ 2 ≤ norm3 p ^ 2 → |c * a| + |d * b| ≤ norm3 p := by
    intro a b c d hab hcd
    have := cauchy3 a b 0 c d 0
    simp only [mul_zero, abs_zero, add_zero, ne_eq, OfNat.ofNat_ne_zero, not_false_eq_true, zero_pow] at this
    rw [mul_comm c, mul_comm d]
    refine this.trans ?_
    have e1 : √(a ^ 2 + b ^ 2) ≤ 1 := sqrt_le_one.2 hab
    have e2 : √(c ^ 2 + d ^ 2) ≤ norm3 p := sqrt_le_iff.2 ⟨hN, hcd⟩
    calc _ ≤ 1 * norm3 p := mul_le_mul e1 e2 (sqrt_nonneg _) zero_le_one
      _ = _ := one_mul _
  set X := sin θ * cos φ with hX
  set Y := sin θ * sin φ with hY
  set Z := cos θ with hZ
  have c1 := (Err.sub h0 h1 hv hA.base (t p.y az) (t p.z ay)).mono h0 h1 hv le_rfl
    (bd Z Y p.y p.z (by nlinarith [sq_nonneg X]) (by nlinarith [sq_nonneg p.x]))
  have c2 := (Err.sub h0 h1 hv hA.base (t p.z ax) (t p.x az)).mono h0 h1 hv le_rfl
    (bd X Z p.z p.x (by nlinarith [sq_nonneg Y]) (by nlinarith [sq_nonneg p.y]))
  have c3 := (Err.sub h0 h1 hv hA.base (t p.x ay) (t p.y ax)).mono h0 h1 hv le_rfl
    (bd Y X p.x p.y (by nlinarith [sq_nonneg Z]) (by nlinarith [sq_nonneg p.z]))
  change Err v 5 _ _ (crossA A.toArith (axisA A φ θ) p).1 at c1
  change Err v 5 _ _ (crossA A.toArith (axisA A φ θ) p).2.1 at c2
  change Err v 5 _ _ (crossA A.toArith (axisA A φ θ) p).2.2 at c3
  revert c1 c2 c3 h
  generalize (crossA A.toArith (axisA A φ θ) p).1 = a'
  generalize (crossA A.toArith (axisA A φ θ) p).2.1 = b'
  generalize (crossA A.toArith (axisA A φ θ) p).2.2 = c'
  intro h c1 c2 c3
  have hoff : offAxis φ θ p = √((p.y * Z - p.z * Y) ^ 2 + (p.z * X - p.x * Z) ^ 2 + (p.x * Y - p.y * X) ^ 2) := rfl
  set a := p.y * Z - p.z * Y with ha
  set b := p.z * X - p.x * Z with hb
  set c := p.x * Y - p.y * X with hc
  have g5 := one_le_v h0 h1 hv 5
  have g9 := one_le_v h0 h1 hv 9
  -- the norms of the exact and the computed vector differ little
  have hD : |√(a' ^ 2 + b' ^ 2 + c' ^ 2) - √(a ^ 2 + b ^ 2 + c ^ 2)| ≤ ((1 + v) ^ 5 - 1) * (2 * norm3 p) := by
    have tri : ∀ a b c a' b' c' : ℝ, √(a' ^ 2 + b' ^ 2 + c' ^ 2) ≤
        √(a ^ 2 + b ^ 2 + c ^ 2) + √((a' - a) ^ 2 + (b' - b) ^ 2 + (c' - c) ^ 2) := by
      intro a b c a' b' c'
      rw [sqrt_le_iff]
      refine ⟨by positivity, ?_⟩
      have hcs := cauchy3 a b c (a' - a) (b' - b) (c' - c)
      have e1 := sq_sqrt (show 0 ≤ a ^ 2 + b ^ 2 + c ^ 2 by positivity)
      have e2 := sq_sqrt (show 0 ≤ (a' - a) ^ 2 + (b' - b) ^ 2 + (c' - c) ^ 2 by positivity)
      nlinarith [le_abs_self (a * (a' - a)), le_abs_self (b * (b' - b)), le_abs_self (c * (c' - c))]
    have hdiff : √((a' - a) ^ 2 + (b' - b) ^ 2 + (c' - c) ^ 2) ≤ ((1 + v) ^ 5 - 1) * (2 * norm3 p) := by
      have hG : 0 ≤ ((1 + v) ^ 5 - 1) * norm3 p := mul_nonneg (by linarith) hN
      rw [sqrt_le_iff]
      refine ⟨by linarith, ?_⟩
      have q : ∀ {s s' : ℝ}, |s' - s| ≤ ((1 + v) ^ 5 - 1) * norm3 p → (s' - s) ^ 2 ≤ (((1 + v) ^ 5 - 1) * norm3 p) ^ 2 :=
        fun h => by rw [← sq_abs]; exact pow_le_pow_left₀ (abs_nonneg _) h 2
      have q1 := q c1.1
      have q2 := q c2.1
      have q3 := q c3.1
      have q4 := sq_nonneg (((1 + v) ^ 5 - 1) * norm3 p)
      rw [show (((1 + v) ^ 5 - 1) * (2 * norm3 p)) ^ 2 = 4 * (((1 + v) ^ 5 - 1) * norm3 p) ^ 2 by ring]
      linarith
    rw [abs_le]
    have t1 := tri a b c a' b' c'
    have t2 := tri a' b' c' a b c
    rw [show (a - a') ^ 2 + (b - b') ^ 2 + (c - c') ^ 2 = (a' - a) ^ 2 + (b' - b) ^ 2 + (c' - c) ^ 2 by ring] at t2
    constructor <;> linarith
  have hle : √(a ^ 2 + b ^ 2 + c ^ 2) ≤ 2 * norm3 p := by
    rw [sqrt_le_iff]
    refine ⟨by linarith, ?_⟩
    have q : ∀ {s : ℝ}, |s| ≤ norm3 p → s ^ 2 ≤ norm3 p ^ 2 :=
      fun h => by rw [← sq_abs]; exact pow_le_pow_left₀ (abs_nonneg _) h 2
    have q1 := q c1.2
    have q2 := q c2.2
    have q3 := q c3.2
    have q4 := sq_nonneg (norm3 p)
    rw [show (2 * norm3 p) ^ 2 = 4 * norm3 p ^ 2 by ring]
    linarith
  have hbase : Err v 5 (2 * norm3 p) (offAxis φ θ p) (√(a' ^ 2 + b' ^ 2 + c' ^ 2)) := by
    rw [hoff]
    exact ⟨hD, by rw [abs_of_nonneg (sqrt_nonneg _)]; exact hle⟩
  have hz : ¬ (a' = 0 ∧ b' = 0 ∧ c' = 0) := by
    intro hz
    rw [(threeNormA_near h0 h1 hA.base a' b' c').1 hz] at h
    cases h
  obtain ⟨r, hr, -, k, k1, k2, rfl⟩ := (threeNormA_near h0 h1 hA.base a' b' c').2 hz
  rw [hr] at h
  cases h
  have hgl : (1 + v) ^ 9 * (1 - u) ^ 9 = 1 := by rw [← mul_pow, hv, one_pow]
  refine hbase.factor h0 h1 hv (l := 9) ?_ ?_ (le_trans (low_pos h0 h1 9).le k1)
  · calc (1 : ℝ) = (1 - u) ^ 9 * (1 + v) ^ 9 := by rw [mul_comm]; exact hgl.symm
      _ ≤ k * (1 + v) ^ 9 := mul_le_mul_of_nonneg_right k1 (by linarith)
  · exact k2.trans (pow_le_pow_left₀ (by linarith) (by have := u_le_v h0 h1 hv; linarith) 9)

theorem sphLoopA_err (φ θ : ℝ) : ∀ (ps : List P4) (c : Nat) (s s' w w' S' W' : ℝ),
    0 ≤ w → Err v (14 + c) (2 * w) s s' → Near u (9 + c) w w' →
    sphLoopA A.toArith (axisA A φ θ) s' w' ps = .ok (S', W') →
      Err v (14 + c + ps.length) (2 * (w + sumOf norm3 ps)) (s + sumOf (offAxis φ θ) ps) S' ∧
      Near u (9 + c + ps.length) (w + sumOf norm3 ps) W' ∧ ∀ p ∈ ps, Moving p := by
  intro ps
  induction ps with
  | nil =>
    intro c s s' w w' S' W' hw a b h
    simp only [sphLoopA, Except.ok.injEq, Prod.mk.injEq] at h
    obtain ⟨rfl, rfl⟩ := h
    exact ⟨by simpa [sumOf] using a, by simpa [sumOf] using b, by simp⟩
  | cons p ps ih =>
    intro c s s' w w' S' W' hw a b h
    by_cases hp : Moving p
    · obtain ⟨r, hr, -, hn⟩ := normA_moving h0 h1 hA.base hp
      rw [sphLoopA, hr] at h
      simp only at h
      cases hc : threeNormA A.toArith (crossA A.toArith (axisA A φ θ) p).1 (crossA A.toArith (axisA A φ θ) p).2.1
          (crossA A.toArith (axisA A φ θ) p).2.2 with
      | error e => rw [hc] at h; cases h
      | ok cn =>
        rw [hc] at h
        simp only at h
        have a' := Err.add h0 h1 hv hA.base a
          ((crossA_err h0 h1 hv hA φ θ p cn hc).mono h0 h1 hv (by omega : 14 ≤ 14 + c) le_rfl)
        rw [← mul_add] at a'
        have b' := near_add h0 h1 hA.base hw (sqrt_nonneg _) b (hn.mono h0 h1 (by omega : 9 ≤ 9 + c))
        obtain ⟨k1, k2, k3⟩ := ih (c + 1) _ _ _ _ S' W' (add_nonneg hw (sqrt_nonneg _)) a' b' h
        refine ⟨?_, ?_, ?_⟩
        · rw [sumOf_cons, sumOf_cons, ← add_assoc, ← add_assoc, List.length_cons,
            show 14 + c + (ps.length + 1) = 14 + (c + 1) + ps.length by omega]
          exact k1
        · rw [sumOf_cons, ← add_assoc, List.length_cons,
            show 9 + c + (ps.length + 1) = 9 + (c + 1) + ps.length by omega]
          exact k2
        · intro q hq
          rcases List.mem_cons.1 hq with rfl | hq
          · exact hp
          · exact k3 q hq
    · rw [sphLoopA, normA_still h0 h1 hA.base hp] at h
      cases h

/-- **C146** Whenever the spherocity computed with rounding has a value for an axis, that value has an *absolute* error of
at most `64/π²` times `55 + 4n` roundings (`math.pi` being one rounding away from π). -/
theorem C146_spherocity (mathPi φ θ : ℝ) (hpi : |mathPi - π| ≤ u * |π|) (ps : List P4) (S' : ℝ)
    (h : spherocityA A mathPi φ θ ps = .ok S') :
    |S' - spherocityAt ps φ θ| ≤ 64 / π ^ 2 * ((1 + v) ^ (55 + 4 * ps.length) - 1) := by
  unfold spherocityA at h
  cases hl : sphLoopA A.toArith (axisA A φ θ) 0 0 ps with
  | error e => rw [hl] at h; cases h
  | ok r =>
    obtain ⟨s, w⟩ := r
    rw [hl] at h
    simp only at h
    obtain ⟨k1, k2, k3⟩ := sphLoopA_err h0 h1 hv hA φ θ ps 0 0 0 0 0 s w le_rfl
      ⟨by simp, by simp⟩ ⟨1, (low_le_one h0 h1 _), one_le_high h0 _, by simp⟩ hl
    simp only [zero_add, add_zero] at k1 k2
    have hne : ps ≠ [] := by
      rintro rfl
      simp only [sphLoopA, Except.ok.injEq, Prod.mk.injEq] at hl
      obtain ⟨rfl, rfl⟩ := hl
      have h00 : A.mul mathPi 0 = 0 := by simpa using hA.base.mul mathPi 0
      simp [pyDivA, h00] at h
    have hpos : 0 < sumOf norm3 ps := sumOf_norm_pos hne k3
    have hden := near_mulA h0 h1 hA.base (near_of_abs h0 h1 hpi) k2
    have hposd := mul_pos pi_pos hpos
    have hd0 : A.mul mathPi w ≠ 0 := ((near_sign h0 h1 hden).2.2).not.2 hposd.ne'
    simp only [pyDivA, hd0, if_false, Except.ok.injEq] at h
    have hr := Err.div h0 h1 hv hA.base (Err.exact 4) hposd hden
    have hr2 := Err.mul h0 h1 hv hA.base hr hr
    have hfin := Err.mul h0 h1 hv hA.base (Err.mul h0 h1 hv hA.base hr2 k1) k1
    rw [h] at hfin
    have e1 : 4 / (π * sumOf norm3 ps) * (4 / (π * sumOf norm3 ps)) * sumOf (offAxis φ θ) ps * sumOf (offAxis φ θ) ps =
        spherocityAt ps φ θ := by
      unfold spherocityAt
      field_simp
    have e2 : |(4 : ℝ)| / (π * sumOf norm3 ps) * (|4| / (π * sumOf norm3 ps)) * (2 * sumOf norm3 ps) *
        (2 * sumOf norm3 ps) = 64 / π ^ 2 := by
      rw [abs_of_pos (by norm_num)]
      field_simp
      norm_num
    rw [e1, e2] at hfin
    have := hfin.1
    rw [show 0 + (1 + (9 + ps.length) + 1) + 1 + (0 + (1 + (9 + ps.length) + 1) + 1) + 1 + (14 + ps.length) + 1 +
      (14 + ps.length) + 1 = 55 + 4 * ps.length by ring] at this
    linarith

end

end

/-! ## Exact arithmetic, and what rounding can do -/

/-- The value, without the gradient. -/
def valueOnly (r : Py (ℝ × ℝ × ℝ)) : Py ℝ :=
  match r with
  | .error e => .error e
  | .ok v => .ok v.1

theorem threeNormA_exact (x y z : ℝ) : threeNormA .exact x y z = threeNorm x y z := rfl

/-- **C146** Exact arithmetic is one of the arithmetics, and gives the functions of Model/EventShape.lean. -/
theorem C146_exact (φ θ : ℝ) (ps : List P4) :
    thrustA .exact φ θ ps = valueOnly (thrustWithGrad φ θ ps) ∧
    spherocityA .exact π φ θ ps = valueOnly (spherocityWithGrad φ θ ps) ∧
    cParameterA .exact ps = cParameter ps := by
  refine ⟨?_, ?_, ?_⟩
  · have hl : ∀ (ps : List P4) (acc : ThrustAcc),
        thrustLoopA .exact (axisA .exact φ θ) acc.absDot acc.norm ps =
          match thrustLoop φ θ acc ps with
          | .error e => .error e
          | .ok a => .ok (a.absDot, a.norm) := by
      intro ps
      induction ps with
      | nil => intro acc; rfl
      | cons p ps ih =>
        intro acc
        rw [thrustLoopA, thrustLoop, thrustStep, threeNormA_exact]
        cases threeNorm p.x p.y p.z with
        | error e => rfl
        | ok r =>
          exact ih ⟨acc.absDot + |sin θ * cos φ * p.x + sin θ * sin φ * p.y + cos θ * p.z|, acc.norm + r, _, _⟩
    have := hl ps ⟨0, 0, 0, 0⟩
    simp only at this
    rw [thrustA, thrustWithGrad, show ArithS.exact.toArith = Arith.exact from rfl, this]
    cases thrustLoop φ θ ⟨0, 0, 0, 0⟩ ps with
    | error e => rfl
    | ok a =>
      simp only [pyDivA, pyDiv, Arith.exact]
      by_cases h : a.norm = 0 <;> simp [h, valueOnly]
  · have hl : ∀ (ps : List P4) (acc : SphAcc),
        sphLoopA .exact (axisA .exact φ θ) acc.cross acc.norm ps =
          match sphLoop φ θ acc ps with
          | .error e => .error e
          | .ok a => .ok (a.cross, a.norm) := by
      intro ps
      induction ps with
      | nil => intro acc; rfl
      | cons p ps ih =>
        intro acc
        rw [sphLoopA, sphLoop, sphStep, threeNormA_exact]
        cases threeNorm p.x p.y p.z with
        | error e => rfl
        | ok r =>
          simp only [threeNormA_exact]
          have hc : threeNorm (crossA .exact (axisA .exact φ θ) p).1 (crossA .exact (axisA .exact φ θ) p).2.1
              (crossA .exact (axisA .exact φ θ) p).2.2 =
              threeNorm (p.y * cos θ - p.z * (sin θ * sin φ)) (p.z * (sin θ * cos φ) - p.x * cos θ)
                (p.x * (sin θ * sin φ) - p.y * (sin θ * cos φ)) := rfl
          rw [hc]
          by_cases hz : (p.y * cos θ - p.z * (sin θ * sin φ)) = 0 ∧ (p.z * (sin θ * cos φ) - p.x * cos θ) = 0 ∧
              (p.x * (sin θ * sin φ) - p.y * (sin θ * cos φ)) = 0
          · rw [hz.1, hz.2.1, hz.2.2, threeNorm_zero]
          · have hz' : (p.y * cos θ - p.z * (sin θ * sin φ)) ≠ 0 ∨ (p.z * (sin θ * cos φ) - p.x * cos θ) ≠ 0 ∨
              (p.x * (sin θ * sin φ) - p.y * (sin θ * cos φ)) ≠ 0 := by tauto
            rw [threeNorm_ok hz']
            have hpos : √((p.y * cos θ - p.z * (sin θ * sin φ)) ^ 2 + (p.z * (sin θ * cos φ) - p.x * cos θ) ^ 2 +
                (p.x * (sin θ * sin φ) - p.y * (sin θ * cos φ)) ^ 2) ≠ 0 := by
              refine (sqrt_pos.2 ?_).ne'
              rcases hz' with h | h | h <;> positivity
            simp only [pyDiv, hpos, if_false]
            exact ih ⟨acc.cross + √((p.y * cos θ - p.z * (sin θ * sin φ)) ^ 2 +
              (p.z * (sin θ * cos φ) - p.x * cos θ) ^ 2 +
              (p.x * (sin θ * sin φ) - p.y * (sin θ * cos φ)) ^ 2), acc.norm + r, _, _⟩
    have := hl ps ⟨0, 0, 0, 0⟩
    simp only at this
    rw [spherocityA, spherocityWithGrad, show ArithS.exact.toArith = Arith.exact from rfl, this]
    cases sphLoop φ θ ⟨0, 0, 0, 0⟩ ps with
    | error e => rfl
    | ok a =>
      simp only [pyDivA, pyDiv, Arith.exact]
      by_cases h : π * a.norm = 0
      · simp [h, valueOnly]
      · simp [h, valueOnly, pow_two]
  · have hi : ∀ (p : P4) (ni : ℝ) (qs : List P4) (out : ℝ), cInnerA .exact p ni out qs = cInner p ni out qs := by
      intro p ni qs
      induction qs with
      | nil => intro out; rfl
      | cons q qs ih =>
        intro out
        rw [cInnerA, cInner, threeNormA_exact]
        cases threeNorm q.x q.y q.z with
        | error e => rfl
        | ok nj =>
          simp only [pyDivA, pyDiv, Arith.exact]
          by_cases h : ni * nj = 0
          · simp [h]
          · simp only [h, if_false]
            exact ih _
    have ho : ∀ (ps : List P4) (out w : ℝ), cOuterA .exact out w ps = cOuter out w ps := by
      intro ps
      induction ps with
      | nil => intro out w; rfl
      | cons p ps ih =>
        intro out w
        rw [cOuterA, cOuter, threeNormA_exact]
        cases threeNorm p.x p.y p.z with
        | error e => rfl
        | ok ni =>
          simp only [hi]
          cases cInner p ni out (p :: ps) with
          | error e => rfl
          | ok o => exact ih _ _
    rw [cParameterA, cParameter, ho]
    cases cOuter 0 0 ps with
    | error e => rfl
    | ok r => rfl

/-- **C146** The ranges are not kept: however accurate the arithmetic, rounding alone can give a single particle a thrust
above one and a negative C-parameter. -/
theorem C146_false (u : ℝ) (h0 : 0 < u) (h1 : u < 1) : ∃ A : ArithS, AccurateS u A ∧
    ∃ T C : ℝ, thrustA A 0 0 [⟨0, 0, 1, 1⟩] = .ok (-T) ∧ 1 < T ∧
      cParameterA A.toArith [⟨0, 0, 1, 1⟩] = .ok C ∧ C < 0 := by
  have hu : 0 < 1 - u := by linarith
  let A : ArithS := { ArithS.exact with sqrt := fun x => (1 - u) * √x }
  have hA : AccurateS u A := by
    refine ⟨⟨?_, ?_, ?_, ?_, ?_, ?_, ?_, ?_⟩, ?_, ?_, ?_, ?_⟩
    case refine_5 =>
      intro x _
      change |(1 - u) * √x - √x| ≤ u * |√x|
      rw [show (1 - u) * √x - √x = -(u * √x) by ring, abs_neg, abs_mul, abs_of_pos h0]
    all_goals
      intros
      simp only [A, ArithS.exact, Arith.exact, sub_self, abs_zero]
      positivity
  have hn : threeNormA A.toArith 0 0 1 = .ok (1 - u) := by
    simp [threeNormA, pyDivA, A, ArithS.exact, Arith.exact]
  have hd : dotA A.toArith (axisA A 0 0) ⟨0, 0, 1, 1⟩ = 1 := by
    simp [dotA, axisA, A, ArithS.exact, Arith.exact]
  refine ⟨A, hA, 1 / (1 - u), 3 / 2 * (2 * ((1 - u) * (1 - u) - 1 / ((1 - u) * (1 - u)))) / ((1 - u) * (1 - u)), ?_, ?_, ?_, ?_⟩
  · simp only [thrustA, thrustLoopA, hn, hd]
    simp [pyDivA, A, ArithS.exact, Arith.exact, hu.ne']
  · rw [lt_div_iff₀ hu]; linarith
  · simp only [cParameterA, cOuterA, cInnerA, hn]
    simp [pyDivA, A, ArithS.exact, Arith.exact, hu.ne']
    norm_num
  · have hlt : (1 - u) * (1 - u) < 1 := by nlinarith
    have hp : 0 < (1 - u) * (1 - u) := mul_pos hu hu
    have : 1 < 1 / ((1 - u) * (1 - u)) := by rw [lt_div_iff₀ hp]; linarith
    exact div_neg_of_neg_of_pos (by linarith) hp

/-- **C146** And whether spherocity raises for an axis along a particle is decided by rounding: exact arithmetic raises
`ZeroDivisionError`, another accurate arithmetic gives a value. -/
theorem C146_spherocity_false (u : ℝ) (h0 : 0 < u) (h1 : u < 1) :
    spherocityA .exact π 0 (π / 4) [⟨1, 0, 1, 2⟩] = .error .zeroDivisionError ∧
    ∃ A : ArithS, AccurateS u A ∧ ∃ S, spherocityA A π 0 (π / 4) [⟨1, 0, 1, 2⟩] = .ok S := by
  have h2 : (0 : ℝ) < √2 / 2 := by positivity
  constructor
  · have hn : threeNormA Arith.exact 1 0 1 = .ok (√2) := by
      rw [threeNormA_exact, threeNorm_ok (by simp)]; norm_num
    have hc : threeNormA Arith.exact 0 0 0 = .error .zeroDivisionError := by rw [threeNormA_exact, threeNorm_zero]
    have hcr : crossA Arith.exact (axisA .exact 0 (π / 4)) ⟨1, 0, 1, 2⟩ = (0, 0, 0) := by
      simp [crossA, axisA, ArithS.exact, Arith.exact]
    rw [spherocityA, show ArithS.exact.toArith = Arith.exact from rfl, sphLoopA]
    simp only [hn, hcr, hc]
  · let A : ArithS := { ArithS.exact with sin := fun x => (1 + u) * sin x }
    have hA : AccurateS u A := by
      refine ⟨⟨?_, ?_, ?_, ?_, ?_, ?_, ?_, ?_⟩, ?_, ?_, ?_, ?_⟩
      case refine_10 =>
        intro x
        change |(1 + u) * sin x - sin x| ≤ u * |sin x|
        rw [show (1 + u) * sin x - sin x = u * sin x by ring, abs_mul, abs_of_pos h0]
      all_goals
        intros
        simp only [A, ArithS.exact, Arith.exact, sub_self, abs_zero]
        positivity
    refine ⟨A, hA, ?_⟩
    obtain ⟨r, hr, hr0, hrn⟩ := (threeNormA_near h0.le h1 hA.base 1 0 1).2 (by simp)
    have hcr : crossA A.toArith (axisA A 0 (π / 4)) ⟨1, 0, 1, 2⟩ = (0, u * (√2 / 2), 0) := by
      simp [crossA, axisA, A, ArithS.exact, Arith.exact]
      ring
    obtain ⟨c, hc, -⟩ := (threeNormA_near h0.le h1 hA.base 0 (u * (√2 / 2)) 0).2 (by
      intro h; exact (mul_pos h0 h2).ne' h.2.1)
    rw [spherocityA, sphLoopA]
    simp only [hr, hcr, hc, sphLoopA]
    have hw : A.mul π (A.add 0 r) ≠ 0 := by
      change π * (0 + r) ≠ 0
      rw [zero_add]
      exact (mul_pos pi_pos hr0).ne'
    simp [pyDivA, hw]

/-- The hypotheses are met: exact arithmetic, a unit roundoff of a half ulp in double precision, two moving particles. -/
example : (0 : ℝ) ≤ 1 / 2 ^ 53 ∧ (1 / 2 ^ 53 : ℝ) < 1 ∧
    (1 + (1 / (2 ^ 53 - 1)) : ℝ) * (1 - 1 / 2 ^ 53) = 1 ∧ AccurateS (1 / 2 ^ 53) ArithS.exact ∧
    (∀ p ∈ ([⟨1, 0, 1, 2⟩, ⟨0, 3, -1, 4⟩] : List P4), Moving p) := by
  refine ⟨by norm_num, by norm_num, by norm_num, accurateS_exact (by norm_num), ?_⟩
  simp [Moving]

/-- And so are those of C146_spherocity: the two particles have a spherocity for the axis along the beam. -/
example : ∃ S, spherocityA .exact π 0 0 [⟨1, 0, 1, 2⟩, ⟨0, 3, -1, 4⟩] = .ok S := by
  have h1 : threeNormA Arith.exact 1 0 1 = .ok (√(1 ^ 2 + 0 ^ 2 + 1 ^ 2)) := by
    rw [threeNormA_exact, threeNorm_ok (by simp)]
  have h2 : threeNormA Arith.exact 0 3 (-1) = .ok (√(0 ^ 2 + 3 ^ 2 + (-1) ^ 2)) := by
    rw [threeNormA_exact, threeNorm_ok (by simp)]
  have c1 : crossA Arith.exact (axisA .exact 0 0) ⟨1, 0, 1, 2⟩ = (0, -1, 0) := by
    simp [crossA, axisA, ArithS.exact, Arith.exact]
  have c2 : crossA Arith.exact (axisA .exact 0 0) ⟨0, 3, -1, 4⟩ = (3, 0, 0) := by
    simp [crossA, axisA, ArithS.exact, Arith.exact]
  have n1 : threeNormA Arith.exact 0 (-1) 0 = .ok (√(0 ^ 2 + (-1) ^ 2 + 0 ^ 2)) := by
    rw [threeNormA_exact, threeNorm_ok (by simp)]
  have n2 : threeNormA Arith.exact 3 0 0 = .ok (√(3 ^ 2 + 0 ^ 2 + 0 ^ 2)) := by
    rw [threeNormA_exact, threeNorm_ok (by simp)]
  have hw : ¬ (π * (0 + √(1 ^ 2 + 0 ^ 2 + 1 ^ 2) + √(0 ^ 2 + 3 ^ 2 + (-1) ^ 2)) = 0) := by
    have : 0 < π := pi_pos
    positivity
  rw [spherocityA, show ArithS.exact.toArith = Arith.exact from rfl, sphLoopA]
  simp only [h1, c1, n1, sphLoopA, h2, c2, n2]
  have hw' : ¬ (Arith.exact.mul π (Arith.exact.add (Arith.exact.add 0 (√(1 ^ 2 + 0 ^ 2 + 1 ^ 2)))
    (√(0 ^ 2 + 3 ^ 2 + (-1) ^ 2))) = 0) := hw
  rw [pyDivA, if_neg hw']
  exact ⟨_, rfl⟩

end Gcl
