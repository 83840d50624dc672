import Verif.Spec.Range
import Verif.Lemmas.AbsError
import Verif.Props.RoundedShape
/-!
# C151: masses and norms at the ends of the range of numbers
-/
namespace Gcl
set_option autoImplicit false
open Real Spec

section
variable {u η big : ℝ} {A : Arith} (h0 : 0 ≤ u) (h1 : u < 1) (hη : 0 ≤ η) (hA : AccurateU u η A)

omit h0 h1 hη hA in
theorem ovf_fin {big r : ℝ} (h : |r| ≤ big) : ovf big r = .fin r := if_pos h

omit h0 h1 hη hA in
theorem ovf_cases (big r : ℝ) : (∃ s, ovf big r = .fin s ∧ s = r ∧ |r| ≤ big) ∨ (ovf big r = .ninf ∧ r < 0 ∧ big < |r|) ∨
    (ovf big r = .pinf ∧ 0 ≤ r ∧ big < |r|) := by
  unfold ovf
  split_ifs with h h'
  · exact Or.inl ⟨r, rfl, rfl, h⟩
  · exact Or.inr (Or.inl ⟨rfl, h', not_le.1 h⟩)
  · exact Or.inr (Or.inr ⟨rfl, not_lt.1 h', not_le.1 h⟩)

include h0 h1 hη hA

/-- The two factors of the kernel have the relative accuracy of five operations. -/
theorem rootFactors_near (x1 x2 : ℝ) :
    Near u 5 (rootDiffTwoSquares x1 x2)
      (copysign (A.sqrt |A.sub (|x1|) (|x2|)|) (A.sub (|x1|) (|x2|)) * A.sqrt (A.add (|x1|) (|x2|))) := by
  let B : Arith := { Arith.exact with add := A.add, sub := A.sub, sqrt := A.sqrt }
  have hE := accurate_exact (u := u) h0
  have hB : Accurate u B := ⟨hA.add, hA.sub, hE.mul, hE.div, hA.sqrt, hE.log, hE.hypot, hE.arctanh⟩
  exact rootDiffA_near h0 h1 hB x1 x2

omit h0 h1 hη hA in
theorem rootDiff_le (x1 x2 : ℝ) : |rootDiffTwoSquares x1 x2| ≤ |x1| + |x2| := by
  have h := rootDiff_signed x1 x2
  have h2 : |rootDiffTwoSquares x1 x2| ^ 2 ≤ (|x1| + |x2|) ^ 2 := by
    have : |(rootDiffTwoSquares x1 x2 * (|rootDiffTwoSquares x1 x2|))| = |x1 ^ 2 - x2 ^ 2| := by rw [h]
    rw [abs_mul, abs_abs] at this
    rw [pow_two, this, abs_le]
    have a1 := sq_abs x1
    have a2 := sq_abs x2
    have := mul_nonneg (abs_nonneg x1) (abs_nonneg x2)
    constructor <;> nlinarith [sq_nonneg (|x1|), sq_nonneg (|x2|)]
  exact (sq_le_sq₀ (abs_nonneg _) (by positivity)).1 h2

theorem rootDiffO_fits (x1 x2 : ℝ) (hb : (1 + u) ^ 6 * (|x1| + |x2|) + η ≤ big) :
    rootDiffO A big (.fin x1) (.fin x2) = .fin (rootDiffTwoSquaresA A x1 x2) ∧
    |rootDiffTwoSquaresA A x1 x2 - rootDiffTwoSquares x1 x2| ≤ ((1 + u) ^ 6 - 1) * |rootDiffTwoSquares x1 x2| + η := by
  have hS : 0 ≤ |x1| + |x2| := by positivity
  have g6 : (1 : ℝ) ≤ (1 + u) ^ 6 := one_le_high h0 6
  have hu6 : 1 + u ≤ (1 + u) ^ 6 := by
    have : (1 + u) ^ 1 ≤ (1 + u) ^ 6 := pow_le_pow_right₀ (by linarith) (by norm_num)
    simpa using this
  have hS6 : (1 + u) * (|x1| + |x2|) ≤ big := by nlinarith
  have tri : ∀ {p q : ℝ}, |q - p| ≤ u * |p| → |q| ≤ (1 + u) * |p| := by
    intro p q h
    have := abs_add_le p (q - p); rw [add_sub_cancel] at this; linarith
  have hsub : |A.sub (|x1|) (|x2|)| ≤ big := by
    refine (tri (hA.sub _ _)).trans (le_trans ?_ hS6)
    refine mul_le_mul_of_nonneg_left ?_ (by linarith)
    rw [abs_le]; constructor <;> linarith [abs_nonneg x1, abs_nonneg x2]
  have hadd : |A.add (|x1|) (|x2|)| ≤ big := by
    refine (tri (hA.add _ _)).trans (le_trans ?_ hS6)
    rw [abs_of_nonneg hS]
  have hn := rootFactors_near h0 h1 hη hA x1 x2
  have hm := hA.mul (copysign (A.sqrt |A.sub (|x1|) (|x2|)|) (A.sub (|x1|) (|x2|))) (A.sqrt (A.add (|x1|) (|x2|)))
  have hT := hn
  set T := copysign (A.sqrt |A.sub (|x1|) (|x2|)|) (A.sub (|x1|) (|x2|)) * A.sqrt (A.add (|x1|) (|x2|)) with hTd
  change |rootDiffTwoSquaresA A x1 x2 - T| ≤ u * |T| + η at hm
  set r := rootDiffTwoSquaresA A x1 x2 with hr
  have herr : |r - rootDiffTwoSquares x1 x2| ≤ ((1 + u) ^ 6 - 1) * |rootDiffTwoSquares x1 x2| + η := by
    have e1 := near_error h0 h1 hn
    have e2 : |T| ≤ (1 + u) ^ 5 * |rootDiffTwoSquares x1 x2| := by
      have := abs_add_le (rootDiffTwoSquares x1 x2) (T - rootDiffTwoSquares x1 x2)
      rw [add_sub_cancel] at this; linarith
    have : r - rootDiffTwoSquares x1 x2 = (r - T) + (T - rootDiffTwoSquares x1 x2) := by ring
    rw [this]
    refine (abs_add_le _ _).trans ?_
    have e3 : u * |T| ≤ u * ((1 + u) ^ 5 * |rootDiffTwoSquares x1 x2|) := mul_le_mul_of_nonneg_left e2 h0
    have e4 : (1 + u) ^ 6 = (1 + u) ^ 5 + u * (1 + u) ^ 5 := by ring
    rw [e4]; linarith
  have hrb : |r| ≤ big := by
    have := abs_add_le (rootDiffTwoSquares x1 x2) (r - rootDiffTwoSquares x1 x2)
    rw [add_sub_cancel] at this
    have h2 := rootDiff_le x1 x2
    have h3 : (1 + u) ^ 6 * |rootDiffTwoSquares x1 x2| ≤ (1 + u) ^ 6 * (|x1| + |x2|) :=
      mul_le_mul_of_nonneg_left h2 (by linarith)
    linarith
  refine ⟨?_, herr⟩
  have hsum0 : 0 ≤ A.add (|x1|) (|x2|) := by
    obtain ⟨t, t1, -, ht⟩ := near_of_abs h0 h1 (hA.add (|x1|) (|x2|))
    rw [ht]; rw [pow_one] at t1; exact mul_nonneg hS (by linarith)
  have e : rootDiffO A big (.fin x1) (.fin x2) = ovf big r := by
    rw [hr]
    unfold rootDiffO rootDiffTwoSquaresA
    simp only [Fl.abs, subO, addO, ovf_fin hsub, ovf_fin hadd]
    generalize A.sub (|x1|) (|x2|) = d
    have hd : ¬ |d| < 0 := not_lt.2 (abs_nonneg d)
    simp only [sqrtO, if_neg (not_lt.2 hsum0), Fl.abs, if_neg hd, Fl.copysign]
    unfold copysign
    by_cases h : d < 0 <;> simp [h, mulO]
  rw [e]; exact ovf_fin hrb

/-- **C151** The transverse mass does not overflow before the sum of energy and longitudinal momentum does, far beyond where
their squares would: up to there it is accurate, relatively to six operations, but for one underflow. -/
theorem C151_mass_t (p : P4) (hb : (1 + u) ^ 6 * (|p.e| + |p.z|) + η ≤ big) :
    ∃ m, p.massTO A big = .fin m ∧ |m - p.massT| ≤ ((1 + u) ^ 6 - 1) * |p.massT| + η :=
  ⟨_, (rootDiffO_fits h0 h1 hη hA p.e p.z hb).1, (rootDiffO_fits h0 h1 hη hA p.e p.z hb).2⟩

/-- **C151** Beyond: if the sum of the magnitudes of energy and longitudinal momentum is out of range, the transverse mass is
infinite with its sign, and nan if it is zero. -/
theorem C151_mass_t_overflow (p : P4) (hb0 : 0 < big) (hb : big < (1 - u) * (|p.e| + |p.z|)) :
    p.massTO A big = if |p.e| = |p.z| then .nan else if |p.e| < |p.z| then .ninf else .pinf := by
  have hS : 0 ≤ |p.e| + |p.z| := by positivity
  have hadd : ovf big (A.add |p.e| |p.z|) = .pinf := by
    have h := hA.add |p.e| |p.z|
    rw [abs_of_nonneg hS, abs_le] at h
    have : big < A.add |p.e| |p.z| := by linarith [h.1]
    unfold ovf
    rw [if_neg (by rw [abs_of_pos (by linarith)]; linarith), if_neg (by linarith)]
  have hsq : ∀ x, 0 < x → 0 < A.sqrt x := by
    intro x hx
    have h := hA.sqrt x hx.le
    have hp := sqrt_pos.2 hx
    rw [abs_of_pos hp, abs_le] at h
    nlinarith [h.1]
  have hsq0 : A.sqrt 0 = 0 := by
    have h := hA.sqrt 0 le_rfl
    simpa using h
  have hsg := near_sign h0 h1 (near_of_abs h0 h1 (hA.sub |p.e| |p.z|))
  unfold P4.massTO rootDiffO
  simp only [Fl.abs, subO, addO, hadd, sqrtO]
  rcases ovf_cases big (A.sub |p.e| |p.z|) with ⟨s, h1', rfl, h3⟩ | ⟨h1', h2, -⟩ | ⟨h1', h2, h3⟩
  · rw [h1']
    clear h1' h3 hadd
    generalize A.sub (|p.e|) (|p.z|) = d at *
    have hd : ¬ |d| < 0 := not_lt.2 (abs_nonneg d)
    simp only [Fl.abs, sqrtO, if_neg hd, Fl.copysign]
    rcases lt_trichotomy (|p.e|) (|p.z|) with c | c | c
    · rw [if_neg c.ne, if_pos c]
      have hneg : d < 0 := hsg.2.1.2 (by linarith)
      have := hsq _ (abs_pos.2 hneg.ne)
      simp [hneg, mulO, Fl.mul, this.ne', this.le, not_lt.2 this.le]
    · rw [if_pos c]
      have hz : d = 0 := hsg.2.2.2 (by linarith)
      simp [hz, hsq0, mulO, Fl.mul]
    · rw [if_neg c.ne', if_neg (not_lt.2 c.le)]
      have hpos : 0 < d := hsg.1.2 (by linarith)
      have := hsq _ (abs_pos.2 hpos.ne')
      simp [not_lt.2 hpos.le, mulO, Fl.mul, this.ne', this]
  · rw [h1']
    have c : |p.e| < |p.z| := by have := hsg.2.1.1 h2; linarith
    simp [Fl.abs, sqrtO, Fl.copysign, mulO, Fl.mul, c, c.ne]
  · rw [h1']
    have hpos : 0 < A.sub |p.e| |p.z| := by
      rcases h2.eq_or_lt with h | h
      · rw [← h] at h3; simp at h3; linarith
      · exact h
    have c : |p.z| < |p.e| := by have := hsg.1.1 hpos; linarith
    simp [Fl.abs, sqrtO, Fl.copysign, mulO, Fl.mul, c.ne', not_lt.2 c.le]

/-- **C151** The mass is in range as long as the sum of energy and momentum is, with a margin of a few roundings: it is then
what it is without a limit. -/
theorem C151_mass (p : P4) (hb : (1 + u) ^ 8 * (|p.e| + norm3 p + 3 * η) + η ≤ big) :
    p.massO A big = .fin (p.massA A) := by
  have hN : 0 ≤ norm3 p := sqrt_nonneg _
  have tri : ∀ {p q : ℝ}, 0 ≤ p → |q - p| ≤ u * |p| + η → |q| ≤ (1 + u) * p + η := by
    intro p q h0 h
    have := abs_add_le p (q - p); rw [add_sub_cancel] at this
    rw [abs_of_nonneg h0] at h this; linarith
  set t := A.hypot p.x p.y with ht
  set s := A.hypot p.z t with hs
  have hptn : √(p.x ^ 2 + p.y ^ 2) ≤ norm3 p := sqrt_le_sqrt (by nlinarith [sq_nonneg p.z])
  have ht1 : |t| ≤ (1 + u) * √(p.x ^ 2 + p.y ^ 2) + η := tri (sqrt_nonneg _) (hA.hypot p.x p.y)
  have hzt : √(p.z ^ 2 + t ^ 2) ≤ (1 + u) * norm3 p + η := by
    have hq : 0 ≤ (1 + u) * norm3 p + η := by positivity
    rw [sqrt_le_left hq]
    have e1 : norm3 p ^ 2 = p.z ^ 2 + √(p.x ^ 2 + p.y ^ 2) ^ 2 := by
      rw [norm3_sq, sq_sqrt (by positivity)]; ring
    have e2 : t ^ 2 ≤ ((1 + u) * √(p.x ^ 2 + p.y ^ 2) + η) ^ 2 := by
      rw [← sq_abs t]; exact pow_le_pow_left₀ (abs_nonneg _) ht1 2
    set q := √(p.x ^ 2 + p.y ^ 2)
    have hq0 : 0 ≤ q := sqrt_nonneg _
    have e3 : (1 + u) * η * q ≤ (1 + u) * η * norm3 p := mul_le_mul_of_nonneg_left hptn (by positivity)
    have e4 : p.z ^ 2 ≤ (1 + u) ^ 2 * p.z ^ 2 := by
      have : 1 ≤ (1 + u) ^ 2 := one_le_high h0 2
      nlinarith [sq_nonneg p.z]
    nlinarith
  have hs1 : |s| ≤ (1 + u) ^ 2 * norm3 p + (2 + u) * η := by
    have := tri (sqrt_nonneg _) (hA.hypot p.z t)
    nlinarith
  have g8 : (1 : ℝ) ≤ (1 + u) ^ 8 := one_le_high h0 8
  have g6 : (1 : ℝ) ≤ (1 + u) ^ 6 := one_le_high h0 6
  have g2 : (1 : ℝ) ≤ (1 + u) ^ 2 := one_le_high h0 2
  have h86 : (1 + u) ^ 8 = (1 + u) ^ 6 * (1 + u) ^ 2 := by ring
  have hE := abs_nonneg p.e
  have hall : (1 + u) ^ 6 * (|p.e| + |s|) + η ≤ big := by
    refine le_trans ?_ hb
    rw [h86]
    have : |p.e| + |s| ≤ (1 + u) ^ 2 * (|p.e| + norm3 p + 3 * η) := by nlinarith
    have := mul_le_mul_of_nonneg_left this (by linarith : 0 ≤ (1 + u) ^ 6)
    linarith
  have hsb : |s| ≤ big := by nlinarith [abs_nonneg s]
  have htb : |t| ≤ big := by
    refine le_trans ht1 (le_trans ?_ hb)
    have : 1 + u ≤ (1 + u) ^ 8 := by
      have : (1 + u) ^ 1 ≤ (1 + u) ^ 8 := pow_le_pow_right₀ (by linarith) (by norm_num)
      simpa using this
    have h3 : (1 + u) * √(p.x ^ 2 + p.y ^ 2) ≤ (1 + u) ^ 8 * norm3 p :=
      mul_le_mul this hptn (sqrt_nonneg _) (by linarith)
    nlinarith
  have key := (rootDiffO_fits h0 h1 hη hA p.e s hall).1
  have : p.massO A big = rootDiffO A big (.fin p.e) (hypotO A big (.fin p.z) (ovf big t)) := rfl
  rw [this, ovf_fin htb]
  change rootDiffO A big (.fin p.e) (ovf big s) = _
  rw [ovf_fin hsb]
  exact key


/-- **C151** Beyond: if the momentum is out of range, so is its modulus, and the mass is negative infinity, whatever the
energy, although the exact mass may be well in range. -/
theorem C151_mass_overflow (p : P4) (hb0 : 0 < big) (hb : big + 2 * η < (1 - u) ^ 2 * norm3 p) :
    p.massO A big = .ninf := by
  have fin : ∀ e : ℝ, rootDiffO A big (.fin e) .pinf = .ninf := by
    intro e
    simp [rootDiffO, Fl.abs, subO, Fl.sub, addO, Fl.addF, sqrtO, Fl.copysign, mulO, Fl.mul]
  have low : ∀ {q r : ℝ}, 0 ≤ q → |r - q| ≤ u * |q| + η → (1 - u) * q - η ≤ r := by
    intro q r h0 h
    rw [abs_of_nonneg h0, abs_le] at h; linarith [h.1]
  set t := A.hypot p.x p.y with ht
  have ht1 := low (sqrt_nonneg _) (hA.hypot p.x p.y)
  rw [← ht] at ht1
  have key : ∀ a : Fl, (a = .fin t ∨ a = .ninf ∨ a = .pinf) → hypotO A big (.fin p.z) a = .pinf := by
    rintro a (rfl | rfl | rfl)
    · have hs := low (sqrt_nonneg _) (hA.hypot p.z t)
      have hN : 0 ≤ norm3 p := sqrt_nonneg _
      set q := √(p.x ^ 2 + p.y ^ 2) with hq
      have hq0 : 0 ≤ q := sqrt_nonneg _
      have hT : (1 - u) * norm3 p ≤ √(p.z ^ 2 + t ^ 2) + η := by
        have e1 : norm3 p ^ 2 = p.z ^ 2 + q ^ 2 := by
          rw [norm3_sq, hq, sq_sqrt (by positivity)]; ring
        have hL : 0 ≤ √(p.z ^ 2 + t ^ 2) + η := by positivity
        refine abs_le_of_sq_le_sq' ?_ hL |>.2
        have hr := sqrt_nonneg (p.z ^ 2 + t ^ 2)
        have hr2 := sq_sqrt (show 0 ≤ p.z ^ 2 + t ^ 2 by positivity)
        have htr : |t| ≤ √(p.z ^ 2 + t ^ 2) := by
          rw [← sqrt_sq_eq_abs]; exact sqrt_le_sqrt (by nlinarith [sq_nonneg p.z])
        have h1u : 0 ≤ 1 - u := by linarith
        have hsmall : (1 - u) ^ 2 ≤ 1 := by nlinarith
        have hz : (1 - u) ^ 2 * p.z ^ 2 ≤ p.z ^ 2 := by nlinarith [sq_nonneg p.z]
        have hq2 : ((1 - u) * q) ^ 2 ≤ (|t| + η) ^ 2 := by
          refine pow_le_pow_left₀ (mul_nonneg h1u hq0) ?_ 2
          linarith [le_abs_self t]
        have ha := sq_abs t
        calc ((1 - u) * norm3 p) ^ 2 = (1 - u) ^ 2 * p.z ^ 2 + ((1 - u) * q) ^ 2 := by rw [mul_pow, e1]; ring
          _ ≤ p.z ^ 2 + (|t| + η) ^ 2 := by linarith
          _ ≤ (√(p.z ^ 2 + t ^ 2) + η) ^ 2 := by nlinarith
      have hbig : big < A.hypot p.z t := by
        have h1u : 0 ≤ 1 - u := by linarith
        have := mul_le_mul_of_nonneg_left hT h1u
        nlinarith
      change ovf big (A.hypot p.z t) = .pinf
      unfold ovf
      rw [if_neg (by rw [abs_of_pos (by linarith)]; linarith), if_neg (by linarith)]
    · simp [hypotO, Fl.hypot, Fl.IsInf]
    · simp [hypotO, Fl.hypot, Fl.IsInf]
  have e : p.massO A big = rootDiffO A big (.fin p.e) (hypotO A big (.fin p.z) (ovf big t)) := rfl
  rw [e, key, fin]
  rcases ovf_cases big t with ⟨s, h, hs, -⟩ | ⟨h, -, -⟩ | ⟨h, -, -⟩
  · exact Or.inl (by rw [h, hs])
  · exact Or.inr (Or.inl h)
  · exact Or.inr (Or.inr h)

/-- **C151** Already the transverse momentum can be: then the longitudinal momentum does not matter either. -/
theorem C151_mass_overflow_pt (p : P4) (hb0 : 0 < big) (hb : big + η < (1 - u) * √(p.x ^ 2 + p.y ^ 2)) :
    hypotO A big (.fin p.x) (.fin p.y) = .pinf ∧ p.massO A big = .ninf := by
  have h := hA.hypot p.x p.y
  rw [abs_of_nonneg (sqrt_nonneg _), abs_le] at h
  have hbig : big < A.hypot p.x p.y := by linarith [h.1]
  have e : hypotO A big (.fin p.x) (.fin p.y) = .pinf := by
    change ovf big (A.hypot p.x p.y) = .pinf
    unfold ovf
    rw [if_neg (by rw [abs_of_pos (by linarith)]; linarith), if_neg (by linarith)]
  refine ⟨e, ?_⟩
  unfold P4.massO
  rw [e]
  simp [hypotO, Fl.hypot, Fl.IsInf, rootDiffO, Fl.abs, subO, Fl.sub, addO, Fl.addF, sqrtO, Fl.copysign, mulO, Fl.mul]

/-- One more rounding, which may be an underflow. -/
theorem Err.roundU {v w : ℝ} (hv : (1 + v) * (1 - w) = 1) (hw1 : w < 1) (hw : u + η ≤ w) {k : Nat} {M x x' y : ℝ}
    (hM : 1 ≤ M) (h : Err v k M x x') (hy : |y - x'| ≤ u * |x'| + η) : Err v (k + 1) M x y := by
  have hw0 : 0 ≤ w := by linarith
  have g := one_le_v hw0 hw1 hv k
  have hwv := u_le_v hw0 hw1 hv
  have hx' : |x'| ≤ (1 + v) ^ k * M := by
    have := abs_add_le x (x' - x)
    rw [add_sub_cancel] at this
    nlinarith [h.1, h.2]
  refine ⟨?_, h.2⟩
  have h2 : |y - x| ≤ |y - x'| + |x' - x| := abs_sub_le _ _ _
  have h3 : u * |x'| ≤ u * ((1 + v) ^ k * M) := mul_le_mul_of_nonneg_left hx' h0
  have hgM : 1 ≤ (1 + v) ^ k * M := by nlinarith
  have h4 : η ≤ η * ((1 + v) ^ k * M) := le_mul_of_one_le_right hη hgM
  have h5 : (u + η) * ((1 + v) ^ k * M) ≤ v * ((1 + v) ^ k * M) :=
    mul_le_mul_of_nonneg_right (hw.trans hwv) (by linarith)
  rw [pow_succ]
  nlinarith [h.1]

omit h0 h1 hη hA in
theorem Err.le {v : ℝ} {k : Nat} {M x x' : ℝ} (h : Err v k M x x') : |x'| ≤ (1 + v) ^ k * M := by
  have := abs_add_le x (x' - x)
  rw [add_sub_cancel] at this
  linarith [h.1, h.2]

/-- What is under the root: the sum of the squares of the scaled components. -/
theorem threeNormO_sum {v w : ℝ} (hv : (1 + v) * (1 - w) = 1) (hw1 : w < 1) (hw : u + η ≤ w) (hwb : u + η * big ≤ w)
    (hv9 : 3 * (1 + v) ^ 9 < 4) (hbig : 4 ≤ big) {x y z m q : ℝ} (hm : 0 < m) (hmb : m ≤ big) (hmx : |x| ≤ m) (hmy : |y| ≤ m)
    (hmz : |z| ≤ m) (hd : |q - 1 / m| ≤ u * (1 / m) + η) :
    ∃ T, addO A big (addO A big (mulO A big (mulO A big (.fin x) (.fin q)) (mulO A big (.fin x) (.fin q)))
        (mulO A big (mulO A big (.fin y) (.fin q)) (mulO A big (.fin y) (.fin q))))
        (mulO A big (mulO A big (.fin z) (.fin q)) (mulO A big (.fin z) (.fin q))) = .fin T ∧
      |T - ((x / m) ^ 2 + (y / m) ^ 2 + (z / m) ^ 2)| ≤ 3 * ((1 + v) ^ 7 - 1) := by
  have hw0 : 0 ≤ w := by linarith
  have hv0 := v_pos hw0 hw1 hv
  have g : ∀ k, k ≤ 9 → 3 * (1 + v) ^ k < 4 := fun k hk => by
    have : (1 + v) ^ k ≤ (1 + v) ^ 9 := pow_le_pow_right₀ (by linarith) hk
    linarith
  -- a scaled component
  have comp : ∀ c : ℝ, |c| ≤ m → Err v 2 1 (c / m) (A.mul c q) := by
    intro c hc
    have hX : |c / m| ≤ 1 := by rw [abs_div, abs_of_pos hm, div_le_one hm]; exact hc
    have e1 : Err v 1 1 (c / m) (c * q) := by
      refine ⟨?_, hX⟩
      have e : c * q - c / m = c * (q - 1 / m) := by ring
      rw [e, abs_mul, pow_one]
      have h2 : |c| * |q - 1 / m| ≤ m * (u * (1 / m) + η) := mul_le_mul hc hd (abs_nonneg _) hm.le
      have h3 : m * (u * (1 / m) + η) = u + η * m := by field_simp
      have h4 : η * m ≤ η * big := mul_le_mul_of_nonneg_left hmb hη
      have h5 := u_le_v hw0 hw1 hv
      linarith
    exact Err.roundU h0 h1 hη hA hv hw1 hw le_rfl e1 (hA.mul c q)
  have sq : ∀ c : ℝ, |c| ≤ m → Err v 5 1 ((c / m) ^ 2) (A.mul (A.mul c q) (A.mul c q)) := by
    intro c hc
    have := Err.mul' hw0 hw1 hv (comp c hc) (comp c hc)
    rw [one_mul, ← pow_two] at this
    exact Err.roundU h0 h1 hη hA hv hw1 hw le_rfl this (hA.mul _ _)
  have cb : ∀ c : ℝ, |c| ≤ m → |A.mul c q| ≤ big := fun c hc => by
    have := (comp c hc).le; rw [mul_one] at this
    linarith [g 2 (by norm_num)]
  have sb : ∀ c : ℝ, |c| ≤ m → |A.mul (A.mul c q) (A.mul c q)| ≤ big := fun c hc => by
    have := (sq c hc).le; rw [mul_one] at this
    linarith [g 5 (by norm_num)]
  have sqx := sq x hmx
  have sqy := sq y hmy
  have sqz := sq z hmz
  have sbx := sb x hmx
  have sby := sb y hmy
  have sbz := sb z hmz
  simp only [mulO, ovf_fin (cb x hmx), ovf_fin (cb y hmy), ovf_fin (cb z hmz), ovf_fin sbx, ovf_fin sby, ovf_fin sbz]
  generalize A.mul (A.mul x q) (A.mul x q) = a at *
  generalize A.mul (A.mul y q) (A.mul y q) = b at *
  generalize A.mul (A.mul z q) (A.mul z q) = c at *
  have s1 := Err.roundU h0 h1 hη hA hv hw1 hw (by norm_num) (Err.add' hw0 hw1 hv sqx sqy)
    ((hA.add _ _).trans (le_add_of_nonneg_right hη))
  have s2 := Err.roundU h0 h1 hη hA hv hw1 hw (by norm_num)
    (Err.add' hw0 hw1 hv s1 (sqz.mono hw0 hw1 hv (by norm_num : 5 ≤ 6) le_rfl))
    ((hA.add _ _).trans (le_add_of_nonneg_right hη))
  have b1 : |A.add a b| ≤ big := by
    have : _ ≤ (1 + v) ^ 6 * (1 + 1) := s1.le
    linarith [g 6 (by norm_num)]
  have b2 : |A.add (A.add a b) c| ≤ big := by
    have : _ ≤ (1 + v) ^ 7 * (1 + 1 + 1) := s2.le
    linarith [g 7 (by norm_num)]
  simp only [addO, ovf_fin b1, ovf_fin b2]
  refine ⟨_, rfl, ?_⟩
  have : _ ≤ ((1 + v) ^ 7 - 1) * (1 + 1 + 1) := s2.1
  linarith

/-- **C151** The norm of a momentum is accurate up to the ends of the range: whatever its largest component, as long as its
reciprocal and the norm are in range, with a margin of a few roundings, every step is in range and the norm is accurate,
relatively, but for an underflow of the result. -/
theorem C151_norm {v w : ℝ} (hv : (1 + v) * (1 - w) = 1) (hw1 : w < 1) (hw : u + η ≤ w) (hwb : u + η * big ≤ w)
    (hv9 : 3 * (1 + v) ^ 9 < 4) (hbig : 4 ≤ big) (p : P4) (hm : 0 < max (max |p.x| |p.y|) |p.z|)
    (hr : (1 + u) / max (max |p.x| |p.y|) |p.z| + η ≤ big) (hn : (1 + 3 * ((1 + v) ^ 9 - 1)) * norm3 p + η ≤ big) :
    ∃ r, threeNormO A big p.x p.y p.z = .ok (.fin r) ∧ |r - norm3 p| ≤ 3 * ((1 + v) ^ 9 - 1) * norm3 p + η := by
  have hw0 : 0 ≤ w := by linarith
  have hv0 := v_pos hw0 hw1 hv
  have g : ∀ k, k ≤ 9 → (1 + v) ^ k ≤ (1 + v) ^ 9 := fun k hk => pow_le_pow_right₀ (by linarith) hk
  have g1 := fun k => one_le_v hw0 hw1 hv k
  have hN0 : 0 ≤ norm3 p := sqrt_nonneg _
  have hmx : |p.x| ≤ max (max |p.x| |p.y|) |p.z| := (le_max_left _ _).trans (le_max_left _ _)
  have hmy : |p.y| ≤ max (max |p.x| |p.y|) |p.z| := (le_max_right _ _).trans (le_max_left _ _)
  have hmz : |p.z| ≤ max (max |p.x| |p.y|) |p.z| := le_max_right _ _
  have hone : ∃ c ∈ [p.x, p.y, p.z], |c| = max (max |p.x| |p.y|) |p.z| := by
    rcases max_choice (max |p.x| |p.y|) |p.z| with h | h
    · rcases max_choice |p.x| |p.y| with h' | h'
      · exact ⟨p.x, by simp, by rw [h, h']⟩
      · exact ⟨p.y, by simp, by rw [h, h']⟩
    · exact ⟨p.z, by simp, by rw [h]⟩
  unfold threeNormO
  simp only [if_neg hm.ne']
  generalize hmd : max (max |p.x| |p.y|) |p.z| = m at *
  have hmN : m ≤ norm3 p := by
    obtain ⟨c, hc, hcm⟩ := hone
    refine le_sqrt_of_sq_le ?_
    rw [← hcm, sq_abs]
    simp only [List.mem_cons, List.not_mem_nil, or_false] at hc
    rcases hc with rfl | rfl | rfl <;> nlinarith [sq_nonneg p.x, sq_nonneg p.y, sq_nonneg p.z]
  have hmb : m ≤ big := by nlinarith [g1 9, hN0, hη]
  have hd := hA.div 1 m hm.ne'
  rw [abs_of_pos (by positivity : (0 : ℝ) < 1 / m)] at hd
  have hrb : |A.div 1 m| ≤ big := by
    have := abs_add_le (1 / m) (A.div 1 m - 1 / m)
    rw [add_sub_cancel, abs_of_pos (by positivity : (0 : ℝ) < 1 / m)] at this
    have e : (1 + u) / m = 1 / m + u * (1 / m) := by ring
    linarith
  rw [ovf_fin hrb]
  generalize A.div 1 m = q at *
  obtain ⟨T, hTe, hT⟩ := threeNormO_sum h0 h1 hη hA hv hw1 hw hwb hv9 hbig hm hmb hmx hmy hmz hd
  rw [hTe]
  clear hTe hd hrb hr hmx hmy hmz
  generalize hSd : (p.x / m) ^ 2 + (p.y / m) ^ 2 + (p.z / m) ^ 2 = S at *
  have hSe : S = (p.x ^ 2 + p.y ^ 2 + p.z ^ 2) / m ^ 2 := by rw [← hSd]; ring
  have hS1 : 1 ≤ S := by
    obtain ⟨c, hc, hcm⟩ := hone
    rw [hSe, le_div_iff₀ (by positivity), one_mul, ← hcm, sq_abs]
    simp only [List.mem_cons, List.not_mem_nil, or_false] at hc
    rcases hc with rfl | rfl | rfl <;> nlinarith [sq_nonneg p.x, sq_nonneg p.y, sq_nonneg p.z]
  have hNS : m * √S = norm3 p := by
    rw [hSe, sqrt_div (by positivity), sqrt_sq hm.le, norm3, mul_div_cancel₀ _ hm.ne']
  clear hSe hSd hone hmd
  have hT0 : 0 < T := by
    rw [abs_le] at hT
    linarith [g 7 (by norm_num)]
  have hsS : 1 ≤ √S := by rw [← sqrt_one]; exact sqrt_le_sqrt hS1
  have r1 : Err v 7 (3 * √S) (√S) (√T) := by
    refine ⟨?_, by rw [abs_of_nonneg (sqrt_nonneg _)]; linarith⟩
    have e : (√T - √S) * (√T + √S) = T - S := by
      have := sq_sqrt hT0.le; have := sq_sqrt (by linarith : 0 ≤ S); nlinarith
    have h3 : |√T - √S| * 1 ≤ |√T - √S| * (√T + √S) :=
      mul_le_mul_of_nonneg_left (by linarith [sqrt_nonneg T]) (abs_nonneg _)
    have h4 : |√T - √S| * (√T + √S) = |T - S| := by
      rw [← e, abs_mul, abs_of_nonneg (a := √T + √S) (by positivity)]
    have h5 : 0 ≤ (1 + v) ^ 7 - 1 := by linarith [g1 7]
    nlinarith
  have huw : u ≤ w := by linarith
  have r2 : Err v 8 (3 * √S) (√S) (A.sqrt T) := by
    refine Err.round hw0 hw1 hv r1 ((hA.sqrt T hT0.le).trans ?_)
    exact mul_le_mul_of_nonneg_right huw (abs_nonneg _)
  have r3 : Err v 8 (3 * norm3 p) (norm3 p) (m * A.sqrt T) := by
    have := Err.mul' hw0 hw1 hv (⟨by simp, by rw [abs_of_pos hm]⟩ : Err v 0 m m m) r2
    rw [hNS, zero_add, show m * (3 * √S) = 3 * norm3 p by rw [← hNS]; ring] at this
    exact this
  have hfin : |A.mul m (A.sqrt T) - norm3 p| ≤ 3 * ((1 + v) ^ 9 - 1) * norm3 p + η := by
    have h2 := hA.mul m (A.sqrt T)
    have h3 := r3.le
    have h4 := r3.1
    have h5 : u * |m * A.sqrt T| ≤ v * ((1 + v) ^ 8 * (3 * norm3 p)) :=
      mul_le_mul (huw.trans (u_le_v hw0 hw1 hv)) h3 (abs_nonneg _) hv0
    have h6 : (1 + v) ^ 9 = (1 + v) ^ 8 + v * (1 + v) ^ 8 := by ring
    have h7 := abs_sub_le (A.mul m (A.sqrt T)) (m * A.sqrt T) (norm3 p)
    rw [h6]; nlinarith
  refine ⟨A.mul m (A.sqrt T), ?_, hfin⟩
  have hb : |A.mul m (A.sqrt T)| ≤ big := by
    have := abs_add_le (norm3 p) (A.mul m (A.sqrt T) - norm3 p)
    rw [add_sub_cancel, abs_of_nonneg hN0] at this
    linarith
  simp only [sqrtO, if_neg (not_lt.2 hT0.le), mulO, ovf_fin hb]

omit h0 h1 hη hA in
theorem mulO_inf (x : ℝ) : mulO A big (.fin x) .pinf = if x = 0 then .nan else if 0 < x then .pinf else .ninf := rfl

omit h0 h1 hη hA in
/-- **C151** Below: if the reciprocal of the largest component is out of range - though the components are not - the norm
is nan if a component is zero, and infinite otherwise. -/
theorem C151_norm_tiny (hb0 : 0 ≤ big) (p : P4) (hm : 0 < max (max |p.x| |p.y|) |p.z|)
    (hr : big < A.div 1 (max (max |p.x| |p.y|) |p.z|)) :
    threeNormO A big p.x p.y p.z = .ok (if p.x = 0 ∨ p.y = 0 ∨ p.z = 0 then .nan else .pinf) := by
  have hq : ovf big (A.div 1 (max (max |p.x| |p.y|) |p.z|)) = .pinf := by
    unfold ovf
    rw [if_neg (by rw [abs_of_pos (by linarith)]; linarith), if_neg (by linarith)]
  unfold threeNormO
  simp only [if_neg hm.ne', hq, mulO_inf]
  have key : ∀ a b c : Fl, (a = .nan ∨ a.IsInf) → (b = .nan ∨ b.IsInf) → (c = .nan ∨ c.IsInf) →
      (a = .nan ∨ b = .nan ∨ c = .nan →
        sqrtO A (addO A big (addO A big (mulO A big a a) (mulO A big b b)) (mulO A big c c)) = .nan) ∧
      (¬ (a = .nan ∨ b = .nan ∨ c = .nan) →
        sqrtO A (addO A big (addO A big (mulO A big a a) (mulO A big b b)) (mulO A big c c)) = .pinf) := by
    clear hq hr hm
    intro a b c ha hb hc
    cases a <;> cases b <;> cases c <;> simp_all [Fl.IsInf, mulO, Fl.mul, addO, Fl.addF, sqrtO]
  have ki : ∀ x : ℝ, ((if x = 0 then Fl.nan else if 0 < x then .pinf else .ninf) = .nan ∨
      (if x = 0 then Fl.nan else if 0 < x then .pinf else .ninf).IsInf) ∧
      ((if x = 0 then Fl.nan else if 0 < x then .pinf else .ninf) = .nan ↔ x = 0) := by
    intro x; split_ifs <;> simp_all [Fl.IsInf]
  have k := key _ _ _ (ki p.x).1 (ki p.y).1 (ki p.z).1
  rw [(ki p.x).2, (ki p.y).2, (ki p.z).2] at k
  by_cases h : p.x = 0 ∨ p.y = 0 ∨ p.z = 0
  · rw [k.1 h, if_pos h]; rfl
  · rw [k.2 h, if_neg h, mulO_inf, if_neg hm.ne', if_pos hm]

omit h0 h1 hη hA in
theorem threeNormO_ok (p : P4) (hm : 0 < max (max |p.x| |p.y|) |p.z|) : ∃ r, threeNormO A big p.x p.y p.z = .ok r :=
  ⟨_, by unfold threeNormO; rw [if_neg hm.ne']⟩

omit h0 h1 hη hA in
theorem addO_nan (a : Fl) : addO A big .nan a = .nan ∧ addO A big a .nan = .nan := by
  cases a <;> simp [addO, Fl.addF]

omit h0 h1 hη hA in
theorem thrustLoopO_nan (n : ℝ × ℝ × ℝ) (ps : List P4) (hmov : ∀ p ∈ ps, 0 < max (max |p.x| |p.y|) |p.z|) (s w : Fl)
    (h : w = .nan ∨ ∃ p ∈ ps, threeNormO A big p.x p.y p.z = .ok .nan) :
    ∃ s', thrustLoopO A big n s w ps = .ok (s', .nan) := by
  induction ps generalizing s w with
  | nil =>
    rcases h with rfl | ⟨p, hp, -⟩
    · exact ⟨s, rfl⟩
    · simp at hp
  | cons p ps ih =>
    obtain ⟨r, hr⟩ := threeNormO_ok (A := A) (big := big) p (hmov p List.mem_cons_self)
    rw [thrustLoopO, hr]
    refine ih (fun q hq => hmov q (List.mem_cons_of_mem _ hq)) _ _ ?_
    rcases h with rfl | ⟨q, hq, hn⟩
    · exact Or.inl (addO_nan r).1
    · rcases List.mem_cons.1 hq with rfl | hq
      · rw [hr] at hn; rw [Except.ok.inj hn]; exact Or.inl (addO_nan w).2
      · exact Or.inr ⟨q, hq, hn⟩

omit h0 h1 hη hA in
/-- **C151** One such particle, with a component that is zero, among any others makes the thrust nan, for every axis. -/
theorem C151_thrust_nan (hb0 : 0 ≤ big) (n : ℝ × ℝ × ℝ) (ps : List P4)
    (hmov : ∀ p ∈ ps, 0 < max (max |p.x| |p.y|) |p.z|)
    (h : ∃ p ∈ ps, big < A.div 1 (max (max |p.x| |p.y|) |p.z|) ∧ (p.x = 0 ∨ p.y = 0 ∨ p.z = 0)) :
    thrustO A big n ps = .ok .nan := by
  obtain ⟨p, hp, h2, h3⟩ := h
  have hn := C151_norm_tiny hb0 p (hmov p hp) h2
  rw [if_pos h3] at hn
  obtain ⟨s, hs⟩ := thrustLoopO_nan n ps hmov (.fin 0) (.fin 0) (Or.inr ⟨p, hp, hn⟩)
  simp only [thrustO, hs, reduceCtorEq, if_false]
  cases s <;> rfl

omit h0 h1 hη hA in
theorem addO_inf (a : Fl) (h : a = .pinf ∨ ∃ x, a = .fin x) : addO A big a .pinf = .pinf := by
  rcases h with rfl | ⟨x, rfl⟩ <;> rfl

omit h0 h1 hη hA in
theorem thrustLoopO_zero (n : ℝ × ℝ × ℝ) (ps : List P4)
    (ht : ∀ p ∈ ps, threeNormO A big p.x p.y p.z = .ok .pinf) (s w : Fl) (hw : w = .pinf ∨ ∃ x, w = .fin x) (hne : ps ≠ []) :
    ∃ s', thrustLoopO A big n s w ps = .ok (s', .pinf) ∧
      s' = ps.foldl (fun s p => addO A big s (dotO A big n p).abs) s := by
  induction ps generalizing s w with
  | nil => exact absurd rfl hne
  | cons p ps ih =>
    rw [thrustLoopO, ht p List.mem_cons_self]
    simp only [addO_inf w hw, List.foldl_cons]
    cases ps with
    | nil => exact ⟨_, rfl, rfl⟩
    | cons q qs => exact ih (fun r hr => ht r (List.mem_cons_of_mem _ hr)) _ _ (Or.inl rfl) (by simp)

/-- **C151** And if none has a component that is zero, the thrust is zero, for every axis: of a single such particle, where it
should be the cosine of its angle to the axis, one for the best. -/
theorem C151_thrust_zero (hb0 : 0 ≤ big) (n : ℝ × ℝ × ℝ) (p : P4)
    (hx : p.x ≠ 0) (hy : p.y ≠ 0) (hz : p.z ≠ 0) (hr : big < A.div 1 (max (max |p.x| |p.y|) |p.z|))
    (hn : |n.1| ≤ 1 ∧ |n.2.1| ≤ 1 ∧ |n.2.2| ≤ 1)
    (hb : (1 + u) ^ 4 * (3 * (max (max |p.x| |p.y|) |p.z| + η)) ≤ big) : thrustO A big n [p] = .ok (.fin 0) := by
  have hm : 0 < max (max |p.x| |p.y|) |p.z| := lt_max_of_lt_right (abs_pos.2 hz)
  have ht := C151_norm_tiny hb0 p hm hr
  rw [if_neg (by simp [hx, hy, hz])] at ht
  have hmx : |p.x| ≤ max (max |p.x| |p.y|) |p.z| := (le_max_left _ _).trans (le_max_left _ _)
  have hmy : |p.y| ≤ max (max |p.x| |p.y|) |p.z| := (le_max_right _ _).trans (le_max_left _ _)
  have hmz : |p.z| ≤ max (max |p.x| |p.y|) |p.z| := le_max_right _ _
  generalize max (max |p.x| |p.y|) |p.z| = m at *
  have g1 : (1 : ℝ) ≤ (1 + u) ^ 1 := one_le_high h0 1
  have g2 : (1 + u) ≤ (1 + u) ^ 2 := by nlinarith
  have g3 : (1 + u) ^ 2 ≤ (1 + u) ^ 3 := pow_le_pow_right₀ (by linarith) (by norm_num)
  have mb : ∀ a b : ℝ, |a| ≤ 1 → |b| ≤ m → |A.mul a b| ≤ (1 + u) * (m + η) := by
    intro a b ha hb
    have h2 := hA.mul a b
    have h3 := abs_add_le (a * b) (A.mul a b - a * b)
    rw [add_sub_cancel] at h3
    have h4 : |a * b| ≤ m := by rw [abs_mul]; nlinarith [abs_nonneg a, abs_nonneg b]
    nlinarith [abs_nonneg (a * b)]
  have ab : ∀ a b c d : ℝ, |a| ≤ c → |b| ≤ d → |A.add a b| ≤ (1 + u) * (c + d) := by
    intro a b c d ha hb
    have h2 := hA.add a b
    have h3 := abs_add_le (a + b) (A.add a b - (a + b))
    rw [add_sub_cancel] at h3
    have h4 := abs_add_le a b
    nlinarith [abs_nonneg (a + b)]
  have mη : 0 ≤ m + η := by linarith
  have m1 := mb n.1 p.x hn.1 hmx
  have m2 := mb n.2.1 p.y hn.2.1 hmy
  have m3 := mb n.2.2 p.z hn.2.2 hmz
  have a1 := ab _ _ _ _ m1 m2
  have a2 := ab _ _ _ _ a1 m3
  have g4 : (1 + u) ^ 3 ≤ (1 + u) ^ 4 := pow_le_pow_right₀ (by linarith) (by norm_num)
  have a3 := ab 0 _ 0 _ (by simp) ((abs_abs _).le.trans a2)
  have B : (1 + u) * (m + η) ≤ big ∧ (1 + u) * ((1 + u) * (m + η) + (1 + u) * (m + η)) ≤ big ∧
      (1 + u) * ((1 + u) * ((1 + u) * (m + η) + (1 + u) * (m + η)) + (1 + u) * (m + η)) ≤ big ∧
      (1 + u) * (0 + (1 + u) * ((1 + u) * ((1 + u) * (m + η) + (1 + u) * (m + η)) + (1 + u) * (m + η))) ≤ big := by
    have k1 := mul_le_mul_of_nonneg_right g2 mη
    have k2 := mul_le_mul_of_nonneg_right g3 mη
    have k3 := mul_le_mul_of_nonneg_right g4 mη
    refine ⟨by nlinarith, by nlinarith, by nlinarith, by nlinarith⟩
  obtain ⟨s', h5, h6⟩ := thrustLoopO_zero n [p] (by simpa using ht) (.fin 0) (.fin 0) (Or.inr ⟨_, rfl⟩) (by simp)
  have hdot : dotO A big n p = .fin (A.add (A.add (A.mul n.1 p.x) (A.mul n.2.1 p.y)) (A.mul n.2.2 p.z)) := by
    unfold dotO
    simp only [mulO, ovf_fin (m1.trans B.1), ovf_fin (m2.trans B.1), ovf_fin (m3.trans B.1), addO, ovf_fin (a1.trans B.2.1),
      ovf_fin (a2.trans B.2.2.1)]
  simp only [thrustO, h5, reduceCtorEq, if_false]
  have hs' : ∃ x, s' = .fin x := by
    rw [h6]
    simp only [List.foldl_cons, List.foldl_nil, hdot, Fl.abs, addO]
    exact ⟨_, ovf_fin (a3.trans B.2.2.2)⟩
  obtain ⟨x, rfl⟩ := hs'
  rfl


/-- **C151** False: that the thrust of moving particles is a number between zero and one.  Whatever the accuracy and the
range of the arithmetic, there is a moving particle whose thrust is nan for every axis. -/
theorem C151_false (hb0 : 0 ≤ big) : ∃ p : P4, 0 < norm3 p ∧ ∀ n, thrustO A big n [p] = .ok .nan := by
  set m : ℝ := (1 - u) / (big + η + 1) with hm
  have hB : 0 < big + η + 1 := by linarith
  have hm0 : 0 < m := div_pos (by linarith) hB
  have hmax : max (max |m| |(0 : ℝ)|) |(0 : ℝ)| = m := by simp [abs_of_pos hm0, hm0.le]
  refine ⟨⟨m, 0, 0, m⟩, norm3_pos (Or.inl hm0.ne'), fun n => ?_⟩
  refine C151_thrust_nan hb0 n _ ?_ ⟨_, List.mem_cons_self, ?_, Or.inr (Or.inl rfl)⟩
  · intro p hp
    rw [List.mem_singleton.1 hp, hmax]; exact hm0
  · rw [hmax]
    have h2 := hA.div 1 m hm0.ne'
    rw [abs_of_pos (by positivity : (0 : ℝ) < 1 / m), abs_le] at h2
    have h3 : (1 - u) * (1 / m) = big + η + 1 := by
      have h4 : 1 - u ≠ 0 := by linarith
      rw [hm]; field_simp
    linarith [h2.1]

end

/-- **C151** Whatever the range, a particle at rest among any others, or no particles, and nothing else that raises: the
thrust is a `ZeroDivisionError`. -/
theorem C151_rest (A : Arith) (big : ℝ) (n : ℝ × ℝ × ℝ) (ps : List P4) :
    ((∃ p ∈ ps, p.x = 0 ∧ p.y = 0 ∧ p.z = 0) → thrustO A big n ps = .error .zeroDivisionError) ∧
    thrustO A big n [] = .error .zeroDivisionError ∧
    ∀ e, thrustO A big n ps = .error e → e = .zeroDivisionError := by
  have key : ∀ (ps : List P4) (s w : Fl), ((∃ p ∈ ps, p.x = 0 ∧ p.y = 0 ∧ p.z = 0) →
        thrustLoopO A big n s w ps = .error .zeroDivisionError) ∧
      ∀ e, thrustLoopO A big n s w ps = .error e → e = .zeroDivisionError := by
    intro ps
    induction ps with
    | nil => intro s w; simp [thrustLoopO]
    | cons p ps ih =>
      intro s w
      by_cases hm : max (max |p.x| |p.y|) |p.z| = 0
      · have h3 : threeNormO A big p.x p.y p.z = .error .zeroDivisionError := by
          unfold threeNormO; exact if_pos hm
        unfold thrustLoopO
        rw [h3]
        exact ⟨fun _ => rfl, fun e he => (Except.error.inj he).symm⟩
      · obtain ⟨r, h3⟩ : ∃ r, threeNormO A big p.x p.y p.z = .ok r := by
          unfold threeNormO
          exact ⟨_, if_neg hm⟩
        unfold thrustLoopO
        rw [h3]
        refine ⟨fun ⟨q, hq, hx, hy, hz⟩ => (ih _ _).1 ?_, fun e he => (ih _ _).2 e he⟩
        rcases List.mem_cons.1 hq with rfl | hq
        · exact absurd (by simp [hx, hy, hz]) hm
        · exact ⟨q, hq, hx, hy, hz⟩
  refine ⟨fun h => ?_, ?_, fun e he => ?_⟩
  · unfold thrustO; rw [(key ps _ _).1 h]
  · simp [thrustO, thrustLoopO]
  · unfold thrustO at he
    cases hl : thrustLoopO A big n (.fin 0) (.fin 0) ps with
    | error e' =>
      rw [hl] at he
      rw [← Except.error.inj he]
      exact (key ps _ _).2 e' hl
    | ok sw =>
      rw [hl] at he
      obtain ⟨s, w⟩ := sw
      simp only at he
      split_ifs at he
      exact (Except.error.inj he).symm

set_option exponentiation.threshold 3000

/-- The numbers of IEEE double precision: a transverse mass whose square is far out of range. -/
example (A : Arith) (hA : AccurateU (1 / 2 ^ 53) (1 / 2 ^ 1075) A) :
    ∃ m, (P4.mk 0 0 (3 * 2 ^ 1000) (5 * 2 ^ 1000)).massTO A ((2 - 1 / 2 ^ 52) * 2 ^ 1023) = .fin m ∧
      |m - 4 * 2 ^ 1000| ≤ 2 ^ 955 := by
  obtain ⟨m, h1, h2⟩ := C151_mass_t (big := (2 - 1 / 2 ^ 52) * 2 ^ 1023) (by norm_num) (by norm_num) (by norm_num) hA
    (P4.mk 0 0 (3 * 2 ^ 1000) (5 * 2 ^ 1000))
    (by rw [abs_of_nonneg (by positivity), abs_of_nonneg (by positivity)]; norm_num)
  have h3 : (P4.mk 0 0 (3 * 2 ^ 1000) (5 * 2 ^ 1000)).massT = 4 * 2 ^ 1000 := by
    have h := massT_signed (P4.mk 0 0 (3 * 2 ^ 1000) (5 * 2 ^ 1000))
    have h' : (P4.mk 0 0 (3 * 2 ^ 1000) (5 * 2 ^ 1000)).massT * |(P4.mk 0 0 (3 * 2 ^ 1000) (5 * 2 ^ 1000)).massT| =
      (4 * 2 ^ 1000) ^ 2 := by rw [h]; norm_num
    have hp : 0 < (P4.mk 0 0 (3 * 2 ^ 1000) (5 * 2 ^ 1000)).massT := by
      by_contra hc
      have : (P4.mk 0 0 (3 * 2 ^ 1000) (5 * 2 ^ 1000)).massT * |(P4.mk 0 0 (3 * 2 ^ 1000) (5 * 2 ^ 1000)).massT| ≤ 0 :=
        mul_nonpos_of_nonpos_of_nonneg (not_lt.1 hc) (abs_nonneg _)
      rw [h'] at this; norm_num at this
    rw [abs_of_pos hp, ← pow_two] at h'
    exact (pow_left_inj₀ hp.le (by positivity) two_ne_zero).1 h'
  rw [h3] at h2
  refine ⟨m, h1, h2.trans ?_⟩
  rw [abs_of_nonneg (by positivity)]
  norm_num

/-- One that is out of range. -/
example (A : Arith) (hA : AccurateU (1 / 2 ^ 53) (1 / 2 ^ 1075) A) :
    (P4.mk 0 0 (2 ^ 1023) (3 / 2 * 2 ^ 1023)).massTO A ((2 - 1 / 2 ^ 52) * 2 ^ 1023) = .pinf := by
  rw [C151_mass_t_overflow (by norm_num) (by norm_num) (by norm_num) hA _ (by norm_num)
    (by rw [abs_of_nonneg (by positivity), abs_of_nonneg (by positivity)]; norm_num)]
  rw [abs_of_nonneg (by positivity), abs_of_nonneg (by positivity)]
  rw [if_neg (by norm_num), if_neg (by norm_num)]

/-- A norm at the lower end and one whose square is far out of range; the largest component may be any from `2 ^ -1022`. -/
example (A : Arith) (hA : AccurateU (1 / 2 ^ 53) (1 / 2 ^ 1075) A) (p : P4)
    (hp : p = P4.mk (3 / 2 ^ 1020) 0 (4 / 2 ^ 1020) 0 ∨ p = P4.mk (3 * 2 ^ 1000) 0 (4 * 2 ^ 1000) 0) :
    ∃ r, threeNormO A ((2 - 1 / 2 ^ 52) * 2 ^ 1023) p.x p.y p.z = .ok (.fin r) ∧ |r - norm3 p| ≤ 1 / 2 ^ 40 * norm3 p := by
  have hn : ∀ a : ℝ, 0 ≤ a → norm3 (P4.mk (3 * a) 0 (4 * a) 0) = 5 * a := by
    intro a ha
    rw [norm3, show (3 * a) ^ 2 + 0 ^ 2 + (4 * a) ^ 2 = (5 * a) ^ 2 by ring, sqrt_sq (by positivity)]
  have key : ∀ a : ℝ, 1 / 2 ^ 1020 ≤ a → a ≤ 2 ^ 1000 → ∃ r, threeNormO A ((2 - 1 / 2 ^ 52) * 2 ^ 1023) (3 * a) 0 (4 * a) =
      .ok (.fin r) ∧ |r - 5 * a| ≤ 1 / 2 ^ 40 * (5 * a) := by
    intro a h1 h2
    have ha : 0 < a := lt_of_lt_of_le (by norm_num) h1
    have hm : max (max |3 * a| |0|) |4 * a| = 4 * a := by
      rw [abs_of_pos (by positivity : 0 < 3 * a), abs_of_pos (by positivity : 0 < 4 * a), abs_zero,
        max_eq_left (by positivity : 0 ≤ 3 * a), max_eq_right (by linarith : 3 * a ≤ 4 * a)]
    obtain ⟨r, h3, h4⟩ := C151_norm (big := (2 - 1 / 2 ^ 52) * 2 ^ 1023) (w := 1 / 2 ^ 50) (v := 1 / (1 - 1 / 2 ^ 50) - 1)
      (by norm_num) (by norm_num) (by norm_num) hA (by norm_num) (by norm_num) (by norm_num) (by norm_num) (by norm_num)
      (by norm_num) (P4.mk (3 * a) 0 (4 * a) 0) (by rw [hm]; positivity)
      (by
        rw [hm]
        have : (1 + 1 / 2 ^ 53) / (4 * a) ≤ (1 + 1 / 2 ^ 53) / (4 * (1 / 2 ^ 1020)) :=
          div_le_div_of_nonneg_left (by norm_num) (by norm_num) (by linarith)
        refine le_trans (add_le_add_left this _) ?_
        norm_num)
      (by
        rw [hn a ha.le]
        refine le_trans (add_le_add_left (mul_le_mul_of_nonneg_left (mul_le_mul_of_nonneg_left h2 (by norm_num)) (by norm_num)) _) ?_
        norm_num)
    refine ⟨r, h3, ?_⟩
    rw [hn a ha.le] at h4
    refine h4.trans ?_
    have : (1 : ℝ) / 2 ^ 1075 ≤ 1 / 2 ^ 55 * a := by
      refine le_trans ?_ (mul_le_mul_of_nonneg_left h1 (by norm_num)); norm_num
    have e : 3 * ((1 + (1 / (1 - 1 / 2 ^ 50) - 1)) ^ 9 - 1) ≤ (1 : ℝ) / 2 ^ 41 := by norm_num
    have := mul_le_mul_of_nonneg_right e (by positivity : 0 ≤ 5 * a)
    have : (1 : ℝ) / 2 ^ 55 ≤ 1 / 2 ^ 42 := by norm_num
    nlinarith
  rcases hp with rfl | rfl
  · obtain ⟨r, h1, h2⟩ := key (1 / 2 ^ 1020) le_rfl (by norm_num)
    have := hn (1 / 2 ^ 1020) (by positivity)
    simp only [mul_one_div] at h1 h2 this
    exact ⟨r, h1, by rw [this]; exact h2⟩
  · obtain ⟨r, h1, h2⟩ := key (2 ^ 1000) (by norm_num) le_rfl
    exact ⟨r, h1, by rw [hn _ (by positivity)]; exact h2⟩

/-- The smallest number there is, as a momentum. -/
example (A : Arith) (hA : AccurateU (1 / 2 ^ 53) (1 / 2 ^ 1075) A) (n : ℝ × ℝ × ℝ) :
    thrustO A ((2 - 1 / 2 ^ 52) * 2 ^ 1023) n [⟨3, 4, 0, 5⟩, ⟨1 / 2 ^ 1074, 0, 0, 1⟩] = .ok .nan := by
  refine C151_thrust_nan (by norm_num) n _ (by simp) ⟨⟨1 / 2 ^ 1074, 0, 0, 1⟩, by simp, ?_, Or.inr (Or.inl rfl)⟩
  have hmax : max (max |(1 : ℝ) / 2 ^ 1074| |(0 : ℝ)|) |(0 : ℝ)| = 1 / 2 ^ 1074 := by
    rw [abs_of_pos (by positivity), abs_zero, max_eq_left (by positivity : (0 : ℝ) ≤ 1 / 2 ^ 1074),
      max_eq_left (by positivity : (0 : ℝ) ≤ 1 / 2 ^ 1074)]
  rw [hmax]
  have h2 := hA.div 1 (1 / 2 ^ 1074) (by positivity)
  rw [abs_of_pos (by positivity : (0 : ℝ) < 1 / (1 / 2 ^ 1074)), abs_le] at h2
  have h3 : ((2 : ℝ) - 1 / 2 ^ 52) * 2 ^ 1023 + (1 / 2 ^ 53 * (1 / (1 / 2 ^ 1074)) + 1 / 2 ^ 1075) < 1 / (1 / 2 ^ 1074) := by
    norm_num
  linarith [h2.1]

/-- A particle with all components as small as that. -/
example (A : Arith) (hA : AccurateU (1 / 2 ^ 53) (1 / 2 ^ 1075) A) (n : ℝ × ℝ × ℝ)
    (hn : |n.1| ≤ 1 ∧ |n.2.1| ≤ 1 ∧ |n.2.2| ≤ 1) :
    thrustO A ((2 - 1 / 2 ^ 52) * 2 ^ 1023) n [⟨1 / 2 ^ 1074, 1 / 2 ^ 1074, 1 / 2 ^ 1074, 1⟩] = .ok (.fin 0) := by
  have hmax : max (max |(1 : ℝ) / 2 ^ 1074| |(1 : ℝ) / 2 ^ 1074|) |(1 : ℝ) / 2 ^ 1074| = 1 / 2 ^ 1074 := by
    rw [abs_of_pos (by positivity), max_self, max_self]
  have h2 := hA.div 1 (1 / 2 ^ 1074) (by positivity)
  rw [abs_of_pos (by positivity : (0 : ℝ) < 1 / (1 / 2 ^ 1074)), abs_le] at h2
  have h3 : ((2 : ℝ) - 1 / 2 ^ 52) * 2 ^ 1023 + (1 / 2 ^ 53 * (1 / (1 / 2 ^ 1074)) + 1 / 2 ^ 1075) < 1 / (1 / 2 ^ 1074) := by
    norm_num
  refine C151_thrust_zero (by norm_num) (by norm_num) (by norm_num) hA (by norm_num) n _ (by simp) (by simp) (by simp) ?_ hn ?_
  · rw [hmax]; linarith [h2.1]
  · rw [hmax]; norm_num

/-- A mass whose square is far out of range. -/
example (A : Arith) (hA : AccurateU (1 / 2 ^ 53) (1 / 2 ^ 1075) A) :
    (P4.mk (3 * 2 ^ 1000) 0 (4 * 2 ^ 1000) (13 * 2 ^ 1000)).massO A ((2 - 1 / 2 ^ 52) * 2 ^ 1023) =
      .fin ((P4.mk (3 * 2 ^ 1000) 0 (4 * 2 ^ 1000) (13 * 2 ^ 1000)).massA A) := by
  refine C151_mass (by norm_num) (by norm_num) (by norm_num) hA _ ?_
  have : norm3 (P4.mk (3 * 2 ^ 1000) 0 (4 * 2 ^ 1000) (13 * 2 ^ 1000)) = 5 * 2 ^ 1000 := by
    rw [norm3, show (3 * 2 ^ 1000 : ℝ) ^ 2 + 0 ^ 2 + (4 * 2 ^ 1000) ^ 2 = (5 * 2 ^ 1000) ^ 2 by ring, sqrt_sq (by positivity)]
  rw [this, abs_of_pos (by positivity)]
  norm_num

/-- Components in range, with a momentum that is not. -/
example (A : Arith) (hA : AccurateU (1 / 2 ^ 53) (1 / 2 ^ 1075) A) :
    (P4.mk (2 ^ 1023) (2 ^ 1023) (2 ^ 1023 + 2 ^ 1022) (2 ^ 1023)).massO A ((2 - 1 / 2 ^ 52) * 2 ^ 1023) = .ninf := by
  refine C151_mass_overflow (by norm_num) (by norm_num) (by norm_num) hA _ (by norm_num) ?_
  have : norm3 (P4.mk (2 ^ 1023) (2 ^ 1023) (2 ^ 1023 + 2 ^ 1022) (2 ^ 1023)) = √17 * 2 ^ 1022 := by
    rw [norm3, show ((2 ^ 1023 : ℝ)) ^ 2 + (2 ^ 1023) ^ 2 + (2 ^ 1023 + 2 ^ 1022) ^ 2 = 17 * (2 ^ 1022) ^ 2 by ring,
      sqrt_mul (by norm_num), sqrt_sq (by positivity)]
  rw [this]
  have h : (41 / 10 : ℝ) ≤ √17 := by
    rw [le_sqrt (by norm_num) (by norm_num)]; norm_num
  have h2 : (41 / 10 : ℝ) * 2 ^ 1022 ≤ √17 * 2 ^ 1022 := mul_le_mul_of_nonneg_right h (by positivity)
  have h3 : (1 - 1 / 2 ^ 53 : ℝ) ^ 2 * (41 / 10 * 2 ^ 1022) ≤ (1 - 1 / 2 ^ 53) ^ 2 * (√17 * 2 ^ 1022) :=
    mul_le_mul_of_nonneg_left h2 (by positivity)
  refine lt_of_lt_of_le ?_ h3
  norm_num

/-! ## A range large enough -/
open Filter

theorem ovf_eventually (r : ℝ) : ∀ᶠ big in atTop, ovf big r = .fin r := by
  filter_upwards [eventually_ge_atTop |r|] with big h using ovf_fin h

theorem threeNormO_eventually {u : ℝ} {A : Arith} (h1 : u < 1) (hA : Accurate u A) (x y z : ℝ) :
    ∀ᶠ big in atTop, threeNormO A big x y z = (threeNormA A x y z).map Fl.fin := by
  by_cases hm : max (max |x| |y|) |z| = 0
  · refine Eventually.of_forall fun big => ?_
    simp [threeNormO, threeNormA, pyDivA, hm, Except.map]
  · have nn : ∀ a b : ℝ, ∀ c : ℝ, 0 ≤ a → |b - a| ≤ u * |a| → 0 ≤ b := by
      intro a b _ ha h
      rw [abs_of_nonneg ha, abs_le] at h
      nlinarith [h.1]
    have sq : ∀ a, 0 ≤ A.mul a a := fun a => nn _ _ 0 (mul_self_nonneg a) (hA.mul a a)
    have ad : ∀ a b, 0 ≤ a → 0 ≤ b → 0 ≤ A.add a b := fun a b ha hb => nn _ _ 0 (add_nonneg ha hb) (hA.add a b)
    set r := A.div 1 (max (max |x| |y|) |z|) with hr
    filter_upwards [ovf_eventually r, ovf_eventually (A.mul x r), ovf_eventually (A.mul y r), ovf_eventually (A.mul z r),
      ovf_eventually (A.mul (A.mul x r) (A.mul x r)), ovf_eventually (A.mul (A.mul y r) (A.mul y r)),
      ovf_eventually (A.mul (A.mul z r) (A.mul z r)),
      ovf_eventually (A.add (A.mul (A.mul x r) (A.mul x r)) (A.mul (A.mul y r) (A.mul y r))),
      ovf_eventually (A.add (A.add (A.mul (A.mul x r) (A.mul x r)) (A.mul (A.mul y r) (A.mul y r)))
        (A.mul (A.mul z r) (A.mul z r))),
      ovf_eventually (A.mul (max (max |x| |y|) |z|) (A.sqrt (A.add (A.add (A.mul (A.mul x r) (A.mul x r))
        (A.mul (A.mul y r) (A.mul y r))) (A.mul (A.mul z r) (A.mul z r)))))] with big a1 a2 a3 a4 a5 a6 a7 a8 a9 a10
    simp only [threeNormO, threeNormA, pyDivA, if_neg hm, ← hr, a1, mulO, a2, a3, a4, a5, a6, a7, addO, a8, a9, sqrtO,
      if_neg (not_lt.2 (ad _ _ (ad _ _ (sq _) (sq _)) (sq _))), a10, Except.map]

theorem dotO_eventually (A : Arith) (n : ℝ × ℝ × ℝ) (p : P4) :
    ∀ᶠ big in atTop, dotO A big n p = .fin (dotA A n p) := by
  filter_upwards [ovf_eventually (A.mul n.1 p.x), ovf_eventually (A.mul n.2.1 p.y), ovf_eventually (A.mul n.2.2 p.z),
    ovf_eventually (A.add (A.mul n.1 p.x) (A.mul n.2.1 p.y)), ovf_eventually (dotA A n p)] with big a1 a2 a3 a4 a5
  simp only [dotO, mulO, a1, a2, a3, addO, a4]
  exact a5

theorem thrustLoopO_eventually {u : ℝ} {A : Arith} (h1 : u < 1) (hA : Accurate u A) (n : ℝ × ℝ × ℝ)
    (ps : List P4) (s w : ℝ) : ∀ᶠ big in atTop, thrustLoopO A big n (.fin s) (.fin w) ps =
      (thrustLoopA A n s w ps).map (fun q => (Fl.fin q.1, Fl.fin q.2)) := by
  induction ps generalizing s w with
  | nil => exact Eventually.of_forall fun big => rfl
  | cons p ps ih =>
    cases hn : threeNormA A p.x p.y p.z with
    | error e =>
      filter_upwards [threeNormO_eventually h1 hA p.x p.y p.z] with big a1
      rw [hn] at a1
      simp only [thrustLoopO, a1, thrustLoopA, hn, Except.map]
    | ok r =>
      filter_upwards [threeNormO_eventually h1 hA p.x p.y p.z, dotO_eventually A n p,
        ovf_eventually (A.add s |dotA A n p|), ovf_eventually (A.add w r), ih (A.add s |dotA A n p|) (A.add w r)]
        with big a1 a2 a3 a4 a5
      rw [hn] at a1
      simp only [thrustLoopO, a1, thrustLoopA, hn, Except.map, a2, Fl.abs, addO, a3, a4] at a5 ⊢
      exact a5

/-- **C151** Whatever the particles, if the range is large enough nothing overflows, and the thrust for an axis is that of
`C127` (or the same error). -/
theorem C151_thrust_fits {u : ℝ} {A : ArithS} (h1 : u < 1) (hA : Accurate u A.toArith) (φ θ : ℝ)
    (ps : List P4) : ∃ B : ℝ, ∀ big, B ≤ big →
      (∀ v, thrustA A φ θ ps = .ok (-v) ↔ thrustO A.toArith big (axisA A φ θ) ps = .ok (.fin v)) ∧
      ∀ e, thrustA A φ θ ps = .error e ↔ thrustO A.toArith big (axisA A φ θ) ps = .error e := by
  have key : ∀ᶠ big in atTop, thrustO A.toArith big (axisA A φ θ) ps =
      (thrustA A φ θ ps).map (fun v => Fl.fin (-v)) := by
    cases hl : thrustLoopA A.toArith (axisA A φ θ) 0 0 ps with
    | error e =>
      filter_upwards [thrustLoopO_eventually h1 hA (axisA A φ θ) ps 0 0] with big a1
      rw [hl] at a1
      simp only [thrustO, a1, thrustA, hl, Except.map]
    | ok q =>
      obtain ⟨s, w⟩ := q
      filter_upwards [thrustLoopO_eventually h1 hA (axisA A φ θ) ps 0 0, ovf_eventually (A.div s w)] with big a1 a2
      rw [hl] at a1
      simp only [thrustO, a1, thrustA, hl, Except.map, pyDivA, Fl.fin.injEq]
      by_cases hw : w = 0
      · simp [hw]
      · simp only [hw, if_false, divO, a2, neg_neg]
  obtain ⟨B, hB⟩ := eventually_atTop.1 key
  refine ⟨B, fun big hb => ?_⟩
  rw [hB big hb]
  cases thrustA A φ θ ps with
  | error e => simp [Except.map]
  | ok v =>
    simp only [Except.map, Except.ok.injEq, Fl.fin.injEq, reduceCtorEq, implies_true, and_true]
    exact fun w => ⟨fun h => by rw [h, neg_neg], fun h => by rw [← h, neg_neg]⟩

end Gcl
