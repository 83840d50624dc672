import Mathlib.Analysis.SpecialFunctions.Log.Deriv
import Verif.Lemmas.Rounded
/-!
# C118 — How far the kinematic functions are from the truth when the arithmetic rounds
-/
namespace Gcl
set_option autoImplicit false
open Real Spec

/-- **C118** With exact arithmetic these are the functions the other properties are about. -/
theorem C118_exact (tol : ℝ) (p : P4) :
    p.ptA .exact = p.pt ∧ p.massA .exact = p.mass ∧ p.massTA .exact = p.massT ∧
    p.rapidityA .exact tol = p.rapidity tol ∧ p.etaA .exact = p.eta := by
  have hpt : p.ptA .exact = p.pt := (pt_eq p).symm
  have hs : p.spatialMagA .exact = p.spatialMag := by
    rw [spatialMag_eq, P4.spatialMagA, hpt]
    change √(p.z ^ 2 + p.pt ^ 2) = _
    rw [pt_sq]; unfold p3sq; ring_nf
  refine ⟨hpt, ?_, rfl, rfl, ?_⟩
  · rw [P4.massA, hs]; rfl
  · rw [P4.etaA, hs]; rfl

section
variable {u : ℝ} (h0 : 0 ≤ u) (h1 : u < 1) {A : Arith} (hA : Accurate u A)
include h0 h1 hA

theorem massTA_near (p : P4) : Near u 5 p.massT (p.massTA A) := rootDiffA_near h0 h1 hA p.e p.z

theorem near_signed {k : Nat} {x y : ℝ} (a : Near u k x y) : Near u (k + k) (x * |x|) (y * |y|) :=
  near_mul h0 h1 a (near_abs h0 h1 a)

/-- **C118** The transverse mass is accurate to a few roundings, wherever it is taken, also where energy and
longitudinal momentum almost cancel: its signed square is `e² - z²` up to ten roundings, it has the right sign, and it
is zero only when it should be. -/
theorem C118_mass_t (p : P4) :
    |p.massTA A * (|p.massTA A|) - (p.e ^ 2 - p.z ^ 2)| ≤ ((1 + u) ^ 10 - 1) * |p.e ^ 2 - p.z ^ 2| ∧
    (0 < p.massTA A ↔ |p.z| < |p.e|) ∧ (p.massTA A < 0 ↔ |p.e| < |p.z|) ∧ (p.massTA A = 0 ↔ |p.e| = |p.z|) := by
  have h := massTA_near h0 h1 hA p
  have hs := near_error h0 h1 (near_signed h0 h1 hA h)
  rw [massT_signed] at hs
  have g := near_sign h0 h1 h
  have m := massT_signed p
  have pos : 0 < p.massT ↔ |p.z| < |p.e| := by
    rw [← sq_lt_sq]
    constructor
    · intro q; rw [abs_of_pos q] at m; nlinarith
    · intro q
      by_contra c
      rw [abs_of_nonpos (not_lt.1 c)] at m
      nlinarith [mul_self_nonneg p.massT]
  have neg : p.massT < 0 ↔ |p.e| < |p.z| := by
    rw [← sq_lt_sq]
    constructor
    · intro q; rw [abs_of_neg q] at m; nlinarith
    · intro q
      by_contra c
      rw [abs_of_nonneg (not_lt.1 c)] at m
      nlinarith [mul_self_nonneg p.massT]
  refine ⟨hs, g.1.trans pos, g.2.1.trans neg, g.2.2.trans ?_⟩
  constructor
  · intro q
    rcases lt_trichotomy |p.e| |p.z| with c | c | c
    · exact absurd q (neg.2 c).ne
    · exact c
    · exact absurd q (pos.2 c).ne'
  · intro q
    rcases lt_trichotomy p.massT 0 with c | c | c
    · exact absurd q (neg.1 c).ne
    · exact c
    · exact absurd q (pos.1 c).ne'

/-- **C118** The mass: its signed square is within a few roundings *of `e² + |p|²`* of `e² - |p|²`. -/
theorem C118_mass (p : P4) :
    |p.massA A * (|p.massA A|) - (p.e ^ 2 - (p.x ^ 2 + p.y ^ 2 + p.z ^ 2))| ≤
      ((1 + u) ^ 14 - 1) * (p.e ^ 2 + (p.x ^ 2 + p.y ^ 2 + p.z ^ 2)) := by
  set b := p.spatialMagA A with hb
  have hn := spatialMagA_near h0 h1 hA p
  have hr := near_error h0 h1 (near_signed h0 h1 hA (rootDiffA_near h0 h1 hA p.e b))
  rw [rootDiff_signed] at hr
  change |p.massA A * (|p.massA A|) - (p.e ^ 2 - b ^ 2)| ≤ _ at hr
  have hq : p.spatialMag ^ 2 = p.x ^ 2 + p.y ^ 2 + p.z ^ 2 := by rw [spatialMag_sq]; rfl
  have hb2 : Near u 4 (p.spatialMag ^ 2) (b ^ 2) := by
    rw [pow_two, pow_two]; exact near_mul h0 h1 hn hn
  have he := near_error h0 h1 hb2
  rw [abs_of_nonneg (sq_nonneg p.spatialMag)] at he
  obtain ⟨t, t1, t2, ht⟩ := hb2
  rw [← hq]
  set s := p.spatialMag ^ 2 with hs
  have hs0 : 0 ≤ s := sq_nonneg _
  have hh : b ^ 2 ≤ (1 + u) ^ 4 * s := by rw [ht]; nlinarith
  have h4 : (1:ℝ) ≤ (1 + u) ^ 4 := one_le_high h0 4
  have h10 : (1:ℝ) ≤ (1 + u) ^ 10 := one_le_high h0 10
  have h14 : (1 + u) ^ 14 = (1 + u) ^ 10 * (1 + u) ^ 4 := by rw [← pow_add]
  have habs : |p.e ^ 2 - b ^ 2| ≤ p.e ^ 2 + (1 + u) ^ 4 * s := by
    rw [abs_le]; constructor <;> nlinarith [sq_nonneg p.e, sq_nonneg b]
  calc |p.massA A * (|p.massA A|) - (p.e ^ 2 - s)|
      = |(p.massA A * |p.massA A| - (p.e ^ 2 - b ^ 2)) + (s - b ^ 2)| := by ring_nf
    _ ≤ |p.massA A * (|p.massA A|) - (p.e ^ 2 - b ^ 2)| + |s - b ^ 2| := abs_add_le _ _
    _ ≤ ((1 + u) ^ 10 - 1) * (p.e ^ 2 + (1 + u) ^ 4 * s) + ((1 + u) ^ 4 - 1) * s := by
        refine add_le_add (hr.trans (mul_le_mul_of_nonneg_left habs (by norm_num; linarith))) ?_
        rw [abs_sub_comm]; exact he
    _ ≤ ((1 + u) ^ 14 - 1) * (p.e ^ 2 + s) := by
        rw [h14]
        nlinarith [mul_nonneg (mul_nonneg (by linarith : (0:ℝ) ≤ (1 + u) ^ 10) (by linarith : (0:ℝ) ≤ (1 + u) ^ 4 - 1)) (sq_nonneg p.e)]

/-- **C118** The rapidity of a particle with `e > |z|`.  Away from the tolerance band it is finite, and its error is a
relative error of two roundings plus an absolute one of three; inside the band it is infinite with the sign of `z`. -/
theorem C118_rapidity {tol : ℝ} (ht : 0 ≤ tol) (p : P4) (hp : |p.z| < p.e) :
    (tol < (1 - u) * (p.e - |p.z|) → ∃ y, p.rapidityA A tol = .fin y ∧
      |y - log ((p.e + p.z) / (p.e - p.z)) / 2| ≤
        ((1 + u) ^ 2 - 1) * |log ((p.e + p.z) / (p.e - p.z)) / 2| + (1 + u) ^ 2 * (-3 * log (1 - u) / 2)) ∧
    ((1 + u) * (p.e - |p.z|) ≤ tol → p.rapidityA A tol = if p.z < 0 then .ninf else .pinf) := by
  have hz := abs_nonneg p.z
  have hd : 0 < p.e - |p.z| := by linarith
  have hs : 0 < p.e + |p.z| := by linarith
  obtain ⟨d, d1, d2, hd'⟩ := near_of_abs h0 h1 (hA.sub p.e |p.z|)
  obtain ⟨s, s1, s2, hs'⟩ := near_of_abs h0 h1 (hA.add p.e |p.z|)
  rw [pow_one] at d1 d2 s1 s2
  have hd0 : 0 < d := by linarith
  have hs0 : 0 < s := by linarith
  have hD : 0 < A.sub p.e |p.z| := by rw [hd']; positivity
  constructor
  · intro hb
    have hlt : tol < |A.sub p.e (|p.z|)| := by
      rw [abs_of_pos hD, hd']
      nlinarith
    obtain ⟨v, v1, v2, hv⟩ := near_of_abs h0 h1 (hA.div (A.add p.e |p.z|) (A.sub p.e |p.z|) hD.ne')
    rw [pow_one] at v1 v2
    have hv0 : 0 < v := by linarith
    set Q := A.div (A.add p.e |p.z|) (A.sub p.e |p.z|) with hQ
    set q := (p.e + |p.z|) / (p.e - |p.z|) with hq
    have hq0 : 0 < q := div_pos hs hd
    have hq1 : 1 ≤ q := by rw [hq, le_div_iff₀ hd]; linarith
    have hQq : Q = q * (s / d * v) := by rw [hv, hs', hd', hq]; field_simp
    have hQ0 : 0 < Q := by rw [hQq]; positivity
    have hlogt : |log (s / d * v)| ≤ -3 * log (1 - u) := by
      rw [log_mul (by positivity) (by positivity), log_div (by positivity) (by positivity)]
      have hu : 0 < 1 - u := by linarith
      have hlow : ∀ t, 1 - u ≤ t → log (1 - u) ≤ log t := fun t h => log_le_log hu h
      have hhigh : ∀ t, 0 < t → t ≤ 1 + u → log t ≤ -log (1 - u) := by
        intro t t0 h
        rw [← log_inv]
        refine log_le_log t0 (h.trans ?_)
        rw [le_inv_comm₀ (by linarith) hu, inv_eq_one_div, le_div_iff₀ (by linarith)]
        nlinarith
      have a1 := hlow s s1; have a2 := hlow d d1; have a3 := hlow v v1
      have b1 := hhigh s hs0 s2; have b2 := hhigh d hd0 d2; have b3 := hhigh v hv0 v2
      rw [abs_le]; constructor <;> linarith
    have hlogQ : log Q = log q + log (s / d * v) := by rw [hQq, log_mul hq0.ne' (by positivity)]
    have hlq : 0 ≤ log q := log_nonneg hq1
    obtain ⟨w, w1, w2, hw⟩ : Near u 2 (0.5 * log Q) (A.mul 0.5 (A.log Q)) := by
      refine near_trans h0 h1 (k := 1) (l := 1) ?_ (near_of_abs h0 h1 (hA.mul _ _))
      obtain ⟨w, w1, w2, hw⟩ := near_of_abs h0 h1 (hA.log Q hQ0)
      exact ⟨w, w1, w2, by rw [hw]; ring⟩
    have hw0 : 0 < w := lt_of_lt_of_le (low_pos h0 h1 2) w1
    refine ⟨copysign (A.mul 0.5 (A.log Q)) p.z, ?_, ?_⟩
    · unfold P4.rapidityA rapidityOfA
      simp only
      rw [if_pos hlt, if_pos hQ0]
    · -- the size of the result
      have hsize : |(|A.mul 0.5 (A.log Q)|) - log q / 2| ≤
          ((1 + u) ^ 2 - 1) * (log q / 2) + (1 + u) ^ 2 * (-3 * log (1 - u) / 2) := by
        have e1 : |A.mul 0.5 (A.log Q)| = |log Q| / 2 * w := by
          rw [hw, abs_mul, abs_mul, abs_of_pos hw0, abs_of_pos (by norm_num : (0:ℝ) < 0.5)]; ring
        rw [e1]
        set L := -3 * log (1 - u) with hL
        have hL1 : |log Q| ≤ log q + L := by
          rw [hlogQ]
          refine (abs_add_le _ _).trans ?_
          rw [abs_of_nonneg hlq]; linarith
        have hL2 : log q - L ≤ |log Q| := by
          have := neg_abs_le (log (s / d * v))
          have := le_abs_self (log Q)
          rw [hlogQ] at this ⊢
          linarith
        have hlh := low_high h0 h1 2
        have hQn := abs_nonneg (log Q)
        have hL0 : 0 ≤ L := le_trans (abs_nonneg _) hlogt
        have hone : (1:ℝ) ≤ (1 + u) ^ 2 := one_le_high h0 2
        rw [abs_le]
        constructor
        · -- below
          have c1 : |log Q| * (1 - ((1 + u) ^ 2 - 1)) ≤ |log Q| * w := mul_le_mul_of_nonneg_left (by linarith) hQn
          have c2 : |log Q| * ((1 + u) ^ 2 - 1) ≤ (log q + L) * ((1 + u) ^ 2 - 1) :=
            mul_le_mul_of_nonneg_right hL1 (by linarith)
          nlinarith
        · have c1 : |log Q| * w ≤ |log Q| * (1 + u) ^ 2 := mul_le_mul_of_nonneg_left w2 hQn
          have c2 : |log Q| * (1 + u) ^ 2 ≤ (log q + L) * (1 + u) ^ 2 := mul_le_mul_of_nonneg_right hL1 (by linarith)
          nlinarith
      unfold copysign
      by_cases hn : p.z < 0
      · rw [if_pos hn]
        have e2 : (p.e + p.z) / (p.e - p.z) = q⁻¹ := by
          rw [hq, abs_of_neg hn, inv_div]; ring_nf
        rw [e2, log_inv]
        have e3 : -|A.mul 0.5 (A.log Q)| - -log q / 2 = -(|A.mul 0.5 (A.log Q)| - log q / 2) := by ring
        have e4 : |(-log q / 2)| = log q / 2 := by rw [neg_div, abs_neg, abs_of_nonneg (by linarith)]
        rw [e3, abs_neg, e4]
        exact hsize
      · rw [if_neg hn]
        have e2 : (p.e + p.z) / (p.e - p.z) = q := by rw [hq, abs_of_nonneg (not_lt.1 hn)]
        rw [e2, abs_of_nonneg (by linarith : 0 ≤ log q / 2)]
        exact hsize
  · intro hb
    have hlt : ¬ tol < |A.sub p.e (|p.z|)| := by
      rw [abs_of_pos hD, hd', not_lt]
      nlinarith
    unfold P4.rapidityA rapidityOfA
    simp only
    rw [if_neg hlt]
    rfl

end

/-- **C118** However the arithmetic rounds: mirroring a particle along the beam negates its rapidity exactly, and
leaves its mass and transverse mass unchanged; so does the sign of the energy for the transverse mass. -/
theorem C118_mirror (A : Arith) (hh : ∀ x y, A.hypot (-x) y = A.hypot x y) (tol : ℝ) (p : P4) :
    (p.z ≠ 0 → ∀ y, p.rapidityA A tol = .fin y → ({ p with z := -p.z } : P4).rapidityA A tol = .fin (-y)) ∧
    (p.z ≠ 0 → (({ p with z := -p.z } : P4).rapidityA A tol = .pinf ↔ p.rapidityA A tol = .ninf)) ∧
    (({ p with z := -p.z } : P4).rapidityA A tol = .nan ↔ p.rapidityA A tol = .nan) ∧
    ({ p with z := -p.z } : P4).massA A = p.massA A ∧
    ({ p with z := -p.z } : P4).massTA A = p.massTA A ∧ ({ p with e := -p.e } : P4).massTA A = p.massTA A := by
  have flip : p.z ≠ 0 → (-p.z < 0 ↔ ¬ p.z < 0) := fun h =>
    ⟨fun a b => by linarith, fun a => by rcases lt_or_gt_of_ne h with c | c; exact absurd c a; linarith⟩
  refine ⟨fun hz y hy => ?_, fun hz => ?_, ?_, ?_, ?_, ?_⟩
  · unfold P4.rapidityA rapidityOfA copysign copysignInf at hy ⊢
    simp only [abs_neg, flip hz] at hy ⊢
    by_cases hn : p.z < 0 <;> simp only [hn, not_true, not_false_iff, if_true, if_false] at hy ⊢ <;>
      (split_ifs at hy ⊢ <;> simp_all) <;> rw [← hy] <;> simp
  · unfold P4.rapidityA rapidityOfA copysignInf
    simp only [abs_neg, flip hz]
    by_cases hn : p.z < 0 <;> simp only [hn, not_true, not_false_iff, if_true, if_false] <;> split_ifs <;> simp
  · unfold P4.rapidityA rapidityOfA copysignInf
    simp only [abs_neg]
    split_ifs <;> simp
  · unfold P4.massA P4.spatialMagA P4.ptA
    rw [hh]
  · unfold P4.massTA rootDiffTwoSquaresA
    simp only [abs_neg]
  · unfold P4.massTA rootDiffTwoSquaresA
    simp only [abs_neg]

/-- Exact arithmetic is accurate. -/
theorem accurate_exact {u : ℝ} (h0 : 0 ≤ u) : Accurate u .exact := by
  constructor <;> intros <;> simp [Arith.exact] <;> positivity

/-- An arithmetic that rounds every modulus up. -/
noncomputable def exHypotUp (u : ℝ) : Arith := { Arith.exact with hypot := fun x y => (1 + u) * √(x ^ 2 + y ^ 2) }

theorem exHypotUp_accurate {u : ℝ} (h0 : 0 ≤ u) : Accurate u (exHypotUp u) := by
  have e := accurate_exact h0
  refine ⟨e.add, e.sub, e.mul, e.div, e.sqrt, e.log, fun x y => ?_, e.arctanh⟩
  change |(1 + u) * √(x ^ 2 + y ^ 2) - √(x ^ 2 + y ^ 2)| ≤ _
  rw [show (1 + u) * √(x ^ 2 + y ^ 2) - √(x ^ 2 + y ^ 2) = u * √(x ^ 2 + y ^ 2) by ring, abs_mul, abs_of_nonneg h0]

/-- **C118** The error of the mass is not relative to the mass: for every accuracy `u > 0` there is an arithmetic with
that accuracy in which a massless particle has negative mass. -/
theorem C118_mass_false {u : ℝ} (h0 : 0 < u) :
    ∃ A, Accurate u A ∧ ∃ p : P4, p.mass = 0 ∧ p.massA A < 0 := by
  refine ⟨exHypotUp u, exHypotUp_accurate h0.le, ⟨1, 0, 0, 1⟩, ?_, ?_⟩
  · refine signed_sq_inj ?_
    rw [mass_signed]; simp [mdot]
  · have hs : P4.spatialMagA (exHypotUp u) ⟨1, 0, 0, 1⟩ = (1 + u) * (1 + u) := by
      change (1 + u) * √((0:ℝ) ^ 2 + ((1 + u) * √((1:ℝ) ^ 2 + (0:ℝ) ^ 2)) ^ 2) = _
      have : (0:ℝ) ^ 2 + ((1 + u) * √((1:ℝ) ^ 2 + (0:ℝ) ^ 2)) ^ 2 = (1 + u) ^ 2 := by norm_num
      rw [this, sqrt_sq (by linarith)]
    change rootDiffTwoSquares 1 _ < 0
    rw [hs]
    have hm := rootDiff_signed 1 ((1 + u) * (1 + u))
    by_contra c
    rw [abs_of_nonneg (not_lt.1 c)] at hm
    nlinarith [mul_self_nonneg (rootDiffTwoSquares 1 ((1 + u) * (1 + u))), mul_pos h0 h0, mul_pos h0 (mul_pos h0 h0),
      mul_pos (mul_pos h0 h0) (mul_pos h0 h0)]

/-- An arithmetic that rounds quotients within `u` of one to one. -/
noncomputable def exDivOne (u : ℝ) : Arith :=
  { Arith.exact with div := fun x y => if |1 - x / y| ≤ u * |x / y| then 1 else x / y }

theorem exDivOne_accurate {u : ℝ} (h0 : 0 ≤ u) : Accurate u (exDivOne u) := by
  have e := accurate_exact h0
  refine ⟨e.add, e.sub, e.mul, fun x y hy => ?_, e.sqrt, e.log, e.hypot, e.arctanh⟩
  change |(if |1 - x / y| ≤ u * |x / y| then 1 else x / y) - x / y| ≤ _
  split_ifs with h
  · exact h
  · simpa using by positivity

/-- **C118** Pseudorapidity can become infinite by rounding alone: for every accuracy `0 < u` there is an arithmetic with
that accuracy and a particle with positive transverse momentum and finite pseudorapidity whose computed pseudorapidity
is infinite. -/
theorem C118_eta_false {u : ℝ} (h0 : 0 < u) :
    ∃ A, Accurate u A ∧ ∃ p : P4, 0 < p.pt ∧ 0 < p.ptA A ∧ (∃ y, p.eta = .fin y) ∧ p.etaA A = .pinf := by
  have hx : 0 < √((1 + u) ^ 2 - 1) := sqrt_pos.2 (by nlinarith)
  set p : P4 := ⟨√((1 + u) ^ 2 - 1), 0, 1, 1⟩ with hp
  have hpt : p.pt = √((1 + u) ^ 2 - 1) := by
    rw [pt_eq]; simp only [hp]; rw [show (√((1 + u) ^ 2 - 1)) ^ 2 + (0:ℝ) ^ 2 = (√((1 + u) ^ 2 - 1)) ^ 2 by ring, sqrt_sq hx.le]
  have hm : p.spatialMag = 1 + u := by
    rw [spatialMag_eq, p3sq, hp]
    simp only
    rw [sq_sqrt (by nlinarith), show (1 + u) ^ 2 - 1 + (0:ℝ) ^ 2 + 1 ^ 2 = (1 + u) ^ 2 by ring, sqrt_sq (by linarith)]
  have hmA : p.spatialMagA (exDivOne u) = 1 + u := by
    have : p.spatialMagA (exDivOne u) = p.spatialMagA .exact := rfl
    rw [this, ← hm, spatialMag_eq]
    change √(p.z ^ 2 + (√(p.x ^ 2 + p.y ^ 2)) ^ 2) = _
    rw [sq_sqrt (by positivity)]; unfold p3sq; ring_nf
  refine ⟨exDivOne u, exDivOne_accurate h0.le, p, by rw [hpt]; exact hx, ?_, ?_, ?_⟩
  · have : p.ptA (exDivOne u) = p.pt := (pt_eq p).symm
    rw [this, hpt]; exact hx
  · have hz : p.z = 1 := rfl
    have r1 : (1:ℝ) / (1 + u) < 1 := by rw [div_lt_one (by linarith)]; linarith
    have r0 : 0 < (1:ℝ) / (1 + u) := by positivity
    refine ⟨artanh (1 / (1 + u)), ?_⟩
    unfold P4.eta
    simp only
    rw [hm, hz, if_neg (by linarith), if_neg r1.ne, if_neg (by linarith), if_pos ⟨by linarith, r1⟩]
  · unfold P4.etaA
    simp only
    rw [hmA, if_neg (by linarith)]
    have hz : p.z = 1 := rfl
    have hd : (exDivOne u).div p.z (1 + u) = 1 := by
      change (if |1 - p.z / (1 + u)| ≤ u * |p.z / (1 + u)| then 1 else _) = _
      rw [hz, if_pos]
      rw [show (1:ℝ) - 1 / (1 + u) = u * (1 / (1 + u)) by field_simp; ring, abs_mul, abs_of_nonneg h0.le]
    rw [hd, if_pos rfl]

/-! ## Non-vacuity: double precision, an arithmetic that does round -/

example : Accurate (2 ^ (-53 : ℤ)) (exHypotUp (2 ^ (-53 : ℤ))) := exHypotUp_accurate (by positivity)

example : (exHypotUp 0.1).hypot 3 4 ≠ √(3 ^ 2 + 4 ^ 2) := by
  change (1 + 0.1) * √((3:ℝ) ^ 2 + 4 ^ 2) ≠ _
  rw [show ((3:ℝ) ^ 2 + 4 ^ 2) = 5 ^ 2 by norm_num, sqrt_sq (by norm_num)]; norm_num

/-- A particle of energy 5 and longitudinal momentum 3 meets the hypotheses of `C118_rapidity`. -/
example : ∃ y, P4.rapidityA (exHypotUp 0.1) 1e-3 ⟨4, 0, 3, 5⟩ = .fin y := by
  obtain ⟨y, hy, _⟩ := (C118_rapidity (by norm_num) (by norm_num) (exHypotUp_accurate (u := 0.1) (by norm_num))
    (tol := 1e-3) (by norm_num) ⟨4, 0, 3, 5⟩ (by norm_num)).1 (by norm_num)
  exact ⟨y, hy⟩

end Gcl
