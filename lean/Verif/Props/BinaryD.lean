import Verif.Props.BinaryC
import Verif.Props.RoundedShape
/-! # C161: double precision in numbers -/
namespace Gcl
set_option autoImplicit false
open Spec Real

/-- IEEE arithmetic with `p` bits as libraries offer it: the operations and the root are rounded correctly, the functions are off
by at most one unit in the last place. -/
structure Spec.Ieee (p : ℕ) (A : Arith) : Prop where
  add : ∀ x y, A.add x y = roundBits p (x + y)
  sub : ∀ x y, A.sub x y = roundBits p (x - y)
  mul : ∀ x y, A.mul x y = roundBits p (x * y)
  div : ∀ x y, A.div x y = roundBits p (x / y)
  sqrt : ∀ x, A.sqrt x = roundBits p (√x)
  log : ∀ x, Real.log x ≠ 0 → |A.log x - Real.log x| ≤ 2 ^ (spacingExp p (Real.log x))
  log_one : ∀ x, Real.log x = 0 → A.log x = 0
  hypot : ∀ x y, √(x ^ 2 + y ^ 2) ≠ 0 → |A.hypot x y - √(x ^ 2 + y ^ 2)| ≤ 2 ^ (spacingExp p (√(x ^ 2 + y ^ 2)))
  hypot_zero : A.hypot 0 0 = 0
  arctanh : ∀ x, artanh x ≠ 0 → |A.arctanh x - artanh x| ≤ 2 ^ (spacingExp p (artanh x))
  arctanh_zero : ∀ x, artanh x = 0 → A.arctanh x = 0

/-- **C161** With functions off by up to one unit in the last place the arithmetic has the relative error `2 ^ (1 - p)`. -/
theorem C161_ieee {p : ℕ} {A : Arith} (hA : Ieee p A) : Accurate (2 / 2 ^ p) A := by
  have up : ∀ x : ℝ, 1 / 2 ^ p * |x| ≤ 2 / 2 ^ p * |x| := fun x =>
    mul_le_mul_of_nonneg_right (div_le_div_of_nonneg_right (by norm_num) (by positivity)) (abs_nonneg _)
  have ulp : ∀ x : ℝ, x ≠ 0 → (2 : ℝ) ^ (spacingExp p x) ≤ 2 / 2 ^ p * |x| := by
    intro x hx
    have := half_spacing p hx
    have e : (2 : ℝ) / 2 ^ p * |x| = 2 * (1 / 2 ^ p * |x|) := by ring
    rw [e]; linarith
  refine ⟨fun x y => ?_, fun x y => ?_, fun x y => ?_, fun x y _ => ?_, fun x _ => ?_, fun x _ => ?_, fun x y => ?_,
    fun x _ _ => ?_⟩
  · rw [hA.add]; exact (roundBits_err _ _).trans (up _)
  · rw [hA.sub]; exact (roundBits_err _ _).trans (up _)
  · rw [hA.mul]; exact (roundBits_err _ _).trans (up _)
  · rw [hA.div]; exact (roundBits_err _ _).trans (up _)
  · rw [hA.sqrt]; exact (roundBits_err _ _).trans (up _)
  · by_cases h : Real.log x = 0
    · rw [hA.log_one x h, h]; simp
    · exact (hA.log x h).trans (ulp _ h)
  · by_cases h : √(x ^ 2 + y ^ 2) = 0
    · have h' := (sqrt_eq_zero (by positivity)).1 h
      have hx : x = 0 := by nlinarith [sq_nonneg x, sq_nonneg y]
      have hy : y = 0 := by nlinarith [sq_nonneg x, sq_nonneg y]
      rw [hx, hy, hA.hypot_zero]; simp
    · exact (hA.hypot x y h).trans (ulp _ h)
  · by_cases h : artanh x = 0
    · rw [hA.arctanh_zero x h, h]; simp
    · exact (hA.arctanh x h).trans (ulp _ h)

/-- Such an arithmetic is `binArith`. -/
example (p : ℕ) : Ieee p (binArith p) := by
  have half : ∀ x : ℝ, |roundBits p x - x| ≤ 2 ^ (spacingExp p x) := fun x =>
    (roundTo_err _ x).trans (by have := two_zpow_pos (spacingExp p x); linarith)
  refine ⟨fun _ _ => rfl, fun _ _ => rfl, fun _ _ => rfl, fun _ _ => rfl, fun _ => rfl, fun x _ => half _, fun x h => ?_,
    fun x y _ => half _, ?_, fun x _ => half _, fun x h => ?_⟩
  · change roundBits p (Real.log x) = 0; rw [h, roundBits_zero]
  · change roundBits p (√((0 : ℝ) ^ 2 + 0 ^ 2)) = 0; simp [roundBits_zero]
  · change roundBits p (artanh x) = 0; rw [h, roundBits_zero]

theorem pow_sub_one_le {t : ℝ} (ht : 0 ≤ t) (k : ℕ) (h : 2 * (k * t) ≤ 1) : (1 + t) ^ k - 1 ≤ 2 * (k * t) := by
  rcases Nat.eq_zero_or_pos k with rfl | hk
  · simp
  have hk1 : (1 : ℝ) ≤ k := by exact_mod_cast hk
  have ht1 : t ≤ 1 := by nlinarith
  have h1 := one_add_mul_le_pow (show (-2 : ℝ) ≤ -t by linarith) k
  have h2 : (1 + t) ^ k * (1 + -t) ^ k ≤ 1 := by
    rw [← mul_pow]
    exact pow_le_one₀ (by nlinarith) (by nlinarith)
  have h3 : (1 + t) ^ k * (1 - k * t) ≤ 1 := by
    refine le_trans (mul_le_mul_of_nonneg_left ?_ (by positivity)) h2
    linarith
  have h4 : 0 ≤ k * t := by positivity
  have h5 : (1 + t) ^ k * (1 - k * t) ≤ (1 + 2 * (k * t)) * (1 - k * t) := by nlinarith
  have := le_of_mul_le_mul_right h5 (by linarith)
  linarith

/-- **C161** In double precision: the signed squares of mass and transverse mass are right to `2 ^ -47`, relatively to `e² + |p|²`
and to `e² - z²`; sums of up to a million momenta, in any order, to `2 ^ -31` of the summed magnitudes; and the thrust of up to a
million particles, for every axis, to a billionth.  Functions may be off by one unit in the last place. -/
theorem C161_double {A : Arith} (hA : Ieee 53 A) :
    (∀ p : P4, |p.massA A * (|p.massA A|) - (p.e ^ 2 - (p.x ^ 2 + p.y ^ 2 + p.z ^ 2))| ≤
        1 / 2 ^ 47 * (p.e ^ 2 + (p.x ^ 2 + p.y ^ 2 + p.z ^ 2))) ∧
    (∀ p : P4, |p.massTA A * (|p.massTA A|) - (p.e ^ 2 - p.z ^ 2)| ≤ 1 / 2 ^ 47 * |p.e ^ 2 - p.z ^ 2|) ∧
    (∀ (t : SumTree) (xs : List ℝ), Orders xs.length t → xs.length ≤ 1000000 →
      |sumA A t xs - xs.sum| ≤ 1 / 2 ^ 31 * sumAbs xs) ∧
    (∀ B : ArithS, AccurateS (2 / 2 ^ 53) B → ∀ (φ θ : ℝ) (ps : List P4), ps ≠ [] → (∀ p ∈ ps, Moving p) →
      ps.length ≤ 1000000 → ∃ T', thrustA B φ θ ps = .ok (-T') ∧ |T' - thrustAt ps φ θ| ≤ 1 / 10 ^ 9) := by
  have hacc := C161_ieee hA
  have h0 : (0 : ℝ) ≤ 2 / 2 ^ 53 := by positivity
  have h1 : (2 : ℝ) / 2 ^ 53 < 1 := by norm_num
  refine ⟨fun p => ?_, fun p => ?_, fun t xs ht hl => ?_, fun B hBA φ θ ps hne hmov hl => ?_⟩
  · refine (C118_mass h0 h1 hacc p).trans (mul_le_mul_of_nonneg_right ?_ (by positivity))
    refine (pow_sub_one_le h0 14 (by norm_num)).trans (by norm_num)
  · refine (C118_mass_t h0 h1 hacc p).1.trans (mul_le_mul_of_nonneg_right ?_ (by positivity))
    refine (pow_sub_one_le h0 10 (by norm_num)).trans (by norm_num)
  · have hl' : ((xs.length - 1 : ℕ) : ℝ) ≤ 1000000 := by exact_mod_cast (by omega : xs.length - 1 ≤ 1000000)
    have hs : 0 ≤ sumAbs xs := by
      unfold sumAbs; exact List.sum_nonneg (by simp)
    refine (C123_worst h0 hacc t xs ht).1.trans (mul_le_mul_of_nonneg_right ?_ hs)
    have h2 : 2 * (((xs.length - 1 : ℕ) : ℝ) * (2 / 2 ^ 53)) ≤ 1 / 2 ^ 31 := by
      calc 2 * (((xs.length - 1 : ℕ) : ℝ) * (2 / 2 ^ 53)) ≤ 2 * (1000000 * (2 / 2 ^ 53)) := by gcongr
        _ ≤ _ := by norm_num
    exact (pow_sub_one_le h0 _ (h2.trans (by norm_num))).trans h2
  · have hv : (1 + (1 / (2 ^ 52 - 1)) : ℝ) * (1 - 2 / 2 ^ 53) = 1 := by norm_num
    obtain ⟨T', e, hT⟩ := C146_thrust h0 h1 hv hBA φ θ ps hne hmov
    refine ⟨T', e, hT.trans ?_⟩
    have hl' : ((16 + 2 * ps.length : ℕ) : ℝ) ≤ 2000016 := by exact_mod_cast (by omega : 16 + 2 * ps.length ≤ 2000016)
    have h2 : 2 * (((16 + 2 * ps.length : ℕ) : ℝ) * (1 / (2 ^ 52 - 1))) ≤ 1 / 10 ^ 9 := by
      calc 2 * (((16 + 2 * ps.length : ℕ) : ℝ) * (1 / (2 ^ 52 - 1))) ≤ 2 * (2000016 * (1 / (2 ^ 52 - 1))) := by
            gcongr
        _ ≤ _ := by norm_num
    exact (pow_sub_one_le (by norm_num) _ (h2.trans (by norm_num))).trans h2

end Gcl
