import Verif.Props.BinaryA
/-! # C161: what is assumed of the arithmetic -/
namespace Gcl
set_option autoImplicit false
open Spec Real

theorem gradual_accurate {p : ℕ} {m : ℤ} (hm : m + 2 * p ≤ 2) : AccurateU (1 / 2 ^ p) (2 ^ m / 2) (gradual p m) := by
  have key : ∀ s : ℝ, (∃ n : ℤ, s = n * 2 ^ m) → |roundMin p m s - s| ≤ 1 / 2 ^ p * |s| := by
    rintro s ⟨n, hn⟩
    rcases le_total m (spacingExp p s) with h | h
    · rw [← roundBits_eq_min p s h]; exact roundBits_err p s
    · have : roundMin p m s = s := by
        unfold roundMin; rw [max_eq_right h, hn, roundTo_mult]
      rw [this, sub_self, abs_zero]; positivity
  have mult : ∀ x, IsBitsMin p m x → ∃ n : ℤ, x = n * 2 ^ m := by
    rintro x ⟨n, k, _, hk, rfl⟩
    refine ⟨n * 2 ^ (k - m).toNat, ?_⟩
    push_cast
    rw [mul_assoc, ← zpow_natCast, ← zpow_add₀ (by norm_num)]
    congr 2; omega
  have hη : (0 : ℝ) ≤ 2 ^ m / 2 := by have := two_zpow_pos m; positivity
  refine ⟨fun x y => ?_, fun x y => ?_, fun x y => roundMin_err _ _ _, fun x y _ => roundMin_err _ _ _, fun x hx => ?_,
    fun x y => roundMin_err _ _ _⟩
  · simp only [gradual]
    split_ifs with h
    · obtain ⟨a, ha⟩ := mult x h.1
      obtain ⟨b, hb⟩ := mult y h.2
      exact key _ ⟨a + b, by rw [ha, hb]; push_cast; ring⟩
    · rw [sub_self, abs_zero]; positivity
  · simp only [gradual]
    split_ifs with h
    · obtain ⟨a, ha⟩ := mult x h.1
      obtain ⟨b, hb⟩ := mult y h.2
      exact key _ ⟨a - b, by rw [ha, hb]; push_cast; ring⟩
    · rw [sub_self, abs_zero]; positivity
  · simp only [gradual]
    split_ifs with h
    · obtain ⟨n, hn⟩ := mult x h
      have hpos := two_zpow_pos m
      rcases eq_or_lt_of_le hx with h0 | h0
      · rw [← h0, sqrt_zero]
        have : roundMin p m 0 = 0 := roundTo_zero _
        rw [this]; simp
      · have hn1 : 1 ≤ n := by
          by_contra hc
          have : (n : ℝ) ≤ 0 := by exact_mod_cast (by omega : n ≤ 0)
          nlinarith
        have hx1 : (2 : ℝ) ^ m ≤ x := by
          rw [hn]; have : (1 : ℝ) ≤ n := by exact_mod_cast hn1
          nlinarith
        have hs : (2 : ℝ) ^ (m + p - 1) ≤ |√x| := by
          rw [abs_of_nonneg (sqrt_nonneg _)]
          apply le_sqrt_of_sq_le
          refine le_trans ?_ hx1
          rw [← zpow_natCast, ← zpow_mul]
          exact zpow_le_zpow_right₀ (by norm_num) (by push_cast; omega)
        rw [roundMin_normal hs]
        exact roundBits_err p _
    · rw [sub_self, abs_zero]; positivity

theorem roundBits_nat {p n : ℕ} (hp : 1 ≤ p) (h : n ≤ 2 ^ p) : roundBits p (n : ℝ) = n := by
  apply roundBits_of_bits hp
  rcases lt_or_eq_of_le h with h | h
  · exact isBits_nat h
  · have := isBits_two_zpow hp (p : ℤ)
    rw [h]; push_cast; rwa [zpow_natCast] at this

theorem roundBits_one {p : ℕ} (hp : 1 ≤ p) : roundBits p 1 = 1 := by
  have := roundBits_nat (n := 1) hp (Nat.one_le_two_pow)
  simpa using this

theorem roundBits_zero (p : ℕ) : roundBits p 0 = 0 := roundTo_zero _

theorem binCount_counts {p q : ℕ} (hp : 2 ≤ p) (hq : 1 ≤ q) : CountsTo (2 ^ p) (1 / 2 ^ q) (1 / 2 ^ p) (binCount p q) where
  add_zero m hm := by simpa [binCount] using roundBits_nat (by omega) hm
  add_one m hm := by
    have := roundBits_nat (p := p) (n := m + 1) (by omega) hm
    simpa [binCount] using this
  stuck := by simpa [binCount] using roundBits_stuck hp
  div x y _ := roundBits_err _ _
  div_le x x' y hy h := roundBits_mono hq (div_le_div_of_nonneg_right h hy.le)
  div_self y hy := by simp only [binCount]; rw [div_self hy]; exact roundBits_one hq
  single x := roundBits_err _ _
  single_le x x' h := roundBits_mono (by omega) h
  single_one := roundBits_one (by omega)

/-- **C161** With `p` bits the arithmetic has the relative error `2 ^ -p`: everything assumed of the arithmetic in C118, C123,
C136, C144, C146, C150 and C156 is so, with `53` bits for doubles; and in C154, with `24` bits for counting. -/
theorem C161_accurate {p q : ℕ} (hp : 2 ≤ p) (hq : 1 ≤ q) :
    Accurate (1 / 2 ^ p) (binArith p) ∧ AccurateR (1 / 2 ^ p) (binArithR p) ∧ Rounds (roundBits p) (binArithR p) ∧
    AccurateP (1 / 2 ^ p) (binArithP p) ∧ AccurateS (1 / 2 ^ p) (binArithS p) ∧
    AccurateM (1 / 2 ^ p) (binArithS p).sequential ∧ CountsTo (2 ^ p) (1 / 2 ^ q) (1 / 2 ^ p) (binCount p q) :=
  ⟨binArith_accurate p, binArithR_accurate p, binArithR_rounds p, binArithP_accurate p, binArithS_accurate p,
    C150_sequential (by positivity) (binArithS_accurate p), binCount_counts hp hq⟩

/-- **C161** With a least spacing of numbers near zero it is as assumed in C151: no result of a sum, a difference or a root
of such numbers underflows.  For doubles `p = 53`, `m = -1074`. -/
theorem C161_gradual {p : ℕ} {m : ℤ} (hm : m + 2 * p ≤ 2) : AccurateU (1 / 2 ^ p) (2 ^ m / 2) (gradual p m) :=
  gradual_accurate hm

/-- **C161** Above the least normal number the two ways of rounding agree. -/
theorem C161_normal {p : ℕ} {m : ℤ} {x : ℝ} (h : (2 : ℝ) ^ (m + p - 1) ≤ |x|) : roundMin p m x = roundBits p x :=
  roundMin_normal h

theorem spatialMag_ge {p : ℕ} (hp : 1 ≤ p) (q : P4) (hz : IsBits p q.z) : |q.z| ≤ q.spatialMagA (binArith p) := by
  have h1 : roundBits p |q.z| ≤ q.spatialMagA (binArith p) := by
    refine roundBits_mono hp ?_
    rw [← sqrt_sq_eq_abs]
    exact sqrt_le_sqrt (by nlinarith [sq_nonneg (q.ptA (binArith p))])
  rw [roundBits_of_bits hp] at h1
  · exact h1
  · obtain ⟨n, k, hn, e⟩ := hz
    exact ⟨|n|, k, by rwa [abs_abs], by rw [e, abs_mul, abs_of_pos (two_zpow_pos k)]; push_cast; rfl⟩

theorem bin_zero {p : ℕ} (hp : 1 ≤ p) {x : ℝ} : roundBits p x = 0 ↔ x = 0 := by
  constructor
  · intro h
    have := roundBits_err p x
    rw [h, zero_sub, abs_neg] at this
    have hu : (1 : ℝ) / 2 ^ p < 1 := by
      rw [div_lt_one (by positivity)]; exact one_lt_pow₀ (by norm_num) (by omega)
    by_contra hx
    have := abs_pos.2 hx
    nlinarith
  · rintro rfl; exact roundBits_zero p

/-- **C161** The pseudorapidity of a moving particle is never nan, as the modulus of its momentum never comes out smaller than
its longitudinal component. -/
theorem C161_eta {p : ℕ} (hp : 1 ≤ p) (q : P4) (hz : IsBits p q.z) :
    q.etaA (binArith p) = .nan ↔ q.x = 0 ∧ q.y = 0 ∧ q.z = 0 := by
  have hge := spatialMag_ge hp q hz
  have hmag : q.spatialMagA (binArith p) = 0 ↔ q.x = 0 ∧ q.y = 0 ∧ q.z = 0 := by
    change roundBits p (√(q.z ^ 2 + (roundBits p (√(q.x ^ 2 + q.y ^ 2))) ^ 2)) = 0 ↔ _
    rw [bin_zero hp, sqrt_eq_zero (by positivity)]
    constructor
    · intro h
      have h1 : q.z = 0 := by nlinarith [sq_nonneg q.z, sq_nonneg (roundBits p (√(q.x ^ 2 + q.y ^ 2)))]
      have h2 : roundBits p (√(q.x ^ 2 + q.y ^ 2)) = 0 := by
        nlinarith [sq_nonneg q.z, sq_nonneg (roundBits p (√(q.x ^ 2 + q.y ^ 2)))]
      rw [bin_zero hp, sqrt_eq_zero (by positivity)] at h2
      refine ⟨by nlinarith [sq_nonneg q.x, sq_nonneg q.y], by nlinarith [sq_nonneg q.x, sq_nonneg q.y], h1⟩
    · rintro ⟨h1, h2, h3⟩
      rw [h1, h2, h3]; simp [roundBits_zero]
  unfold P4.etaA
  by_cases h0 : q.spatialMagA (binArith p) = 0
  · rw [if_pos h0]; exact ⟨fun _ => hmag.1 h0, fun _ => rfl⟩
  · rw [if_neg h0]
    have hpos : 0 < q.spatialMagA (binArith p) := lt_of_le_of_ne ((abs_nonneg _).trans hge) (Ne.symm h0)
    have hq := abs_le.1 hge
    have h1 : (binArith p).div q.z (q.spatialMagA (binArith p)) ≤ 1 := by
      have : roundBits p (q.z / q.spatialMagA (binArith p)) ≤ roundBits p 1 :=
        roundBits_mono hp (by rw [div_le_one hpos]; exact hq.2)
      rwa [roundBits_one hp] at this
    have h2 : -1 ≤ (binArith p).div q.z (q.spatialMagA (binArith p)) := by
      have : roundBits p (-1) ≤ roundBits p (q.z / q.spatialMagA (binArith p)) :=
        roundBits_mono hp (by rw [le_div_iff₀ hpos]; linarith [hq.1])
      rwa [roundBits_neg, roundBits_one hp] at this
    dsimp only
    refine ⟨?_, fun h => absurd (hmag.2 h) h0⟩
    intro h
    split_ifs at h with a b c
    exact absurd ⟨lt_of_le_of_ne h2 (Ne.symm b), lt_of_le_of_ne h1 a⟩ c

/-- Doubles. -/
example : AccurateU (1 / 2 ^ 53) (2 ^ (-1074 : ℤ) / 2) (gradual 53 (-1074)) := C161_gradual (by norm_num)

/-- A massless particle with components that are doubles. -/
example : IsBits 53 (3 : ℝ) ∧ IsBits 53 (2 : ℝ) ∧ (1 : ℝ) ^ 2 + 2 ^ 2 + 2 ^ 2 = 3 ^ 2 :=
  ⟨by simpa using isBits_nat (p := 53) (n := 3) (by norm_num), by simpa using isBits_nat (p := 53) (n := 2) (by norm_num),
    by norm_num⟩

end Gcl
