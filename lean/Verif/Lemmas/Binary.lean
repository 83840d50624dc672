import Verif.Model.Binary
import Mathlib.Tactic.Linarith
import Mathlib.Tactic.Positivity
import Mathlib.Tactic.FieldSimp
/-! # Rounding to the nearest number with a given number of bits -/
namespace Gcl
set_option autoImplicit false
open Real Spec

theorem nearestInt_err (x : ℝ) : |(nearestInt x : ℝ) - x| ≤ 1 / 2 := by
  have h := Int.self_sub_floor x
  have h0 := Int.fract_nonneg x
  have h1 := Int.fract_lt_one x
  unfold nearestInt
  split_ifs <;> rw [abs_le] <;> push_cast <;> constructor <;> linarith

theorem nearestInt_int (m : ℤ) : nearestInt (m : ℝ) = m := by simp [nearestInt]

theorem nearestInt_best (x : ℝ) (m : ℤ) : |(nearestInt x : ℝ) - x| ≤ |(m : ℝ) - x| := by
  by_cases h : m = nearestInt x
  · rw [h]
  · have h1 : (1 : ℝ) ≤ |(m : ℝ) - nearestInt x| := by
      have : 1 ≤ |m - nearestInt x| := Int.one_le_abs (sub_ne_zero.2 h)
      exact_mod_cast this
    have h2 := nearestInt_err x
    have h3 : |(m : ℝ) - nearestInt x| ≤ |(m : ℝ) - x| + |x - nearestInt x| := abs_sub_le _ _ _
    rw [abs_sub_comm x] at h3
    linarith

theorem nearestInt_neg (x : ℝ) : nearestInt (-x) = -nearestInt x := by
  by_cases h : Int.fract x = 0
  · obtain ⟨m, hm⟩ : ∃ m : ℤ, x = m := ⟨⌊x⌋, by have := Int.self_sub_floor x; linarith⟩
    rw [hm, ← Int.cast_neg, nearestInt_int, nearestInt_int]
  · have hf : Int.fract (-x) = 1 - Int.fract x := Int.fract_neg h
    have hfl : ⌊-x⌋ = -⌊x⌋ - 1 := by
      have h0 := Int.fract_nonneg x
      have h1 := Int.fract_lt_one x
      have h2 := Int.self_sub_floor x
      have h3 : 0 < Int.fract x := lt_of_le_of_ne h0 (Ne.symm h)
      rw [Int.floor_eq_iff]
      push_cast
      constructor <;> linarith
    unfold nearestInt
    rw [hf, hfl]
    rcases lt_trichotomy (Int.fract x) (1 / 2) with h1 | h1 | h1
    · rw [if_neg (by linarith), if_pos (by linarith), if_pos h1]; omega
    · have a1 : ¬ (1 - Int.fract x < 1 / 2) := by linarith
      have a2 : ¬ (1 / 2 < 1 - Int.fract x) := by linarith
      have a3 : ¬ (Int.fract x < 1 / 2) := by linarith
      have a4 : ¬ (1 / 2 < Int.fract x) := by linarith
      simp only [a1, a2, a3, a4, if_false]
      rcases Int.even_or_odd ⌊x⌋ with he | ho
      · have : ¬ Even (-⌊x⌋ - 1) := by
          rw [Int.not_even_iff_odd]
          obtain ⟨k, hk⟩ := he
          exact ⟨-k - 1, by omega⟩
        simp only [he, this, if_true, if_false]; omega
      · have : Even (-⌊x⌋ - 1) := by
          obtain ⟨k, hk⟩ := ho
          exact ⟨-k - 1, by omega⟩
        simp only [Int.not_even_iff_odd.2 ho, this, if_true, if_false]; omega
    · rw [if_pos (by linarith), if_neg (by linarith), if_pos h1]; omega

theorem two_zpow_pos (k : ℤ) : (0 : ℝ) < 2 ^ k := zpow_pos (by norm_num) k

theorem roundTo_err (k : ℤ) (x : ℝ) : |roundTo k x - x| ≤ 2 ^ k / 2 := by
  have hp := two_zpow_pos k
  have h := nearestInt_err (x / 2 ^ k)
  have e : roundTo k x - x = ((nearestInt (x / 2 ^ k) : ℝ) - x / 2 ^ k) * 2 ^ k := by
    unfold roundTo; field_simp
  rw [e, abs_mul, abs_of_pos hp]
  nlinarith

theorem roundTo_best (k : ℤ) (x : ℝ) (m : ℤ) : |roundTo k x - x| ≤ |m * 2 ^ k - x| := by
  have hp := two_zpow_pos k
  have h := nearestInt_best (x / 2 ^ k) m
  have e : ∀ n : ℝ, n * 2 ^ k - x = (n - x / 2 ^ k) * 2 ^ k := by intro n; field_simp
  unfold roundTo
  rw [e, e, abs_mul, abs_mul, abs_of_pos hp]
  exact mul_le_mul_of_nonneg_right h hp.le

theorem roundTo_neg (k : ℤ) (x : ℝ) : roundTo k (-x) = -roundTo k x := by
  unfold roundTo; rw [neg_div, nearestInt_neg]; push_cast; ring

theorem spacingExp_neg (p : ℕ) (x : ℝ) : spacingExp p (-x) = spacingExp p x := by simp [spacingExp]

theorem roundTo_mult (k : ℤ) (m : ℤ) : roundTo k (m * 2 ^ k) = m * 2 ^ k := by
  unfold roundTo
  rw [mul_div_assoc, div_self (two_zpow_pos k).ne', mul_one, nearestInt_int]

theorem roundTo_zero (k : ℤ) : roundTo k 0 = 0 := by
  have := roundTo_mult k 0
  simpa using this

theorem spacing_le (p : ℕ) {x : ℝ} (hx : x ≠ 0) : (2 : ℝ) ^ (spacingExp p x) * 2 ^ p ≤ 2 * |x| := by
  have h := Int.zpow_log_le_self (b := 2) (r := |x|) (by norm_num) (abs_pos.2 hx)
  have e : (2 : ℝ) ^ (spacingExp p x) * 2 ^ p = 2 ^ (Int.log 2 |x|) * 2 := by
    rw [← zpow_natCast, ← zpow_add₀ (by norm_num), ← zpow_add_one₀ (by norm_num)]
    congr 1; unfold spacingExp; ring
  rw [e]; push_cast at h; linarith

theorem lt_spacing (p : ℕ) (x : ℝ) : |x| < (2 : ℝ) ^ (spacingExp p x) * 2 ^ p := by
  have h := Int.lt_zpow_succ_log_self (b := 2) (by norm_num) |x|
  have e : (2 : ℝ) ^ (spacingExp p x) * 2 ^ p = 2 ^ (Int.log 2 |x| + 1) := by
    rw [← zpow_natCast, ← zpow_add₀ (by norm_num)]
    congr 1; unfold spacingExp; ring
  rw [e]; exact_mod_cast h


theorem roundMin_neg (p : ℕ) (m : ℤ) (x : ℝ) : roundMin p m (-x) = -roundMin p m x := by
  unfold roundMin; rw [spacingExp_neg, roundTo_neg]

theorem roundBits_neg (p : ℕ) (x : ℝ) : roundBits p (-x) = -roundBits p x := by
  unfold roundBits; rw [spacingExp_neg, roundTo_neg]

theorem roundBits_eq_min (p : ℕ) (x : ℝ) {m : ℤ} (h : m ≤ spacingExp p x) : roundBits p x = roundMin p m x := by
  unfold roundBits roundMin; rw [max_eq_left h]

theorem lt_two_pow_max (p : ℕ) (m : ℤ) (x : ℝ) : |x| < (2 : ℝ) ^ (max (spacingExp p x) m) * 2 ^ p :=
  (lt_spacing p x).trans_le (mul_le_mul_of_nonneg_right (zpow_le_zpow_right₀ (by norm_num) (le_max_left _ _)) (by positivity))

theorem roundMin_isBits {p : ℕ} (hp : 1 ≤ p) (m : ℤ) (x : ℝ) : IsBitsMin p m (roundMin p m x) := by
  set e := max (spacingExp p x) m with he
  have hpos := two_zpow_pos e
  have h1 : |x / 2 ^ e| < 2 ^ p := by
    rw [abs_div, abs_of_pos hpos, div_lt_iff₀ hpos, mul_comm]
    exact lt_two_pow_max p m x
  set n := nearestInt (x / 2 ^ e) with hn
  have h2 := nearestInt_err (x / 2 ^ e)
  have h3 : |n| ≤ 2 ^ p := by
    have : |(n : ℝ)| < 2 ^ p + 1 := by
      have := abs_sub_abs_le_abs_sub (n : ℝ) (x / 2 ^ e)
      linarith
    have h4 : |n| < 2 ^ p + 1 := by exact_mod_cast this
    omega
  have hr : roundMin p m x = n * 2 ^ e := rfl
  rcases lt_or_eq_of_le h3 with h4 | h4
  · exact ⟨n, e, h4, le_max_right _ _, hr⟩
  · obtain ⟨q, rfl⟩ : ∃ q, p = q + 1 := ⟨p - 1, by omega⟩
    have hlt : (2 : ℤ) ^ q < 2 ^ (q + 1) := by
      rw [pow_succ]; have : (0 : ℤ) < 2 ^ q := by positivity
      omega
    rcases (abs_eq (by positivity)).1 h4 with h5 | h5
    · refine ⟨2 ^ q, e + 1, by rwa [abs_of_pos (by positivity)], (show m ≤ e from le_max_right _ _).trans (by omega), ?_⟩
      rw [hr, h5, zpow_add_one₀ (by norm_num)]; push_cast; ring
    · refine ⟨-2 ^ q, e + 1, by rwa [abs_neg, abs_of_pos (by positivity)], (show m ≤ e from le_max_right _ _).trans (by omega), ?_⟩
      rw [hr, h5, zpow_add_one₀ (by norm_num)]; push_cast; ring

theorem roundMin_best {p : ℕ} (hp : 1 ≤ p) (m : ℤ) (x : ℝ) {y : ℝ} (hy : IsBitsMin p m y) :
    |roundMin p m x - x| ≤ |y - x| := by
  obtain ⟨n, k, hn, hk, rfl⟩ := hy
  by_cases hx : x = 0
  · subst hx
    have : roundMin p m 0 = 0 := roundTo_zero _
    rw [this, sub_self, abs_zero]; exact abs_nonneg _
  set e := max (spacingExp p x) m with he
  have hpos := two_zpow_pos e
  by_cases hke : e ≤ k
  · have := roundTo_best e x (n * 2 ^ (k - e).toNat)
    have e1 : ((n * 2 ^ (k - e).toNat : ℤ) : ℝ) * 2 ^ e = n * 2 ^ k := by
      push_cast
      rw [mul_assoc, ← zpow_natCast, ← zpow_add₀ (by norm_num)]
      congr 2; omega
    rw [e1] at this
    exact this
  · have hes : e = spacingExp p x := by
      rcases max_choice (spacingExp p x) m with h | h
      · exact h
      · omega
    obtain ⟨q, rfl⟩ : ∃ q, p = q + 1 := ⟨p - 1, by omega⟩
    have hB : (2 : ℝ) ^ q * 2 ^ e ≤ |x| := by
      have := spacing_le (q + 1) hx
      rw [← hes, pow_succ] at this
      linarith
    have hy : |(n : ℝ) * 2 ^ k| ≤ 2 ^ q * 2 ^ e := by
      rw [abs_mul, abs_of_pos (two_zpow_pos k)]
      have h1 : |(n : ℝ)| ≤ 2 ^ (q + 1) := by exact_mod_cast hn.le
      have h2 : (2 : ℝ) ^ k * 2 ≤ 2 ^ e := by
        rw [← zpow_add_one₀ (by norm_num)]
        exact zpow_le_zpow_right₀ (by norm_num) (by omega)
      calc |(n : ℝ)| * 2 ^ k ≤ 2 ^ (q + 1) * 2 ^ k := mul_le_mul_of_nonneg_right h1 (two_zpow_pos k).le
        _ = 2 ^ q * (2 ^ k * 2) := by rw [pow_succ]; ring
        _ ≤ _ := mul_le_mul_of_nonneg_left h2 (by positivity)
    have hy' := abs_le.1 hy
    rcases lt_or_gt_of_ne hx with hx0 | hx0
    · have := roundTo_best e x (-2 ^ q)
      push_cast at this
      rw [abs_of_neg hx0] at hB
      refine this.trans ?_
      rw [abs_of_nonneg (by linarith), abs_of_nonneg (by linarith)]
      linarith
    · have := roundTo_best e x (2 ^ q)
      push_cast at this
      rw [abs_of_pos hx0] at hB
      refine this.trans ?_
      rw [abs_of_nonpos (by linarith), abs_of_nonpos (by linarith)]
      linarith

theorem roundMin_of_bits {p : ℕ} (hp : 1 ≤ p) {m : ℤ} {x : ℝ} (hx : IsBitsMin p m x) : roundMin p m x = x := by
  have := roundMin_best hp m x hx
  rw [sub_self, abs_zero] at this
  exact sub_eq_zero.1 (abs_eq_zero.1 (le_antisymm this (abs_nonneg _)))

theorem isBits_min {p : ℕ} {x : ℝ} (h : IsBits p x) : ∃ m, ∀ m' ≤ m, IsBitsMin p m' x := by
  obtain ⟨n, k, hn, rfl⟩ := h
  exact ⟨k, fun m' hm => ⟨n, k, hn, hm, rfl⟩⟩

theorem isBitsMin_bits {p : ℕ} {m : ℤ} {x : ℝ} (h : IsBitsMin p m x) : IsBits p x := by
  obtain ⟨n, k, hn, _, rfl⟩ := h; exact ⟨n, k, hn, rfl⟩

theorem roundBits_isBits {p : ℕ} (hp : 1 ≤ p) (x : ℝ) : IsBits p (roundBits p x) := by
  rw [roundBits_eq_min p x le_rfl]; exact isBitsMin_bits (roundMin_isBits hp _ x)

theorem roundBits_best {p : ℕ} (hp : 1 ≤ p) (x : ℝ) {y : ℝ} (hy : IsBits p y) : |roundBits p x - x| ≤ |y - x| := by
  obtain ⟨m, hm⟩ := isBits_min hy
  rw [roundBits_eq_min p x (min_le_right m (spacingExp p x))]
  exact roundMin_best hp _ x (hm _ (min_le_left _ _))

theorem roundBits_of_bits {p : ℕ} (hp : 1 ≤ p) {x : ℝ} (hx : IsBits p x) : roundBits p x = x := by
  have := roundBits_best hp x hx
  rw [sub_self, abs_zero] at this
  exact sub_eq_zero.1 (abs_eq_zero.1 (le_antisymm this (abs_nonneg _)))

/-- A best approximation from a set is monotone. -/
theorem best_mono {r : ℝ → ℝ} {F : ℝ → Prop} (hF : ∀ x, F (r x)) (hb : ∀ x y, F y → |r x - x| ≤ |y - x|) {x y : ℝ}
    (h : x ≤ y) : r x ≤ r y := by
  rcases eq_or_lt_of_le h with rfl | h
  · exact le_rfl
  by_contra hc
  rw [not_le] at hc
  have h1 := hb x (r y) (hF y)
  have h2 := hb y (r x) (hF x)
  rcases abs_cases (r x - x) with ⟨a, _⟩ | ⟨a, _⟩ <;> rcases abs_cases (r y - x) with ⟨b, _⟩ | ⟨b, _⟩ <;>
    rcases abs_cases (r y - y) with ⟨c, _⟩ | ⟨c, _⟩ <;> rcases abs_cases (r x - y) with ⟨d, _⟩ | ⟨d, _⟩ <;>
    rw [a, b] at h1 <;> rw [c, d] at h2 <;> linarith

theorem roundBits_mono {p : ℕ} (hp : 1 ≤ p) {x y : ℝ} (h : x ≤ y) : roundBits p x ≤ roundBits p y :=
  best_mono (F := IsBits p) (roundBits_isBits hp) (fun x _ hy => roundBits_best hp x hy) h

theorem roundMin_mono {p : ℕ} (hp : 1 ≤ p) (m : ℤ) {x y : ℝ} (h : x ≤ y) : roundMin p m x ≤ roundMin p m y :=
  best_mono (F := IsBitsMin p m) (roundMin_isBits hp m) (fun x _ hy => roundMin_best hp m x hy) h

theorem half_spacing (p : ℕ) {x : ℝ} (hx : x ≠ 0) : (2 : ℝ) ^ (spacingExp p x) / 2 ≤ 1 / 2 ^ p * |x| := by
  have := spacing_le p hx
  have hp : (0 : ℝ) < 2 ^ p := by positivity
  rw [div_mul_eq_mul_div, le_div_iff₀ hp]
  linarith

theorem roundBits_err (p : ℕ) (x : ℝ) : |roundBits p x - x| ≤ 1 / 2 ^ p * |x| := by
  by_cases hx : x = 0
  · subst hx
    have : roundBits p 0 = 0 := roundTo_zero _
    rw [this]; simp
  exact (roundTo_err _ x).trans (half_spacing p hx)

theorem roundMin_err (p : ℕ) (m : ℤ) (x : ℝ) : |roundMin p m x - x| ≤ 1 / 2 ^ p * |x| + 2 ^ m / 2 := by
  by_cases hx : x = 0
  · subst hx
    have : roundMin p m 0 = 0 := roundTo_zero _
    have := two_zpow_pos m
    simp [*]; positivity
  rcases max_choice (spacingExp p x) m with h | h
  · have := (roundTo_err (max (spacingExp p x) m) x)
    rw [h] at this
    have h2 := half_spacing p hx
    have := two_zpow_pos m
    unfold roundMin; rw [h]; linarith
  · have := (roundTo_err (max (spacingExp p x) m) x)
    rw [h] at this
    have h2 : 0 ≤ 1 / 2 ^ p * |x| := by positivity
    unfold roundMin; rw [h]; linarith

/-- Above the least normal number there is no difference. -/
theorem roundMin_normal {p : ℕ} {m : ℤ} {x : ℝ} (h : (2 : ℝ) ^ (m + p - 1) ≤ |x|) : roundMin p m x = roundBits p x := by
  have hx : x ≠ 0 := by rintro rfl; rw [abs_zero] at h; exact absurd h (not_le.2 (two_zpow_pos _))
  refine (roundBits_eq_min p x ?_).symm
  have := (Int.zpow_le_iff_le_log (b := 2) (r := |x|) (by norm_num) (abs_pos.2 hx) (x := m + p - 1)).1 (by exact_mod_cast h)
  unfold spacingExp; omega

end Gcl
