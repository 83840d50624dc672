import Verif.Lemmas.Binary
import Verif.Props.Range
import Verif.Props.RoundedPrune
import Verif.Props.RoundedSplit
import Verif.Props.RoundedSum
import Verif.Props.SingleCount
/-!
# C161: double precision

The rounding of IEEE arithmetic, and that it has the accuracy the properties about rounding assume.
-/
namespace Gcl
set_option autoImplicit false
open Spec Real

/-- **C161** Rounding gives a number of `p` bits, and none is nearer; so also with a least spacing. -/
theorem C161_nearest {p : ℕ} (hp : 1 ≤ p) (m : ℤ) (x : ℝ) :
    (IsBits p (roundBits p x) ∧ ∀ y, IsBits p y → |roundBits p x - x| ≤ |y - x|) ∧
    (IsBitsMin p m (roundMin p m x) ∧ ∀ y, IsBitsMin p m y → |roundMin p m x - x| ≤ |y - x|) :=
  ⟨⟨roundBits_isBits hp x, fun _ h => roundBits_best hp x h⟩, roundMin_isBits hp m x, fun _ h => roundMin_best hp m x h⟩

theorem acc_zero {u : ℝ} {p : ℕ} (h : 1 / 2 ^ p = u) (x : ℝ) : |roundBits p x - x| ≤ u * |x| := h ▸ roundBits_err p x

theorem binArith_accurate (p : ℕ) : Accurate (1 / 2 ^ p) (binArith p) :=
  ⟨fun _ _ => roundBits_err _ _, fun _ _ => roundBits_err _ _, fun _ _ => roundBits_err _ _, fun _ _ _ => roundBits_err _ _,
    fun _ _ => roundBits_err _ _, fun _ _ => roundBits_err _ _, fun _ _ => roundBits_err _ _, fun _ _ _ => roundBits_err _ _⟩

theorem binArithR_accurate (p : ℕ) : AccurateR (1 / 2 ^ p) (binArithR p) :=
  { binArith_accurate p with atan2 := fun _ _ => roundBits_err _ _ }

theorem binArithP_accurate (p : ℕ) : AccurateP (1 / 2 ^ p) (binArithP p) :=
  { binArithR_accurate p with cos := fun _ => roundBits_err _ _, sin := fun _ => roundBits_err _ _ }

theorem binArithS_accurate (p : ℕ) : AccurateS (1 / 2 ^ p) (binArithS p) :=
  ⟨binArith_accurate p, fun _ => roundBits_err _ _, fun _ => roundBits_err _ _, fun _ => roundBits_err _ _,
    fun _ => roundBits_err _ _⟩

theorem binArithR_rounds (p : ℕ) : Rounds (roundBits p) (binArithR p) := by
  refine ⟨fun _ _ => rfl, fun _ _ => rfl, fun _ _ => rfl, roundBits_neg p, fun y x => ?_, fun x y => ?_⟩
  · change |roundBits p (Complex.arg ⟨x, -y⟩)| = |roundBits p (Complex.arg ⟨x, y⟩)|
    have : (⟨x, -y⟩ : ℂ) = (starRingEnd ℂ) ⟨x, y⟩ := by apply Complex.ext <;> simp
    rw [this, Complex.arg_conj]
    split_ifs with h
    · rw [h]
    · rw [roundBits_neg, abs_neg]
  · change roundBits p (√(x ^ 2 + y ^ 2)) = roundBits p (√(|x| ^ 2 + |y| ^ 2))
    rw [sq_abs, sq_abs]

theorem isBits_nat {p n : ℕ} (h : n < 2 ^ p) : IsBits p (n : ℝ) :=
  ⟨n, 0, by rw [abs_of_nonneg (by positivity)]; exact_mod_cast h, by simp⟩

theorem isBits_two_zpow {p : ℕ} (hp : 1 ≤ p) (k : ℤ) : IsBits p ((2 : ℝ) ^ k) :=
  ⟨1, k, by rw [abs_one]; exact one_lt_pow₀ (by norm_num) (by omega), by simp⟩

/-- evaluation: no tie -/
theorem roundBits_eq {p : ℕ} {x : ℝ} {n k : ℤ} (h1 : (2 : ℝ) ^ (k + p - 1) ≤ |x|) (h2 : |x| < 2 ^ (k + p)) (h3 : |n * 2 ^ k - x| < 2 ^ k / 2) :
    roundBits p x = n * 2 ^ k := by
  have hx : 0 < |x| := (two_zpow_pos _).trans_le h1
  have hlog : Int.log 2 |x| = k + p - 1 := by
    apply le_antisymm
    · have := (Int.lt_zpow_iff_log_lt (b := 2) (r := |x|) (by norm_num) hx (x := k + p)).1 (by exact_mod_cast h2)
      omega
    · exact (Int.zpow_le_iff_le_log (b := 2) (r := |x|) (by norm_num) hx (x := k + p - 1)).1 (by exact_mod_cast h1)
  have hs : spacingExp p x = k := by unfold spacingExp; rw [hlog]; ring
  have hpos := two_zpow_pos k
  unfold roundBits
  rw [hs]
  have h4 := roundTo_err k x
  unfold roundTo at h4 ⊢
  set m := nearestInt (x / 2 ^ k)
  congr 1
  have h5 : |(m : ℝ) * 2 ^ k - n * 2 ^ k| < 2 ^ k := by
    calc |(m : ℝ) * 2 ^ k - n * 2 ^ k| = |((m : ℝ) * 2 ^ k - x) + -(n * 2 ^ k - x)| := by congr 1; ring
      _ ≤ |(m : ℝ) * 2 ^ k - x| + |-(n * 2 ^ k - x)| := abs_add_le _ _
      _ < _ := by rw [abs_neg]; linarith
  rw [← sub_mul, abs_mul, abs_of_pos hpos] at h5
  have h6 : |(m : ℝ) - n| < 1 := by
    by_contra hc
    nlinarith
  have h7 : |m - n| < 1 := by exact_mod_cast h6
  have : m - n = 0 := Int.abs_lt_one_iff.1 h7
  exact_mod_cast (sub_eq_zero.1 this)

theorem roundBits_stuck {p : ℕ} (hp : 2 ≤ p) : roundBits p (2 ^ p + 1) = 2 ^ p := by
  have h1 : (1 : ℝ) < 2 ^ p := one_lt_pow₀ (by norm_num) (by omega)
  have hlog : Int.log 2 |(2 : ℝ) ^ p + 1| = p := by
    rw [abs_of_pos (by positivity)]
    apply le_antisymm
    · have := (Int.lt_zpow_iff_log_lt (R := ℝ) (b := 2) (r := 2 ^ p + 1) (by norm_num) (by positivity) (x := p + 1)).1 (by
        push_cast; rw [zpow_add_one₀ (by norm_num), zpow_natCast]; linarith)
      omega
    · refine (Int.zpow_le_iff_le_log (R := ℝ) (b := 2) (r := 2 ^ p + 1) (by norm_num) (by positivity) (x := p)).1 ?_
      push_cast; rw [zpow_natCast]; linarith
  have hs : spacingExp p (2 ^ p + 1) = 1 := by unfold spacingExp; rw [hlog]; ring
  obtain ⟨q, rfl⟩ : ∃ q, p = q + 1 := ⟨p - 1, by omega⟩
  have hf : ⌊((2 : ℝ) ^ (q + 1) + 1) / 2⌋ = 2 ^ q := by
    rw [Int.floor_eq_iff]; push_cast; rw [pow_succ]; constructor <;> linarith
  have hfr : Int.fract (((2 : ℝ) ^ (q + 1) + 1) / 2) = 1 / 2 := by
    unfold Int.fract; rw [hf]; push_cast; rw [pow_succ]; ring
  unfold roundBits roundTo
  rw [hs]
  unfold nearestInt
  rw [zpow_one, hfr, hf]
  norm_num
  have : Even ((2 : ℤ) ^ q) := by
    rw [Int.even_pow]; exact ⟨by norm_num, by omega⟩
  rw [if_pos this]; push_cast; rw [pow_succ]

theorem nearestInt_tie {x : ℝ} {m : ℤ} (hm : m ≠ nearestInt x) (h : |(m : ℝ) - x| = |(nearestInt x : ℝ) - x|) :
    Even (nearestInt x) := by
  have h1 : (1 : ℝ) ≤ |(m : ℝ) - nearestInt x| := by
    have : 1 ≤ |m - nearestInt x| := Int.one_le_abs (sub_ne_zero.2 hm)
    exact_mod_cast this
  have h2 := nearestInt_err x
  have h3 : |(m : ℝ) - nearestInt x| ≤ |(m : ℝ) - x| + |x - nearestInt x| := abs_sub_le _ _ _
  rw [abs_sub_comm x, h] at h3
  have h4 : |(nearestInt x : ℝ) - x| = 1 / 2 := by linarith
  have hf := Int.self_sub_floor x
  have hf1 := Int.fract_lt_one x
  have hf0 := Int.fract_nonneg x
  unfold nearestInt at h4 ⊢
  split_ifs at h4 ⊢ with c1 c2 c3
  · exfalso; rw [abs_of_nonpos (by linarith)] at h4; linarith
  · exfalso; push_cast at h4; rw [abs_of_nonneg (by linarith)] at h4; linarith
  · exact c3
  · exact Int.even_add_one.2 c3

theorem roundMin_tie {p : ℕ} (hp : 1 ≤ p) (m : ℤ) (x : ℝ) {y : ℝ} (hy : IsBitsMin p m y) (hne : y ≠ roundMin p m x)
    (h : |y - x| = |roundMin p m x - x|) :
    ∃ n : ℤ, Even n ∧ roundMin p m x = n * 2 ^ (max (spacingExp p x) m) ∧ |x| < 2 ^ (max (spacingExp p x) m) * 2 ^ p := by
  set e := max (spacingExp p x) m with he
  have hpos := two_zpow_pos e
  refine ⟨nearestInt (x / 2 ^ e), ?_, rfl, lt_two_pow_max p m x⟩
  obtain ⟨j, hj⟩ : ∃ j : ℤ, y = j * 2 ^ e := by
    obtain ⟨n, k, hn, hk, rfl⟩ := hy
    by_cases hke : e ≤ k
    · refine ⟨n * 2 ^ (k - e).toNat, ?_⟩
      push_cast
      rw [mul_assoc, ← zpow_natCast, ← zpow_add₀ (by norm_num)]
      congr 2; omega
    · exfalso
      by_cases hx : x = 0
      · subst hx
        have h0 : roundMin p m 0 = 0 := roundTo_zero _
        rw [h0, sub_zero, sub_zero, abs_zero, abs_eq_zero] at h
        exact hne (by rw [h0, h])
      have hes : e = spacingExp p x := by
        rcases max_choice (spacingExp p x) m with h | h
        · exact h
        · omega
      obtain ⟨q, rfl⟩ : ∃ q, p = q + 1 := ⟨p - 1, by omega⟩
      have hB : (2 : ℝ) ^ q * 2 ^ e ≤ |x| := by
        have := spacing_le (q + 1) hx
        rw [← hes, pow_succ] at this
        linarith
      have hy : |(n : ℝ) * 2 ^ k| < 2 ^ q * 2 ^ e := by
        rw [abs_mul, abs_of_pos (two_zpow_pos k)]
        have h1 : |(n : ℝ)| < 2 ^ (q + 1) := by exact_mod_cast hn
        have h2 : (2 : ℝ) ^ k * 2 ≤ 2 ^ e := by
          rw [← zpow_add_one₀ (by norm_num)]
          exact zpow_le_zpow_right₀ (by norm_num) (by omega)
        calc |(n : ℝ)| * 2 ^ k < 2 ^ (q + 1) * 2 ^ k := mul_lt_mul_of_pos_right h1 (two_zpow_pos k)
          _ = 2 ^ q * (2 ^ k * 2) := by rw [pow_succ]; ring
          _ ≤ _ := mul_le_mul_of_nonneg_left h2 (by positivity)
      have hy' := abs_lt.1 hy
      rcases lt_or_gt_of_ne hx with hx0 | hx0
      · have := roundTo_best e x (-2 ^ q)
        push_cast at this
        rw [abs_of_neg hx0] at hB
        change |roundMin (q + 1) m x - x| ≤ _ at this
        rw [← h, abs_of_nonneg (by linarith), abs_of_nonneg (by linarith)] at this
        linarith
      · have := roundTo_best e x (2 ^ q)
        push_cast at this
        rw [abs_of_pos hx0] at hB
        change |roundMin (q + 1) m x - x| ≤ _ at this
        rw [← h, abs_of_nonpos (by linarith), abs_of_nonpos (by linarith)] at this
        linarith
  have hr : roundMin p m x = nearestInt (x / 2 ^ e) * 2 ^ e := rfl
  rw [hr, hj] at h hne
  have e1 : ∀ n : ℝ, n * 2 ^ e - x = (n - x / 2 ^ e) * 2 ^ e := by intro n; field_simp
  rw [e1, e1, abs_mul, abs_mul] at h
  exact nearestInt_tie (fun hc => hne (by rw [hc])) (mul_right_cancel₀ (by positivity) h)

/-! ## Powers of two -/

theorem spacingExp_scale (p : ℕ) (k : ℤ) {x : ℝ} (hx : x ≠ 0) : spacingExp p (2 ^ k * x) = k + spacingExp p x := by
  have h : Int.log 2 |2 ^ k * x| = k + Int.log 2 |x| := by
    have hx' := abs_pos.2 hx
    have hk := two_zpow_pos k
    have hkx : 0 < |2 ^ k * x| := abs_pos.2 (mul_ne_zero hk.ne' hx)
    have e : |2 ^ k * x| = 2 ^ k * |x| := by rw [abs_mul, abs_of_pos hk]
    have a := Int.zpow_log_le_self (b := 2) (r := |x|) (by norm_num) hx'
    have b := Int.lt_zpow_succ_log_self (b := 2) (by norm_num) |x|
    push_cast at a b
    apply le_antisymm
    · have := (Int.lt_zpow_iff_log_lt (b := 2) (by norm_num) hkx (x := k + Int.log 2 |x| + 1)).1 (by
        push_cast
        rw [e, add_assoc, zpow_add₀ (by norm_num)]
        exact mul_lt_mul_of_pos_left b hk)
      omega
    · refine (Int.zpow_le_iff_le_log (b := 2) (by norm_num) hkx).1 ?_
      push_cast
      rw [e, zpow_add₀ (by norm_num)]
      exact mul_le_mul_of_nonneg_left a hk.le
  unfold spacingExp; rw [h]; ring

theorem roundBits_scale (p : ℕ) (k : ℤ) (x : ℝ) : roundBits p (2 ^ k * x) = 2 ^ k * roundBits p x := by
  by_cases hx : x = 0
  · subst hx
    have : roundBits p 0 = 0 := roundTo_zero _
    rw [mul_zero, this, mul_zero]
  unfold roundBits roundTo
  have hk := (two_zpow_pos k).ne'
  have hs := (two_zpow_pos (spacingExp p x)).ne'
  rw [spacingExp_scale p k hx, zpow_add₀ (by norm_num), mul_div_mul_left _ _ hk]
  ring

/-- **C161** If another number of `p` bits is as near, the last bit of the result, that of the place `2 ^ k`, is zero. -/
theorem C161_even {p : ℕ} (hp : 1 ≤ p) {x y : ℝ} (hx : x ≠ 0) (hy : IsBits p y) (hne : y ≠ roundBits p x)
    (h : |y - x| = |roundBits p x - x|) :
    ∃ n k : ℤ, roundBits p x = n * 2 ^ k ∧ Even n ∧ (2 : ℝ) ^ k * 2 ^ p ≤ 2 * |x| ∧ |x| < 2 ^ k * 2 ^ p := by
  obtain ⟨m, hm⟩ := isBits_min hy
  have e := roundBits_eq_min p x (min_le_right m (spacingExp p x))
  rw [e] at hne h
  obtain ⟨n, h1, h2, h3⟩ := roundMin_tie hp _ x (hm _ (min_le_left m (spacingExp p x))) hne h
  rw [max_eq_left (min_le_right _ _)] at h2 h3
  exact ⟨n, spacingExp p x, e.trans h2, h1, spacing_le p hx, h3⟩

/-- **C161** Rounding keeps numbers of `p` bits, order and sign. -/
theorem C161_order {p : ℕ} (hp : 1 ≤ p) (m : ℤ) :
    (∀ x, IsBits p x → roundBits p x = x) ∧ (∀ x, IsBitsMin p m x → roundMin p m x = x) ∧
    (∀ x y, x ≤ y → roundBits p x ≤ roundBits p y ∧ roundMin p m x ≤ roundMin p m y) ∧
    ∀ x, roundBits p (-x) = -roundBits p x ∧ roundMin p m (-x) = -roundMin p m x :=
  ⟨fun _ h => roundBits_of_bits hp h, fun _ h => roundMin_of_bits hp h,
    fun _ _ h => ⟨roundBits_mono hp h, roundMin_mono hp m h⟩, fun x => ⟨roundBits_neg p x, roundMin_neg p m x⟩⟩

end Gcl
