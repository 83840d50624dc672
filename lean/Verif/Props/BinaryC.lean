import Verif.Props.BinaryB
/-! # C161: the sign of the mass -/
namespace Gcl
set_option autoImplicit false
open Spec Real

theorem isBits_abs {p : ℕ} {x : ℝ} (h : IsBits p x) : IsBits p |x| := by
  obtain ⟨n, k, hn, e⟩ := h
  exact ⟨|n|, k, by rwa [abs_abs], by rw [e, abs_mul, abs_of_pos (two_zpow_pos k)]; push_cast; rfl⟩

/-- Numbers of `p` bits beyond a number are multiples of the spacing there. -/
theorem bits_multiple {p : ℕ} {x f : ℝ} (hf : IsBits p f) (h : (2 : ℝ) ^ (spacingExp p x) * 2 ^ p ≤ 2 * |f|) :
    ∃ n : ℤ, f = n * 2 ^ (spacingExp p x) := by
  obtain ⟨n, k, hn, rfl⟩ := hf
  have hk : spacingExp p x ≤ k := by
    by_contra hc
    have h1 : (2 : ℝ) ^ k * 2 ≤ 2 ^ (spacingExp p x) := by
      rw [← zpow_add_one₀ (by norm_num)]
      exact zpow_le_zpow_right₀ (by norm_num) (by omega)
    have h2 : |(n : ℝ)| < 2 ^ p := by exact_mod_cast hn
    have h3 := two_zpow_pos k
    rw [abs_mul, abs_of_pos h3] at h
    have h4 : (0 : ℝ) < 2 ^ p := by positivity
    nlinarith
  refine ⟨n * 2 ^ (k - spacingExp p x).toNat, ?_⟩
  push_cast
  rw [mul_assoc, ← zpow_natCast, ← zpow_add₀ (by norm_num)]
  congr 2; omega

/-- The square root of a sum of squares changes by less than one of its terms. -/
theorem hypot_change {z s s' : ℝ} (hz : z ≠ 0) (hs : 0 ≤ s) (hs' : 0 ≤ s') (h : s ≠ s') :
    |√(z ^ 2 + s' ^ 2) - √(z ^ 2 + s ^ 2)| < |s' - s| := by
  have hz2 : 0 < z ^ 2 := by positivity
  have a1 := sq_sqrt (show 0 ≤ z ^ 2 + s' ^ 2 by positivity)
  have a2 := sq_sqrt (show 0 ≤ z ^ 2 + s ^ 2 by positivity)
  have b1 : s' < √(z ^ 2 + s' ^ 2) := lt_sqrt_of_sq_lt (by linarith)
  have b2 : s < √(z ^ 2 + s ^ 2) := lt_sqrt_of_sq_lt (by linarith)
  set X := √(z ^ 2 + s' ^ 2)
  set Y := √(z ^ 2 + s ^ 2)
  have e : (X - Y) * (X + Y) = (s' - s) * (s' + s) := by nlinarith
  have hd : 0 < |s' - s| := abs_pos.2 (sub_ne_zero.2 (Ne.symm h))
  have e2 : |X - Y| * (X + Y) = |s' - s| * (s' + s) := by
    have := congrArg abs e
    rwa [abs_mul, abs_mul, abs_of_nonneg (show 0 ≤ X + Y by linarith), abs_of_nonneg (show 0 ≤ s' + s by linarith)] at this
  by_contra hc
  rw [not_lt] at hc
  nlinarith

theorem modulus_order {p : ℕ} (hp : 1 ≤ p) (q : P4) (he : IsBits p q.e) :
    (q.x ^ 2 + q.y ^ 2 + q.z ^ 2 ≤ q.e ^ 2 → q.spatialMagA (binArith p) ≤ |q.e|) ∧
    (q.e ^ 2 ≤ q.x ^ 2 + q.y ^ 2 + q.z ^ 2 → |q.e| ≤ q.spatialMagA (binArith p)) := by
  change (_ → roundBits p (√(q.z ^ 2 + (roundBits p (√(q.x ^ 2 + q.y ^ 2))) ^ 2)) ≤ |q.e|) ∧
    (_ → |q.e| ≤ roundBits p (√(q.z ^ 2 + (roundBits p (√(q.x ^ 2 + q.y ^ 2))) ^ 2)))
  have hE := isBits_abs he
  have hRE := roundBits_of_bits hp hE
  set E := |q.e| with hEdef
  have hE0 : 0 ≤ E := abs_nonneg _
  have hsq : E ^ 2 = q.e ^ 2 := sq_abs _
  have hs0 : 0 ≤ √(q.x ^ 2 + q.y ^ 2) := sqrt_nonneg _
  have hss := sq_sqrt (show 0 ≤ q.x ^ 2 + q.y ^ 2 by positivity)
  set s := √(q.x ^ 2 + q.y ^ 2) with hs
  have hs'0 : 0 ≤ roundBits p s := by
    have := roundBits_mono hp hs0; rwa [roundBits_zero] at this
  set s' := roundBits p s with hs'
  have hs'b : IsBits p s' := roundBits_isBits hp s
  have c1 : (q.x ^ 2 + q.y ^ 2 + q.z ^ 2 ≤ q.e ^ 2) ↔ √(q.z ^ 2 + s ^ 2) ≤ E := by
    rw [sqrt_le_left hE0, hsq, hss]; constructor <;> intro h <;> linarith
  have c2 : (q.e ^ 2 ≤ q.x ^ 2 + q.y ^ 2 + q.z ^ 2) ↔ E ≤ √(q.z ^ 2 + s ^ 2) := by
    rw [le_sqrt hE0 (by positivity), hsq, hss]; constructor <;> intro h <;> linarith
  rw [c1, c2]
  have hmb : IsBits p (roundBits p (√(q.z ^ 2 + s' ^ 2))) := roundBits_isBits hp _
  by_cases hss' : s = s'
  · rw [← hss']
    exact ⟨fun h => hRE ▸ roundBits_mono hp h, fun h => by have := roundBits_mono hp h; rwa [hRE] at this⟩
  by_cases hz : q.z = 0
  · have e1 : √(q.z ^ 2 + s' ^ 2) = s' := by rw [hz]; simp [sqrt_sq hs'0]
    have e2 : √(q.z ^ 2 + s ^ 2) = s := by rw [hz]; simp [sqrt_sq hs0]
    rw [e1, e2, roundBits_of_bits hp hs'b]
    exact ⟨fun h => hRE ▸ roundBits_mono hp h, fun h => by have := roundBits_mono hp h; rwa [hRE] at this⟩
  have hsne : s ≠ 0 := by
    intro h0; apply hss'; rw [hs', h0, roundBits_zero]
  have hspos : 0 < s := lt_of_le_of_ne hs0 (Ne.symm hsne)
  set k := spacingExp p s with hk
  have hu := two_zpow_pos k
  have herr : |s' - s| ≤ 2 ^ k / 2 := roundTo_err k s
  have hch := hypot_change hz hs0 hs'0 hss'
  have hNs : s < √(q.z ^ 2 + s ^ 2) := lt_sqrt_of_sq_lt (by have : 0 < q.z ^ 2 := by positivity
                                                            linarith)
  have hys' : s' ≤ √(q.z ^ 2 + s' ^ 2) := le_sqrt_of_sq_le (by nlinarith [sq_nonneg q.z])
  set y := √(q.z ^ 2 + s' ^ 2) with hy
  set N := √(q.z ^ 2 + s ^ 2) with hN
  have hyN := abs_lt.1 (hch.trans_le herr)
  set m := roundBits p y with hm
  have hbest : |m - y| ≤ |E - y| := roundBits_best hp y hE
  have hB := spacing_le p hsne
  rw [← hk, abs_of_pos hspos] at hB
  have mult : ∀ f, IsBits p f → (2 : ℝ) ^ k * 2 ^ p ≤ 2 * f → 0 ≤ f → ∃ n : ℤ, f = n * 2 ^ k := by
    intro f hf h h0
    exact bits_multiple hf (by rw [abs_of_nonneg h0]; exact h)
  have gap : ∀ a b : ℤ, (a : ℝ) * 2 ^ k < b * 2 ^ k → (a : ℝ) * 2 ^ k + 2 ^ k ≤ b * 2 ^ k := by
    intro a b h
    have h1 : (a : ℝ) < b := lt_of_mul_lt_mul_right h hu.le
    have h2 : a + 1 ≤ b := by exact_mod_cast h1
    have h3 : (a : ℝ) + 1 ≤ b := by exact_mod_cast h2
    nlinarith
  constructor
  · intro h
    by_contra hc
    rw [not_le] at hc
    obtain ⟨a, ha⟩ := mult E hE (by linarith) hE0
    obtain ⟨b, hb⟩ := mult m hmb (by linarith) (by linarith)
    have hgap := gap a b (by rw [← ha, ← hb]; exact hc)
    rw [← ha, ← hb] at hgap
    have hyE : E < y := by
      by_contra hle
      have := roundBits_mono hp (not_lt.1 hle)
      rw [hRE] at this
      exact absurd this (not_le.2 hc)
    rw [abs_of_nonneg (by linarith), abs_of_neg (by linarith)] at hbest
    linarith
  · intro h
    rcases le_or_gt E s with hle | hgt
    · have h1 := roundBits_mono hp hle
      have h2 := roundBits_mono hp hys'
      rw [hRE] at h1
      rw [roundBits_of_bits hp hs'b] at h2
      exact h1.trans h2
    · by_contra hc
      rw [not_le] at hc
      have hyE : y < E := by
        by_contra hle
        have := roundBits_mono hp (not_lt.1 hle)
        rw [hRE] at this
        exact absurd this (not_le.2 hc)
      obtain ⟨a, ha⟩ := mult E hE (by linarith) hE0
      have hfar : m ≤ E - 2 ^ k := by
        rcases le_or_gt ((2 : ℝ) ^ k * 2 ^ p) (2 * m) with h1 | h1
        · have hm0 : 0 ≤ m := by
            have : (0 : ℝ) < 2 ^ k * 2 ^ p := by positivity
            linarith
          obtain ⟨b, hb⟩ := mult m hmb h1 hm0
          have := gap b a (by rw [← ha, ← hb]; exact hc)
          rw [← ha, ← hb] at this
          linarith
        · obtain ⟨r, rfl⟩ : ∃ r, p = r + 1 := ⟨p - 1, by omega⟩
          rw [pow_succ] at h1 hB
          have hBE : (((2 : ℤ) ^ r : ℤ) : ℝ) * 2 ^ k < a * 2 ^ k := by
            rw [← ha]; push_cast; linarith
          have := gap _ _ hBE
          rw [← ha] at this
          push_cast at this
          linarith
      rw [abs_of_nonpos (by linarith), abs_of_pos (by linarith)] at hbest
      linarith

theorem inv_two_pow_lt {p : ℕ} (hp : 1 ≤ p) : (1 : ℝ) / 2 ^ p < 1 := by
  rw [div_lt_one (by positivity)]; exact one_lt_pow₀ (by norm_num) (by omega)

/-- **C161** In correctly rounded arithmetic the mass has the right sign for every record: no physical particle gets a negative
mass, none with spacelike momentum a positive one, and the mass of a massless one is exactly zero.  (This is not so for
every arithmetic of the same accuracy, see C118.) -/
theorem C161_mass {p : ℕ} (hp : 1 ≤ p) (q : P4) (he : IsBits p q.e) :
    (q.x ^ 2 + q.y ^ 2 + q.z ^ 2 ≤ q.e ^ 2 → 0 ≤ q.massA (binArith p)) ∧
    (q.e ^ 2 ≤ q.x ^ 2 + q.y ^ 2 + q.z ^ 2 → q.massA (binArith p) ≤ 0) ∧
    (q.e ^ 2 = q.x ^ 2 + q.y ^ 2 + q.z ^ 2 → q.massA (binArith p) = 0) := by
  obtain ⟨h1, h2⟩ := modulus_order hp q he
  have h0 : 0 ≤ q.spatialMagA (binArith p) := by
    have := roundBits_mono hp (sqrt_nonneg (q.z ^ 2 + (q.ptA (binArith p)) ^ 2))
    rwa [roundBits_zero] at this
  obtain ⟨_, pos, neg, zero⟩ := C118_mass_t (u := 1 / 2 ^ p) (by positivity) (inv_two_pow_lt hp) (binArith_accurate p)
    ⟨0, 0, q.spatialMagA (binArith p), q.e⟩
  change 0 < q.massA (binArith p) ↔ |q.spatialMagA (binArith p)| < |q.e| at pos
  change q.massA (binArith p) < 0 ↔ |q.e| < |q.spatialMagA (binArith p)| at neg
  change q.massA (binArith p) = 0 ↔ |q.e| = |q.spatialMagA (binArith p)| at zero
  rw [abs_of_nonneg h0] at pos neg zero
  refine ⟨fun h => ?_, fun h => ?_, fun h => ?_⟩
  · by_contra hc
    exact absurd (neg.1 (not_le.1 hc)) (not_lt.2 (h1 h))
  · by_contra hc
    exact absurd (pos.1 (not_le.1 hc)) (not_lt.2 (h2 h))
  · exact zero.2 (le_antisymm (h2 h.le) (h1 h.ge))

end Gcl
