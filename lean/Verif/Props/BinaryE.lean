import Verif.Props.BinaryD
import Verif.Props.Units
/-! # C161: powers of two, and what is false in double precision -/
namespace Gcl
set_option autoImplicit false
open Spec Real

theorem copysign_pos_mul {c : ℝ} (hc : 0 < c) (x s : ℝ) : copysign (c * x) (c * s) = c * copysign x s := by
  rw [copysign_units hc]
  unfold copysign
  rw [abs_mul, abs_of_pos hc]
  split_ifs <;> ring

theorem hypot_pow (p : ℕ) (k : ℤ) (x y : ℝ) :
    (binArith p).hypot (2 ^ k * x) (2 ^ k * y) = 2 ^ k * (binArith p).hypot x y := by
  change roundBits p (√((2 ^ k * x) ^ 2 + (2 ^ k * y) ^ 2)) = 2 ^ k * roundBits p (√(x ^ 2 + y ^ 2))
  have : √((2 ^ k * x) ^ 2 + (2 ^ k * y) ^ 2) = 2 ^ k * √(x ^ 2 + y ^ 2) := by
    rw [show (2 ^ k * x) ^ 2 + (2 ^ k * y) ^ 2 = (2 ^ k) ^ 2 * (x ^ 2 + y ^ 2) by ring, sqrt_mul (by positivity),
      sqrt_sq (two_zpow_pos k).le]
  rw [this, roundBits_scale]

theorem eval_pow (p : ℕ) (k : ℤ) (xs : List ℝ) (t : SumTree) :
    t.eval (binArith p) (xs.map (2 ^ k * ·)) = 2 ^ k * t.eval (binArith p) xs := by
  induction t with
  | leaf i =>
    simp only [SumTree.eval, List.getD_eq_getElem?_getD, List.getElem?_map]
    cases xs[i]? <;> simp
  | node l r hl hr =>
    simp only [SumTree.eval, hl, hr]
    change roundBits p (_ + _) = 2 ^ k * roundBits p (_ + _)
    rw [← mul_add, roundBits_scale]

theorem sumA_pow (p : ℕ) (k : ℤ) (t : SumTree) (xs : List ℝ) :
    sumA (binArith p) t (xs.map (2 ^ k * ·)) = 2 ^ k * sumA (binArith p) t xs := by
  cases xs with
  | nil => simp [sumA]
  | cons x xs => exact eval_pow p k (x :: xs) t

/-- **C161** Converting the momenta by a power of two is exact: transverse momentum, modulus, sums in any order and the combined
mass are converted exactly, and the pseudorapidity is exactly the same. -/
theorem C161_powers (p : ℕ) (k : ℤ) (q : P4) :
    (scale (2 ^ k) q).ptA (binArith p) = 2 ^ k * q.ptA (binArith p) ∧
    (scale (2 ^ k) q).spatialMagA (binArith p) = 2 ^ k * q.spatialMagA (binArith p) ∧
    (scale (2 ^ k) q).etaA (binArith p) = q.etaA (binArith p) ∧
    (∀ tol, (scale (2 ^ k) q).rapidityA (binArith p) (2 ^ k * tol) = q.rapidityA (binArith p) tol) ∧
    (∀ (t : SumTree) (ps : List P4), totalA (binArith p) t (ps.map (scale (2 ^ k))) = scale (2 ^ k) (totalA (binArith p) t ps)) ∧
    ∀ (t d : SumTree) (ps : List P4),
      combinedMassA (binArith p) t d (ps.map (scale (2 ^ k))) = 2 ^ k * combinedMassA (binArith p) t d ps := by
  have hk := two_zpow_pos k
  have hmag : (scale (2 ^ k) q).spatialMagA (binArith p) = 2 ^ k * q.spatialMagA (binArith p) := by
    change (binArith p).hypot (2 ^ k * q.z) ((binArith p).hypot (2 ^ k * q.x) (2 ^ k * q.y)) = _
    rw [hypot_pow, hypot_pow]; rfl
  have htot : ∀ (t : SumTree) (ps : List P4),
      totalA (binArith p) t (ps.map (scale (2 ^ k))) = scale (2 ^ k) (totalA (binArith p) t ps) := by
    intro t ps
    simp only [totalA, scale, List.map_map, P4.mk.injEq]
    refine ⟨?_, ?_, ?_, ?_⟩ <;> rw [← sumA_pow, List.map_map] <;> rfl
  refine ⟨hypot_pow p k q.x q.y, hmag, ?_, fun tol => ?_, htot, fun t d ps => ?_⟩
  · unfold P4.etaA
    rw [hmag]
    have e : (binArith p).div (scale (2 ^ k) q).z (2 ^ k * q.spatialMagA (binArith p)) =
        (binArith p).div q.z (q.spatialMagA (binArith p)) := by
      change roundBits p (2 ^ k * q.z / (2 ^ k * _)) = _
      rw [mul_div_mul_left _ _ hk.ne']; rfl
    simp only [mul_eq_zero, hk.ne', false_or, e]
  · unfold P4.rapidityA rapidityOfA
    have e0 : |(scale (2 ^ k) q).z| = 2 ^ k * |q.z| := by simp only [scale, abs_mul, abs_of_pos hk]
    have e1 : (binArith p).sub (scale (2 ^ k) q).e (2 ^ k * |q.z|) = 2 ^ k * (binArith p).sub q.e |q.z| := by
      change roundBits p (2 ^ k * q.e - 2 ^ k * |q.z|) = _
      rw [← mul_sub, roundBits_scale]; rfl
    have e2 : (binArith p).add (scale (2 ^ k) q).e (2 ^ k * |q.z|) = 2 ^ k * (binArith p).add q.e |q.z| := by
      change roundBits p (2 ^ k * q.e + 2 ^ k * |q.z|) = _
      rw [← mul_add, roundBits_scale]; rfl
    have e3 : ∀ a b : ℝ, (binArith p).div (2 ^ k * a) (2 ^ k * b) = (binArith p).div a b := by
      intro a b
      change roundBits p (2 ^ k * a / (2 ^ k * b)) = _
      rw [mul_div_mul_left _ _ hk.ne']; rfl
    have e4 : ∀ x, copysign x (scale (2 ^ k) q).z = copysign x q.z := fun x => copysign_units hk x q.z
    have e5 : copysignInf (scale (2 ^ k) q).z = copysignInf q.z := by
      unfold copysignInf
      have : (scale (2 ^ k) q).z < 0 ↔ q.z < 0 := by
        change 2 ^ k * q.z < 0 ↔ _
        constructor
        · intro h; by_contra hs; exact absurd h (not_lt.2 (mul_nonneg hk.le (not_lt.1 hs)))
        · intro h; exact mul_neg_of_pos_of_neg hk h
      simp only [this]
    simp only [e0, e1, e2, e3, e4, e5, abs_mul, abs_of_pos hk, mul_lt_mul_iff_right₀ hk]
  · have hm : minkTerms (binArith p) (scale (2 ^ k) (totalA (binArith p) t ps)) =
        (minkTerms (binArith p) (totalA (binArith p) t ps)).map (2 ^ (2 * k) * ·) := by
      have sq : ∀ a : ℝ, (binArith p).mul (2 ^ k * a) (2 ^ k * a) = 2 ^ (2 * k) * (binArith p).mul a a := by
        intro a
        change roundBits p (2 ^ k * a * (2 ^ k * a)) = 2 ^ (2 * k) * roundBits p (a * a)
        rw [← roundBits_scale, two_mul k, zpow_add₀ (by norm_num)]; congr 1; ring
      have lin : ∀ a b : ℝ, (binArith p).mul (2 ^ (2 * k) * a) b = 2 ^ (2 * k) * (binArith p).mul a b := by
        intro a b
        change roundBits p (2 ^ (2 * k) * a * b) = 2 ^ (2 * k) * roundBits p (a * b)
        rw [← roundBits_scale, mul_assoc]
      simp only [minkTerms, scale, sq, lin, List.map_cons, List.map_nil]
    unfold combinedMassA
    rw [htot, hm, sumA_pow]
    set S := sumA (binArith p) d (minkTerms (binArith p) (totalA (binArith p) t ps))
    have hneg : 2 ^ (2 * k) * S < 0 ↔ S < 0 := by
      have h2 := two_zpow_pos (2 * k)
      constructor
      · intro h; by_contra hs; exact absurd h (not_lt.2 (mul_nonneg h2.le (not_lt.1 hs)))
      · intro h; exact mul_neg_of_pos_of_neg h2 h
    by_cases hS : S < 0
    · rw [if_pos (hneg.2 hS), if_pos hS, mul_zero]
    · rw [if_neg (fun h => hS (hneg.1 h)), if_neg hS]
      change roundBits p (√(2 ^ (2 * k) * S)) = 2 ^ k * roundBits p (√S)
      rw [← roundBits_scale]
      congr 1
      rw [sqrt_mul (two_zpow_pos _).le, two_mul, zpow_add₀ (by norm_num), sqrt_mul_self hk.le]

/-! ## What is false in double precision -/

theorem round_sqrt_two : roundBits 53 (√2) = 6369051672525773 / 2 ^ 52 := by
  have h := sq_sqrt (show (0 : ℝ) ≤ 2 by norm_num)
  have h0 := sqrt_nonneg (2 : ℝ)
  have hl : (12738103345051545 : ℝ) / 2 ^ 53 < √2 := lt_sqrt_of_sq_lt (by norm_num)
  have hu : √2 < (12738103345051547 : ℝ) / 2 ^ 53 := (sqrt_lt' (by norm_num)).2 (by norm_num)
  have := roundBits_eq (p := 53) (x := √2) (n := 6369051672525773) (k := -52) (by
      norm_num [abs_of_nonneg h0]) (by
      rw [abs_of_nonneg h0]; refine hu.trans ?_; norm_num) (by
      rw [abs_lt]; norm_num at hl hu ⊢; constructor <;> linarith)
  rw [this]; norm_num

theorem round_two_again : roundBits 53 ((6369051672525773 / 2 ^ 52) * (6369051672525773 / 2 ^ 52)) = 2 + 1 / 2 ^ 51 := by
  have := roundBits_eq (p := 53) (x := (6369051672525773 / 2 ^ 52) * (6369051672525773 / 2 ^ 52)) (n := 4503599627370497) (k := -51)
    (by norm_num [abs_of_nonneg]) (by norm_num [abs_of_nonneg]) (by rw [abs_lt]; norm_num)
  rw [this]; norm_num

/-- **C161** False: that the mass of a particle at rest is its energy, and that masses are converted exactly by powers of two.
In double precision a particle at rest of energy `2` has mass and transverse mass `2 + 2 ^ -51`, one of energy `4` has `4`. -/
theorem C161_false_rest : 
    (⟨0, 0, 0, 2⟩ : P4).massA (binArith 53) = 2 + 1 / 2 ^ 51 ∧ (⟨0, 0, 0, 2⟩ : P4).massTA (binArith 53) = 2 + 1 / 2 ^ 51 ∧
    (⟨0, 0, 0, 4⟩ : P4).massA (binArith 53) = 4 ∧ (⟨0, 0, 0, 4⟩ : P4).massTA (binArith 53) = 4 := by
  have hn : ∀ n : ℕ, n ≤ 4 → roundBits 53 (n : ℝ) = n := fun n h => roundBits_nat (by norm_num) (h.trans (by norm_num))
  have r2 : roundBits 53 2 = 2 := by simpa using hn 2 (by norm_num)
  have r4 : roundBits 53 4 = 4 := by simpa using hn 4 (by norm_num)
  have s4 : √(4 : ℝ) = 2 := by rw [show (4 : ℝ) = 2 ^ 2 by norm_num, sqrt_sq (by norm_num)]
  have two : rootDiffTwoSquaresA (binArith 53) 2 0 = 2 + 1 / 2 ^ 51 := by
    simp only [rootDiffTwoSquaresA, binArith, copysign, abs_zero, sub_zero, add_zero, abs_two, r2, round_sqrt_two]
    rw [if_neg (by norm_num), abs_of_nonneg (by positivity), round_two_again]
  have four : rootDiffTwoSquaresA (binArith 53) 4 0 = 4 := by
    have a4 : |(4 : ℝ)| = 4 := abs_of_pos (by norm_num)
    simp only [rootDiffTwoSquaresA, binArith, copysign, abs_zero, sub_zero, add_zero, a4, r4, s4, r2]
    rw [if_neg (by norm_num), abs_two, show (2 : ℝ) * 2 = 4 by norm_num, r4]
  have mag : ∀ e : ℝ, (⟨0, 0, 0, e⟩ : P4).spatialMagA (binArith 53) = 0 := by
    intro e
    change roundBits 53 (√((0 : ℝ) ^ 2 + (roundBits 53 (√((0 : ℝ) ^ 2 + 0 ^ 2))) ^ 2)) = 0
    simp [roundBits_zero]
  refine ⟨?_, two, ?_, four⟩
  · unfold P4.massA; rw [mag]; exact two
  · unfold P4.massA; rw [mag]; exact four

/-- **C161** False: that the pseudorapidity of a particle off the beam axis is finite.  With `p` bits a particle of transverse
momentum one and longitudinal momentum `2 ^ p` has an infinite pseudorapidity. -/
theorem C161_false_eta {p : ℕ} (hp : 2 ≤ p) (e : ℝ) :
    (⟨1, 0, 2 ^ p, e⟩ : P4).ptA (binArith p) = 1 ∧ (⟨1, 0, 2 ^ p, e⟩ : P4).etaA (binArith p) = .pinf ∧
    ∃ y, (⟨1, 0, 2 ^ p, e⟩ : P4).eta = .fin y := by
  have hP : (1 : ℝ) < 2 ^ p := one_lt_pow₀ (by norm_num) (by omega)
  have hpt : (⟨1, 0, 2 ^ p, e⟩ : P4).ptA (binArith p) = 1 := by
    change roundBits p (√((1 : ℝ) ^ 2 + 0 ^ 2)) = 1
    norm_num
    exact roundBits_one (by omega)
  have hmag : (⟨1, 0, 2 ^ p, e⟩ : P4).spatialMagA (binArith p) = 2 ^ p := by
    change roundBits p (√(((2 : ℝ) ^ p) ^ 2 + ((⟨1, 0, 2 ^ p, e⟩ : P4).ptA (binArith p)) ^ 2)) = 2 ^ p
    rw [hpt]
    have h1 : (2 : ℝ) ^ p < √((2 ^ p) ^ 2 + 1 ^ 2) := lt_sqrt_of_sq_lt (by norm_num)
    have h2 : √((2 ^ p) ^ 2 + 1 ^ 2) < (2 : ℝ) ^ p + 1 := (sqrt_lt' (by positivity)).2 (by nlinarith)
    have h0 : |√(((2 : ℝ) ^ p) ^ 2 + 1 ^ 2)| = √((2 ^ p) ^ 2 + 1 ^ 2) := abs_of_nonneg (sqrt_nonneg _)
    apply le_antisymm
    · have := roundBits_mono (p := p) (by omega) h2.le
      rwa [roundBits_stuck hp] at this
    · have := roundBits_mono (p := p) (by omega) h1.le
      have e2 := roundBits_nat (p := p) (n := 2 ^ p) (by omega) le_rfl
      push_cast at e2
      rwa [e2] at this
  refine ⟨hpt, ?_, ?_⟩
  · unfold P4.etaA
    rw [hmag, if_neg (by positivity)]
    have : (binArith p).div (2 ^ p) (2 ^ p) = 1 := by
      change roundBits p ((2 : ℝ) ^ p / 2 ^ p) = 1
      rw [div_self (by positivity), roundBits_one (by omega)]
    simp only [this, if_true]
  · have hpt : 0 < (⟨1, 0, 2 ^ p, e⟩ : P4).pt := by rw [pt_eq]; norm_num
    obtain ⟨h, e1, _⟩ := (C89_eta (⟨1, 0, 2 ^ p, e⟩ : P4)).1 hpt
    exact ⟨h, e1⟩


theorem round_pow (p : ℕ) (hp : 1 ≤ p) (k : ℕ) : roundBits p (2 ^ k) = 2 ^ k := by
  have := roundBits_of_bits hp (isBits_two_zpow hp (k : ℤ))
  rwa [zpow_natCast] at this

theorem round_big : roundBits 53 (2 ^ 53) = 2 ^ 53 := round_pow 53 (by norm_num) 53

theorem round_even {n : ℕ} (h : n < 2 ^ 53) (k : ℕ) : roundBits 53 ((n : ℝ) * 2 ^ k) = n * 2 ^ k := by
  refine roundBits_of_bits (by norm_num) ⟨n, k, ?_, by simp⟩
  rw [abs_of_nonneg (by positivity)]; exact_mod_cast h

/-- **C161** False: that the sum of momenta and the combined mass do not depend on the order of the particles.  In double precision
one particle of energy `2 ^ 53` and two of energy `1`, added one after the other, have energy and mass `2 ^ 53`, in the
reverse order `2 ^ 53 + 2`. -/
theorem C161_false_order :
    (totalA (binArith 53) (sequential 2) [⟨0, 0, 0, 2 ^ 53⟩, ⟨0, 0, 0, 1⟩, ⟨0, 0, 0, 1⟩]).e = 2 ^ 53 ∧
    (totalA (binArith 53) (sequential 2) [⟨0, 0, 0, 1⟩, ⟨0, 0, 0, 1⟩, ⟨0, 0, 0, 2 ^ 53⟩]).e = 2 ^ 53 + 2 ∧
    combinedMassA (binArith 53) (sequential 2) (sequential 3) [⟨0, 0, 0, 2 ^ 53⟩, ⟨0, 0, 0, 1⟩, ⟨0, 0, 0, 1⟩] = 2 ^ 53 ∧
    combinedMassA (binArith 53) (sequential 2) (sequential 3) [⟨0, 0, 0, 1⟩, ⟨0, 0, 0, 1⟩, ⟨0, 0, 0, 2 ^ 53⟩] = 2 ^ 53 + 2 := by
  have z := roundBits_zero 53
  have a1 : roundBits 53 (2 ^ 53 + 1) = 2 ^ 53 := roundBits_stuck (by norm_num)
  have a2 : roundBits 53 (1 + 1) = 2 := by
    have := roundBits_nat (p := 53) (n := 2) (by norm_num) (by norm_num)
    norm_num at this ⊢; exact this
  have a3 : roundBits 53 (2 + 2 ^ 53) = 2 ^ 53 + 2 := by
    have := round_even (n := 2 ^ 52 + 1) (by norm_num) 1
    norm_num at this ⊢; exact this
  have t1 : totalA (binArith 53) (sequential 2) [⟨0, 0, 0, 2 ^ 53⟩, ⟨0, 0, 0, 1⟩, ⟨0, 0, 0, 1⟩] = ⟨0, 0, 0, 2 ^ 53⟩ := by
    simp only [totalA, sumA, sequential, SumTree.eval, binArith, List.map_cons,
      List.map_nil, List.getD_cons_zero, List.getD_cons_succ, add_zero, z, a1]
  have t2 : totalA (binArith 53) (sequential 2) [⟨0, 0, 0, 1⟩, ⟨0, 0, 0, 1⟩, ⟨0, 0, 0, 2 ^ 53⟩] = ⟨0, 0, 0, 2 ^ 53 + 2⟩ := by
    simp only [totalA, sumA, sequential, SumTree.eval, binArith, List.map_cons,
      List.map_nil, List.getD_cons_zero, List.getD_cons_succ, add_zero, z, a2, a3]
  have mass : ∀ E S M : ℝ, roundBits 53 (E * E) = S → roundBits 53 S = S → 0 ≤ S → roundBits 53 (√S) = M →
      ∀ ps : List P4, totalA (binArith 53) (sequential 2) ps = ⟨0, 0, 0, E⟩ →
      combinedMassA (binArith 53) (sequential 2) (sequential 3) ps = M := by
    intro E S M h1 h2 h3 h4 ps h5
    have : sumA (binArith 53) (sequential 3) (minkTerms (binArith 53) ⟨0, 0, 0, E⟩) = S := by
      simp only [sumA, minkTerms, sequential, SumTree.eval, binArith, List.getD_cons_zero, List.getD_cons_succ, mul_zero, zero_mul,
        add_zero, zero_add, z, mul_one, h1, h2]
    unfold combinedMassA
    rw [h5, this, if_neg (not_lt.2 h3)]
    exact h4
  refine ⟨by rw [t1], by rw [t2], ?_, ?_⟩
  · refine mass (2 ^ 53) (2 ^ 106) (2 ^ 53) ?_ (round_pow 53 (by norm_num) 106) (by positivity) ?_ _ t1
    · rw [← pow_add]; exact round_pow 53 (by norm_num) 106
    · rw [show (2 : ℝ) ^ 106 = (2 ^ 53) ^ 2 by rw [← pow_mul], sqrt_sq (by positivity)]; exact round_big
  · have b1 : roundBits 53 ((2 ^ 53 + 2) * (2 ^ 53 + 2)) = ((2 ^ 52 + 2 : ℕ) : ℝ) * 2 ^ 54 := by
      have := roundBits_eq (p := 53) (x := (2 ^ 53 + 2) * (2 ^ 53 + 2)) (n := 2 ^ 52 + 2) (k := 54)
        (by norm_num [abs_of_nonneg]) (by norm_num [abs_of_nonneg]) (by rw [abs_lt]; norm_num)
      rw [this]; norm_num
    refine mass _ _ _ b1 (round_even (by norm_num) 54) (by positivity) ?_ _ t2
    have h1 : (2 : ℝ) ^ 53 + 1 < √(((2 ^ 52 + 2 : ℕ) : ℝ) * 2 ^ 54) := lt_sqrt_of_sq_lt (by norm_num)
    have h2 : √(((2 ^ 52 + 2 : ℕ) : ℝ) * 2 ^ 54) < (2 : ℝ) ^ 53 + 3 := (sqrt_lt' (by positivity)).2 (by norm_num)
    have := roundBits_eq (p := 53) (x := √(((2 ^ 52 + 2 : ℕ) : ℝ) * 2 ^ 54)) (n := 2 ^ 52 + 1) (k := 1)
      (by rw [abs_of_nonneg (sqrt_nonneg _)]; norm_num at h1 ⊢; linarith)
      (by rw [abs_of_nonneg (sqrt_nonneg _)]; norm_num at h2 ⊢; linarith)
      (by rw [abs_lt]; norm_num at h1 h2 ⊢; constructor <;> linarith)
    rw [this]; norm_num

end Gcl
