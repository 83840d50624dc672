import Mathlib.Analysis.Complex.ExponentialBounds
import Verif.Spec.RoundedShift
import Verif.Props.Rounded
/-!
# Accuracy of rotations and boosts when arithmetic rounds
-/
namespace Gcl
set_option autoImplicit false
open Real Spec

/-- **C144** With exact arithmetic these are the rotations and boosts the other properties are about. -/
theorem C144_exact (s : ℝ) (p : P4) :
    p.shiftPhiA .exact s = p.shiftPhi s ∧ p.shiftRapidityA .exact s = p.shiftRapidity s := by
  constructor
  · unfold P4.shiftPhiA P4.shiftPhi
    rw [Complex.exp_mul_I]
    ext <;> simp [ArithS.exact, Arith.exact, P4.xyPol, ← Complex.ofReal_cos, ← Complex.ofReal_sin]
  · rfl

theorem exp_abs_split (s : ℝ) : exp |s| = cosh s + |sinh s| := by
  rcases le_total 0 s with h | h
  · rw [abs_of_nonneg h, abs_of_nonneg (sinh_nonneg_iff.2 h), cosh_add_sinh]
  · rw [abs_of_nonpos h, abs_of_nonpos (sinh_nonpos_iff.2 h), ← sub_eq_add_neg, cosh_sub_sinh]

theorem abs_sum_le' (l : List ℝ) : |l.sum| ≤ (l.map abs).sum := by
  induction l with
  | nil => simp
  | cons a l ih =>
    rw [List.sum_cons, List.map_cons, List.sum_cons]
    exact (abs_add_le _ _).trans (by linarith)

theorem boost_norm (s e z : ℝ) : |cosh s * e + sinh s * z| + |cosh s * z + sinh s * e| ≤ exp |s| * (|e| + |z|) := by
  have hc : 0 < cosh s := cosh_pos s
  have he := exp_abs_split s
  rw [he]
  have a := abs_add_le (cosh s * e) (sinh s * z)
  have b := abs_add_le (cosh s * z) (sinh s * e)
  rw [abs_mul, abs_mul, abs_of_pos hc] at a b
  nlinarith

theorem rot_abs (s x y : ℝ) :
    (|cos s * x| + |sin s * y|) ^ 2 + (|cos s * y| + |sin s * x|) ^ 2 ≤ 2 * (x ^ 2 + y ^ 2) := by
  simp only [abs_mul]
  have hs := sin_sq_add_cos_sq s
  rw [← sq_abs (sin s), ← sq_abs (cos s)] at hs
  rw [← sq_abs x, ← sq_abs y]
  have hx := abs_nonneg x
  have hy := abs_nonneg y
  generalize |cos s| = c at *
  generalize |sin s| = d at *
  generalize |x| = x at *
  generalize |y| = y at *
  have e : (c * x + d * y) ^ 2 + (c * y + d * x) ^ 2 = (d ^ 2 + c ^ 2) * (x ^ 2 + y ^ 2) + 4 * (c * d) * (x * y) := by
    ring
  rw [e, hs]
  have h1 : 2 * (c * d) ≤ 1 := by nlinarith [sq_nonneg (c - d)]
  have h2 : 2 * (x * y) ≤ x ^ 2 + y ^ 2 := by nlinarith [sq_nonneg (x - y)]
  have h3 : 0 ≤ x * y := mul_nonneg hx hy
  nlinarith

theorem norm_rot_le {g : ℝ} (hg : 0 ≤ g) (s : ℝ) (p : P4) (r : ℂ)
    (a : |r.re| ≤ g * (|cos s * p.x| + |sin s * p.y|)) (b : |r.im| ≤ g * (|cos s * p.y| + |sin s * p.x|)) :
    ‖r‖ ≤ √2 * g * ‖p.xyPol‖ := by
  have hn : ‖p.xyPol‖ ^ 2 = p.x ^ 2 + p.y ^ 2 := by
    rw [← Complex.normSq_eq_norm_sq, Complex.normSq_apply]; simp only [P4.xyPol]; ring
  have hr : ‖r‖ ^ 2 = |r.re| ^ 2 + |r.im| ^ 2 := by
    rw [← Complex.normSq_eq_norm_sq, Complex.normSq_apply, sq_abs, sq_abs]; ring
  have a2 := pow_le_pow_left₀ (abs_nonneg _) a 2
  have b2 := pow_le_pow_left₀ (abs_nonneg _) b 2
  have h2 : (√2 * g * ‖p.xyPol‖) ^ 2 = 2 * g ^ 2 * (p.x ^ 2 + p.y ^ 2) := by
    rw [mul_pow, mul_pow, hn, sq_sqrt (by norm_num)]
  have hR : 0 ≤ √2 * g * ‖p.xyPol‖ := mul_nonneg (mul_nonneg (sqrt_nonneg _) hg) (norm_nonneg _)
  refine (pow_le_pow_iff_left₀ (norm_nonneg r) hR two_ne_zero).1 ?_
  rw [hr, h2]
  have key := mul_le_mul_of_nonneg_left (rot_abs s p.x p.y) (sq_nonneg g)
  rw [mul_pow] at a2 b2
  linarith

section Bounds
variable {u : ℝ} {A : ArithS} (h0 : 0 ≤ u) (hA : AccurateS u A)
include h0 hA

theorem three_nonneg : 0 ≤ threeRoundings u := by
  unfold threeRoundings
  have := one_le_pow₀ (n := 3) (by linarith : (1 : ℝ) ≤ 1 + u)
  linarith

theorem mul_round {c c' x : ℝ} (hc : |c' - c| ≤ u * |c|) :
    |A.mul c' x - c * x| ≤ ((1 + u) ^ 2 - 1) * |c * x| := by
  have h1 := hA.base.mul c' x
  have h2 : |c' * x - c * x| ≤ u * |c * x| := by
    rw [← sub_mul, abs_mul, abs_mul, ← mul_assoc]
    exact mul_le_mul_of_nonneg_right hc (abs_nonneg x)
  have h3 : |c' * x| ≤ (1 + u) * |c * x| := by
    have := abs_sub_abs_le_abs_sub (c' * x) (c * x)
    linarith
  have h4 := abs_sub_le (A.mul c' x) (c' * x) (c * x)
  nlinarith [mul_le_mul_of_nonneg_left h3 h0]

theorem sub_round {c c' d d' x y : ℝ} (hc : |c' - c| ≤ u * |c|) (hd : |d' - d| ≤ u * |d|) :
    |A.sub (A.mul c' x) (A.mul d' y) - (c * x - d * y)| ≤ threeRoundings u * (|c * x| + |d * y|) := by
  have a := mul_round h0 hA (x := x) hc
  have b := mul_round h0 hA (x := y) hd
  have h1 := hA.base.sub (A.mul c' x) (A.mul d' y)
  have ha : |A.mul c' x| ≤ (1 + u) ^ 2 * |c * x| := by
    have := abs_sub_abs_le_abs_sub (A.mul c' x) (c * x); linarith
  have hb : |A.mul d' y| ≤ (1 + u) ^ 2 * |d * y| := by
    have := abs_sub_abs_le_abs_sub (A.mul d' y) (d * y); linarith
  have h2 : |A.mul c' x - A.mul d' y| ≤ (1 + u) ^ 2 * (|c * x| + |d * y|) := by
    have := abs_sub (A.mul c' x) (A.mul d' y); linarith
  have h3 : |(A.mul c' x - A.mul d' y) - (c * x - d * y)| ≤ ((1 + u) ^ 2 - 1) * (|c * x| + |d * y|) := by
    have : (A.mul c' x - A.mul d' y) - (c * x - d * y) = (A.mul c' x - c * x) - (A.mul d' y - d * y) := by ring
    rw [this]
    have := abs_sub (A.mul c' x - c * x) (A.mul d' y - d * y); linarith
  have h4 := abs_sub_le (A.sub (A.mul c' x) (A.mul d' y)) (A.mul c' x - A.mul d' y) (c * x - d * y)
  have h5 := mul_le_mul_of_nonneg_left h2 h0
  unfold threeRoundings
  calc _ ≤ _ := h4
    _ ≤ u * ((1 + u) ^ 2 * (|c * x| + |d * y|)) + ((1 + u) ^ 2 - 1) * (|c * x| + |d * y|) := by linarith
    _ = _ := by ring

theorem add_round {c c' d d' x y : ℝ} (hc : |c' - c| ≤ u * |c|) (hd : |d' - d| ≤ u * |d|) :
    |A.add (A.mul c' x) (A.mul d' y) - (c * x + d * y)| ≤ threeRoundings u * (|c * x| + |d * y|) := by
  have a := mul_round h0 hA (x := x) hc
  have b := mul_round h0 hA (x := y) hd
  have h1 := hA.base.add (A.mul c' x) (A.mul d' y)
  have ha : |A.mul c' x| ≤ (1 + u) ^ 2 * |c * x| := by
    have := abs_sub_abs_le_abs_sub (A.mul c' x) (c * x); linarith
  have hb : |A.mul d' y| ≤ (1 + u) ^ 2 * |d * y| := by
    have := abs_sub_abs_le_abs_sub (A.mul d' y) (d * y); linarith
  have h2 : |A.mul c' x + A.mul d' y| ≤ (1 + u) ^ 2 * (|c * x| + |d * y|) := by
    have := abs_add_le (A.mul c' x) (A.mul d' y); linarith
  have h3 : |(A.mul c' x + A.mul d' y) - (c * x + d * y)| ≤ ((1 + u) ^ 2 - 1) * (|c * x| + |d * y|) := by
    have : (A.mul c' x + A.mul d' y) - (c * x + d * y) = (A.mul c' x - c * x) + (A.mul d' y - d * y) := by ring
    rw [this]
    have := abs_add_le (A.mul c' x - c * x) (A.mul d' y - d * y); linarith
  have h4 := abs_sub_le (A.add (A.mul c' x) (A.mul d' y)) (A.mul c' x + A.mul d' y) (c * x + d * y)
  have h5 := mul_le_mul_of_nonneg_left h2 h0
  unfold threeRoundings
  calc _ ≤ _ := h4
    _ ≤ u * ((1 + u) ^ 2 * (|c * x| + |d * y|)) + ((1 + u) ^ 2 - 1) * (|c * x| + |d * y|) := by linarith
    _ = _ := by ring

/-- One rotation. -/
theorem rotate_one (s : ℝ) (p : P4) :
    ‖(p.shiftPhiA A s).xyPol - Complex.exp (s * Complex.I) * p.xyPol‖ ≤ √2 * threeRoundings u * ‖p.xyPol‖ := by
  have hg := three_nonneg h0 hA
  have a := sub_round h0 hA (x := p.x) (y := p.y) (hA.cos s) (hA.sin s)
  have b := add_round h0 hA (x := p.y) (y := p.x) (hA.cos s) (hA.sin s)
  have hre : ((p.shiftPhiA A s).xyPol - Complex.exp (s * Complex.I) * p.xyPol).re =
      A.sub (A.mul (A.cos s) p.x) (A.mul (A.sin s) p.y) - (cos s * p.x - sin s * p.y) := by
    rw [Complex.exp_mul_I]
    simp [P4.xyPol, P4.shiftPhiA, ← Complex.ofReal_cos, ← Complex.ofReal_sin]
  have him : ((p.shiftPhiA A s).xyPol - Complex.exp (s * Complex.I) * p.xyPol).im =
      A.add (A.mul (A.cos s) p.y) (A.mul (A.sin s) p.x) - (cos s * p.y + sin s * p.x) := by
    rw [Complex.exp_mul_I]
    simp [P4.xyPol, P4.shiftPhiA, ← Complex.ofReal_cos, ← Complex.ofReal_sin]
  rw [← hre] at a
  rw [← him] at b
  generalize (p.shiftPhiA A s).xyPol - Complex.exp (s * Complex.I) * p.xyPol = r at a b ⊢
  exact norm_rot_le hg s p r a b

/-- **C144** Rotations: after any sequence of `shift_phi` by `s₁, …, sₙ`, the transverse momentum is that rotated by
`s₁ + … + sₙ`, up to an error of at most `(1 + √2 g)ⁿ - 1` times its magnitude, where `g` are three roundings; the other
components are unchanged. -/
theorem C144_rotations (ss : List ℝ) (p : P4) :
    ‖(ss.foldl (fun q s => q.shiftPhiA A s) p).xyPol - Complex.exp (ss.sum * Complex.I) * p.xyPol‖ ≤
      ((1 + √2 * threeRoundings u) ^ ss.length - 1) * p.pt ∧
    (ss.foldl (fun q s => q.shiftPhiA A s) p).z = p.z ∧ (ss.foldl (fun q s => q.shiftPhiA A s) p).e = p.e := by
  show ‖_‖ ≤ _ * ‖p.xyPol‖ ∧ _
  have hg := three_nonneg h0 hA
  have hK : 0 ≤ √2 * threeRoundings u := by positivity
  set K := √2 * threeRoundings u with hKdef
  induction ss generalizing p with
  | nil => simp
  | cons s ss ih =>
    obtain ⟨i1, i2, i3⟩ := ih (p.shiftPhiA A s)
    refine ⟨?_, i2, i3⟩
    have one := rotate_one h0 hA s p
    rw [← hKdef] at one
    rw [List.foldl_cons, List.sum_cons, List.length_cons]
    set r := ss.foldl (fun q s => q.shiftPhiA A s) (p.shiftPhiA A s)
    set w' := (p.shiftPhiA A s).xyPol
    set w := p.xyPol
    have hn : ‖Complex.exp (s * Complex.I) * w‖ = ‖w‖ := by
      rw [norm_mul, Complex.norm_exp_ofReal_mul_I, one_mul]
    have hw' : ‖w'‖ ≤ (1 + K) * ‖w‖ := by
      have := norm_sub_norm_le w' (Complex.exp (s * Complex.I) * w)
      linarith
    have hrot : ‖Complex.exp (ss.sum * Complex.I) * w' - Complex.exp ((s + ss.sum : ℝ) * Complex.I) * w‖ ≤ K * ‖w‖ := by
      have : Complex.exp (ss.sum * Complex.I) * w' - Complex.exp ((s + ss.sum : ℝ) * Complex.I) * w =
          Complex.exp (ss.sum * Complex.I) * (w' - Complex.exp (s * Complex.I) * w) := by
        rw [mul_sub, ← mul_assoc, ← Complex.exp_add]
        push_cast
        ring_nf
      rw [this, norm_mul, Complex.norm_exp_ofReal_mul_I, one_mul]
      exact one
    have tri := norm_sub_le_norm_sub_add_norm_sub r.xyPol (Complex.exp (ss.sum * Complex.I) * w')
      (Complex.exp ((s + ss.sum : ℝ) * Complex.I) * w)
    have h1 : 0 ≤ (1 + K) ^ ss.length - 1 := by
      have := one_le_pow₀ (n := ss.length) (by linarith : (1 : ℝ) ≤ 1 + K)
      linarith
    have h2 := mul_le_mul_of_nonneg_left hw' h1
    calc _ ≤ _ := tri
      _ ≤ ((1 + K) ^ ss.length - 1) * ((1 + K) * ‖w‖) + K * ‖w‖ := by linarith
      _ = _ := by rw [pow_succ]; ring

/-- **C144** In particular `pt` is unchanged, and rotating back restores the momentum, up to two such errors. -/
theorem C144_rotation_back (s : ℝ) (p : P4) :
    |(p.shiftPhiA A s).pt - p.pt| ≤ √2 * threeRoundings u * p.pt ∧
    ‖((p.shiftPhiA A s).shiftPhiA A (-s)).xyPol - p.xyPol‖ ≤ ((1 + √2 * threeRoundings u) ^ 2 - 1) * p.pt := by
  constructor
  · have h := rotate_one h0 hA s p
    have h2 := abs_norm_sub_norm_le (p.shiftPhiA A s).xyPol (Complex.exp (s * Complex.I) * p.xyPol)
    rw [norm_mul, Complex.norm_exp_ofReal_mul_I, one_mul] at h2
    exact h2.trans h
  · have h := (C144_rotations h0 hA [s, -s] p).1
    simpa using h

/-- One boost. -/
theorem boost_one (s : ℝ) (p : P4) :
    |(p.shiftRapidityA A s).e - (cosh s * p.e + sinh s * p.z)| +
      |(p.shiftRapidityA A s).z - (cosh s * p.z + sinh s * p.e)| ≤ threeRoundings u * (exp |s| * (|p.e| + |p.z|)) := by
  have hg := three_nonneg h0 hA
  have a := sub_round h0 hA (x := p.e) (y := p.z) (hA.cosh (-s)) (hA.sinh (-s))
  have b := sub_round h0 hA (x := p.z) (y := p.e) (hA.cosh (-s)) (hA.sinh (-s))
  rw [cosh_neg, sinh_neg] at a b
  have e1 : cosh s * p.e - -sinh s * p.z = cosh s * p.e + sinh s * p.z := by ring
  have e2 : cosh s * p.z - -sinh s * p.e = cosh s * p.z + sinh s * p.e := by ring
  rw [e1] at a
  rw [e2] at b
  have hc : 0 < cosh s := cosh_pos s
  have he := exp_abs_split s
  rw [abs_mul, abs_mul, abs_of_pos hc, abs_neg] at a b
  rw [he]
  calc _ ≤ threeRoundings u * (cosh s * |p.e| + |sinh s| * |p.z|) + threeRoundings u * (cosh s * |p.z| + |sinh s| * |p.e|) :=
        add_le_add a b
    _ = _ := by ring

/-- **C144** Boosts: after any sequence of `shift_rapidity` by `s₁, …, sₙ`, energy and longitudinal momentum are those
boosted by `s₁ + … + sₙ`, up to an error of at most `(1 + g)ⁿ - 1` times `exp(|s₁| + … + |sₙ|) (|E| + |p_z|)`, where `g` are
three roundings; the transverse components are unchanged. -/
theorem C144_boosts (ss : List ℝ) (p : P4) :
    |(ss.foldl (fun q s => q.shiftRapidityA A s) p).e - (cosh ss.sum * p.e + sinh ss.sum * p.z)| +
      |(ss.foldl (fun q s => q.shiftRapidityA A s) p).z - (cosh ss.sum * p.z + sinh ss.sum * p.e)| ≤
      ((1 + threeRoundings u) ^ ss.length - 1) * (exp (ss.map abs).sum * (|p.e| + |p.z|)) ∧
    (ss.foldl (fun q s => q.shiftRapidityA A s) p).x = p.x ∧ (ss.foldl (fun q s => q.shiftRapidityA A s) p).y = p.y := by
  have hg := three_nonneg h0 hA
  set g := threeRoundings u with hgdef
  induction ss generalizing p with
  | nil => simp
  | cons s ss ih =>
    obtain ⟨i1, i2, i3⟩ := ih (p.shiftRapidityA A s)
    refine ⟨?_, i2, i3⟩
    have one := boost_one h0 hA s p
    rw [← hgdef] at one
    rw [List.foldl_cons, List.sum_cons, List.length_cons, List.map_cons, List.sum_cons, exp_add]
    set r := ss.foldl (fun q s => q.shiftRapidityA A s) (p.shiftRapidityA A s)
    set e' := (p.shiftRapidityA A s).e
    set z' := (p.shiftRapidityA A s).z
    set S := ss.sum
    set de := e' - (cosh s * p.e + sinh s * p.z) with hde
    set dz := z' - (cosh s * p.z + sinh s * p.e) with hdz
    have hS : exp |S| ≤ exp (ss.map abs).sum := exp_le_exp.2 (abs_sum_le' ss)
    set N := |p.e| + |p.z| with hN
    have hNn : 0 ≤ N := by positivity
    have he' : e' = cosh s * p.e + sinh s * p.z + de := by rw [hde]; ring
    have hz' : z' = cosh s * p.z + sinh s * p.e + dz := by rw [hdz]; ring
    have bn := boost_norm s p.e p.z
    have hN' : |e'| + |z'| ≤ (1 + g) * (exp |s| * N) := by
      have a := abs_add_le (cosh s * p.e + sinh s * p.z) de
      have b := abs_add_le (cosh s * p.z + sinh s * p.e) dz
      rw [← he'] at a
      rw [← hz'] at b
      linarith
    have bd := boost_norm S de dz
    have bd' : exp |S| * (|de| + |dz|) ≤ exp (ss.map abs).sum * (g * (exp |s| * N)) :=
      mul_le_mul hS one (by positivity) (exp_pos _).le
    have e1 : cosh S * e' + sinh S * z' = cosh (s + S) * p.e + sinh (s + S) * p.z + (cosh S * de + sinh S * dz) := by
      rw [he', hz', cosh_add, sinh_add]; ring
    have e2 : cosh S * z' + sinh S * e' = cosh (s + S) * p.z + sinh (s + S) * p.e + (cosh S * dz + sinh S * de) := by
      rw [he', hz', cosh_add, sinh_add]; ring
    rw [e1, e2] at i1
    set X := cosh (s + S) * p.e + sinh (s + S) * p.z
    set Y := cosh (s + S) * p.z + sinh (s + S) * p.e
    set a := cosh S * de + sinh S * dz
    set b := cosh S * dz + sinh S * de
    have t1 : |r.e - X| ≤ |r.e - (X + a)| + |a| := by
      have := abs_add_le (r.e - (X + a)) a
      rwa [show r.e - (X + a) + a = r.e - X by ring] at this
    have t2 : |r.z - Y| ≤ |r.z - (Y + b)| + |b| := by
      have := abs_add_le (r.z - (Y + b)) b
      rwa [show r.z - (Y + b) + b = r.z - Y by ring] at this
    have h1 : 0 ≤ (1 + g) ^ ss.length - 1 := by
      have := one_le_pow₀ (n := ss.length) (by linarith : (1 : ℝ) ≤ 1 + g)
      linarith
    have h2 : ((1 + g) ^ ss.length - 1) * (exp (ss.map abs).sum * (|e'| + |z'|)) ≤
        ((1 + g) ^ ss.length - 1) * (exp (ss.map abs).sum * ((1 + g) * (exp |s| * N))) :=
      mul_le_mul_of_nonneg_left (mul_le_mul_of_nonneg_left hN' (exp_pos _).le) h1
    calc _ ≤ ((1 + g) ^ ss.length - 1) * (exp (ss.map abs).sum * ((1 + g) * (exp |s| * N))) +
          exp (ss.map abs).sum * (g * (exp |s| * N)) := by linarith
      _ = _ := by rw [pow_succ]; ring

/-- **C144** So the squared transverse mass `E² - p_z²`, and with it the squared mass, is unchanged up to an error of
`(1 + g)²ⁿ - 1` times `exp(2(|s₁| + … + |sₙ|)) (|E| + |p_z|)²`. -/
theorem C144_mass (ss : List ℝ) (p : P4) :
    |((ss.foldl (fun q s => q.shiftRapidityA A s) p).e ^ 2 - (ss.foldl (fun q s => q.shiftRapidityA A s) p).z ^ 2) -
      (p.e ^ 2 - p.z ^ 2)| ≤
      ((1 + threeRoundings u) ^ (2 * ss.length) - 1) * (exp (ss.map abs).sum * (|p.e| + |p.z|)) ^ 2 := by
  have hg := three_nonneg h0 hA
  have h := (C144_boosts h0 hA ss p).1
  have bn := boost_norm ss.sum p.e p.z
  have hS : exp |ss.sum| ≤ exp (ss.map abs).sum := exp_le_exp.2 (abs_sum_le' ss)
  have hN : exp |ss.sum| * (|p.e| + |p.z|) ≤ exp (ss.map abs).sum * (|p.e| + |p.z|) :=
    mul_le_mul_of_nonneg_right hS (by positivity)
  have hinv : (cosh ss.sum * p.e + sinh ss.sum * p.z) ^ 2 - (cosh ss.sum * p.z + sinh ss.sum * p.e) ^ 2 =
      p.e ^ 2 - p.z ^ 2 := by
    have := cosh_sq ss.sum
    nlinarith
  rw [← hinv]
  set r := ss.foldl (fun q s => q.shiftRapidityA A s) p
  set X := cosh ss.sum * p.e + sinh ss.sum * p.z
  set Y := cosh ss.sum * p.z + sinh ss.sum * p.e
  set M := exp (ss.map abs).sum * (|p.e| + |p.z|)
  have hM : 0 ≤ M := by positivity
  rw [pow_mul, pow_right_comm]
  have hG : 0 ≤ (1 + threeRoundings u) ^ ss.length - 1 := by
    have := one_le_pow₀ (n := ss.length) (by linarith : (1 : ℝ) ≤ 1 + threeRoundings u)
    linarith
  set G := (1 + threeRoundings u) ^ ss.length
  have e : r.e ^ 2 - r.z ^ 2 - (X ^ 2 - Y ^ 2) = (r.e - X) * (r.e - X + 2 * X) - (r.z - Y) * (r.z - Y + 2 * Y) := by ring
  rw [e]
  set a := r.e - X
  set b := r.z - Y
  have t := abs_sub (a * (a + 2 * X)) (b * (b + 2 * Y))
  rw [abs_mul, abs_mul] at t
  have ta : |a + 2 * X| ≤ |a| + 2 * |X| := by
    have := abs_add_le a (2 * X); rwa [abs_mul, abs_two] at this
  have tb : |b + 2 * Y| ≤ |b| + 2 * |Y| := by
    have := abs_add_le b (2 * Y); rwa [abs_mul, abs_two] at this
  have hX : |X| ≤ M := by linarith [abs_nonneg Y]
  have hY : |Y| ≤ M := by linarith [abs_nonneg X]
  have ma := mul_le_mul_of_nonneg_left (ta.trans (by linarith : _ ≤ |a| + 2 * M)) (abs_nonneg a)
  have mb := mul_le_mul_of_nonneg_left (tb.trans (by linarith : _ ≤ |b| + 2 * M)) (abs_nonneg b)
  have hab : |a| * |a| + |b| * |b| ≤ (|a| + |b|) ^ 2 := by nlinarith [mul_nonneg (abs_nonneg a) (abs_nonneg b)]
  have h2 : (|a| + |b|) ^ 2 ≤ ((G - 1) * M) ^ 2 := pow_le_pow_left₀ (by positivity) h 2
  have h3 : (|a| + |b|) * (2 * M) ≤ ((G - 1) * M) * (2 * M) := mul_le_mul_of_nonneg_right h (by positivity)
  calc _ ≤ _ := t
    _ ≤ |a| * (|a| + 2 * M) + |b| * (|b| + 2 * M) := add_le_add ma mb
    _ ≤ ((G - 1) * M) ^ 2 + ((G - 1) * M) * (2 * M) := by nlinarith
    _ = _ := by ring

/-- **C144** The energy of a physical particle (`|p_z| ≤ E`, `E > 0`) stays positive if the boosts are not too large for
the precision. -/
theorem C144_energy (ss : List ℝ) (p : P4) (he : 0 < p.e) (hz : |p.z| ≤ p.e)
    (hs : 2 * ((1 + threeRoundings u) ^ ss.length - 1) * exp (ss.map abs).sum ^ 2 < 1) :
    0 < (ss.foldl (fun q s => q.shiftRapidityA A s) p).e := by
  have h := (C144_boosts h0 hA ss p).1
  have hg := three_nonneg h0 hA
  have hG : 0 ≤ (1 + threeRoundings u) ^ ss.length - 1 := by
    have := one_le_pow₀ (n := ss.length) (by linarith : (1 : ℝ) ≤ 1 + threeRoundings u)
    linarith
  set G := (1 + threeRoundings u) ^ ss.length - 1
  set r := ss.foldl (fun q s => q.shiftRapidityA A s) p
  have hS : |ss.sum| ≤ (ss.map abs).sum := abs_sum_le' ss
  set T := (ss.map abs).sum
  -- the true energy
  have hX : exp (-T) * p.e ≤ cosh ss.sum * p.e + sinh ss.sum * p.z := by
    have h1 : exp (-T) ≤ exp (-|ss.sum|) := exp_le_exp.2 (by linarith)
    have h2 : exp (-|ss.sum|) = cosh ss.sum - |sinh ss.sum| := by
      have a := exp_abs_split ss.sum
      have b : exp (-|ss.sum|) * exp |ss.sum| = 1 := by rw [← exp_add]; simp
      have c := cosh_sq ss.sum
      rw [a] at b
      have d : (cosh ss.sum - |sinh ss.sum|) * (cosh ss.sum + |sinh ss.sum|) = 1 := by
        rw [show (cosh ss.sum - |sinh ss.sum|) * (cosh ss.sum + |sinh ss.sum|) = cosh ss.sum ^ 2 - |sinh ss.sum| ^ 2 by ring,
          sq_abs]
        linarith
      have hp : 0 < cosh ss.sum + |sinh ss.sum| := add_pos_of_pos_of_nonneg (cosh_pos _) (abs_nonneg _)
      exact mul_right_cancel₀ hp.ne' (b.trans d.symm)
    have h3 : |sinh ss.sum * p.z| ≤ |sinh ss.sum| * p.e := by
      rw [abs_mul]; exact mul_le_mul_of_nonneg_left hz (abs_nonneg _)
    have h4 := (abs_le.1 h3).1
    have h5 := mul_le_mul_of_nonneg_right h1 he.le
    rw [h2] at h5
    linarith
  have hb : |r.e - (cosh ss.sum * p.e + sinh ss.sum * p.z)| ≤ G * (exp T * (2 * p.e)) := by
    have : |p.e| + |p.z| ≤ 2 * p.e := by rw [abs_of_pos he]; linarith
    have h6 := mul_le_mul_of_nonneg_left (mul_le_mul_of_nonneg_left this (exp_pos T).le) hG
    linarith [abs_nonneg (r.z - (cosh ss.sum * p.z + sinh ss.sum * p.e))]
  have h7 := (abs_le.1 hb).1
  have h8 : G * (exp T * (2 * p.e)) < exp (-T) * p.e := by
    have e1 : exp (-T) * exp T = 1 := by rw [← exp_add]; simp
    have hpos : 0 < exp T := exp_pos T
    have : G * (exp T * (2 * p.e)) * exp T < exp (-T) * p.e * exp T := by
      rw [show exp (-T) * p.e * exp T = (exp (-T) * exp T) * p.e by ring, e1,
        show G * (exp T * (2 * p.e)) * exp T = (2 * G * exp T ^ 2) * p.e by ring]
      exact mul_lt_mul_of_pos_right hs he
    exact lt_of_mul_lt_mul_right this hpos.le
  linarith

end Bounds

theorem accurateS_exact {u : ℝ} (h0 : 0 ≤ u) : AccurateS u .exact :=
  ⟨accurate_exact h0, fun x => by simp [ArithS.exact]; positivity, fun x => by simp [ArithS.exact]; positivity,
    fun x => by simp [ArithS.exact]; positivity, fun x => by simp [ArithS.exact]; positivity⟩

/-- An arithmetic whose hyperbolic cosine is too small by the allowed error.
Helper of C144_false, for `np.cosh` (graphicle/data.py:1617). -/
noncomputable def exCoshLow (u : ℝ) : ArithS := { ArithS.exact with cosh := fun x => (1 - u) * Real.cosh x }

/-- **C144** Without that condition, for every precision there is an arithmetic of that precision in which a boost gives
a massless particle negative energy. -/
theorem C144_false {u : ℝ} (h0 : 0 < u) : ∃ A : ArithS, AccurateS u A ∧
    ∃ (p : P4) (s : ℝ), 0 < p.e ∧ p.e ^ 2 = p.x ^ 2 + p.y ^ 2 + p.z ^ 2 ∧ (p.shiftRapidityA A s).e < 0 := by
  refine ⟨exCoshLow u, ?_, ⟨0, 0, 1, 1⟩, log u - 1, by norm_num, by norm_num, ?_⟩
  · have h := accurateS_exact h0.le
    refine ⟨h.base, h.cos, h.sin, fun x => ?_, h.sinh⟩
    show |(1 - u) * Real.cosh x - Real.cosh x| ≤ u * |Real.cosh x|
    rw [show (1 - u) * Real.cosh x - Real.cosh x = -(u * Real.cosh x) by ring, abs_neg, abs_mul, abs_of_pos h0]
  · show (1 - u) * Real.cosh (-(log u - 1)) * 1 - Real.sinh (-(log u - 1)) * 1 < 0
    have h1 := cosh_sub_sinh (-(log u - 1))
    have h2 : Real.exp (- -(log u - 1)) < u := by
      rw [neg_neg, exp_sub, exp_log h0]
      exact div_lt_self h0 (by simpa using exp_strictMono (zero_lt_one))
    have h3 := one_le_cosh (-(log u - 1))
    nlinarith

example : 2 * ((1 + threeRoundings (1 / 2 ^ 53)) ^ [(1 : ℝ), -1].length - 1) * Real.exp ([(1 : ℝ), -1].map abs).sum ^ 2 < 1 := by
  have h : Real.exp ([(1 : ℝ), -1].map abs).sum = Real.exp 1 ^ 2 := by
    rw [← Real.exp_nat_mul]; norm_num
  rw [h]
  have h1 : Real.exp 1 < 3 := Real.exp_one_lt_three
  have h2 : (Real.exp 1 ^ 2) ^ 2 < (3 ^ 2) ^ 2 := by gcongr
  have h3 : (0 : ℝ) < 2 * ((1 + threeRoundings (1 / 2 ^ 53)) ^ [(1 : ℝ), -1].length - 1) := by
    norm_num [threeRoundings]
  calc _ < 2 * ((1 + threeRoundings (1 / 2 ^ 53)) ^ [(1 : ℝ), -1].length - 1) * (3 ^ 2) ^ 2 :=
        mul_lt_mul_of_pos_left h2 h3
    _ < 1 := by norm_num [threeRoundings]

end Gcl
