import Verif.Model.RoundedSplit
import Verif.Props.RoundedShape
import Verif.Props.SplitChildren
/-!
# C150: rotations and splittings with rounding
-/
namespace Gcl
set_option autoImplicit false
open Real Spec
open scoped Matrix

/-- Every operation of `A` has a relative error of at most `u`, and an entry of a matrix product the error of three such
operations relative to the sum of the magnitudes of its terms: true of every order of summation. -/
structure Spec.AccurateM (u : ℝ) (A : ArithM) : Prop where
  base : AccurateS u A.toArithS
  dot : ∀ a b, |A.dot a b - (a 0 * b 0 + a 1 * b 1 + a 2 * b 2)| ≤
    ((1 + u) ^ 3 - 1) * (|a 0 * b 0| + |a 1 * b 1| + |a 2 * b 2|)

section
variable {u v : ℝ} {A : ArithM} (h0 : 0 ≤ u) (h1 : u < 1) (hv : (1 + v) * (1 - u) = 1)

omit A in
include h0 in
/-- **C150** Multiplying and adding from left to right is an accurate matrix product. -/
theorem C150_sequential {B : ArithS} (hB : AccurateS u B) : AccurateM u B.sequential := by
  refine ⟨hB, fun a b => ?_⟩
  change |B.add (B.add (B.mul (a 0) (b 0)) (B.mul (a 1) (b 1))) (B.mul (a 2) (b 2)) - _| ≤ _
  have m0 := hB.base.mul (a 0) (b 0)
  have m1 := hB.base.mul (a 1) (b 1)
  have m2 := hB.base.mul (a 2) (b 2)
  generalize a 0 * b 0 = x0 at *
  generalize a 1 * b 1 = x1 at *
  generalize a 2 * b 2 = x2 at *
  generalize B.mul (a 0) (b 0) = y0 at *
  generalize B.mul (a 1) (b 1) = y1 at *
  generalize B.mul (a 2) (b 2) = y2 at *
  have s1 := hB.base.add y0 y1
  generalize B.add y0 y1 = t at *
  have s2 := hB.base.add t y2
  generalize B.add t y2 = w at *
  have tri : ∀ p q : ℝ, |q - p| ≤ u * |p| → |q| ≤ (1 + u) * |p| := by
    intro p q h
    have := abs_add_le p (q - p); rw [add_sub_cancel] at this; linarith
  have hy0 := tri _ _ m0
  have hy1 := tri _ _ m1
  have hy2 := tri _ _ m2
  have ht := tri _ _ s1
  have e1 : |y0 + y1| ≤ (1 + u) * (|x0| + |x1|) := (abs_add_le _ _).trans (by linarith)
  have e2 : |t| ≤ (1 + u) ^ 2 * (|x0| + |x1|) := ht.trans (by nlinarith)
  have e3 : |t + y2| ≤ (1 + u) ^ 2 * (|x0| + |x1|) + (1 + u) * |x2| := (abs_add_le _ _).trans (by linarith)
  have e4 : |t - (x0 + x1)| ≤ ((1 + u) ^ 2 - 1) * (|x0| + |x1|) := by
    have : t - (x0 + x1) = (t - (y0 + y1)) + ((y0 - x0) + (y1 - x1)) := by ring
    rw [this]
    refine (abs_add_le _ _).trans ?_
    have := abs_add_le (y0 - x0) (y1 - x1)
    nlinarith
  have : w - (x0 + x1 + x2) = (w - (t + y2)) + ((t - (x0 + x1)) + (y2 - x2)) := by ring
  rw [this]
  refine (abs_add_le _ _).trans ?_
  have := abs_add_le (t - (x0 + x1)) (y2 - x2)
  have hx2 := abs_nonneg x2
  have hx01 : 0 ≤ |x0| + |x1| := by positivity
  have hu2 : u * |t + y2| ≤ u * ((1 + u) ^ 2 * (|x0| + |x1|) + (1 + u) * |x2|) := mul_le_mul_of_nonneg_left e3 h0
  have k : ((1 + u) ^ 3 - 1) * |x2| - (u * ((1 + u) * |x2|) + u * |x2|) ≥ 0 := by
    have : ((1 + u) ^ 3 - 1) * |x2| - (u * ((1 + u) * |x2|) + u * |x2|) = (u + 2 * u ^ 2 + u ^ 3) * |x2| := by ring
    rw [this]; positivity
  nlinarith

variable (hA : AccurateM u A)
include h0 h1 hv hA

theorem Err.dot {k : Nat} {M x : Fin 3 → ℝ} {a b : Fin 3 → ℝ} (h : ∀ i, Err v k (M i) (x i) (a i * b i)) :
    Err v (k + 3) (M 0 + M 1 + M 2) (x 0 + x 1 + x 2) (A.dot a b) := by
  have hs := Err.add' h0 h1 hv (Err.add' h0 h1 hv (h 0) (h 1)) (h 2)
  have hd := hA.dot a b
  refine ⟨?_, hs.2⟩
  have g := one_le_v h0 h1 hv k
  have hM : ∀ i, 0 ≤ M i := fun i => (abs_nonneg _).trans (h i).2
  have hab : ∀ i, |a i * b i| ≤ (1 + v) ^ k * M i := by
    intro i
    have := abs_add_le (x i) (a i * b i - x i)
    rw [add_sub_cancel] at this
    have h2 := (h i).1
    have h3 := (h i).2
    nlinarith
  have hS : |a 0 * b 0| + |a 1 * b 1| + |a 2 * b 2| ≤ (1 + v) ^ k * (M 0 + M 1 + M 2) := by
    have := hab 0; have := hab 1; have := hab 2; nlinarith
  have h3 : (1 + u) ^ 3 ≤ (1 + v) ^ 3 := pow_le_pow_left₀ (by linarith) (by have := u_le_v h0 h1 hv; linarith) 3
  have h3' : 1 ≤ (1 + u) ^ 3 := one_le_pow₀ (by linarith)
  have hM0 : 0 ≤ (1 + v) ^ k * (M 0 + M 1 + M 2) :=
    mul_nonneg (by linarith) (add_nonneg (add_nonneg (hM 0) (hM 1)) (hM 2))
  have e1 : |A.dot a b - (a 0 * b 0 + a 1 * b 1 + a 2 * b 2)| ≤ ((1 + v) ^ 3 - 1) * ((1 + v) ^ k * (M 0 + M 1 + M 2)) :=
    hd.trans (mul_le_mul (by linarith) hS (by positivity) (by linarith))
  have : A.dot a b - (x 0 + x 1 + x 2) = (A.dot a b - (a 0 * b 0 + a 1 * b 1 + a 2 * b 2)) +
    (a 0 * b 0 + a 1 * b 1 + a 2 * b 2 - (x 0 + x 1 + x 2)) := by ring
  rw [this]
  refine (abs_add_le _ _).trans ((add_le_add e1 hs.1).trans ?_)
  rw [pow_add]; apply le_of_eq; ring


omit h0 h1 hv hA in
/-- The matrix of the cross product with the axis. -/
noncomputable def Spec.crossMatrix (a : SphericalAngle) : Matrix (Fin 3) (Fin 3) ℝ :=
  !![0, -unitAxis a 2, unitAxis a 1; unitAxis a 2, 0, -unitAxis a 0; -unitAxis a 1, unitAxis a 0, 0]

omit v h0 h1 hv hA A in
theorem rotation_entry (angle : ℝ) (a : SphericalAngle) (i j : Fin 3) :
    rotationMatrix angle a i j = (sin angle * crossMatrix a i j + (1 - cos angle) *
      (crossMatrix a i 0 * crossMatrix a 0 j + crossMatrix a i 1 * crossMatrix a 1 j + crossMatrix a i 2 * crossMatrix a 2 j)) +
      (if i = j then 1 else 0) := by
  have : ∀ M : Matrix (Fin 3) (Fin 3) ℝ, (M * M) i j = M i 0 * M 0 j + M i 1 * M 1 j + M i 2 * M 2 j := by
    intro M; rw [Matrix.mul_apply, Fin.sum_univ_three]
  have e : rotationMatrix angle a i j =
      if i = j then (sin angle • crossMatrix a + (1 - cos angle) • (crossMatrix a * crossMatrix a)) i j + 1
      else (sin angle • crossMatrix a + (1 - cos angle) • (crossMatrix a * crossMatrix a)) i j := rfl
  rw [e, ← this]
  split_ifs <;> simp

omit v hA h0 h1 hv in
theorem crossMatrix_le (a : SphericalAngle) (i j : Fin 3) : |crossMatrix a i j| ≤ 1 ∧
    |crossMatrix a i 0 * crossMatrix a 0 j| + |crossMatrix a i 1 * crossMatrix a 1 j| + |crossMatrix a i 2 * crossMatrix a 2 j| ≤ 1 := by
  have hn : unitAxis a 0 ^ 2 + unitAxis a 1 ^ 2 + unitAxis a 2 ^ 2 = 1 := by simpa [unitAxis] using unitAxis_norm a
  unfold crossMatrix
  generalize unitAxis a 0 = x at *
  generalize unitAxis a 1 = y at *
  generalize unitAxis a 2 = z at *
  have hx : |x| ≤ 1 := abs_le_one_iff_mul_self_le_one.2 (by nlinarith [sq_nonneg y, sq_nonneg z])
  have hy : |y| ≤ 1 := abs_le_one_iff_mul_self_le_one.2 (by nlinarith [sq_nonneg x, sq_nonneg z])
  have hz : |z| ≤ 1 := abs_le_one_iff_mul_self_le_one.2 (by nlinarith [sq_nonneg x, sq_nonneg y])
  have hx0 := abs_nonneg x
  have hy0 := abs_nonneg y
  have hz0 := abs_nonneg z
  have qx := abs_mul_abs_self x
  have qy := abs_mul_abs_self y
  have qz := abs_mul_abs_self z
  constructor
  · fin_cases i <;> fin_cases j <;> simp [hx, hy, hz]
  · fin_cases i <;> fin_cases j <;> simp [abs_mul] <;> nlinarith

theorem skewA_near (a : SphericalAngle) (i j : Fin 3) : Near u 3 (crossMatrix a i j) (skewA A.toArithS a i j) := by
  obtain ⟨ax, ay, az⟩ := axisA_near h0 h1 hv hA.base a.phi a.theta
  have neg : ∀ {x y : ℝ}, Near u 3 x y → Near u 3 (-x) (-y) := by
    rintro x y ⟨t, t1, t2, rfl⟩; exact ⟨t, t1, t2, by ring⟩
  have z : Near u 3 (0 : ℝ) 0 := (Near.refl h0 h1 0).mono h0 h1 (by norm_num)
  unfold crossMatrix skewA unitAxis
  fin_cases i <;> fin_cases j <;> simp <;> first | exact z | assumption | exact neg ‹_›

theorem rotationA_err (angle : ℝ) (a : SphericalAngle) (i j : Fin 3) :
    Err v 14 4 (rotationMatrix angle a i j) (rotationMatrixA A angle a i j) := by
  have one : (1 : ℝ) = |1| := by norm_num
  have hk : ∀ i j, Err v 3 1 (crossMatrix a i j) (skewA A.toArithS a i j) := fun i j =>
    (Err.of_near h0 h1 hv (skewA_near h0 h1 hv hA a i j)).mono h0 h1 hv le_rfl (crossMatrix_le a i j).1
  have hs : Err v 1 1 (sin angle) (A.sin angle) :=
    (Err.of_near h0 h1 hv (near_of_abs h0 h1 (hA.base.sin angle))).mono h0 h1 hv le_rfl (abs_sin_le_one _)
  have hc : Err v 1 1 (cos angle) (A.cos angle) :=
    (Err.of_near h0 h1 hv (near_of_abs h0 h1 (hA.base.cos angle))).mono h0 h1 hv le_rfl (abs_cos_le_one _)
  have h1' : Err v 1 1 1 1 := by
    have := (Err.exact (v := v) 1).mono h0 h1 hv (Nat.zero_le 1) le_rfl
    rwa [abs_one] at this
  have hsub := Err.sub h0 h1 hv hA.base.base h1' hc
  have hd := Err.dot h0 h1 hv hA (k := 6) (M := fun l => |crossMatrix a i l * crossMatrix a l j|)
    (x := fun l => crossMatrix a i l * crossMatrix a l j) (a := skewA A.toArithS a i) (b := fun l => skewA A.toArithS a l j)
    (fun l => Err.of_near h0 h1 hv (near_mul h0 h1 (skewA_near h0 h1 hv hA a i l) (skewA_near h0 h1 hv hA a l j)))
  have hd' := hd.mono h0 h1 hv le_rfl (crossMatrix_le a i j).2
  have t1 := (Err.mul h0 h1 hv hA.base.base hs (hk i j)).mono h0 h1 hv (by norm_num : 1 + 3 + 1 ≤ 12) le_rfl
  have t2 := Err.mul h0 h1 hv hA.base.base hsub hd'
  have t := Err.add h0 h1 hv hA.base.base t1 t2
  rw [rotation_entry]
  unfold rotationMatrixA
  by_cases hij : i = j
  · simp only [hij, if_true] at t ⊢
    have := Err.add h0 h1 hv hA.base.base t (h1'.mono h0 h1 hv (by norm_num : 1 ≤ 13) le_rfl)
    exact this.mono h0 h1 hv le_rfl (by norm_num)
  · simp only [hij, if_false, add_zero]
    exact t.mono h0 h1 hv (by norm_num) (by norm_num)

/-- **C150** Every entry of the rotation matrix computed with rounding has an absolute error of at most four times fourteen
roundings, for every angle and axis. -/
theorem C150_rotation (angle : ℝ) (a : SphericalAngle) (i j : Fin 3) :
    |rotationMatrixA A angle a i j - rotationMatrix angle a i j| ≤ 4 * ((1 + v) ^ 14 - 1) := by
  rw [mul_comm]; exact (rotationA_err h0 h1 hv hA angle a i j).1

omit h0 h1 hv hA in
/-- **C150** The error cases are those of exact arithmetic, and one particle always has two children. -/
theorem C150_cases (ps : List P4) (z angle : ℝ) (a : SphericalAngle) :
    (1 < ps.length → splitMomentumA A ps z angle a = .error .valueError) ∧
    (ps = [] → splitMomentumA A ps z angle a = .error .indexError) ∧
    (∀ p, ps = [p] → ∃ c0 c1, splitMomentumA A ps z angle a = .ok [c0, c1]) := by
  refine ⟨fun h => by simp [splitMomentumA, h], ?_, ?_⟩
  · rintro rfl; simp [splitMomentumA]
  · rintro p rfl; exact ⟨_, _, by simp [splitMomentumA]; exact ⟨rfl, rfl⟩⟩

omit h0 h1 hv in
/-- **C150** Conservation: whatever the rotation does, in each component the children add up to the parent within one
rounding of the second child. -/
theorem C150_conserved (p c0 c1 : P4) (z angle : ℝ) (a : SphericalAngle)
    (h : splitMomentumA A [p] z angle a = .ok [c0, c1]) :
    |c0.x + c1.x - p.x| ≤ u * |p.x - c0.x| ∧ |c0.y + c1.y - p.y| ≤ u * |p.y - c0.y| ∧
    |c0.z + c1.z - p.z| ≤ u * |p.z - c0.z| ∧ |c0.e + c1.e - p.e| ≤ u * |p.e - c0.e| := by
  have k : ∀ x y : ℝ, |x + A.sub y x - y| ≤ u * |y - x| := by
    intro x y
    have := hA.base.base.sub y x
    rwa [show x + A.sub y x - y = A.sub y x - (y - x) by ring]
  simp only [splitMomentumA, List.length_cons, List.length_nil, zero_add, lt_irrefl, if_false] at h
  injection h with h; injection h with ha hb; injection hb with hb
  subst ha hb
  exact ⟨k _ _, k _ _, k _ _, k _ _⟩

omit h1 hv in
/-- **C150** The energies: `z E` to one rounding, and `(1 - z) E` to about one rounding of `E`. -/
theorem C150_energy (p c0 c1 : P4) (z angle : ℝ) (a : SphericalAngle) (hz : 0 ≤ z ∧ z ≤ 1)
    (h : splitMomentumA A [p] z angle a = .ok [c0, c1]) :
    |c0.e - z * p.e| ≤ u * (z * |p.e|) ∧ |c1.e - (1 - z) * p.e| ≤ u * (1 + u) * |p.e| := by
  have hc := (C150_conserved hA p c0 c1 z angle a h).2.2.2
  have he : |c0.e - z * p.e| ≤ u * (z * |p.e|) := by
    simp only [splitMomentumA, List.length_cons, List.length_nil, zero_add, lt_irrefl, if_false] at h
    injection h with h; injection h with ha hb
    have := hA.base.base.mul p.e z
    rw [← ha]
    rwa [abs_mul, abs_of_nonneg hz.1, mul_comm p.e z, mul_comm |p.e| z] at this
  refine ⟨he, ?_⟩
  have e0 := abs_nonneg p.e
  have h1 : |p.e - c0.e| ≤ (1 - z) * |p.e| + u * (z * |p.e|) := by
    have : p.e - c0.e = (1 - z) * p.e - (c0.e - z * p.e) := by ring
    rw [this]
    refine (abs_sub _ _).trans (add_le_add ?_ he)
    rw [abs_mul, abs_of_nonneg (by linarith)]
  have : c1.e - (1 - z) * p.e = (c0.e + c1.e - p.e) - (c0.e - z * p.e) := by ring
  rw [this]
  refine (abs_sub _ _).trans ?_
  have h2 : u * |p.e - c0.e| ≤ u * ((1 - z) * |p.e| + u * (z * |p.e|)) := mul_le_mul_of_nonneg_left h1 h0
  have h3 : u * u * (z * |p.e|) ≤ u * u * |p.e| := by
    apply mul_le_mul_of_nonneg_left _ (by positivity); nlinarith
  nlinarith

/-- **C150** The momenta: each component of the first child has an error of at most four times eighteen roundings of the
momentum it shares out. -/
theorem C150_children (p c0 c1 d0 d1 : P4) (z angle : ℝ) (a : SphericalAngle)
    (h : splitMomentumA A [p] z angle a = .ok [c0, c1]) (hd : splitMomentum [p] z angle a = .ok [d0, d1]) :
    let bound := 4 * ((1 + v) ^ 18 - 1) * (|z| * (|p.x| + |p.y| + |p.z|))
    |c0.x - d0.x| ≤ bound ∧ |c0.y - d0.y| ≤ bound ∧ |c0.z - d0.z| ≤ bound := by
  intro bound
  have hs := (split_is hd).2.2.2
  have key : ∀ i : Fin 3, |A.dot ![A.mul p.x z, A.mul p.y z, A.mul p.z z] (fun l => rotationMatrixA A angle a i l) -
      (rotationMatrix angle a *ᵥ ![z * p.x, z * p.y, z * p.z]) i| ≤ bound := by
    intro i
    have hm : ∀ l : Fin 3, Err v 1 (|z| * |![p.x, p.y, p.z] l|) (![z * p.x, z * p.y, z * p.z] l)
        (![A.mul p.x z, A.mul p.y z, A.mul p.z z] l) := by
      have m : ∀ q : ℝ, Err v 1 (|z| * |q|) (z * q) (A.mul q z) := by
        intro q
        have := Err.of_near h0 h1 hv (near_of_abs h0 h1 (hA.base.base.mul q z))
        rwa [mul_comm q z, abs_mul] at this
      intro l; fin_cases l
      · exact m p.x
      · exact m p.y
      · exact m p.z
    have hdot := Err.dot h0 h1 hv hA (fun l => Err.mul' h0 h1 hv (hm l) (rotationA_err h0 h1 hv hA angle a i l))
    have e : (rotationMatrix angle a *ᵥ ![z * p.x, z * p.y, z * p.z]) i =
        ![z * p.x, z * p.y, z * p.z] 0 * rotationMatrix angle a i 0 + ![z * p.x, z * p.y, z * p.z] 1 * rotationMatrix angle a i 1 +
        ![z * p.x, z * p.y, z * p.z] 2 * rotationMatrix angle a i 2 := by
      rw [Matrix.mulVec, dotProduct, Fin.sum_univ_three]; ring
    rw [e]
    refine hdot.1.trans (le_of_eq ?_)
    simp only [bound, Matrix.cons_val_zero, Matrix.cons_val_one, Matrix.cons_val]
    ring
  simp only [splitMomentumA, List.length_cons, List.length_nil, zero_add, lt_irrefl, if_false] at h
  injection h with h; injection h with ha hb
  rw [← hs] at key
  rw [← ha]
  exact ⟨key 0, key 1, key 2⟩

end

/-- **C150** Exact arithmetic is one of the arithmetics, and gives the functions of Model/Transform.lean. -/
theorem C150_exact (ps : List P4) (z angle : ℝ) (a : SphericalAngle) :
    rotationMatrixA .exact angle a = rotationMatrix angle a ∧
    splitMomentumA .exact ps z angle a = splitMomentum ps z angle a ∧
    splitHardestA .exact ps z angle a = splitHardest ps z angle (some a) := by
  have hr : rotationMatrixA .exact angle a = rotationMatrix angle a := by
    ext i j
    rw [rotation_entry]
    have hk : skewA ArithS.exact a = crossMatrix a := rfl
    unfold rotationMatrixA
    change (if i = j then (sin angle * skewA ArithS.exact a i j + (1 - cos angle) * (_ + _ + _)) + 1 else
      (sin angle * skewA ArithS.exact a i j + (1 - cos angle) * (_ + _ + _))) = _
    rw [hk]
    split_ifs
    · rfl
    · rw [add_zero]; rfl
  have hs : ∀ ps, splitMomentumA .exact ps z angle a = splitMomentum ps z angle a := by
    intro ps
    unfold splitMomentumA splitMomentum
    split_ifs
    · rfl
    · cases ps with
      | nil => rfl
      | cons p ps =>
        simp only [hr]
        have e : ∀ i, ArithM.exact.dot ![ArithM.exact.mul p.x z, ArithM.exact.mul p.y z, ArithM.exact.mul p.z z]
            (fun l => rotationMatrix angle a i l) =
            (![z * p.x, z * p.y, z * p.z] ᵥ* (rotationMatrix angle a).transpose) i := by
          intro i
          rw [Matrix.vecMul, dotProduct, Fin.sum_univ_three]
          simp only [ArithM.exact, ArithS.exact, Arith.exact, Matrix.transpose_apply, Matrix.cons_val_zero,
            Matrix.cons_val_one, Matrix.cons_val]
          ring
        rw [e, e, e, show ArithM.exact.mul p.e z = z * p.e from mul_comm _ _]
        rfl
  refine ⟨hr, hs ps, ?_⟩
  have hp : P4.ptA ArithM.exact.toArith = P4.pt := by
    funext p; rw [pt_eq]; rfl
  unfold splitHardestA splitHardest
  rw [hp]
  by_cases hz : ¬ (0 < z ∧ z ≤ 1 / 2)
  · rw [if_pos hz, if_pos hz]
  · rw [if_neg hz, if_neg hz]
    simp only [hs]
    cases argmax (List.map P4.pt ps) with
    | error e => rfl
    | ok k => dsimp only; cases splitMomentum ps[k]?.toList z angle a <;> rfl

/-- **C150** `split_hardest` with rounding: the particle it splits is the first of greatest *computed* transverse momentum,
so that none has a transverse momentum above `(1 + u)/(1 - u)` times its own; the others are copied unchanged and in order,
and the children come last. -/
theorem C150_hardest {u : ℝ} {A : ArithM} (hA : AccurateM u A) (ps : List P4) (z angle : ℝ)
    (a : SphericalAngle) (hz : 0 < z ∧ z ≤ 1 / 2) (hne : ps ≠ []) :
    ∃ (pre post : List P4) (p c0 c1 : P4), ps = pre ++ p :: post ∧
      splitMomentumA A [p] z angle a = .ok [c0, c1] ∧
      splitHardestA A ps z angle a = .ok (pre ++ post ++ [c0, c1]) ∧
      (∀ q ∈ ps, (1 - u) * q.pt ≤ (1 + u) * p.pt) := by
  obtain ⟨k, m, e, hk, hmax⟩ := argmax_spec (ps.map (P4.ptA A.toArith)) (by simpa using hne)
  rw [List.getElem?_map, Option.map_eq_some_iff] at hk
  obtain ⟨p, hp, rfl⟩ := hk
  obtain ⟨hlt, hget⟩ := List.getElem?_eq_some_iff.1 hp
  obtain ⟨-, -, hc⟩ := C150_cases (A := A) [p] z angle a
  obtain ⟨c0, c1, hs⟩ := hc p rfl
  refine ⟨ps.take k, ps.drop (k + 1), p, c0, c1, ?_, hs, ?_, ?_⟩
  · rw [← hget, ← List.drop_eq_getElem_cons hlt, List.take_append_drop]
  · unfold splitHardestA
    rw [if_neg (not_not.2 hz), e]
    simp only [hp, Option.toList_some, hs]
  · intro q hq
    obtain ⟨j, hj⟩ := List.getElem?_of_mem hq
    have := (hmax j (q.ptA A.toArith) (by rw [List.getElem?_map, hj]; rfl)).1
    have hq1 := hA.base.base.hypot q.x q.y
    have hp1 := hA.base.base.hypot p.x p.y
    rw [abs_of_nonneg (sqrt_nonneg _), abs_le] at hq1 hp1
    rw [pt_eq, pt_eq]
    unfold P4.ptA at this
    linarith [hq1.1, hp1.2]

/-- **C150** Refuted: exact conservation.  However accurate the arithmetic, rounding alone can make the children of a particle
differ from it in total energy. -/
theorem C150_false (u : ℝ) (h0 : 0 < u) : ∃ A : ArithM, AccurateM u A ∧
    ∃ c0 c1 : P4, splitMomentumA A [⟨1, 0, 0, 1⟩] (1 / 2) 0 ⟨0, 0⟩ = .ok [c0, c1] ∧ c0.e + c1.e ≠ 1 := by
  let B : ArithS := { ArithS.exact with sub := fun x y => (x - y) * (1 + u) }
  have hE := accurateS_exact (u := u) h0.le
  have hB : AccurateS u B := by
    refine ⟨⟨hE.base.add, fun x y => ?_, hE.base.mul, hE.base.div, hE.base.sqrt, hE.base.log, hE.base.hypot,
      hE.base.arctanh⟩, hE.cos, hE.sin, hE.cosh, hE.sinh⟩
    change |(x - y) * (1 + u) - (x - y)| ≤ u * |x - y|
    rw [show (x - y) * (1 + u) - (x - y) = u * (x - y) by ring, abs_mul, abs_of_pos h0]
  refine ⟨B.sequential, C150_sequential h0.le hB, _, _, rfl, ?_⟩
  change (1 : ℝ) * (1 / 2) + (1 - 1 * (1 / 2)) * (1 + u) ≠ 1
  intro h; linarith

/-- Non-vacuity: the arithmetic of double precision with exact operations, and an honest rounding one. -/
example : AccurateM (1 / 2 ^ 53) ArithM.exact ∧ AccurateM (1 / 2 ^ 53) ArithS.exact.sequential ∧
    (1 + (1 / (2 ^ 53 - 1)) : ℝ) * (1 - 1 / 2 ^ 53) = 1 :=
  ⟨⟨accurateS_exact (by positivity), fun a b => by
      simp only [ArithM.exact, sub_self, abs_zero]
      have : (1 : ℝ) ≤ (1 + 1 / 2 ^ 53) ^ 3 := one_le_pow₀ (by norm_num)
      have := abs_nonneg (a 0 * b 0); have := abs_nonneg (a 1 * b 1); have := abs_nonneg (a 2 * b 2)
      exact mul_nonneg (by linarith) (by positivity)⟩,
    C150_sequential (by positivity) (accurateS_exact (by positivity)), by norm_num⟩

end Gcl
