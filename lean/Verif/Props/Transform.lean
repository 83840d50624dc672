import Verif.Model.Transform
import Verif.Lemmas.EventShape
import Verif.Lemmas.Partition
import Verif.Props.Kinematics
import Mathlib.LinearAlgebra.CrossProduct
import Mathlib.Tactic.FinCases
/-!
# C80–C83: rotations and splittings
-/
namespace Gcl
set_option autoImplicit false
open Real Spec
open scoped Matrix

/-- The unit vector with inclination `θ` and azimuth `φ`. -/
noncomputable def Spec.unitAxis (a : SphericalAngle) : Fin 3 → ℝ :=
  ![sin a.theta * cos a.phi, sin a.theta * sin a.phi, cos a.theta]

/-! ## C80 -/

theorem unitAxis_norm (a : SphericalAngle) :
    (sin a.theta * cos a.phi) ^ 2 + (sin a.theta * sin a.phi) ^ 2 + cos a.theta ^ 2 = 1 := by
  have h1 := sin_sq_add_cos_sq a.theta
  have h2 := sin_sq_add_cos_sq a.phi
  linear_combination h1 + sin a.theta ^ 2 * h2

theorem vec3_eq (v : Fin 3 → ℝ) : ∃ p q r, v = ![p, q, r] :=
  ⟨v 0, v 1, v 2, by ext i; fin_cases i <;> rfl⟩

/-- The entries of the rotation matrix. -/
theorem rotationMatrix_entries (angle : ℝ) (a : SphericalAngle) (x y z c s : ℝ)
    (hx : sin a.theta * cos a.phi = x) (hy : sin a.theta * sin a.phi = y) (hz : cos a.theta = z)
    (hc : cos angle = c) (hs : sin angle = s) :
    rotationMatrix angle a =
      !![1 - (1 - c) * (y ^ 2 + z ^ 2), (1 - c) * x * y - s * z, (1 - c) * x * z + s * y;
         (1 - c) * x * y + s * z, 1 - (1 - c) * (x ^ 2 + z ^ 2), (1 - c) * y * z - s * x;
         (1 - c) * x * z - s * y, (1 - c) * y * z + s * x, 1 - (1 - c) * (x ^ 2 + y ^ 2)] := by
  unfold rotationMatrix SphericalAngle.toAxis anglesToAxis
  rw [hx, hy, hz, hc, hs]
  ext i j
  fin_cases i <;> fin_cases j <;> simp [Matrix.mul_apply, Fin.sum_univ_three] <;> ring

/-- **C80** Orthogonal with determinant one. -/
theorem C80_orthogonal (angle : ℝ) (a : SphericalAngle) :
    rotationMatrix angle a * (rotationMatrix angle a)ᵀ = 1 ∧
    (rotationMatrix angle a)ᵀ * rotationMatrix angle a = 1 ∧ (rotationMatrix angle a).det = 1 := by
  obtain ⟨x, hx⟩ : ∃ x, sin a.theta * cos a.phi = x := ⟨_, rfl⟩
  obtain ⟨y, hy⟩ : ∃ y, sin a.theta * sin a.phi = y := ⟨_, rfl⟩
  obtain ⟨z, hz⟩ : ∃ z, cos a.theta = z := ⟨_, rfl⟩
  obtain ⟨c, hc⟩ : ∃ c, cos angle = c := ⟨_, rfl⟩
  obtain ⟨s, hs⟩ : ∃ s, sin angle = s := ⟨_, rfl⟩
  have hn := unitAxis_norm a
  have hcs := sin_sq_add_cos_sq angle
  rw [rotationMatrix_entries angle a x y z c s hx hy hz hc hs]
  rw [hx, hy, hz] at hn
  rw [hc, hs] at hcs
  clear hx hy hz hc hs
  have hx2 : x ^ 2 = 1 - y ^ 2 - z ^ 2 := by linarith
  have hs2 : s ^ 2 = 1 - c ^ 2 := by linarith
  refine ⟨?_, ?_, ?_⟩
  · ext i j
    fin_cases i <;> fin_cases j <;>
      simp [Matrix.mul_apply, Fin.sum_univ_three, Matrix.one_apply] <;> grind
  · ext i j
    fin_cases i <;> fin_cases j <;>
      simp [Matrix.mul_apply, Fin.sum_univ_three, Matrix.one_apply] <;> grind
  · rw [Matrix.det_fin_three]
    simp
    grind

/-- **C80** It acts by Rodrigues' formula about the axis vector `n`:
`v ↦ cos α · v + sin α · (n × v) + (1 - cos α)(n · v) n`. -/
theorem C80_rodrigues (angle : ℝ) (a : SphericalAngle) (v : Fin 3 → ℝ) :
    rotationMatrix angle a *ᵥ v = cos angle • v + sin angle • (unitAxis a ⨯₃ v) +
      ((1 - cos angle) * (unitAxis a ⬝ᵥ v)) • unitAxis a := by
  have hn := unitAxis_norm a
  obtain ⟨p, q, r, rfl⟩ := vec3_eq v
  rw [rotationMatrix_entries angle a _ _ _ _ _ rfl rfl rfl rfl rfl]
  unfold unitAxis
  generalize sin a.theta * cos a.phi = x at *
  generalize sin a.theta * sin a.phi = y at *
  generalize cos a.theta = z at *
  generalize cos angle = c at *
  generalize sin angle = s at *
  have hx2 : x ^ 2 = 1 - y ^ 2 - z ^ 2 := by linarith
  ext i
  fin_cases i <;> simp [Matrix.mulVec, dotProduct, Fin.sum_univ_three, cross_apply] <;> grind

/-- **C80** The axis is fixed. -/
theorem C80_axis (angle : ℝ) (a : SphericalAngle) : rotationMatrix angle a *ᵥ unitAxis a = unitAxis a := by
  rw [C80_rodrigues]
  have : unitAxis a ⬝ᵥ unitAxis a = 1 := by
    have := unitAxis_norm a
    unfold unitAxis
    simp only [dotProduct, Fin.sum_univ_three]
    simp
    linarith
  rw [this, cross_self]
  ext i; simp; ring

/-- **C80** Vectors orthogonal to the axis stay orthogonal to it and are turned by exactly `angle`, counted
positively about the axis. -/
theorem C80_turn (angle : ℝ) (a : SphericalAngle) (v : Fin 3 → ℝ) (h : unitAxis a ⬝ᵥ v = 0) :
    unitAxis a ⬝ᵥ (rotationMatrix angle a *ᵥ v) = 0 ∧
    v ⬝ᵥ (rotationMatrix angle a *ᵥ v) = cos angle * (v ⬝ᵥ v) ∧
    unitAxis a ⬝ᵥ (v ⨯₃ (rotationMatrix angle a *ᵥ v)) = sin angle * (v ⬝ᵥ v) := by
  have hn := unitAxis_norm a
  obtain ⟨p, q, r, rfl⟩ := vec3_eq v
  rw [C80_rodrigues, h]
  unfold unitAxis at *
  generalize sin a.theta * cos a.phi = x at *
  generalize sin a.theta * sin a.phi = y at *
  generalize cos a.theta = z at *
  generalize cos angle = c at *
  generalize sin angle = s at *
  have hx2 : x ^ 2 = 1 - y ^ 2 - z ^ 2 := by linarith
  simp only [dotProduct, Fin.sum_univ_three, cross_apply] at *
  simp at *
  refine ⟨?_, ?_, ?_⟩ <;> grind

/-- **C80** Additivity in the angle. -/
theorem C80_group (α β : ℝ) (a : SphericalAngle) :
    rotationMatrix α a * rotationMatrix β a = rotationMatrix (α + β) a ∧ rotationMatrix 0 a = 1 ∧
    rotationMatrix (-α) a = (rotationMatrix α a)ᵀ := by
  have hn := unitAxis_norm a
  rw [rotationMatrix_entries α a _ _ _ _ _ rfl rfl rfl rfl rfl,
    rotationMatrix_entries β a _ _ _ _ _ rfl rfl rfl rfl rfl,
    rotationMatrix_entries (α + β) a _ _ _ _ _ rfl rfl rfl (cos_add α β) (sin_add α β),
    rotationMatrix_entries 0 a _ _ _ _ _ rfl rfl rfl cos_zero sin_zero,
    rotationMatrix_entries (-α) a _ _ _ _ _ rfl rfl rfl (cos_neg α) (sin_neg α)]
  generalize sin a.theta * cos a.phi = x at *
  generalize sin a.theta * sin a.phi = y at *
  generalize cos a.theta = z at *
  generalize cos α = c at *
  generalize sin α = s at *
  generalize cos β = d at *
  generalize sin β = t at *
  have hx2 : x ^ 2 = 1 - y ^ 2 - z ^ 2 := by linarith
  refine ⟨?_, ?_, ?_⟩
  · ext i j
    fin_cases i <;> fin_cases j <;>
      simp [Matrix.mul_apply, Fin.sum_univ_three] <;> grind
  · ext i j
    fin_cases i <;> fin_cases j <;> simp [Matrix.one_apply]
  · ext i j
    fin_cases i <;> fin_cases j <;> simp <;> ring

/-! ## C81 -/

/-- **C81** Angles always denote a unit vector. -/
theorem C81_unit (a : SphericalAngle) :
    ∃ x y z, a.toAxis = (x, y, z) ∧ x ^ 2 + y ^ 2 + z ^ 2 = 1 :=
  ⟨_, _, _, rfl, unitAxis_norm a⟩

/-- **C81** For a nonzero axis with azimuth `φ`, transverse
length `t` and length `l`, converting to angles and back gives `(z/l cos φ, z/l sin φ, t/l)`: the elevation
is used as if it were the inclination.  Hence the round trip is the normalised axis exactly when
`t = z`. -/
theorem C81_roundtrip (x y z : ℝ) (h : x ≠ 0 ∨ y ≠ 0 ∨ z ≠ 0) :
    ∃ t l φ : ℝ, t = sqrt (x ^ 2 + y ^ 2) ∧ l = sqrt (x ^ 2 + y ^ 2 + z ^ 2) ∧ 0 < l ∧
      x = t * cos φ ∧ y = t * sin φ ∧
      (axisToAngles (x, y, z)).toAxis = (z / l * cos φ, z / l * sin φ, t / l) ∧
      ((axisToAngles (x, y, z)).toAxis = (x / l, y / l, z / l) ↔ t = z) := by
  have ht : ‖(⟨x, y⟩ : ℂ)‖ = sqrt (x ^ 2 + y ^ 2) := by
    rw [Complex.norm_def, Complex.normSq_mk]; ring_nf
  have ht2 : sqrt (x ^ 2 + y ^ 2) ^ 2 = x ^ 2 + y ^ 2 := sq_sqrt (by positivity)
  have ht0 := sqrt_nonneg (x ^ 2 + y ^ 2)
  have hl2 : sqrt (x ^ 2 + y ^ 2 + z ^ 2) ^ 2 = x ^ 2 + y ^ 2 + z ^ 2 := sq_sqrt (by positivity)
  have hpos : 0 < sqrt (x ^ 2 + y ^ 2 + z ^ 2) := by
    apply sqrt_pos.2
    rcases h with h | h | h <;> positivity
  have hx := Complex.norm_mul_cos_arg (⟨x, y⟩ : ℂ)
  have hy := Complex.norm_mul_sin_arg (⟨x, y⟩ : ℂ)
  simp only [ht] at hx hy
  set t := sqrt (x ^ 2 + y ^ 2) with htd
  set l := sqrt (x ^ 2 + y ^ 2 + z ^ 2) with hld
  set φ := (⟨x, y⟩ : ℂ).arg with hφ
  have hln : ‖(⟨t, z⟩ : ℂ)‖ = l := by
    rw [Complex.norm_def, Complex.normSq_mk, hld]
    congr 1
    rw [← sq, ht2]; ring
  have hc := Complex.norm_mul_cos_arg (⟨t, z⟩ : ℂ)
  have hs := Complex.norm_mul_sin_arg (⟨t, z⟩ : ℂ)
  simp only [hln] at hc hs
  have hc' : cos (⟨t, z⟩ : ℂ).arg = t / l := by rw [eq_div_iff hpos.ne']; linarith
  have hs' : sin (⟨t, z⟩ : ℂ).arg = z / l := by rw [eq_div_iff hpos.ne']; linarith
  have hval : (axisToAngles (x, y, z)).toAxis = (z / l * cos φ, z / l * sin φ, t / l) := by
    unfold axisToAngles SphericalAngle.toAxis anglesToAxis
    simp only [ht, hc', hs']
    rfl
  refine ⟨t, l, φ, rfl, rfl, hpos, hx.symm, hy.symm, hval, ?_⟩
  rw [hval]
  simp only [Prod.mk.injEq]
  constructor
  · rintro ⟨_, _, h3⟩
    rw [div_left_inj' hpos.ne'] at h3
    exact h3
  · intro htz
    refine ⟨?_, ?_, by rw [htz]⟩
    · rw [← hx, htz]; ring
    · rw [← hy, htz]; ring

/-- **C81** The expected round trip is refuted: the `z` axis comes back as the `x` axis. -/
theorem C81_false : (axisToAngles (0, 0, 1)).toAxis = (1, 0, 0) := by
  have h1 : (⟨0, 0⟩ : ℂ) = 0 := rfl
  have h2 : (⟨0, 1⟩ : ℂ) = Complex.I := rfl
  unfold axisToAngles SphericalAngle.toAxis anglesToAxis
  simp [h1, h2]

theorem argmax_spec (l : List ℝ) (h : l ≠ []) :
    ∃ a m, argmax l = .ok a ∧ l[a]? = some m ∧
      ∀ (j : Nat) (x : ℝ), l[j]? = some x → x ≤ m ∧ (j < a → x < m) := by
  obtain ⟨a, m, h1, h2, h3⟩ := argmin_spec (R := ℝᵒᵈ) l h
  exact ⟨a, m, h1, h2, fun j x hj => ⟨(h3 j x hj).1, (h3 j x hj).2⟩⟩

/-- **C81** Consequently `soft_hard_axis` does not denote the normal of the soft-hard plane: for momenta
along `x` (soft) and `y` (hard) it denotes the soft momentum's own direction. -/
theorem C81_softhard_false : ∃ (ps : List P4) (a : SphericalAngle), softHardAxis ps = .ok a ∧
    ps = [⟨1, 0, 0, 1⟩, ⟨0, 2, 0, 2⟩] ∧ a.toAxis = (1, 0, 0) := by
  have p1 : P4.pt ⟨1, 0, 0, 1⟩ = 1 := by rw [pt_eq]; norm_num
  have p2 : P4.pt ⟨0, 2, 0, 2⟩ = 2 := by
    rw [pt_eq, show (0 : ℝ) ^ 2 + 2 ^ 2 = 2 ^ 2 by norm_num]; exact sqrt_sq (by norm_num)
  refine ⟨[⟨1, 0, 0, 1⟩, ⟨0, 2, 0, 2⟩], axisToAngles (0, 0, 2), ?_, rfl, ?_⟩
  · unfold softHardAxis
    have e1 : argmin ([⟨1, 0, 0, 1⟩, ⟨0, 2, 0, 2⟩] |>.map P4.pt) = .ok 0 := by
      simp only [List.map_cons, List.map_nil, p1, p2, argmin, argminFrom]
      norm_num
    have e2 : argmax ([⟨1, 0, 0, 1⟩, ⟨0, 2, 0, 2⟩] |>.map P4.pt) = .ok 1 := by
      obtain ⟨a, m, h1, h2, h3⟩ := argmax_spec ([⟨1, 0, 0, 1⟩, ⟨0, 2, 0, 2⟩] |>.map P4.pt) (by simp)
      rw [h1]
      simp only [List.map_cons, List.map_nil, p1, p2] at h2 h3
      rcases a with _ | _ | a
      · have := (h3 1 2 rfl).1
        simp at h2
        rw [← h2] at this
        norm_num at this
      · rfl
      · simp at h2
    rw [e1, e2]
    simp [cross3]
  · obtain ⟨t, l, φ, h1, h2, h3, h4, h5, h6, _⟩ := C81_roundtrip 0 0 2 (by norm_num)
    have ht : t = 0 := by rw [h1]; norm_num
    have hl : l = 2 := by
      rw [h2, show (0 : ℝ) ^ 2 + 0 ^ 2 + 2 ^ 2 = 2 ^ 2 by norm_num]; exact sqrt_sq (by norm_num)
    have h1' : (⟨0, 0⟩ : ℂ) = 0 := rfl
    unfold axisToAngles SphericalAngle.toAxis anglesToAxis
    have h2' : (⟨0, 2⟩ : ℂ) = (2 : ℝ) * Complex.I := by apply Complex.ext <;> simp
    simp only [h1', norm_zero, Complex.arg_zero, h2', Complex.arg_real_mul _ (by norm_num : (0 : ℝ) < 2),
      Complex.arg_I]
    simp

/-! ## C82 -/

/-- The two children: their sum is the parent, the first has `z` times its energy and 3-momentum magnitude,
the scaled 3-momentum being rotated by the rotation matrix. -/
def Spec.IsSplit (p : P4) (z angle : ℝ) (axis : SphericalAngle) (c0 c1 : P4) : Prop :=
  padd c0 c1 = p ∧ c0.e = z * p.e ∧ norm3 c0 = |z| * norm3 p ∧
  ![c0.x, c0.y, c0.z] = rotationMatrix angle axis *ᵥ ![z * p.x, z * p.y, z * p.z]

/-- **C82** `split_momentum` of one particle: the children add up to the parent, the first has energy
`z E`, 3-momentum magnitude `|z| |p|` and (for `z ≥ 0`) mass `z · mass`. -/
theorem C82_split (p : P4) (z angle : ℝ) (axis : SphericalAngle) :
    ∃ c0 c1, splitMomentum [p] z angle axis = .ok [c0, c1] ∧ IsSplit p z angle axis c0 c1 ∧
      (0 ≤ z → c0.mass = z * p.mass) := by
  set w := rotationMatrix angle axis *ᵥ ![z * p.x, z * p.y, z * p.z] with hw
  have hnorm : w 0 ^ 2 + w 1 ^ 2 + w 2 ^ 2 = z ^ 2 * (p.x ^ 2 + p.y ^ 2 + p.z ^ 2) := by
    have ho := (C80_orthogonal angle axis).2.1
    have : w ⬝ᵥ w = ![z * p.x, z * p.y, z * p.z] ⬝ᵥ ![z * p.x, z * p.y, z * p.z] := by
      rw [hw, Matrix.dotProduct_mulVec, Matrix.vecMul_mulVec, ho, Matrix.vecMul_one]
    simp only [dotProduct, Fin.sum_univ_three] at this
    simp at this
    linear_combination this
  refine ⟨⟨w 0, w 1, w 2, z * p.e⟩, ⟨p.x - w 0, p.y - w 1, p.z - w 2, p.e - z * p.e⟩, ?_, ⟨?_, rfl, ?_, ?_⟩,
    fun hz => ?_⟩
  · simp only [splitMomentum, List.length_singleton, lt_irrefl, if_false, Matrix.vecMul_transpose, ← hw]
  · apply P4.ext <;> simp [padd]
  · unfold norm3
    simp only
    rw [hnorm, sqrt_mul (sq_nonneg z), sqrt_sq_eq_abs]
  · ext i; fin_cases i <;> rfl
  · apply signed_sq_inj
    rw [mass_signed, abs_mul, abs_of_nonneg hz, show z * p.mass * (z * |p.mass|) =
      z ^ 2 * (p.mass * |p.mass|) by ring, mass_signed]
    unfold mdot
    simp only
    linear_combination -hnorm

/-- **C82** Several particles raise `ValueError`, none `IndexError`. -/
theorem C82_errors (ps : List P4) (z angle : ℝ) (axis : SphericalAngle) :
    (1 < ps.length → splitMomentum ps z angle axis = .error .valueError) ∧
    (ps = [] → splitMomentum ps z angle axis = .error .indexError) := by
  refine ⟨fun h => by simp [splitMomentum, h], fun h => by subst h; simp [splitMomentum]⟩

/-- A zero angle splits collinearly. -/
example (p : P4) (z : ℝ) (axis : SphericalAngle) :
    splitMomentum [p] z 0 axis =
      .ok [⟨z * p.x, z * p.y, z * p.z, z * p.e⟩,
        ⟨p.x - z * p.x, p.y - z * p.y, p.z - z * p.z, p.e - z * p.e⟩] := by
  simp only [splitMomentum, List.length_singleton, lt_irrefl, if_false, (C80_group 0 0 axis).2.1,
    Matrix.transpose_one, Matrix.vecMul_one]
  simp

/-! ## C83 -/

/-- **C83** With an axis, and `z` in `(0, 1/2]`, a non-empty set is split as follows: the first particle `p`
of maximal `pt` is removed, the others keep their order, and its two children come last; the total momentum
is unchanged and the length grows by one. -/
theorem C83_split (ps : List P4) (z angle : ℝ) (axis : SphericalAngle) (hz : 0 < z ∧ z ≤ 1 / 2)
    (hne : ps ≠ []) :
    ∃ (pre post : List P4) (p c0 c1 : P4), ps = pre ++ p :: post ∧ (∀ q ∈ pre, q.pt < p.pt) ∧
      (∀ q ∈ post, q.pt ≤ p.pt) ∧
      splitHardest ps z angle (some axis) = .ok (pre ++ post ++ [c0, c1]) ∧ IsSplit p z angle axis c0 c1 ∧
      total (pre ++ post ++ [c0, c1]) = total ps ∧ (pre ++ post ++ [c0, c1]).length = ps.length + 1 := by
  obtain ⟨h, m, h1, h2, h3⟩ := argmax_spec (ps.map P4.pt) (by simpa using hne)
  have hlt : h < ps.length := by
    have := List.getElem?_eq_some_iff.1 h2
    simpa using this.1
  have hm : m = ps[h].pt := by
    rw [List.getElem?_map, List.getElem?_eq_getElem hlt] at h2
    simpa using h2.symm
  obtain ⟨c0, c1, hc, his, _⟩ := C82_split ps[h] z angle axis
  have hps : ps = ps.take h ++ ps[h] :: ps.drop (h + 1) := by
    rw [← List.drop_eq_getElem_cons hlt, List.take_append_drop]
  refine ⟨ps.take h, ps.drop (h + 1), ps[h], c0, c1, hps, ?_, ?_, ?_, his, ?_, ?_⟩
  · intro q hq
    obtain ⟨j, hj, rfl⟩ := List.mem_iff_getElem.1 hq
    rw [List.length_take] at hj
    have hj' : j < h := by omega
    rw [List.getElem_take, ← hm]
    exact (h3 j _ (by rw [List.getElem?_map, List.getElem?_eq_getElem (by omega)]; rfl)).2 hj'
  · intro q hq
    obtain ⟨j, hj, rfl⟩ := List.mem_iff_getElem.1 hq
    rw [List.length_drop] at hj
    rw [List.getElem_drop, ← hm]
    exact (h3 (h + 1 + j) _ (by rw [List.getElem?_map, List.getElem?_eq_getElem (by omega)]; rfl)).1
  · unfold splitHardest
    rw [if_neg (not_not.2 hz)]
    simp only [h1, List.getElem?_eq_getElem hlt, Option.toList_some, hc]
  · conv_rhs => rw [hps]
    rw [total_append, total_append, total_append, total_cons, total_cons, total_cons]
    rw [← his.1]
    apply P4.ext <;> simp only [padd] <;> simp [total] <;> ring
  · conv_rhs => rw [hps]
    simp only [List.length_append, List.length_cons, List.length_nil]
    omega

/-- **C83** Without an axis, `soft_hard_axis` supplies it when there are at least two particles. -/
theorem C83_noaxis (ps : List P4) (z angle : ℝ) (h2 : 2 ≤ ps.length) :
    ∃ axis, softHardAxis ps = .ok axis ∧ splitHardest ps z angle none = splitHardest ps z angle (some axis) := by
  have hne : ps.map P4.pt ≠ [] := by
    intro h; have := congrArg List.length h; simp at this; subst this; simp at h2
  obtain ⟨s, m, a1, a2, _⟩ := argmin_spec (ps.map P4.pt) hne
  obtain ⟨t, m', b1, b2, _⟩ := argmax_spec (ps.map P4.pt) hne
  have hs : s < ps.length := by simpa using (List.getElem?_eq_some_iff.1 a2).1
  have ht : t < ps.length := by simpa using (List.getElem?_eq_some_iff.1 b2).1
  refine ⟨axisToAngles (cross3 ps[s] ps[t]), ?_, ?_⟩
  · unfold softHardAxis
    simp only [a1, b1, List.getElem?_eq_getElem hs, List.getElem?_eq_getElem ht]
  · unfold splitHardest softHardAxis
    simp only [a1, b1, List.getElem?_eq_getElem hs, List.getElem?_eq_getElem ht,
      if_neg (not_lt.2 h2)]

/-- **C83** The errors: `z` outside `(0, 1/2]`, a missing axis with fewer than two particles, or no
particles at all are `ValueError`s — and nothing else fails. -/
theorem C83_errors (ps : List P4) (z angle : ℝ) (axis : Option SphericalAngle) :
    (splitHardest ps z angle axis = .error .valueError ↔
      (¬ (0 < z ∧ z ≤ 1 / 2) ∨ (axis = none ∧ ps.length < 2) ∨ ps = [])) ∧
    ((∃ e, splitHardest ps z angle axis = .error e) →
      splitHardest ps z angle axis = .error .valueError) := by
  by_cases hz : 0 < z ∧ z ≤ 1 / 2
  swap
  · have : splitHardest ps z angle axis = .error .valueError := by
      unfold splitHardest; rw [if_pos hz]
    exact ⟨⟨fun _ => Or.inl hz, fun _ => this⟩, fun _ => this⟩
  have ok : ∀ a : SphericalAngle, ps ≠ [] → ∃ out, splitHardest ps z angle (some a) = .ok out := by
    intro a hne
    obtain ⟨_, _, _, _, _, _, _, _, h, _⟩ := C83_split ps z angle a hz hne
    exact ⟨_, h⟩
  have emp : ∀ a : SphericalAngle, splitHardest [] z angle (some a) = .error .valueError := by
    intro a
    simp [splitHardest, argmax, argmin]
  cases axis with
  | some a =>
    by_cases hne : ps = []
    · subst hne
      simp [emp a]
    · obtain ⟨out, ho⟩ := ok a hne
      rw [ho]
      refine ⟨⟨fun h => (by cases h), fun h => ?_⟩, fun ⟨e, h⟩ => (by cases h)⟩
      rcases h with h | h | h
      · exact absurd hz h
      · exact absurd h.1 (by simp)
      · exact absurd h hne
  | none =>
    by_cases hl : ps.length < 2
    · have : splitHardest ps z angle none = .error .valueError := by
        unfold splitHardest
        rw [if_neg (not_not.2 hz)]
        simp only [hl, if_true]
      rw [this]
      simp [hl]
    · have hne : ps ≠ [] := by intro h; subst h; simp at hl
      obtain ⟨a, _, h2⟩ := C83_noaxis ps z angle (by omega)
      obtain ⟨out, ho⟩ := ok a hne
      rw [h2, ho]
      refine ⟨⟨fun h => (by cases h), fun h => ?_⟩, fun ⟨e, h⟩ => (by cases h)⟩
      rcases h with h | h | h
      · exact absurd hz h
      · exact absurd h.2 hl
      · exact absurd h hne

end Gcl
