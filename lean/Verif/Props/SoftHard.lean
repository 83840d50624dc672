import Verif.Props.Transform
import Mathlib.LinearAlgebra.CrossProduct
import Mathlib.Analysis.SpecialFunctions.Complex.Arg
/-! # C81: what `soft_hard_axis` computes -/
namespace Gcl
set_option autoImplicit false
open Real Spec
open scoped Matrix

/-- `a` holds the elevation above the transverse plane and the azimuth of the vector `n`; both are zero where they are not
determined. -/
structure Spec.Elevation (n : Fin 3 → ℝ) (a : SphericalAngle) : Prop where
  /-- the direction -/
  dir : ∃ l, l = sqrt (n 0 ^ 2 + n 1 ^ 2 + n 2 ^ 2) ∧
    n = ![l * (cos a.theta * cos a.phi), l * (cos a.theta * sin a.phi), l * sin a.theta]
  /-- the range of the elevation -/
  theta : -(π / 2) ≤ a.theta ∧ a.theta ≤ π / 2
  /-- the range of the azimuth -/
  phi : -π < a.phi ∧ a.phi ≤ π
  /-- a vector along the beam has azimuth zero -/
  beam : n 0 = 0 → n 1 = 0 → a.phi = 0
  /-- the zero vector has elevation zero -/
  zero : n = 0 → a.theta = 0

/-- **C81** `_axis_to_angles` gives the elevation and the azimuth of the axis. -/
theorem C81_angles (x y z : ℝ) : Elevation ![x, y, z] (axisToAngles (x, y, z)) := by
  have ht : ‖(⟨x, y⟩ : ℂ)‖ = sqrt (x ^ 2 + y ^ 2) := by
    rw [Complex.norm_def, Complex.normSq_mk]; ring_nf
  have ht2 : sqrt (x ^ 2 + y ^ 2) ^ 2 = x ^ 2 + y ^ 2 := sq_sqrt (by positivity)
  have hx := Complex.norm_mul_cos_arg (⟨x, y⟩ : ℂ)
  have hy := Complex.norm_mul_sin_arg (⟨x, y⟩ : ℂ)
  have hln : ‖(⟨‖(⟨x, y⟩ : ℂ)‖, z⟩ : ℂ)‖ = sqrt (x ^ 2 + y ^ 2 + z ^ 2) := by
    rw [Complex.norm_def, Complex.normSq_mk, ht]
    congr 1
    rw [← sq, ht2]; ring
  have hc := Complex.norm_mul_cos_arg (⟨‖(⟨x, y⟩ : ℂ)‖, z⟩ : ℂ)
  have hs := Complex.norm_mul_sin_arg (⟨‖(⟨x, y⟩ : ℂ)‖, z⟩ : ℂ)
  simp only [hln] at hc hs
  refine ⟨⟨_, rfl, ?_⟩, ?_, ⟨Complex.neg_pi_lt_arg _, Complex.arg_le_pi _⟩, ?_, ?_⟩
  · simp only [axisToAngles]
    have e : (![x, y, z] : Fin 3 → ℝ) 0 ^ 2 + (![x, y, z] : Fin 3 → ℝ) 1 ^ 2 + (![x, y, z] : Fin 3 → ℝ) 2 ^ 2 =
        x ^ 2 + y ^ 2 + z ^ 2 := rfl
    rw [e, ← mul_assoc, ← mul_assoc, hc, hs]
    simp only at hx hy
    rw [hx, hy]
  · have := Complex.abs_arg_le_pi_div_two_iff (z := (⟨‖(⟨x, y⟩ : ℂ)‖, z⟩ : ℂ)) |>.2 (norm_nonneg _)
    exact abs_le.1 this
  · intro h1 h2
    have h1' : x = 0 := h1
    have h2' : y = 0 := h2
    subst h1' h2'
    exact Complex.arg_zero
  · intro h
    have h0 : x = 0 := congrFun h 0
    have h1 : y = 0 := congrFun h 1
    have h2 : z = 0 := congrFun h 2
    subst h0 h1 h2
    have : (⟨0, 0⟩ : ℂ) = 0 := rfl
    simp [axisToAngles, this]

/-- **C81** `soft_hard_axis` of momenta: with the first particle of least and the first of greatest transverse momentum
it gives elevation and azimuth of the cross product of their 3-momenta, in that order; without particles it raises
`ValueError`. -/
theorem C81_softhard (ps : List P4) :
    (ps = [] → softHardAxis ps = .error .valueError) ∧
    (ps ≠ [] → ∃ (i j : Nat) (s h : P4) (a : SphericalAngle), ps[i]? = some s ∧ ps[j]? = some h ∧
      (∀ (k : Nat) (q : P4), ps[k]? = some q → s.pt ≤ q.pt ∧ (k < i → s.pt < q.pt)) ∧
      (∀ (k : Nat) (q : P4), ps[k]? = some q → q.pt ≤ h.pt ∧ (k < j → q.pt < h.pt)) ∧
      softHardAxis ps = .ok a ∧ Elevation (![s.x, s.y, s.z] ⨯₃ ![h.x, h.y, h.z]) a) := by
  refine ⟨fun h => by subst h; rfl, fun hne => ?_⟩
  have hne' : ps.map P4.pt ≠ [] := by simpa using hne
  obtain ⟨s, m, a1, a2, a3⟩ := argmin_spec (ps.map P4.pt) hne'
  obtain ⟨t, m', b1, b2, b3⟩ := argmax_spec (ps.map P4.pt) hne'
  have hs : s < ps.length := by simpa using (List.getElem?_eq_some_iff.1 a2).1
  have ht : t < ps.length := by simpa using (List.getElem?_eq_some_iff.1 b2).1
  have em : m = ps[s].pt := by
    rw [List.getElem?_map, List.getElem?_eq_getElem hs] at a2; simpa using a2.symm
  have em' : m' = ps[t].pt := by
    rw [List.getElem?_map, List.getElem?_eq_getElem ht] at b2; simpa using b2.symm
  subst em em'
  refine ⟨s, t, ps[s], ps[t], axisToAngles (cross3 ps[s] ps[t]), List.getElem?_eq_getElem hs,
    List.getElem?_eq_getElem ht, fun k q hq => a3 k _ (by rw [List.getElem?_map, hq]; rfl),
    fun k q hq => b3 k _ (by rw [List.getElem?_map, hq]; rfl), ?_, ?_⟩
  · unfold softHardAxis
    simp only [a1, b1, List.getElem?_eq_getElem hs, List.getElem?_eq_getElem ht]
  · rw [cross_apply]
    exact C81_angles _ _ _
end Gcl
