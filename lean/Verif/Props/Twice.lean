import Verif.Props.PartitionIdem
import Verif.Props.Rotation
/-! # C110, C89: what happens outside the usual hypotheses -/
namespace Gcl
set_option autoImplicit false
open Real Spec

/-- Two quarks meet at vertex 3; the hadron at position 2 leaves it and is *final*, yet it enters vertex 4, from which
the hadron at position 3 leaves. -/
def exTwEdges : List (Int × Int) := [(1, 3), (2, 3), (3, 4), (4, 5)]
def exTwStatus : List Int := [23, 23, 83, 84]
def exTwFinal : List Bool := [false, false, true, true]
def exTwPmu : List Nat := [10, 20, 11, 19]
def exTwHier : Dict Mask := [("q", .arr [true, false, false, false]), ("r", .arr [false, true, false, false])]

/-- **C110** The condition that no final particle enters a hadronisation vertex is needed: here the second run hands
`q` a particle that the first run gave to `r` alone. -/
theorem C110_false :
    partitionDescendants exPDist exTwPmu exTwFinal exTwStatus exTwEdges exTwHier =
      .ok [("q", .arr [true, false, true, false]), ("r", .arr [false, true, false, true])] ∧
    partitionDescendants exPDist exTwPmu exTwFinal exTwStatus exTwEdges
      [("q", .arr [true, false, true, false]), ("r", .arr [false, true, false, true])] =
      .ok [("q", .arr [true, false, true, true]), ("r", .arr [false, true, false, true])] := by
  exact ⟨rfl, rfl⟩

/-- **C89** The rapidity of records with `E - |pz|` below minus the tolerance: nan if `|E| < |pz|`; infinite with the
sign of `pz` if `E = -|pz|`; and for `E < -|pz|` the `y` with `-E = mT cosh y`, `pz = mT sinh y`. -/
theorem C89_spacelike {tol : ℝ} (ht : 0 ≤ tol) (p : P4) (h : p.e - |p.z| < -tol) :
    (-|p.z| < p.e → p.rapidity tol = .nan) ∧
    (p.e = -|p.z| → p.rapidity tol = if p.z < 0 then .ninf else .pinf) ∧
    (p.e < -|p.z| → ∃ y, p.rapidity tol = .fin y ∧ -p.e = p.massT * cosh y ∧ p.z = p.massT * sinh y) := by
  have hd : p.e - |p.z| < 0 := by linarith
  have ha : tol < |p.e - (|p.z|)| := by rw [abs_of_neg hd]; linarith
  unfold P4.rapidity rapidityOf
  simp only
  rw [if_pos ha]
  refine ⟨fun h1 => ?_, fun h1 => ?_, fun h1 => ?_⟩
  · have hq : (p.e + |p.z|) / (p.e - |p.z|) < 0 := div_neg_of_pos_of_neg (by linarith) hd
    rw [if_neg (not_lt.2 hq.le), if_neg hq.ne]
  · have hq : (p.e + |p.z|) / (p.e - |p.z|) = 0 := by rw [h1]; simp
    rw [hq, if_neg (lt_irrefl _), if_pos rfl]; rfl
  · have hq : 0 < (p.e + |p.z|) / (p.e - |p.z|) := div_pos_of_neg_of_neg (by linarith) hd
    rw [if_pos hq]
    refine ⟨_, rfl, ?_⟩
    have hz := abs_nonneg p.z
    have hlt : (0 : ℝ) < |(-p.e)| - |p.z| := by rw [abs_of_pos (by linarith)]; linarith
    -- the mirrored record with positive energy
    obtain ⟨y, y1, y2, y3⟩ := (C89_rapidity le_rfl ⟨p.x, p.y, p.z, -p.e⟩).1 (by simp only; linarith)
    have hm : (⟨p.x, p.y, p.z, -p.e⟩ : P4).massT = p.massT := by
      unfold P4.massT rootDiffTwoSquares
      simp
    rw [hm] at y2 y3
    suffices hy : copysign (0.5 * log ((p.e + |p.z|) / (p.e - |p.z|))) p.z = y by
      rw [hy]; exact ⟨y2, y3⟩
    unfold P4.rapidity rapidityOf at y1
    simp only at y1
    have hd' : 0 < -p.e - |p.z| := by linarith
    rw [abs_of_pos hd', if_pos hd', if_pos (div_pos (by linarith) hd')] at y1
    have : (p.e + |p.z|) / (p.e - |p.z|) = ((-p.e + |p.z|) / (-p.e - |p.z|))⁻¹ := by
      rw [inv_div, ← neg_div_neg_eq]; congr 1 <;> ring
    rw [this, log_inv]
    injection y1 with y1
    rw [← y1]
    unfold copysign
    rw [mul_neg, abs_neg]

example : (⟨0, 0, 3, -5⟩ : P4).e < -|(⟨0, 0, 3, -5⟩ : P4).z| := by norm_num
example : (⟨0, 0, 3, 1⟩ : P4).rapidity 0 = .nan :=
  (C89_spacelike le_rfl ⟨0, 0, 3, 1⟩ (by norm_num)).1 (by norm_num)

end Gcl
