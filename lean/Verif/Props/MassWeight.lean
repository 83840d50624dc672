import Verif.Model.MassWeight
import Verif.Props.Kinematics
/-! # C108: the `weight` argument of `combined_mass` -/
namespace Gcl
set_option autoImplicit false
open Real Spec

/-- Component by component product. -/
theorem combinedMassW_eq (ps ws : List P4) (h : ws.length = ps.length) :
    combinedMassW ps ws = .ok (combinedMass
      (List.zipWith (fun w p : P4 => ⟨w.x * p.x, w.y * p.y, w.z * p.z, w.e * p.e⟩) ws ps)) := by
  simp [combinedMassW, bcast2, h]

theorem combinedMassW_one (ps : List P4) (w : P4) :
    combinedMassW ps [w] = .ok (combinedMass
      (ps.map (fun p : P4 => ⟨w.x * p.x, w.y * p.y, w.z * p.z, w.e * p.e⟩))) := by
  unfold combinedMassW bcast2
  by_cases h : [w].length = ps.length
  · match ps, h with
    | [p], _ => simp
  · simp only [h, if_false]

/-- **C108** One weight per particle, given as a column of shape `(n, 1)`: every particle is scaled by its weight.
One weight per particle and component, shape `(n, 4)`: every component is scaled by its own weight.  No weights,
or all weights one: the mass itself. -/
theorem C108_per_particle (ps : List P4) (ws : List ℝ) (ts : List P4) :
    combinedMassArg ps .absent = .ok (combinedMass ps) ∧
    (ws.length = ps.length → combinedMassArg ps (.column ws) =
      .ok (combinedMass (List.zipWith (fun (w : ℝ) (p : P4) => ⟨w * p.x, w * p.y, w * p.z, w * p.e⟩) ws ps))) ∧
    (ts.length = ps.length → combinedMassArg ps (.table ts) =
      .ok (combinedMass (List.zipWith (fun w p : P4 => ⟨w.x * p.x, w.y * p.y, w.z * p.z, w.e * p.e⟩) ts ps))) := by
  refine ⟨rfl, fun h => ?_, fun h => ?_⟩
  · simp only [combinedMassArg, WeightArg.stretched]
    rw [combinedMassW_eq _ _ (by simpa using h), List.zipWith_map_left]
  · simp only [combinedMassArg, WeightArg.stretched]
    exact combinedMassW_eq _ _ h

/-- **C108** A common weight: a 0-d array, a 1-D array with one element, or a column with one row scales all momenta
alike, and the mass by the magnitude of the weight.  A row of four numbers, 1-D or 2-D, scales the four
components of all particles. -/
theorem C108_common (ps : List P4) (w a b c d : ℝ) :
    combinedMassArg ps (.scalar w) = .ok (|w| * combinedMass ps) ∧
    combinedMassArg ps (.vec [w]) = .ok (|w| * combinedMass ps) ∧
    combinedMassArg ps (.column [w]) = .ok (|w| * combinedMass ps) ∧
    combinedMassArg ps (.vec [a, b, c, d]) =
      .ok (combinedMass (ps.map (fun p => ⟨a * p.x, b * p.y, c * p.z, d * p.e⟩))) ∧
    combinedMassArg ps (.table [⟨a, b, c, d⟩]) =
      .ok (combinedMass (ps.map (fun p => ⟨a * p.x, b * p.y, c * p.z, d * p.e⟩))) := by
  have hsum : ∀ (f : P4 → ℝ), (ps.map (fun p => w * f p)).sum = w * (ps.map f).sum := by
    intro f; rw [List.sum_map_mul_left]
  have key : combinedMass (ps.map (fun p : P4 => ⟨w * p.x, w * p.y, w * p.z, w * p.e⟩)) = |w| * combinedMass ps := by
    have ht : total (ps.map (fun p : P4 => ⟨w * p.x, w * p.y, w * p.z, w * p.e⟩)) =
        ⟨w * (total ps).x, w * (total ps).y, w * (total ps).z, w * (total ps).e⟩ := by
      simp only [total, List.map_map, Function.comp_def, hsum]
    unfold combinedMass
    rw [ht]
    generalize total ps = t
    simp only
    have hm : (w * t.x) ^ 2 * (-1) + (w * t.y) ^ 2 * (-1) + (w * t.z) ^ 2 * (-1) + (w * t.e) ^ 2 * 1 =
        w ^ 2 * (t.x ^ 2 * (-1) + t.y ^ 2 * (-1) + t.z ^ 2 * (-1) + t.e ^ 2 * 1) := by ring
    rw [hm]
    generalize t.x ^ 2 * (-1) + t.y ^ 2 * (-1) + t.z ^ 2 * (-1) + t.e ^ 2 * 1 = m
    by_cases h0 : w = 0
    · subst h0; simp
    · have hw : 0 < w ^ 2 := by positivity
      by_cases hm : m < 0
      · rw [if_pos (by nlinarith), if_pos hm, mul_zero]
      · rw [if_neg (by nlinarith), if_neg hm, sqrt_mul hw.le, sqrt_sq_eq_abs]
  refine ⟨?_, ?_, ?_, ?_, ?_⟩
  · simp only [combinedMassArg, WeightArg.stretched]; rw [combinedMassW_one, key]
  · simp only [combinedMassArg, WeightArg.stretched]; rw [combinedMassW_one, key]
  · simp only [combinedMassArg, WeightArg.stretched, List.map_cons, List.map_nil]; rw [combinedMassW_one, key]
  · simp only [combinedMassArg, WeightArg.stretched]; rw [combinedMassW_one]
  · simp only [combinedMassArg, WeightArg.stretched]; rw [combinedMassW_one]

/-- **C108** Everything else is a `ValueError`, if there are at least two particles: what is not an array, a 1-D
array with neither one nor four elements, two columns or three, a number of rows that is neither one nor the number
of particles. -/
theorem C108_errors (ps : List P4) (hn : ps.length ≠ 1) (ws : List ℝ) (ts : List P4) (n k : Nat) :
    combinedMassArg ps .notArray = .error .valueError ∧
    (ws.length ≠ 1 → ws.length ≠ 4 → combinedMassArg ps (.vec ws) = .error .valueError) ∧
    (ws.length ≠ 1 → ws.length ≠ ps.length → combinedMassArg ps (.column ws) = .error .valueError) ∧
    (ts.length ≠ 1 → ts.length ≠ ps.length → combinedMassArg ps (.table ts) = .error .valueError) ∧
    combinedMassArg ps (.other n k) = .error .valueError := by
  refine ⟨rfl, ?_, ?_, ?_, rfl⟩
  · intro h1 h4
    match ws, h1, h4 with
    | [], _, _ => rfl
    | [_], h, _ => exact absurd rfl h
    | [_, _], _, _ => rfl
    | [_, _, _], _, _ => rfl
    | [_, _, _, _], _, h => exact absurd rfl h
    | _ :: _ :: _ :: _ :: _ :: _, _, _ => rfl
  · intro h1 h2
    simp only [combinedMassArg, WeightArg.stretched]
    exact (C67_weights ps _).2 (by simpa using h2) (by simpa using h1) hn
  · intro h1 h2
    simp only [combinedMassArg, WeightArg.stretched]
    exact (C67_weights ps _).2 h2 h1 hn

/-- **C108** What the documentation ("weights for each particle", typed as a vector) suggests, and is false: a vector
with one weight per particle weights the particles.  Two or three particles, or more than four: `ValueError`
(`C108_errors`).  Four particles: it weights the four components instead; here only the last particle has weight,
which has no mass, and the answer is 4. -/
theorem C108_false :
    ¬ ∀ (ps : List P4) (ws : List ℝ), ps.length = 4 → ws.length = 4 → combinedMassArg ps (.vec ws) =
      .ok (combinedMass (List.zipWith (fun (w : ℝ) (p : P4) => ⟨w * p.x, w * p.y, w * p.z, w * p.e⟩) ws ps)) := by
  intro h
  have h' := h [⟨0, 1, 0, 1⟩, ⟨0, 1, 0, 1⟩, ⟨0, 1, 0, 1⟩, ⟨0, 1, 0, 1⟩] [0, 0, 0, 1] rfl rfl
  rw [(C108_common _ 0 0 0 0 1).2.2.2.1] at h'
  have h16 : sqrt 16 = 4 := by rw [show (16 : ℝ) = 4 ^ 2 by norm_num, sqrt_sq (by norm_num)]
  have e1 : combinedMass (([⟨0, 1, 0, 1⟩, ⟨0, 1, 0, 1⟩, ⟨0, 1, 0, 1⟩, ⟨0, 1, 0, 1⟩] : List P4).map
      (fun p => ⟨0 * p.x, 0 * p.y, 0 * p.z, 1 * p.e⟩)) = 4 := by
    simp only [combinedMass, total, List.map_cons, List.map_nil, List.sum_cons, List.sum_nil]
    norm_num
    exact h16
  have e2 : combinedMass (List.zipWith (fun (w : ℝ) (p : P4) => (⟨w * p.x, w * p.y, w * p.z, w * p.e⟩ : P4))
      [0, 0, 0, 1] [⟨0, 1, 0, 1⟩, ⟨0, 1, 0, 1⟩, ⟨0, 1, 0, 1⟩, ⟨0, 1, 0, 1⟩]) = 0 := by
    simp only [combinedMass, total, List.zipWith_cons_cons, List.zipWith_nil_left, List.map_cons, List.map_nil,
      List.sum_cons, List.sum_nil]
    norm_num
  rw [e1, e2] at h'
  simp at h'

-- non-vacuity: three particles and a vector of three weights; two particles and a column of two
example : combinedMassArg [⟨0, 1, 0, 1⟩, ⟨0, 1, 0, 1⟩, ⟨0, 1, 0, 1⟩] (.vec [1, 2, 3]) = .error .valueError :=
  (C108_errors _ (by simp) [1, 2, 3] [] 0 0).2.1 (by simp) (by simp)
example : combinedMassArg [⟨1, 0, 0, 1⟩, ⟨-1, 0, 0, 1⟩] (.column [1, 0]) =
    .ok (combinedMass [⟨1, 0, 0, 1⟩, ⟨0, 0, 0, 0⟩]) := by
  rw [(C108_per_particle _ [1, 0] []).2.1 rfl]
  norm_num

end Gcl
