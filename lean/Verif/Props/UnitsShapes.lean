import Verif.Props.Units
import Verif.Props.Optimise
/-! # C160: event shapes, assignments and selections in another unit -/
namespace Gcl
set_option autoImplicit false
open Spec Real

/-! ## Event shapes -/

theorem threeNorm_units {c : ℝ} (hc : 0 < c) (x y z : ℝ) :
    threeNorm (c * x) (c * y) (c * z) = (threeNorm x y z).map (c * ·) := by
  by_cases h : x ≠ 0 ∨ y ≠ 0 ∨ z ≠ 0
  · rw [threeNorm_ok h, threeNorm_ok (by simpa [hc.ne'] using h)]
    simp only [Except.map]
    rw [show (c * x) ^ 2 + (c * y) ^ 2 + (c * z) ^ 2 = c ^ 2 * (x ^ 2 + y ^ 2 + z ^ 2) by ring, sqrt_mul (by positivity),
      sqrt_sq hc.le]
  · simp only [not_or, not_not] at h
    obtain ⟨rfl, rfl, rfl⟩ := h
    simp only [mul_zero, threeNorm_zero, Except.map]

theorem emap_ok {α β : Type} (f : α → β) (a : α) : (Except.ok a : Py α).map f = .ok (f a) := rfl

theorem pyDiv_units {c : ℝ} (hc : 0 < c) (a b : ℝ) : pyDiv (c * a) (c * b) = pyDiv a b := by
  unfold pyDiv
  simp only [mul_eq_zero, hc.ne', false_or, mul_div_mul_left _ _ hc.ne']

theorem thrustLoop_units {c : ℝ} (hc : 0 < c) (φ θ : ℝ) (ps : List P4) : ∀ acc : ThrustAcc,
    thrustLoop φ θ ⟨c * acc.absDot, c * acc.norm, c * acc.gradPhi, c * acc.gradTheta⟩ (ps.map (scale c)) =
      (thrustLoop φ θ acc ps).map (fun a => ⟨c * a.absDot, c * a.norm, c * a.gradPhi, c * a.gradTheta⟩) := by
  induction ps with
  | nil => intro acc; rfl
  | cons p ps ih =>
    intro acc
    simp only [List.map_cons, thrustLoop, thrustStep]
    have hn := threeNorm_units hc p.x p.y p.z
    have hd : sin θ * cos φ * (scale c p).x + sin θ * sin φ * (scale c p).y + cos θ * (scale c p).z =
        c * (sin θ * cos φ * p.x + sin θ * sin φ * p.y + cos θ * p.z) := by simp only [scale]; ring
    rw [show threeNorm (scale c p).x (scale c p).y (scale c p).z = (threeNorm p.x p.y p.z).map (c * ·) from hn, hd,
      copysign_units hc]
    cases threeNorm p.x p.y p.z with
    | error e => rfl
    | ok nrm =>
      simp only [emap_ok]
      rw [← ih]
      congr 2
      · rw [abs_mul, abs_of_pos hc]; ring
      · ring
      · simp only [scale]; ring
      · simp only [scale]; ring

theorem sphLoop_units {c : ℝ} (hc : 0 < c) (φ θ : ℝ) (ps : List P4) : ∀ acc : SphAcc,
    sphLoop φ θ ⟨c * acc.cross, c * acc.norm, c * acc.gradTheta, c * acc.gradPhi⟩ (ps.map (scale c)) =
      (sphLoop φ θ acc ps).map (fun a => ⟨c * a.cross, c * a.norm, c * a.gradTheta, c * a.gradPhi⟩) := by
  induction ps with
  | nil => intro acc; rfl
  | cons p ps ih =>
    intro acc
    simp only [List.map_cons, sphLoop, sphStep]
    have hn := threeNorm_units hc p.x p.y p.z
    have hx := threeNorm_units hc (p.y * cos θ - p.z * (sin θ * sin φ)) (p.z * (sin θ * cos φ) - p.x * cos θ)
      (p.x * (sin θ * sin φ) - p.y * (sin θ * cos φ))
    rw [show threeNorm (scale c p).x (scale c p).y (scale c p).z = (threeNorm p.x p.y p.z).map (c * ·) from hn]
    have hx' : threeNorm ((scale c p).y * cos θ - (scale c p).z * (sin θ * sin φ))
        ((scale c p).z * (sin θ * cos φ) - (scale c p).x * cos θ)
        ((scale c p).x * (sin θ * sin φ) - (scale c p).y * (sin θ * cos φ)) =
        (threeNorm (p.y * cos θ - p.z * (sin θ * sin φ)) (p.z * (sin θ * cos φ) - p.x * cos θ)
          (p.x * (sin θ * sin φ) - p.y * (sin θ * cos φ))).map (c * ·) := by
      rw [← hx]; congr 1 <;> simp only [scale] <;> ring
    rw [hx']
    cases threeNorm p.x p.y p.z with
    | error e => rfl
    | ok nrm =>
      simp only [emap_ok]
      cases threeNorm (p.y * cos θ - p.z * (sin θ * sin φ)) (p.z * (sin θ * cos φ) - p.x * cos θ)
          (p.x * (sin θ * sin φ) - p.y * (sin θ * cos φ)) with
      | error e => rfl
      | ok cn =>
        simp only [emap_ok]
        by_cases h0 : cn = 0
        · subst h0; simp [pyDiv, Except.map]
        · have h1 : c * cn ≠ 0 := mul_ne_zero hc.ne' h0
          simp only [pyDiv, if_neg h0, if_neg h1]
          rw [← ih]
          have hi : 1 / (c * cn) * (c * c) = c * (1 / cn) := by field_simp
          congr 2
          · ring
          · ring
          · simp only [scale]; linear_combination (-2 * (2 * cos θ * cos θ - 1) * (p.x * p.y * cos φ + p.y * p.z * sin φ)
              - 0.5 * (2 * cos θ * sin θ) * ((p.x * p.x + p.y * p.y) + (p.x * p.x - p.y * p.y) * (2 * cos φ * cos φ - 1) - 2 * p.z * p.z
              + 2 * p.x * p.y * (2 * cos φ * sin φ))) * hi
          · simp only [scale]; linear_combination (0.5 * (2 * cos θ * cos θ - 1 - 1) * (2 * p.x * p.y * (2 * cos φ * cos φ - 1)
              - (p.x * p.x - p.y * p.y) * (2 * cos φ * sin φ)) - 2 * cos θ * sin θ * (p.y * p.z * cos φ - p.x * p.z * sin φ)) * hi

theorem cInner_units {c : ℝ} (hc : 0 < c) (p : P4) (ni : ℝ) (qs : List P4) : ∀ out : ℝ,
    cInner (scale c p) (c * ni) (c ^ 2 * out) (qs.map (scale c)) = (cInner p ni out qs).map (c ^ 2 * ·) := by
  induction qs with
  | nil => intro out; rfl
  | cons q qs ih =>
    intro out
    simp only [List.map_cons, cInner]
    rw [show threeNorm (scale c q).x (scale c q).y (scale c q).z = (threeNorm q.x q.y q.z).map (c * ·) from
      threeNorm_units hc q.x q.y q.z]
    cases threeNorm q.x q.y q.z with
    | error e => rfl
    | ok nj =>
      simp only [emap_ok]
      have hd : (scale c p).x * (scale c q).x + (scale c p).y * (scale c q).y + (scale c p).z * (scale c q).z =
          c ^ 2 * (p.x * q.x + p.y * q.y + p.z * q.z) := by simp only [scale]; ring
      rw [hd]
      generalize p.x * q.x + p.y * q.y + p.z * q.z = d
      by_cases h0 : ni * nj = 0
      · have : c * ni * (c * nj) = 0 := by rw [show c * ni * (c * nj) = c ^ 2 * (ni * nj) by ring, h0, mul_zero]
        simp [pyDiv, h0, this, Except.map]
      · have : c * ni * (c * nj) ≠ 0 := by
          rw [show c * ni * (c * nj) = c ^ 2 * (ni * nj) by ring]
          exact mul_ne_zero (by positivity) h0
        simp only [pyDiv, if_neg h0, if_neg this]
        rw [← ih]
        congr 1
        have hni : ni ≠ 0 := left_ne_zero_of_mul h0
        have hnj : nj ≠ 0 := right_ne_zero_of_mul h0
        field_simp

theorem cOuter_units {c : ℝ} (hc : 0 < c) (ps : List P4) : ∀ out nsum : ℝ,
    cOuter (c ^ 2 * out) (c * nsum) (ps.map (scale c)) = (cOuter out nsum ps).map (fun r => (c ^ 2 * r.1, c * r.2)) := by
  induction ps with
  | nil => intro out nsum; rfl
  | cons p ps ih =>
    intro out nsum
    simp only [List.map_cons, cOuter]
    rw [show threeNorm (scale c p).x (scale c p).y (scale c p).z = (threeNorm p.x p.y p.z).map (c * ·) from
      threeNorm_units hc p.x p.y p.z]
    cases threeNorm p.x p.y p.z with
    | error e => rfl
    | ok ni =>
      simp only [emap_ok]
      have h := cInner_units hc p ni (p :: ps) out
      rw [List.map_cons] at h
      rw [h]
      cases cInner p ni out (p :: ps) with
      | error e => rfl
      | ok out' =>
        simp only [emap_ok]
        rw [← mul_add, ih]

theorem thrustWithGrad_units {c : ℝ} (hc : 0 < c) (φ θ : ℝ) (ps : List P4) :
    thrustWithGrad φ θ (ps.map (scale c)) = thrustWithGrad φ θ ps := by
  have h := thrustLoop_units hc φ θ ps ⟨0, 0, 0, 0⟩
  simp only [mul_zero] at h
  unfold thrustWithGrad
  rw [h]
  cases thrustLoop φ θ ⟨0, 0, 0, 0⟩ ps with
  | error e => rfl
  | ok a =>
    simp only [Except.map, pyDiv_units hc, mul_div_mul_left _ _ hc.ne']

theorem spherocityWithGrad_units {c : ℝ} (hc : 0 < c) (φ θ : ℝ) (ps : List P4) :
    spherocityWithGrad φ θ (ps.map (scale c)) = spherocityWithGrad φ θ ps := by
  have h := sphLoop_units hc φ θ ps ⟨0, 0, 0, 0⟩
  simp only [mul_zero] at h
  unfold spherocityWithGrad
  rw [h]
  cases sphLoop φ θ ⟨0, 0, 0, 0⟩ ps with
  | error e => rfl
  | ok a =>
    simp only [Except.map]
    by_cases h0 : π * a.norm = 0
    · have : π * (c * a.norm) = 0 := by rw [show π * (c * a.norm) = c * (π * a.norm) by ring, h0, mul_zero]
      simp [pyDiv, h0, this]
    · have : π * (c * a.norm) ≠ 0 := by
        rw [show π * (c * a.norm) = c * (π * a.norm) by ring]; exact mul_ne_zero hc.ne' h0
      simp only [pyDiv, if_neg h0, if_neg this]
      have hn : a.norm ≠ 0 := right_ne_zero_of_mul h0
      have hp := pi_ne_zero
      refine congrArg Except.ok (Prod.ext ?_ (Prod.ext ?_ ?_)) <;> simp only <;> field_simp

/-- **C160** Event shapes have no unit: `thrust` and `spherocity` (for every optimiser, guess and choice of return value),
their objectives with gradients, and `c_parameter` are the same, exceptions included. -/
theorem C160_shapes {c : ℝ} (hc : 0 < c) (ps : List P4) :
    (∀ φ θ, thrustWithGrad φ θ (ps.map (scale c)) = thrustWithGrad φ θ ps ∧
      spherocityWithGrad φ θ (ps.map (scale c)) = spherocityWithGrad φ θ ps) ∧
    (∀ minimize guess returnAxis, thrust minimize guess returnAxis (ps.map (scale c)) = thrust minimize guess returnAxis ps ∧
      spherocity minimize guess returnAxis (ps.map (scale c)) = spherocity minimize guess returnAxis ps) ∧
    cParameter (ps.map (scale c)) = cParameter ps := by
  refine ⟨fun φ θ => ⟨thrustWithGrad_units hc φ θ ps, spherocityWithGrad_units hc φ θ ps⟩, ?_, ?_⟩
  · intro minimize guess ra
    simp only [thrust, spherocity, thrustWithGrad_units hc, spherocityWithGrad_units hc, and_self]
  · have h := cOuter_units hc ps 0 0
    simp only [mul_zero] at h
    unfold cParameter
    rw [h]
    cases cOuter 0 0 ps with
    | error e => rfl
    | ok r =>
      obtain ⟨out, n⟩ := r
      simp only [Except.map]
      rw [show 1.5 * (c ^ 2 * out) = c ^ 2 * (1.5 * out) by ring, show c * n * (c * n) = c ^ 2 * (n * n) by ring,
        pyDiv_units (by positivity)]

/-! ## Selections -/

theorem within_units {c : ℝ} (hc : 0 < c) (radius : ℝ) (ctr : Fl × Fl) (p : P4) :
    withinCentre radius ctr (scale c p) = withinCentre radius ctr p := by
  unfold withinCentre
  rw [eta_scale hc]
  congr 2
  unfold angleFrom
  cases ctr.2 <;> simp only
  rw [xyPol_scale, mul_assoc, Complex.arg_real_mul _ hc]

theorem isWithin_units {c : ℝ} (hc : 0 < c) (tol : ℝ) (ps : List P4) (radius : ℝ) (centre : Option (Fl × Fl)) :
    isWithin (c * tol) (ps.map (scale c)) radius centre = isWithin tol ps radius centre := by
  unfold isWithin
  rw [(C160_sums hc tol ps true).2.2.2.2.1, List.map_map]
  exact List.map_congr_left (fun p _ => within_units hc radius _ p)

/-- **C160** `centroid_prune` keeps the same particles. -/
theorem C160_prune {c : ℝ} (hc : 0 < c) (tol : ℝ) (pmu : List P4) (radius : ℝ) (mask : Option (List Bool))
    (centre : Option (Fl × Fl)) :
    centroidPrune (c * tol) (pmu.map (scale c)) radius mask centre = centroidPrune tol pmu radius mask centre := by
  unfold centroidPrune
  cases mask with
  | none => simp only [isWithin_units hc]
  | some m =>
    simp only
    rw [apply_map]
    cases (Key.mask m).apply pmu with
    | error e => rfl
    | ok sel => simp only [Except.map, isWithin_units hc]

theorem ptWeight_units {c : ℝ} (hc : 0 < c) (e pt : ℝ) (hpt : 0 ≤ pt) (x : Fl) :
    (ptWeight (c * pt) e).mul x = ((ptWeight pt e).mul x).mulR (c ^ e) := by
  have hce : 0 < c ^ e := rpow_pos_of_pos hc e
  have h0 : c * pt = 0 ↔ pt = 0 := by simp [hc.ne']
  have hw : ptWeight (c * pt) e = (ptWeight pt e).mulR (c ^ e) := by
    unfold ptWeight
    simp only [h0]
    split
    · simp [Fl.mulR, hce.ne', hce]
    · simp only [Fl.mulR]; rw [mul_rpow hc.le hpt, mul_comm]
  rw [hw]
  generalize ptWeight pt e = w
  have hm0 : ∀ y : ℝ, y * c ^ e = 0 ↔ y = 0 := fun y => by simp [hce.ne']
  have hmp : ∀ y : ℝ, 0 < y * c ^ e ↔ 0 < y := fun y => mul_pos_iff_of_pos_right hce
  have hs : ∀ y : ℝ, y = 0 ∨ (0 < y ∧ y ≠ 0) ∨ (¬ 0 < y ∧ y ≠ 0) := by
    intro y
    rcases lt_trichotomy 0 y with h | h | h
    · exact Or.inr (Or.inl ⟨h, h.ne'⟩)
    · exact Or.inl h.symm
    · exact Or.inr (Or.inr ⟨not_lt.2 h.le, h.ne⟩)
  cases w with
  | fin y =>
    cases x with
    | fin z => simp only [Fl.mulR, Fl.mul]; congr 1; ring
    | nan => rfl
    | _ => rcases hs y with h | h | h <;> simp [Fl.mulR, Fl.mul, h, hce, hce.ne']
  | nan => rfl
  | _ =>
    cases x with
    | fin y => rcases hs y with h | h | h <;> simp [Fl.mulR, Fl.mul, h, hce, hce.ne']
    | _ => simp [Fl.mulR, Fl.mul, hce, hce.ne']

theorem mulR_lt {k : ℝ} (hk : 0 < k) (a b : Fl) : a.mulR k < b.mulR k ↔ a < b := by
  show flRank _ < flRank _ ↔ flRank _ < flRank _
  cases a <;> cases b <;> simp [Fl.mulR, hk.ne', hk, flRank, -EReal.coe_mul]
  exact iff_of_true (WithBot.coe_lt_coe.2 (EReal.coe_lt_top _)) (WithBot.coe_lt_coe.2 (EReal.coe_lt_top _))

theorem weightedDist_units {c : ℝ} (hc : 0 < c) (e : ℝ) (p h : P4) :
    weightedDist e (scale c p) (scale c h) = (weightedDist e p h).mulR (c ^ e) := by
  unfold weightedDist
  rw [pt_scale hc, cell_scale hc hc, ptWeight_units hc e _ (pt_nonneg p)]

/-- **C160** `partition_descendants` gives the same result. -/
theorem C160_partition {c : ℝ} (hc : 0 < c) (ptExp : ℝ) (pmu : List P4) (final : List Bool) (status : List Int)
    (es : List (Int × Int)) (hier : Dict Mask) :
    partitionDescendants (weightedDist ptExp) (pmu.map (scale c)) final status es hier =
      partitionDescendants (weightedDist ptExp) pmu final status es hier := by
  apply partition_congr
  intro a _ b _ d _
  rw [weightedDist_units hc, weightedDist_units hc]
  exact mulR_lt (rpow_pos_of_pos hc _) _ _

theorem pruneLoop_units {c : ℝ} (hc : 0 < c) (tol radius : ℝ) (pmu : List P4) (hard : List Bool)
    (leaves : Dict (List String)) : ∀ (ks : List String) (hier : Mask),
    pruneLoop (c * tol) (pmu.map (scale c)) radius hard leaves ks hier = pruneLoop tol pmu radius hard leaves ks hier
  | [], _ => rfl
  | k :: ks, hier => by
    unfold pruneLoop
    cases Dict.get? leaves k with
    | none => rfl
    | some path =>
      simp only
      cases hier.leafAt path with
      | none => rfl
      | some leaf =>
        simp only [C160_prune hc]
        have hl : leafCentre (c * tol) (pmu.map (scale c)) hard leaf = leafCentre tol pmu hard leaf := by
          unfold leafCentre
          cases bcast2 (· && ·) hard leaf with
          | error e => rfl
          | ok m =>
            simp only
            rw [apply_map]
            cases hm : (Key.mask m).apply pmu with
            | error e => rfl
            | ok sel =>
              simp only [Except.map]
              match sel with
              | [] => rfl
              | _ :: _ :: _ => rfl
              | [q] => simp only [List.map_cons, List.map_nil, eta_scale hc, phi_units hc]
        rw [hl]
        cases leafCentre tol pmu hard leaf with
        | error e => rfl
        | ok ctr =>
          simp only
          cases centroidPrune tol pmu radius (some leaf) (some ctr) with
          | error e => rfl
          | ok d => exact pruneLoop_units hc tol radius pmu hard leaves ks _

/-- **C160** `clusters` gives the same masks. -/
theorem C160_clusters {c : ℝ} (hc : 0 < c) (ptExp : ℝ) (setIter : List String → List String) (nm : Int → String)
    (tol radius : ℝ) (g : ClusterGraph) :
    clusters (weightedDist ptExp) setIter nm (c * tol) radius { g with pmu := g.pmu.map (scale c) } =
      clusters (weightedDist ptExp) setIter nm tol radius g := by
  unfold clusters
  simp only [C160_partition hc]
  cases hierarchy nm g.pdg g.status g.final g.edges none with
  | error e => rfl
  | ok hier0 =>
    simp only
    cases partitionDescendants (weightedDist ptExp) g.pmu g.final g.status g.edges hier0 with
    | error e => rfl
    | ok hier => simp only [clusterRest, pruneLoop_units hc]

end Gcl
