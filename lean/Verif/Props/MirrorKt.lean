import Verif.Props.Mirror
import Verif.Props.GenKtFrames
import Verif.Props.EventShape
/-! # C162: jets and event shapes in a mirror -/
namespace Gcl
set_option autoImplicit false
open Spec Real

/-! ## Jets -/

theorem etaWithin_neg (a : Fl) (c : ℝ) : etaWithin (flNeg a) c = etaWithin a c := by
  cases a <;> simp [etaWithin, flNeg]

theorem flip_flip (across : Bool) (p : P4) : Spec.flip across (Spec.flip across p) = p := by
  cases across <;> simp [Spec.flip, flipZ_flipZ, flipY_flipY]

theorem jetRapidity_flipZ {p : P4} (h : Visible p) : jetRapidity (flipZ p) = -jetRapidity p := by
  have := abs_lt.1 (visible_speed h)
  unfold jetRapidity
  simp only [flipZ, ← sub_eq_add_neg, sub_neg_eq_add]
  rw [show (p.e - p.z) / (p.e + p.z) = ((p.e + p.z) / (p.e - p.z))⁻¹ by rw [inv_div], log_inv]; ring

theorem flip_frame {rule : FjAlgo → KtRule} (hrule : IsKtRule rule) (across : Bool) : KtFrame rule (Spec.flip across) := by
  have hpt : ∀ p, (Spec.flip across p).pt = p.pt := by
    intro p; cases across
    · exact flipY_pt p
    · exact flipZ_pt p
  have hphys : ∀ p, Physical p → Physical (Spec.flip across p) := by
    intro p ⟨h1, h2⟩
    cases across <;> exact ⟨h1, by simpa [Spec.flip, flipZ, flipY] using h2⟩
  have vis : ∀ {p : P4}, Visible p → Visible (Spec.flip across p) := fun {p} hp => ⟨hphys p hp.1, by rw [hpt]; exact hp.2⟩
  refine ⟨?_, ?_, hpt, hphys, ?_⟩
  · intro p q
    cases across <;> simp [Spec.flip, flipZ, flipY, padd] <;> ring
  · cases across <;> simp [Spec.flip, flipZ, flipY]
  · intro algo p q hp hq
    obtain ⟨a, a1, a2, k, hk⟩ := exists_angle hp hq
    cases across with
    | true =>
      have e1 : (Spec.flip true p).xyPol = p.xyPol := rfl
      have e2 : (Spec.flip true q).xyPol = q.xyPol := rfl
      rw [hrule.dist algo p q a hp hq a1 a2 ⟨k, hk⟩, hrule.dist algo _ _ a (vis hp) (vis hq) a1 a2 (by rw [e1, e2]; exact ⟨k, hk⟩)]
      simp only [Spec.flip, if_true]
      rw [jetRapidity_flipZ hp, jetRapidity_flipZ hq]
      congr 1; ring
    | false =>
      have e : ∀ p : P4, AngleEq (Spec.flip false p).xyPol.arg (-p.xyPol.arg) := by
        intro p
        show AngleEq (flipY p).xyPol.arg _
        rw [flipY_xyPol, Complex.arg_conj]
        split_ifs with h
        · exact ⟨1, by rw [h]; push_cast; ring⟩
        · exact ⟨0, by simp⟩
      obtain ⟨k1, h1⟩ := e p
      obtain ⟨k2, h2⟩ := e q
      rw [hrule.dist algo p q a hp hq a1 a2 ⟨k, hk⟩]
      by_cases ha : a = π
      · rw [hrule.dist algo _ _ a (vis hp) (vis hq) a1 a2 ⟨k1 - k2 - k - 1, by
          push_cast; rw [h1, h2, hk, ha]; ring⟩]
        rfl
      · rw [hrule.dist algo _ _ (-a) (vis hp) (vis hq) (by have := lt_of_le_of_ne a2 ha; linarith) (by linarith)
          ⟨k1 - k2 - k, by push_cast; rw [h1, h2, hk]; ring⟩]
        rw [neg_sq]; rfl

/-- **C162** `fastjet_clusters` can return the same masks, for every exponent, radius and all cuts, if no particles balance in
transverse momentum. -/
theorem C162_fastjet {rule : FjAlgo → KtRule} (hrule : IsKtRule rule) {argsort : List ℝ → List Nat} (ha : IsArgsortR argsort)
    (across : Bool) (pmu : List P4) (hu : Unbalanced pmu) (radius pVal : ℝ) (ptCut etaCut : Option ℝ) (topK : TopK) (hR : 0 < radius)
    (masks : List (List Bool)) :
    KtResult rule argsort (pmu.map (Spec.flip across)) radius pVal ptCut etaCut topK masks ↔
      KtResult rule argsort pmu radius pVal ptCut etaCut topK masks := by
  have heta : ∀ (p : P4) (c : ℝ), etaWithin (Spec.flip across p).eta c = etaWithin p.eta c := by
    intro p c
    cases across with
    | true => rw [show Spec.flip true p = flipZ p from rfl, flipZ_eta, etaWithin_neg]
    | false => rw [show Spec.flip false p = flipY p from rfl, flipY_eta]
  constructor
  · exact kt_frame hrule (flip_frame hrule across) ha pmu hu radius pVal ptCut etaCut (fun _ => heta) topK hR masks
  · intro h
    refine kt_frame hrule (flip_frame hrule across) ha _ (unbalanced_frame (flip_frame hrule across) hu) radius pVal ptCut etaCut
      (fun _ => heta) topK hR masks ?_
    have : (pmu.map (Spec.flip across)).map (Spec.flip across) = pmu := by
      rw [List.map_map]
      conv_rhs => rw [← List.map_id pmu]
      exact List.map_congr_left (fun p _ => flip_flip across p)
    rwa [this]

/-! ## Event shapes -/

theorem threeNorm_congr {x y z x' y' z' : ℝ} (hx : x ^ 2 = x' ^ 2) (hy : y ^ 2 = y' ^ 2) (hz : z ^ 2 = z' ^ 2) :
    threeNorm x y z = threeNorm x' y' z' := by
  have h0 : ∀ {a b : ℝ}, a ^ 2 = b ^ 2 → (a ≠ 0 ↔ b ≠ 0) := by
    intro a b h
    rw [not_iff_not]
    constructor
    · rintro rfl; exact pow_eq_zero_iff (two_ne_zero) |>.1 (by rw [← h]; ring)
    · rintro rfl; exact pow_eq_zero_iff (two_ne_zero) |>.1 (by rw [h]; ring)
  by_cases h : x ≠ 0 ∨ y ≠ 0 ∨ z ≠ 0
  · have h' : x' ≠ 0 ∨ y' ≠ 0 ∨ z' ≠ 0 := by rwa [← h0 hx, ← h0 hy, ← h0 hz]
    rw [threeNorm_ok h, threeNorm_ok h', hx, hy, hz]
  · have h' : ¬ (x' ≠ 0 ∨ y' ≠ 0 ∨ z' ≠ 0) := by rwa [← h0 hx, ← h0 hy, ← h0 hz]
    simp only [not_or, not_not] at h h'
    obtain ⟨rfl, rfl, rfl⟩ := h
    obtain ⟨rfl, rfl, rfl⟩ := h'
    rfl

theorem thrustLoop_flip (across : Bool) (φ θ : ℝ) (ps : List P4) : ∀ acc acc' : ThrustAcc,
    acc'.absDot = acc.absDot → acc'.norm = acc.norm →
    acc'.gradPhi = (if across then acc.gradPhi else -acc.gradPhi) →
    acc'.gradTheta = (if across then -acc.gradTheta else acc.gradTheta) →
    thrustLoop (flipAxis across φ θ).1 (flipAxis across φ θ).2 acc' (ps.map (Spec.flip across)) =
      (thrustLoop φ θ acc ps).map (fun a => ⟨a.absDot, a.norm, if across then a.gradPhi else -a.gradPhi,
        if across then -a.gradTheta else a.gradTheta⟩) := by
  induction ps with
  | nil =>
    rintro ⟨a, b, c, d⟩ ⟨a', b', c', d'⟩ h1 h2 h3 h4
    simp only at h1 h2 h3 h4
    subst h1 h2 h3 h4
    rfl
  | cons p ps ih =>
    intro acc acc' h1 h2 h3 h4
    simp only [List.map_cons, thrustLoop, thrustStep]
    have hn : threeNorm (Spec.flip across p).x (Spec.flip across p).y (Spec.flip across p).z = threeNorm p.x p.y p.z := by
      apply threeNorm_congr <;> cases across <;> simp [Spec.flip, flipZ, flipY]
    have hd : sin (flipAxis across φ θ).2 * cos (flipAxis across φ θ).1 * (Spec.flip across p).x +
        sin (flipAxis across φ θ).2 * sin (flipAxis across φ θ).1 * (Spec.flip across p).y +
        cos (flipAxis across φ θ).2 * (Spec.flip across p).z = sin θ * cos φ * p.x + sin θ * sin φ * p.y + cos θ * p.z := by
      cases across <;> simp [Spec.flip, flipAxis, flipZ, flipY]
    rw [hn, hd]
    cases threeNorm p.x p.y p.z with
    | error e => rfl
    | ok nrm =>
      simp only
      refine ih _ _ ?_ ?_ ?_ ?_
      · simp only [h1]
      · simp only [h2]
      · simp only [h3]
        cases across
        · simp [Spec.flip, flipAxis, flipY]; ring
        · simp [Spec.flip, flipAxis, flipZ]
      · simp only [h4]
        cases across
        · simp [Spec.flip, flipAxis, flipY]
        · simp [Spec.flip, flipAxis, flipZ]; ring

theorem thrustWithGrad_flip (across : Bool) (φ θ : ℝ) (ps : List P4) :
    thrustWithGrad (flipAxis across φ θ).1 (flipAxis across φ θ).2 (ps.map (Spec.flip across)) =
      (thrustWithGrad φ θ ps).map (flipGrad across) := by
  unfold thrustWithGrad
  rw [thrustLoop_flip across φ θ ps ⟨0, 0, 0, 0⟩ ⟨0, 0, 0, 0⟩ rfl rfl (by simp) (by simp)]
  cases thrustLoop φ θ ⟨0, 0, 0, 0⟩ ps with
  | error e => rfl
  | ok a =>
    simp only [Except.map]
    cases pyDiv a.absDot a.norm with
    | error e => rfl
    | ok v => cases across <;> simp [flipGrad, neg_div]

theorem sphLoop_flip (across : Bool) (φ θ : ℝ) (ps : List P4) : ∀ acc acc' : SphAcc,
    acc'.cross = acc.cross → acc'.norm = acc.norm →
    (sphLoop (flipAxis across φ θ).1 (flipAxis across φ θ).2 acc' (ps.map (Spec.flip across))).map (fun a => (a.cross, a.norm)) =
      (sphLoop φ θ acc ps).map (fun a => (a.cross, a.norm)) := by
  induction ps with
  | nil =>
    intro acc acc' h1 h2
    simp only [List.map_nil, sphLoop, Except.map, h1, h2]
  | cons p ps ih =>
    intro acc acc' h1 h2
    simp only [List.map_cons, sphLoop, sphStep]
    have hn : threeNorm (Spec.flip across p).x (Spec.flip across p).y (Spec.flip across p).z = threeNorm p.x p.y p.z := by
      apply threeNorm_congr <;> cases across <;> simp [Spec.flip, flipZ, flipY]
    have hx : threeNorm ((Spec.flip across p).y * cos (flipAxis across φ θ).2 -
          (Spec.flip across p).z * (sin (flipAxis across φ θ).2 * sin (flipAxis across φ θ).1))
        ((Spec.flip across p).z * (sin (flipAxis across φ θ).2 * cos (flipAxis across φ θ).1) -
          (Spec.flip across p).x * cos (flipAxis across φ θ).2)
        ((Spec.flip across p).x * (sin (flipAxis across φ θ).2 * sin (flipAxis across φ θ).1) -
          (Spec.flip across p).y * (sin (flipAxis across φ θ).2 * cos (flipAxis across φ θ).1)) =
        threeNorm (p.y * cos θ - p.z * (sin θ * sin φ)) (p.z * (sin θ * cos φ) - p.x * cos θ)
          (p.x * (sin θ * sin φ) - p.y * (sin θ * cos φ)) := by
      apply threeNorm_congr <;> cases across <;> simp [Spec.flip, flipAxis, flipZ, flipY] <;> ring
    rw [hn, hx]
    cases threeNorm p.x p.y p.z with
    | error e => rfl
    | ok nrm =>
      simp only
      cases threeNorm (p.y * cos θ - p.z * (sin θ * sin φ)) (p.z * (sin θ * cos φ) - p.x * cos θ)
          (p.x * (sin θ * sin φ) - p.y * (sin θ * cos φ)) with
      | error e => rfl
      | ok cn =>
        simp only
        cases pyDiv 1 cn with
        | error e => rfl
        | ok rc =>
          simp only
          exact ih _ _ (by simp only [h1]) (by simp only [h2])

theorem spherocityWithGrad_flip (across : Bool) (φ θ : ℝ) (ps : List P4) :
    (spherocityWithGrad (flipAxis across φ θ).1 (flipAxis across φ θ).2 (ps.map (Spec.flip across))).map Prod.fst =
      (spherocityWithGrad φ θ ps).map Prod.fst := by
  have h := sphLoop_flip across φ θ ps ⟨0, 0, 0, 0⟩ ⟨0, 0, 0, 0⟩ rfl rfl
  unfold spherocityWithGrad
  cases h1 : sphLoop (flipAxis across φ θ).1 (flipAxis across φ θ).2 ⟨0, 0, 0, 0⟩ (ps.map (Spec.flip across)) with
  | error e =>
    rw [h1] at h
    cases h2 : sphLoop φ θ ⟨0, 0, 0, 0⟩ ps with
    | error e' => rw [h2] at h; simp only [Except.map] at h ⊢; rw [Except.error.injEq] at h ⊢; exact h
    | ok b => rw [h2] at h; cases h
  | ok a =>
    rw [h1] at h
    cases h2 : sphLoop φ θ ⟨0, 0, 0, 0⟩ ps with
    | error e' => rw [h2] at h; cases h
    | ok b =>
      rw [h2] at h
      simp only [Except.map, Except.ok.injEq, Prod.mk.injEq] at h
      simp only [h.1, h.2]
      cases pyDiv 4 (π * b.norm) with
      | error e => rfl
      | ok r => simp only [Except.map]

theorem cInner_flip (across : Bool) (p : P4) (ni : ℝ) (qs : List P4) : ∀ out : ℝ,
    cInner (Spec.flip across p) ni out (qs.map (Spec.flip across)) = cInner p ni out qs := by
  induction qs with
  | nil => intro out; rfl
  | cons q qs ih =>
    intro out
    simp only [List.map_cons, cInner]
    have hn : threeNorm (Spec.flip across q).x (Spec.flip across q).y (Spec.flip across q).z = threeNorm q.x q.y q.z := by
      apply threeNorm_congr <;> cases across <;> simp [Spec.flip, flipZ, flipY]
    have hd : (Spec.flip across p).x * (Spec.flip across q).x + (Spec.flip across p).y * (Spec.flip across q).y +
        (Spec.flip across p).z * (Spec.flip across q).z = p.x * q.x + p.y * q.y + p.z * q.z := by
      cases across <;> simp [Spec.flip, flipZ, flipY]
    simp only [hn, hd, ih]

theorem cOuter_flip (across : Bool) (ps : List P4) : ∀ out nsum : ℝ,
    cOuter out nsum (ps.map (Spec.flip across)) = cOuter out nsum ps := by
  induction ps with
  | nil => intro out nsum; rfl
  | cons p ps ih =>
    intro out nsum
    have hn : threeNorm (Spec.flip across p).x (Spec.flip across p).y (Spec.flip across p).z = threeNorm p.x p.y p.z := by
      apply threeNorm_congr <;> cases across <;> simp [Spec.flip, flipZ, flipY]
    have hi : ∀ ni, cInner (Spec.flip across p) ni out (Spec.flip across p :: ps.map (Spec.flip across)) = cInner p ni out (p :: ps) := by
      intro ni
      have := cInner_flip across p ni (p :: ps) out
      rwa [List.map_cons] at this
    simp only [List.map_cons, cOuter, hn, hi, ih]

/-- **C162** The objective of `thrust` at the mirrored axis is the same, and its gradient is mirrored; the value of the objective of
`spherocity` is the same, and so is `c_parameter`, exceptions included. -/
theorem C162_shapes (across : Bool) (ps : List P4) :
    (∀ φ θ, thrustWithGrad (flipAxis across φ θ).1 (flipAxis across φ θ).2 (ps.map (Spec.flip across)) =
        (thrustWithGrad φ θ ps).map (flipGrad across)) ∧
    (∀ φ θ, (spherocityWithGrad (flipAxis across φ θ).1 (flipAxis across φ θ).2 (ps.map (Spec.flip across))).map Prod.fst =
        (spherocityWithGrad φ θ ps).map Prod.fst) ∧
    cParameter (ps.map (Spec.flip across)) = cParameter ps := by
  refine ⟨fun φ θ => thrustWithGrad_flip across φ θ ps, fun φ θ => spherocityWithGrad_flip across φ θ ps, ?_⟩
  unfold cParameter
  rw [cOuter_flip]

end Gcl
