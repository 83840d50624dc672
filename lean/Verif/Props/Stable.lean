import Verif.Props.Noise
import Verif.Props.Prune
import Verif.Props.PartitionSafety
/-! # C168: off ties and boundaries, selections by angular distance do not mind a little noise -/
namespace Gcl
set_option autoImplicit false
open Spec Real Filter Topology

/-- The angular distance of two momenta off the beam, without angles. -/
noncomputable def ang (p q : P4) : ℝ :=
  √((arsinh (p.z / p.pt) - arsinh (q.z / q.pt)) ^ 2 + arccos ((p.x * q.x + p.y * q.y) / (p.pt * q.pt)) ^ 2)

theorem eta_arsinh {p : P4} (h : 0 < p.pt) : p.eta = .fin (arsinh (p.z / p.pt)) := by
  obtain ⟨y, h1, h2, -⟩ := (C89_eta p).1 h
  rw [h1, h2, mul_div_cancel_left₀ _ h.ne', arsinh_sinh]

theorem xyPol_ne {p : P4} (h : 0 < p.pt) : p.xyPol ≠ 0 := by
  intro h0
  rw [← norm_xyPol, h0, norm_zero] at h
  exact lt_irrefl _ h

theorem azimuth_arccos {p q : P4} (hp : 0 < p.pt) (hq : 0 < q.pt) {φ a : ℝ} (h1 : -π < a) (h2 : a ≤ π)
    (hφ : AngleEq φ q.xyPol.arg) (ha : AngleEq p.xyPol.arg (φ + a)) :
    arccos ((p.x * q.x + p.y * q.y) / (p.pt * q.pt)) = |a| := by
  obtain ⟨k, hk⟩ := ha
  obtain ⟨l, hl⟩ := hφ
  have hcos : cos a = (p.x * q.x + p.y * q.y) / (p.pt * q.pt) := by
    have e : a = p.xyPol.arg - q.xyPol.arg - ((k + l : ℤ) : ℝ) * (2 * π) := by rw [hk, hl]; push_cast; ring
    have hp0 := hp.ne'
    have hq0 := hq.ne'
    rw [e, Real.cos_sub_int_mul_two_pi, Real.cos_sub, Complex.cos_arg (xyPol_ne hp), Complex.cos_arg (xyPol_ne hq),
      Complex.sin_arg, Complex.sin_arg, norm_xyPol, norm_xyPol]
    simp only [P4.xyPol]
    field_simp
  rw [← hcos, ← Real.cos_abs, arccos_cos (abs_nonneg a) (abs_le.2 ⟨h1.le, h2⟩)]

theorem near_ang {p q : P4} (hp : 0 < p.pt) (hq : 0 < q.pt) {φ : ℝ} (hφ : AngleEq φ q.xyPol.arg) (r : ℝ) :
    Near r (q.eta, .fin φ) p ↔ 0 < r ∧ ang p q < r := by
  have hsq : ∀ a, arccos ((p.x * q.x + p.y * q.y) / (p.pt * q.pt)) = |a| → (arsinh (p.z / p.pt) - arsinh (q.z / q.pt)) ^ 2 +
      a ^ 2 = ang p q ^ 2 := by
    intro a ha
    unfold ang
    rw [sq_sqrt (by positivity), ha, sq_abs]
  constructor
  · rintro ⟨η, η0, φ0, a, h1, h2, h3, h4, h5, h6, h7⟩
    rw [eta_arsinh hp] at h1
    rw [eta_arsinh hq] at h2
    injection h2 with h2 h8
    injection h1 with h1
    injection h2 with h2
    injection h8 with h8
    subst h1 h2 h8
    rw [hsq a (azimuth_arccos hp hq h3 h4 hφ h5)] at h7
    exact ⟨h6, lt_of_pow_lt_pow_left₀ 2 h6.le h7⟩
  · rintro ⟨hr, h⟩
    have hπ := Real.pi_pos
    let a := toIocMod Real.two_pi_pos (-π) (p.xyPol.arg - φ)
    have ha := toIocMod_mem_Ioc Real.two_pi_pos (-π) (p.xyPol.arg - φ)
    have e5 : AngleEq p.xyPol.arg (φ + a) := by
      refine ⟨toIocDiv Real.two_pi_pos (-π) (p.xyPol.arg - φ), ?_⟩
      have := toIocMod_add_toIocDiv_zsmul Real.two_pi_pos (-π) (p.xyPol.arg - φ)
      rw [zsmul_eq_mul] at this
      change p.xyPol.arg = φ + toIocMod Real.two_pi_pos (-π) (p.xyPol.arg - φ) + _
      linarith
    have e4 : a ≤ π := by have := ha.2; change a ≤ _ at this; linarith
    refine ⟨_, _, φ, a, eta_arsinh hp, by rw [eta_arsinh hq], ha.1, e4, e5, hr, ?_⟩
    rw [hsq a (azimuth_arccos hp hq ha.1 e4 hφ e5)]
    exact pow_lt_pow_left₀ h (sqrt_nonneg _) two_ne_zero

theorem weighted_ang (e : ℝ) {p h : P4} (hp : 0 < p.pt) (hh : 0 < h.pt) :
    weightedDist e p h = .fin (p.pt ^ e * ang p h) := by
  obtain ⟨a, h1, h2, h3, h4⟩ := (C96_value e p h).1 _ _ hp (eta_arsinh hp) (eta_arsinh hh)
  rw [h1, ang, azimuth_arccos hp hh h2 h3 ⟨0, by simp⟩ (h4 (xyPol_ne hh)), sq_abs]

/-! ## Continuity -/

/-- The weighted distance of momenta near others off the beam is near theirs. -/
theorem ang_near (e : ℝ) {p q : P4} (hp : 0 < p.pt) (hq : 0 < q.pt) {ε : ℝ} (hε : 0 < ε) :
    ∃ δ > 0, ∀ p' q', Off δ p' p → Off δ q' q → 0 < p'.pt ∧ 0 < q'.pt ∧ |p'.pt ^ e * ang p' q' - p.pt ^ e * ang p q| < ε := by
  let pt : (ℝ × ℝ × ℝ × ℝ) → ℝ := fun v => √(v.1 ^ 2 + v.2.1 ^ 2)
  have hpt : ∀ p : P4, pt p.vec = p.pt := fun p => (pt_eq p).symm
  have cpt : Continuous pt := by fun_prop
  have pos : ∀ {p : P4}, 0 < p.pt → ∃ δ > 0, ∀ p', Off δ p' p → 0 < p'.pt := by
    intro p hp
    obtain ⟨δ, hδ, h1⟩ := Metric.continuousAt_iff.1 cpt.continuousAt p.pt hp
    refine ⟨δ, hδ, fun p' o => ?_⟩
    have := h1 (off_dist o)
    rw [Real.dist_eq, hpt, hpt] at this
    have := (abs_lt.1 this).1
    linarith
  let F : (ℝ × ℝ × ℝ × ℝ) × (ℝ × ℝ × ℝ × ℝ) → ℝ := fun v => pt v.1 ^ e * √((arsinh (v.1.2.2.1 / pt v.1) - arsinh (v.2.2.2.1 / pt v.2)) ^ 2 +
    arccos ((v.1.1 * v.2.1 + v.1.2.1 * v.2.2.1) / (pt v.1 * pt v.2)) ^ 2)
  have hF : ∀ p q : P4, F (p.vec, q.vec) = p.pt ^ e * ang p q := by
    intro p q
    simp only [F, hpt]
    rfl
  have c1 : ContinuousAt (fun v : (ℝ × ℝ × ℝ × ℝ) × (ℝ × ℝ × ℝ × ℝ) => pt v.1) (p.vec, q.vec) :=
    (cpt.comp continuous_fst).continuousAt
  have c2 : ContinuousAt (fun v : (ℝ × ℝ × ℝ × ℝ) × (ℝ × ℝ × ℝ × ℝ) => pt v.2) (p.vec, q.vec) :=
    (cpt.comp continuous_snd).continuousAt
  have n1 : pt p.vec ≠ 0 := by rw [hpt]; exact hp.ne'
  have n2 : pt q.vec ≠ 0 := by rw [hpt]; exact hq.ne'
  have hc : ContinuousAt F (p.vec, q.vec) := by
    refine ContinuousAt.mul (c1.rpow_const (.inl n1)) (ContinuousAt.sqrt (ContinuousAt.add (ContinuousAt.pow (ContinuousAt.sub ?_ ?_) 2)
      (ContinuousAt.pow ?_ 2)))
    · exact continuous_arsinh.continuousAt.comp (ContinuousAt.div (by fun_prop) c1 n1)
    · exact continuous_arsinh.continuousAt.comp (ContinuousAt.div (by fun_prop) c2 n2)
    · exact continuous_arccos.continuousAt.comp (ContinuousAt.div (by fun_prop) (c1.mul c2) (mul_ne_zero n1 n2))
  obtain ⟨d, hd, h⟩ := Metric.continuousAt_iff.1 hc ε hε
  obtain ⟨d1, hd1, h1⟩ := pos hp
  obtain ⟨d2, hd2, h2⟩ := pos hq
  refine ⟨min d (min d1 d2), lt_min hd (lt_min hd1 hd2), fun p' q' o o' => ?_⟩
  refine ⟨h1 p' (off_mono ((min_le_right _ _).trans (min_le_left _ _)) o),
    h2 q' (off_mono ((min_le_right _ _).trans (min_le_right _ _)) o'), ?_⟩
  rw [← hF, ← hF, ← Real.dist_eq]
  apply h
  rw [Prod.dist_eq, max_lt_iff]
  exact ⟨off_dist (off_mono (min_le_left _ _) o), off_dist (off_mono (min_le_left _ _) o')⟩

/-- Finitely many conditions that hold of all small enough noise hold together of some. -/
theorem small_all (n : Nat) (P : Nat → ℝ → Prop) (hm : ∀ i δ δ', δ' ≤ δ → P i δ → P i δ') (h : ∀ i, i < n → ∃ δ > 0, P i δ) :
    ∃ δ > 0, ∀ i, i < n → P i δ := by
  induction n with
  | zero => exact ⟨1, one_pos, fun i hi => absurd hi (by omega)⟩
  | succ n ih =>
    obtain ⟨d, hd, h1⟩ := ih (fun i hi => h i (by omega))
    obtain ⟨d', hd', h2⟩ := h n (by omega)
    refine ⟨min d d', lt_min hd hd', fun i hi => ?_⟩
    rcases Nat.lt_succ_iff_lt_or_eq.1 hi with hi | rfl
    · exact hm i _ _ (min_le_left _ _) (h1 i hi)
    · exact hm i _ _ (min_le_right _ _) h2

/-! ## `partition_descendants` -/

theorem argmin_least (ps : List Nat) (hn : ps.Nodup) (g : Nat → Fl) (s : Nat) (hs : s ∈ ps)
    (h : ∀ p ∈ ps, p ≠ s → g s < g p) (k : Nat) (hk : ps[k]? = some s) : argmin (ps.map g) = .ok k := by
  obtain ⟨a, x, e1, e2, e3⟩ := argmin_spec (ps.map g) (by simpa using List.ne_nil_of_mem hs)
  rw [e1]
  rw [List.getElem?_map, Option.map_eq_some_iff] at e2
  obtain ⟨p, p1, rfl⟩ := e2
  have := (e3 k (g s) (by rw [List.getElem?_map, hk]; rfl)).1
  have hps : p = s := by
    by_contra hne
    exact absurd (h p (List.mem_of_getElem? p1) hne) (not_lt.2 this)
  subst hps
  congr 1
  exact (List.getElem?_inj (List.getElem?_eq_some_iff.1 p1).1 hn).1 (p1.trans hk.symm)

/-- **C168** `partition_descendants` with its real distance: if, of the particles entering a hadronisation vertex, none is
exactly as near to a final particle descending from it as the nearest one is, and neither moves along the beam, then
every event whose momenta differ by little enough is partitioned in the same way, whatever the masks. -/
theorem C168_partition (e : ℝ) (pmu : List P4) (final : List Bool) (status : List Int) (es : List (Int × Int))
    (hp : pmu.length = es.length) (hf : final.length = es.length) (hs : status.length = es.length)
    (hpt : ∀ v (i q : Nat) mi mq, HadronVertex es status v → HadronOf es final v i → Enters es v q → pmu[i]? = some mi →
      pmu[q]? = some mq → 0 < mi.pt ∧ 0 < mq.pt)
    (htie : ∀ v (i p q : Nat) mi mp mq, HadronVertex es status v → HadronOf es final v i → Nearest (weightedDist e) pmu es v i p →
      Enters es v q → q ≠ p → pmu[i]? = some mi → pmu[p]? = some mp → pmu[q]? = some mq →
      weightedDist e mp mi ≠ weightedDist e mq mi) :
    ∃ δ > 0, ∀ pmu' : List P4, List.Forall₂ (Off δ) pmu' pmu → ∀ hier : Dict Mask,
      partitionDescendants (weightedDist e) pmu' final status es hier =
        partitionDescendants (weightedDist e) pmu final status es hier := by
  classical
  let z : P4 := ⟨0, 0, 0, 0⟩
  -- the comparisons that matter
  let C (i s q : Nat) : Prop := 0 < (pmu.getD i z).pt ∧ 0 < (pmu.getD s z).pt ∧ 0 < (pmu.getD q z).pt ∧
    weightedDist e (pmu.getD s z) (pmu.getD i z) < weightedDist e (pmu.getD q z) (pmu.getD i z)
  have one : ∀ i s q, ∃ δ > 0, C i s q → ∀ a b c, Off δ a (pmu.getD i z) → Off δ b (pmu.getD s z) → Off δ c (pmu.getD q z) →
      weightedDist e b a < weightedDist e c a := by
    intro i s q
    by_cases hC : C i s q
    · obtain ⟨h1, h2, h3, h4⟩ := hC
      rw [weighted_ang e h2 h1, weighted_ang e h3 h1, (nanFirst_spec.2.2.1 _ _)] at h4
      have hε : 0 < ((pmu.getD q z).pt ^ e * ang (pmu.getD q z) (pmu.getD i z) -
        (pmu.getD s z).pt ^ e * ang (pmu.getD s z) (pmu.getD i z)) / 2 := by linarith
      obtain ⟨d1, hd1, k1⟩ := ang_near e h2 h1 hε
      obtain ⟨d2, hd2, k2⟩ := ang_near e h3 h1 hε
      refine ⟨min d1 d2, lt_min hd1 hd2, fun _ a b c oa ob oc => ?_⟩
      obtain ⟨b0, a0, l1⟩ := k1 b a (off_mono (min_le_left _ _) ob) (off_mono (min_le_left _ _) oa)
      obtain ⟨c0, -, l2⟩ := k2 c a (off_mono (min_le_right _ _) oc) (off_mono (min_le_right _ _) oa)
      rw [weighted_ang e b0 a0, weighted_ang e c0 a0, (nanFirst_spec.2.2.1 _ _)]
      have := abs_lt.1 l1
      have := abs_lt.1 l2
      linarith
    · exact ⟨1, one_pos, fun h => absurd h hC⟩
  have mono : ∀ i s q (δ δ' : ℝ), δ' ≤ δ → (C i s q → ∀ a b c, Off δ a (pmu.getD i z) → Off δ b (pmu.getD s z) →
      Off δ c (pmu.getD q z) → weightedDist e b a < weightedDist e c a) → (C i s q → ∀ a b c, Off δ' a (pmu.getD i z) →
      Off δ' b (pmu.getD s z) → Off δ' c (pmu.getD q z) → weightedDist e b a < weightedDist e c a) :=
    fun i s q δ δ' hd h hC a b c oa ob oc => h hC a b c (off_mono hd oa) (off_mono hd ob) (off_mono hd oc)
  obtain ⟨δ, hδ, H⟩ := small_all es.length
    (fun i δ => ∀ s, s < es.length → ∀ q, q < es.length → C i s q → ∀ a b c, Off δ a (pmu.getD i z) → Off δ b (pmu.getD s z) →
      Off δ c (pmu.getD q z) → weightedDist e b a < weightedDist e c a)
    (fun i δ δ' hd h s hs q hq => mono i s q δ δ' hd (h s hs q hq))
    (fun i hi => small_all es.length
      (fun s δ => ∀ q, q < es.length → C i s q → ∀ a b c, Off δ a (pmu.getD i z) → Off δ b (pmu.getD s z) →
        Off δ c (pmu.getD q z) → weightedDist e b a < weightedDist e c a)
      (fun s δ δ' hd h q hq => mono i s q δ δ' hd (h q hq))
      (fun s hs => small_all es.length
        (fun q δ => C i s q → ∀ a b c, Off δ a (pmu.getD i z) → Off δ b (pmu.getD s z) →
          Off δ c (pmu.getD q z) → weightedDist e b a < weightedDist e c a)
        (fun q δ δ' hd h => mono i s q δ δ' hd h) (fun q hq => one i s q)))
  refine ⟨δ, hδ, fun pmu' ho hier => ?_⟩
  have hlen := ho.length_eq
  have hoff : ∀ i, i < es.length → Off δ (pmu'.getD i z) (pmu.getD i z) := by
    intro i hi
    have h1 : i < pmu'.length := by omega
    have h2 : i < pmu.length := by omega
    rw [List.getD_eq_getElem?_getD, List.getD_eq_getElem?_getD, List.getElem?_eq_getElem h1, List.getElem?_eq_getElem h2,
      Option.getD_some, Option.getD_some]
    exact List.Forall₂.get ho h1 h2
  symm
  apply partition_argmin z (weightedDist e) pmu pmu' final status es hier hp (hlen.trans hp) hf hs
  intro v i hv hi ps hn hps
  rcases ps with _ | ⟨p0, pt⟩
  · rfl
  set ps := p0 :: pt with hpsd
  have lt_of : ∀ q ∈ ps, q < es.length := by
    intro q hq
    obtain ⟨x, hx, -⟩ := (hps q).1 hq
    exact (List.getElem?_eq_some_iff.1 hx).1
  have hil : i < es.length := by
    have := hi.1
    have := (List.getElem?_eq_some_iff.1 this).1
    omega
  have getp : ∀ q, q < es.length → pmu[q]? = some (pmu.getD q z) := by
    intro q hq
    have h2 : q < pmu.length := by omega
    rw [List.getD_eq_getElem?_getD, List.getElem?_eq_getElem h2, Option.getD_some]
  -- the nearest one: least distance, then least position
  obtain ⟨k, x, e1, e2, e3⟩ := argmin_spec ((ps.insertionSort (· ≤ ·)).map (fun p => weightedDist e (pmu.getD p z) (pmu.getD i z)))
    (by
      intro h0
      have := congrArg List.length h0
      rw [List.length_map, (List.perm_insertionSort (· ≤ ·) ps).length_eq] at this
      cases this)
  have hperm := List.perm_insertionSort (· ≤ ·) ps
  rw [List.getElem?_map, Option.map_eq_some_iff] at e2
  obtain ⟨s, s1, rfl⟩ := e2
  have hsm : s ∈ ps := hperm.mem_iff.1 (List.mem_of_getElem? s1)
  have sorted := List.pairwise_insertionSort (· ≤ ·) ps
  have hnear : Nearest (weightedDist e) pmu es v i s := by
    refine ⟨(hps s).1 hsm, _, _, getp i hil, getp s (lt_of s hsm), fun q mq hq hmq => ?_⟩
    have hqm := (hps q).2 hq
    rw [getp q (lt_of q hqm)] at hmq
    injection hmq with hmq
    subst hmq
    obtain ⟨j, hj⟩ := List.mem_iff_getElem?.1 (hperm.mem_iff.2 hqm)
    have h3 := e3 j _ (by rw [List.getElem?_map, hj]; rfl)
    refine ⟨h3.1, fun hqs => h3.2 ?_⟩
    by_contra hjk
    obtain ⟨hj1, hj2⟩ := List.getElem?_eq_some_iff.1 hj
    obtain ⟨hk1, hk2⟩ := List.getElem?_eq_some_iff.1 s1
    rcases (not_lt.1 hjk).eq_or_lt with h0 | h0
    · subst h0
      rw [hk2] at hj2
      omega
    · have := List.pairwise_iff_getElem.1 sorted k j hk1 hj1 h0
      rw [hj2, hk2] at this
      omega
  have hlt : ∀ q ∈ ps, q ≠ s → weightedDist e (pmu.getD s z) (pmu.getD i z) < weightedDist e (pmu.getD q z) (pmu.getD i z) := by
    intro q hq hqs
    obtain ⟨-, mi, mp, g1, g2, g3⟩ := id hnear
    rw [getp i hil] at g1
    rw [getp s (lt_of s hsm)] at g2
    injection g1 with g1
    injection g2 with g2
    subst g1 g2
    exact lt_of_le_of_ne (g3 q _ ((hps q).1 hq) (getp q (lt_of q hq))).1
      (htie v i s q _ _ _ hv hi hnear ((hps q).1 hq) hqs (getp i hil) (getp s (lt_of s hsm)) (getp q (lt_of q hq)))
  obtain ⟨j, hj⟩ := List.mem_iff_getElem?.1 hsm
  rw [argmin_least ps hn _ s hsm hlt j hj]
  refine (argmin_least ps hn _ s hsm (fun q hq hqs => ?_) j hj).symm
  have hpos := fun q (hq : q ∈ ps) => hpt v i q _ _ hv hi ((hps q).1 hq) (getp i hil) (getp q (lt_of q hq))
  exact H i hil s (lt_of s hsm) q (lt_of q hq) ⟨(hpos s hsm).1, (hpos s hsm).2, (hpos q hq).2, hlt q hq hqs⟩ _ _ _
    (hoff i hil) (hoff s (lt_of s hsm)) (hoff q (lt_of q hq))


/-! ## `centroid_prune` -/

/-- The comparison with a centre is stable unless the particle is exactly at the radius from it. -/
theorem near_stays {radius : ℝ} {p q : P4} (hp : 0 < p.pt) (hq : 0 < q.pt) (φ : ℝ) (hφ : AngleEq φ q.xyPol.arg)
    (hb : (∀ r, radius < r → Near r (q.eta, .fin φ) p) → Near radius (q.eta, .fin φ) p) :
    ∃ δ > 0, ∀ p' q', Off δ p' p → Off δ q' q → ∀ φ', AngleEq φ' q'.xyPol.arg →
      (Near radius (q'.eta, .fin φ') p' ↔ Near radius (q.eta, .fin φ) p) := by
  simp only [near_ang hp hq hφ] at hb ⊢
  have h0 : 0 ≤ ang p q := sqrt_nonneg _
  have hne : ang p q ≠ radius := by
    intro h
    have := (hb fun r hr => ⟨by linarith, by linarith⟩).2
    linarith
  obtain ⟨δ, hδ, H⟩ := ang_near 0 hp hq (abs_pos.2 (sub_ne_zero.2 hne))
  refine ⟨δ, hδ, fun p' q' o o' φ' hφ' => ?_⟩
  obtain ⟨h1, h2, h3⟩ := H p' q' o o'
  rw [near_ang h1 h2 hφ']
  simp only [rpow_zero, one_mul] at h3
  refine and_congr_right fun _ => ?_
  rcases lt_or_gt_of_ne hne with h | h
  · rw [abs_of_neg (sub_neg.2 h)] at h3
    have := (abs_lt.1 h3).2
    exact iff_of_true (by linarith) h
  · rw [abs_of_pos (sub_pos.2 h)] at h3
    have := (abs_lt.1 h3).1
    exact iff_of_false (by linarith) (by linarith)

theorem list_stays (f : P4 → P4 → Bool) (q : P4) (ps : List P4)
    (h : ∀ p ∈ ps, ∃ δ > 0, ∀ p' q', Off δ p' p → Off δ q' q → f q' p' = f q p) :
    ∃ δ > 0, ∀ ps' q', List.Forall₂ (Off δ) ps' ps → Off δ q' q → ps'.map (f q') = ps.map (f q) := by
  induction ps with
  | nil => exact ⟨1, one_pos, fun ps' q' h _ => by cases h; rfl⟩
  | cons p ps ih =>
    obtain ⟨d, hd, h1⟩ := ih (fun p hp => h p (List.mem_cons_of_mem _ hp))
    obtain ⟨d', hd', h2⟩ := h p List.mem_cons_self
    refine ⟨min d d', lt_min hd hd', fun ps' q' ho oq => ?_⟩
    cases ho with
    | cons o ho =>
      rw [List.map_cons, List.map_cons, h2 _ q' (off_mono (min_le_right _ _) o) (off_mono (min_le_right _ _) oq),
        h1 _ q' (ho.imp fun _ _ => off_mono (min_le_left _ _)) (off_mono (min_le_left _ _) oq)]

theorem off_self {δ : ℝ} (h : 0 < δ) (p : P4) : Off δ p p := by simp [Off, h]

theorem off_total {δ : ℝ} (hδ : 0 < δ) {ps' ps : List P4} (h : List.Forall₂ (Off δ) ps' ps) :
    Off ((ps.length + 1) * δ) (total ps') (total ps) := by
  induction h with
  | nil => exact off_mono (by simp) (off_self hδ _)
  | cons o h ih =>
    rw [total_cons, total_cons]
    refine off_mono ?_ (off_add o ih)
    push_cast [List.length_cons]
    linarith

theorem pt_stays {t : ℝ} {q : P4} (h : t < q.pt) : ∃ δ > 0, ∀ q', Off δ q' q → t < q'.pt := by
  have hc : Continuous (fun v : ℝ × ℝ × ℝ × ℝ => √(v.1 ^ 2 + v.2.1 ^ 2)) := by fun_prop
  obtain ⟨δ, hδ, h1⟩ := Metric.continuousAt_iff.1 hc.continuousAt (q.pt - t) (sub_pos.2 h)
  refine ⟨δ, hδ, fun p' o => ?_⟩
  have := h1 (off_dist o)
  rw [Real.dist_eq] at this
  have e : ∀ p : P4, √(p.vec.1 ^ 2 + p.vec.2.1 ^ 2) = p.pt := fun p => (pt_eq p).symm
  rw [e, e] at this
  have := (abs_lt.1 this).1
  linarith

theorem gather_forall2 {α : Type} {R : α → α → Prop} {a b : List α} (h : List.Forall₂ R a b) (is : List Nat) :
    List.Forall₂ R (gather a is) (gather b is) := by
  have hl := h.length_eq
  induction is with
  | nil => exact .nil
  | cons i is ih =>
    unfold gather at ih ⊢
    rw [List.filterMap_cons, List.filterMap_cons]
    by_cases hi : i < a.length
    · rw [List.getElem?_eq_getElem hi, List.getElem?_eq_getElem (hl ▸ hi)]
      exact .cons (h.get hi (hl ▸ hi)) ih
    · rw [List.getElem?_eq_none (by omega), List.getElem?_eq_none (by omega)]
      exact ih

theorem within_stays (tol radius : ℝ) (htol : 0 ≤ tol) (centre : Option (Fl × Fl)) (ps : List P4) (hpt : ∀ p ∈ ps, 0 < p.pt)
    (hc : centre = none → tol < (total ps).pt)
    (hb : ∀ p ∈ ps, (∀ r, radius < r → Near r (centreUsed tol ps centre) p) → Near radius (centreUsed tol ps centre) p) :
    ∃ δ > 0, ∀ ps', List.Forall₂ (Off δ) ps' ps → isWithin tol ps' radius centre = isWithin tol ps radius centre := by
  simp only [isWithin_eq]
  have eqv : ∀ {c c' : Fl × Fl} {p p' : P4}, (Near radius c' p' ↔ Near radius c p) → withinCentre radius c' p' = withinCentre radius c p := by
    intro c c' p p' h
    rw [Bool.eq_iff_iff, withinCentre_iff, withinCentre_iff, h]
  cases centre with
  | none =>
    have hq : tol < (total ps).pt := hc rfl
    have ephi : ∀ {q : P4}, tol < q.pt → (q.eta, q.phi tol) = (q.eta, .fin q.xyPol.arg) := by
      intro q h
      unfold P4.phi
      rw [if_neg (by rw [abs_of_pos (htol.trans_lt h)]; exact not_le.2 h)]
    obtain ⟨d0, hd0, h0⟩ := pt_stays hq
    have hs := list_stays (fun q p => withinCentre radius (q.eta, q.phi tol) p) (total ps) ps (by
      intro p hp
      have hb := hb p hp
      simp only [centreUsed, ephi hq] at hb
      obtain ⟨δ, hδ, H⟩ := near_stays (hpt p hp) (htol.trans_lt hq) _ ⟨0, by simp⟩ hb
      refine ⟨min d0 δ, lt_min hd0 hδ, fun p' q' o o' => ?_⟩
      apply eqv
      rw [ephi hq, ephi (h0 q' (off_mono (min_le_left _ _) o'))]
      exact H p' q' (off_mono (min_le_right _ _) o) (off_mono (min_le_right _ _) o') _ ⟨0, by simp⟩)
    obtain ⟨δ, hδ, H⟩ := hs
    have hn : (0 : ℝ) < ps.length + 1 := by positivity
    refine ⟨δ / (ps.length + 1), div_pos hδ hn, fun ps' ho => ?_⟩
    have ht := off_total (div_pos hδ hn) ho
    rw [mul_div_cancel₀ _ hn.ne'] at ht
    exact H ps' (total ps') (ho.imp fun _ _ => off_mono (div_le_self hδ.le (by linarith [Nat.cast_nonneg (α := ℝ) ps.length]))) ht
  | some c =>
    by_cases hfin : ∃ η0 φ0, c = (.fin η0, .fin φ0)
    · obtain ⟨η0, φ0, rfl⟩ := hfin
      let q : P4 := ⟨cos φ0, sin φ0, sinh η0, 0⟩
      have hq1 : q.pt = 1 := by rw [pt_eq]; simp [q]
      have hq : 0 < q.pt := by rw [hq1]; exact one_pos
      have he : q.eta = .fin η0 := by rw [eta_arsinh hq, hq1, div_one, arsinh_sinh]
      have hw : q.xyPol = Complex.exp (φ0 * Complex.I) := by
        rw [Complex.exp_mul_I]
        apply Complex.ext <;> simp [q, P4.xyPol, Complex.cos_ofReal_re, Complex.sin_ofReal_re]
      have hφ : AngleEq φ0 q.xyPol.arg := by
        rw [hw, Complex.arg_exp_mul_I]
        refine ⟨toIocDiv Real.two_pi_pos (-π) φ0, ?_⟩
        have := toIocMod_add_toIocDiv_zsmul Real.two_pi_pos (-π) φ0
        rw [zsmul_eq_mul] at this
        linarith
      obtain ⟨δ, hδ, H⟩ := list_stays (fun _ p => withinCentre radius (.fin η0, .fin φ0) p) q ps (by
        intro p hp
        have hb := hb p hp
        simp only [centreUsed] at hb
        rw [← he] at hb
        obtain ⟨δ, hδ, H⟩ := near_stays (hpt p hp) hq φ0 hφ hb
        refine ⟨δ, hδ, fun p' q' o _ => eqv ?_⟩
        rw [← he]
        exact H p' q o (off_self hδ q) φ0 hφ)
      exact ⟨δ, hδ, fun ps' ho => H ps' q ho (off_self hδ q)⟩
    · have hf : ∀ p, withinCentre radius c p = false := by
        intro p
        rw [Bool.eq_false_iff, ne_eq, withinCentre_iff]
        rintro ⟨η, η0, φ0, a, -, h2, -⟩
        exact hfin ⟨η0, φ0, h2⟩
      refine ⟨1, one_pos, fun ps' ho => ?_⟩
      have : ∀ l : List P4, l.map (withinCentre radius c) = List.replicate l.length false := by
        intro l
        rw [List.eq_replicate_iff]
        exact ⟨List.length_map _, fun b hb => by obtain ⟨p, -, rfl⟩ := List.mem_map.1 hb; exact hf p⟩
      change ps'.map (withinCentre radius c) = ps.map (withinCentre radius c)
      rw [this, this, ho.length_eq]

/-- **C168** `centroid_prune`, with or without a mask or a centre: if none of the particles selected moves along the beam
or lies exactly at `radius` from the centre used, and if the default centre, when it is used, has an azimuth, then every
event whose momenta differ by little enough keeps the same particles. -/
theorem C168_prune (tol : ℝ) (htol : 0 ≤ tol) (pmu : List P4) (radius : ℝ) (mask : Option (List Bool)) (centre : Option (Fl × Fl))
    (sel : List P4) (hsel : sel = match mask with | none => pmu | some m => selected pmu m) (hpt : ∀ p ∈ sel, 0 < p.pt)
    (hc : centre = none → tol < (total sel).pt)
    (hb : ∀ p ∈ sel, (∀ r, radius < r → Near r (centreUsed tol sel centre) p) → Near radius (centreUsed tol sel centre) p) :
    ∃ δ > 0, ∀ pmu' : List P4, List.Forall₂ (Off δ) pmu' pmu →
      centroidPrune tol pmu' radius mask centre = centroidPrune tol pmu radius mask centre := by
  obtain ⟨δ, hδ, H⟩ := within_stays tol radius htol centre sel hpt hc hb
  refine ⟨δ, hδ, fun pmu' ho => ?_⟩
  have hlen := ho.length_eq
  cases mask with
  | none =>
    subst hsel
    simp only [centroidPrune, H pmu' ho]
  | some m =>
    simp only at hsel
    unfold centroidPrune
    by_cases hm : m.length = pmu.length
    · have e1 : (Key.mask m).apply pmu = .ok sel := by rw [(C20_mask pmu m).1 hm, hsel]
      have e2 : (Key.mask m).apply pmu' = .ok (selected pmu' m) := (C20_mask pmu' m).1 (hm.trans hlen.symm)
      have h2 : List.Forall₂ (Off δ) (selected pmu' m) sel := by
        rw [hsel, ← gather_eq_selected pmu m hm, ← gather_eq_selected pmu' m (hm.trans hlen.symm)]
        exact gather_forall2 ho _
      simp only [e1, e2, H _ h2]
    · simp only [(C20_mask pmu m).2 hm, (C20_mask pmu' m).2 (hlen ▸ hm)]


/-! ## Ties and boundaries -/

theorem plane_ang {x y x' y' e e' : ℝ} : ang ⟨x, y, 0, e⟩ ⟨x', y', 0, e'⟩ =
    arccos ((x * x' + y * y') / ((⟨x, y, 0, e⟩ : P4).pt * (⟨x', y', 0, e'⟩ : P4).pt)) := by
  unfold ang
  simp only [zero_div, arsinh_zero, sub_self, ne_eq, OfNat.ofNat_ne_zero, not_false_eq_true, zero_pow, zero_add]
  rw [sqrt_sq (arccos_nonneg _)]

/-- **C168** On a tie the partition is decided by noise: two partons equally far from the hadron, of which the first is
taken, and arbitrarily close events where it is the second. -/
theorem C168_tie_false : ∃ (pmu : List P4) (es : List (Int × Int)), Nearest (weightedDist 0) pmu es 1 2 0 ∧
    ∀ δ, 0 < δ → ∃ pmu', List.Forall₂ (Off δ) pmu' pmu ∧ Nearest (weightedDist 0) pmu' es 1 2 1 := by
  have hE : ∀ p, Enters [(5, 1), (6, 1), (1, 2)] 1 p → p = 0 ∨ p = 1 := by
    intro p ⟨x, hx, hv⟩
    match p with
    | 0 => simp
    | 1 => simp
    | 2 => simp at hx; subst hx; simp at hv
    | n + 3 => simp at hx
  have hp : (⟨0, 1, 0, 1⟩ : P4).pt = 1 := by rw [pt_eq]; norm_num
  have hh : (⟨1, 0, 0, 1⟩ : P4).pt = 1 := by rw [pt_eq]; norm_num
  have hq : ∀ d : ℝ, 0 < (⟨d, -1, 0, 1⟩ : P4).pt := by intro d; rw [pt_eq]; positivity
  have wp : weightedDist 0 ⟨0, 1, 0, 1⟩ ⟨1, 0, 0, 1⟩ = .fin (π / 2) := by
    rw [weighted_ang 0 (by rw [hp]; exact one_pos) (by rw [hh]; exact one_pos), plane_ang]
    simp
  have wq : ∀ d : ℝ, weightedDist 0 ⟨d, -1, 0, 1⟩ ⟨1, 0, 0, 1⟩ = .fin (arccos (d / (⟨d, -1, 0, 1⟩ : P4).pt)) := by
    intro d
    rw [weighted_ang 0 (hq d) (by rw [hh]; exact one_pos), plane_ang, hh]
    simp
  refine ⟨[⟨0, 1, 0, 1⟩, ⟨0, -1, 0, 1⟩, ⟨1, 0, 0, 1⟩], [(5, 1), (6, 1), (1, 2)], ⟨⟨(5, 1), rfl, rfl⟩, _, _, rfl, rfl, ?_⟩, ?_⟩
  · intro q mq hq hmq
    rcases hE q hq with rfl | rfl
    · simp at hmq
      subst hmq
      exact ⟨le_rfl, fun h => absurd h (by omega)⟩
    · simp at hmq
      subst hmq
      rw [wp, wq]
      refine ⟨?_, fun h => absurd h (by omega)⟩
      simp
  · intro δ hδ
    refine ⟨[⟨0, 1, 0, 1⟩, ⟨δ / 2, -1, 0, 1⟩, ⟨1, 0, 0, 1⟩], .cons (off_self hδ _) (.cons ?_ (.cons (off_self hδ _) .nil)),
      ⟨(6, 1), rfl, rfl⟩, _, _, rfl, rfl, ?_⟩
    · simp only [Off, sub_zero, sub_self, abs_zero]
      exact ⟨by rw [abs_of_pos (by linarith)]; linarith, hδ, hδ, hδ⟩
    · intro q mq hq' hmq
      have hlt : weightedDist 0 ⟨δ / 2, -1, 0, 1⟩ ⟨1, 0, 0, 1⟩ < weightedDist 0 ⟨0, 1, 0, 1⟩ ⟨1, 0, 0, 1⟩ := by
        rw [wp, wq, nanFirst_spec.2.2.1, arccos_lt_pi_div_two]
        exact div_pos (by linarith) (hq _)
      rcases hE q hq' with rfl | rfl
      · simp at hmq
        subst hmq
        exact ⟨hlt.le, fun _ => hlt⟩
      · simp at hmq
        subst hmq
        exact ⟨le_rfl, fun h => absurd h (by omega)⟩

/-- **C168** So is whether a particle exactly at the radius is kept: it is not, but particles arbitrarily close to it are. -/
theorem C168_boundary_false : ∃ (p : P4) (radius : ℝ) (c : Fl × Fl), 0 < p.pt ∧ ¬ Near radius c p ∧
    ∀ δ, 0 < δ → ∃ p', Off δ p' p ∧ Near radius c p' := by
  have hh : (⟨1, 0, 0, 1⟩ : P4).pt = 1 := by rw [pt_eq]; norm_num
  have h0 : 0 < (⟨1, 0, 0, 1⟩ : P4).pt := by rw [hh]; exact one_pos
  have hz : ∀ z : ℝ, (⟨1, 0, z, 1⟩ : P4).pt = 1 := by intro z; rw [pt_eq]; norm_num
  have h1 : ∀ z : ℝ, 0 < (⟨1, 0, z, 1⟩ : P4).pt := by intro z; rw [hz]; exact one_pos
  have ha : ∀ z : ℝ, ang ⟨1, 0, z, 1⟩ ⟨1, 0, 0, 1⟩ = |arsinh z| := by
    intro z
    unfold ang
    rw [hz, hh]
    simp [sqrt_sq_eq_abs]
  have hφ : AngleEq 0 (⟨1, 0, 0, 1⟩ : P4).xyPol.arg := ⟨0, by
    have : (⟨1, 0, 0, 1⟩ : P4).xyPol = 1 := by apply Complex.ext <;> simp [P4.xyPol]
    rw [this]; simp⟩
  have h2 : 0 < arsinh 1 := arsinh_pos_iff.2 one_pos
  refine ⟨⟨1, 0, 1, 1⟩, arsinh 1, ((⟨1, 0, 0, 1⟩ : P4).eta, .fin 0), h1 1, ?_, fun δ hδ => ?_⟩
  · rw [near_ang (h1 1) h0 hφ, ha, abs_of_pos h2]
    exact fun h => lt_irrefl _ h.2
  · have hd : 0 < min δ 1 := lt_min hδ one_pos
    have hd1 : min δ 1 ≤ δ := min_le_left _ _
    have hd2 : min δ 1 ≤ 1 := min_le_right _ _
    refine ⟨⟨1, 0, 1 - min δ 1 / 2, 1⟩, ?_, ?_⟩
    · refine ⟨by simpa using hδ, by simpa using hδ, ?_, by simpa using hδ⟩
      rw [abs_lt]
      constructor <;> simp only <;> linarith
    · rw [near_ang (h1 _) h0 hφ, ha, abs_of_pos (arsinh_pos_iff.2 (by linarith))]
      exact ⟨h2, arsinh_lt_arsinh.2 (by linarith)⟩

/-- An event as in `C168_partition`: two partons enter the vertex, at different distances from the hadron leaving it. -/
example : ∃ δ > 0, ∀ pmu' : List P4, List.Forall₂ (Off δ) pmu' [⟨0, 2, 0, 2⟩, ⟨-3, 0, 0, 3⟩, ⟨1, 0, 0, 1⟩] → ∀ hier : Dict Mask,
    partitionDescendants (weightedDist 0) pmu' [false, false, true] [71, 71, 84] [(5, 1), (6, 1), (1, 2)] hier =
      partitionDescendants (weightedDist 0) [⟨0, 2, 0, 2⟩, ⟨-3, 0, 0, 3⟩, ⟨1, 0, 0, 1⟩] [false, false, true] [71, 71, 84]
        [(5, 1), (6, 1), (1, 2)] hier := by
  have hi : ∀ v i, HadronOf [(5, 1), (6, 1), (1, 2)] [false, false, true] v i → i = 2 := by
    rintro v i ⟨h1, -⟩
    match i with
    | 0 => simp at h1
    | 1 => simp at h1
    | 2 => rfl
    | n + 3 => simp at h1
  have hE : ∀ v p, HadronVertex [(5, 1), (6, 1), (1, 2)] [71, 71, 84] v → Enters [(5, 1), (6, 1), (1, 2)] v p → p = 0 ∨ p = 1 := by
    rintro v p ⟨i, x, s, h1, h2, h3, h4, h5⟩ ⟨y, hy, hv⟩
    have hv1 : v = 1 := by
      match i with
      | 0 => simp at h2; subst h2; simp at h4
      | 1 => simp at h2; subst h2; simp at h4
      | 2 => simp at h1; subst h1; exact h3.symm
      | n + 3 => simp at h1
    match p with
    | 0 => simp
    | 1 => simp
    | 2 => simp at hy; subst hy; simp [hv1] at hv
    | n + 3 => simp at hy
  have d := plane_dist 0 2 3 two_pos three_pos
  have hne : (2 : ℝ) ^ (0 : ℝ) * (π / 2) ≠ 3 ^ (0 : ℝ) * π := by
    have := pi_pos
    rw [rpow_zero, rpow_zero]
    intro h
    linarith
  refine C168_partition 0 _ _ _ _ rfl rfl rfl ?_ ?_
  · intro v i q mi mq hv h1 h2 h3 h4
    obtain rfl := hi v i h1
    simp at h3
    subst h3
    rcases hE v q hv h2 with rfl | rfl <;> simp at h4 <;> subst h4 <;> simp only [pt_eq] <;> constructor <;> positivity
  · intro v i p q mi mp mq hv h1 h2 h3 h4 h5 h6 h7
    obtain rfl := hi v i h1
    simp at h5
    subst h5
    rcases hE v p hv h2.1 with rfl | rfl <;> rcases hE v q hv h3 with rfl | rfl <;>
      simp at h6 h7 <;> first | exact absurd rfl h4 | (subst h6 h7; rw [d.1, d.2])
    · simpa using hne
    · simpa using hne.symm

/-- A case for `C168_prune`, with the default centre: one particle is its own centre. -/
example : ∃ δ > 0, ∀ pmu' : List P4, List.Forall₂ (Off δ) pmu' [⟨5, 0, 0, 5⟩] →
    centroidPrune 1e-8 pmu' 1 (some [true]) none = centroidPrune 1e-8 [⟨5, 0, 0, 5⟩] 1 (some [true]) none := by
  have hp : (⟨5, 0, 0, 5⟩ : P4).pt = 5 := by
    rw [pt_eq, show ((5 : ℝ) ^ 2 + 0 ^ 2) = 5 ^ 2 by norm_num]
    exact sqrt_sq (by norm_num)
  have h5 : (⟨5, 0, 0, 5⟩ : P4).pt > 0 := by rw [hp]; norm_num
  have ht : total [⟨5, 0, 0, 5⟩] = ⟨5, 0, 0, 5⟩ := by simp [total]
  refine C168_prune _ (by norm_num) _ _ _ _ [⟨5, 0, 0, 5⟩] rfl (by simpa using h5) (fun _ => by rw [ht, hp]; norm_num) ?_
  intro p hm _
  simp only [List.mem_singleton] at hm
  subst hm
  have e : (⟨5, 0, 0, 5⟩ : P4).phi 1e-8 = .fin (⟨5, 0, 0, 5⟩ : P4).xyPol.arg := by
    unfold P4.phi
    rw [hp, if_neg (by norm_num)]
  simp only [centreUsed, ht, e]
  rw [near_ang h5 h5 ⟨0, by simp⟩, plane_ang, hp]
  simp only [mul_zero, add_zero]
  norm_num

end Gcl
