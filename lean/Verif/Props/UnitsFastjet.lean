import Verif.Props.UnitsClosest
import Verif.Props.GenKtFrames
/-! # C160: `fastjet_clusters` in another unit -/
namespace Gcl
set_option autoImplicit false
open Spec Real Classical

theorem argsort_units {c : ℝ} (hc : 0 < c) {argsort : List ℝ → List Nat} (ha : IsArgsortR argsort) :
    IsArgsortR (fun l => argsort (l.map (c * ·))) := by
  intro l
  obtain ⟨h1, h2⟩ := ha (l.map (c * ·))
  refine ⟨by simpa using h1, fun i j hij a b hia hjb x y hx hy => ?_⟩
  have := h2 i j hij a b hia hjb (c * x) (c * y) (by simp [hx]) (by simp [hy])
  exact le_of_mul_le_mul_left this hc

/-- Runs of pseudojets that correspond to others, with all distances multiplied by `k`, correspond to runs of those. -/
theorem ktRun_units {S : KtRule} {R k : ℝ} (hk : 0 < k) (φ : Jet → Jet) (Inv : List Jet → Prop)
    (hperm : ∀ l l' : List Jet, Inv l → l.Perm l' → Inv l') (htail : ∀ i rest, Inv (i :: rest) → Inv rest)
    (hjoin : ∀ i j rest, Inv (i :: j :: rest) → Inv (i.join j :: rest)) (hφ : ∀ i j, φ (i.join j) = (φ i).join (φ j))
    (hscale : ∀ l, Inv l → ∀ a ∈ l, S.scale (φ a).pmu = k * S.scale a.pmu)
    (hdist : ∀ l, Inv l → ∀ a ∈ l, ∀ b ∈ l, S.dist (φ a).pmu (φ b).pmu = S.dist a.pmu b.pmu)
    {act' jets' : List Jet} (h : KtRun S R act' jets') :
    ∀ act, act' = act.map φ → Inv act → ∃ jets, KtRun S R act jets ∧ jets' = jets.map φ := by
  have hpair : ∀ l, Inv l → ∀ a ∈ l, ∀ b ∈ l, S.pair R (φ a) (φ b) = k * S.pair R a b := by
    intro l hl a ha b hb
    unfold KtRule.pair
    rw [hscale l hl a ha, hscale l hl b hb, hdist l hl a ha b hb, ← mul_min_of_nonneg _ _ hk.le, mul_assoc]
  have hleast : ∀ l, Inv l → ∀ d, S.Least R (l.map φ) (k * d) → S.Least R l d := by
    intro l hl d hd
    refine ⟨fun a ha => ?_, ?_⟩
    · have := hd.1 _ (List.mem_map_of_mem ha)
      rw [hscale l hl a ha] at this
      exact le_of_mul_le_mul_left this hk
    · have := hd.2
      rw [List.pairwise_map] at this
      exact this.imp_of_mem (fun {a b} ha hb hab => by rw [hpair l hl a ha b hb] at hab; exact le_of_mul_le_mul_left hab hk)
  induction h with
  | done =>
    intro act h _
    have : act = [] := by simpa using h.symm
    subst this
    exact ⟨[], .done, rfl⟩
  | beam h1 h2 _ ih =>
    rintro act rfl hI
    obtain ⟨l0, p1, p2⟩ := perm_map_inv φ h1 act rfl
    cases l0 with
    | nil => cases p2
    | cons i0 rest0 =>
      simp only [List.map_cons, List.cons.injEq] at p2
      obtain ⟨rfl, rfl⟩ := p2
      have hI' := hperm _ _ hI p1
      obtain ⟨jets, j1, rfl⟩ := ih rest0 rfl (htail _ _ hI')
      refine ⟨i0 :: jets, .beam p1 ?_ j1, rfl⟩
      rw [hscale act hI i0 (p1.mem_iff.2 (by simp))] at h2
      exact hleast act hI _ h2
  | pair h1 h2 h3 _ ih =>
    rintro act rfl hI
    obtain ⟨l0, p1, p2⟩ := perm_map_inv φ h1 act rfl
    cases l0 with
    | nil => cases p2
    | cons i0 l0 =>
      cases l0 with
      | nil => simp at p2
      | cons j0 rest0 =>
        simp only [List.map_cons, List.cons.injEq] at p2
        obtain ⟨rfl, rfl, rfl⟩ := p2
        have hI' := hperm _ _ hI p1
        obtain ⟨jets, j1, rfl⟩ := ih (i0.join j0 :: rest0) (by rw [List.map_cons, hφ]) (hjoin _ _ _ hI')
        have mi : i0 ∈ act := p1.mem_iff.2 (by simp)
        have mj : j0 ∈ act := p1.mem_iff.2 (by simp)
        refine ⟨jets, .pair p1 ?_ ?_ j1, rfl⟩
        · rw [hpair act hI i0 mi j0 mj] at h2
          exact hleast act hI _ h2
        · rwa [hdist act hI i0 mi j0 mj] at h3

/-- The same for the masks, with transverse momenta multiplied by `c`. -/
theorem ktResult_units {rule : FjAlgo → KtRule} (hrule : IsKtRule rule) {c : ℝ} (hc : 0 < c) {argsort : List ℝ → List Nat} (pmu pmu' : List P4)
    (radius pVal : ℝ) (ptCut etaCut : Option ℝ) (topK : TopK) (hR : 0 < radius) (Φ : (Jet → Jet) → Prop)
    (hrun : ∀ algo jets', KtRun (rule algo) radius (ktInput pmu') jets' →
      ∃ φ jets, Φ φ ∧ KtRun (rule algo) radius (ktInput pmu) jets ∧ jets' = jets.map φ)
    (hpt : ∀ φ, Φ φ → ∀ j, (φ j).pmu.pt = c * j.pmu.pt) (heta : etaCut ≠ none → ∀ φ, Φ φ → ∀ j, (φ j).pmu.eta = j.pmu.eta)
    (masks' : List (List Bool)) (h : KtResult rule argsort pmu' radius pVal (ptCut.map (c * ·)) etaCut topK masks') :
    (¬ FjBadArgs radius ptCut etaCut topK → IsArgsortR argsort →
    ∃ masks φ, Φ φ ∧ KtResult rule (fun l => argsort (l.map (c * ·))) pmu radius pVal ptCut etaCut topK masks ∧
      List.Forall₂ (fun m' m => ∃ j : Jet, IsMaskOf pmu'.length (φ j).constituents m' ∧ IsMaskOf pmu.length j.constituents m)
        masks' masks) := by
  intro hbad ha
  obtain ⟨fj, hfj, hm⟩ := h
  -- the jets of the other event
  have hex : ∀ (algo : FjAlgo) (ptMin : ℝ), ∃ (φ : Jet → Jet) (l jets : List Jet), Φ φ ∧ KtRun (rule algo) radius (ktInput pmu) jets ∧
      l.Perm (jets.filter (fun j => decide (ptMin ≤ j.pmu.pt))) ∧ fj pmu' algo radius (c * ptMin) = l.map φ := by
    intro algo ptMin
    obtain ⟨jets', r1, r2⟩ := hfj pmu' algo radius (c * ptMin) hR
    obtain ⟨φ, jets, hφ, j1, rfl⟩ := hrun algo jets' r1
    rw [List.filter_map] at r2
    have : (fun j : Jet => decide (c * ptMin ≤ j.pmu.pt)) ∘ φ = fun j => decide (ptMin ≤ j.pmu.pt) := by
      funext j; simp [hpt φ hφ, mul_le_mul_iff_right₀ hc]
    rw [this] at r2
    obtain ⟨l, l1, l2⟩ := perm_map_inv φ r2.symm _ rfl
    exact ⟨φ, l, jets, hφ, j1, l1.symm, l2⟩
  choose ph l jets hph hl1 hl2 hl3 using hex
  have hall : ∀ (q : List P4) (algo : FjAlgo) (R ptMin : ℝ), 0 < R → ∃ jets, KtRun (rule algo) R (ktInput q) jets :=
    fun q algo R _ h0 => ktRun_exists (rule algo) (hrule.nonneg algo) (hrule.dist_nonneg algo) (hrule.symm algo) h0 _
  choose other ho using hall
  let fj0 : List P4 → FjAlgo → ℝ → ℝ → List Jet := fun q algo R ptMin =>
    if q = pmu ∧ R = radius then l algo ptMin
    else if h0 : 0 < R then (other q algo R ptMin h0).filter (fun j => decide (ptMin ≤ j.pmu.pt)) else []
  have hfj0 : RunsKt rule fj0 := by
    intro q algo R ptMin h0
    by_cases hq : q = pmu ∧ R = radius
    · obtain ⟨rfl, rfl⟩ := hq
      exact ⟨jets algo ptMin, hl1 algo ptMin, by simpa [fj0] using hl2 algo ptMin⟩
    · exact ⟨other q algo R ptMin h0, ho q algo R ptMin h0, by simp [fj0, hq, h0]⟩
  have e0 : ∀ algo ptMin, fj0 pmu algo radius ptMin = l algo ptMin := fun algo ptMin => by simp [fj0]
  obtain ⟨algo0, jets0, sorted0, masks0, q1, q2, q3, q4, q5, q6⟩ := kt_masks hfj0 (argsort_units hc ha) pmu radius pVal ptCut etaCut topK hR hbad
  refine ⟨masks0, ph (fjAlgo pVal) (ptCut.getD 0), hph _ _, ⟨fj0, hfj0, q3⟩, ?_⟩
  have hpt' := hpt _ (hph (fjAlgo pVal) (ptCut.getD 0))
  have heta' : etaCut ≠ none → _ := fun h => heta h _ (hph (fjAlgo pVal) (ptCut.getD 0))
  set φ := ph (fjAlgo pVal) (ptCut.getD 0) with hφ
  -- compare the two computations
  simp only [FjBadArgs, not_or, not_exists, not_and, not_lt] at hbad
  obtain ⟨g1, g2, g3, g4, g5⟩ := hbad
  have b1 : ¬ (ptCut.getD 0 < 0) := by
    cases ptCut with
    | none => simp
    | some c => simpa using g1 c rfl
  have eg : (ptCut.map (c * ·)).getD 0 = c * ptCut.getD 0 := by cases ptCut <;> simp
  have b1' : ¬ (c * ptCut.getD 0 < 0) := not_lt.2 (mul_nonneg hc.le (not_lt.1 b1))
  have b3 : topK.bad = false := by
    cases topK with
    | none => rfl
    | int k => simpa [TopK.bad] using g4 k rfl
    | other => exact absurd rfl g5
  have hpts : (l (fjAlgo pVal) (ptCut.getD 0)).map ((fun j => j.pmu.pt) ∘ φ) =
      ((l (fjAlgo pVal) (ptCut.getD 0)).map (fun j => j.pmu.pt)).map (c * ·) := by
    rw [List.map_map]; exact List.map_congr_left (fun j _ => hpt' j)
  have fin : ∀ ks : List Jet, jetMasks pmu'.length ((topK.cut (ks.map φ)).map Jet.constituents) = .ok masks' →
      jetMasks pmu.length ((topK.cut ks).map Jet.constituents) = .ok masks0 →
      List.Forall₂ (fun m' m => ∃ j : Jet, IsMaskOf pmu'.length (φ j).constituents m' ∧ IsMaskOf pmu.length j.constituents m)
        masks' masks0 := by
    intro ks k1 k2
    rw [TopK.cut_map'] at k1
    replace k1 := (jetMasks_ok _ _ _ k1).2
    replace k2 := (jetMasks_ok _ _ _ k2).2
    rw [List.map_map] at k1
    rw [List.forall₂_map_left_iff] at k1 k2
    generalize topK.cut ks = cs at k1 k2
    clear hm q3 q4 q5 q6
    induction cs generalizing masks' masks0 with
    | nil => cases k1; cases k2; exact .nil
    | cons c cs ih =>
      cases k1 with
      | cons c1 c2 =>
        cases k2 with
        | cons d1 d2 => exact .cons ⟨c, c1, d1⟩ (ih _ _ c2 d2)
  cases etaCut with
  | none =>
    unfold fastjetClusters at hm q3
    simp only [eg, b1, b1', decide_false, not_lt.2 g2, b3, Bool.false_eq_true, if_false, hl3, e0, ← hφ, List.map_map, hpts, gather_map] at hm q3
    rw [← List.map_map, TopK.cut_map'] at hm
    rw [TopK.cut_map'] at q3
    exact fin _ hm q3
  | some cut =>
    unfold fastjetClusters at hm q3
    simp only [eg, b1, b1', decide_false, not_lt.2 g2, not_lt.2 (g3 cut rfl), b3, Bool.false_eq_true, if_false, hl3, e0, ← hφ, List.map_map,
      hpts, gather_map, List.filter_map] at hm q3
    have he : (fun j : Jet => etaWithin j.pmu.eta cut) ∘ φ = fun j => etaWithin j.pmu.eta cut := by
      funext j; simp [heta' (by simp) j]
    rw [he, ← List.map_map, TopK.cut_map'] at hm
    rw [TopK.cut_map'] at q3
    exact fin _ hm q3


theorem scale_units {rule : FjAlgo → KtRule} (hrule : IsKtRule rule) {c : ℝ} (hc : 0 < c) (algo : FjAlgo) :
    ∃ k, 0 < k ∧ ∀ p, Visible p → (rule algo).scale (scale c p) = k * (rule algo).scale p := by
  cases algo with
  | antikt =>
    refine ⟨1 / c ^ 2, by positivity, fun p h => ?_⟩
    rw [hrule.antikt _ (visible_scale h hc), hrule.antikt _ h, pt_scale hc]
    have := h.2
    field_simp
  | cambridge => exact ⟨1, one_pos, fun p h => by rw [hrule.cambridge, hrule.cambridge, one_mul]⟩
  | kt =>
    refine ⟨c ^ 2, by positivity, fun p h => ?_⟩
    rw [hrule.kt _ (visible_scale h hc), hrule.kt _ h, pt_scale hc]; ring
  | genkt n =>
    refine ⟨(c ^ 2) ^ n, rpow_pos_of_pos (by positivity) n, fun p h => ?_⟩
    rw [hrule.genkt _ _ (visible_scale h hc), hrule.genkt _ _ h, pt_scale hc, mul_pow, mul_rpow (by positivity) (by positivity)]

theorem kt_units {rule : FjAlgo → KtRule} (hrule : IsKtRule rule) {c : ℝ} (hc : 0 < c) {argsort : List ℝ → List Nat}
    (ha : IsArgsortR argsort) (pmu : List P4) (hu : Unbalanced pmu) (radius pVal : ℝ) (ptCut etaCut : Option ℝ) (topK : TopK)
    (hR : 0 < radius) (masks : List (List Bool))
    (h : KtResult rule argsort (pmu.map (scale c)) radius pVal (ptCut.map (c * ·)) etaCut topK masks) :
    KtResult rule (fun l => argsort (l.map (c * ·))) pmu radius pVal ptCut etaCut topK masks := by
  have hbad : ¬ FjBadArgs radius ptCut etaCut topK := by
    intro hbad
    have hbad' : FjBadArgs radius (ptCut.map (c * ·)) etaCut topK := by
      unfold FjBadArgs at hbad ⊢
      rcases hbad with ⟨x, rfl, hx⟩ | hbad
      · exact Or.inl ⟨c * x, rfl, mul_neg_of_pos_of_neg hc hx⟩
      · exact Or.inr hbad
    obtain ⟨fj, -, h⟩ := h
    rw [C56_errors fj argsort _ radius pVal _ etaCut topK hbad'] at h
    cases h
  obtain ⟨masks', φ, hφ, h1, h2⟩ := ktResult_units hrule hc pmu (pmu.map (scale c)) radius pVal ptCut etaCut topK hR
    (fun φ => φ = fun j => ⟨scale c j.pmu, j.constituents⟩) (fun algo jets' hrun => by
      obtain ⟨k, hk, hsc⟩ := scale_units hrule hc algo
      obtain ⟨jets, j1, j2⟩ := ktRun_units (S := rule algo) hk (fun j => ⟨scale c j.pmu, j.constituents⟩) (KtInv pmu) (ktInv_perm pmu)
        (ktInv_tail pmu) (ktInv_join pmu) (fun i j => by
          simp only [Jet.join, padd, scale, Jet.mk.injEq, P4.mk.injEq, and_true]
          refine ⟨by ring, by ring, by ring, by ring⟩)
        (fun l hl a ha => hsc _ (ktInv_visible hu hl a ha))
        (fun l hl a ha b hb => by
          have va := ktInv_visible hu hl a ha
          have vb := ktInv_visible hu hl b hb
          rw [dist_scale hrule algo (visible_scale va hc) vb hc, hrule.symm, dist_scale hrule algo vb va hc, hrule.symm])
        hrun (ktInput pmu) (frame_input (scale c) pmu) (ktInv_input pmu)
      exact ⟨_, jets, rfl, j1, j2⟩)
    (fun φ hφ j => by rw [hφ]; exact pt_scale hc _) (fun he φ hφ j => by rw [hφ]; exact eta_scale hc _) masks h hbad ha
  have : masks = masks' := by
    subst hφ
    rw [List.length_map] at h2
    clear h h1
    induction h2 with
    | nil => rfl
    | cons hm _ ih =>
      obtain ⟨j, j1, j2⟩ := hm
      congr 1
      apply List.ext_getElem?
      intro k
      by_cases hk : k < pmu.length
      · have hk1 := hk; have hk2 := hk
        rw [← j1.1] at hk1; rw [← j2.1] at hk2
        have e := (j1.2 k).trans (j2.2 k).symm
        rw [List.getElem?_eq_getElem hk1, List.getElem?_eq_getElem hk2] at e ⊢
        simp only [Option.some.injEq] at e ⊢
        exact Bool.eq_iff_iff.2 e
      · rw [List.getElem?_eq_none (by rw [j1.1]; omega), List.getElem?_eq_none (by rw [j2.1]; omega)]
  rw [this]; exact h1

theorem scale_scale (c d : ℝ) (p : P4) : scale c (scale d p) = scale (c * d) p := by
  simp only [scale, P4.mk.injEq]
  refine ⟨by ring, by ring, by ring, by ring⟩

/-- **C160** `fastjet_clusters` can return the same masks, for every exponent, radius, `eta_cut` and `top_k`, if `pt_cut` is
converted along and no particles balance in transverse momentum. -/
theorem C160_fastjet {rule : FjAlgo → KtRule} (hrule : IsKtRule rule) {c : ℝ} (hc : 0 < c) (pmu : List P4) (hu : Unbalanced pmu)
    (radius pVal : ℝ) (ptCut etaCut : Option ℝ) (topK : TopK) (hR : 0 < radius) (masks : List (List Bool)) :
    (∃ argsort, IsArgsortR argsort ∧
      KtResult rule argsort (pmu.map (scale c)) radius pVal (ptCut.map (c * ·)) etaCut topK masks) ↔
    ∃ argsort, IsArgsortR argsort ∧ KtResult rule argsort pmu radius pVal ptCut etaCut topK masks := by
  constructor
  · rintro ⟨argsort, ha, h⟩
    exact ⟨_, argsort_units hc ha, kt_units hrule hc ha pmu hu radius pVal ptCut etaCut topK hR masks h⟩
  · rintro ⟨argsort, ha, h⟩
    have hi : 0 < c⁻¹ := inv_pos.2 hc
    refine ⟨_, argsort_units hi ha, kt_units hrule hi ha (pmu.map (scale c)) ?_ radius pVal (ptCut.map (c * ·)) etaCut topK hR
      masks ?_⟩
    · intro sel hs hne
      obtain ⟨sel0, h1, rfl⟩ := List.sublist_map_iff.1 hs
      rw [total_units]
      exact visible_scale (hu sel0 h1 (by rintro rfl; exact hne rfl)) hc
    · have e1 : (pmu.map (scale c)).map (scale c⁻¹) = pmu := by
        rw [List.map_map]
        conv_rhs => rw [← List.map_id pmu]
        apply List.map_congr_left
        intro p _
        simp only [Function.comp, scale_scale, inv_mul_cancel₀ hc.ne', scale_one, id]
      have e2 : (ptCut.map (c * ·)).map (c⁻¹ * ·) = ptCut := by
        cases ptCut with
        | none => rfl
        | some x => simp [inv_mul_cancel_left₀ hc.ne']
      rw [e1, e2]; exact h

end Gcl
