import Verif.Props.GenKt
import Verif.Props.Rotation
import Verif.Props.Frames
import Verif.Props.DeltaR
import Verif.Props.PartitionSafety
/-!
# C159: symmetries of what `fastjet_clusters` returns
-/
namespace Gcl
set_option autoImplicit false
open Spec Real Classical

/-- What is kept during a run from the particles. -/
def KtInv (pmu : List P4) (act : List Jet) : Prop :=
  (act.flatMap Jet.constituents).Nodup ∧ (∀ a ∈ act, ∀ i ∈ a.constituents, i < pmu.length) ∧
  (∀ a ∈ act, a.pmu = total (atPos pmu a.constituents)) ∧ ∀ a ∈ act, a.constituents ≠ []

theorem ktInv_input (pmu : List P4) : KtInv pmu (ktInput pmu) := by
  refine ⟨?_, ?_, ktInput_momenta pmu, ktInput_nonempty pmu⟩
  · rw [ktInput_constituents]; exact List.nodup_range
  · intro a ha i hi
    have : i ∈ (ktInput pmu).flatMap Jet.constituents := List.mem_flatMap.2 ⟨a, ha, hi⟩
    rw [ktInput_constituents] at this
    simpa using this

theorem ktInv_perm (pmu : List P4) (l l' : List Jet) (h : KtInv pmu l) (hp : l.Perm l') : KtInv pmu l' :=
  ⟨(hp.flatMap_right _).nodup_iff.1 h.1, fun a ha => h.2.1 a (hp.mem_iff.2 ha), fun a ha => h.2.2.1 a (hp.mem_iff.2 ha),
    fun a ha => h.2.2.2 a (hp.mem_iff.2 ha)⟩

theorem ktInv_tail (pmu : List P4) (i : Jet) (rest : List Jet) (h : KtInv pmu (i :: rest)) : KtInv pmu rest :=
  ⟨by have := h.1; rw [List.flatMap_cons] at this; exact (List.nodup_append.1 this).2.1, fun a ha => h.2.1 a (by simp [ha]),
    fun a ha => h.2.2.1 a (by simp [ha]), fun a ha => h.2.2.2 a (by simp [ha])⟩

theorem ktInv_join (pmu : List P4) (i j : Jet) (rest : List Jet) (h : KtInv pmu (i :: j :: rest)) :
    KtInv pmu (i.join j :: rest) := by
  obtain ⟨h1, h2, h3, h4⟩ := h
  refine ⟨?_, ?_, ?_, ?_⟩
  · simpa [Jet.join, List.flatMap_cons, List.append_assoc] using h1
  · intro a ha k hk
    rcases List.mem_cons.1 ha with rfl | ha
    · rcases List.mem_append.1 hk with hk | hk
      · exact h2 i (by simp) k hk
      · exact h2 j (by simp) k hk
    · exact h2 a (by simp [ha]) k hk
  · intro a ha
    rcases List.mem_cons.1 ha with rfl | ha
    · simp only [Jet.join, atPos, List.filterMap_append]
      rw [total_append, h3 i (by simp), h3 j (by simp)]; rfl
    · exact h3 a (by simp [ha])
  · intro a ha
    rcases List.mem_cons.1 ha with rfl | ha
    · simp [Jet.join, h4 i (by simp)]
    · exact h4 a (by simp [ha])

theorem ktInv_visible {pmu : List P4} (hu : Unbalanced pmu) {act : List Jet} (h : KtInv pmu act) :
    ∀ a ∈ act, Visible a.pmu := by
  intro a ha
  obtain ⟨h1, h2, h3, h4⟩ := h
  rw [List.nodup_flatMap] at h1
  obtain ⟨m, -, hm⟩ := jetMask_spec pmu.length a.constituents (h2 a ha)
  rw [h3 a ha, ← momentumOf_eq pmu _ m hm (h1.1 a ha)]
  refine hu _ ?_ ?_
  · have e : (pmu.zip m).map Prod.fst = pmu := by
      rw [List.map_fst_zip]; rw [hm.1]
    have := (List.filter_sublist (p := Prod.snd) (l := pmu.zip m)).map Prod.fst
    rwa [e] at this
  · obtain ⟨i, hi⟩ := List.exists_mem_of_ne_nil _ (h4 a ha)
    intro hnil
    have hp := select_perm pmu _ m hm (h1.1 a ha)
    rw [hnil] at hp
    have := List.nil_perm.1 hp
    have hmem : pmu[i]'(h2 a ha i hi) ∈ atPos pmu a.constituents :=
      List.mem_filterMap.2 ⟨i, hi, List.getElem?_eq_getElem _⟩
    rw [this] at hmem
    cases hmem

/-- A change of frame as far as the algorithm sees it. -/
structure KtFrame (rule : FjAlgo → KtRule) (f : P4 → P4) : Prop where
  add : ∀ p q, f (padd p q) = padd (f p) (f q)
  zero : f ⟨0, 0, 0, 0⟩ = ⟨0, 0, 0, 0⟩
  pt : ∀ p, (f p).pt = p.pt
  physical : ∀ p, Physical p → Physical (f p)
  dist : ∀ algo p q, Visible p → Visible q → (rule algo).dist (f p) (f q) = (rule algo).dist p q

theorem KtFrame.visible {rule : FjAlgo → KtRule} {f : P4 → P4} (hf : KtFrame rule f) {p : P4} (h : Visible p) : Visible (f p) :=
  ⟨hf.physical p h.1, by rw [hf.pt]; exact h.2⟩

theorem KtFrame.scale {rule : FjAlgo → KtRule} (hrule : IsKtRule rule) {f : P4 → P4} (hf : KtFrame rule f) (algo : FjAlgo)
    {p : P4} (h : Visible p) : (rule algo).scale (f p) = (rule algo).scale p := by
  have h' := hf.visible h
  cases algo with
  | antikt => rw [hrule.antikt _ h', hrule.antikt _ h, hf.pt]
  | cambridge => rw [hrule.cambridge, hrule.cambridge]
  | kt => rw [hrule.kt _ h', hrule.kt _ h, hf.pt]
  | genkt n => rw [hrule.genkt _ _ h', hrule.genkt _ _ h, hf.pt]

theorem KtFrame.total {rule : FjAlgo → KtRule} {f : P4 → P4} (hf : KtFrame rule f) (ps : List P4) :
    total (ps.map f) = f (total ps) := by
  induction ps with
  | nil => simpa [Gcl.total] using hf.zero.symm
  | cons p ps ih => rw [List.map_cons, total_cons, total_cons, ih, hf.add]

theorem frame_input (f : P4 → P4) (pmu : List P4) :
    ktInput (pmu.map f) = (ktInput pmu).map (fun j => ⟨f j.pmu, j.constituents⟩) := by
  unfold ktInput
  rw [List.zipIdx_map]
  simp [List.map_map, Function.comp_def]

/-- In another frame the same masks are possible. -/
theorem kt_frame {rule : FjAlgo → KtRule} (hrule : IsKtRule rule) {f : P4 → P4} (hf : KtFrame rule f)
    {argsort : List ℝ → List Nat} (ha : IsArgsortR argsort) (pmu : List P4) (hu : Unbalanced pmu) (radius pVal : ℝ)
    (ptCut etaCut : Option ℝ) (heta : etaCut ≠ none → ∀ p c, etaWithin (f p).eta c = etaWithin p.eta c) (topK : TopK) (hR : 0 < radius)
    (masks : List (List Bool)) (h : KtResult rule argsort (pmu.map f) radius pVal ptCut etaCut topK masks) :
    KtResult rule argsort pmu radius pVal ptCut etaCut topK masks := by
  have hbad : ¬ FjBadArgs radius ptCut etaCut topK := by
    intro hbad
    obtain ⟨fj, -, h⟩ := h
    rw [C56_errors fj argsort _ radius pVal ptCut etaCut topK hbad] at h
    cases h
  obtain ⟨masks', φ, hφ, h1, h2⟩ := ktResult_map hrule pmu (pmu.map f) radius pVal ptCut etaCut topK hR
    (fun φ => φ = fun j => ⟨f j.pmu, j.constituents⟩) (fun algo jets' hrun => by
      obtain ⟨jets, j1, j2⟩ := ktRun_map (S := rule algo) (fun j => ⟨f j.pmu, j.constituents⟩) (KtInv pmu) (ktInv_perm pmu)
        (ktInv_tail pmu) (ktInv_join pmu) (fun i j => by simp [Jet.join, hf.add])
        (fun l hl a ha => hf.scale hrule algo (ktInv_visible hu hl a ha))
        (fun l hl a ha b hb => hf.dist algo _ _ (ktInv_visible hu hl a ha) (ktInv_visible hu hl b hb)) hrun (ktInput pmu)
        (frame_input f pmu) (ktInv_input pmu)
      exact ⟨_, jets, rfl, j1, j2⟩)
    (fun φ hφ j => by rw [hφ]; exact hf.pt _) (fun he φ hφ j c => by rw [hφ]; exact heta he _ c) masks h hbad ha
  have : masks = masks' := by
    subst hφ
    rw [List.length_map] at h2
    clear h h1
    induction h2 with
    | nil => rfl
    | cons hm _ ih =>
      obtain ⟨j, j1, j2⟩ := hm
      congr 1
      apply List.ext_getElem?
      intro k
      by_cases hk : k < pmu.length
      · have hk1 := hk; have hk2 := hk
        rw [← j1.1] at hk1; rw [← j2.1] at hk2
        have e := (j1.2 k).trans (j2.2 k).symm
        rw [List.getElem?_eq_getElem hk1, List.getElem?_eq_getElem hk2] at e ⊢
        simp only [Option.some.injEq] at e ⊢
        exact Bool.eq_iff_iff.2 e
      · rw [List.getElem?_eq_none (by rw [j1.1]; omega), List.getElem?_eq_none (by rw [j2.1]; omega)]
  rw [this]; exact h1

theorem visible_speed {p : P4} (h : Visible p) : |p.z| < p.e := by
  obtain ⟨⟨h1, h2⟩, h3⟩ := h
  have := pt_sq p
  have h4 : 0 < p.pt ^ 2 := by positivity
  exact abs_lt_of_sq_lt_sq (by nlinarith) h1

theorem exists_angle {p q : P4} (hp : Visible p) (hq : Visible q) :
    ∃ a, -π < a ∧ a ≤ π ∧ AngleEq p.xyPol.arg (q.xyPol.arg + a) := by
  have ne : ∀ {p : P4}, Visible p → p.xyPol ≠ 0 := by
    intro p hp h0
    have : p.pt = 0 := by
      rw [pt_eq]
      have hx : p.x = 0 := by simpa [P4.xyPol] using congrArg Complex.re h0
      have hy : p.y = 0 := by simpa [P4.xyPol] using congrArg Complex.im h0
      simp [hx, hy]
    exact hp.2.ne' this
  obtain ⟨a, h1, h2, h3, -⟩ := C65_cell p.xyPol q.xyPol
  exact ⟨a, h1, h2, h3 (ne hp) (ne hq)⟩

theorem jetRapidity_boost (s : ℝ) {p : P4} (h : Visible p) : jetRapidity (p.shiftRapidity s) = jetRapidity p + s := by
  have hz := abs_lt.1 (visible_speed h)
  have e1 : (p.shiftRapidity s).e + (p.shiftRapidity s).z = Real.exp s * (p.e + p.z) := by
    simp only [P4.shiftRapidity, cosh_neg, sinh_neg]
    rw [← cosh_add_sinh]; ring
  have e2 : (p.shiftRapidity s).e - (p.shiftRapidity s).z = Real.exp (-s) * (p.e - p.z) := by
    simp only [P4.shiftRapidity, cosh_neg, sinh_neg]
    rw [← cosh_sub_sinh]; ring
  unfold jetRapidity
  have p1 : 0 < p.e + p.z := by linarith
  have p2 : 0 < p.e - p.z := by linarith
  rw [e1, e2, log_div (by positivity) (by positivity), log_mul (by positivity) p1.ne', log_mul (by positivity) p2.ne',
    log_exp, log_exp, log_div p1.ne' p2.ne']
  ring

theorem boost_frame {rule : FjAlgo → KtRule} (hrule : IsKtRule rule) (s : ℝ) : KtFrame rule (P4.shiftRapidity s) := by
  have hphys : ∀ p, Physical p → Physical (P4.shiftRapidity s p) := by
    intro p ⟨h1, h2⟩
    have hz : |p.z| ≤ p.e := abs_le_of_sq_le_sq (by nlinarith [sq_nonneg p.x, sq_nonneg p.y]) h1
    obtain ⟨hz1, hz2⟩ := abs_le.1 hz
    have hc : 0 < cosh s := cosh_pos s
    have hcs := cosh_sq s
    refine ⟨?_, ?_⟩
    · simp only [P4.shiftRapidity, cosh_neg, sinh_neg]
      have c1 : sinh s < cosh s := sinh_lt_cosh s
      have c2 : -cosh s < sinh s := by
        have := sinh_lt_cosh (-s)
        rw [sinh_neg, cosh_neg] at this; linarith
      nlinarith
    · have := (C61_invariants s p p).2.2.2.2.2
      simp only [mdot] at this
      have hx := (C61_invariants s p p).1
      have hy := (C61_invariants s p p).2.1
      rw [hx, hy] at this ⊢
      nlinarith
  refine ⟨fun p q => ?_, ?_, fun p => (C61_invariants s p p).2.2.1, hphys, ?_⟩
  · simp only [P4.shiftRapidity, padd, P4.mk.injEq]
    refine ⟨trivial, trivial, by ring, by ring⟩
  · simp [P4.shiftRapidity]
  · intro algo p q hp hq
    have vis : ∀ {p : P4}, Visible p → Visible (p.shiftRapidity s) := fun {p} hp =>
      ⟨hphys p hp.1, by rw [(C61_invariants s p p).2.2.1]; exact hp.2⟩
    obtain ⟨a, a1, a2, a3⟩ := exists_angle hp hq
    rw [hrule.dist algo p q a hp hq a1 a2 a3, hrule.dist algo _ _ a (vis hp) (vis hq) a1 a2 a3,
      jetRapidity_boost s hp, jetRapidity_boost s hq]
    congr 2
    ring

theorem rotation_frame {rule : FjAlgo → KtRule} (hrule : IsKtRule rule) (s : ℝ) : KtFrame rule (P4.shiftPhi s) := by
  have hphys : ∀ p, Physical p → Physical (P4.shiftPhi s p) := by
    intro p ⟨h1, h2⟩
    obtain ⟨i1, i2, i3, -⟩ := C62_invariants s p p
    have e := pt_sq p
    have e' := pt_sq (p.shiftPhi s)
    rw [i3] at e'
    refine ⟨by rw [i2]; exact h1, ?_⟩
    rw [i1, i2]
    nlinarith
  have hphi : ∀ {p : P4}, Visible p → p.phi 0 = .fin p.xyPol.arg := by
    intro p hp
    unfold P4.phi
    rw [abs_of_pos hp.2]
    simp [not_le.2 hp.2]
  refine ⟨fun p q => ?_, ?_, fun p => (C62_invariants s p p).2.2.1, hphys, ?_⟩
  · simp only [P4.shiftPhi, padd, P4.xyPol, P4.mk.injEq]
    refine ⟨?_, ?_, trivial, trivial⟩ <;> simp <;> ring
  · simp [P4.shiftPhi, P4.xyPol]
  · intro algo p q hp hq
    have vis : ∀ {p : P4}, Visible p → Visible (p.shiftPhi s) := fun {p} hp =>
      ⟨hphys p hp.1, by rw [(C62_invariants s p p).2.2.1]; exact hp.2⟩
    have hz : ∀ p : P4, jetRapidity (p.shiftPhi s) = jetRapidity p := fun p => rfl
    have hang : ∀ {p : P4}, Visible p → AngleEq (p.shiftPhi s).xyPol.arg (p.xyPol.arg + s) := by
      intro p hp
      obtain ⟨x, y, e1, e2, e3⟩ := (C62_azimuth le_rfl s p).1 hp.2
      rw [hphi hp] at e1
      rw [hphi (vis hp)] at e2
      cases e1; cases e2
      exact e3
    obtain ⟨a, a1, a2, k, hk⟩ := exists_angle hp hq
    have a3' : AngleEq (p.shiftPhi s).xyPol.arg ((q.shiftPhi s).xyPol.arg + a) := by
      obtain ⟨k1, h1⟩ := hang hp
      obtain ⟨k2, h2⟩ := hang hq
      refine ⟨k + k1 - k2, ?_⟩
      push_cast
      rw [h1, h2, hk]; ring
    rw [hrule.dist algo p q a hp hq a1 a2 ⟨k, hk⟩, hrule.dist algo _ _ a (vis hp) (vis hq) a1 a2 a3', hz, hz]

theorem unbalanced_frame {rule : FjAlgo → KtRule} {f : P4 → P4} (hf : KtFrame rule f) {pmu : List P4} (hu : Unbalanced pmu) :
    Unbalanced (pmu.map f) := by
  intro sel hs hne
  obtain ⟨sel0, h1, rfl⟩ := List.sublist_map_iff.1 hs
  rw [hf.total]
  exact hf.visible (hu sel0 h1 (by rintro rfl; exact hne rfl))

/-- **C159** A common boost along the beam changes nothing in what can be returned, for every exponent, radius, `pt_cut` and
`top_k`, if no particles balance in transverse momentum. -/
theorem C159_boost {rule : FjAlgo → KtRule} (hrule : IsKtRule rule) {argsort : List ℝ → List Nat} (ha : IsArgsortR argsort)
    (pmu : List P4) (hu : Unbalanced pmu) (s radius pVal : ℝ) (ptCut : Option ℝ) (topK : TopK) (hR : 0 < radius)
    (masks : List (List Bool)) :
    KtResult rule argsort (pmu.map (P4.shiftRapidity s)) radius pVal ptCut none topK masks ↔
      KtResult rule argsort pmu radius pVal ptCut none topK masks := by
  constructor
  · exact kt_frame hrule (boost_frame hrule s) ha pmu hu radius pVal ptCut none (by simp) topK hR masks
  · intro h
    refine kt_frame hrule (boost_frame hrule (-s)) ha _ (unbalanced_frame (boost_frame hrule s) hu) radius pVal ptCut none
      (by simp) topK hR masks ?_
    have : (pmu.map (P4.shiftRapidity s)).map (P4.shiftRapidity (-s)) = pmu := by
      rw [List.map_map]
      conv_rhs => rw [← List.map_id pmu]
      refine List.map_congr_left (fun p _ => ?_)
      have hc := cosh_sq s
      rcases p with ⟨x, y, z, e⟩
      simp only [Function.comp, P4.shiftRapidity, neg_neg, cosh_neg, sinh_neg, id, P4.mk.injEq]
      exact ⟨trivial, trivial, by linear_combination z * hc, by linear_combination e * hc⟩
    rwa [this]

/-- **C159** Nor does a common rotation about the beam, with any cuts. -/
theorem C159_rotation {rule : FjAlgo → KtRule} (hrule : IsKtRule rule) {argsort : List ℝ → List Nat} (ha : IsArgsortR argsort)
    (pmu : List P4) (hu : Unbalanced pmu) (s radius pVal : ℝ) (ptCut etaCut : Option ℝ) (topK : TopK) (hR : 0 < radius)
    (masks : List (List Bool)) :
    KtResult rule argsort (pmu.map (P4.shiftPhi s)) radius pVal ptCut etaCut topK masks ↔
      KtResult rule argsort pmu radius pVal ptCut etaCut topK masks := by
  have heta : ∀ (s : ℝ) (p : P4), (p.shiftPhi s).eta = p.eta := by
    intro s p
    have h1 := (C62_invariants s p p).2.2.1
    have h2 := (C62_invariants s p p).1
    have h3 : (p.shiftPhi s).spatialMag = p.spatialMag := by
      have hz : (p.shiftPhi s).ztPol = p.ztPol := by
        apply Complex.ext
        · exact h2
        · exact h1
      unfold P4.spatialMag; rw [hz]
    unfold P4.eta
    rw [h3, h2]
  constructor
  · exact kt_frame hrule (rotation_frame hrule s) ha pmu hu radius pVal ptCut etaCut (fun _ p c => by rw [heta s p]) topK hR masks
  · intro h
    refine kt_frame hrule (rotation_frame hrule (-s)) ha _ (unbalanced_frame (rotation_frame hrule s) hu) radius pVal ptCut etaCut
      (fun _ p c => by rw [heta (-s) p]) topK hR masks ?_
    have : (pmu.map (P4.shiftPhi s)).map (P4.shiftPhi (-s)) = pmu := by
      rw [List.map_map]
      conv_rhs => rw [← List.map_id pmu]
      exact List.map_congr_left (fun p _ => (C62_compose s 0 p).2.1)
    rwa [this]


/-! ### The order of the particles -/

theorem order_input (pmu : List P4) (σ : List Nat) (hσ : σ.Perm (List.range pmu.length)) :
    (ktInput (gather pmu σ)).Perm ((ktInput pmu).map (fun j => ⟨j.pmu, j.constituents.map σ.idxOf⟩)) := by
  let F : Nat → Jet := fun i => ⟨pmu.getD i ⟨0, 0, 0, 0⟩, [σ.idxOf i]⟩
  have hnd : σ.Nodup := hσ.nodup_iff.2 List.nodup_range
  have e1 : (ktInput pmu).map (fun j => (⟨j.pmu, j.constituents.map σ.idxOf⟩ : Jet)) = (List.range pmu.length).map F := by
    apply List.ext_getElem?
    intro k
    by_cases hk : k < pmu.length
    · simp [ktInput, F, hk]
    · simp [ktInput, hk]
  have hlt : ∀ i ∈ σ, i < pmu.length := fun i hi => by simpa using hσ.mem_iff.1 hi
  have hlen : (gather pmu σ).length = σ.length := by
    clear e1 hσ hnd
    unfold gather
    induction σ with
    | nil => rfl
    | cons a σ ih =>
      rw [List.filterMap_cons, List.getElem?_eq_getElem (hlt a (by simp))]
      simp [ih (fun i hi => hlt i (by simp [hi]))]
  have hget : ∀ k : Nat, (gather pmu σ)[k]? = (σ[k]?).bind (fun i => pmu[i]?) := by
    clear e1 hσ hnd hlen
    unfold gather
    induction σ with
    | nil => intro k; simp
    | cons a σ ih =>
      intro k
      rw [List.filterMap_cons, List.getElem?_eq_getElem (hlt a (by simp))]
      cases k with
      | zero => simp [hlt a (by simp)]
      | succ k => simpa using ih (fun i hi => hlt i (by simp [hi])) k
  have e2 : ktInput (gather pmu σ) = σ.map F := by
    apply List.ext_getElem?
    intro k
    by_cases hk : k < σ.length
    · have hp : σ[k] < pmu.length := hlt _ (List.getElem_mem hk)
      have h1 := hget k
      rw [List.getElem?_eq_getElem hk] at h1
      simp only [Option.bind_some, List.getElem?_eq_getElem hp] at h1
      have hk' : k < (gather pmu σ).length := by rw [hlen]; exact hk
      rw [List.getElem?_eq_getElem hk'] at h1
      have h2 : (gather pmu σ)[k] = pmu[σ[k]] := Option.some.inj h1
      have h3 : σ.idxOf σ[k] = k := hnd.idxOf_getElem k hk
      simp [ktInput, F, hk', hk, h2, h3, hp]
    · simp [ktInput, hk, hlen]
  rw [e1, e2]
  exact hσ.map F

/-- **C159** The order of the particles makes no difference: with the particles taken in another order `σ`, the masks that
can be returned are those of the original order, rearranged in the same way. -/
theorem C159_order {rule : FjAlgo → KtRule} (hrule : IsKtRule rule) {argsort : List ℝ → List Nat} (ha : IsArgsortR argsort)
    (pmu : List P4) (σ : List Nat) (hσ : σ.Perm (List.range pmu.length)) (radius pVal : ℝ) (ptCut etaCut : Option ℝ)
    (topK : TopK) (hR : 0 < radius) (masks' : List (List Bool))
    (h : KtResult rule argsort (gather pmu σ) radius pVal ptCut etaCut topK masks') :
    ∃ masks, KtResult rule argsort pmu radius pVal ptCut etaCut topK masks ∧
      List.Forall₂ (fun m' m => m'.length = pmu.length ∧ m.length = pmu.length ∧
        ∀ k i : Nat, σ[k]? = some i → m'[k]? = m[i]?) masks' masks := by
  have hbad : ¬ FjBadArgs radius ptCut etaCut topK := by
    intro hbad
    obtain ⟨fj, -, h⟩ := h
    rw [C56_errors fj argsort _ radius pVal ptCut etaCut topK hbad] at h
    cases h
  have hlen : (gather pmu σ).length = pmu.length := by
    have := (order_input pmu σ hσ).length_eq
    simpa [ktInput] using this
  have hnd : σ.Nodup := hσ.nodup_iff.2 List.nodup_range
  obtain ⟨masks, φ, hφ, h1, h2⟩ := ktResult_map hrule pmu (gather pmu σ) radius pVal ptCut etaCut topK hR
    (fun φ => φ = fun j => ⟨j.pmu, j.constituents.map σ.idxOf⟩) (fun algo jets' hrun => by
      obtain ⟨jets, j1, j2⟩ := ktRun_map (S := rule algo) (fun j => ⟨j.pmu, j.constituents.map σ.idxOf⟩) (fun _ => True)
        (fun _ _ _ _ => trivial) (fun _ _ _ => trivial) (fun _ _ _ _ => trivial) (fun i j => by simp [Jet.join])
        (fun _ _ _ _ => rfl) (fun _ _ _ _ _ _ => rfl) (ktRun_perm (hrule.symm algo) (order_input pmu σ hσ) hrun) (ktInput pmu)
        rfl trivial
      exact ⟨_, jets, rfl, j1, j2⟩)
    (fun φ hφ j => by rw [hφ]) (fun _ φ hφ j c => by rw [hφ]) masks' h hbad ha
  refine ⟨masks, h1, h2.imp ?_⟩
  subst hφ
  rintro m' m ⟨j, j1, j2⟩
  rw [hlen] at j1
  refine ⟨j1.1, j2.1, fun k i hki => ?_⟩
  obtain ⟨hk, hki'⟩ := List.getElem?_eq_some_iff.1 hki
  have hi : i < pmu.length := by
    have := hσ.mem_iff.1 (List.mem_of_getElem? hki)
    simpa using this
  have hk' : k < pmu.length := by have := hσ.length_eq; simp at this; omega
  have e : m'[k]? = some true ↔ m[i]? = some true := by
    rw [j1.2 k, j2.2 i, List.mem_map]
    constructor
    · rintro ⟨c, c1, c2⟩
      have hcm : m[c]? = some true := (j2.2 c).2 c1
      have hc : c < pmu.length := by rw [← j2.1]; exact (List.getElem?_eq_some_iff.1 hcm).1
      have hcσ : c ∈ σ := hσ.mem_iff.2 (by simpa using hc)
      have : σ[σ.idxOf c]? = some c := by
        rw [List.getElem?_eq_getElem (List.idxOf_lt_length_iff.2 hcσ)]
        simp
      rw [c2, hki] at this
      cases this
      exact c1
    · intro hi'
      refine ⟨i, hi', ?_⟩
      subst hki'
      exact hnd.idxOf_getElem k hk
  have l1 : k < m'.length := by rw [j1.1]; exact hk'
  have l2 : i < m.length := by rw [j2.1]; exact hi
  rw [List.getElem?_eq_getElem l1, List.getElem?_eq_getElem l2] at e ⊢
  simp only [Option.some.injEq] at e ⊢
  exact Bool.eq_iff_iff.2 e

/-! ### Collinear splittings -/

theorem padd_comm' (p q : P4) : padd p q = padd q p := by simp [padd, add_comm]

theorem visible_scale {p : P4} (h : Visible p) {c : ℝ} (hc : 0 < c) : Visible (scale c p) := by
  obtain ⟨⟨h1, h2⟩, h3⟩ := h
  refine ⟨⟨by simp only [scale]; positivity, ?_⟩, by rw [pt_scale hc]; positivity⟩
  simp only [scale]
  have : 0 < c ^ 2 := by positivity
  nlinarith

theorem scale_add (c : ℝ) (p : P4) : padd p (scale c p) = scale (1 + c) p := by
  simp only [padd, scale, P4.mk.injEq]
  refine ⟨by ring, by ring, by ring, by ring⟩

theorem scale_pos {rule : FjAlgo → KtRule} (hrule : IsKtRule rule) (algo : FjAlgo) {p : P4} (h : Visible p) :
    0 < (rule algo).scale p := by
  have := h.2
  cases algo with
  | antikt => rw [hrule.antikt p h]; positivity
  | cambridge => rw [hrule.cambridge]; norm_num
  | kt => rw [hrule.kt p h]; positivity
  | genkt n => rw [hrule.genkt n p h]; exact rpow_pos_of_pos (by positivity) n

theorem dist_scale {rule : FjAlgo → KtRule} (hrule : IsKtRule rule) (algo : FjAlgo) {p q : P4} (hp : Visible p)
    (hq : Visible q) {c : ℝ} (hc : 0 < c) : (rule algo).dist p (scale c q) = (rule algo).dist p q := by
  obtain ⟨a, a1, a2, a3⟩ := exists_angle hp hq
  have e1 : (scale c q).xyPol.arg = q.xyPol.arg := by
    rw [xyPol_scale, Complex.arg_real_mul _ hc]
  have e2 : jetRapidity (scale c q) = jetRapidity q := by
    unfold jetRapidity
    simp only [scale]
    rw [← mul_add, ← mul_sub, mul_div_mul_left _ _ hc.ne']
  rw [hrule.dist algo p q a hp hq a1 a2 a3, hrule.dist algo p _ a hp (visible_scale hq hc) a1 a2 (by rw [e1]; exact a3), e2]

theorem dist_self {rule : FjAlgo → KtRule} (hrule : IsKtRule rule) (algo : FjAlgo) {p : P4} (hp : Visible p) :
    (rule algo).dist p p = 0 := by
  rw [hrule.dist algo p p 0 hp hp (by linarith [pi_pos]) pi_pos.le ⟨0, by simp⟩]
  simp

/-- A mask with its last entry twice. -/
def Spec.LastTwice (m' m : List Bool) (n : Nat) : Prop :=
  m.length = n + 1 ∧ m'.length = n + 2 ∧ (∀ k : Nat, k < n → m'[k]? = m[k]?) ∧ m'[n]? = m[n]? ∧ m'[n + 1]? = m[n]?

/-- **C159** Collinear safety: if the last particle is split into two along its direction, the masks that can be returned
are those of the event without the split, with both parts in the place of the particle.  For every exponent, radius and all
cuts; no two of the other particles may be exactly at distance zero. -/
theorem C159_collinear {rule : FjAlgo → KtRule} (hrule : IsKtRule rule) {argsort : List ℝ → List Nat} (ha : IsArgsortR argsort)
    (ps : List P4) (p : P4) (c : ℝ) (hc : 0 < c) (hvis : ∀ q ∈ ps ++ [p], Visible q)
    (hsep : ∀ algo, (ps ++ [p]).Pairwise (fun a b => 0 < (rule algo).dist a b)) (radius pVal : ℝ) (ptCut etaCut : Option ℝ)
    (topK : TopK) (hR : 0 < radius) (masks' : List (List Bool))
    (h : KtResult rule argsort (ps ++ [p, scale c p]) radius pVal ptCut etaCut topK masks') :
    ∃ masks, KtResult rule argsort (ps ++ [padd p (scale c p)]) radius pVal ptCut etaCut topK masks ∧
      List.Forall₂ (fun m' m => LastTwice m' m ps.length) masks' masks := by
  have hbad : ¬ FjBadArgs radius ptCut etaCut topK := by
    intro hbad
    obtain ⟨fj, -, h⟩ := h
    rw [C56_errors fj argsort _ radius pVal ptCut etaCut topK hbad] at h
    cases h
  have vp : Visible p := hvis p (by simp)
  have vc := visible_scale vp hc
  set n := ps.length with hn
  let g1 : Nat → List Nat := fun k => if k = n then [n, n + 1] else [k]
  let g2 : Nat → List Nat := fun k => if k = n then [n + 1, n] else [k]
  let φ : (Nat → List Nat) → Jet → Jet := fun g j => ⟨j.pmu, j.constituents.flatMap g⟩
  let ja : Jet := ⟨p, [n]⟩
  let jb : Jet := ⟨scale c p, [n + 1]⟩
  have ein : ktInput (ps ++ [p, scale c p]) = ktInput ps ++ [ja, jb] := by
    simp [ktInput, List.zipIdx_append, ja, jb, hn]
  have ein2 : ktInput (ps ++ [padd p (scale c p)]) = ktInput ps ++ [⟨padd p (scale c p), [n]⟩] := by
    simp [ktInput, List.zipIdx_append, hn]
  have hmemin : ∀ a ∈ ktInput ps, ∃ q k, q ∈ ps ∧ k < n ∧ a = ⟨q, [k]⟩ := by
    intro a ha
    obtain ⟨⟨q, k⟩, h1, rfl⟩ := List.mem_map.1 ha
    have := List.mem_zipIdx_iff_getElem?.1 h1
    obtain ⟨hk, hq⟩ := List.getElem?_eq_some_iff.1 this
    exact ⟨q, k, List.mem_of_getElem? this, hk, rfl⟩
  have hfix : ∀ g : Nat → List Nat, (∀ k, k < n → g k = [k]) → (ktInput ps).map (φ g) = ktInput ps := by
    intro g hg
    conv_rhs => rw [← List.map_id (ktInput ps)]
    refine List.map_congr_left (fun a ha => ?_)
    obtain ⟨q, k, -, hk, rfl⟩ := hmemin a ha
    simp [φ, hg k hk]
  have hsim : ∀ (algo : FjAlgo) (jets' : List Jet), KtRun (rule algo) radius (ktInput (ps ++ [p, scale c p])) jets' →
      ∃ φ' jets, (φ' = φ g1 ∨ φ' = φ g2) ∧ KtRun (rule algo) radius (ktInput (ps ++ [padd p (scale c p)])) jets ∧
        jets' = jets.map φ' := by
    intro algo jets' hrun
    rw [ein] at hrun
    have hsc : ∀ a ∈ ktInput ps ++ [ja, jb], 0 < (rule algo).scale a.pmu := by
      intro a ha
      rcases List.mem_append.1 ha with ha | ha
      · obtain ⟨q, k, hq, -, rfl⟩ := hmemin a ha
        exact scale_pos hrule algo (hvis q (by simp [hq]))
      · simp only [List.mem_cons, List.not_mem_nil, or_false] at ha
        rcases ha with rfl | rfl
        · exact scale_pos hrule algo vp
        · exact scale_pos hrule algo vc
    have hab : (rule algo).dist p (scale c p) = 0 := by rw [dist_scale hrule algo vp vp hc, dist_self hrule algo vp]
    have hpab : (rule algo).pair radius ja jb = 0 := by
      unfold KtRule.pair
      rw [show ja.pmu = p from rfl, show jb.pmu = scale c p from rfl, hab]; simp
    -- the only pair at distance zero
    have honly : (ktInput ps ++ [ja, jb]).Pairwise (fun x y => (rule algo).dist x.pmu y.pmu = 0 →
        (x = ja ∧ y = jb) ∨ (x = jb ∧ y = ja)) := by
      rw [List.pairwise_append]
      refine ⟨?_, ?_, ?_⟩
      · have h1 := (List.pairwise_append.1 (hsep algo)).1
        rw [← List.zipIdx_map_fst 0 ps, List.pairwise_map] at h1
        unfold ktInput
        rw [List.pairwise_map]
        exact h1.imp (fun {a b} hab h0 => absurd h0 hab.ne')
      · simp
      · intro a ha b hb
        obtain ⟨q, k, hq, -, rfl⟩ := hmemin a ha
        have hqp : 0 < (rule algo).dist q p := (List.pairwise_append.1 (hsep algo)).2.2 q hq p (by simp)
        simp only [List.mem_cons, List.not_mem_nil, or_false] at hb
        rcases hb with rfl | rfl
        · intro h0; exact absurd h0 hqp.ne'
        · intro h0
          have h0' : (rule algo).dist q (scale c p) = 0 := h0
          rw [dist_scale hrule algo (hvis q (by simp [hq])) vp hc] at h0'
          exact absurd h0' hqp.ne'
    have hle : ∀ d, (rule algo).Least radius (ktInput ps ++ [ja, jb]) d → d ≤ 0 := by
      intro d hd
      have := (List.pairwise_append.1 hd.2).2.1
      simp only [List.pairwise_cons, List.mem_cons, List.not_mem_nil, or_false, forall_eq] at this
      rw [← hpab]; exact this.1
    -- what follows the first step
    have fin : ∀ (g : Nat → List Nat) (rest : List Jet), (∀ k, k < n → g k = [k]) → (g = g1 ∨ g = g2) →
        (ktInput ps).Perm rest → KtRun (rule algo) radius (⟨padd p (scale c p), g n⟩ :: rest) jets' →
        ∃ φ' jets, (φ' = φ g1 ∨ φ' = φ g2) ∧ KtRun (rule algo) radius (ktInput (ps ++ [padd p (scale c p)])) jets ∧
        jets' = jets.map φ' := by
      intro g rest hg hor hperm hr
      have hact : (⟨padd p (scale c p), g n⟩ :: rest : List Jet).Perm ((ktInput (ps ++ [padd p (scale c p)])).map (φ g)) := by
        rw [ein2, List.map_append, hfix g hg]
        simp only [List.map_cons, List.map_nil, φ, List.flatMap_cons, List.flatMap_nil, List.append_nil]
        exact (hperm.symm.cons _).trans (List.perm_append_singleton _ _).symm
      obtain ⟨jets, j1, j2⟩ := ktRun_map (S := rule algo) (φ g) (fun _ => True)
        (fun _ _ _ _ => trivial) (fun _ _ _ => trivial) (fun _ _ _ _ => trivial) (fun i j => by simp [Jet.join, φ])
        (fun _ _ _ _ => rfl) (fun _ _ _ _ _ _ => rfl) (ktRun_perm (hrule.symm algo) hact hr) _ rfl trivial
      refine ⟨φ g, jets, ?_, j1, j2⟩
      rcases hor with rfl | rfl
      · exact Or.inl rfl
      · exact Or.inr rfl
    have hrest : ∀ rest, (ktInput ps ++ [ja, jb]).Perm (ja :: jb :: rest) → (ktInput ps).Perm rest := by
      intro rest hp
      have : (ja :: jb :: ktInput ps).Perm (ja :: jb :: rest) := (List.perm_append_comm (l₁ := [ja, jb])).trans hp
      exact (this.cons_inv).cons_inv
    generalize hact : ktInput ps ++ [ja, jb] = act at hrun
    cases hrun with
    | done => simp at hact
    | @beam _ rest _ i h1 h2 _ =>
      subst hact
      exact absurd (hle _ h2) (not_le.2 (hsc i (h1.mem_iff.2 (by simp))))
    | @pair _ rest _ i j h1 h2 h3 h4 =>
      subst hact
      have hd0 : (rule algo).dist i.pmu j.pmu = 0 := by
        have hl := hle _ h2
        unfold KtRule.pair at hl
        have s1 := hsc i (h1.mem_iff.2 (by simp))
        have s2 := hsc j (h1.mem_iff.2 (by simp))
        have s3 : 0 < min ((rule algo).scale i.pmu) ((rule algo).scale j.pmu) := lt_min s1 s2
        have s4 : ((rule algo).dist i.pmu j.pmu / radius) ^ 2 ≤ 0 := by
          by_contra hcon
          rw [not_le] at hcon
          exact absurd hl (not_le.2 (mul_pos s3 hcon))
        have s5 : (rule algo).dist i.pmu j.pmu / radius = 0 := by
          exact pow_eq_zero_iff (two_ne_zero) |>.1 (le_antisymm s4 (sq_nonneg _))
        rcases div_eq_zero_iff.1 s5 with h | h
        · exact h
        · exact absurd h hR.ne'
      have hpw := (h1.pairwise_iff (R := fun x y : Jet => (rule algo).dist x.pmu y.pmu = 0 →
        (x = ja ∧ y = jb) ∨ (x = jb ∧ y = ja)) (fun {x y} hxy h0 => by
          rw [hrule.symm] at h0
          rcases hxy h0 with ⟨h1, h2⟩ | ⟨h1, h2⟩
          · exact Or.inr ⟨h2, h1⟩
          · exact Or.inl ⟨h2, h1⟩)).1 honly
      rcases (List.pairwise_cons.1 hpw).1 j (by simp) hd0 with ⟨rfl, rfl⟩ | ⟨rfl, rfl⟩
      · refine fin g1 rest (fun k hk => by simp [g1, hk.ne]) (Or.inl rfl) (hrest rest h1) ?_
        simpa [g1, Jet.join, ja, jb] using h4
      · refine fin g2 rest (fun k hk => by simp [g2, hk.ne]) (Or.inr rfl) (hrest rest (h1.trans (.swap _ _ _))) ?_
        rw [padd_comm']
        simpa [g2, Jet.join, ja, jb] using h4
  obtain ⟨masks, φ', hφ', h1, h2⟩ := ktResult_map hrule (ps ++ [padd p (scale c p)]) (ps ++ [p, scale c p]) radius pVal ptCut
    etaCut topK hR (fun φ' => φ' = φ g1 ∨ φ' = φ g2) hsim (by rintro φ' (rfl | rfl) j <;> rfl)
    (by rintro - φ' (rfl | rfl) j c <;> rfl) masks' h hbad ha
  refine ⟨masks, h1, h2.imp ?_⟩
  rintro m' m ⟨j, j1, j2⟩
  have hl1 : m'.length = n + 2 := by rw [j1.1]; simp [hn]
  have hl2 : m.length = n + 1 := by rw [j2.1]; simp [hn]
  have hmem : ∀ k, k ∈ (φ' j).constituents ↔ (k ≠ n + 1 ∧ k ∈ j.constituents) ∨ (k = n + 1 ∧ n ∈ j.constituents) := by
    intro k
    have hlt : ∀ i ∈ j.constituents, i < n + 1 := by
      intro i hi
      have := (j2.2 i).2 hi
      rw [← hl2]; exact (List.getElem?_eq_some_iff.1 this).1
    rcases hφ' with rfl | rfl
    · simp only [φ, List.mem_flatMap, g1]
      constructor
      · rintro ⟨i, i1, i2⟩
        have := hlt i i1
        split_ifs at i2 with hi
        · subst hi
          simp only [List.mem_cons, List.not_mem_nil, or_false] at i2
          rcases i2 with rfl | rfl
          · exact Or.inl ⟨by omega, i1⟩
          · exact Or.inr ⟨rfl, i1⟩
        · simp only [List.mem_cons, List.not_mem_nil, or_false] at i2
          subst i2
          exact Or.inl ⟨by omega, i1⟩
      · rintro (⟨k1, k2⟩ | ⟨rfl, k2⟩)
        · refine ⟨k, k2, ?_⟩
          split_ifs with hk <;> simp [hk]
        · exact ⟨n, k2, by simp⟩
    · simp only [φ, List.mem_flatMap, g2]
      constructor
      · rintro ⟨i, i1, i2⟩
        have := hlt i i1
        split_ifs at i2 with hi
        · subst hi
          simp only [List.mem_cons, List.not_mem_nil, or_false] at i2
          rcases i2 with rfl | rfl
          · exact Or.inr ⟨rfl, i1⟩
          · exact Or.inl ⟨by omega, i1⟩
        · simp only [List.mem_cons, List.not_mem_nil, or_false] at i2
          subst i2
          exact Or.inl ⟨by omega, i1⟩
      · rintro (⟨k1, k2⟩ | ⟨rfl, k2⟩)
        · refine ⟨k, k2, ?_⟩
          split_ifs with hk <;> simp [hk]
        · exact ⟨n, k2, by simp⟩
  have heq : ∀ k i : Nat, k < n + 2 → i < n + 1 → (k ∈ (φ' j).constituents ↔ i ∈ j.constituents) → m'[k]? = m[i]? := by
    intro k i hk hi hki
    have e := ((j1.2 k).trans hki).trans (j2.2 i).symm
    rw [List.getElem?_eq_getElem (by omega), List.getElem?_eq_getElem (by omega)] at e ⊢
    simp only [Option.some.injEq] at e ⊢
    exact Bool.eq_iff_iff.2 e
  refine ⟨hl2, hl1, fun k hk => heq k k (by omega) (by omega) ?_, heq n n (by omega) (by omega) ?_,
    heq (n + 1) n (by omega) (by omega) ?_⟩
  · rw [hmem]; constructor
    · rintro (h | h)
      · exact h.2
      · omega
    · intro h; exact Or.inl ⟨by omega, h⟩
  · rw [hmem]; constructor
    · rintro (h | h)
      · exact h.2
      · omega
    · intro h; exact Or.inl ⟨by omega, h⟩
  · rw [hmem]; constructor
    · rintro (h | h)
      · omega
      · exact h.2
    · intro h; exact Or.inr ⟨rfl, h⟩

end Gcl
