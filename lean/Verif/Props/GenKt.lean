import Verif.Lemmas.GenKt
/-!
# C159: what `fastjet_clusters` returns with the generalised-kt algorithm
-/
namespace Gcl
set_option autoImplicit false
open Spec Real Classical

theorem firstK_sublist {α : Type} (k : TopK) (l : List α) : (firstK k l).Sublist l := by
  cases k <;> simp [firstK, List.take_sublist]

/-- The masks and the jets of the run behind them. -/
theorem kt_masks {rule : FjAlgo → KtRule} {fj : List P4 → FjAlgo → ℝ → ℝ → List Jet} (hfj : RunsKt rule fj)
    {argsort : List ℝ → List Nat} (ha : IsArgsortR argsort) (pmu : List P4) (radius pVal : ℝ) (ptCut etaCut : Option ℝ)
    (topK : TopK) (hR : 0 < radius) (h : ¬ FjBadArgs radius ptCut etaCut topK) :
    ∃ (algo : FjAlgo) (jets sorted : List Jet) (masks : List (List Bool)), AlgoFor pVal algo ∧
      KtRun (rule algo) radius (ktInput pmu) jets ∧
      fastjetClusters fj argsort pmu radius pVal ptCut etaCut topK = .ok masks ∧
      sorted.Perm (jets.filter (fun j => decide (ptCut.getD 0 ≤ j.pmu.pt))) ∧
      sorted.Pairwise (fun a b => b.pmu.pt ≤ a.pmu.pt) ∧
      List.Forall₂ (fun (j : Jet) m => IsMaskOf pmu.length j.constituents m)
        (firstK topK (sorted.filter (fun j => decide (EtaOk etaCut j)))) masks := by
  obtain ⟨algo, halgo, h1⟩ := C56_masks fj argsort ha pmu radius pVal ptCut etaCut topK h
  obtain ⟨jets, hrun, hperm⟩ := hfj pmu algo radius (ptCut.getD 0) hR
  obtain ⟨g1, -, -⟩ := ktRun_input hrun
  obtain ⟨g2, -, -⟩ := jets_in_range g1
  obtain ⟨sorted, kept, masks, m1, m2, m3, m4, m5⟩ := h1 (fun j hj => g2 j (List.mem_of_mem_filter (hperm.mem_iff.1 hj)))
  subst m4
  exact ⟨algo, jets, sorted, masks, halgo, hrun, m1, m2.trans hperm, m3, m5⟩

theorem forall₂_pairwise {α β : Type} {r : α → β → Prop} {P : α → α → Prop} {Q : β → β → Prop} {l : List α} {l' : List β}
    (h : List.Forall₂ r l l') (hp : l.Pairwise P) (himp : ∀ a ∈ l, ∀ a' ∈ l, ∀ b b', r a b → r a' b' → P a a' → Q b b') :
    l'.Pairwise Q := by
  induction h with
  | nil => exact .nil
  | cons h hs ih =>
    obtain ⟨p1, p2⟩ := List.pairwise_cons.1 hp
    refine .cons (fun b hb => ?_) (ih p2 (fun a ha a' ha' => himp a (by simp [ha]) a' (by simp [ha'])))
    obtain ⟨a, ha, hr⟩ := forall₂_mem_right hs hb
    exact himp _ (by simp) a (by simp [ha]) _ _ h hr (p1 a ha)

/-- **C159** Every mask has one entry per particle and selects at least one; no two select the same particle; the summed
momentum of each has at least the transverse momentum `pt_cut` and a pseudorapidity within `eta_cut`; and the transverse
momenta of the sums do not increase along the list. -/
theorem C159_masks {rule : FjAlgo → KtRule} {fj : List P4 → FjAlgo → ℝ → ℝ → List Jet} (hfj : RunsKt rule fj)
    {argsort : List ℝ → List Nat} (ha : IsArgsortR argsort) (pmu : List P4) (radius pVal : ℝ) (ptCut etaCut : Option ℝ)
    (topK : TopK) (hR : 0 < radius) (h : ¬ FjBadArgs radius ptCut etaCut topK) :
    ∃ masks, fastjetClusters fj argsort pmu radius pVal ptCut etaCut topK = .ok masks ∧
      (∀ m ∈ masks, m.length = pmu.length ∧ true ∈ m) ∧
      masks.Pairwise (fun a b => ∀ i : Nat, ¬ (a[i]? = some true ∧ b[i]? = some true)) ∧
      (∀ m ∈ masks, ptCut.getD 0 ≤ (momentumOf pmu m).pt) ∧
      (∀ cut, etaCut = some cut → ∀ m ∈ masks, ∃ η, (momentumOf pmu m).eta = .fin η ∧ |η| < cut) ∧
      masks.Pairwise (fun a b => (momentumOf pmu b).pt ≤ (momentumOf pmu a).pt) ∧
      (∀ k, topK = .int k → (masks.length : Int) ≤ k) := by
  obtain ⟨algo, jets, sorted, masks, halgo, hrun, m1, m2, m3, m4⟩ := kt_masks hfj ha pmu radius pVal ptCut etaCut topK hR h
  obtain ⟨g1, g2, g3⟩ := ktRun_input hrun
  obtain ⟨r1, r2, r3⟩ := jets_in_range g1
  have hsub : (firstK topK (sorted.filter (fun j => decide (EtaOk etaCut j)))).Sublist sorted :=
    (firstK_sublist _ _).trans List.filter_sublist
  have hmem : ∀ j ∈ firstK topK (sorted.filter (fun j => decide (EtaOk etaCut j))), j ∈ jets ∧ ptCut.getD 0 ≤ j.pmu.pt := by
    intro j hj
    have := List.mem_filter.1 (m2.mem_iff.1 (hsub.mem hj))
    exact ⟨this.1, by simpa using this.2⟩
  have hmom : ∀ j ∈ firstK topK (sorted.filter (fun j => decide (EtaOk etaCut j))), ∀ m,
      IsMaskOf pmu.length j.constituents m → momentumOf pmu m = j.pmu := by
    intro j hj m hm
    rw [momentumOf_eq pmu _ m hm (r2 j (hmem j hj).1), g2 j (hmem j hj).1]
  refine ⟨masks, m1, ?_, ?_, ?_, ?_, ?_, ?_⟩
  · intro m hm
    obtain ⟨j, hj, hr⟩ := forall₂_mem_right m4 hm
    refine ⟨hr.1, ?_⟩
    obtain ⟨i, hi⟩ := List.exists_mem_of_ne_nil _ (g3 j (hmem j hj).1)
    exact List.mem_of_getElem? ((hr.2 i).2 hi)
  · have hd : sorted.Pairwise (fun a b => ∀ i ∈ a.constituents, i ∉ b.constituents) := by
      refine (List.Perm.pairwise_iff (fun {a b} hab i hi hi' => hab i hi' hi) m2).2 ?_
      exact r3.sublist List.filter_sublist
    refine forall₂_pairwise m4 (hd.sublist hsub) ?_
    intro a _ a' _ b b' hb hb' hP i hi
    exact hP i ((hb.2 i).1 hi.1) ((hb'.2 i).1 hi.2)
  · intro m hm
    obtain ⟨j, hj, hr⟩ := forall₂_mem_right m4 hm
    rw [hmom j hj m hr]
    exact (hmem j hj).2
  · intro cut hcut m hm
    obtain ⟨j, hj, hr⟩ := forall₂_mem_right m4 hm
    rw [hmom j hj m hr]
    have := (List.mem_filter.1 ((firstK_sublist _ _).mem hj)).2
    exact (of_decide_eq_true this) cut hcut
  · refine forall₂_pairwise m4 (m3.sublist hsub) ?_
    intro a ha' a' ha'' b b' hb hb' hP
    rw [hmom a ha' b hb, hmom a' ha'' b' hb']
    exact hP
  · intro k hk
    subst hk
    rw [← m4.length_eq]
    simp only [firstK, List.length_take]
    have : 1 ≤ k := by
      by_contra hlt
      exact h (Or.inr (Or.inr (Or.inr (Or.inl ⟨k, rfl, not_le.1 hlt⟩))))
    omega

theorem total_flatMap {α : Type} (l : List α) (f : α → List P4) : total (l.flatMap f) = total (l.map (fun a => total (f a))) := by
  induction l with
  | nil => simp [total]
  | cons a l ih =>
    rw [List.flatMap_cons, total_append, ih, List.map_cons, total_cons]

/-- **C159** Without cuts every particle is selected by one mask, and the momenta of the masks add up to that of all
particles. -/
theorem C159_all {rule : FjAlgo → KtRule} {fj : List P4 → FjAlgo → ℝ → ℝ → List Jet} (hfj : RunsKt rule fj)
    {argsort : List ℝ → List Nat} (ha : IsArgsortR argsort) (pmu : List P4) (radius pVal : ℝ) (hR : 0 < radius)
    (masks : List (List Bool)) (hm : fastjetClusters fj argsort pmu radius pVal none none .none = .ok masks) :
    (∀ i : Nat, i < pmu.length → ∃ m ∈ masks, m[i]? = some true) ∧
    total (masks.map (momentumOf pmu)) = total pmu := by
  obtain ⟨algo, jets, sorted, masks', halgo, hrun, m1, m2, m3, m4⟩ := kt_masks hfj ha pmu radius pVal none none .none hR
    (by simp [FjBadArgs, hR.le])
  rw [hm] at m1
  cases m1
  obtain ⟨g1, g2, g3⟩ := ktRun_input hrun
  obtain ⟨r1, r2, r3⟩ := jets_in_range g1
  have hall : sorted.Perm jets := by
    refine m2.trans (List.Perm.of_eq (List.filter_eq_self.2 (fun j _ => ?_)))
    simp only [Option.getD_none, decide_eq_true_eq]
    exact pt_nonneg _
  have hk : firstK TopK.none (sorted.filter (fun j => decide (EtaOk none j))) = sorted := by
    show sorted.filter _ = sorted
    exact List.filter_eq_self.2 (fun j _ => by simp [EtaOk])
  rw [hk] at m4
  constructor
  · intro i hi
    have : i ∈ jets.flatMap Jet.constituents := g1.mem_iff.2 (by simpa using hi)
    obtain ⟨j, hj, hij⟩ := List.mem_flatMap.1 this
    obtain ⟨m, hm', hr⟩ := forall₂_mem_left m4 (hall.mem_iff.2 hj)
    exact ⟨m, hm', (hr.2 i).2 hij⟩
  · have e1 : masks.map (momentumOf pmu) = sorted.map Jet.pmu := by
      have : ∀ j ∈ sorted, ∀ m, IsMaskOf pmu.length j.constituents m → momentumOf pmu m = j.pmu := by
        intro j hj m hm
        rw [momentumOf_eq pmu _ m hm (r2 j (hall.mem_iff.1 hj)), g2 j (hall.mem_iff.1 hj)]
      clear hm hk m2 m3 hall
      induction m4 with
      | nil => rfl
      | cons h hs ih =>
        simp only [List.map_cons]
        rw [this _ (by simp) _ h, ih (fun j hj => this j (by simp [hj]))]
    rw [e1, total_perm (hall.map Jet.pmu)]
    have e2 : jets.map Jet.pmu = jets.map (fun j => total (atPos pmu j.constituents)) :=
      List.map_congr_left (fun j hj => g2 j hj)
    rw [e2, ← total_flatMap]
    have e3 : jets.flatMap (fun j => atPos pmu j.constituents) = atPos pmu (jets.flatMap Jet.constituents) := by
      unfold atPos
      rw [List.filterMap_flatMap]
    rw [e3]
    refine (total_perm (List.Perm.filterMap _ g1)).trans ?_
    show total (atPos pmu (List.range pmu.length)) = total pmu
    congr 1
    have : ∀ ps : List P4, atPos ps (List.range ps.length) = ps := by
      intro ps
      induction ps with
      | nil => rfl
      | cons p ps ih =>
        simp only [List.length_cons, List.range_succ_eq_map, atPos, List.filterMap_cons, List.getElem?_cons_zero,
          List.filterMap_map, Function.comp_def, List.getElem?_cons_succ]
        congr 1
    exact this pmu

/-- After the first jet of a Cambridge-Aachen run nothing is merged any more. -/
theorem ca_apart {S : KtRule} (hsc : ∀ p, S.scale p = 1) (hd : ∀ p q, 0 ≤ S.dist p q) (hsym : ∀ p q, S.dist p q = S.dist q p)
    {R : ℝ} (hR : 0 < R) {act jets : List Jet} (h : KtRun S R act jets) :
    jets.Pairwise (fun a b => R ≤ S.dist a.pmu b.pmu) := by
  have far : ∀ {act jets : List Jet}, KtRun S R act jets → act.Pairwise (fun a b => R ≤ S.dist a.pmu b.pmu) → jets.Perm act := by
    intro act jets h
    induction h with
    | done => intro _; exact .refl _
    | beam h _ _ ih =>
      intro hp
      have hp' := (h.pairwise_iff (R := fun a b => R ≤ S.dist a.pmu b.pmu) (fun {a b} hab => by rw [hsym]; exact hab)).1 hp
      exact ((ih (List.pairwise_cons.1 hp').2).cons _).trans h.symm
    | pair h _ near _ _ =>
      intro hp
      have hp' := (h.pairwise_iff (R := fun a b => R ≤ S.dist a.pmu b.pmu) (fun {a b} hab => by rw [hsym]; exact hab)).1 hp
      exact absurd near (not_lt.2 ((List.pairwise_cons.1 hp').1 _ (by simp)))
  induction h with
  | done => exact .nil
  | pair _ _ _ _ ih => exact ih
  | @beam act rest jets i h least next ih =>
    have hp : act.Pairwise (fun a b => R ≤ S.dist a.pmu b.pmu) := by
      refine least.2.imp (fun {a b} hab => ?_)
      unfold KtRule.pair at hab
      rw [hsc, hsc, hsc, min_self, one_mul] at hab
      by_contra hlt
      have h1 : S.dist a.pmu b.pmu / R < 1 := by rw [div_lt_one hR]; exact not_le.1 hlt
      have h2 : 0 ≤ S.dist a.pmu b.pmu / R := div_nonneg (hd _ _) hR.le
      nlinarith
    have hp' := (h.pairwise_iff (R := fun a b => R ≤ S.dist a.pmu b.pmu) (fun {a b} hab => by rw [hsym]; exact hab)).1 hp
    exact ((((far next (List.pairwise_cons.1 hp').2).cons i).symm).pairwise_iff (R := fun a b => R ≤ S.dist a.pmu b.pmu)
      (fun {a b} hab => by rw [hsym]; exact hab)).1 hp'

/-- **C159** With `p_val = 0` (Cambridge-Aachen) the momenta of any two masks are at least `radius` apart, whatever the
cuts. -/
theorem C159_apart {rule : FjAlgo → KtRule} (hrule : IsKtRule rule) {fj : List P4 → FjAlgo → ℝ → ℝ → List Jet}
    (hfj : RunsKt rule fj) {argsort : List ℝ → List Nat} (ha : IsArgsortR argsort) (pmu : List P4) (radius : ℝ)
    (ptCut etaCut : Option ℝ) (topK : TopK) (hR : 0 < radius) (masks : List (List Bool))
    (hm : fastjetClusters fj argsort pmu radius 0 ptCut etaCut topK = .ok masks) :
    masks.Pairwise (fun a b => radius ≤ (rule .cambridge).dist (momentumOf pmu a) (momentumOf pmu b)) := by
  have h : ¬ FjBadArgs radius ptCut etaCut topK := by
    intro hbad
    rw [C56_errors fj argsort pmu radius 0 ptCut etaCut topK hbad] at hm
    cases hm
  obtain ⟨algo, jets, sorted, masks', halgo, hrun, m1, m2, m3, m4⟩ := kt_masks hfj ha pmu radius 0 ptCut etaCut topK hR h
  rw [hm] at m1
  cases m1
  have hal : algo = .cambridge := halgo.2.1 rfl
  subst hal
  obtain ⟨g1, g2, g3⟩ := ktRun_input hrun
  obtain ⟨r1, r2, r3⟩ := jets_in_range g1
  have hp := ca_apart hrule.cambridge (hrule.dist_nonneg _) (hrule.symm _) hR hrun
  have hsub : (firstK topK (sorted.filter (fun j => decide (EtaOk etaCut j)))).Sublist sorted :=
    (firstK_sublist _ _).trans List.filter_sublist
  have hp2 : sorted.Pairwise (fun a b => radius ≤ (rule .cambridge).dist a.pmu b.pmu) :=
    (m2.pairwise_iff (R := fun a b => radius ≤ (rule .cambridge).dist a.pmu b.pmu)
      (fun {a b} hab => by rw [hrule.symm]; exact hab)).2 (hp.sublist List.filter_sublist)
  refine forall₂_pairwise m4 (hp2.sublist hsub) ?_
  intro a ha' a' ha'' b b' hb hb' hP
  have hj : ∀ j ∈ firstK topK (sorted.filter (fun j => decide (EtaOk etaCut j))), j ∈ jets := fun j hj =>
    List.mem_of_mem_filter (m2.mem_iff.1 (hsub.mem hj))
  rw [momentumOf_eq pmu _ b hb (r2 a (hj a ha')), ← g2 a (hj a ha'),
    momentumOf_eq pmu _ b' hb' (r2 a' (hj a' ha'')), ← g2 a' (hj a' ha'')]
  exact hP

/-- With all pseudojets farther apart than `R` nothing is merged. -/
theorem resolved_run {S : KtRule} (hsym : ∀ p q, S.dist p q = S.dist q p) {R : ℝ} {act jets : List Jet}
    (h : KtRun S R act jets) (hp : act.Pairwise (fun a b => R ≤ S.dist a.pmu b.pmu)) : jets.Perm act := by
  induction h with
  | done => exact .refl _
  | beam h _ _ ih =>
    have hp' := (h.pairwise_iff (R := fun a b => R ≤ S.dist a.pmu b.pmu) (fun {a b} hab => by rw [hsym]; exact hab)).1 hp
    exact ((ih (List.pairwise_cons.1 hp').2).cons _).trans h.symm
  | pair h _ near _ _ =>
    have hp' := (h.pairwise_iff (R := fun a b => R ≤ S.dist a.pmu b.pmu) (fun {a b} hab => by rw [hsym]; exact hab)).1 hp
    exact absurd near (not_lt.2 ((List.pairwise_cons.1 hp').1 _ (by simp)))

/-- **C159** If no two particles are nearer than `radius`, every mask selects a single particle, whatever the exponent. -/
theorem C159_resolved {rule : FjAlgo → KtRule} (hrule : IsKtRule rule) {fj : List P4 → FjAlgo → ℝ → ℝ → List Jet}
    (hfj : RunsKt rule fj) {argsort : List ℝ → List Nat} (ha : IsArgsortR argsort) (pmu : List P4) (radius pVal : ℝ)
    (ptCut etaCut : Option ℝ) (topK : TopK) (hR : 0 < radius)
    (hfar : ∀ algo, pmu.Pairwise (fun p q => radius ≤ (rule algo).dist p q)) (masks : List (List Bool))
    (hm : fastjetClusters fj argsort pmu radius pVal ptCut etaCut topK = .ok masks) :
    ∀ m ∈ masks, ∃ i, ∀ k : Nat, m[k]? = some true ↔ k = i := by
  have h : ¬ FjBadArgs radius ptCut etaCut topK := by
    intro hbad
    rw [C56_errors fj argsort pmu radius pVal ptCut etaCut topK hbad] at hm
    cases hm
  obtain ⟨algo, jets, sorted, masks', halgo, hrun, m1, m2, m3, m4⟩ := kt_masks hfj ha pmu radius pVal ptCut etaCut topK hR h
  rw [hm] at m1
  cases m1
  have hp : (ktInput pmu).Pairwise (fun a b => radius ≤ (rule algo).dist a.pmu b.pmu) := by
    unfold ktInput
    rw [List.pairwise_map]
    have := hfar algo
    rw [← List.zipIdx_map_fst 0 pmu, List.pairwise_map] at this
    exact this
  have hperm := resolved_run (hrule.symm algo) hrun hp
  intro m hmm
  obtain ⟨j, hj, hr⟩ := forall₂_mem_right m4 hmm
  have hj' : j ∈ ktInput pmu := hperm.mem_iff.1 (List.mem_of_mem_filter (m2.mem_iff.1
    (((firstK_sublist _ _).trans List.filter_sublist).mem hj)))
  obtain ⟨⟨p, i⟩, -, rfl⟩ := List.mem_map.1 hj'
  exact ⟨i, fun k => by rw [hr.2 k]; simp⟩


/-! ### Symmetries -/

theorem perm_map_inv {α β : Type} (φ : α → β) {l l' : List β} (h : l.Perm l') :
    ∀ act : List α, l = act.map φ → ∃ l0, act.Perm l0 ∧ l' = l0.map φ := by
  induction h with
  | nil => intro act h; exact ⟨act, .refl _, h⟩
  | cons x _ ih =>
    intro act h
    cases act with
    | nil => cases h
    | cons a act =>
      simp only [List.map_cons, List.cons.injEq] at h
      obtain ⟨l0, h1, h2⟩ := ih act h.2
      exact ⟨a :: l0, h1.cons a, by rw [List.map_cons, ← h2, h.1]⟩
  | swap x y l =>
    intro act h
    cases act with
    | nil => cases h
    | cons a act =>
      cases act with
      | nil => simp at h
      | cons b act =>
        simp only [List.map_cons, List.cons.injEq] at h
        exact ⟨b :: a :: act, .swap b a act, by simp [h.1, h.2.1, h.2.2]⟩
  | trans _ _ ih1 ih2 =>
    intro act h
    obtain ⟨l1, h1, h2⟩ := ih1 act h
    obtain ⟨l2, h3, h4⟩ := ih2 l1 h2
    exact ⟨l2, h1.trans h3, h4⟩

theorem least_perm {S : KtRule} (hsym : ∀ p q, S.dist p q = S.dist q p) {R : ℝ} {l l' : List Jet} (h : l.Perm l') {d : ℝ}
    (hd : S.Least R l d) : S.Least R l' d := by
  refine ⟨fun a ha => hd.1 a (h.mem_iff.2 ha), (h.pairwise_iff ?_).1 hd.2⟩
  intro a b hab
  unfold KtRule.pair at hab ⊢
  rw [min_comm, hsym]; exact hab

theorem ktRun_perm {S : KtRule} (hsym : ∀ p q, S.dist p q = S.dist q p) {R : ℝ} {l l' jets : List Jet} (h : l.Perm l')
    (hr : KtRun S R l jets) : KtRun S R l' jets := by
  cases hr with
  | done => rw [List.nil_perm.1 h]; exact .done
  | beam h1 h2 h3 => exact .beam (h.symm.trans h1) (least_perm hsym h h2) h3
  | pair h1 h2 h3 h4 => exact .pair (h.symm.trans h1) (least_perm hsym h h2) h3 h4

/-- Runs of pseudojets that correspond to others correspond to runs of those. -/
theorem ktRun_map {S : KtRule} {R : ℝ} (φ : Jet → Jet) (Inv : List Jet → Prop)
    (hperm : ∀ l l' : List Jet, Inv l → l.Perm l' → Inv l') (htail : ∀ i rest, Inv (i :: rest) → Inv rest)
    (hjoin : ∀ i j rest, Inv (i :: j :: rest) → Inv (i.join j :: rest)) (hφ : ∀ i j, φ (i.join j) = (φ i).join (φ j))
    (hscale : ∀ l, Inv l → ∀ a ∈ l, S.scale (φ a).pmu = S.scale a.pmu)
    (hdist : ∀ l, Inv l → ∀ a ∈ l, ∀ b ∈ l, S.dist (φ a).pmu (φ b).pmu = S.dist a.pmu b.pmu)
    {act' jets' : List Jet} (h : KtRun S R act' jets') :
    ∀ act, act' = act.map φ → Inv act → ∃ jets, KtRun S R act jets ∧ jets' = jets.map φ := by
  have hpair : ∀ l, Inv l → ∀ a ∈ l, ∀ b ∈ l, S.pair R (φ a) (φ b) = S.pair R a b := by
    intro l hl a ha b hb
    unfold KtRule.pair
    rw [hscale l hl a ha, hscale l hl b hb, hdist l hl a ha b hb]
  have hleast : ∀ l, Inv l → ∀ d, S.Least R (l.map φ) d → S.Least R l d := by
    intro l hl d hd
    refine ⟨fun a ha => ?_, ?_⟩
    · rw [← hscale l hl a ha]; exact hd.1 _ (List.mem_map_of_mem ha)
    · have := hd.2
      rw [List.pairwise_map] at this
      exact this.imp_of_mem (fun {a b} ha hb hab => by rw [← hpair l hl a ha b hb]; exact hab)
  induction h with
  | done =>
    intro act h _
    have : act = [] := by simpa using h.symm
    subst this
    exact ⟨[], .done, rfl⟩
  | beam h1 h2 _ ih =>
    rintro act rfl hI
    obtain ⟨l0, p1, p2⟩ := perm_map_inv φ h1 act rfl
    cases l0 with
    | nil => cases p2
    | cons i0 rest0 =>
      simp only [List.map_cons, List.cons.injEq] at p2
      obtain ⟨rfl, rfl⟩ := p2
      have hI' := hperm _ _ hI p1
      obtain ⟨jets, j1, rfl⟩ := ih rest0 rfl (htail _ _ hI')
      refine ⟨i0 :: jets, .beam p1 ?_ j1, rfl⟩
      have := hleast act hI _ h2
      rwa [hscale act hI i0 (p1.mem_iff.2 (by simp))] at this
  | pair h1 h2 h3 _ ih =>
    rintro act rfl hI
    obtain ⟨l0, p1, p2⟩ := perm_map_inv φ h1 act rfl
    cases l0 with
    | nil => cases p2
    | cons i0 l0 =>
      cases l0 with
      | nil => simp at p2
      | cons j0 rest0 =>
        simp only [List.map_cons, List.cons.injEq] at p2
        obtain ⟨rfl, rfl, rfl⟩ := p2
        have hI' := hperm _ _ hI p1
        obtain ⟨jets, j1, rfl⟩ := ih (i0.join j0 :: rest0) (by rw [List.map_cons, hφ]) (hjoin _ _ _ hI')
        have mi : i0 ∈ act := p1.mem_iff.2 (by simp)
        have mj : j0 ∈ act := p1.mem_iff.2 (by simp)
        refine ⟨jets, .pair p1 ?_ ?_ j1, rfl⟩
        · have := hleast act hI _ h2
          rwa [hpair act hI i0 mi j0 mj] at this
        · rwa [hdist act hI i0 mi j0 mj] at h3

theorem TopK.cut_map' {α β : Type} (k : TopK) (f : α → β) (l : List α) : k.cut (l.map f) = (k.cut l).map f := by
  cases k <;> simp [TopK.cut]

theorem jetMasks_ok (n : Nat) : ∀ (l : List (List Nat)) (ms : List (List Bool)), jetMasks n l = .ok ms →
    (∀ is ∈ l, ∀ i ∈ is, i < n) ∧ List.Forall₂ (IsMaskOf n) l ms := by
  intro l
  induction l with
  | nil => intro ms h; simp only [jetMasks, Except.ok.injEq] at h; subst h; exact ⟨by simp, .nil⟩
  | cons is rest ih =>
    intro ms h
    have hb : ∀ i ∈ is, i < n := by
      by_contra hn
      have : is.all (fun i => decide (i < n)) = false := by
        rw [Bool.eq_false_iff]
        intro h'
        exact hn (by simpa using h')
      simp [jetMasks, jetMask, this] at h
    obtain ⟨m, m1, m2⟩ := jetMask_spec n is hb
    simp only [jetMasks, m1] at h
    cases hr : jetMasks n rest with
    | error e => rw [hr] at h; cases h
    | ok ms' =>
      rw [hr] at h
      cases h
      obtain ⟨g1, g2⟩ := ih ms' hr
      refine ⟨?_, .cons m2 g2⟩
      intro js hjs
      rcases List.mem_cons.1 hjs with rfl | hjs
      · exact hb
      · exact g1 js hjs

/-- From runs to results: if the runs on `pmu'` are the runs on `pmu` up to `φ`, so are the masks. -/
theorem ktResult_map {rule : FjAlgo → KtRule} (hrule : IsKtRule rule) {argsort : List ℝ → List Nat} (pmu pmu' : List P4)
    (radius pVal : ℝ) (ptCut etaCut : Option ℝ) (topK : TopK) (hR : 0 < radius) (Φ : (Jet → Jet) → Prop)
    (hrun : ∀ algo jets', KtRun (rule algo) radius (ktInput pmu') jets' →
      ∃ φ jets, Φ φ ∧ KtRun (rule algo) radius (ktInput pmu) jets ∧ jets' = jets.map φ)
    (hpt : ∀ φ, Φ φ → ∀ j, (φ j).pmu.pt = j.pmu.pt)
    (heta : etaCut ≠ none → ∀ φ, Φ φ → ∀ j c, etaWithin (φ j).pmu.eta c = etaWithin j.pmu.eta c)
    (masks' : List (List Bool)) (h : KtResult rule argsort pmu' radius pVal ptCut etaCut topK masks') :
    (¬ FjBadArgs radius ptCut etaCut topK → IsArgsortR argsort →
    ∃ masks φ, Φ φ ∧ KtResult rule argsort pmu radius pVal ptCut etaCut topK masks ∧
      List.Forall₂ (fun m' m => ∃ j : Jet, IsMaskOf pmu'.length (φ j).constituents m' ∧ IsMaskOf pmu.length j.constituents m)
        masks' masks) := by
  intro hbad ha
  obtain ⟨fj, hfj, hm⟩ := h
  -- the jets of the other event
  have hex : ∀ (algo : FjAlgo) (ptMin : ℝ), ∃ (φ : Jet → Jet) (l jets : List Jet), Φ φ ∧ KtRun (rule algo) radius (ktInput pmu) jets ∧
      l.Perm (jets.filter (fun j => decide (ptMin ≤ j.pmu.pt))) ∧ fj pmu' algo radius ptMin = l.map φ := by
    intro algo ptMin
    obtain ⟨jets', r1, r2⟩ := hfj pmu' algo radius ptMin hR
    obtain ⟨φ, jets, hφ, j1, rfl⟩ := hrun algo jets' r1
    rw [List.filter_map] at r2
    have : (fun j : Jet => decide (ptMin ≤ j.pmu.pt)) ∘ φ = fun j => decide (ptMin ≤ j.pmu.pt) := by
      funext j; simp [hpt φ hφ]
    rw [this] at r2
    obtain ⟨l, l1, l2⟩ := perm_map_inv φ r2.symm _ rfl
    exact ⟨φ, l, jets, hφ, j1, l1.symm, l2⟩
  choose ph l jets hph hl1 hl2 hl3 using hex
  have hall : ∀ (q : List P4) (algo : FjAlgo) (R ptMin : ℝ), 0 < R → ∃ jets, KtRun (rule algo) R (ktInput q) jets :=
    fun q algo R _ h0 => ktRun_exists (rule algo) (hrule.nonneg algo) (hrule.dist_nonneg algo) (hrule.symm algo) h0 _
  choose other ho using hall
  let fj0 : List P4 → FjAlgo → ℝ → ℝ → List Jet := fun q algo R ptMin =>
    if q = pmu ∧ R = radius then l algo ptMin
    else if h0 : 0 < R then (other q algo R ptMin h0).filter (fun j => decide (ptMin ≤ j.pmu.pt)) else []
  have hfj0 : RunsKt rule fj0 := by
    intro q algo R ptMin h0
    by_cases hq : q = pmu ∧ R = radius
    · obtain ⟨rfl, rfl⟩ := hq
      exact ⟨jets algo ptMin, hl1 algo ptMin, by simpa [fj0] using hl2 algo ptMin⟩
    · exact ⟨other q algo R ptMin h0, ho q algo R ptMin h0, by simp [fj0, hq, h0]⟩
  have e0 : ∀ algo ptMin, fj0 pmu algo radius ptMin = l algo ptMin := fun algo ptMin => by simp [fj0]
  obtain ⟨algo0, jets0, sorted0, masks0, q1, q2, q3, q4, q5, q6⟩ := kt_masks hfj0 ha pmu radius pVal ptCut etaCut topK hR hbad
  refine ⟨masks0, ph (fjAlgo pVal) (ptCut.getD 0), hph _ _, ⟨fj0, hfj0, q3⟩, ?_⟩
  have hpt' := hpt _ (hph (fjAlgo pVal) (ptCut.getD 0))
  have heta' : etaCut ≠ none → _ := fun h => heta h _ (hph (fjAlgo pVal) (ptCut.getD 0))
  set φ := ph (fjAlgo pVal) (ptCut.getD 0) with hφ
  -- compare the two computations
  simp only [FjBadArgs, not_or, not_exists, not_and, not_lt] at hbad
  obtain ⟨g1, g2, g3, g4, g5⟩ := hbad
  have b1 : ¬ (ptCut.getD 0 < 0) := by
    cases ptCut with
    | none => simp
    | some c => simpa using g1 c rfl
  have b3 : topK.bad = false := by
    cases topK with
    | none => rfl
    | int k => simpa [TopK.bad] using g4 k rfl
    | other => exact absurd rfl g5
  have hpts : (l (fjAlgo pVal) (ptCut.getD 0)).map ((fun j => j.pmu.pt) ∘ φ) =
      (l (fjAlgo pVal) (ptCut.getD 0)).map (fun j => j.pmu.pt) := List.map_congr_left (fun j _ => hpt' j)
  have fin : ∀ ks : List Jet, jetMasks pmu'.length ((topK.cut (ks.map φ)).map Jet.constituents) = .ok masks' →
      jetMasks pmu.length ((topK.cut ks).map Jet.constituents) = .ok masks0 →
      List.Forall₂ (fun m' m => ∃ j : Jet, IsMaskOf pmu'.length (φ j).constituents m' ∧ IsMaskOf pmu.length j.constituents m)
        masks' masks0 := by
    intro ks k1 k2
    rw [TopK.cut_map'] at k1
    replace k1 := (jetMasks_ok _ _ _ k1).2
    replace k2 := (jetMasks_ok _ _ _ k2).2
    rw [List.map_map] at k1
    rw [List.forall₂_map_left_iff] at k1 k2
    generalize topK.cut ks = cs at k1 k2
    clear hm q3 q4 q5 q6
    induction cs generalizing masks' masks0 with
    | nil => cases k1; cases k2; exact .nil
    | cons c cs ih =>
      cases k1 with
      | cons c1 c2 =>
        cases k2 with
        | cons d1 d2 => exact .cons ⟨c, c1, d1⟩ (ih _ _ c2 d2)
  cases etaCut with
  | none =>
    unfold fastjetClusters at hm q3
    simp only [b1, decide_false, not_lt.2 g2, b3, Bool.false_eq_true, if_false, hl3, e0, ← hφ, List.map_map, hpts, gather_map] at hm q3
    rw [← List.map_map, TopK.cut_map'] at hm
    rw [TopK.cut_map'] at q3
    exact fin _ hm q3
  | some cut =>
    unfold fastjetClusters at hm q3
    simp only [b1, decide_false, not_lt.2 g2, not_lt.2 (g3 cut rfl), b3, Bool.false_eq_true, if_false, hl3, e0, ← hφ, List.map_map,
      hpts, gather_map, List.filter_map] at hm q3
    have he : (fun j : Jet => etaWithin j.pmu.eta cut) ∘ φ = fun j => etaWithin j.pmu.eta cut := by
      funext j; simp [heta' (by simp) j cut]
    rw [he, ← List.map_map, TopK.cut_map'] at hm
    rw [TopK.cut_map'] at q3
    exact fin _ hm q3

end Gcl
