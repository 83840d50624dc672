import Verif.Props.GenKtExamples
import Verif.Props.Again
import Verif.Props.Cuts
import Verif.Spec.GenKtTies
/-!
# C165: without ties the jets are determined
-/
namespace Gcl
set_option autoImplicit false
open Spec Real

/-- A pseudojet without the order of its constituents. -/
def Jet.key (j : Jet) : P4 × Multiset Nat := (j.pmu, (j.constituents : Multiset Nat))

theorem join_key_comm (i j : Jet) : (i.join j).key = (j.join i).key := by
  simp only [Jet.key, Jet.join, Prod.mk.injEq]
  constructor
  · simp only [padd, P4.mk.injEq]; exact ⟨add_comm _ _, add_comm _ _, add_comm _ _, add_comm _ _⟩
  · exact Multiset.coe_eq_coe.2 List.perm_append_comm

theorem join_key {i j i' j' : Jet} (hi : i'.key = i.key) (hj : j'.key = j.key) : (i'.join j').key = (i.join j).key := by
  simp only [Jet.key, Jet.join, Prod.mk.injEq, Multiset.coe_eq_coe] at *
  exact ⟨by rw [hi.1, hj.1], hi.2.append hj.2⟩

theorem least_key {S : KtRule} {R : ℝ} {l l' : List Jet} (h : l'.map Jet.key = l.map Jet.key) {d : ℝ} (hd : S.Least R l d) :
    S.Least R l' d := by
  have e : ∀ l : List Jet, S.Least R l d ↔ (∀ k ∈ l.map Jet.key, d ≤ S.scale k.1) ∧
      (l.map Jet.key).Pairwise (fun a b => d ≤ min (S.scale a.1) (S.scale b.1) * (S.dist a.1 b.1 / R) ^ 2) := by
    intro l
    simp only [KtRule.Least, List.forall_mem_map, List.pairwise_map]
    rfl
  rw [e, h, ← e]; exact hd

/-- The order of the constituents makes no difference to a run. -/
theorem ktRun_key {S : KtRule} (hsym : ∀ p q, S.dist p q = S.dist q p) {R : ℝ} {l jets : List Jet} (h : KtRun S R l jets) :
    ∀ l' : List Jet, (l.map Jet.key).Perm (l'.map Jet.key) → ∃ jets', KtRun S R l' jets' ∧ (jets.map Jet.key).Perm (jets'.map Jet.key) := by
  induction h with
  | done =>
    intro l' hl
    have : l' = [] := by simpa using hl
    subst this
    exact ⟨[], .done, .refl _⟩
  | @beam act rest jets i h least next ih =>
    intro l' hl
    obtain ⟨l0, p0, e0⟩ := perm_map_inv Jet.key (hl.symm.trans (h.map _)) l' rfl
    match l0, e0 with
    | i' :: rest', e0 =>
      simp only [List.map_cons, List.cons.injEq] at e0
      obtain ⟨jets', r, k⟩ := ih rest' (by rw [e0.2])
      have hl0 := least_perm hsym p0.symm (least_key (l := i :: rest) (l' := i' :: rest') (by simp [e0]) (least_perm hsym h least))
      have hp : i'.pmu = i.pmu := congrArg Prod.fst e0.1.symm
      rw [← hp] at hl0
      exact ⟨i' :: jets', .beam p0 hl0 r, by simpa [e0.1] using k⟩
  | @pair act rest jets i j h least near next ih =>
    intro l' hl
    obtain ⟨l0, p0, e0⟩ := perm_map_inv Jet.key (hl.symm.trans (h.map _)) l' rfl
    match l0, e0 with
    | [_], e0 => simp at e0
    | i' :: j' :: rest', e0 =>
      simp only [List.map_cons, List.cons.injEq] at e0
      obtain ⟨e1, e2, e3⟩ := e0
      obtain ⟨jets', r, k⟩ := ih (i'.join j' :: rest') (by
        rw [List.map_cons, List.map_cons, join_key e1.symm e2.symm, e3])
      have hl0 := least_perm hsym p0.symm (least_key (l := i :: j :: rest) (l' := i' :: j' :: rest') (by simp [e1, e2, e3])
        (least_perm hsym h least))
      have hp : i'.pmu = i.pmu := congrArg Prod.fst e1.symm
      have hq : j'.pmu = j.pmu := congrArg Prod.fst e2.symm
      have hpair : S.pair R i j = S.pair R i' j' := by unfold KtRule.pair; rw [hp, hq]
      rw [hpair] at hl0
      exact ⟨jets', .pair p0 hl0 (by rw [hp, hq]; exact near) r, k⟩

theorem noTies_step {S : KtRule} {R : ℝ} {act act' : List Jet} (h : NoTies S R act) (s : KtStep S R act act') : NoTies S R act' :=
  fun _ hs => h _ (.head s hs)

theorem pair_le {S : KtRule} {R d : ℝ} {act rest : List Jet} {i j : Jet} (hsym : ∀ p q, S.dist p q = S.dist q p)
    (h : act.Perm (i :: j :: rest)) (hd : S.Least R act d) : d ≤ S.pair R i j := by
  have := (least_perm hsym h hd).2
  simp only [List.pairwise_cons] at this
  exact this.1 j (by simp)

/-- A pseudojet nearest to the beam may as well be taken first. -/
theorem ktRun_beam_first {S : KtRule} (hsym : ∀ p q, S.dist p q = S.dist q p) {R : ℝ} {act jets : List Jet}
    (h : KtRun S R act jets) : NoTies S R act → ∀ i' rest', act.Perm (i' :: rest') → S.Least R act (S.scale i'.pmu) →
      ∃ jets', KtRun S R rest' jets' ∧ jets.Perm (i' :: jets') := by
  induction h with
  | done => intro _ i' rest' hp; simp at hp
  | @beam act rest jets i h least next ih =>
    intro hn i' rest' hp hl
    by_cases e : i = i'
    · subst e
      exact ⟨jets, ktRun_perm hsym ((List.perm_cons i).1 (h.symm.trans hp)) next, .refl _⟩
    · have hmem : i' ∈ rest := by
        have : i' ∈ i :: rest := (h.symm.trans hp).mem_iff.2 (by simp)
        rcases List.mem_cons.1 this with h0 | h0
        · exact absurd h0.symm e
        · exact h0
      obtain ⟨a, b, rfl⟩ := List.append_of_mem hmem
      have hr : (a ++ i' :: b).Perm (i' :: (a ++ b)) := List.perm_middle
      have sub : ∀ {l : List Jet} {d : ℝ}, l.Sublist (i :: (a ++ i' :: b)) → S.Least R act d → S.Least R l d := fun hs hd =>
        least_subperm hsym (hs.subperm.trans h.symm.subperm) hd
      obtain ⟨jets', r, k⟩ := ih (noTies_step hn (.beam h least)) i' (a ++ b) hr (sub (List.sublist_cons_self _ _) hl)
      have hrest : rest'.Perm (i :: (a ++ b)) := by
        have := (hp.symm.trans h).trans ((hr.cons i).trans (List.Perm.swap i' i _))
        exact (List.perm_cons i').1 this
      refine ⟨i :: jets', .beam hrest (least_perm hsym hrest.symm (sub ?_ least)) r, (k.cons i).trans (List.Perm.swap i' i _)⟩
      exact List.Sublist.cons_cons i ((List.Sublist.refl a).append (List.sublist_cons_self _ _))
  | @pair act rest jets i j h least near next ih =>
    intro hn i' rest' hp hl
    have h1 := ((hn act .refl) i j rest h least near).1 i' (hp.mem_iff.2 (by simp))
    have h2 := pair_le hsym h hl
    exact absurd h1 (not_lt.2 h2)

/-- Two runs without ties find the same jets. -/
theorem ktRun_unique {S : KtRule} (hsym : ∀ p q, S.dist p q = S.dist q p) {R : ℝ} {act jets : List Jet}
    (h : KtRun S R act jets) : NoTies S R act → ∀ jets', KtRun S R act jets' → (jets.map Jet.key).Perm (jets'.map Jet.key) := by
  induction h with
  | done =>
    intro _ jets' h'
    cases h' with
    | done => exact .refl _
    | beam h1 _ _ => simp at h1
    | pair h1 _ _ _ => simp at h1
  | @beam act rest jets i h least next ih =>
    intro hn jets' h'
    obtain ⟨js, r, k⟩ := ktRun_beam_first hsym h' hn i rest h least
    exact ((ih (noTies_step hn (.beam h least)) js r).cons i.key).trans (k.map Jet.key).symm
  | @pair act rest jets i j h least near next ih =>
    intro hn jets' h'
    have hih := ih (noTies_step hn (.pair h least near))
    obtain ⟨t1, t2⟩ := (hn act .refl) i j rest h least near
    cases h' with
    | done => simp at h
    | @beam _ rest' js i' h1 h2 h3 =>
      have a1 := t1 i' (h1.mem_iff.2 (by simp))
      exact absurd a1 (not_lt.2 (pair_le hsym h h2))
    | @pair _ rest' _ k l h1 h2 h3 h4 =>
      have e : S.pair R k l = S.pair R i j := le_antisymm (pair_le hsym h h2) (pair_le hsym h1 least)
      rcases t2 k l rest' h1 h3 e with ⟨rfl, rfl⟩ | ⟨rfl, rfl⟩
      · have hr := (List.perm_cons l).1 ((List.perm_cons k).1 (h1.symm.trans h))
        exact hih _ (ktRun_perm hsym (hr.cons _) h4)
      · have hr := (List.perm_cons l).1 ((List.perm_cons k).1 (h1.symm.trans (h.trans (List.Perm.swap _ _ _))))
        obtain ⟨js, r, q⟩ := ktRun_key hsym h4 (l.join k :: rest) (by
          rw [List.map_cons, List.map_cons, join_key_comm]
          exact (hr.map _).cons _)
        exact (hih _ r).trans q.symm

/-- The mask of a pseudojet. -/
def Jet.maskIn (n : Nat) (k : P4 × Multiset Nat) : List Bool := (List.range n).map (fun i => decide (i ∈ k.2))

theorem maskIn_eq {n : Nat} {j : Jet} {m : List Bool} (h : IsMaskOf n j.constituents m) : m = Jet.maskIn n j.key := by
  refine bools_ext (by simp [Jet.maskIn, h.1]) fun i hi => ?_
  have hi' : i < n := h.1 ▸ hi
  rw [h.2 i]
  simp [Jet.maskIn, Jet.key, hi']

theorem masks_eq {n : Nat} {js : List Jet} {ms : List (List Bool)} (h : List.Forall₂ (fun (j : Jet) m => IsMaskOf n j.constituents m) js ms) :
    ms = (js.map Jet.key).map (Jet.maskIn n) := by
  induction h with
  | nil => rfl
  | cons a _ ih => rw [List.map_cons, List.map_cons, ← ih, maskIn_eq a]

theorem firstK_map {α β : Type} (f : α → β) (k : TopK) (l : List α) : firstK k (l.map f) = (firstK k l).map f := by
  cases k <;> simp [firstK]

open Classical in
/-- The jets behind two results. -/
theorem results_keys {rule : FjAlgo → KtRule} (hrule : IsKtRule rule) {argsort argsort' : List ℝ → List Nat} (ha : IsArgsortR argsort)
    (ha' : IsArgsortR argsort') (pmu : List P4) (radius pVal : ℝ) (ptCut etaCut : Option ℝ) (topK : TopK) (hR : 0 < radius)
    (hn : ∀ algo, AlgoFor pVal algo → NoTies (rule algo) radius (ktInput pmu)) (masks masks' : List (List Bool))
    (h : KtResult rule argsort pmu radius pVal ptCut etaCut topK masks)
    (h' : KtResult rule argsort' pmu radius pVal ptCut etaCut topK masks') :
    ∃ ks ks' : List (P4 × Multiset Nat), ks.Perm ks' ∧ ks.Pairwise (fun a b => b.1.pt ≤ a.1.pt) ∧
      ks'.Pairwise (fun a b => b.1.pt ≤ a.1.pt) ∧ masks = (firstK topK ks).map (Jet.maskIn pmu.length) ∧
      masks' = (firstK topK ks').map (Jet.maskIn pmu.length) ∧
      (∀ k ∈ ks, (momentumOf pmu (Jet.maskIn pmu.length k)) = k.1) := by
  have key : ∀ (argsort : List ℝ → List Nat), IsArgsortR argsort → ∀ masks, KtResult rule argsort pmu radius pVal ptCut etaCut topK masks →
      ∃ jets kept, KtRun (rule (fjAlgo pVal)) radius (ktInput pmu) jets ∧
        kept.Perm ((jets.map Jet.key).filter (fun k => decide (ptCut.getD 0 ≤ k.1.pt ∧ EtaOk etaCut ⟨k.1, []⟩))) ∧
        kept.Pairwise (fun a b => b.1.pt ≤ a.1.pt) ∧ masks = (firstK topK kept).map (Jet.maskIn pmu.length) := by
    intro argsort ha masks h
    obtain ⟨fj, hfj, h⟩ := h
    have hbad : ¬ FjBadArgs radius ptCut etaCut topK := by
      intro hbad
      rw [C56_errors fj argsort _ radius pVal ptCut etaCut topK hbad] at h
      cases h
    obtain ⟨algo, jets, sorted, masks', halgo, hrun, m1, m2, m3, m4⟩ := kt_masks hfj ha pmu radius pVal ptCut etaCut topK hR hbad
    rw [h] at m1
    cases m1
    have hal : algo = fjAlgo pVal := algoFor_unique halgo (fjAlgo_spec pVal)
    subst hal
    refine ⟨jets, (sorted.filter (fun j => decide (EtaOk etaCut j))).map Jet.key, hrun, ?_, ?_, ?_⟩
    · refine ((m2.filter _).map Jet.key).trans (.of_eq ?_)
      rw [List.filter_filter, List.filter_map]
      congr 1
      apply List.filter_congr
      intro j _
      simp only [Function.comp]
      have : EtaOk etaCut (⟨j.key.1, []⟩ : Jet) ↔ EtaOk etaCut j := Iff.rfl
      rw [← Bool.decide_and]
      exact decide_eq_decide.2 ⟨fun ⟨a, b⟩ => ⟨b, this.2 a⟩, fun ⟨a, b⟩ => ⟨this.1 b, a⟩⟩
    · rw [List.pairwise_map]
      exact m3.sublist List.filter_sublist
    · rw [firstK_map]; exact masks_eq m4
  obtain ⟨jets, kept, r, k1, k2, k3⟩ := key argsort ha masks h
  obtain ⟨jets', kept', r', k1', k2', k3'⟩ := key argsort' ha' masks' h'
  have hp := ktRun_unique (hrule.symm _) r (hn _ (fjAlgo_spec pVal)) jets' r'
  refine ⟨kept, kept', k1.trans ((hp.filter _).trans k1'.symm), k2, k2', k3, k3', fun k hk => ?_⟩
  obtain ⟨j, hj, rfl⟩ := List.mem_map.1 (List.mem_filter.1 (k1.mem_iff.1 hk)).1
  obtain ⟨g1, g2, -⟩ := ktRun_input r
  obtain ⟨r1, r2, -⟩ := jets_in_range g1
  have hm : IsMaskOf pmu.length j.constituents (Jet.maskIn pmu.length j.key) := by
    refine ⟨by simp [Jet.maskIn], fun i => ?_⟩
    by_cases hi : i < pmu.length
    · simp [Jet.maskIn, Jet.key, hi]
    · rw [List.getElem?_eq_none (by simp [Jet.maskIn]; omega)]
      simp only [reduceCtorEq, false_iff]
      exact fun h => hi (r1 j hj i h)
  rw [momentumOf_eq pmu _ _ hm (r2 j hj)]
  exact (g2 j hj).symm

/-- **C165** Without ties `fastjet_clusters` without `top_k` can return one collection of masks only: whatever FastJet and the
sorting do, two results differ at most in the order of the masks. -/
theorem C165_unique {rule : FjAlgo → KtRule} (hrule : IsKtRule rule) {argsort argsort' : List ℝ → List Nat} (ha : IsArgsortR argsort)
    (ha' : IsArgsortR argsort') (pmu : List P4) (radius pVal : ℝ) (ptCut etaCut : Option ℝ) (hR : 0 < radius)
    (hn : ∀ algo, AlgoFor pVal algo → NoTies (rule algo) radius (ktInput pmu)) (masks masks' : List (List Bool))
    (h : KtResult rule argsort pmu radius pVal ptCut etaCut .none masks)
    (h' : KtResult rule argsort' pmu radius pVal ptCut etaCut .none masks') : masks.Perm masks' := by
  obtain ⟨ks, ks', p, -, -, e, e', -⟩ := results_keys hrule ha ha' pmu radius pVal ptCut etaCut .none hR hn masks masks' h h'
  rw [e, e']
  exact p.map _

/-- The same call without `top_k`. -/
theorem without_topK {fj : List P4 → FjAlgo → ℝ → ℝ → List Jet} (hfj : ∀ pmu algo R c, 0 < R → ∀ j ∈ fj pmu algo R c, ∀ i ∈ j.constituents, i < pmu.length)
    {argsort : List ℝ → List Nat} (ha : IsArgsortR argsort) {pmu : List P4} {radius pVal : ℝ} (hR : 0 < radius)
    {ptCut etaCut : Option ℝ} {topK : TopK} {masks : List (List Bool)}
    (h : fastjetClusters fj argsort pmu radius pVal ptCut etaCut topK = .ok masks) :
    ∃ all, fastjetClusters fj argsort pmu radius pVal ptCut etaCut .none = .ok all ∧ masks = firstK topK all := by
  have hbad : ¬ FjBadArgs radius ptCut etaCut topK := by
    intro hbad
    rw [C56_errors fj argsort _ radius pVal ptCut etaCut topK hbad] at h
    cases h
  have hbad' : ¬ FjBadArgs radius ptCut etaCut .none := by
    intro hb
    apply hbad
    rcases hb with hb | hb | hb | ⟨k, hb, _⟩ | hb
    · exact Or.inl hb
    · exact Or.inr (Or.inl hb)
    · exact Or.inr (Or.inr (Or.inl hb))
    · cases hb
    · cases hb
  obtain ⟨algo, q1, q2⟩ := C56_masks fj argsort ha pmu radius pVal ptCut etaCut .none hbad'
  obtain ⟨srt, kept, all, n1, -⟩ := q2 (hfj pmu algo radius _ hR)
  refine ⟨all, n1, ?_⟩
  cases topK with
  | none => rw [h] at n1; cases n1; rfl
  | other => exact absurd (Or.inr (Or.inr (Or.inr (Or.inr rfl)))) hbad
  | int k =>
    have hk : 1 ≤ k := by
      by_contra hk
      exact hbad (Or.inr (Or.inr (Or.inr (Or.inl ⟨k, rfl, by omega⟩))))
    obtain ⟨n, rfl⟩ := Int.eq_ofNat_of_zero_le (by omega : 0 ≤ k)
    have := C163_top_k fj argsort pmu radius pVal ptCut etaCut n (by omega) all n1
    rw [h] at this
    cases this
    simp [firstK]

theorem runs_range {rule : FjAlgo → KtRule} {fj : List P4 → FjAlgo → ℝ → ℝ → List Jet} (hfj : RunsKt rule fj) :
    ∀ pmu algo R c, 0 < R → ∀ j ∈ fj pmu algo R c, ∀ i ∈ j.constituents, i < pmu.length := by
  intro pmu algo R c hR j hj
  obtain ⟨jets, r, p⟩ := hfj pmu algo R c hR
  exact (jets_in_range (ktRun_input r).1).1 j (List.mem_filter.1 (p.mem_iff.1 hj)).1

/-- **C165** If moreover no two of all the jets above the cuts have the same transverse momentum, the list of masks is determined,
for every `top_k`. -/
theorem C165_order {rule : FjAlgo → KtRule} (hrule : IsKtRule rule) {argsort argsort' : List ℝ → List Nat} (ha : IsArgsortR argsort)
    (ha' : IsArgsortR argsort') (pmu : List P4) (radius pVal : ℝ) (ptCut etaCut : Option ℝ) (topK : TopK) (hR : 0 < radius)
    (hn : ∀ algo, AlgoFor pVal algo → NoTies (rule algo) radius (ktInput pmu)) (all masks masks' : List (List Bool))
    (hall : KtResult rule argsort pmu radius pVal ptCut etaCut .none all)
    (hd : all.Pairwise (fun a b => (momentumOf pmu a).pt ≠ (momentumOf pmu b).pt))
    (h : KtResult rule argsort pmu radius pVal ptCut etaCut topK masks)
    (h' : KtResult rule argsort' pmu radius pVal ptCut etaCut topK masks') : masks = masks' := by
  have key : ∀ (argsort' : List ℝ → List Nat), IsArgsortR argsort' → ∀ masks', KtResult rule argsort' pmu radius pVal ptCut etaCut topK masks' →
      masks' = firstK topK all := by
    intro argsort' ha' masks' h'
    obtain ⟨fj, hfj, h'⟩ := h'
    obtain ⟨all', ha0, hcut⟩ := without_topK (runs_range hfj) ha' hR h'
    obtain ⟨ks, ks', p, s, s', e, e', hmom⟩ := results_keys hrule ha ha' pmu radius pVal ptCut etaCut .none hR hn all all' hall
      ⟨fj, hfj, ha0⟩
    have hne : ks.Pairwise (fun a b => a.1.pt ≠ b.1.pt) := by
      rw [e] at hd
      have hd' : ks.Pairwise (fun a b => (momentumOf pmu (Jet.maskIn pmu.length a)).pt ≠ (momentumOf pmu (Jet.maskIn pmu.length b)).pt) :=
        (List.pairwise_map (f := Jet.maskIn pmu.length) (R := fun a b => (momentumOf pmu a).pt ≠ (momentumOf pmu b).pt)).1 hd
      refine hd'.imp_of_mem fun {a b} ha hb hab => ?_
      rwa [hmom a ha, hmom b hb] at hab
    have hne' : ks'.Pairwise (fun a b => a.1.pt ≠ b.1.pt) := (p.pairwise_iff (fun {a b} h => Ne.symm h)).1 hne
    have hks : ks = ks' := by
      refine List.Perm.eq_of_pairwise (le := fun a b => b.1.pt < a.1.pt) (fun a b _ _ h1 h2 => absurd h1 (not_lt.2 h2.le)) ?_ ?_ p
      · exact (s.and hne).imp fun {a b} h => lt_of_le_of_ne h.1 h.2.symm
      · exact (s'.and hne').imp fun {a b} h => lt_of_le_of_ne h.1 h.2.symm
    rw [hcut, e, e', hks]
  rw [key argsort ha masks h, key argsort' ha' masks' h']

/-- **C165** `fastjet_clusters` on the particles of a jet it returned must return that jet whole and nothing else, if there is no tie
in the clustering of these particles. -/
theorem C165_again {rule : FjAlgo → KtRule} (hrule : IsKtRule rule) {argsort argsort' : List ℝ → List Nat} (ha : IsArgsortR argsort)
    (ha' : IsArgsortR argsort') (pmu : List P4) (radius pVal : ℝ) (ptCut etaCut : Option ℝ) (topK : TopK) (hR : 0 < radius)
    (masks : List (List Bool)) (h : KtResult rule argsort pmu radius pVal ptCut etaCut topK masks) (m : List Bool) (hm : m ∈ masks)
    (sel : List P4) (hsel : (Key.mask m).apply pmu = .ok sel)
    (hn : ∀ algo, AlgoFor pVal algo → NoTies (rule algo) radius (ktInput sel)) (masks' : List (List Bool))
    (h' : KtResult rule argsort' sel radius pVal ptCut etaCut topK masks') : masks' = [List.replicate sel.length true] := by
  have h1 := C164_recluster hrule ha pmu radius pVal ptCut etaCut topK hR masks h m hm sel hsel
  obtain ⟨fj, hfj, h0⟩ := h
  obtain ⟨all, a1, a2⟩ := without_topK (runs_range hfj) ha hR h0
  have hm' : m ∈ all := by rw [a2] at hm; exact (firstK_sublist topK all).mem hm
  have h2 := C164_recluster hrule ha pmu radius pVal ptCut etaCut .none hR all ⟨fj, hfj, a1⟩ m hm' sel hsel
  exact (C165_order hrule ha ha' sel radius pVal ptCut etaCut topK hR hn _ _ _ h2 (by simp) h1 h').symm

/-! ## with ties -/

theorem runsKt_with {rule : FjAlgo → KtRule} (hrule : IsKtRule rule) {pmu : List P4} {algo : FjAlgo} {R : ℝ} {jets : List Jet}
    (h : KtRun (rule algo) R (ktInput pmu) jets) :
    ∃ fj, RunsKt rule fj ∧ ∀ c, fj pmu algo R c = jets.filter (fun j => decide (c ≤ j.pmu.pt)) := by
  have hall : ∀ (q : List P4) (algo : FjAlgo) (R ptMin : ℝ), 0 < R → ∃ jets, KtRun (rule algo) R (ktInput q) jets :=
    fun q algo R _ h0 => ktRun_exists (rule algo) (hrule.nonneg algo) (hrule.dist_nonneg algo) (hrule.symm algo) h0 _
  choose other ho using hall
  classical
  refine ⟨fun q algo' R' ptMin =>
    if q = pmu ∧ R' = R ∧ algo' = algo then jets.filter (fun j => decide (ptMin ≤ j.pmu.pt))
    else if h0 : 0 < R' then (other q algo' R' ptMin h0).filter (fun j => decide (ptMin ≤ j.pmu.pt)) else [], ?_, fun c => by simp⟩
  intro q algo' R' ptMin h0
  by_cases hq : q = pmu ∧ R' = R ∧ algo' = algo
  · obtain ⟨rfl, rfl, rfl⟩ := hq
    exact ⟨jets, h, by simp⟩
  · exact ⟨other q algo' R' ptMin h0, ho q algo' R' ptMin h0, by simp [hq, h0]⟩

/-- Two particles of equal transverse momentum in the transverse plane, summed. -/
theorem plane_sum {α β : ℝ} (h : |α - β| < π) (h1 : -π < (α + β) / 2) (h2 : (α + β) / 2 ≤ π) :
    Visible (padd (planeP4 1 α) (planeP4 1 β)) ∧ jetRapidity (padd (planeP4 1 α) (planeP4 1 β)) = 0 ∧
      (padd (planeP4 1 α) (planeP4 1 β)).xyPol.arg = (α + β) / 2 := by
  obtain ⟨ha, hb⟩ := abs_lt.1 h
  have hc : 0 < cos ((α - β) / 2) := cos_pos_of_mem_Ioo ⟨by linarith, by linarith⟩
  have e1 : cos α + cos β = 2 * cos ((α - β) / 2) * cos ((α + β) / 2) := by rw [cos_add_cos]; ring
  have e2 : sin α + sin β = 2 * cos ((α - β) / 2) * sin ((α + β) / 2) := by rw [sin_add_sin]; ring
  have hp : padd (planeP4 1 α) (planeP4 1 β) =
      ⟨2 * cos ((α - β) / 2) * cos ((α + β) / 2), 2 * cos ((α - β) / 2) * sin ((α + β) / 2), 0, 4⟩ := by
    simp only [padd, planeP4, P4.mk.injEq]
    refine ⟨by rw [← e1]; ring, by rw [← e2]; ring, by ring, by ring⟩
  rw [hp]
  set c := cos ((α - β) / 2)
  set m := (α + β) / 2
  refine ⟨⟨⟨by norm_num, ?_⟩, ?_⟩, by simp [jetRapidity], ?_⟩
  · have h1 : c ≤ 1 := cos_le_one _
    have e : (2 * c * cos m) ^ 2 + (2 * c * sin m) ^ 2 + 0 ^ 2 = 4 * c ^ 2 := by
      have := sin_sq_add_cos_sq m
      calc _ = 4 * c ^ 2 * (sin m ^ 2 + cos m ^ 2) := by ring
        _ = _ := by rw [this, mul_one]
    simp only
    rw [e]
    nlinarith
  · rw [pt_eq]
    apply sqrt_pos.2
    simp only
    nlinarith [sin_sq_add_cos_sq m, mul_pos hc hc]
  · have : (P4.xyPol ⟨2 * c * cos m, 2 * c * sin m, 0, 4⟩) = ((2 * c : ℝ) : ℂ) * (Complex.cos m + Complex.sin m * Complex.I) := by
      rw [← Complex.ofReal_cos, ← Complex.ofReal_sin]
      apply Complex.ext <;> simp [P4.xyPol, -Complex.ofReal_cos, -Complex.ofReal_sin]
    rw [this, Complex.arg_real_mul _ (by linarith), Complex.arg_cos_add_sin_mul_I ⟨h1, h2⟩]

/-- Three particles, the second half-way between the others. -/
noncomputable def tiedJets : List P4 := [planeP4 1 (-(9 / 10)), planeP4 1 0, planeP4 1 (9 / 10)]

open Classical in
/-- **C165** With a tie the result is not determined: of three particles the second is as near to the first as to the third, and
both can be clustered with it. -/
theorem C165_false {rule : FjAlgo → KtRule} (hrule : IsKtRule rule) {argsort : List ℝ → List Nat} (ha : IsArgsortR argsort) :
    ∃ masks masks', KtResult rule argsort tiedJets 1 0 none none .none masks ∧
      KtResult rule argsort tiedJets 1 0 none none .none masks' ∧ masks.Perm [[true, true, false], [false, false, true]] ∧
      masks'.Perm [[false, true, true], [true, false, false]] := by
  have hpi := pi_gt_three
  set j0 : Jet := ⟨planeP4 1 (-(9 / 10)), [0]⟩ with hj0
  set j1 : Jet := ⟨planeP4 1 0, [1]⟩ with hj1
  set j2 : Jet := ⟨planeP4 1 (9 / 10), [2]⟩ with hj2
  have ein : ktInput tiedJets = [j0, j1, j2] := rfl
  have d : ∀ {θ ψ : ℝ}, |θ| < 1 → |ψ| < 1 → (rule .cambridge).dist (planeP4 1 θ) (planeP4 1 ψ) = |θ - ψ| := fun h1 h2 =>
    planeKt_dist hrule .cambridge (by linarith) (by linarith)
  have n9 : |(9 / 10 : ℝ)| < 1 := by rw [abs_of_pos] <;> norm_num
  have n9' : |(-(9 / 10) : ℝ)| < 1 := by rw [abs_neg]; exact n9
  have n0 : |(0 : ℝ)| < 1 := by norm_num
  have d01 : (rule .cambridge).dist j0.pmu j1.pmu = 9 / 10 := by
    show (rule .cambridge).dist (planeP4 1 _) (planeP4 1 _) = _
    rw [d n9' n0]; norm_num [abs_of_neg]
  have d12 : (rule .cambridge).dist j1.pmu j2.pmu = 9 / 10 := by
    show (rule .cambridge).dist (planeP4 1 _) (planeP4 1 _) = _
    rw [d n0 n9]; norm_num [abs_of_neg]
  have d02 : (rule .cambridge).dist j0.pmu j2.pmu = 18 / 10 := by
    show (rule .cambridge).dist (planeP4 1 _) (planeP4 1 _) = _
    rw [d n9' n9]; norm_num [abs_of_neg]
  have pr : ∀ a b : Jet, (rule .cambridge).pair 1 a b = (rule .cambridge).dist a.pmu b.pmu ^ 2 := fun a b => by
    unfold KtRule.pair
    rw [hrule.cambridge, hrule.cambridge]; norm_num
  have least : (rule .cambridge).Least 1 [j0, j1, j2] ((9 / 10) ^ 2) := by
    refine ⟨fun a _ => by rw [hrule.cambridge]; norm_num, ?_⟩
    simp only [pr, List.pairwise_cons, List.mem_cons, List.not_mem_nil, or_false, forall_eq_or_imp, forall_eq, d01, d02, d12]
    norm_num
  have finish : ∀ a b : Jet, 1 ≤ (rule .cambridge).dist a.pmu b.pmu → KtRun (rule .cambridge) 1 [a, b] [a, b] := by
    intro a b hab
    have l1 : (rule .cambridge).Least 1 [a, b] ((rule .cambridge).scale a.pmu) := by
      refine ⟨fun x _ => by rw [hrule.cambridge, hrule.cambridge], ?_⟩
      simp only [pr, List.pairwise_cons, List.mem_cons, List.not_mem_nil, or_false, forall_eq, hrule.cambridge]
      refine ⟨by nlinarith, by simp⟩
    refine .beam (.refl _) l1 (.beam (.refl _) ⟨fun x hx => ?_, by simp⟩ .done)
    rw [List.mem_singleton.1 hx]
  -- the sums
  have far1 : 1 ≤ (rule .cambridge).dist (j0.join j1).pmu j2.pmu := by
    obtain ⟨v, y, g⟩ := plane_sum (α := -(9 / 10)) (β := 0) (by rw [sub_zero, abs_neg]; linarith) (by linarith) (by linarith)
    show 1 ≤ (rule .cambridge).dist (padd (planeP4 1 (-(9 / 10))) (planeP4 1 0)) (planeP4 1 (9 / 10))
    rw [hrule.dist .cambridge _ _ (-(27 / 20)) v (plane_visible _) (by linarith) (by linarith)
      ⟨0, by rw [g, plane_arg (by linarith) (by linarith)]; norm_num⟩, y, plane_rapidity]
    apply le_sqrt_of_sq_le; norm_num
  have far2 : 1 ≤ (rule .cambridge).dist (j1.join j2).pmu j0.pmu := by
    obtain ⟨v, y, g⟩ := plane_sum (α := 0) (β := 9 / 10) (by rw [zero_sub, abs_neg]; linarith) (by linarith) (by linarith)
    show 1 ≤ (rule .cambridge).dist (padd (planeP4 1 0) (planeP4 1 (9 / 10))) (planeP4 1 (-(9 / 10)))
    rw [hrule.dist .cambridge _ _ (27 / 20) v (plane_visible _) (by linarith) (by linarith)
      ⟨0, by rw [g, plane_arg (by linarith) (by linarith)]; norm_num⟩, y, plane_rapidity]
    apply le_sqrt_of_sq_le; norm_num
  have run1 : KtRun (rule .cambridge) 1 (ktInput tiedJets) [j0.join j1, j2] := by
    rw [ein]
    refine .pair (.refl _) ?_ (by rw [d01]; norm_num) (finish _ _ far1)
    rw [pr, d01]; exact least
  have run2 : KtRun (rule .cambridge) 1 (ktInput tiedJets) [j1.join j2, j0] := by
    rw [ein]
    have hperm : [j0, j1, j2].Perm [j1, j2, j0] := (List.Perm.swap j1 j0 [j2]).trans ((List.Perm.swap j2 j0 []).cons j1)
    refine .pair hperm ?_ (by rw [d12]; norm_num) (finish _ _ far2)
    rw [pr, d12]; exact least
  have res : ∀ jets, KtRun (rule .cambridge) 1 (ktInput tiedJets) jets → ∃ masks, KtResult rule argsort tiedJets 1 0 none none .none masks ∧
      masks.Perm (jets.map (fun j => Jet.maskIn 3 j.key)) := by
    intro jets hrun
    obtain ⟨fj, hfj, hj⟩ := runsKt_with hrule hrun
    obtain ⟨algo, q1, q2⟩ := C56_masks fj argsort ha tiedJets 1 0 none none .none (by simp [FjBadArgs])
    have hal : algo = .cambridge := q1.2.1 rfl
    subst hal
    obtain ⟨srt, kept, ms, n1, n2, -, n4, n5⟩ := q2 (runs_range hfj _ _ _ _ one_pos)
    refine ⟨ms, ⟨fj, hfj, n1⟩, ?_⟩
    have hk : kept = srt := by rw [n4]; exact List.filter_eq_self.2 (fun j _ => by simp [EtaOk])
    have hjets : fj tiedJets .cambridge 1 (Option.getD none 0) = jets := by
      rw [hj]
      exact List.filter_eq_self.2 (fun j _ => by simpa using pt_nonneg _)
    rw [hjets] at n2
    have := masks_eq n5
    rw [this, hk]
    show ((srt.map Jet.key).map (Jet.maskIn 3)).Perm _
    rw [List.map_map]
    exact n2.map _
  obtain ⟨m1, a1, a2⟩ := res _ run1
  obtain ⟨m2, b1, b2⟩ := res _ run2
  refine ⟨m1, m2, a1, b1, a2.trans (.of_eq ?_), b2.trans (.of_eq ?_)⟩
  · simp [Jet.maskIn, Jet.key, Jet.join, hj0, hj1, hj2, List.range_succ]
  · simp [Jet.maskIn, Jet.key, Jet.join, hj0, hj1, hj2, List.range_succ]

/-- Two particles at distance 1/2 and radius 1: the assumption on ties is met, for every exponent. -/
example {rule : FjAlgo → KtRule} (hrule : IsKtRule rule) (algo : FjAlgo) :
    NoTies (rule algo) 1 (ktInput [planeP4 1 0, planeP4 1 (1 / 2)]) := by
  have hpi := pi_gt_three
  have hpt : ∀ θ, (planeP4 1 θ).pt = 1 := fun θ => planeP4_pt 1 θ one_pos
  have hs : ∀ θ, (rule algo).scale (planeP4 1 θ) = 1 := by
    intro θ
    cases algo with
    | kt => rw [hrule.kt _ (plane_visible θ), hpt]; norm_num
    | cambridge => exact hrule.cambridge _
    | antikt => rw [hrule.antikt _ (plane_visible θ), hpt]; norm_num
    | genkt n => rw [hrule.genkt n _ (plane_visible θ), hpt]; norm_num
  set j0 : Jet := ⟨planeP4 1 0, [0]⟩ with hj0
  set j1 : Jet := ⟨planeP4 1 (1 / 2), [1]⟩ with hj1
  have ein : ktInput [planeP4 1 0, planeP4 1 (1 / 2)] = [j0, j1] := rfl
  have hd : (rule algo).dist j0.pmu j1.pmu = 1 / 2 := by
    show (rule algo).dist (planeP4 1 0) (planeP4 1 (1 / 2)) = 1 / 2
    rw [planeKt_dist hrule algo (by rw [abs_zero]; linarith) (by rw [abs_of_pos] <;> linarith)]; norm_num [abs_of_neg]
  have hs0 : (rule algo).scale j0.pmu = 1 := hs _
  have hs1 : (rule algo).scale j1.pmu = 1 := hs _
  have short : ∀ act : List Jet, act.length ≤ 1 → NoTie (rule algo) 1 act := by
    intro act hl i j rest hp
    have := hp.length_eq
    simp at this; omega
  have len : ∀ {a b : List Jet}, KtStep (rule algo) 1 a b → b.length + 1 = a.length := by
    intro a b h
    cases h with
    | beam h _ => rw [h.length_eq]; simp
    | pair h _ _ => rw [h.length_eq]; simp
  have two : ∀ k l rest', [j0, j1].Perm (k :: l :: rest') → (k = j0 ∧ l = j1) ∨ (k = j1 ∧ l = j0) := by
    intro k l rest' hp
    have : rest' = [] := by
      have := hp.length_eq
      simp at this
      exact this
    subst this
    have hk : k ∈ [j0, j1] := hp.mem_iff.2 (by simp)
    simp only [List.mem_cons, List.not_mem_nil, or_false] at hk
    rcases hk with rfl | rfl
    · left; refine ⟨rfl, ?_⟩; simpa using (List.perm_cons _).1 hp.symm
    · right; refine ⟨rfl, ?_⟩
      simpa using (List.perm_cons _).1 (hp.symm.trans (List.Perm.swap _ _ _))
  intro act hr
  rw [ein] at hr
  rcases Relation.ReflTransGen.cases_head hr with rfl | ⟨b, s, hr⟩
  · intro i j rest hp _ _
    have hpair : (rule algo).pair 1 i j = 1 / 4 := by
      unfold KtRule.pair
      rcases two i j rest hp with ⟨rfl, rfl⟩ | ⟨rfl, rfl⟩
      · rw [hs0, hs1, hd]; norm_num
      · rw [hs0, hs1, hrule.symm, hd]; norm_num
    refine ⟨fun a ha => ?_, fun k l rest' hp' _ _ => ?_⟩
    · rw [hpair]
      simp only [List.mem_cons, List.not_mem_nil, or_false] at ha
      rcases ha with rfl | rfl
      · rw [hs0]; norm_num
      · rw [hs1]; norm_num
    · rcases two i j rest hp with ⟨rfl, rfl⟩ | ⟨rfl, rfl⟩ <;> rcases two k l rest' hp' with ⟨rfl, rfl⟩ | ⟨rfl, rfl⟩ <;> simp
  · apply short
    have h1 := len s
    simp at h1
    have : ∀ {c : List Jet}, Relation.ReflTransGen (KtStep (rule algo) 1) b c → c.length ≤ b.length := by
      intro c h
      induction h with
      | refl => exact le_rfl
      | tail _ s ih => have := len s; omega
    have := this hr
    omega
end Gcl
