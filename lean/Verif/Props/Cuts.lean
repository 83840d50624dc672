import Verif.Props.Clusters
import Verif.Props.HashSeed
import Verif.Props.Fastjet
import Verif.Props.Cluster
import Verif.Props.Frames
import Verif.Props.Pdg
/-!
# C163: tightening a cut never adds anything
-/
namespace Gcl
set_option autoImplicit false
open Real Spec

/-! ## clusters -/

theorem selected_mono {full full' : List Bool} (final : List Bool) (hl : full.length = full'.length)
    (h : ∀ i : Nat, full[i]? = some true → full'[i]? = some true) :
    (selected full final).length = (selected full' final).length ∧
      ∀ i : Nat, (selected full final)[i]? = some true → (selected full' final)[i]? = some true := by
  induction full generalizing full' final with
  | nil =>
    cases full' with
    | nil => simp [selected]
    | cons b r => simp at hl
  | cons a full ih =>
    cases full' with
    | nil => simp at hl
    | cons b full' =>
      have h0 := h 0
      have hs : ∀ i : Nat, full[i]? = some true → full'[i]? = some true := fun i hi => h (i + 1) (by simpa using hi)
      cases final with
      | nil => simp [selected]
      | cons c final =>
        obtain ⟨i1, i2⟩ := ih final (by simpa using hl) hs
        cases c with
        | false =>
          have e : ∀ (x : Bool) (l : List Bool), selected (x :: l) (false :: final) = selected l final := by
            intro x l; simp [selected]
          rw [e, e]
          exact ⟨i1, i2⟩
        | true =>
          have e : ∀ (x : Bool) (l : List Bool), selected (x :: l) (true :: final) = x :: selected l final := by
            intro x l; simp [selected]
          rw [e, e]
          refine ⟨by simp [i1], fun i hi => ?_⟩
          cases i with
          | zero => simpa using h0 (by simpa using hi)
          | succ i => simpa using i2 i (by simpa using hi)

theorem nearParton_mono {tol r r' : ℝ} (hr : r ≤ r') {pmu : List P4} {status : List Int} {d : List Bool} {i : Nat}
    (h : NearParton tol r pmu status d i) : NearParton tol r' pmu status d i := by
  obtain ⟨j, pj, pi, h1, h2, h3, h4⟩ := h
  refine ⟨j, pj, pi, h1, h2, h3, ?_⟩
  obtain ⟨η, η0, φ0, a, n1, n2, n3, n4, n5, n6, n7⟩ := h4
  exact ⟨η, η0, φ0, a, n1, n2, n3, n4, n5, lt_of_lt_of_le n6 hr, lt_of_lt_of_le n7 (by gcongr)⟩

section
variable {R : Type} [LinearOrder R]

/-- **C163** A larger radius never removes a particle from a cluster: `clusters` with two radii raises the same error, or gives
groups of the same names, and every mask with the smaller radius is contained in the one with the larger. -/
theorem C163_clusters (dist : P4 → P4 → R) (setIter : List String → List String)
    (hset : ∀ l : List String, l.Nodup → (setIter l).Perm l) (nm : Int → String) (tol r r' : ℝ) (hr : r ≤ r')
    (g : ClusterGraph) (hg : GoodEvent nm g) :
    (∃ e, clusters dist setIter nm tol r g = .error e ∧ clusters dist setIter nm tol r' g = .error e) ∨
    ∃ out out', clusters dist setIter nm tol r g = .ok out ∧ clusters dist setIter nm tol r' g = .ok out' ∧
      (out.map Prod.fst).Perm (out'.map Prod.fst) ∧
      ∀ k m m', (k, m) ∈ out → (k, m') ∈ out' → m.length = m'.length ∧
        ∀ i : Nat, m[i]? = some true → m'[i]? = some true := by
  cases h0 : hierarchy nm g.pdg g.status g.final g.edges none with
  | error e => left; exact ⟨e, by unfold clusters; rw [h0], by unfold clusters; rw [h0]⟩
  | ok hier0 =>
    by_cases hne : hier0 = []
    · subst hne; left; exact ⟨_, C60_empty _ _ _ _ _ _ h0, C60_empty _ _ _ _ _ _ h0⟩
    cases h1 : partitionDescendants dist g.pmu g.final g.status g.edges hier0 with
    | error e => left; exact ⟨e, by unfold clusters; simp only [h0, h1], by unfold clusters; simp only [h0, h1]⟩
    | ok hier =>
      have hN := partition_nice hg h0 hne h1
      have hlo := topLeaves_model hier
      cases hc : colorSinglets setIter (leafList hier) g.status g.color true with
      | error e =>
        left
        have hc' := hc
        simp only [leafList] at hc'
        have : ∀ radius, clusters dist setIter nm tol radius g = .error e := by
          intro radius
          unfold clusters
          simp only [h0, h1]
          unfold clusterRest
          rw [C10_leaf_masks .or hier _ hlo (leaves_nodup hN hlo).1]
          simp only [flatEntries_arr, hc']
        exact ⟨e, this r, this r'⟩
      | ok l =>
        obtain ⟨keys, rfl, hn, hm⟩ := colorKeys_facts setIter hset _ _ _ _ hc
        by_cases hbad : ∃ k ∈ keys, ∃ p d, LeafPath (p ++ [k]) ∧ look (.grp .or hier) (p ++ [k]) = some (.leaf d) ∧
            ¬ ∃ j, TheParton g.status d j
        · left
          exact ⟨_, C60_no_parton hset hg tol r h0 hne h1 _ hlo keys hc hbad,
            C60_no_parton hset hg tol r' h0 hne h1 _ hlo keys hc hbad⟩
        · right
          have hone : ∀ k ∈ keys, ∀ p d, LeafPath (p ++ [k]) → look (.grp .or hier) (p ++ [k]) = some (.leaf d) →
              ∃ j, TheParton g.status d j := by
            intro k hk p d hp hd
            by_contra hj
            exact hbad ⟨k, hk, p, d, hp, hd, hj⟩
          obtain ⟨out, o1, o2, o3, o4⟩ := C60_clusters hset hg tol r h0 hne h1 _ hlo keys hc hone
          obtain ⟨out', o1', o2', o3', o4'⟩ := C60_clusters hset hg tol r' h0 hne h1 _ hlo keys hc hone
          refine ⟨out, out', o1, o1', ?_, ?_⟩
          · rw [List.perm_ext_iff_of_nodup o2 o2']
            intro k
            rw [o3, o3']
          · intro k m m' hm1 hm2
            obtain ⟨p, full, a1, a2, a3, rfl, a5⟩ := o4 k m hm1
            obtain ⟨p', full', b1, b2, b3, rfl, b5⟩ := o4' k m' hm2
            have hk : k ≠ "latent" := by rintro rfl; simp at a1
            obtain rfl := hN.names p p' k hk a2 b2
            refine selected_mono g.final (by rw [a3, b3]) (fun i hi => ?_)
            rw [b5]
            obtain ⟨q, d, c1, c2, c3, c4⟩ := (a5 i).1 hi
            exact ⟨q, d, c1, c2, c3, fun k hk1 hk2 => nearParton_mono hr (c4 k hk1 hk2)⟩

end

/-! ## fastjet_clusters -/

theorem jetMasks_map {n : Nat} {ls : List (List Nat)} {ms : List (List Bool)} (h : jetMasks n ls = .ok ms) :
    List.Forall₂ (fun is m => jetMask n is = .ok m) ls ms := by
  induction ls generalizing ms with
  | nil => cases h; exact .nil
  | cons is ls ih =>
    rw [jetMasks] at h
    split at h
    · cases h
    · rename_i m hm
      split at h
      · cases h
      · rename_i ms' hms
        cases h
        exact .cons hm (ih hms)

theorem jetMasks_take {n : Nat} {ls : List (List Nat)} {ms : List (List Bool)} (h : jetMasks n ls = .ok ms) (k : Nat) :
    jetMasks n (ls.take k) = .ok (ms.take k) := by
  induction ls generalizing ms k with
  | nil => cases h; simp [jetMasks]
  | cons is ls ih =>
    cases k with
    | zero => simp [jetMasks]
    | succ k =>
      rw [jetMasks] at h
      split at h
      · cases h
      · rename_i m hm
        split at h
        · cases h
        · rename_i ms' hms
          cases h
          simp only [List.take_succ_cons, jetMasks, hm, ih hms]

theorem jetMasks_sublist {n : Nat} {ls ls' : List (List Nat)} (hs : ls'.Sublist ls) {ms : List (List Bool)}
    (h : jetMasks n ls = .ok ms) : ∃ ms', jetMasks n ls' = .ok ms' ∧ ms'.Sublist ms := by
  induction hs generalizing ms with
  | slnil => cases h; exact ⟨[], rfl, .slnil⟩
  | cons a hs ih =>
    rw [jetMasks] at h
    split at h
    · cases h
    · split at h
      · cases h
      · rename_i m hm ms' hms
        cases h
        obtain ⟨x, h1, h2⟩ := ih hms
        exact ⟨x, h1, .cons _ h2⟩
  | cons_cons a hs ih =>
    rw [jetMasks] at h
    split at h
    · cases h
    · split at h
      · cases h
      · rename_i m hm _ ms' hms
        cases h
        obtain ⟨x, h1, h2⟩ := ih hms
        exact ⟨m :: x, by simp only [jetMasks, hm, h1], .cons_cons _ h2⟩

/-- **C163** `top_k` only cuts the list off: with `top_k=k` come the first `k` of the masks without it. -/
theorem C163_top_k (fj : List P4 → FjAlgo → ℝ → ℝ → List Jet) (argsort : List ℝ → List Nat) (pmu : List P4)
    (radius pVal : ℝ) (ptCut etaCut : Option ℝ) (k : Nat) (hk : 1 ≤ k) (all : List (List Bool))
    (h : fastjetClusters fj argsort pmu radius pVal ptCut etaCut .none = .ok all) :
    fastjetClusters fj argsort pmu radius pVal ptCut etaCut (.int k) = .ok (all.take k) := by
  have hb : (TopK.int (k : Int)).bad = false := by simp [TopK.bad]; omega
  unfold fastjetClusters at h ⊢
  split at h
  · cases h
  · split at h
    · cases h
    · rename_i h1 h2
      simp only [TopK.bad, Bool.false_eq_true, if_false] at h
      simp only [h1, h2, hb, Bool.false_eq_true, if_false]
      cases etaCut with
      | none => simpa [TopK.cut] using jetMasks_take h k
      | some cut =>
        simp only at h ⊢
        split at h
        · cases h
        · rename_i h3
          simp only [h3, Bool.false_eq_true, if_false]
          simpa [TopK.cut] using jetMasks_take h k

/-- **C163** Without `top_k`, lowering `eta_cut`, or giving one, only takes masks away: the others stay as they are, in order. -/
theorem C163_eta_cut (fj : List P4 → FjAlgo → ℝ → ℝ → List Jet) (argsort : List ℝ → List Nat) (pmu : List P4)
    (radius pVal : ℝ) (ptCut : Option ℝ) (cut : ℝ) (hcut : 0 ≤ cut) (wider : Option ℝ)
    (hw : ∀ c, wider = some c → cut ≤ c) (all : List (List Bool))
    (h : fastjetClusters fj argsort pmu radius pVal ptCut wider .none = .ok all) :
    ∃ masks, fastjetClusters fj argsort pmu radius pVal ptCut (some cut) .none = .ok masks ∧ masks.Sublist all := by
  unfold fastjetClusters at h ⊢
  split at h
  · cases h
  · split at h
    · cases h
    · rename_i h1 h2
      simp only [TopK.bad, Bool.false_eq_true, if_false] at h
      simp only [h1, h2, TopK.bad, Bool.false_eq_true, if_false, not_lt.2 hcut, decide_false]
      cases wider with
      | none => exact jetMasks_sublist (by simpa [TopK.cut] using List.Sublist.map _ List.filter_sublist) h
      | some c =>
        have hc := hw c rfl
        simp only [not_lt.2 (hcut.trans hc), decide_false, Bool.false_eq_true, if_false] at h
        refine jetMasks_sublist ?_ h
        simp only [TopK.cut]
        apply List.Sublist.map
        apply List.monotone_filter_right
        intro j hj
        rw [etaWithin_iff] at hj ⊢
        obtain ⟨η, e1, e2⟩ := hj
        exact ⟨η, e1, lt_of_lt_of_le e2 hc⟩

open Classical in
/-- **C163** Without `top_k`, raising `pt_cut` only takes masks away, if FastJet's inclusive jets above a cut are those of one
clustering that are above it. -/
theorem C163_pt_cut (fj : List P4 → FjAlgo → ℝ → ℝ → List Jet) (argsort argsort' : List ℝ → List Nat)
    (ha : IsArgsortR argsort) (ha' : IsArgsortR argsort') (pmu : List P4) (radius pVal : ℝ)
    (hfj : ∀ algo, ∃ jets : List Jet,
      ∀ ptMin, (fj pmu algo radius ptMin).Perm (jets.filter (fun j => decide (ptMin ≤ j.pmu.pt))))
    (cut cut' : ℝ) (hcut : cut ≤ cut') (etaCut : Option ℝ) (masks masks' : List (List Bool))
    (h : fastjetClusters fj argsort pmu radius pVal (some cut) etaCut .none = .ok masks)
    (h' : fastjetClusters fj argsort' pmu radius pVal (some cut') etaCut .none = .ok masks') :
    List.Subperm masks' masks := by
  obtain ⟨jets, hj⟩ := hfj (fjAlgo pVal)
  have key : ∀ (as : List ℝ → List Nat), IsArgsortR as → ∀ (c : ℝ) (ms : List (List Bool)),
      fastjetClusters fj as pmu radius pVal (some c) etaCut .none = .ok ms →
      ∃ l : List Jet, l.Perm (jets.filter (fun j => decide (c ≤ j.pmu.pt ∧ EtaOk etaCut j))) ∧
        jetMasks pmu.length (l.map Jet.constituents) = .ok ms := by
    intro as has c ms hms
    unfold fastjetClusters at hms
    split at hms
    · cases hms
    · split at hms
      · cases hms
      · simp only [TopK.bad, Bool.false_eq_true, if_false, TopK.cut, Option.getD_some] at hms
        have hp := ((argsort_desc as has (fj pmu (fjAlgo pVal) radius c) (fun j => j.pmu.pt)).1).trans (hj c)
        cases etaCut with
        | none =>
          refine ⟨_, ?_, hms⟩
          simpa [EtaOk] using hp
        | some e =>
          simp only at hms
          split at hms
          · cases hms
          · refine ⟨_, ?_, hms⟩
            refine (hp.filter _).trans (.of_eq ?_)
            rw [List.filter_filter]
            apply List.filter_congr
            intro j _
            rw [Bool.eq_iff_iff]
            simp [etaWithin_iff, EtaOk, and_comm]
  obtain ⟨l, p1, q1⟩ := key argsort ha cut masks h
  obtain ⟨l', p2, q2⟩ := key argsort' ha' cut' masks' h'
  have hsub : (jets.filter (fun j => decide (cut' ≤ j.pmu.pt ∧ EtaOk etaCut j))).Sublist
      (jets.filter (fun j => decide (cut ≤ j.pmu.pt ∧ EtaOk etaCut j))) := by
    apply List.monotone_filter_right
    intro j hj
    simp only [decide_eq_true_eq] at hj ⊢
    exact ⟨hcut.trans hj.1, hj.2⟩
  have hmask : ∀ (l : List Jet) (ms : List (List Bool)), jetMasks pmu.length (l.map Jet.constituents) = .ok ms →
      ms = l.map (fun j => j.constituents.foldl (fun m i => m.set i true) (List.replicate pmu.length false)) := by
    intro l ms hms
    induction l generalizing ms with
    | nil => cases hms; rfl
    | cons j l ih =>
      simp only [List.map_cons, jetMasks] at hms
      split at hms
      · cases hms
      · rename_i m hm
        split at hms
        · cases hms
        · rename_i ms' hms'
          cases hms
          rw [List.map_cons, ih ms' hms']
          congr 1
          unfold jetMask at hm
          split at hm
          · cases hm; rfl
          · cases hm
  rw [hmask l masks q1, hmask l' masks' q2]
  obtain ⟨x, x1, x2⟩ := p2.subperm.trans (hsub.subperm.trans p1.symm.subperm)
  exact ⟨x.map _, x1.map _, x2.map _⟩

/-! ## codes and ranges -/

/-- **C163** A narrower range of status codes selects no more particles. -/
theorem C163_range (data : List Int) (lo lo' : Int) (hi hi' : Option Int) (s : Bool) (hlo : lo ≤ lo')
    (hhi : ∀ b, hi = some b → ∃ b', hi' = some b' ∧ b' ≤ b) (i : Nat)
    (h : (inRange data lo' hi' s)[i]? = some true) : (inRange data lo hi s)[i]? = some true := by
  have hb : ∀ x : Int, (lo' ≤ x ∧ ∀ b, hi' = some b → x ≤ b) → lo ≤ x ∧ ∀ b, hi = some b → x ≤ b := by
    rintro x ⟨h1, h2⟩
    refine ⟨by omega, fun b e => ?_⟩
    obtain ⟨b', e', hb⟩ := hhi b e
    have := h2 b' e'
    omega
  cases s with
  | true =>
    obtain ⟨l1, v1⟩ := C23_signed data lo hi
    obtain ⟨l2, v2⟩ := C23_signed data lo' hi'
    have hi1 : i < data.length := by
      rw [← l2]; exact (List.getElem?_eq_some_iff.1 h).1
    rw [v1 i _ (List.getElem?_eq_getElem hi1)]
    rw [v2 i _ (List.getElem?_eq_getElem hi1)] at h
    simp only [Option.some.injEq, decide_eq_true_eq] at h ⊢
    exact hb _ h
  | false =>
    obtain ⟨l1, v1⟩ := C23_unsigned data lo hi
    obtain ⟨l2, v2⟩ := C23_unsigned data lo' hi'
    have hi1 : i < data.length := by
      rw [← l2]; exact (List.getElem?_eq_some_iff.1 h).1
    rw [v1 i _ _ (List.getElem?_eq_getElem hi1) rfl]
    rw [v2 i _ _ (List.getElem?_eq_getElem hi1) rfl] at h
    simp only [Option.some.injEq, decide_eq_true_eq] at h ⊢
    exact hb _ h

/-- **C163** `PdgArray.mask`: more targets select no fewer particles, and as a blacklist no more. -/
theorem C163_codes (data target target' : List Int) (s : Bool) (ht : ∀ c ∈ target, c ∈ target') (i : Nat) :
    ((pdgMask data target false s)[i]? = some true → (pdgMask data target' false s)[i]? = some true) ∧
    ((pdgMask data target' true s)[i]? = some true → (pdgMask data target true s)[i]? = some true) := by
  have h1 : (pdgMask data target false s)[i]? = some true → (pdgMask data target' false s)[i]? = some true := by
    intro h
    cases s with
    | true =>
      obtain ⟨l1, -, v1⟩ := C22_sensitive data target
      obtain ⟨-, -, v2⟩ := C22_sensitive data target'
      have hi1 : i < data.length := by rw [← l1]; exact (List.getElem?_eq_some_iff.1 h).1
      rw [(v2 i _ (List.getElem?_eq_getElem hi1)).1]
      rw [(v1 i _ (List.getElem?_eq_getElem hi1)).1] at h
      simp only [Option.some.injEq, decide_eq_true_eq] at h ⊢
      exact ht _ h
    | false =>
      obtain ⟨l1, v1⟩ := C22_magnitude data target
      obtain ⟨-, v2⟩ := C22_magnitude data target'
      have hi1 : i < data.length := by rw [← l1]; exact (List.getElem?_eq_some_iff.1 h).1
      rw [v2 i _ (List.getElem?_eq_getElem hi1)]
      rw [v1 i _ (List.getElem?_eq_getElem hi1)] at h
      simp only [Option.some.injEq, decide_eq_true_eq] at h ⊢
      exact ht _ h
  refine ⟨h1, ?_⟩
  rw [C22_complement, C22_complement, List.getElem?_map, List.getElem?_map]
  have hlen : (pdgMask data target false s).length = (pdgMask data target' false s).length := by
    cases s
    · rw [(C22_magnitude data target).1, (C22_magnitude data target').1]
    · rw [(C22_sensitive data target).1, (C22_sensitive data target').1]
  intro h
  by_cases hi : i < (pdgMask data target false s).length
  · rw [List.getElem?_eq_getElem hi, Option.map_some] at *
    rw [List.getElem?_eq_getElem (hlen ▸ hi), Option.map_some] at h
    rw [List.getElem?_eq_getElem (hlen ▸ hi)] at h1
    cases hv : (pdgMask data target false s)[i] with
    | false => rfl
    | true =>
      have := h1 (by rw [hv])
      simp only [Option.some.injEq] at this
      rw [this] at h
      simp at h
  · rw [List.getElem?_eq_none (by omega)] at h
    simp at h

/-! ## cluster_coeff_distbn -/

theorem coeff_pos_iff {n : Nat} (adj : Arr2 n n Bool) (hd : ∀ i, adj i i = false) (i : Fin n) :
    clustCoeffs adj i ≠ 0 ↔ ∃ a b, adj i a = true ∧ adj i b = true ∧ adj a b = true := by
  rw [C73_value adj hd i]
  constructor
  · intro h
    split at h
    · exact absurd rfl h
    · have hc : (linkedPairs adj i).card ≠ 0 := by
        intro e
        rw [e] at h
        simp at h
      obtain ⟨⟨a, b⟩, hab⟩ := Finset.card_pos.1 (Nat.pos_of_ne_zero hc)
      simp only [linkedPairs, neighbourPairs, neighbours, Finset.mem_filter, Finset.mem_offDiag, Finset.mem_univ,
        true_and] at hab
      exact ⟨a, b, hab.1.1, hab.1.2.1, hab.2⟩
  · rintro ⟨a, b, h1, h2, h3⟩
    have hne : a ≠ b := by rintro rfl; rw [hd] at h3; cases h3
    have hm : (a, b) ∈ linkedPairs adj i := by
      simp only [linkedPairs, neighbourPairs, neighbours, Finset.mem_filter, Finset.mem_offDiag, Finset.mem_univ, true_and]
      exact ⟨⟨h1, h2, hne⟩, h3⟩
    have hm' : (a, b) ∈ neighbourPairs adj i := by
      simp only [neighbourPairs, neighbours, Finset.mem_filter, Finset.mem_offDiag, Finset.mem_univ, true_and]
      exact ⟨h1, h2, hne⟩
    have h2' : ¬ (neighbours adj i).card < 2 := by
      rw [not_lt]
      refine Finset.one_lt_card.2 ⟨a, ?_, b, ?_, hne⟩ <;> simp [neighbours, h1, h2]
    rw [if_neg h2']
    have c1 := Finset.card_pos.2 ⟨_, hm⟩
    have c2 := Finset.card_pos.2 ⟨_, hm'⟩
    positivity

/-- **C163** A clustering coefficient that is not zero stays so with a larger radius, whatever the schedules of the parallel
loops. -/
theorem C163_linked (ps : List P4) (pseudo : Bool) (tol r r' : ℝ) (hr : r ≤ r') (init init' : Nat × Nat → Fl)
    (tr tr' : List Write)
    (h : Interleave (deltaRLoop true (cloudOf pseudo tol ps) (cloudOf pseudo tol ps)) tr)
    (h' : Interleave (deltaRLoop true (cloudOf pseudo tol ps) (cloudOf pseudo tol ps)) tr') (i : Fin ps.length)
    (hi : clusterCoeffDistbn ps r init tr i ≠ 0) : clusterCoeffDistbn ps r' init' tr' i ≠ 0 := by
  obtain ⟨adj, a1, -, a3⟩ := C73_distbn ps pseudo tol r init tr h
  obtain ⟨adj', b1, -, b3⟩ := C73_distbn ps pseudo tol r' init' tr' h'
  have hd : ∀ i, adj i i = false := fun i => by
    rw [Bool.eq_false_iff]; intro e; exact ((a1 i i).1 e).1 rfl
  have hd' : ∀ i, adj' i i = false := fun i => by
    rw [Bool.eq_false_iff]; intro e; exact ((b1 i i).1 e).1 rfl
  rw [(a3 i).1, ← C73_value adj hd i, coeff_pos_iff adj hd] at hi
  rw [(b3 i).1, ← C73_value adj' hd' i, coeff_pos_iff adj' hd']
  have hm : ∀ a b, adj a b = true → adj' a b = true := by
    intro a b hab
    obtain ⟨h1, d, h2, h3⟩ := (a1 a b).1 hab
    exact (b1 a b).2 ⟨h1, d, h2, lt_of_lt_of_le h3 hr⟩
  obtain ⟨a, b, h1, h2, h3⟩ := hi
  exact ⟨a, b, hm _ _ h1, hm _ _ h2, hm _ _ h3⟩

/-- The distance of two particles of transverse momentum along the x axis is that of their pseudorapidities. -/
theorem line_cell (s t e f : ℝ) :
    deltaRCell (⟨1, 0, sinh s, e⟩ : P4).eta (⟨1, 0, sinh t, f⟩ : P4).eta (⟨1, 0, sinh s, e⟩ : P4).xyPol
      (⟨1, 0, sinh t, f⟩ : P4).xyPol = .fin |s - t| := by
  rw [eta_unit, eta_unit, arsinh_sinh, arsinh_sinh]
  have hx : ∀ z e : ℝ, (⟨1, 0, z, e⟩ : P4).xyPol = 1 := by
    intro z e
    apply Complex.ext <;> simp [P4.xyPol]
  simp [deltaRCell, hx, Fl.sub, hypotFl, Real.sqrt_sq_eq_abs]

/-- Four particles in a line. -/
noncomputable def exLine : List P4 := [⟨1, 0, sinh 0, 9⟩, ⟨1, 0, sinh 1, 9⟩, ⟨1, 0, sinh 2, 9⟩, ⟨1, 0, sinh (-3), 19⟩]

theorem exLine_coeff (r : ℝ) (init : Nat × Nat → Fl) (tr : List Write) (tol : ℝ)
    (h : Interleave (deltaRLoop true (cloudOf true tol exLine) (cloudOf true tol exLine)) tr) :
    clusterCoeffDistbn exLine r init tr (0 : Fin 4) =
      clustCoeffs (fun i j : Fin 4 => decide (i ≠ j ∧
        |(![(0 : ℝ), 1, 2, -3] i) - (![(0 : ℝ), 1, 2, -3] j)| < r)) 0 := by
  obtain ⟨adj, a1, -, a3⟩ := C73_distbn exLine true tol r init tr h
  have hd : ∀ i, adj i i = false := fun i => by
    rw [Bool.eq_false_iff]; intro e; exact ((a1 i i).1 e).1 rfl
  rw [(a3 (0 : Fin 4)).1, ← C73_value adj hd (0 : Fin 4)]
  congr 1
  funext i j
  rw [Bool.eq_iff_iff, a1 i j]
  refine Iff.trans ?_ (@decide_eq_true_iff _ (_)).symm
  refine and_congr_right fun _ => ?_
  have : deltaRCell exLine[i].eta exLine[j].eta exLine[i].xyPol exLine[j].xyPol =
      .fin |(![(0 : ℝ), 1, 2, -3] i) - (![(0 : ℝ), 1, 2, -3] j)| := by
    fin_cases i <;> fin_cases j <;> exact line_cell _ _ _ _
  simp only [if_true, this, Fl.fin.injEq, exists_eq_left']

/-- **C163** False: that a coefficient grows with the radius.  A particle all of whose neighbours are linked loses by gaining a
neighbour: its coefficient falls from one to a third. -/
theorem C163_false (tol : ℝ) (init : Nat × Nat → Fl) (tr : List Write)
    (h : Interleave (deltaRLoop true (cloudOf true tol exLine) (cloudOf true tol exLine)) tr) :
    clusterCoeffDistbn exLine (5 / 2) init tr (0 : Fin 4) = 1 ∧
    clusterCoeffDistbn exLine (7 / 2) init tr (0 : Fin 4) = 1 / 3 := by
  rw [exLine_coeff _ _ _ tol h, exLine_coeff _ _ _ tol h]
  have e1 : (fun i j : Fin 4 => decide (i ≠ j ∧ |(![(0 : ℝ), 1, 2, -3] i) - (![(0 : ℝ), 1, 2, -3] j)| < 5 / 2)) =
      fun i j : Fin 4 => decide (i ≠ j ∧ i ≠ 3 ∧ j ≠ 3) := by
    funext i j
    rw [Bool.eq_iff_iff, decide_eq_true_eq, decide_eq_true_eq]
    fin_cases i <;> fin_cases j <;> norm_num [abs_lt, Fin.ext_iff]
  have e2 : (fun i j : Fin 4 => decide (i ≠ j ∧ |(![(0 : ℝ), 1, 2, -3] i) - (![(0 : ℝ), 1, 2, -3] j)| < 7 / 2)) =
      fun i j : Fin 4 => decide (i ≠ j ∧ (i = 0 ∨ j = 0 ∨ (i ≠ 3 ∧ j ≠ 3))) := by
    funext i j
    rw [Bool.eq_iff_iff, decide_eq_true_eq, decide_eq_true_eq]
    fin_cases i <;> fin_cases j <;> norm_num [abs_lt, Fin.ext_iff]
  rw [e1, e2]
  constructor
  · rw [C73_value _ (by decide), if_neg (by decide)]
    have : (linkedPairs (n := 4) (fun i j => decide (i ≠ j ∧ i ≠ 3 ∧ j ≠ 3)) 0).card = 2 := by decide
    rw [this]
    have : (neighbourPairs (n := 4) (fun i j => decide (i ≠ j ∧ i ≠ 3 ∧ j ≠ 3)) 0).card = 2 := by decide
    rw [this]
    norm_num
  · rw [C73_value _ (by decide), if_neg (by decide)]
    have : (linkedPairs (n := 4) (fun i j => decide (i ≠ j ∧ (i = 0 ∨ j = 0 ∨ (i ≠ 3 ∧ j ≠ 3)))) 0).card = 2 := by decide
    rw [this]
    have : (neighbourPairs (n := 4) (fun i j => decide (i ≠ j ∧ (i = 0 ∨ j = 0 ∨ (i ≠ 3 ∧ j ≠ 3)))) 0).card = 6 := by decide
    rw [this]
    norm_num

/-- A function with the contract of `argsort`. -/
theorem exists_argsortR : ∃ argsort, IsArgsortR argsort := by
  refine ⟨fun l => (List.range l.length).insertionSort (fun i j => l.getD i 0 ≤ l.getD j 0), fun l => ?_⟩
  refine ⟨List.perm_insertionSort _ _, ?_⟩
  have hs : ((List.range l.length).insertionSort (fun i j => l.getD i 0 ≤ l.getD j 0)).Pairwise
      (fun i j => l.getD i 0 ≤ l.getD j 0) := by
    have : Std.Total (fun i j : Nat => l.getD i 0 ≤ l.getD j 0) := ⟨fun a b => le_total _ _⟩
    have : IsTrans Nat (fun i j : Nat => l.getD i 0 ≤ l.getD j 0) := ⟨fun a b c => le_trans⟩
    exact List.pairwise_insertionSort _ _
  intro i j hij a b h1 h2 x y hx hy
  obtain ⟨hi, h1⟩ := List.getElem?_eq_some_iff.1 h1
  obtain ⟨hj, h2⟩ := List.getElem?_eq_some_iff.1 h2
  have := (List.pairwise_iff_getElem.1 hs) i j hi hj hij
  rw [h1, h2] at this
  simpa [List.getD_eq_getElem?_getD, hx, hy] using this

theorem pt_half : (⟨1 / 2, 0, 0, 9⟩ : P4).pt = 1 / 2 := by
  rw [pt_eq, Real.sqrt_eq_iff_mul_self_eq] <;> norm_num

/-- Two jets: the harder one forward. -/
noncomputable def exJets : List Jet := [⟨⟨1, 0, sinh 1, 9⟩, [0]⟩, ⟨⟨1 / 2, 0, 0, 9⟩, [1]⟩]

theorem exJets_pt : exJets.map (fun j => j.pmu.pt) = [1, 1 / 2] := by
  simp only [exJets, List.map_cons, List.map_nil, pt_half]
  rw [pt_eq]
  norm_num

theorem exJets_sort {argsort : List ℝ → List Nat} (ha : IsArgsortR argsort) : argsort [1, 1 / 2] = [1, 0] := by
  obtain ⟨hp, hs⟩ := ha [1, 1 / 2]
  have hl := hp.length_eq
  have hr : List.range ([1, 1 / 2] : List ℝ).length = [0, 1] := rfl
  rw [hr] at hp hl
  generalize argsort [1, 1 / 2] = l at hp hl hs
  match l, hl with
  | [a, b], _ =>
    have h2 : (a = 0 ∧ b = 1) ∨ (a = 1 ∧ b = 0) := by
      have ha := hp.mem_iff (a := a)
      have hb := hp.mem_iff (a := b)
      have hn := hp.nodup_iff.2 (by decide)
      simp at ha hb hn
      omega
    rcases h2 with ⟨rfl, rfl⟩ | ⟨rfl, rfl⟩
    · have := hs 0 1 (by omega) 0 1 rfl rfl 1 (1 / 2) rfl rfl
      norm_num at this
    · rfl

/-- **C163** False: that with `top_k` a lower `eta_cut` only takes masks away.  A jet outside the cut makes place for another
one, which was not returned before. -/
theorem C163_false_top_k : ∃ (fj : List P4 → FjAlgo → ℝ → ℝ → List Jet) (pmu : List P4) (cut : ℝ), 0 ≤ cut ∧
    ∀ argsort : List ℝ → List Nat, IsArgsortR argsort →
    fastjetClusters fj argsort pmu 1 (-1) none none (.int 1) = .ok [[true, false]] ∧
    fastjetClusters fj argsort pmu 1 (-1) none (some cut) (.int 1) = .ok [[false, true]] := by
  refine ⟨fun _ _ _ _ => exJets, [⟨1, 0, sinh 1, 9⟩, ⟨1 / 2, 0, 0, 9⟩], 1 / 2, by norm_num, fun argsort ha => ?_⟩
  have e0 : etaWithin (⟨1, 0, sinh 1, 9⟩ : P4).eta (1 / 2) = false := by
    rw [Bool.eq_false_iff]
    intro h
    rw [etaWithin_iff] at h
    obtain ⟨y, h1, h2⟩ := h
    rw [eta_unit, arsinh_sinh] at h1
    injection h1 with h1
    rw [← h1] at h2
    norm_num at h2
  have e1 : etaWithin (⟨1 / 2, 0, 0, 9⟩ : P4).eta (1 / 2) = true := by
    rw [etaWithin_iff]
    have hpt := pt_half
    obtain ⟨y, h1, h2, -⟩ := (C89_eta ⟨1 / 2, 0, 0, 9⟩).1 (by rw [hpt]; norm_num)
    refine ⟨y, h1, ?_⟩
    rw [hpt] at h2
    have : sinh y = 0 := by simpa using h2
    rw [sinh_eq_zero.1 this]
    norm_num
  constructor <;> unfold fastjetClusters <;> simp only [exJets_pt, exJets_sort ha]
  · have hr : ([1, 0] : List Nat).reverse = [0, 1] := rfl
    rw [hr]
    simp [TopK.bad, TopK.cut, gather, exJets, jetMasks, jetMask]
  · have hr : ([1, 0] : List Nat).reverse = [0, 1] := rfl
    have hn : ¬ ((1 / 2 : ℝ) < 0) := by norm_num
    rw [hr]
    simp only [gather, exJets, List.filterMap_cons, List.filterMap_nil, List.getElem?_cons_zero, List.getElem?_cons_succ,
      List.filter_cons, List.filter_nil, e0, e1, hn]
    simp [TopK.bad, TopK.cut, jetMasks, jetMask]

/-! ## find_vertex -/

/-- **C163** `find_vertex`: asking for more particles, on either side, finds no more vertices, in the same order. -/
theorem C163_find (es : List (Int × Int)) (pdg : List Int) (hl : pdg.length = es.length)
    (pin pin' pout pout' : Option (List Int))
    (hin : ∀ s, pin = some s → ∃ s', pin' = some s' ∧ ∀ c ∈ s, c ∈ s')
    (hout : ∀ s, pout = some s → ∃ s', pout' = some s' ∧ ∀ c ∈ s, c ∈ s') (vtxs : List Int)
    (h : findVertex es pdg pin pout = .ok vtxs) :
    ∃ fewer, findVertex es pdg pin' pout' = .ok fewer ∧ fewer.Sublist vtxs := by
  have hs : pin ≠ none ∨ pout ≠ none := by
    by_contra hc
    push Not at hc
    rw [(C42_find es pdg hl pin pout).1 hc.1 hc.2] at h
    cases h
  have hs' : pin' ≠ none ∨ pout' ≠ none := by
    rcases hs with hs | hs
    · obtain ⟨s, e⟩ := Option.ne_none_iff_exists'.1 hs
      obtain ⟨s', e', -⟩ := hin s e
      left; rw [e']; simp
    · obtain ⟨s, e⟩ := Option.ne_none_iff_exists'.1 hs
      obtain ⟨s', e', -⟩ := hout s e
      right; rw [e']; simp
  obtain ⟨v, e1, e2, e3⟩ := (C42_find es pdg hl pin pout).2 hs
  obtain ⟨v', f1, f2, f3⟩ := (C42_find es pdg hl pin' pout').2 hs'
  rw [h] at e1
  cases e1
  refine ⟨v', f1, ?_⟩
  have hsub : v' ⊆ vtxs := by
    intro a ha
    obtain ⟨g1, g2, g3⟩ := (f3 a).1 ha
    refine (e3 a).2 ⟨g1, fun s e c hc => ?_, fun s e c hc => ?_⟩
    · obtain ⟨s', e', hss⟩ := hin s e
      exact g2 s' e' c (hss c hc)
    · obtain ⟨s', e', hss⟩ := hout s e
      exact g3 s' e' c (hss c hc)
  have hnd : v'.Nodup := f2.imp (fun h => ne_of_lt h)
  exact List.sublist_of_subperm_of_pairwise (List.subperm_of_subset hnd hsub) (f2.imp le_of_lt) (e2.imp le_of_lt)

/-! ## Witnesses -/

/-- Witness: an event in which `clusters` returns, with any two radii. -/
example : ∃ out out', clusters (fun _ _ => (0 : Nat)) id exNames 0 1 exCG = .ok out ∧
    clusters (fun _ _ => (0 : Nat)) id exNames 0 2 exCG = .ok out' := by
  obtain ⟨out, h, -⟩ := exCG_clusters 0 1
  obtain ⟨out', h', -⟩ := exCG_clusters 0 2
  exact ⟨out, out', h, h'⟩

/-- Witness: a FastJet that keeps the jets above the cut. -/
example : ∃ fj : List P4 → FjAlgo → ℝ → ℝ → List Jet, ∀ pmu algo radius, ∃ jets : List Jet, jets ≠ [] ∧
    ∀ ptMin, (fj pmu algo radius ptMin).Perm (jets.filter (fun j => decide (ptMin ≤ j.pmu.pt))) :=
  ⟨fun _ _ _ ptMin => exJets.filter (fun j => decide (ptMin ≤ j.pmu.pt)), fun _ _ _ =>
    ⟨exJets, by simp [exJets], fun _ => List.Perm.refl _⟩⟩

/-- Witness: a particle whose coefficient is not zero. -/
example (tol : ℝ) (init : Nat × Nat → Fl) (tr : List Write)
    (h : Interleave (deltaRLoop true (cloudOf true tol exLine) (cloudOf true tol exLine)) tr) :
    clusterCoeffDistbn exLine (5 / 2) init tr (0 : Fin 4) ≠ 0 := by
  rw [(C163_false tol init tr h).1]; norm_num

/-- Witness: a vertex found with one particle asked for, and with two. -/
example : findVertex [(1, 2), (2, 3), (2, 4)] [25, 5, -5] (some [25]) none = .ok [2] ∧
    findVertex [(1, 2), (2, 3), (2, 4)] [25, 5, -5] (some [25]) (some [5, -5]) = .ok [2] ∧
    findVertex [(1, 2), (2, 3), (2, 4)] [25, 5, -5] (some [25]) (some [5, 6]) = .ok [] := by decide

end Gcl
