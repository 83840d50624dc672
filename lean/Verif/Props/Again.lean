import Verif.Props.GenKtFrames
import Verif.Props.Prune
import Verif.Lemmas.Hier
import Verif.Props.Pdg
import Verif.Props.ClusterOrder
import Verif.Props.GenKtExamples
/-!
# C164: selections applied to their own results
-/
namespace Gcl
set_option autoImplicit false
open Spec Real

/-! ## fastjet_clusters on the particles of one jet -/

theorem least_subperm {S : KtRule} (hsym : ∀ p q, S.dist p q = S.dist q p) {R : ℝ} {l l' : List Jet} (h : l'.Subperm l) {d : ℝ}
    (hd : S.Least R l d) : S.Least R l' d := by
  obtain ⟨l0, p, s⟩ := h
  exact least_perm hsym p ⟨fun a ha => hd.1 a (s.mem ha), hd.2.sublist s⟩

/-- The jets of a run that are kept are the jets of a run from the pseudojets they are made of. -/
theorem ktRun_some {S : KtRule} (hsym : ∀ p q, S.dist p q = S.dist q p) {R : ℝ} {act jets : List Jet} (h : KtRun S R act jets) :
    ∀ sel, List.Sublist sel jets → ∃ A, List.Subperm A act ∧ KtRun S R A sel := by
  induction h with
  | done =>
    intro sel hs
    rw [List.sublist_nil.1 hs]
    exact ⟨[], List.Subperm.refl _, .done⟩
  | @beam act rest jets i h least next ih =>
    intro sel hs
    cases hs with
    | cons _ hs =>
      obtain ⟨A, a1, a2⟩ := ih sel hs
      exact ⟨A, (a1.trans (List.sublist_cons_self i rest).subperm).trans h.symm.subperm, a2⟩
    | cons_cons _ hs =>
      obtain ⟨A, a1, a2⟩ := ih _ hs
      have hsub : List.Subperm (i :: A) act := ((List.subperm_cons i).2 a1).trans h.symm.subperm
      exact ⟨i :: A, hsub, .beam (List.Perm.refl _) (least_subperm hsym hsub least) a2⟩
  | @pair act rest jets i j h least near next ih =>
    intro sel hs
    obtain ⟨A, a1, a2⟩ := ih sel hs
    by_cases hA : List.Subperm A rest
    · exact ⟨A, (hA.trans ((List.sublist_cons_self j rest).trans (List.sublist_cons_self i _)).subperm).trans h.symm.subperm, a2⟩
    · obtain ⟨A0, p, s⟩ := a1
      cases s with
      | cons _ s => exact absurd ⟨A0, p, s⟩ hA
      | @cons_cons A1 _ _ s =>
        have hsub : List.Subperm (i :: j :: A1) act :=
          ((List.subperm_cons i).2 ((List.subperm_cons j).2 s.subperm)).trans h.symm.subperm
        exact ⟨i :: j :: A1, hsub, .pair (List.Perm.refl _) (least_subperm hsym hsub least) near (ktRun_perm hsym p.symm a2)⟩

theorem ktInput_range (pmu : List P4) :
    ktInput pmu = (List.range pmu.length).map (fun i => ⟨pmu.getD i ⟨0, 0, 0, 0⟩, [i]⟩) := by
  apply List.ext_getElem?
  intro k
  by_cases hk : k < pmu.length
  · simp [ktInput, hk]
  · simp [ktInput, hk]

theorem ktInput_gather (pmu : List P4) (σ : List Nat) (hσ : ∀ i ∈ σ, i < pmu.length) :
    (ktInput (gather pmu σ)).map (fun j => (⟨j.pmu, j.constituents.map (fun k => σ.getD k 0)⟩ : Jet)) =
      σ.map (fun i => ⟨pmu.getD i ⟨0, 0, 0, 0⟩, [i]⟩) := by
  have hlen := gather_length pmu σ hσ
  apply List.ext_getElem?
  intro k
  by_cases hk : k < σ.length
  · have hk' : k < (gather pmu σ).length := by rw [hlen]; exact hk
    have hp : σ[k] < pmu.length := hσ _ (List.getElem_mem hk)
    have h1 : (gather pmu σ)[k]? = pmu[σ[k]]? := by
      rw [gather_getElem? pmu σ hσ, List.getElem?_eq_getElem hk]; rfl
    rw [List.getElem?_eq_getElem hk', List.getElem?_eq_getElem hp] at h1
    have h2 : (gather pmu σ)[k] = pmu[σ[k]] := Option.some.inj h1
    simp [ktInput, hk', hk, h2, hp]
  · have hk' : ¬ k < (gather pmu σ).length := by rw [hlen]; exact hk
    simp [ktInput, hk, hk']

theorem algoFor_unique {p : ℝ} {a b : FjAlgo} (ha : AlgoFor p a) (hb : AlgoFor p b) : a = b := by
  by_cases h1 : p = -1
  · rw [ha.1 h1, hb.1 h1]
  · by_cases h2 : p = 0
    · rw [ha.2.1 h2, hb.2.1 h2]
    · by_cases h3 : p = 1
      · rw [ha.2.2.1 h3, hb.2.2.1 h3]
      · rw [ha.2.2.2 h1 h2 h3, hb.2.2.2 h1 h2 h3]

/-- The run on the particles of one jet. -/
theorem ktRun_jet {S : KtRule} (hsym : ∀ p q, S.dist p q = S.dist q p) {R : ℝ} {pmu : List P4} {jets : List Jet}
    (h : KtRun S R (ktInput pmu) jets) {J : Jet} (hJ : J ∈ jets) {m : List Bool} (hm : IsMaskOf pmu.length J.constituents m) :
    ∃ J0 : Jet, KtRun S R (ktInput (gather pmu (trueIdxs m))) [J0] ∧ J0.pmu = J.pmu ∧
      J0.constituents.Perm (List.range (gather pmu (trueIdxs m)).length) := by
  obtain ⟨g1, -, -⟩ := ktRun_input h
  obtain ⟨r1, r2, -⟩ := jets_in_range g1
  have hσ : ∀ i ∈ trueIdxs m, i < pmu.length := by
    intro i hi
    rw [mem_trueIdxs] at hi
    rw [← hm.1]; exact (List.getElem?_eq_some_iff.1 hi).1
  obtain ⟨A, a1, a2⟩ := ktRun_some hsym h [J] (List.singleton_sublist.2 hJ)
  have hc := a2.constituents
  simp only [List.flatMap_cons, List.flatMap_nil, List.append_nil] at hc
  set G : Nat → Jet := fun i => ⟨pmu.getD i ⟨0, 0, 0, 0⟩, [i]⟩ with hG
  obtain ⟨A0, p, s⟩ := a1
  rw [ktInput_range] at s
  obtain ⟨l, l1, l2⟩ := List.sublist_map_iff.1 s
  have hfl : ∀ l : List Nat, (l.map G).flatMap Jet.constituents = l := by
    intro l
    induction l with
    | nil => rfl
    | cons a l ih => rw [List.map_cons, List.flatMap_cons, ih]; rfl
  have hl : l.Perm J.constituents := by
    have := (p.flatMap_right Jet.constituents).trans hc
    rwa [l2, hfl] at this
  have hls : l.Perm (trueIdxs m) := by
    refine hl.trans ((List.perm_ext_iff_of_nodup (r2 J hJ) (trueIdxs_nodup m)).2 fun i => ?_)
    rw [mem_trueIdxs, hm.2 i]
  have hA : A.Perm ((trueIdxs m).map G) := p.symm.trans (by rw [l2]; exact hls.map G)
  have hrun := ktRun_perm hsym hA a2
  rw [← ktInput_gather pmu (trueIdxs m) hσ] at hrun
  obtain ⟨js, j1, j2⟩ := ktRun_map (S := S) (fun j => (⟨j.pmu, j.constituents.map (fun k => (trueIdxs m).getD k 0)⟩ : Jet))
    (fun _ => True) (fun _ _ _ _ => trivial) (fun _ _ _ => trivial) (fun _ _ _ _ => trivial) (fun i j => by simp [Jet.join])
    (fun _ _ _ _ => rfl) (fun _ _ _ _ _ _ => rfl) hrun (ktInput (gather pmu (trueIdxs m))) rfl trivial
  match js, j2 with
  | [J0], j2 =>
    refine ⟨J0, j1, ?_, ?_⟩
    · simp only [List.map_cons, List.map_nil, List.cons.injEq, and_true] at j2
      rw [j2]
    · have := (ktRun_input j1).1
      simpa using this

theorem mask_all {n : Nat} {idxs : List Nat} {m : List Bool} (h : IsMaskOf n idxs m) (hp : idxs.Perm (List.range n)) :
    m = List.replicate n true := by
  apply List.ext_getElem?
  intro k
  by_cases hk : k < n
  · rw [(h.2 k).2 (hp.mem_iff.2 (by simpa using hk))]
    simp [hk]
  · rw [List.getElem?_eq_none (by rw [h.1]; omega), List.getElem?_eq_none (by simp; omega)]

/-- **C164** `fastjet_clusters` on the particles of a jet it returned, with the same arguments, can return that jet again and
nothing else, for every exponent and all cuts.  (Among equal distances FastJet may choose, therefore "can".) -/
theorem C164_recluster {rule : FjAlgo → KtRule} (hrule : IsKtRule rule) {argsort : List ℝ → List Nat} (ha : IsArgsortR argsort)
    (pmu : List P4) (radius pVal : ℝ) (ptCut etaCut : Option ℝ) (topK : TopK) (hR : 0 < radius) (masks : List (List Bool))
    (h : KtResult rule argsort pmu radius pVal ptCut etaCut topK masks) (m : List Bool) (hm : m ∈ masks) (sel : List P4)
    (hsel : (Key.mask m).apply pmu = .ok sel) :
    KtResult rule argsort sel radius pVal ptCut etaCut topK [List.replicate sel.length true] := by
  obtain ⟨fj, hfj, h⟩ := h
  have hbad : ¬ FjBadArgs radius ptCut etaCut topK := by
    intro hbad
    rw [C56_errors fj argsort _ radius pVal ptCut etaCut topK hbad] at h
    cases h
  obtain ⟨algo, jets, sorted, masks', halgo, hrun, m1, m2, m3, m4⟩ := kt_masks hfj ha pmu radius pVal ptCut etaCut topK hR hbad
  rw [h] at m1
  cases m1
  have hal : algo = fjAlgo pVal := algoFor_unique halgo (fjAlgo_spec pVal)
  subst hal
  obtain ⟨J, hJ, hJm⟩ := forall₂_mem_right m4 hm
  have hJ1 := (firstK_sublist topK _).mem hJ
  obtain ⟨hJ2, hJe⟩ := List.mem_filter.1 hJ1
  obtain ⟨hJ3, hJp⟩ := List.mem_filter.1 (m2.mem_iff.1 hJ2)
  simp only [decide_eq_true_eq] at hJe hJp
  have hs : sel = gather pmu (trueIdxs m) := by
    simp only [Key.apply, Key.resolve, hJm.1, if_true, Except.ok.injEq] at hsel
    exact hsel.symm
  obtain ⟨J0, k1, k2, k3⟩ := ktRun_jet (hrule.symm _) hrun hJ3 hJm
  rw [← hs] at k1 k3
  have hall : ∀ (q : List P4) (algo : FjAlgo) (R ptMin : ℝ), 0 < R → ∃ jets, KtRun (rule algo) R (ktInput q) jets :=
    fun q algo R _ h0 => ktRun_exists (rule algo) (hrule.nonneg algo) (hrule.dist_nonneg algo) (hrule.symm algo) h0 _
  choose other ho using hall
  classical
  let fj0 : List P4 → FjAlgo → ℝ → ℝ → List Jet := fun q algo R ptMin =>
    if q = sel ∧ R = radius ∧ algo = fjAlgo pVal then [J0].filter (fun j => decide (ptMin ≤ j.pmu.pt))
    else if h0 : 0 < R then (other q algo R ptMin h0).filter (fun j => decide (ptMin ≤ j.pmu.pt)) else []
  have hfj0 : RunsKt rule fj0 := by
    intro q algo R ptMin h0
    by_cases hq : q = sel ∧ R = radius ∧ algo = fjAlgo pVal
    · obtain ⟨rfl, rfl, rfl⟩ := hq
      exact ⟨[J0], k1, by simp [fj0]⟩
    · exact ⟨other q algo R ptMin h0, ho q algo R ptMin h0, by simp [fj0, hq, h0]⟩
  refine ⟨fj0, hfj0, ?_⟩
  have e0 : fj0 sel (fjAlgo pVal) radius (ptCut.getD 0) = [J0] := by
    have : ptCut.getD 0 ≤ J0.pmu.pt := by rw [k2]; exact hJp
    simp [fj0, this]
  obtain ⟨algo, q1, q2⟩ := C56_masks fj0 argsort ha sel radius pVal ptCut etaCut topK hbad
  have hal : algo = fjAlgo pVal := algoFor_unique q1 (fjAlgo_spec pVal)
  subst hal
  rw [e0] at q2
  obtain ⟨srt, kept, ms, n1, n2, -, n4, n5⟩ := q2 (by
    intro j hj i hi
    rw [List.mem_singleton.1 hj] at hi
    have := k3.mem_iff.1 hi
    simpa using this)
  rw [n1]
  have hsrt : srt = [J0] := List.perm_singleton.1 n2
  have hE : EtaOk etaCut J0 := by
    intro cut hc
    rw [k2]; exact hJe cut hc
  have hkept : kept = [J0] := by rw [n4, hsrt]; simp [hE]
  rw [hkept] at n5
  have hf : firstK topK [J0] = [J0] := by
    cases topK with
    | none => rfl
    | other => rfl
    | int k =>
      have : 1 ≤ k := by
        by_contra hk
        exact hbad (Or.inr (Or.inr (Or.inr (Or.inl ⟨k, rfl, by omega⟩))))
      simp only [firstK]
      rw [List.take_of_length_le]
      simp; omega
  rw [hf] at n5
  cases n5 with
  | cons c1 c2 =>
    cases c2
    rw [mask_all c1 k3]


/-! ## centroid_prune -/

theorem near_min {r r' : ℝ} {c : Fl × Fl} {p : P4} : Near (min r r') c p ↔ Near r c p ∧ Near r' c p := by
  constructor
  · intro h; exact ⟨near_mono (min_le_left _ _) h, near_mono (min_le_right _ _) h⟩
  · rintro ⟨h, h'⟩
    rcases le_total r r' with e | e
    · rwa [min_eq_left e]
    · rwa [min_eq_right e]

/-- What a prune around a given centre returns, with or without a mask. -/
theorem prune_given {tol : ℝ} {pmu : List P4} {r : ℝ} {mask : Option (List Bool)} {c : Fl × Fl} {out : List Bool}
    (hmask : ∀ m, mask = some m → m.length = pmu.length) (h : centroidPrune tol pmu r mask (some c) = .ok out) :
    out.length = pmu.length ∧ ∀ i : Nat, out[i]? = some true ↔ (∀ m, mask = some m → m[i]? = some true) ∧
      ∃ p, pmu[i]? = some p ∧ Near r c p := by
  cases mask with
  | none =>
    obtain ⟨o, e, l, s⟩ := C55_all tol pmu r (some c)
    rw [h] at e; cases e
    refine ⟨l, fun i => ?_⟩
    by_cases hi : i < pmu.length
    · have hp : pmu[i]? = some pmu[i] := List.getElem?_eq_getElem hi
      rw [s i _ hp]
      simp only [reduceCtorEq, false_implies, implies_true, true_and, hp, Option.some.injEq, exists_eq_left']
      rfl
    · rw [List.getElem?_eq_none (by omega), List.getElem?_eq_none (by omega)]; simp
  | some m =>
    have hm := hmask m rfl
    obtain ⟨o, e, l, s⟩ := C55_masked tol pmu r m (some c) hm
    rw [h] at e; cases e
    refine ⟨by omega, fun i => ?_⟩
    rw [s i]
    simp only [Option.some.injEq, forall_eq']
    rfl

/-- **C164** `centroid_prune` around a given centre: pruning the result again, with any radius, is pruning once with the smaller
of the two radii; with the same radius it changes nothing. -/
theorem C164_prune (tol : ℝ) (pmu : List P4) (r r' : ℝ) (mask : Option (List Bool)) (c : Fl × Fl) (out : List Bool)
    (hmask : ∀ m, mask = some m → m.length = pmu.length) (h : centroidPrune tol pmu r mask (some c) = .ok out) :
    centroidPrune tol pmu r' (some out) (some c) = centroidPrune tol pmu (min r r') mask (some c) ∧
    centroidPrune tol pmu r (some out) (some c) = .ok out := by
  obtain ⟨o1, o2⟩ := prune_given hmask h
  have hmain : ∀ r', centroidPrune tol pmu r' (some out) (some c) = centroidPrune tol pmu (min r r') mask (some c) := by
    intro r'
    obtain ⟨a, a0, -⟩ := C55_masked tol pmu r' out (some c) o1
    obtain ⟨b, b0⟩ : ∃ b, centroidPrune tol pmu (min r r') mask (some c) = .ok b := by
      cases mask with
      | none => exact ⟨_, rfl⟩
      | some m =>
        obtain ⟨b, b0, -⟩ := C55_masked tol pmu (min r r') m (some c) (hmask m rfl)
        exact ⟨b, b0⟩
    obtain ⟨a1, a2⟩ := prune_given (fun m hm => by cases hm; exact o1) a0
    obtain ⟨b1, b2⟩ := prune_given hmask b0
    rw [a0, b0]
    congr 1
    refine bools_ext (by omega) fun i _ => ?_
    rw [a2, b2]
    simp only [Option.some.injEq, forall_eq', o2, near_min]
    constructor
    · rintro ⟨⟨h1, p, h2, h3⟩, p', h4, h5⟩
      rw [h2] at h4; cases h4
      exact ⟨h1, p, h2, h3, h5⟩
    · rintro ⟨h1, p, h2, h3, h5⟩
      exact ⟨⟨h1, p, h2, h3⟩, p, h2, h5⟩
  refine ⟨hmain r', ?_⟩
  rw [hmain r, min_self, h]

/-- **C164** The particles kept by `centroid_prune` around a given centre are all kept again when they are pruned on their own. -/
theorem C164_prune_kept (tol : ℝ) (pmu : List P4) (r : ℝ) (mask : Option (List Bool)) (c : Fl × Fl) (out : List Bool)
    (sel : List P4) (hmask : ∀ m, mask = some m → m.length = pmu.length)
    (h : centroidPrune tol pmu r mask (some c) = .ok out) (hsel : (Key.mask out).apply pmu = .ok sel) :
    centroidPrune tol sel r none (some c) = .ok (List.replicate sel.length true) := by
  obtain ⟨o1, o2⟩ := prune_given hmask h
  rw [(C20_mask pmu out).1 o1] at hsel
  cases hsel
  obtain ⟨a, a0, a1, a2⟩ := C55_all tol (selected pmu out) r (some c)
  rw [a0]
  congr 1
  refine bools_ext (by simpa using a1) fun i _ => ?_
  by_cases hi : i < (selected pmu out).length
  · obtain ⟨x, hp⟩ : ∃ x, (selected pmu out)[i]? = some x := ⟨_, List.getElem?_eq_getElem hi⟩
    rw [a2 i _ hp]
    refine ⟨fun _ => by simp [hi], fun _ => ?_⟩
    have hlt : ∀ j ∈ trueIdxs out, j < pmu.length := by
      intro j hj
      have := (List.getElem?_eq_some_iff.1 ((mem_trueIdxs out j).1 hj)).1
      omega
    rw [← gather_eq_selected pmu out o1, gather_getElem? _ _ hlt] at hp
    obtain ⟨j, j1, j2⟩ := Option.bind_eq_some_iff.1 hp
    obtain ⟨-, p, p1, p2⟩ := (o2 j).1 ((mem_trueIdxs out j).1 (List.mem_of_getElem? j1))
    rw [j2] at p1; cases p1
    exact p2
  · rw [List.getElem?_eq_none (by omega), List.getElem?_eq_none (by simpa using hi)]

/-! ## masks by code and by status -/

theorem filter_pred (f : Int → Bool) (data sel : List Int) (h : (Key.mask (data.map f)).apply data = .ok sel) :
    sel.map f = List.replicate sel.length true := by
  rw [(C20_mask data (data.map f)).1 (by simp)] at h
  cases h
  apply List.ext_getElem?
  intro i
  by_cases hi : i < (selected data (data.map f)).length
  · obtain ⟨x, hp⟩ : ∃ x, (selected data (data.map f))[i]? = some x := ⟨_, List.getElem?_eq_getElem hi⟩
    rw [List.getElem?_map, hp]
    have hlt : ∀ j ∈ trueIdxs (data.map f), j < data.length := by
      intro j hj
      have := (List.getElem?_eq_some_iff.1 ((mem_trueIdxs _ j).1 hj)).1
      simpa using this
    rw [← gather_eq_selected data (data.map f) (by simp), gather_getElem? _ _ hlt] at hp
    obtain ⟨j, j1, j2⟩ := Option.bind_eq_some_iff.1 hp
    have := (mem_trueIdxs _ j).1 (List.mem_of_getElem? j1)
    rw [List.getElem?_map, j2] at this
    simp only [Option.map_some, Option.some.injEq] at this
    simp [hi, this]
  · rw [List.getElem?_eq_none (by simpa using hi), List.getElem?_eq_none (by simpa using hi)]

/-- **C164** `PdgArray.mask` on the particles it selected, with the same arguments, selects them all. -/
theorem C164_codes (data target : List Int) (blacklist sensitive : Bool) (sel : List Int)
    (h : (Key.mask (pdgMask data target blacklist sensitive)).apply data = .ok sel) :
    pdgMask sel target blacklist sensitive = List.replicate sel.length true := by
  have hf : ∀ d, pdgMask d target blacklist sensitive = d.map (fun x =>
      (pdgMask [x] target blacklist sensitive).headD false) := by
    intro d
    cases blacklist <;> cases sensitive <;> simp [pdgMask, isin] <;> rfl
  rw [hf] at h ⊢
  exact filter_pred _ _ _ h

/-- **C164** `StatusArray.in_range` on the particles it selected, with the same arguments, selects them all. -/
theorem C164_range (data : List Int) (lo : Int) (hi : Option Int) (sensitive : Bool) (sel : List Int)
    (h : (Key.mask (inRange data lo hi sensitive)).apply data = .ok sel) :
    inRange sel lo hi sensitive = List.replicate sel.length true := by
  have hf : ∀ d, inRange d lo hi sensitive = d.map (fun x => (inRange [x] lo hi sensitive).headD false) := by
    intro d
    induction d with
    | nil => cases hi <;> cases sensitive <;> rfl
    | cons a d ih => 
      rw [List.map_cons, ← ih]
      cases hi <;> cases sensitive <;> simp [inRange]
  rw [hf] at h ⊢
  exact filter_pred _ _ _ h

/-! ## flattened groups -/

theorem flat_data {ks : List (String × Mask)} (h : ∀ p ∈ ks, ∃ d, p.2 = .arr d) :
    ∃ rows, Mask.dataKids ks = .ok rows ∧ List.zipWith (fun k d => (k, Mask.arr d)) (Dict.keys ks) rows = ks := by
  induction ks with
  | nil => exact ⟨[], rfl, rfl⟩
  | cons p ks ih =>
    obtain ⟨k, m⟩ := p
    obtain ⟨d, hd⟩ := h (k, m) (by simp)
    obtain ⟨rows, h1, h2⟩ := ih (fun p hp => h p (by simp [hp]))
    simp only at hd
    subst hd
    refine ⟨d :: rows, by simp [Mask.dataKids, Mask.data, h1], ?_⟩
    simp only [Dict.keys, List.map_cons, List.zipWith_cons_cons] at h2 ⊢
    rw [h2]

theorem flat_visit {ks : List (String × Mask)} (h : ∀ p ∈ ks, p.1 ≠ "latent" ∧ ∃ d, p.2 = .arr d) :
    ∃ ps, Mask.visitKids ks = .ok ps ∧ ps.map (fun p => (p.1, Mask.arr p.2)) = ks := by
  induction ks with
  | nil => exact ⟨[], rfl, rfl⟩
  | cons p ks ih =>
    obtain ⟨k, m⟩ := p
    obtain ⟨hk, d, hd⟩ := h (k, m) (by simp)
    obtain ⟨ps, h1, h2⟩ := ih (fun p hp => h p (by simp [hp]))
    simp only at hd hk
    subst hd
    exact ⟨(k, d) :: ps, by simp [Mask.visitKids, Mask.visitItem, hk, h1], by simp [h2]⟩

mutual
theorem visitItem_names : ∀ (m : Mask) (k : String), k ≠ "latent" → ∀ ps, Mask.visitItem k m = .ok ps →
    ∀ p ∈ ps, p.1 ≠ "latent"
  | .arr d, k, hk, ps, h, p, hp => by
    simp only [Mask.visitItem, Except.ok.injEq] at h
    subst h
    simp only [List.mem_singleton] at hp
    subst hp; exact hk
  | .grp op ks, k, hk, ps, h, p, hp => by
    simp only [Mask.visitItem] at h
    split at h
    · cases h
    · split at h
      · cases h
      · rename_i qs hqs
        cases h
        rcases List.mem_cons.1 hp with rfl | hp
        · exact hk
        · exact visitKids_names ks qs hqs p hp

theorem visitKids_names : ∀ (ks : List (String × Mask)) (ps : List (String × List Bool)), Mask.visitKids ks = .ok ps →
    ∀ p ∈ ps, p.1 ≠ "latent"
  | [], ps, h, p, hp => by
    simp only [Mask.visitKids, Except.ok.injEq] at h; subst h; cases hp
  | (k, m) :: rest, ps, h, p, hp => by
    simp only [Mask.visitKids] at h
    split at h
    · exact visitKids_names rest ps h p hp
    · rename_i hk
      split at h
      · cases h
      · rename_i as has
        split at h
        · cases h
        · rename_i bs hbs
          cases h
          rcases List.mem_append.1 hp with hp | hp
          · exact visitItem_names m k hk as has p hp
          · exact visitKids_names rest bs hbs p hp
end

theorem arr_update {d : Dict Mask} (hd : ∀ p ∈ d, ∃ b, p.2 = .arr b) {ps : List (String × Mask)}
    (hp : ∀ p ∈ ps, ∃ b, p.2 = .arr b) : ∀ p ∈ Dict.update d ps, ∃ b, p.2 = .arr b := by
  induction ps generalizing d with
  | nil => exact hd
  | cons q ps ih =>
    apply ih (d := Dict.set d q.1 q.2) _ (fun p h => hp p (by simp [h]))
    intro p h
    rcases mem_dict_set d q.1 q.2 p h with h | h
    · exact hd p h
    · rw [h]; exact hp q (by simp)

theorem leafMasks_flat (op : Agg) {flat : List (String × Mask)} (hf : ∀ p ∈ flat, ∃ b, p.2 = .arr b)
    (hn : (flat.map Prod.fst).Nodup) : leafMasks op flat = .grp op flat := by
  have e : (flat.flatMap (fun p => Mask.leafIter p.1 p.2)).map (fun q => (q.1, Mask.arr q.2)) = flat := by
    clear hn
    induction flat with
    | nil => rfl
    | cons p flat ih =>
      obtain ⟨k, m⟩ := p
      obtain ⟨b, hb⟩ := hf (k, m) (by simp)
      simp only at hb
      subst hb
      rw [List.flatMap_cons, List.map_append, ih (fun p h => hf p (by simp [h]))]
      rfl
  rw [C10_leaf_masks op flat _ (topLeaves_model flat), e]
  have : (flat.flatMap (fun p => Mask.leafIter p.1 p.2)).map Prod.fst = flat.map Prod.fst := by
    conv_rhs => rw [← e]
    rw [List.map_map]; rfl
  rw [this]; exact hn

/-- **C164** Flattening is done once: a group flattened with "rise", "agg" or "leaves" is returned unchanged (same names, same
order, same masks) when it is flattened the same way again; and `leaf_masks` of its result is its result. -/
theorem C164_flat (op : Agg) (ks : Dict Mask) :
    (∀ op' flat, flattenRise op ks = .ok (.grp op' flat) → flattenRise op' flat = .ok (.grp op' flat)) ∧
    (∀ op' flat, flattenAgg ks = .ok (.grp op' flat) → flattenAgg flat = .ok (.grp op' flat)) ∧
    (∀ op' flat, leafMasks op ks = .grp op' flat → leafMasks op' flat = .grp op' flat) := by
  refine ⟨fun op' flat h => ?_, fun op' flat h => ?_, fun op' flat h => ?_⟩
  · simp only [flattenRise] at h
    split at h
    · rename_i ps hps
      injection h with h
      injection h with h1 h2
      subst h1
      have hn : (Dict.keys flat).Nodup := h2 ▸ Dict.nodup_keys_ofPairs _
      obtain ⟨qs, q1, q2⟩ := flat_visit (ks := flat) (fun p hp => by
        rw [← h2] at hp
        obtain ⟨q, hq, rfl⟩ := List.mem_map.1 (mem_of_ofPairs hp)
        exact ⟨visitKids_names ks ps hps q hq, q.2, rfl⟩)
      simp only [flattenRise, q1, q2]
      rw [Dict.ofPairs_of_nodup _ hn]
    · cases h
  · simp only [flattenAgg] at h
    split at h
    · rename_i rows hrows
      injection h with h
      injection h with h1 h2
      subst h1
      have hn : (Dict.keys flat).Nodup := h2 ▸ Dict.nodup_keys_ofPairs _
      obtain ⟨rows', r1, r2⟩ := flat_data (ks := flat) (fun p hp => by
        rw [← h2] at hp
        have := mem_of_ofPairs hp
        rw [List.zipWith_eq_zipWith_take_min, ← List.map_uncurry_zip_eq_zipWith] at this
        obtain ⟨q, hq, rfl⟩ := List.mem_map.1 this
        exact ⟨q.2, rfl⟩)
      simp only [flattenAgg, r1, r2]
      rw [Dict.ofPairs_of_nodup _ hn]
    · cases h
  · simp only [leafMasks] at h
    injection h with h1 h2
    have gen : ∀ (ks : List (String × Mask)) (acc : Dict Mask), (∀ p ∈ acc, ∃ b, p.2 = .arr b) → (Dict.keys acc).Nodup →
        (∀ p ∈ ks.foldl (fun acc p => Dict.update acc (Dict.ofPairs
          ((Mask.leafIter p.1 p.2).map (fun q => (q.1, Mask.arr q.2))))) acc, ∃ b, p.2 = .arr b) ∧
        (Dict.keys (ks.foldl (fun acc p => Dict.update acc (Dict.ofPairs
          ((Mask.leafIter p.1 p.2).map (fun q => (q.1, Mask.arr q.2))))) acc)).Nodup := by
      intro ks
      induction ks with
      | nil => exact fun acc a b => ⟨a, b⟩
      | cons p ks ih =>
        intro acc a b
        refine ih _ (arr_update a fun q hq => ?_) (Dict.nodup_keys_update b _)
        obtain ⟨x, -, rfl⟩ := List.mem_map.1 (mem_of_ofPairs hq)
        exact ⟨x.2, rfl⟩
    obtain ⟨g1, g2⟩ := gen ks [] (by simp) (by simp [Dict.keys])
    rw [h2] at g1 g2
    exact leafMasks_flat op' g1 g2

theorem xzPlane_eta {x : ℝ} (hx : 0 < x) (z e : ℝ) : (⟨x, 0, z, e⟩ : P4).eta = .fin (arsinh (z / x)) := by
  have hpt : (⟨x, 0, z, e⟩ : P4).pt = x := by rw [pt_eq]; simp [abs_of_pos hx, Real.sqrt_sq_eq_abs]
  obtain ⟨y, h1, h2, -⟩ := (C89_eta ⟨x, 0, z, e⟩).1 (by rw [hpt]; exact hx)
  rw [hpt] at h2
  simp only at h2
  rw [h1, h2, mul_div_cancel_left₀ _ hx.ne', arsinh_sinh]

theorem xzPlane_pol {x : ℝ} (hx : 0 < x) (z e : ℝ) : (⟨x, 0, z, e⟩ : P4).xyPol.arg = 0 := by
  have : (⟨x, 0, z, e⟩ : P4).xyPol = (x : ℂ) := by apply Complex.ext <;> rfl
  rw [this, Complex.arg_ofReal_of_nonneg hx.le]

theorem xzPlane_phi {x : ℝ} (hx : 0 < x) (z e : ℝ) : (⟨x, 0, z, e⟩ : P4).phi 0 = .fin 0 := by
  have hpt : (⟨x, 0, z, e⟩ : P4).pt = x := by rw [pt_eq]; simp [abs_of_pos hx, Real.sqrt_sq_eq_abs]
  rw [P4.phi, hpt, if_neg (by rw [abs_of_pos hx]; exact not_le.2 hx), xzPlane_pol hx]

theorem xzPlane_near {x : ℝ} (hx : 0 < x) (z e r η0 : ℝ) :
    Near r (.fin η0, .fin 0) ⟨x, 0, z, e⟩ ↔ |arsinh (z / x) - η0| < r := by
  have hpi := Real.pi_pos
  constructor
  · rintro ⟨η, η1, φ1, a, h1, h2, h3, h4, h5, h6, h7⟩
    rw [xzPlane_eta hx] at h1
    injection h1 with h1
    obtain ⟨e1, e2⟩ := Prod.mk.inj h2
    injection e1 with e1; injection e2 with e2
    rw [xzPlane_pol hx, ← e2, zero_add] at h5
    have := angleEq_unique h5 (by linarith) hpi.le h3 h4
    rw [h1, e1]
    rw [← this] at h7
    exact abs_lt_of_sq_lt_sq (by nlinarith) h6.le
  · intro h
    have hr : 0 < r := lt_of_le_of_lt (abs_nonneg _) h
    refine ⟨_, η0, 0, 0, xzPlane_eta hx z e, rfl, by linarith, hpi.le, ⟨0, by rw [xzPlane_pol hx]; simp⟩, hr, ?_⟩
    have := sq_lt_sq' (by linarith [abs_nonneg (arsinh (z / x) - η0)]) h
    rw [sq_abs] at this
    linarith

theorem arsinh_of_exp {z t : ℝ} (ht : 0 < t) (h : z = (t - t⁻¹) / 2) : arsinh z = log t := by
  rw [h, ← arsinh_sinh (log t), sinh_eq, exp_neg, exp_log ht]

/-- Three particles in one plane, at pseudorapidities 0, log 2 and 3 log 2. -/
noncomputable def exThree : List P4 := [⟨1 / 2, 0, 0, 9⟩, ⟨1, 0, 3 / 4, 9⟩, ⟨1, 0, 63 / 16, 9⟩]

open Classical in
/-- **C164** The expectation that the particles left by a prune around their own centre are left by the same prune again is
refuted: the centre moves towards the kept particles, and the second prune drops one of them. -/
theorem C164_false_prune :
    ∃ r : ℝ, centroidPrune 0 exThree r none none = .ok [false, true, true] ∧
      centroidPrune 0 exThree r (some [false, true, true]) none = .ok [false, false, true] ∧
      (∀ sel, (Key.mask [false, true, true]).apply exThree = .ok sel →
        centroidPrune 0 sel r none none = .ok [false, true]) := by
  have h1 : arsinh (3 / 4) = log 2 := arsinh_of_exp (by norm_num) (by norm_num)
  have h2 : arsinh (63 / 16) = log 8 := arsinh_of_exp (by norm_num) (by norm_num)
  have h3 : arsinh (15 / 8) = log 4 := arsinh_of_exp (by norm_num) (by norm_num)
  have e8 : log 8 = 3 * log 2 := by rw [show (8:ℝ) = 2 ^ 3 by norm_num, log_pow]; norm_num
  have e4 : log 4 = 2 * log 2 := by rw [show (4:ℝ) = 2 ^ 2 by norm_num, log_pow]; norm_num
  have hL : 0 < log 2 := log_pos (by norm_num)
  have a1 : arsinh (15 / 8) < arsinh (75 / 32) := arsinh_strictMono (by norm_num)
  have a2 : arsinh (75 / 32) < arsinh (63 / 16) := arsinh_strictMono (by norm_num)
  rw [h3, e4] at a1
  rw [h2, e8] at a2
  set s := arsinh (75 / 32) with hs
  have n1 : ∀ r η, Near r (.fin η, .fin 0) (⟨1 / 2, 0, 0, 9⟩ : P4) ↔ |0 - η| < r := fun r η => by
    rw [xzPlane_near (by norm_num)]; norm_num
  have n2 : ∀ r η, Near r (.fin η, .fin 0) (⟨1, 0, 3 / 4, 9⟩ : P4) ↔ |log 2 - η| < r := fun r η => by
    rw [xzPlane_near (by norm_num)]; norm_num [h1]
  have n3 : ∀ r η, Near r (.fin η, .fin 0) (⟨1, 0, 63 / 16, 9⟩ : P4) ↔ |3 * log 2 - η| < r := fun r η => by
    rw [xzPlane_near (by norm_num), div_one, h2, e8]
  have t1 : centreUsed 0 exThree none = (.fin (2 * log 2), .fin 0) := by
    have : total exThree = ⟨5 / 2, 0, 75 / 16, 27⟩ := by simp [total, exThree]; norm_num
    simp only [centreUsed, this]
    rw [xzPlane_phi (by norm_num), xzPlane_eta (by norm_num), ← e4, ← h3]; norm_num
  have t2 : centreUsed 0 [(⟨1, 0, 3 / 4, 9⟩ : P4), ⟨1, 0, 63 / 16, 9⟩] none = (.fin s, .fin 0) := by
    have : total [(⟨1, 0, 3 / 4, 9⟩ : P4), ⟨1, 0, 63 / 16, 9⟩] = ⟨2, 0, 75 / 16, 18⟩ := by simp [total]; norm_num
    simp only [centreUsed, this]
    rw [xzPlane_phi (by norm_num), xzPlane_eta (by norm_num), hs]; norm_num
  have w : ∀ r c p, withinCentre r c p = decide (Near r c p) := fun r c p => by
    rw [Bool.eq_iff_iff, withinCentre_iff]; simp
  have hsel : (Key.mask [false, true, true]).apply exThree = .ok [⟨1, 0, 3 / 4, 9⟩, ⟨1, 0, 63 / 16, 9⟩] := by
    rw [(C20_mask exThree [false, true, true]).1 (by simp [exThree])]; simp [selected, exThree]
  have abs1 : |0 - 2 * log 2| = 2 * log 2 := by rw [zero_sub, abs_neg, abs_of_pos (by linarith)]
  have abs2 : |log 2 - 2 * log 2| = log 2 := by rw [abs_of_neg (by linarith)]; ring
  have abs3 : |3 * log 2 - 2 * log 2| = log 2 := by rw [abs_of_pos (by linarith)]; ring
  have abs4 : |log 2 - s| = s - log 2 := by rw [abs_of_neg (by linarith)]; ring
  have abs5 : |3 * log 2 - s| = 3 * log 2 - s := abs_of_pos (by linarith)
  have second : isWithin 0 [(⟨1, 0, 3 / 4, 9⟩ : P4), ⟨1, 0, 63 / 16, 9⟩] (s - log 2) none = [false, true] := by
    rw [isWithin_eq, t2]
    simp only [List.map_cons, List.map_nil, w, n2, n3, abs4, abs5]
    simp only [lt_irrefl, decide_false, List.cons.injEq, decide_eq_true_eq, and_true, true_and]
    linarith
  refine ⟨s - log 2, ?_, ?_, ?_⟩
  · simp only [centroidPrune]
    rw [isWithin_eq, t1]
    simp only [exThree, List.map_cons, List.map_nil, w, n1, n2, n3, abs1, abs2, abs3]
    simp only [Except.ok.injEq, List.cons.injEq, decide_eq_true_eq, decide_eq_false_iff_not, and_true, not_lt]
    exact ⟨by linarith, by linarith, by linarith⟩
  · simp only [centroidPrune, hsel, second]
    rfl
  · intro sel h
    rw [hsel] at h; cases h
    simp only [centroidPrune, second]

/-! ## non-trivial cases -/

open Classical in
/-- A jet of one particle, returned by the algorithm, meets the assumptions of `C164_recluster`. -/
example (argsort : List ℝ → List Nat) (ha : IsArgsortR argsort) :
    ∃ masks m, KtResult exampleRule argsort [⟨3, 0, 0, 4⟩] 1 (-1) none none .none masks ∧ m ∈ masks ∧
      (Key.mask m).apply [(⟨3, 0, 0, 4⟩ : P4)] = .ok [⟨3, 0, 0, 4⟩] := by
  obtain ⟨-, fj, hfj⟩ := C159_consistent
  have hbad : ¬ FjBadArgs 1 none none .none := by simp [FjBadArgs]
  obtain ⟨algo, jets, sorted, masks, halgo, hrun, m1, m2, m3, m4⟩ :=
    kt_masks hfj ha [⟨3, 0, 0, 4⟩] 1 (-1) none none .none one_pos hbad
  obtain ⟨g1, -, -⟩ := ktRun_input hrun
  obtain ⟨J, hJ, h0⟩ := List.mem_flatMap.1 (g1.mem_iff.2 (show 0 ∈ List.range 1 by decide))
  have hJ' : J ∈ firstK .none (sorted.filter (fun j => decide (EtaOk none j))) := by
    show J ∈ sorted.filter _
    refine List.mem_filter.2 ⟨m2.mem_iff.2 (List.mem_filter.2 ⟨hJ, ?_⟩), by simp [EtaOk]⟩
    simpa using pt_nonneg _
  obtain ⟨m, hm, hmm⟩ := forall₂_mem_left m4 hJ'
  refine ⟨masks, m, ⟨fj, hfj, m1⟩, hm, ?_⟩
  have : m = [true] := by
    apply List.ext_getElem?
    intro i
    cases i with
    | zero => rw [(hmm.2 0).2 h0]; rfl
    | succ i => rw [List.getElem?_eq_none (by rw [hmm.1]; simp)]; simp
  rw [this]
  simp [Key.apply, Key.resolve, trueIdxs, gather]

example : (Key.mask (pdgMask [21, -1, 5, 1] [1, 5] false false)).apply [21, -1, 5, 1] = .ok [-1, 5, 1] ∧
    pdgMask [-1, 5, 1] [1, 5] false false = [true, true, true] := by decide

example : (Key.mask (inRange [-21, 23, 90, -63] 21 (some 63) false)).apply [-21, 23, 90, -63] = .ok [-21, 23, -63] ∧
    inRange [-21, 23, -63] 21 (some 63) false = [true, true, true] := by decide

/-- A nested group flattened by "rise". -/
example : flattenRise .or [("t", .grp .or [("b", .arr [true, false]), ("latent", .arr [false, true])]), ("q", .arr [false, true])] =
    .ok (.grp .or [("t", .arr [true, true]), ("b", .arr [true, false]), ("q", .arr [false, true])]) := by
  simp [flattenRise, Mask.visitKids, Mask.visitItem, Mask.data, Mask.dataKids]; rfl

end Gcl
