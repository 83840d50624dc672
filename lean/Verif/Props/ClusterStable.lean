import Verif.Props.Stable
import Verif.Props.ClusterSym
import Verif.Props.Clusters
/-! # C170: `clusters` does not mind a little noise -/
namespace Gcl
set_option autoImplicit false
open Spec Real Filter Topology

theorem step_stays {tol radius : ℝ} (Z : List (P4 × P4)) (hard leaf : List Bool) (hh : hard.length = Z.length)
    (hN : ∀ (j i : Nat) (z w : P4 × P4), hard[j]? = some true → leaf[j]? = some true → leaf[i]? = some true → Z[j]? = some z →
      Z[i]? = some w → (Near radius (z.2.eta, z.2.phi tol) w.2 ↔ Near radius (z.1.eta, z.1.phi tol) w.1)) :
    (∃ e, leafCentre tol (Z.map Prod.fst) hard leaf = .error e ∧ leafCentre tol (Z.map Prod.snd) hard leaf = .error e) ∨
    ∃ c c', leafCentre tol (Z.map Prod.fst) hard leaf = .ok c ∧ leafCentre tol (Z.map Prod.snd) hard leaf = .ok c' ∧
      centroidPrune tol (Z.map Prod.snd) radius (some leaf) (some c') = centroidPrune tol (Z.map Prod.fst) radius (some leaf) (some c) ∧
      ∀ d, centroidPrune tol (Z.map Prod.fst) radius (some leaf) (some c) = .ok d → ∀ i : Nat, d[i]? = some true → leaf[i]? = some true := by
  cases hb : bcast2 (· && ·) hard leaf with
  | error e => exact .inl ⟨e, by simp [leafCentre, hb], by simp [leafCentre, hb]⟩
  | ok m =>
    cases hm : (Key.mask m).apply Z with
    | error e => exact .inl ⟨e, by simp [leafCentre, hb, apply_map, hm, Except.map], by simp [leafCentre, hb, apply_map, hm, Except.map]⟩
    | ok sel =>
      match sel, hm with
      | [], hm => exact .inl ⟨.valueError, by simp [leafCentre, hb, apply_map, hm, Except.map], by simp [leafCentre, hb, apply_map, hm, Except.map]⟩
      | _ :: _ :: _, hm => exact .inl ⟨.valueError, by simp [leafCentre, hb, apply_map, hm, Except.map], by simp [leafCentre, hb, apply_map, hm, Except.map]⟩
      | [z], hm =>
        refine .inr ⟨(z.1.eta, z.1.phi tol), (z.2.eta, z.2.phi tol), by simp [leafCentre, hb, apply_map, hm, Except.map],
          by simp [leafCentre, hb, apply_map, hm, Except.map], ?_, ?_⟩
        · simp only [centroidPrune, apply_map]
          by_cases hl : leaf.length = Z.length
          · rw [(C20_mask Z leaf).1 hl]
            simp only [Except.map]
            congr 1
            simp only [isWithin, List.map_map]
            apply List.map_congr_left
            intro w hw
            obtain ⟨i, i1, i2⟩ := (mem_selected w Z leaf).1 hw
            rw [bcast2_eq_length _ (hh.trans hl.symm)] at hb
            injection hb with hb
            have hml : m.length = Z.length := by rw [← hb, List.length_zipWith]; omega
            rw [(C20_mask Z m).1 hml] at hm
            injection hm with hm
            obtain ⟨j, j1, j2⟩ := (mem_selected z Z m).1 (by rw [hm]; exact List.mem_singleton.2 rfl)
            rw [← hb, List.getElem?_zipWith] at j2
            have h := hN j i z w
            cases hj : hard[j]? with
            | none => simp [hj] at j2
            | some x =>
              cases hk : leaf[j]? with
              | none => simp [hj, hk] at j2
              | some y =>
                simp [hj, hk] at j2
                obtain ⟨rfl, rfl⟩ := j2
                have := h hj hk i2 j1 i1
                simp only [Function.comp]
                rw [Bool.eq_iff_iff, withinCentre_iff, withinCentre_iff, this]
          · rw [(C20_mask Z leaf).2 hl]
            rfl
        · intro d hd i hi
          by_cases hl : leaf.length = (Z.map Prod.fst).length
          · obtain ⟨out, o1, -, o3⟩ := C55_masked tol (Z.map Prod.fst) radius leaf (some (z.1.eta, z.1.phi tol)) hl
            rw [o1] at hd
            injection hd with hd
            subst hd
            exact ((o3 i).1 hi).1
          · simp only [centroidPrune, (C20_mask _ leaf).2 hl] at hd
            cases hd

theorem pruneLoop_stays {tol radius : ℝ} (Z : List (P4 × P4)) (hard : List Bool) (hh : hard.length = Z.length) (H : Mask)
    (hN : ∀ (path : List String) (d : List Bool) (j i : Nat) (z w : P4 × P4), H.leafAt path = some d → hard[j]? = some true →
      d[j]? = some true → d[i]? = some true → Z[j]? = some z → Z[i]? = some w →
        (Near radius (z.2.eta, z.2.phi tol) w.2 ↔ Near radius (z.1.eta, z.1.phi tol) w.1)) (leaves : Dict (List String)) :
    ∀ (ks : List String) (hier : Mask), (∀ path d, hier.leafAt path = some d →
        ∃ d0, H.leafAt path = some d0 ∧ ∀ i : Nat, d[i]? = some true → d0[i]? = some true) →
      pruneLoop tol (Z.map Prod.snd) radius hard leaves ks hier = pruneLoop tol (Z.map Prod.fst) radius hard leaves ks hier
  | [], _, _ => rfl
  | k :: ks, hier, hi => by
    unfold pruneLoop
    cases Dict.get? leaves k with
    | none => rfl
    | some path =>
      simp only
      cases hl : hier.leafAt path with
      | none => rfl
      | some leaf =>
        simp only
        obtain ⟨d0, g1, g2⟩ := hi path leaf hl
        rcases step_stays (tol := tol) (radius := radius) Z hard leaf hh
          (fun j i z w a b c => hN path d0 j i z w g1 a (g2 _ b) (g2 _ c)) with ⟨e, e1, e2⟩ | ⟨c, c', e1, e2, e3, e4⟩
        · rw [e1, e2]
        · rw [e1, e2]
          simp only
          rw [e3]
          cases hd : centroidPrune tol (Z.map Prod.fst) radius (some leaf) (some c) with
          | error e => rfl
          | ok d =>
            simp only
            refine pruneLoop_stays Z hard hh H hN leaves ks _ (fun p d' hp => ?_)
            rw [leafAt_iff, look_setLeaf d leaf path hier ((leafAt_iff _ _ _).1 hl)] at hp
            by_cases hpp : p = path
            · subst hpp
              rw [if_pos rfl] at hp
              injection hp with hp
              injection hp with hp
              subst hp
              exact ⟨d0, g1, fun i h => g2 i (e4 _ hd i h)⟩
            · rw [if_neg hpp] at hp
              exact hi p d' ((leafAt_iff _ _ _).2 hp)

theorem pair_stays {tol radius : ℝ} (htol : 0 ≤ tol) {c q : P4} (hc : tol < c.pt) (hq : 0 < q.pt)
    (hb : (∀ r, radius < r → Near r (c.eta, c.phi tol) q) → Near radius (c.eta, c.phi tol) q) :
    ∃ δ > 0, ∀ c' q', Off δ c' c → Off δ q' q →
      (Near radius (c'.eta, c'.phi tol) q' ↔ Near radius (c.eta, c.phi tol) q) := by
  have ephi : ∀ {q : P4}, tol < q.pt → q.phi tol = .fin q.xyPol.arg := by
    intro q h
    unfold P4.phi
    rw [if_neg (by rw [abs_of_pos (htol.trans_lt h)]; exact not_le.2 h)]
  rw [ephi hc] at hb ⊢
  obtain ⟨d, hd, h1⟩ := near_stays hq (htol.trans_lt hc) _ ⟨0, by simp⟩ hb
  obtain ⟨d', hd', h2⟩ := pt_stays hc
  refine ⟨min d d', lt_min hd hd', fun c' q' oc oq => ?_⟩
  rw [ephi (h2 c' (off_mono (min_le_right _ _) oc))]
  exact h1 q' c' (off_mono (min_le_left _ _) oq) (off_mono (min_le_left _ _) oc) _ ⟨0, by simp⟩

/-- **C170** `clusters` with its real distance: let no hadron be equally near to two of the partons it may come from, and
let, in every leaf of the partitioned hierarchy, no particle move along the beam or lie exactly at `radius` from an
outgoing parton of the leaf.  Then every event whose momenta differ by little enough has the same clusters, with the same
names, or raises the same exception. -/
theorem C170_clusters (e tol radius : ℝ) (htol : 0 ≤ tol) (setIter : List String → List String) (nm : Int → String) (g : ClusterGraph)
    (hp : g.pmu.length = g.edges.length) (hf : g.final.length = g.edges.length) (hs : g.status.length = g.edges.length)
    (hpt : ∀ v (i q : Nat) mi mq, HadronVertex g.edges g.status v → HadronOf g.edges g.final v i → Enters g.edges v q →
      g.pmu[i]? = some mi → g.pmu[q]? = some mq → 0 < mi.pt ∧ 0 < mq.pt)
    (htie : ∀ v (i p q : Nat) mi mp mq, HadronVertex g.edges g.status v → HadronOf g.edges g.final v i →
      Nearest (weightedDist e) g.pmu g.edges v i p → Enters g.edges v q → q ≠ p → g.pmu[i]? = some mi → g.pmu[p]? = some mp →
      g.pmu[q]? = some mq → weightedDist e mp mi ≠ weightedDist e mq mi)
    (hb : ∀ hier0 hier path d (j i : Nat) c q, hierarchy nm g.pdg g.status g.final g.edges none = .ok hier0 →
      partitionDescendants (weightedDist e) g.pmu g.final g.status g.edges hier0 = .ok hier →
      look (.grp .or hier) path = some (.leaf d) → d[j]? = some true → Outgoing g.status j → d[i]? = some true →
      g.pmu[j]? = some c → g.pmu[i]? = some q →
      tol < c.pt ∧ 0 < q.pt ∧ ((∀ r, radius < r → Near r (c.eta, c.phi tol) q) → Near radius (c.eta, c.phi tol) q)) :
    ∃ δ > 0, ∀ pmu' : List P4, List.Forall₂ (Off δ) pmu' g.pmu →
      clusters (weightedDist e) setIter nm tol radius { g with pmu := pmu' } = clusters (weightedDist e) setIter nm tol radius g := by
  obtain ⟨d1, hd1, H1⟩ := C168_partition e g.pmu g.final g.status g.edges hp hf hs hpt htie
  let o : P4 := ⟨0, 0, 0, 0⟩
  let P (j i : Nat) : Prop := tol < (g.pmu.getD j o).pt ∧ 0 < (g.pmu.getD i o).pt ∧
    ((∀ r, radius < r → Near r ((g.pmu.getD j o).eta, (g.pmu.getD j o).phi tol) (g.pmu.getD i o)) →
      Near radius ((g.pmu.getD j o).eta, (g.pmu.getD j o).phi tol) (g.pmu.getD i o))
  let Q (j i : Nat) (δ : ℝ) : Prop := P j i → ∀ c' q', Off δ c' (g.pmu.getD j o) → Off δ q' (g.pmu.getD i o) →
    (Near radius (c'.eta, c'.phi tol) q' ↔ Near radius ((g.pmu.getD j o).eta, (g.pmu.getD j o).phi tol) (g.pmu.getD i o))
  have mono : ∀ j i (δ δ' : ℝ), δ' ≤ δ → Q j i δ → Q j i δ' := fun j i δ δ' h hQ hP c' q' oc oq =>
    hQ hP c' q' (off_mono h oc) (off_mono h oq)
  obtain ⟨d2, hd2, H2⟩ := small_all g.pmu.length (fun j δ => ∀ i, i < g.pmu.length → Q j i δ)
    (fun j δ δ' h hQ i hi => mono j i δ δ' h (hQ i hi))
    (fun j _ => small_all g.pmu.length (Q j) (mono j) (fun i _ => by
      by_cases hP : P j i
      · obtain ⟨δ, hδ, h⟩ := pair_stays htol hP.1 hP.2.1 hP.2.2
        exact ⟨δ, hδ, fun _ => h⟩
      · exact ⟨1, one_pos, fun h => absurd h hP⟩))
  refine ⟨min d1 d2, lt_min hd1 hd2, fun pmu' ho => ?_⟩
  have hlen := ho.length_eq
  have hpart := H1 pmu' (ho.imp fun _ _ => off_mono (min_le_left _ _))
  unfold clusters
  simp only [hpart]
  cases h0 : hierarchy nm g.pdg g.status g.final g.edges none with
  | error e => rfl
  | ok hier0 =>
    simp only
    cases h1 : partitionDescendants (weightedDist e) g.pmu g.final g.status g.edges hier0 with
    | error e => rfl
    | ok hier =>
      have e1 : (g.pmu.zip pmu').map Prod.fst = g.pmu := List.map_fst_zip (by omega)
      have e2 : (g.pmu.zip pmu').map Prod.snd = pmu' := List.map_snd_zip (by omega)
      have key : ∀ leaves ks, pruneLoop tol pmu' radius (g.status.map (fun s => decide (|s| = 23))) leaves ks (.grp .or hier) =
          pruneLoop tol g.pmu radius (g.status.map (fun s => decide (|s| = 23))) leaves ks (.grp .or hier) := by
        intro leaves ks
        have := pruneLoop_stays (tol := tol) (radius := radius) (g.pmu.zip pmu') (g.status.map (fun s => decide (|s| = 23)))
          (by rw [List.length_map, List.length_zip]; omega) (.grp .or hier) ?_ leaves ks (.grp .or hier)
          (fun path d hd => ⟨d, hd, fun _ h => h⟩)
        · rwa [e1, e2] at this
        · intro path d j i z w k1 k2 k3 k4 k5 k6
          have hj : j < g.pmu.length := by
            have := (List.getElem?_eq_some_iff.1 k5).1
            rw [List.length_zip] at this
            omega
          have hi : i < g.pmu.length := by
            have := (List.getElem?_eq_some_iff.1 k6).1
            rw [List.length_zip] at this
            omega
          have hj' : j < pmu'.length := by omega
          have hi' : i < pmu'.length := by omega
          rw [List.getElem?_eq_getElem (by rw [List.length_zip]; omega), Option.some.injEq, List.getElem_zip] at k5 k6
          subst k5 k6
          have out : Outgoing g.status j := by
            rw [List.getElem?_map, Option.map_eq_some_iff] at k2
            obtain ⟨s, s1, s2⟩ := k2
            exact ⟨s, s1, by simpa using s2⟩
          have hP := hb hier0 hier path d j i _ _ h0 h1 ((leafAt_iff _ _ _).1 k1) k3 out k4
            (List.getElem?_eq_getElem hj) (List.getElem?_eq_getElem hi)
          have gj : g.pmu.getD j o = g.pmu[j] := by simp [hj]
          have gi : g.pmu.getD i o = g.pmu[i] := by simp [hi]
          have hQ := H2 j hj i hi (by simp only [P, gj, gi]; exact hP) pmu'[j] pmu'[i]
            (by rw [gj]; exact off_mono (min_le_right _ _) (ho.get hj' hj))
            (by rw [gi]; exact off_mono (min_le_right _ _) (ho.get hi' hi))
          rw [gj, gi] at hQ
          exact hQ
      simp only [clusterRest, outgoingMask_eq, key]

theorem exCG_part_any {R : Type} [LT R] [DecidableLT R] (dist : P4 → P4 → R) :
    partitionDescendants dist exCG.pmu exCG.final exCG.status exCG.edges exCH = .ok exCH := by rfl

/-- The event of C60, where the bottom quark, in no singlet, has a hadron along its direction and one opposite to it. -/
example (e : ℝ) : ∃ out, IsClusters 1e-8 1 exCG (.grp .or exCH) ["b"] out ∧ ∃ δ > 0, ∀ pmu' : List P4,
    List.Forall₂ (Off δ) pmu' exCG.pmu → clusters (weightedDist e) id exNames 1e-8 1 { exCG with pmu := pmu' } = .ok out := by
  have part : partitionDescendants (weightedDist e) exCG.pmu exCG.final exCG.status exCG.edges exCH = .ok exCH :=
    exCG_part_any _
  obtain ⟨out, o1, o2⟩ := C60_clusters (dist := weightedDist e) (setIter := id) (fun _ _ => List.Perm.refl _) exCG_good 1e-8 1 exCG_hier (by simp [exCH]) part exCLo
    exCG_leaves ["b"] exCG_keys (by
      intro k hk p d e1 e2
      rw [List.mem_singleton] at hk
      subst hk
      have hN := partition_nice exCG_good exCG_hier (by simp [exCH]) part
      have hm := (C10_members .or exCH hN.unique exCLo exCG_leaves "b" d).2 ⟨p, fun h => e1 _ h rfl, e2⟩
      obtain ⟨c, -, i, i1, i2, i3, i4⟩ := forall₂_mem_left exCG_one hm
      exact ⟨i, ⟨i1, i2⟩, i4⟩)
  have two : ∀ (i : Nat) (m : P4), exCG.pmu[i]? = some m → m = ⟨5, 0, 0, 5⟩ ∨ m = ⟨-5, 0, 0, 5⟩ := by
    intro i m h
    have := List.mem_of_getElem? h
    simp only [exCG, List.mem_cons, List.not_mem_nil, or_false] at this
    clear o2 o1
    tauto
  have p5 : (⟨5, 0, 0, 5⟩ : P4).pt = 5 := by
    rw [pt_eq, show ((5 : ℝ) ^ 2 + 0 ^ 2) = 5 ^ 2 by norm_num]
    exact sqrt_sq (by norm_num)
  have m5 : (⟨-5, 0, 0, 5⟩ : P4).pt = 5 := by
    rw [pt_eq, show ((-5 : ℝ) ^ 2 + 0 ^ 2) = 5 ^ 2 by norm_num]
    exact sqrt_sq (by norm_num)
  have pt5 : ∀ (i : Nat) (m : P4), exCG.pmu[i]? = some m → m.pt = 5 := by
    intro i m h
    rcases two i m h with rfl | rfl <;> assumption
  suffices H : ∃ δ > 0, ∀ pmu' : List P4, List.Forall₂ (Off δ) pmu' exCG.pmu →
      clusters (weightedDist e) id exNames 1e-8 1 { exCG with pmu := pmu' } = clusters (weightedDist e) id exNames 1e-8 1 exCG by
    obtain ⟨δ, hδ, H⟩ := H
    exact ⟨out, o2, δ, hδ, fun pmu' ho => (H pmu' ho).trans o1⟩
  refine C170_clusters e 1e-8 1 (by norm_num) id exNames exCG rfl rfl rfl ?_ ?_ ?_
  · intro v i q mi mq _ _ _ h1 h2
    rw [pt5 _ _ h1, pt5 _ _ h2]
    norm_num
  · intro v i p q mi mp mq _ _ ⟨⟨x, x1, x2⟩, _⟩ ⟨y, y1, y2⟩ hqp
    have hall : ∀ p ∈ List.range 9, ∀ q ∈ List.range 9, exCG.edges[p]?.map Prod.snd = exCG.edges[q]?.map Prod.snd → q = p := by
      decide
    have hp : p < 9 := by simpa [exCG] using (List.getElem?_eq_some_iff.1 x1).1
    have hq : q < 9 := by simpa [exCG] using (List.getElem?_eq_some_iff.1 y1).1
    exact absurd (hall p (List.mem_range.2 hp) q (List.mem_range.2 hq) (by rw [x1, y1]; simp [x2, y2])) hqp
  · intro hier0 hier path d j i c q _ _ _ _ _ _ h1 h2
    have hc := pt5 _ _ h1
    have hq := pt5 _ _ h2
    refine ⟨by rw [hc]; norm_num, by rw [hq]; norm_num, ?_⟩
    have ephi : c.phi 1e-8 = .fin c.xyPol.arg := by
      unfold P4.phi
      rw [hc, if_neg (by norm_num)]
    have hc0 : 0 < c.pt := by rw [hc]; norm_num
    have hq0 : 0 < q.pt := by rw [hq]; norm_num
    rw [ephi]
    have hself : AngleEq c.xyPol.arg c.xyPol.arg := ⟨0, by simp⟩
    simp only [near_ang hq0 hc0 hself]
    intro h
    refine ⟨one_pos, ?_⟩
    have h3 := (h 2 (by norm_num)).2
    have hv : ang q c = 0 ∨ ang q c = π := by
      rcases two _ _ h1 with rfl | rfl <;> rcases two _ _ h2 with rfl | rfl <;> rw [plane_ang] <;> simp only [p5, m5] <;> norm_num
    rcases hv with hv | hv
    · rw [hv]; exact one_pos
    · rw [hv] at h3
      linarith [Real.pi_gt_three]

end Gcl
