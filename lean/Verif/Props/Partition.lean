import Verif.Lemmas.Partition
/-!
# C51, C52: `partition_descendants`
-/
namespace Gcl
set_option autoImplicit false
open Spec

/-- `C51_assign`, and the result can be aggregated. -/
theorem partition_assign {M R : Type} [LinearOrder R] (dist : M → M → R) (pmu : List M) (final : List Bool)
    (status : List Int) (es : List (Int × Int)) (hier : Dict Mask) (hp : pmu.length = es.length)
    (hf : final.length = es.length) (hs : status.length = es.length)
    (hfin : ∀ (v : Int) (p : Nat), HadronVertex es status v → Enters es v p → final[p]? ≠ some true)
    (hagg : Aggregable es.length (.grp .or hier)) (hor : AllAgg .or (.grp .or hier)) :
    ∃ out, partitionDescendants dist pmu final status es hier = .ok out ∧
      Aggregable es.length (.grp .or out) ∧
      MapsIf LeafPath (fun d d' => d'.length = d.length ∧ ∀ i : Nat,
        ((¬ ∃ v, HadronVertex es status v ∧ HadronOf es final v i ∧ Incident es v d) →
          d'[i]? = d[i]?) ∧
        (∀ v, HadronVertex es status v → HadronOf es final v i → Incident es v d →
          (∀ w, HadronVertex es status w → HadronOf es final w i → Incident es w d → w ≤ v) →
          ∃ p, Nearest dist pmu es v i p ∧ (d'[i]? = some true ↔ d[p]? = some true)))
        (.grp .or hier) (.grp .or out) := by
  obtain ⟨fh, g1, g2, g3⟩ : ∃ fh, groupOr hier = .ok fh ∧ fh.length = es.length ∧
      ∀ i : Nat, i < es.length → (fh[i]? = some true ↔ ∃ p ∈ hier, Holds i p.2) := by
    cases hagg with
    | group _ hne hk => exact dataKids_groupOr hne hk
  obtain ⟨vtxs, v1, v2, v3⟩ := C41_hadron es status hs
  have hsorted : vtxs.Pairwise (· < ·) := by
    unfold hadronVertices at v1
    split at v1
    · cases v1
    · cases v1; exact npUnique_sorted _
  have hvert : ∀ v, v ∈ vtxs ↔ HadronVertex es status v := by
    intro v
    rw [v3]
    unfold HadronVertex
    have : ∀ s : Int, (80 ≤ |s| ∧ |s| ≤ 90) ↔ (80 ≤ s.natAbs ∧ s.natAbs ≤ 90) := by
      intro s; rw [Int.abs_eq_natAbs]; omega
    simp only [this]
  set vs := vtxs.filter
    (fun v => (List.zipWith (· && ·) (es.map (fun e => v == e.2)) fh).any id) with hvs
  have hvss : vs.Pairwise (· < ·) := hsorted.filter _
  have hmem : ∀ v ∈ vs, HadronVertex es status v := fun v hv => (hvert v).1 (List.mem_filter.1 hv).1
  obtain ⟨out, o1, o2, o3⟩ := partitionLoop_spec dist pmu final es hp hf vs hier hagg
  refine ⟨out, ?_, o2, ?_⟩
  · unfold partitionDescendants
    simp only [g1, v1, hadronVtxPartons_spec es fh g2]
    exact o1
  · intro path
    obtain ⟨c1, c2, c3⟩ := o3 path
    refine ⟨c1, c2, fun d hd => ?_⟩
    obtain ⟨d', e1, e2, e3⟩ := c3 d hd
    refine ⟨d', e1, fun hE => ?_, e3⟩
    obtain ⟨s1, s2, s3, s4⟩ := leafSteps_spec (e2 hE) (fun v hv p => hfin v p (hmem v hv))
    -- every vertex this leaf is incident on is processed
    have hproc : ∀ v, HadronVertex es status v → Incident es v d → v ∈ vs := by
      intro v hv hi
      rw [hvs, List.mem_filter]
      refine ⟨(hvert v).2 hv, (overlap_iff es fh v).2 ?_⟩
      obtain ⟨p, h1, h2⟩ := hi
      refine ⟨p, ?_, h2⟩
      obtain ⟨e, he, _⟩ := h2
      refine (g3 p (List.getElem?_eq_some_iff.1 he).1).2 ?_
      have := holds_of_leaf path _ d hor hd h1
      cases this with
      | any hm hh => exact ⟨_, hm, hh⟩
    refine ⟨s1, fun i => ⟨fun hno => ?_, fun v hv hh hi hmax => ?_⟩⟩
    · exact s3 i (fun v hv hx => hno ⟨v, hmem v hv, hx⟩)
    · obtain ⟨pre, post, hsplit⟩ := List.append_of_mem (hproc v hv hi)
      refine s4 i pre post v hsplit hh hi ?_
      rintro w hw ⟨hw1, hw2⟩
      have hle := hmax w (hmem w (by rw [hsplit]; simp [hw])) hw1 hw2
      have : v < w := by
        rw [hsplit, List.pairwise_append] at hvss
        exact (List.pairwise_cons.1 hvss.2.1).1 w hw
      omega

/-- **C51, C52** For every event whose final particles enter no hadronisation vertex, every tree of
`or` groups over it and every distance: `partition_descendants` succeeds; the tree keeps all its groups
and keys and its `latent` masks.  In every other leaf `d`, position `i` keeps its value unless particle
`i` is final and descends from a hadronisation vertex which a particle of `d` enters; in that case, with
`v` the highest-numbered such vertex, the new value at `i` is the value `d` has at the particle
entering `v` that is nearest to `i`. -/
theorem C51_assign {M R : Type} [LinearOrder R] (dist : M → M → R) (pmu : List M) (final : List Bool)
    (status : List Int) (es : List (Int × Int)) (hier : Dict Mask) (hp : pmu.length = es.length)
    (hf : final.length = es.length) (hs : status.length = es.length)
    (hfin : ∀ (v : Int) (p : Nat), HadronVertex es status v → Enters es v p → final[p]? ≠ some true)
    (hagg : Aggregable es.length (.grp .or hier)) (hor : AllAgg .or (.grp .or hier)) :
    ∃ out, partitionDescendants dist pmu final status es hier = .ok out ∧
      MapsIf LeafPath (fun d d' => d'.length = d.length ∧ ∀ i : Nat,
        ((¬ ∃ v, HadronVertex es status v ∧ HadronOf es final v i ∧ Incident es v d) →
          d'[i]? = d[i]?) ∧
        (∀ v, HadronVertex es status v → HadronOf es final v i → Incident es v d →
          (∀ w, HadronVertex es status w → HadronOf es final w i → Incident es w d → w ≤ v) →
          ∃ p, Nearest dist pmu es v i p ∧ (d'[i]? = some true ↔ d[p]? = some true)))
        (.grp .or hier) (.grp .or out) := by
  obtain ⟨out, o1, -, o3⟩ := partition_assign dist pmu final status es hier hp hf hs hfin hagg hor
  exact ⟨out, o1, o3⟩

/-- the nearest particle is unique -/
theorem nearest_unique {M R : Type} [LinearOrder R] {dist : M → M → R} {pmu : List M}
    {es : List (Int × Int)} {v : Int} {i p q : Nat} (hp : Nearest dist pmu es v i p)
    (hq : Nearest dist pmu es v i q) : p = q := by
  obtain ⟨p1, mi, mp, p2, p3, p4⟩ := hp
  obtain ⟨q1, mi', mq, q2, q3, q4⟩ := hq
  rw [p2] at q2
  cases q2
  by_contra hne
  rcases Nat.lt_or_gt_of_ne hne with h | h
  · exact absurd (q4 p mp p1 p3).2 (fun hh => absurd (hh h) (not_lt.2 (p4 q mq q1 q3).1))
  · exact absurd (p4 q mq q1 q3).2 (fun hh => absurd (hh h) (not_lt.2 (q4 p mp p1 p3).1))

/-- **C51** Consequences for a final particle `i` descending from exactly one hadronisation vertex
`v`: (1) of two leaves having a particle entering `v` but none in common, at most one contains `i`
afterwards; (2) if every particle entering `v` is in some leaf, then `i` is in some leaf afterwards;
(3) a leaf with a particle entering `v` contains `i` afterwards exactly when it contains the nearest of
them. -/
theorem C51_partition {M R : Type} [LinearOrder R] (dist : M → M → R) (pmu : List M)
    (final : List Bool) (status : List Int) (es : List (Int × Int)) (hier out : Dict Mask)
    (hp : pmu.length = es.length) (hf : final.length = es.length) (hs : status.length = es.length)
    (hfin : ∀ (v : Int) (p : Nat), HadronVertex es status v → Enters es v p → final[p]? ≠ some true)
    (hagg : Aggregable es.length (.grp .or hier)) (hor : AllAgg .or (.grp .or hier))
    (ho : partitionDescendants dist pmu final status es hier = .ok out)
    (v : Int) (i : Nat) (hv : HadronVertex es status v) (hi : HadronOf es final v i)
    (honly : ∀ w, HadronVertex es status w → HadronOf es final w i → w = v) :
    (∀ path d d', LeafPath path → look (.grp .or hier) path = some (.leaf d) →
      look (.grp .or out) path = some (.leaf d') → Incident es v d →
      ∀ p, Nearest dist pmu es v i p → (d'[i]? = some true ↔ d[p]? = some true)) ∧
    (∀ path1 path2 d1 d2 d1' d2', LeafPath path1 → LeafPath path2 →
      look (.grp .or hier) path1 = some (.leaf d1) → look (.grp .or out) path1 = some (.leaf d1') →
      look (.grp .or hier) path2 = some (.leaf d2) → look (.grp .or out) path2 = some (.leaf d2') →
      Incident es v d1 → Incident es v d2 →
      (∀ p : Nat, Enters es v p → ¬ (d1[p]? = some true ∧ d2[p]? = some true)) →
      ¬ (d1'[i]? = some true ∧ d2'[i]? = some true)) ∧
    ((∃ p, Enters es v p) →
      (∀ p : Nat, Enters es v p → ∃ path d, LeafPath path ∧
        look (.grp .or hier) path = some (.leaf d) ∧ d[p]? = some true) →
      ∃ path d', LeafPath path ∧ look (.grp .or out) path = some (.leaf d') ∧ d'[i]? = some true) := by
  obtain ⟨out', o1, o2⟩ := C51_assign dist pmu final status es hier hp hf hs hfin hagg hor
  rw [ho] at o1
  cases o1
  have key : ∀ path d, LeafPath path → look (.grp .or hier) path = some (.leaf d) → Incident es v d →
      ∃ d' p, look (.grp .or out) path = some (.leaf d') ∧ Nearest dist pmu es v i p ∧
        (d'[i]? = some true ↔ d[p]? = some true) := by
    intro path d hE hd hinc
    obtain ⟨d', e1, e2, _⟩ := (o2 path).2.2 d hd
    obtain ⟨p, h1, h2⟩ := ((e2 hE).2 i).2 v hv hi hinc (fun w hw hh _ => le_of_eq (honly w hw hh))
    exact ⟨d', p, e1, h1, h2⟩
  refine ⟨?_, ?_, ?_⟩
  · intro path d d' hE hd hd' hinc p hnp
    obtain ⟨d'', q, e1, e2, e3⟩ := key path d hE hd hinc
    rw [hd'] at e1
    cases e1
    rw [e3, nearest_unique e2 hnp]
  · intro path1 path2 d1 d2 d1' d2' hE1 hE2 h1 h1' h2 h2' i1 i2 hdis hboth
    obtain ⟨e1', p1, a1, a2, a3⟩ := key path1 d1 hE1 h1 i1
    obtain ⟨e2', p2, b1, b2, b3⟩ := key path2 d2 hE2 h2 i2
    rw [h1'] at a1
    cases a1
    rw [h2'] at b1
    cases b1
    have := nearest_unique a2 b2
    subst this
    exact hdis p1 a2.1 ⟨a3.1 hboth.1, b3.1 hboth.2⟩
  · rintro ⟨p0, hp0⟩ hall
    obtain ⟨path0, d0, hE0, h0, ht0⟩ := hall p0 hp0
    obtain ⟨_, p, _, a2, _⟩ := key path0 d0 hE0 h0 ⟨p0, ht0, hp0⟩
    obtain ⟨path, d, hE, hd, ht⟩ := hall p a2.1
    obtain ⟨d', q, e1, e2, e3⟩ := key path d hE hd ⟨p, ht, a2.1⟩
    refine ⟨path, d', hE, e1, e3.2 ?_⟩
    rw [nearest_unique e2 a2]; exact ht

/-- **C52** `partition_descendants` keeps all groups, keys and `latent` masks, and changes no entry of a
mask except at final particles descending from a hadronisation vertex which the mask enters.  (That the
argument itself is not modified is part of the aliasing model: the function works on `hier.copy()`, see
C13.) -/
theorem C52_frame {M R : Type} [LinearOrder R] (dist : M → M → R) (pmu : List M) (final : List Bool)
    (status : List Int) (es : List (Int × Int)) (hier : Dict Mask) (hp : pmu.length = es.length)
    (hf : final.length = es.length) (hs : status.length = es.length)
    (hfin : ∀ (v : Int) (p : Nat), HadronVertex es status v → Enters es v p → final[p]? ≠ some true)
    (hagg : Aggregable es.length (.grp .or hier)) (hor : AllAgg .or (.grp .or hier)) :
    ∃ out, partitionDescendants dist pmu final status es hier = .ok out ∧
      ∀ path,
        (look (.grp .or hier) path = none → look (.grp .or out) path = none) ∧
        (∀ op ks, look (.grp .or hier) path = some (.group op ks) →
          look (.grp .or out) path = some (.group op ks)) ∧
        (∀ d, look (.grp .or hier) path = some (.leaf d) →
          ∃ d', look (.grp .or out) path = some (.leaf d') ∧ d'.length = d.length ∧
            (¬ LeafPath path → d' = d) ∧
            ∀ i : Nat, (¬ ∃ v, HadronVertex es status v ∧ HadronOf es final v i ∧ Incident es v d) →
              d'[i]? = d[i]?) := by
  obtain ⟨out, o1, o2⟩ := C51_assign dist pmu final status es hier hp hf hs hfin hagg hor
  refine ⟨out, o1, fun path => ?_⟩
  obtain ⟨c1, c2, c3⟩ := o2 path
  refine ⟨c1, c2, fun d hd => ?_⟩
  obtain ⟨d', e1, e2, e3⟩ := c3 d hd
  refine ⟨d', e1, ?_, e3, ?_⟩
  · by_cases hE : LeafPath path
    · exact (e2 hE).1
    · rw [e3 hE]
  · intro i hno
    by_cases hE : LeafPath path
    · exact ((e2 hE).2 i).1 hno
    · rw [e3 hE]

theorem leafStep_unique {M R : Type} [LinearOrder R] {dist : M → M → R} {pmu : List M} {final : List Bool}
    {es : List (Int × Int)} {v : Int} {d x y : List Bool} (hx : LeafStep dist pmu final es v d x)
    (hy : LeafStep dist pmu final es v d y) : x = y := by
  apply List.ext_getElem?
  intro i
  by_cases h : HadronOf es final v i ∧ Incident es v d
  · obtain ⟨p, p1, p2⟩ := hx.near i h.1 h.2
    obtain ⟨q, q1, q2⟩ := hy.near i h.1 h.2
    cases nearest_unique p1 q1
    have hiff := p2.trans q2.symm
    have hl := hx.len.trans hy.len.symm
    by_cases hi : i < x.length
    · rw [List.getElem?_eq_getElem hi, List.getElem?_eq_getElem (hl ▸ hi)] at hiff ⊢
      simp only [Option.some.injEq] at hiff ⊢
      exact Bool.eq_iff_iff.2 hiff
    · rw [List.getElem?_eq_none (by omega), List.getElem?_eq_none (by omega)]
  · rw [hx.same i h, hy.same i h]

theorem leafSteps_unique {M R : Type} [LinearOrder R] {dist : M → M → R} {pmu : List M} {final : List Bool}
    {es : List (Int × Int)} {vs : List Int} {d x y : List Bool} (hx : LeafSteps dist pmu final es vs d x)
    (hy : LeafSteps dist pmu final es vs d y) : x = y := by
  induction hx with
  | nil => cases hy; rfl
  | cons a1 _ ih =>
    cases hy with
    | cons b1 b2 =>
      cases leafStep_unique a1 b1
      exact ih b2

/-- **C51** For every event at all, final particles entering hadronisation vertices included, and groups of every kind
but a top level of `or`: each leaf goes through the hadronisation vertices which some particle of the tree enters
(as it was given), in ascending order, one after the other; this determines the result. -/
theorem C51_any {M R : Type} [LinearOrder R] (dist : M → M → R) (pmu : List M) (final : List Bool)
    (status : List Int) (es : List (Int × Int)) (hier : Dict Mask) (hp : pmu.length = es.length)
    (hf : final.length = es.length) (hs : status.length = es.length)
    (hagg : Aggregable es.length (.grp .or hier)) :
    ∃ vs out, partitionDescendants dist pmu final status es hier = .ok out ∧
      vs.Pairwise (· < ·) ∧
      (∀ v, v ∈ vs ↔ HadronVertex es status v ∧ ∃ p : Nat, Enters es v p ∧ Holds p (.grp .or hier)) ∧
      MapsIf LeafPath (LeafSteps dist pmu final es vs) (.grp .or hier) (.grp .or out) ∧
      ∀ d d1 d2, LeafSteps dist pmu final es vs d d1 → LeafSteps dist pmu final es vs d d2 → d1 = d2 := by
  obtain ⟨fh, g1, g2, g3⟩ : ∃ fh, groupOr hier = .ok fh ∧ fh.length = es.length ∧
      ∀ i : Nat, i < es.length → (fh[i]? = some true ↔ ∃ p ∈ hier, Holds i p.2) := by
    cases hagg with
    | group _ hne hk => exact dataKids_groupOr hne hk
  obtain ⟨vtxs, v1, v2, v3⟩ := C41_hadron es status hs
  have hsorted : vtxs.Pairwise (· < ·) := by
    unfold hadronVertices at v1
    split at v1
    · cases v1
    · cases v1; exact npUnique_sorted _
  have hvert : ∀ v, v ∈ vtxs ↔ HadronVertex es status v := by
    intro v
    rw [v3]
    unfold HadronVertex
    have : ∀ s : Int, (80 ≤ |s| ∧ |s| ≤ 90) ↔ (80 ≤ s.natAbs ∧ s.natAbs ≤ 90) := by
      intro s; rw [Int.abs_eq_natAbs]; omega
    simp only [this]
  obtain ⟨out, o1, o2, o3⟩ := partitionLoop_spec dist pmu final es hp hf (vtxs.filter
    (fun v => (List.zipWith (· && ·) (es.map (fun e => v == e.2)) fh).any id)) hier hagg
  refine ⟨_, out, ?_, hsorted.filter _, ?_, o3, ?_⟩
  · unfold partitionDescendants
    simp only [g1, v1, hadronVtxPartons_spec es fh g2]
    exact o1
  · intro v
    rw [List.mem_filter, hvert, overlap_iff]
    refine and_congr_right fun _ => ?_
    unfold Incident
    constructor
    · rintro ⟨p, h1, h2⟩
      obtain ⟨e, he, _⟩ := id h2
      obtain ⟨q, hq, hh⟩ := (g3 p (List.getElem?_eq_some_iff.1 he).1).1 h1
      exact ⟨p, h2, .any hq hh⟩
    · rintro ⟨p, h2, h1⟩
      obtain ⟨e, he, _⟩ := id h2
      refine ⟨p, (g3 p (List.getElem?_eq_some_iff.1 he).1).2 ?_, h2⟩
      cases h1 with
      | any hm hh => exact ⟨_, hm, hh⟩
  · exact fun d d1 d2 => leafSteps_unique

-- two quarks hadronising together: vertex 3 is entered by the quarks at positions 0 and 1 and by a
-- spectator at position 2; momenta are points on a line, the distance is absolute difference
section Example
def exPEdges : List (Int × Int) := [(1, 3), (2, 3), (9, 3), (3, 4), (3, 5), (3, 6)]
def exPStatus : List Int := [23, 23, 61, 83, 83, 83]
def exPFinal : List Bool := [false, false, false, true, true, true]
def exPmu : List Nat := [10, 20, 30, 11, 29, 15]
def exPDist : Nat → Nat → Nat := fun a b => (a - b) + (b - a)
def exPHier : Dict Mask :=
  [("q", .arr [true, false, false, true, true, true]),
   ("p", .grp .or [("r", .arr [false, true, false, true, true, true]),
     ("latent", .arr [false, false, false, true, false, false])])]
-- hadron 3 goes to `q`, hadron 4 to the spectator, hadron 5 (a tie) to the first, `q`
example : partitionDescendants exPDist exPmu exPFinal exPStatus exPEdges exPHier = .ok
  [("q", .arr [true, false, false, true, false, true]),
   ("p", .grp .or [("r", .arr [false, true, false, false, false, false]),
     ("latent", .arr [false, false, false, true, false, false])])] := rfl
example : ∀ (v : Int) (p : Nat), HadronVertex exPEdges exPStatus v → Enters exPEdges v p →
    exPFinal[p]? ≠ some true := by
  rintro v p ⟨i, e, s, h1, h2, h3, h4, h5⟩ ⟨e', h6, h7⟩
  have hi : i < 6 := by simpa [exPEdges] using (List.getElem?_eq_some_iff.1 h1).1
  have hp : p < 6 := by simpa [exPEdges] using (List.getElem?_eq_some_iff.1 h6).1
  have hall : ∀ i ∈ List.range 6, ∀ p ∈ List.range 6,
      (80 ≤ (exPStatus[i]?.getD 0).natAbs) →
      (exPEdges[p]?.map Prod.snd = exPEdges[i]?.map Prod.fst) → exPFinal[p]? ≠ some true := by decide
  refine hall i (List.mem_range.2 hi) p (List.mem_range.2 hp) (by rw [h2]; exact h4) ?_
  rw [h1, h6]; simp [h3, h7]
example : Aggregable exPEdges.length (.grp .or exPHier) := by
  refine .group (by decide) (by simp [exPHier]) ?_
  intro k m hm
  simp only [exPHier, List.mem_cons, Prod.mk.injEq, List.not_mem_nil, or_false] at hm
  rcases hm with ⟨-, rfl⟩ | ⟨-, rfl⟩
  · exact .leaf rfl
  · refine .group (by decide) (by simp) ?_
    intro k m hm
    simp only [List.mem_cons, Prod.mk.injEq, List.not_mem_nil, or_false] at hm
    rcases hm with ⟨-, rfl⟩ | ⟨-, rfl⟩ <;> exact .leaf rfl
example : AllAgg .or (.grp .or exPHier) := by
  refine allAgg_grp ?_
  intro k m hm
  simp only [exPHier, List.mem_cons, Prod.mk.injEq, List.not_mem_nil, or_false] at hm
  rcases hm with ⟨-, rfl⟩ | ⟨-, rfl⟩
  · exact allAgg_arr _
  · refine allAgg_grp ?_
    intro k m hm
    simp only [List.mem_cons, Prod.mk.injEq, List.not_mem_nil, or_false] at hm
    rcases hm with ⟨-, rfl⟩ | ⟨-, rfl⟩ <;> exact allAgg_arr _

/-- **C51** That final particles enter no hadronisation vertex is needed: here the hadron at position 2 enters a second
hadronisation vertex and is assigned to `q` first, whereupon `q` gets the hadron at position 3, although of the
particles entering the only vertex `q` is incident on, the one nearest to it is not in `q`. -/
theorem C51_false : ∃ (dist : Nat → Nat → Nat) (pmu : List Nat) (final : List Bool) (status : List Int)
    (es : List (Int × Int)) (hier out : Dict Mask) (d d' : List Bool) (v : Int) (i p : Nat),
    pmu.length = es.length ∧ final.length = es.length ∧ status.length = es.length ∧
    Aggregable es.length (.grp .or hier) ∧ AllAgg .or (.grp .or hier) ∧
    partitionDescendants dist pmu final status es hier = .ok out ∧
    look (.grp .or hier) ["q"] = some (.leaf d) ∧ look (.grp .or out) ["q"] = some (.leaf d') ∧
    HadronVertex es status v ∧ HadronOf es final v i ∧ Incident es v d ∧
    (∀ w, HadronVertex es status w → HadronOf es final w i → Incident es w d → w ≤ v) ∧
    Nearest dist pmu es v i p ∧ d[p]? = some false ∧ d'[i]? = some true := by
  refine ⟨exPDist, [10, 20, 11, 21], [false, false, true, true], [23, 23, 83, 83], [(1, 3), (2, 3), (3, 4), (4, 5)],
    [("q", .arr [true, false, false, false]), ("r", .arr [false, true, true, false])],
    [("q", .arr [true, false, true, true]), ("r", .arr [false, true, false, true])],
    [true, false, false, false], [true, false, true, true], 3, 3, 1, rfl, rfl, rfl, ?_, ?_, rfl, rfl, rfl, ?_, ?_, ?_, ?_, ?_,
    rfl, rfl⟩
  · refine .group (by decide) (by simp) ?_
    intro k m hm
    simp only [List.mem_cons, Prod.mk.injEq, List.not_mem_nil, or_false] at hm
    rcases hm with ⟨-, rfl⟩ | ⟨-, rfl⟩ <;> exact .leaf rfl
  · refine allAgg_grp ?_
    intro k m hm
    simp only [List.mem_cons, Prod.mk.injEq, List.not_mem_nil, or_false] at hm
    rcases hm with ⟨-, rfl⟩ | ⟨-, rfl⟩ <;> exact allAgg_arr _
  · exact ⟨2, (3, 4), 83, rfl, rfl, rfl, by decide, by decide⟩
  · refine ⟨rfl, (4, 5), rfl, Or.inl ⟨⟨4, by simp⟩, .single ?_⟩⟩
    simp [Step]
  · exact ⟨0, rfl, (1, 3), rfl, rfl⟩
  · rintro w - - ⟨p, h1, e, h2, rfl⟩
    have : p = 0 := by
      rcases p with _ | _ | _ | _ | p <;> simp at h1 ⊢
    subst this
    simp at h2
    subst h2
    simp
  · refine ⟨⟨(2, 3), rfl, rfl⟩, 21, 20, rfl, rfl, ?_⟩
    rintro q mq ⟨e, he, h3⟩ hq
    rcases q with _ | _ | _ | _ | q
    · simp at hq; subst hq; simp [exPDist]
    · simp at hq; subst hq; simp [exPDist]
    · simp at he; subst he; simp at h3
    · simp at he; subst he; simp at h3
    · simp at he
end Example

end Gcl
