import Verif.Lemmas.ClustersC
/-!
# C60: `clusters`
-/
namespace Gcl
set_option autoImplicit false
open Spec

/-- The keys from `color_singlets(..., invert=True)` are distinct names of leaves. -/
theorem colorKeys_facts (setIter : List String → List String)
    (hset : ∀ l : List String, l.Nodup → (setIter l).Perm l) (leaves : Dict (List Bool))
    (status : List Int) (color : List (Int × Int)) (ks : List (List String))
    (h : colorSinglets setIter leaves status color true = .ok ks) :
    ∃ keys : List String, ks = keys.map (fun k => [k]) ∧ keys.Nodup ∧ ∀ k ∈ keys, k ∈ leaves.map Prod.fst := by
  unfold colorSinglets at h
  cases hp : singletParts leaves status color with
  | error e => rw [hp] at h; cases h
  | ok r =>
    obtain ⟨K, S⟩ := r
    rw [hp] at h
    simp only [if_true, Except.ok.injEq] at h
    subst h
    refine ⟨_, rfl, (hset _ (List.nodup_dedup _)).nodup_iff.2 (List.nodup_dedup _), fun k hk => ?_⟩
    rw [(hset _ (List.nodup_dedup _)).mem_iff, List.mem_dedup, List.mem_append] at hk
    unfold singletParts at hp
    rw [outgoingMask_eq] at hp
    simp only at hp
    split at hp
    · cases hp
    · simp only [Except.ok.injEq, Prod.mk.injEq] at hp
      obtain ⟨rfl, rfl⟩ := hp
      rcases hk with hk | hk
      · exact (compress_sublist _ _).subset (List.mem_filter.1 hk).1
      · obtain ⟨l, hl1, hl2⟩ := List.mem_flatten.1 (List.mem_filter.1 hk).1
        obtain ⟨c, hc, rfl⟩ := List.mem_map.1 hl1
        have hc := (List.mem_filter.1 hc).1
        obtain ⟨⟨k', c'⟩, hq, rfl⟩ := List.mem_map.1 hl2
        rcases List.mem_append.1 hc with hc | hc
        · exact (compress_sublist _ _).subset (List.of_mem_zip (((mem_combos _ _ _).1 hc).1.subset hq)).1
        · exact (compress_sublist _ _).subset (List.of_mem_zip (((mem_combos _ _ _).1 hc).1.subset hq)).1

section
variable {R : Type} [LinearOrder R] {dist : P4 → P4 → R} {setIter : List String → List String}
  {nm : Int → String} {g : ClusterGraph} {hier0 hier : Dict Mask}

theorem partition_nice (hg : GoodEvent nm g)
    (h0 : hierarchy nm g.pdg g.status g.final g.edges none = .ok hier0) (hne : hier0 ≠ [])
    (h1 : partitionDescendants dist g.pmu g.final g.status g.edges hier0 = .ok hier) :
    NiceTree g.edges.length (.grp .or hier) := by
  have hN := hierarchy_nice hg.pdg hg.status hg.final hg.colon hg.latent h0 hne
  obtain ⟨out, o1, o2⟩ := C52_frame dist g.pmu g.final g.status g.edges hier0 hg.pmu hg.final hg.status
    hg.hadrons hN.aggregable hN.allOr
  rw [h1] at o1
  cases o1
  refine hN.congr (fun path => ?_)
  obtain ⟨a1, a2, a3⟩ := o2 path
  refine ⟨a1, a2, fun d hd => ?_⟩
  obtain ⟨d', b1, b2, -⟩ := a3 d hd
  exact ⟨d', b1, b2⟩

theorem leaves_nodup {n : Nat} (hN : NiceTree n (.grp .or hier)) {lo : List (String × List Bool)}
    (hlo : topLeaves hier lo) : (lo.map Prod.fst).Nodup ∧ lo.map Prod.fst = (allRefs hier).map Prod.fst ∧
      ∀ p ∈ lo, p.2.length = n := by
  have e := topLeaves_unique hlo (topLeaves_model hier)
  have e2 : lo.map Prod.fst = (allRefs hier).map Prod.fst := by rw [e]; exact leafList_names hier
  refine ⟨by rw [e2]; exact hN.refNames, e2, ?_⟩
  rintro ⟨k, d⟩ hp
  obtain ⟨p, -, h⟩ := (C10_members .or hier hN.unique lo hlo k d).1 hp
  exact hN.leaf _ d h

theorem clusterRest_prefix (hg : GoodEvent nm g) (tol radius : ℝ)
    (h0 : hierarchy nm g.pdg g.status g.final g.edges none = .ok hier0)
    (hN : NiceTree g.edges.length (.grp .or hier))
    (h1 : partitionDescendants dist g.pmu g.final g.status g.edges hier0 = .ok hier)
    {lo : List (String × List Bool)} (hlo : topLeaves hier lo) {keys : List String}
    (hkeys : colorSinglets setIter lo g.status g.color true = .ok (keys.map (fun k => [k]))) :
    clusters dist setIter nm tol radius g =
      match pruneLoop tol g.pmu radius (g.status.map (fun s => decide (|s| = 23))) (allRefs hier) keys
        (.grp .or hier) with
      | .error e => .error e
      | .ok pruned =>
        match pruned.drop "latent" with
        | .arr _ => .error .attributeError
        | .grp op ks =>
          match flattenRise op ks with
          | .error e => .error e
          | .ok (.arr _) => .error .attributeError
          | .ok (.grp _ flat) =>
            match flatEntries flat with
            | .error e => .error e
            | .ok entries =>
              match restrictAll g.final entries with
              | .error e => .error e
              | .ok out => .ok (Dict.ofPairs out) := by
  have hflat : (keys.map (fun k => [k])).flatten = keys := by
    clear hkeys
    induction keys with
    | nil => rfl
    | cons k ks ih => simp [ih]
  unfold clusters
  rw [h0]
  simp only [h1]
  unfold clusterRest
  rw [C10_leaf_masks .or hier lo hlo (leaves_nodup hN hlo).1]
  simp only [flatEntries_arr, hkeys, outgoingMask_eq, hflat, hN.refDict]
  rfl

/-- The references of the coloured keys. -/
theorem key_refs {n : Nat} (hN : NiceTree n (.grp .or hier)) {lo : List (String × List Bool)}
    (hlo : topLeaves hier lo) {k : String} (hk : k ∈ lo.map Prod.fst) :
    ∃ p d, Dict.get? (allRefs hier) k = some (p ++ [k]) ∧ LeafPath (p ++ [k]) ∧
      look (.grp .or hier) (p ++ [k]) = some (.leaf d) ∧ k ≠ "latent" := by
  rw [(leaves_nodup hN hlo).2.1] at hk
  obtain ⟨⟨k', path⟩, h1, rfl⟩ := List.mem_map.1 hk
  obtain ⟨p, rfl, h3, d, h4⟩ := (mem_allRefs hN.unique k' path).1 h1
  exact ⟨p, d, Dict.get?_of_mem hN.refNames h1, h3, h4, hN.ref_ne_latent h1⟩

theorem refs_inj {n : Nat} (hN : NiceTree n (.grp .or hier)) (k k' : String) (path : List String)
    (h : Dict.get? (allRefs hier) k = some path) (h' : Dict.get? (allRefs hier) k' = some path) : k = k' := by
  obtain ⟨p, e1, -⟩ := (mem_allRefs hN.unique k path).1 (Dict.mem_of_get? h)
  obtain ⟨p', e1', -⟩ := (mem_allRefs hN.unique k' path).1 (Dict.mem_of_get? h')
  rw [e1] at e1'
  have := congrArg List.getLast? e1'
  simpa using this

/-- **C60** For every event with a non-empty hierarchy, every radius, distance and iteration order of sets:
let `hier` be the partitioned hierarchy, and `keys` the names `color_singlets` gives for its leaves with
`invert=True`.  If each of these leaves holds exactly one outgoing parton, `clusters` succeeds and its result
is that of `IsClusters`: all names of the tree but `latent`, with masks that have one entry per final
particle and hold the particles of the leaves below, in coloured leaves only those near their parton. -/
theorem C60_clusters (hset : ∀ l : List String, l.Nodup → (setIter l).Perm l) (hg : GoodEvent nm g)
    (tol radius : ℝ) (h0 : hierarchy nm g.pdg g.status g.final g.edges none = .ok hier0) (hne : hier0 ≠ [])
    (h1 : partitionDescendants dist g.pmu g.final g.status g.edges hier0 = .ok hier)
    (lo : List (String × List Bool)) (hlo : topLeaves hier lo) (keys : List String)
    (hkeys : colorSinglets setIter lo g.status g.color true = .ok (keys.map (fun k => [k])))
    (hone : ∀ k ∈ keys, ∀ p d, LeafPath (p ++ [k]) → look (.grp .or hier) (p ++ [k]) = some (.leaf d) →
      ∃ j, TheParton g.status d j) :
    ∃ out, clusters dist setIter nm tol radius g = .ok out ∧
      IsClusters tol radius g (.grp .or hier) keys out := by
  have hN := partition_nice hg h0 hne h1
  obtain ⟨keys', hk1, hk2, hk3⟩ := colorKeys_facts setIter hset lo _ _ _ hkeys
  have : keys = keys' := by
    have := congrArg List.flatten hk1
    have hf : ∀ l : List String, (l.map (fun k => [k])).flatten = l := by
      intro l
      induction l with
      | nil => rfl
      | cons k l ih => simp [ih]
    rwa [hf, hf] at this
  subst this
  rw [clusterRest_prefix hg tol radius h0 hN h1 hlo hkeys]
  have hps : g.pmu.length = g.status.length := by rw [hg.pmu, hg.status]
  obtain ⟨P, p1, p2⟩ := pruneLoop_ok tol radius hps (allRefs hier) (refs_inj hN) keys hk2 (.grp .or hier) (by
    intro k hk
    obtain ⟨p, d, e1, e2, e3, -⟩ := key_refs hN hlo (hk3 k hk)
    obtain ⟨j, hj⟩ := hone k hk p d e2 e3
    exact ⟨p ++ [k], d, j, e1, e3, by rw [hN.leaf _ d e3, hg.status], hj⟩)
  have hP : NiceTree g.edges.length P := by
    refine hN.congr (fun path => ?_)
    obtain ⟨a1, a2, a3⟩ := p2 path
    refine ⟨a1, a2, fun d hd => ?_⟩
    obtain ⟨d', b1, b2, b3⟩ := a3 d hd
    refine ⟨d', b1, ?_⟩
    by_cases hk : ∃ k ∈ keys, Dict.get? (allRefs hier) k = some path
    · exact (b2 hk).1
    · rw [b3 hk]
  have hback : SameShape (.grp .or hier) P := by
    intro path
    obtain ⟨a1, a2, a3⟩ := p2 path
    refine ⟨a1, a2, fun d hd => ?_⟩
    obtain ⟨d', b1, b2, b3⟩ := a3 d hd
    refine ⟨d', b1, ?_⟩
    rw [hP.leaf _ _ b1, hN.leaf _ _ hd]
  have hsome : ∀ path, (look P path).isSome ↔ (look (.grp .or hier) path).isSome := by
    intro path
    rw [← not_iff_not, Option.not_isSome_iff_eq_none, Option.not_isSome_iff_eq_none]
    exact ⟨(hback.back path).1, (hback path).1⟩
  obtain ⟨ks, flat, entries, f1, f2, f3, f4, f5, f6, f7⟩ := flatten_rest hP g.final hg.final
  have hfst : (entries.map (fun p => (p.1, selected p.2 g.final))).map Prod.fst = entries.map Prod.fst := by
    simp
  refine ⟨entries.map (fun p => (p.1, selected p.2 g.final)), ?_, ?_, ?_, ?_⟩
  · simp only [p1, f1, f2, f3, f4]
    rw [Dict.ofPairs_of_nodup _ (by rw [hfst]; exact f5)]
  · rw [hfst]; exact f5
  · intro k
    rw [hfst, f6]
    simp only [hsome]
  · intro k m hm
    obtain ⟨⟨k', full⟩, hm1, hm2⟩ := List.mem_map.1 hm
    simp only [Prod.mk.injEq] at hm2
    obtain ⟨rfl, rfl⟩ := hm2
    obtain ⟨g1, p, g2, g3, g4⟩ := f7 k' full hm1
    refine ⟨p, full, g2, (hsome _).1 g3, g1, rfl, fun i => ?_⟩
    rw [g4 i]
    unfold InCluster
    have hleafpath : ∀ q : List String, "latent" ∉ q → LeafPath (p ++ [k'] ++ q) := by
      intro q hq k hk
      have hk' := List.mem_of_mem_tail hk
      rintro rfl
      rcases List.mem_append.1 hk' with h | h
      · exact g2 h
      · exact hq h
    -- which leaves were pruned
    have hwhich : ∀ (q : List String) (d : List Bool), "latent" ∉ q →
        look (.grp .or hier) (p ++ [k'] ++ q) = some (.leaf d) →
        ((∃ k ∈ keys, Dict.get? (allRefs hier) k = some (p ++ [k'] ++ q)) ↔
          ∃ k ∈ keys, (p ++ [k'] ++ q).getLast? = some k) := by
      intro q d hq hd
      constructor
      · rintro ⟨k, h1, h2⟩
        obtain ⟨p', e1, -⟩ := (mem_allRefs hN.unique k _).1 (Dict.mem_of_get? h2)
        exact ⟨k, h1, by rw [e1]; simp⟩
      · rintro ⟨k, h1, h2⟩
        refine ⟨k, h1, Dict.get?_of_mem hN.refNames ((mem_allRefs hN.unique k _).2
          ⟨(p ++ [k'] ++ q).dropLast, ?_, hleafpath q hq, d, hd⟩)⟩
        have hne : p ++ [k'] ++ q ≠ [] := by simp
        rw [List.getLast?_eq_getLast_of_ne_nil hne] at h2
        rw [← Option.some.inj h2, List.dropLast_append_getLast]
    constructor
    · rintro ⟨q, d', e1, e2, e3⟩
      obtain ⟨d, c1, -⟩ := (hback.back _).2.2 d' e2
      obtain ⟨d'', b1, b2, b3⟩ := (p2 _).2.2 d c1
      rw [e2] at b1
      cases b1
      by_cases hk : ∃ k ∈ keys, Dict.get? (allRefs hier) k = some (p ++ [k'] ++ q)
      · obtain ⟨n1, n2⟩ := ((b2 hk).2 i).1 e3
        exact ⟨q, d, e1, c1, n1, fun k _ _ => n2⟩
      · have := b3 hk
        subst this
        refine ⟨q, d', e1, c1, e3, fun k hk1 hk2 => ?_⟩
        exact absurd ((hwhich q d' e1 c1).2 ⟨k, hk1, hk2⟩) hk
    · rintro ⟨q, d, e1, e2, e3, e4⟩
      obtain ⟨d', b1, b2, b3⟩ := (p2 _).2.2 d e2
      refine ⟨q, d', e1, b1, ?_⟩
      by_cases hk : ∃ k ∈ keys, Dict.get? (allRefs hier) k = some (p ++ [k'] ++ q)
      · obtain ⟨k, hk1, hk2⟩ := (hwhich q d e1 e2).1 hk
        exact ((b2 hk).2 i).2 ⟨e3, e4 k hk1 hk2⟩
      · rw [b3 hk]; exact e3

/-- **C60** (error case) If one of the coloured leaves holds no outgoing parton, or several, `clusters` raises
`ValueError`. -/
theorem C60_no_parton (hset : ∀ l : List String, l.Nodup → (setIter l).Perm l) (hg : GoodEvent nm g)
    (tol radius : ℝ) (h0 : hierarchy nm g.pdg g.status g.final g.edges none = .ok hier0) (hne : hier0 ≠ [])
    (h1 : partitionDescendants dist g.pmu g.final g.status g.edges hier0 = .ok hier)
    (lo : List (String × List Bool)) (hlo : topLeaves hier lo) (keys : List String)
    (hkeys : colorSinglets setIter lo g.status g.color true = .ok (keys.map (fun k => [k])))
    (hbad : ∃ k ∈ keys, ∃ p d, LeafPath (p ++ [k]) ∧ look (.grp .or hier) (p ++ [k]) = some (.leaf d) ∧
      ¬ ∃ j, TheParton g.status d j) :
    clusters dist setIter nm tol radius g = .error .valueError := by
  have hN := partition_nice hg h0 hne h1
  obtain ⟨keys', hk1, hk2, hk3⟩ := colorKeys_facts setIter hset lo _ _ _ hkeys
  have : keys = keys' := by
    have := congrArg List.flatten hk1
    have hf : ∀ l : List String, (l.map (fun k => [k])).flatten = l := by
      intro l
      induction l with
      | nil => rfl
      | cons k l ih => simp [ih]
    rwa [hf, hf] at this
  subst this
  rw [clusterRest_prefix hg tol radius h0 hN h1 hlo hkeys]
  have hps : g.pmu.length = g.status.length := by rw [hg.pmu, hg.status]
  rw [pruneLoop_error tol radius hps (allRefs hier) (refs_inj hN) keys hk2 (.grp .or hier)]
  · intro k hk
    obtain ⟨p, d, e1, e2, e3, -⟩ := key_refs hN hlo (hk3 k hk)
    exact ⟨p ++ [k], d, e1, e3, by rw [hN.leaf _ d e3, hg.status]⟩
  · obtain ⟨k, hk, p, d, e1, e2, e3⟩ := hbad
    refine ⟨k, hk, p ++ [k], d, ?_, e2, e3⟩
    exact Dict.get?_of_mem hN.refNames ((mem_allRefs hN.unique k _).2 ⟨p, rfl, e1, d, e2⟩)

/-- **C60** If every leaf of the partitioned hierarchy holds exactly one outgoing parton, with colours `cols`,
`clusters` succeeds, and the leaves that are pruned are the coloured ones that form a neutral pair or triple
with no other leaves. -/
theorem C60_one_parton (hset : ∀ l : List String, l.Nodup → (setIter l).Perm l) (hg : GoodEvent nm g)
    (tol radius : ℝ) (h0 : hierarchy nm g.pdg g.status g.final g.edges none = .ok hier0) (hne : hier0 ≠ [])
    (h1 : partitionDescendants dist g.pmu g.final g.status g.edges hier0 = .ok hier)
    (lo : List (String × List Bool)) (hlo : topLeaves hier lo) (cols : List (Int × Int))
    (hone : OneParton lo g.status g.color cols) :
    ∃ out keys, clusters dist setIter nm tol radius g = .ok out ∧
      IsClusters tol radius g (.grp .or hier) keys out ∧
      ∀ k, k ∈ keys ↔ ∃ (j : Nat) (q : Int × Int), (lo.map Prod.fst)[j]? = some k ∧ cols[j]? = some q ∧
        q ≠ (0, 0) ∧ ¬ ∃ c : List Nat, (c.length = 2 ∨ c.length = 3) ∧ c.Pairwise (· < ·) ∧
          (∀ i ∈ c, i < lo.length) ∧ Neutral cols c ∧ j ∈ c := by
  have hN := partition_nice hg h0 hne h1
  obtain ⟨n1, n2, n3⟩ := leaves_nodup hN hlo
  obtain ⟨keys, k1, k2, k3⟩ := C54_invert setIter hset lo g.status g.color cols n1 hone
    (fun kv hkv => by rw [n3 kv hkv, hg.status])
  obtain ⟨out, o1, o2⟩ := C60_clusters (dist := dist) hset hg tol radius h0 hne h1 lo hlo keys k1 (by
    intro k hk p d e1 e2
    have hm : (k, d) ∈ lo := (C10_members .or hier hN.unique lo hlo k d).2 ⟨p, fun h => e1 _ h rfl, e2⟩
    obtain ⟨c, -, i, i1, i2, i3, i4⟩ := forall₂_mem_left hone hm
    exact ⟨i, ⟨i1, i2⟩, i4⟩)
  refine ⟨out, keys, o1, o2, fun k => ?_⟩
  rw [k3 k]
  constructor
  · rintro ⟨j, a1, ⟨q, a2, a3⟩, a4⟩
    exact ⟨j, q, a1, a2, a3, a4⟩
  · rintro ⟨j, q, a1, a2, a3, a4⟩
    exact ⟨j, a1, ⟨q, a2, a3⟩, a4⟩

end

/-! ## Witness

`t -> b W`, `W -> u d~`; `b` gives one hadron along its direction and one opposite to it. -/
section Example

/-- The example event. -/
def exCG : ClusterGraph where
  pdg := [6, 5, 24, 2, -1, 21, 21, 21, 21]
  status := [22, 23, 22, 23, 23, 83, 83, 83, 83]
  final := [false, false, false, false, false, true, true, true, true]
  edges := [(1, 2), (2, 3), (2, 4), (4, 5), (4, 6), (3, 7), (3, 8), (5, 9), (6, 10)]
  pmu := [⟨5, 0, 0, 5⟩, ⟨5, 0, 0, 5⟩, ⟨5, 0, 0, 5⟩, ⟨5, 0, 0, 5⟩, ⟨5, 0, 0, 5⟩, ⟨5, 0, 0, 5⟩, ⟨-5, 0, 0, 5⟩,
    ⟨5, 0, 0, 5⟩, ⟨-5, 0, 0, 5⟩]
  color := [(101, 0), (101, 0), (0, 0), (102, 0), (0, 102), (0, 0), (0, 0), (0, 0), (0, 0)]

def exCH : Dict Mask :=
  [("t", .grp .or
    [("b", .arr [true, true, false, false, false, true, true, false, false]),
     ("W+", .grp .or
       [("u", .arr [false, false, true, true, false, false, false, true, false]),
        ("d~", .arr [false, false, true, false, true, false, false, false, true]),
        ("latent", .arr [false, false, false, false, false, false, false, false, false])]),
     ("latent", .arr [false, false, false, false, false, false, false, false, false])])]

def exCLo : List (String × List Bool) :=
  [("b", [true, true, false, false, false, true, true, false, false]),
   ("u", [false, false, true, true, false, false, false, true, false]),
   ("d~", [false, false, true, false, true, false, false, false, true])]

theorem exCG_good : GoodEvent exNames exCG where
  pdg := rfl
  status := rfl
  final := rfl
  pmu := rfl
  colon := by decide
  latent := by decide
  hadrons := by
    rintro v p ⟨i, e, s, h1, h2, h3, h4, h5⟩ ⟨e', h6, h7⟩
    have hi : i < 9 := by simpa [exCG] using (List.getElem?_eq_some_iff.1 h1).1
    have hp : p < 9 := by simpa [exCG] using (List.getElem?_eq_some_iff.1 h6).1
    have hall : ∀ i ∈ List.range 9, ∀ p ∈ List.range 9,
        (80 ≤ (exCG.status[i]?.getD 0).natAbs) →
        (exCG.edges[p]?.map Prod.snd = exCG.edges[i]?.map Prod.fst) → exCG.final[p]? ≠ some true := by
      decide
    refine hall i (List.mem_range.2 hi) p (List.mem_range.2 hp) (by rw [h2]; exact h4) ?_
    rw [h1, h6]; simp [h3, h7]

theorem exCG_hier : hierarchy exNames exCG.pdg exCG.status exCG.final exCG.edges none = .ok exCH := by rfl

theorem exCG_part : partitionDescendants (fun _ _ => (0 : Nat)) exCG.pmu exCG.final exCG.status exCG.edges
    exCH = .ok exCH := by rfl

theorem exCG_leaves : topLeaves exCH exCLo := topLeaves_model exCH

theorem exCG_one : OneParton exCLo exCG.status exCG.color [(101, 0), (102, 0), (0, 102)] := by
  have key : ∀ (d : List Bool) (j : Nat), d.length = 9 → (∀ i ∈ List.range 9, d[i]? = some true →
      exCG.status[i]? = some 23 → i = j) → ∀ i : Nat, d[i]? = some true → Outgoing exCG.status i → i = j := by
    rintro d j hl hall i h1 ⟨s, h2, h3⟩
    have hi : i < 9 := by rw [← hl]; exact (List.getElem?_eq_some_iff.1 h1).1
    refine hall i (List.mem_range.2 hi) h1 ?_
    have hpos : ∀ s ∈ exCG.status, 0 ≤ s := by decide
    have := hpos s (List.mem_of_getElem? h2)
    rw [abs_of_nonneg this] at h3
    rw [h2, h3]
  refine .cons ⟨1, rfl, ⟨23, rfl, rfl⟩, rfl, key _ _ rfl (by decide)⟩
    (.cons ⟨3, rfl, ⟨23, rfl, rfl⟩, rfl, key _ _ rfl (by decide)⟩
    (.cons ⟨4, rfl, ⟨23, rfl, rfl⟩, rfl, key _ _ rfl (by decide)⟩ .nil))

/-- The bottom quark is coloured and in no singlet. -/
theorem exCG_keys : colorSinglets id exCLo exCG.status exCG.color true = .ok (["b"].map (fun k => [k])) := by
  decide +kernel

/-- All hypotheses of the theorems are met by the example. -/
theorem exCG_clusters (tol radius : ℝ) : ∃ out, clusters (fun _ _ => (0 : Nat)) id exNames tol radius exCG = .ok out ∧
    IsClusters tol radius exCG (.grp .or exCH) ["b"] out :=
  C60_clusters (fun _ _ => List.Perm.refl _) exCG_good tol radius exCG_hier (by simp [exCH]) exCG_part exCLo
    exCG_leaves ["b"] exCG_keys (by
      intro k hk p d e1 e2
      rw [List.mem_singleton] at hk
      subst hk
      have hN := partition_nice exCG_good exCG_hier (by simp [exCH]) exCG_part
      have hm := (C10_members .or exCH hN.unique exCLo exCG_leaves "b" d).2 ⟨p, fun h => e1 _ h rfl, e2⟩
      obtain ⟨c, -, i, i1, i2, i3, i4⟩ := forall₂_mem_left exCG_one hm
      exact ⟨i, ⟨i1, i2⟩, i4⟩)

/-- With radius 1, the hadron along the bottom quark is in its cluster, the opposite one is not. -/
example : InCluster 0 1 exCG.pmu exCG.status (.grp .or exCH) ["b"] ["t", "b"] 5 ∧
    ¬ InCluster 0 1 exCG.pmu exCG.status (.grp .or exCH) ["b"] ["t", "b"] 6 := by
  have hpol : (P4.xyPol ⟨5, 0, 0, 5⟩) = ((5 : ℝ) : ℂ) := by apply Complex.ext <;> rfl
  have hpol' : (P4.xyPol ⟨-5, 0, 0, 5⟩) = ((-5 : ℝ) : ℂ) := by apply Complex.ext <;> simp [P4.xyPol]
  have hphi : P4.phi 0 ⟨5, 0, 0, 5⟩ = .fin 0 := by
    have : P4.pt ⟨5, 0, 0, 5⟩ = 5 := by
      show ‖P4.xyPol ⟨5, 0, 0, 5⟩‖ = 5
      rw [hpol, Complex.norm_real]; norm_num
    rw [P4.phi, this, if_neg (by norm_num), hpol, Complex.arg_ofReal_of_nonneg (by norm_num)]
  have heta : P4.eta ⟨5, 0, 0, 5⟩ = .fin 0 := eta_x_axis _ rfl (by norm_num)
  have hpart : TheParton exCG.status [true, true, false, false, false, true, true, false, false] 1 := by
    obtain ⟨c, -, i, i1, i2, i3, i4⟩ := forall₂_mem_left exCG_one
      (show ("b", [true, true, false, false, false, true, true, false, false]) ∈ exCLo by simp [exCLo])
    have : (1 : Nat) = i := i4 1 rfl ⟨23, rfl, rfl⟩
    subst this
    exact ⟨⟨i1, i2⟩, i4⟩
  constructor
  · refine ⟨[], [true, true, false, false, false, true, true, false, false], by simp, rfl, rfl, ?_⟩
    intro k _ _
    refine ⟨1, _, _, hpart, rfl, rfl, ?_⟩
    rw [heta, hphi]
    refine ⟨0, 0, 0, 0, heta, rfl, by linarith [Real.pi_pos], Real.pi_pos.le, ⟨0, ?_⟩, by norm_num,
      by norm_num⟩
    rw [hpol, Complex.arg_ofReal_of_nonneg (by norm_num)]; simp
  · rintro ⟨q, d, h1, h2, h3, h4⟩
    cases q with
    | cons a q =>
      have : look (.grp .or exCH) (["t", "b"] ++ a :: q) = none := rfl
      rw [this] at h2
      cases h2
    | nil =>
      have : look (.grp .or exCH) (["t", "b"] ++ []) =
        some (.leaf [true, true, false, false, false, true, true, false, false]) := rfl
      rw [this] at h2
      cases h2
      obtain ⟨j, pj, pi, a1, a2, a3, a4⟩ := h4 "b" (by simp) rfl
      have := TheParton.unique a1 hpart
      subst this
      cases a2
      cases a3
      rw [heta, hphi] at a4
      obtain ⟨η, η0, φ0, a, b1, b2, b3, b4, b5, b6, b7⟩ := a4
      obtain ⟨e1, e2⟩ := Prod.mk.inj b2
      injection e1 with e1; injection e2 with e2
      rw [hpol', Complex.arg_ofReal_of_neg (by norm_num), ← e2, zero_add] at b5
      have := angleEq_unique b5 (by linarith [Real.pi_pos]) le_rfl b3 b4
      rw [← this] at b7
      nlinarith [Real.two_le_pi, sq_nonneg (η - η0)]

end Example

/-- **C60** (error case) When the hierarchy is empty, as for an event without hard partons, `clusters` raises
`TypeError`. -/
theorem C60_empty {R : Type} [LT R] [DecidableLT R] (dist : P4 → P4 → R) (setIter : List String → List String)
    (nm : Int → String) (tol radius : ℝ) (g : ClusterGraph)
    (h0 : hierarchy nm g.pdg g.status g.final g.edges none = .ok []) :
    clusters dist setIter nm tol radius g = .error .typeError := by
  unfold clusters
  rw [h0]
  rfl

example : hierarchy (fun _ => "g") [21] [1] [true] [(0, 1)] none = .ok [] := rfl

end Gcl
