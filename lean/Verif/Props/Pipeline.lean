import Verif.Props.Clusters
import Verif.Props.Rotation
import Mathlib.Tactic.IntervalCases
/-! # C125: the momenta of the final particles are shared out once by `hierarchy` and `partition_descendants` -/
namespace Gcl
set_option autoImplicit false
open Spec

/-- The leaf of tree `m` at `path`, not below a nested `latent`, contains particle `i`. -/
def Spec.LeafHas (m : Mask) (path : List String) (i : Nat) : Prop :=
  LeafPath path ∧ ∃ d, look m path = some (.leaf d) ∧ d[i]? = some true

/-- Final particle `i` has a well-defined origin in the tree `hier`.  Either it descends from exactly one hadronisation
vertex, every particle entering that vertex is in exactly one leaf, and leaves that contain `i` contain one of these
particles; or it descends from none and is in exactly one leaf. -/
def Spec.Settled (g : ClusterGraph) (hier : Mask) (i : Nat) : Prop :=
  (∃ v, HadronVertex g.edges g.status v ∧ HadronOf g.edges g.final v i ∧
    (∀ w, HadronVertex g.edges g.status w → HadronOf g.edges g.final w i → w = v) ∧
    (∃ p, Enters g.edges v p) ∧
    (∀ p, Enters g.edges v p → ∃! path, LeafHas hier path p) ∧
    (∀ path, LeafHas hier path i → ∃ p, Enters g.edges v p ∧ LeafHas hier path p)) ∨
  ((¬ ∃ v, HadronVertex g.edges g.status v ∧ HadronOf g.edges g.final v i) ∧ ∃! path, LeafHas hier path i)

section
variable {R : Type} [LinearOrder R] {dist : P4 → P4 → R} {nm : Int → String} {g : ClusterGraph}
  {hier0 hier : Dict Mask}

/-- **C125** After `hierarchy` and `partition_descendants` every final particle with a well-defined origin is in exactly
one leaf of the tree. -/
theorem C125_once (hg : GoodEvent nm g) (h0 : hierarchy nm g.pdg g.status g.final g.edges none = .ok hier0)
    (hne : hier0 ≠ []) (h1 : partitionDescendants dist g.pmu g.final g.status g.edges hier0 = .ok hier)
    (i : Nat) (hs : Settled g (.grp .or hier0) i) : ∃! path, LeafHas (.grp .or hier) path i := by
  have hN := hierarchy_nice hg.pdg hg.status hg.final hg.colon hg.latent h0 hne
  obtain ⟨out, ho, hm⟩ := C51_assign dist g.pmu g.final g.status g.edges hier0 hg.pmu hg.final hg.status hg.hadrons
    hN.aggregable hN.allOr
  rw [h1] at ho
  cases ho
  -- leaves of the result are leaves of the hierarchy
  have back : ∀ path d', look (.grp .or hier) path = some (.leaf d') →
      ∃ d, look (.grp .or hier0) path = some (.leaf d) := by
    intro path d' hd'
    obtain ⟨a1, a2, a3⟩ := hm path
    cases hl : look (.grp .or hier0) path with
    | none => rw [a1 hl] at hd'; cases hd'
    | some n =>
      cases n with
      | leaf d => exact ⟨d, rfl⟩
      | group op ks => rw [a2 op ks hl] at hd'; cases hd'
  rcases hs with ⟨v, hv, hi, hu, ⟨p0, hp0⟩, hcov, hinc⟩ | ⟨hno, path0, hex, huni⟩
  · -- the nearest particle entering the vertex
    obtain ⟨path1, ⟨lp1, d1, l1, t1⟩, -⟩ := hcov p0 hp0
    obtain ⟨d1', l1', r1, -⟩ := (hm path1).2.2 d1 l1
    have hlast : ∀ (w : Int) (d : List Bool), HadronVertex g.edges g.status w → HadronOf g.edges g.final w i →
        Incident g.edges w d → w ≤ v := fun w d a b _ => (hu w a b).le
    obtain ⟨p, hp, -⟩ := ((r1 lp1).2 i).2 v hv hi ⟨p0, t1, hp0⟩ (fun w a b c => hlast w d1 a b c)
    obtain ⟨path, ⟨lp, d, l, t⟩, huni⟩ := hcov p hp.1
    -- the nearest particle is unique
    have nearest_unique : ∀ q, Nearest dist g.pmu g.edges v i q → q = p := by
      rintro q ⟨eq, mi, mq, a1, a2, a3⟩
      obtain ⟨ep, mi', mp, b1, b2, b3⟩ := hp
      rw [a1] at b1; cases b1
      rcases lt_trichotomy q p with hlt | he | hlt
      · have := (b3 q mq eq a2).2 hlt
        exact absurd (a3 p mp ep b2).1 (not_le.2 this)
      · exact he
      · have := (a3 p mp ep b2).2 hlt
        exact absurd (b3 q mq eq a2).1 (not_le.2 this)
    refine ⟨path, ⟨lp, ?_⟩, ?_⟩
    · obtain ⟨d', l', r, -⟩ := (hm path).2.2 d l
      obtain ⟨q, hq, hiff⟩ := ((r lp).2 i).2 v hv hi ⟨p, t, hp.1⟩ (fun w a b c => hlast w d a b c)
      have := nearest_unique q hq
      subst this
      exact ⟨d', l', hiff.2 t⟩
    · rintro path2 ⟨lp2, d2', l2', t2'⟩
      obtain ⟨d2, l2⟩ := back path2 d2' l2'
      obtain ⟨d2'', l2'', r2, -⟩ := (hm path2).2.2 d2 l2
      rw [l2'] at l2''
      cases l2''
      have hin : Incident g.edges v d2 := by
        by_contra hnot
        have := ((r2 lp2).2 i).1 (by
          rintro ⟨w, hw, hwi, hwd⟩
          rw [hu w hw hwi] at hwd
          exact hnot hwd)
        rw [t2'] at this
        obtain ⟨q, eq, -, d3, l3, t3⟩ := hinc path2 ⟨lp2, d2, l2, this.symm⟩
        rw [l2] at l3; cases l3
        exact hnot ⟨q, t3, eq⟩
      obtain ⟨q, hq, hiff⟩ := ((r2 lp2).2 i).2 v hv hi hin (fun w a b c => hlast w d2 a b c)
      have := nearest_unique q hq
      subst this
      exact huni path2 ⟨lp2, d2, l2, hiff.1 t2'⟩
  · obtain ⟨lp, d, l, t⟩ := hex
    refine ⟨path0, ⟨lp, ?_⟩, ?_⟩
    · obtain ⟨d', l', r, -⟩ := (hm path0).2.2 d l
      refine ⟨d', l', ?_⟩
      rw [((r lp).2 i).1 (fun ⟨w, hw, hwi, _⟩ => hno ⟨w, hw, hwi⟩)]
      exact t
    · rintro path2 ⟨lp2, d2', l2', t2'⟩
      obtain ⟨d2, l2⟩ := back path2 d2' l2'
      obtain ⟨d2'', l2'', r2, -⟩ := (hm path2).2.2 d2 l2
      rw [l2'] at l2''
      cases l2''
      refine huni path2 ⟨lp2, d2, l2, ?_⟩
      rw [← ((r2 lp2).2 i).1 (fun ⟨w, hw, hwi, _⟩ => hno ⟨w, hw, hwi⟩)]
      exact t2'

/-- **C125** So the momenta of the leaves, restricted to the final particles, add up to the total momentum of the final
particles: `aggregate_momenta(pmu[final], [m[final] for m in leaf_masks(tree).values()])`. -/
theorem C125_momenta (hg : GoodEvent nm g) (h0 : hierarchy nm g.pdg g.status g.final g.edges none = .ok hier0)
    (hne : hier0 ≠ []) (h1 : partitionDescendants dist g.pmu g.final g.status g.edges hier0 = .ok hier)
    (hs : ∀ i : Nat, g.final[i]? = some true → Settled g (.grp .or hier0) i) :
    ∃ (leaves : List (String × List Bool)) (sums : List P4),
      leafMasks .or hier = .grp .or (leaves.map (fun q => (q.1, Mask.arr q.2))) ∧
      aggregateMomenta (selected g.pmu g.final) (leaves.map (fun q => selected q.2 g.final)) = .ok sums ∧
      sums.length = leaves.length ∧ total sums = total (selected g.pmu g.final) := by
  have hN := partition_nice hg h0 hne h1
  set lo := hier.flatMap (fun p => Mask.leafIter p.1 p.2) with hlo'
  have hlo : topLeaves hier lo := topLeaves_model hier
  obtain ⟨nd, -, hlen⟩ := leaves_nodup hN hlo
  have hT : ∀ j ∈ trueIdxs g.final, j < g.final.length := fun j hj => by
    rw [mem_trueIdxs] at hj
    exact (List.getElem?_eq_some_iff.1 hj).1
  have hsel : ∀ {α : Type} (a : List α), a.length = g.edges.length → ∀ k : Nat,
      (selected a g.final)[k]? = (trueIdxs g.final)[k]?.bind (fun j => a[j]?) := by
    intro α a ha k
    rw [← gather_nil_pos]
    exact gather_getElem? a _ (fun j hj => by rw [ha, ← hg.final]; exact hT j hj) k
  have hsl : ∀ {α : Type} (a : List α), a.length = g.edges.length →
      (selected a g.final).length = (trueIdxs g.final).length := by
    intro α a ha
    rw [← gather_nil_pos]
    exact gather_length a _ (fun j hj => by rw [ha, ← hg.final]; exact hT j hj)
  obtain ⟨sums, e1, e2, e3⟩ := C68_partition (selected g.pmu g.final) (lo.map (fun q => selected q.2 g.final))
    (by
      intro m hm
      obtain ⟨q, hq, rfl⟩ := List.mem_map.1 hm
      rw [hsl _ (hlen q hq), hsl _ hg.pmu])
    (by
      intro i hi
      rw [hsl _ hg.pmu] at hi
      have hj : g.final[(trueIdxs g.final)[i]]? = some true := (mem_trueIdxs _ _).1 (List.getElem_mem hi)
      generalize hjj : (trueIdxs g.final)[i] = j at hj
      have hidx : (trueIdxs g.final)[i]? = some j := by rw [← hjj]; exact List.getElem?_eq_getElem hi
      have key : ∀ q ∈ lo, (selected q.2 g.final)[i]? = q.2[j]? := by
        intro q hq
        rw [hsel _ (hlen q hq), hidx]; rfl
      obtain ⟨path, ⟨lp, d, l, t⟩, huni⟩ := C125_once hg h0 hne h1 j (hs j hj)
      -- a leaf path is not empty
      have hsplit : ∀ path d, look (.grp .or hier) path = some (.leaf d) → ∃ p k, path = p ++ [k] := by
        intro path d hl
        rcases List.eq_nil_or_concat path with rfl | ⟨p, k, rfl⟩
        · cases hl
        · exact ⟨p, k, by simp⟩
      obtain ⟨p, k, rfl⟩ := hsplit path d l
      have hmem : (k, d) ∈ lo := (C10_members .or hier hN.unique lo hlo k d).2
        ⟨p, fun h => lp _ h rfl, l⟩
      obtain ⟨a, ha⟩ := List.getElem?_of_mem hmem
      refine ⟨a, ⟨selected d g.final, by simp [ha], by rw [key (k, d) hmem]; exact t⟩, ?_⟩
      rintro a' ⟨m', hm', ht'⟩
      rw [List.getElem?_map] at hm'
      cases hq : lo[a']? with
      | none => rw [hq] at hm'; cases hm'
      | some q =>
        rw [hq] at hm'
        simp only [Option.map_some, Option.some.injEq] at hm'
        subst hm'
        have hqm : q ∈ lo := List.mem_of_getElem? hq
        rw [key q hqm] at ht'
        obtain ⟨p', lp', l'⟩ := (C10_members .or hier hN.unique lo hlo q.1 q.2).1 hqm
        have := huni (p' ++ [q.1]) ⟨fun x hx hx' => lp' (hx' ▸ hx), q.2, l', ht'⟩
        have hk : q.1 = k := by
          have := congrArg List.getLast? this
          simpa using this
        -- distinct names: same place
        have ea : (lo.map Prod.fst)[a]? = some k := by simp [ha]
        have eb : (lo.map Prod.fst)[a']? = some k := by simp [hq, hk]
        obtain ⟨ha1, ha2⟩ := List.getElem?_eq_some_iff.1 ea
        obtain ⟨hb1, hb2⟩ := List.getElem?_eq_some_iff.1 eb
        exact (nd.getElem_inj_iff (hi := hb1) (hj := ha1)).1 (hb2.trans ha2.symm))
  exact ⟨lo, sums, C10_leaf_masks .or hier lo hlo nd, e1, by simpa using e2, e3⟩
end

/-! ## Witness

`t -> b W`, `W -> u d~`; `b` emits a photon and gives one hadron, `u` and `d~` together give two hadrons, which are in the
masks of both before `partition_descendants`. -/
section Example

/-- The example event. -/
def exPG : ClusterGraph where
  pdg := [6, 5, 24, 2, -1, 22, 5, 21, 21, 21]
  status := [22, 23, 22, 23, 23, 51, 51, 83, 83, 83]
  final := [false, false, false, false, false, true, false, true, true, true]
  edges := [(1, 2), (2, 3), (2, 4), (4, 5), (4, 5), (3, 7), (3, 11), (11, 8), (5, 9), (5, 10)]
  pmu := [⟨5, 0, 0, 5⟩, ⟨5, 0, 0, 5⟩, ⟨5, 0, 0, 5⟩, ⟨5, 0, 0, 5⟩, ⟨5, 0, 0, 5⟩, ⟨5, 0, 0, 5⟩, ⟨-5, 0, 0, 5⟩,
    ⟨5, 0, 0, 5⟩, ⟨-5, 0, 0, 5⟩, ⟨0, 1, 0, 1⟩]
  color := [(101, 0), (101, 0), (0, 0), (102, 0), (0, 102), (0, 0), (101, 0), (0, 0), (0, 0), (0, 0)]

/-- Its `hierarchy`. -/
def exPGH : Dict Mask :=
  [("t", .grp .or
    [("b", .arr [true, true, false, false, false, true, true, true, false, false]),
     ("W+", .grp .or
       [("u", .arr [false, false, true, true, false, false, false, false, true, true]),
        ("d~", .arr [false, false, true, false, true, false, false, false, true, true]),
        ("latent", .arr [false, false, false, false, false, false, false, false, false, false])]),
     ("latent", .arr [false, false, false, false, false, false, false, false, false, false])])]

/-- The result of `partition_descendants`. -/
def exPGO : Dict Mask :=
  [("t", .grp .or
    [("b", .arr [true, true, false, false, false, true, true, true, false, false]),
     ("W+", .grp .or
       [("u", .arr [false, false, true, true, false, false, false, false, true, true]),
        ("d~", .arr [false, false, true, false, true, false, false, false, false, false]),
        ("latent", .arr [false, false, false, false, false, false, false, false, false, false])]),
     ("latent", .arr [false, false, false, false, false, false, false, false, false, false])])]

theorem exPG_hier : hierarchy exNames exPG.pdg exPG.status exPG.final exPG.edges none = .ok exPGH := by rfl

theorem exPG_part : partitionDescendants (fun _ _ => (0 : Nat)) exPG.pmu exPG.final exPG.status exPG.edges
    exPGH = .ok exPGO := by rfl

theorem exPG_vertex (v : Int) : HadronVertex exPG.edges exPG.status v ↔ v = 11 ∨ v = 5 := by
  constructor
  · rintro ⟨i, e, s, h1, h2, h3, h4, h5⟩
    have hi : i < 10 := by simpa [exPG] using (List.getElem?_eq_some_iff.1 h1).1
    have hall : ∀ i ∈ List.range 10, 80 ≤ (exPG.status[i]?.getD 0).natAbs →
        (exPG.edges[i]?.getD (0, 0)).1 = 11 ∨ (exPG.edges[i]?.getD (0, 0)).1 = 5 := by decide
    have := hall i (List.mem_range.2 hi) (by rw [h2]; exact h4)
    rw [h1] at this
    rw [← h3]; exact this
  · rintro (rfl | rfl)
    · exact ⟨7, (11, 8), 83, rfl, rfl, rfl, by decide, by decide⟩
    · exact ⟨8, (5, 9), 83, rfl, rfl, rfl, by decide, by decide⟩

theorem exPG_good : GoodEvent exNames exPG where
  pdg := rfl
  status := rfl
  final := rfl
  pmu := rfl
  colon := by decide
  latent := by decide
  hadrons := by
    rintro v p hv ⟨e', h6, h7⟩
    have hp : p < 10 := by simpa [exPG] using (List.getElem?_eq_some_iff.1 h6).1
    have hall : ∀ p ∈ List.range 10, ((exPG.edges[p]?.getD (0, 0)).2 = 11 ∨ (exPG.edges[p]?.getD (0, 0)).2 = 5) →
        exPG.final[p]? ≠ some true := by decide
    refine hall p (List.mem_range.2 hp) ?_
    rw [h6]
    have := (exPG_vertex v).1 hv
    rw [← h7] at this
    exact this

theorem exPG_nice : NiceTree 10 (.grp .or exPGH) :=
  hierarchy_nice exPG_good.pdg exPG_good.status exPG_good.final exPG_good.colon exPG_good.latent exPG_hier
    (by simp [exPGH])

/-- Hadrons of the two hadronisation vertices. -/
theorem exPG_hadron (i : Nat) : (HadronOf exPG.edges exPG.final 11 i ↔ i = 7) ∧
    (HadronOf exPG.edges exPG.final 5 i ↔ i = 8 ∨ i = 9) := by
  have key : ∀ (v : Int) (m : List Bool), vertexDescendants exPG.edges v = .ok m → (∃ w, (v, w) ∈ exPG.edges) →
      (HadronOf exPG.edges exPG.final v i ↔ exPG.final[i]? = some true ∧ m[i]? = some true) := by
    intro v m hm hw
    obtain ⟨m', h1, h2, h3⟩ := C39_descendants exPG.edges v
    rw [hm] at h1; cases h1
    constructor
    · rintro ⟨a, e, he, hd⟩
      refine ⟨a, ((h3 i e he).1 hw).2 ?_⟩
      rcases hd with hd | hd
      · exact hd.2
      · exact absurd hw hd.1
    · rintro ⟨a, b⟩
      obtain ⟨hl, -⟩ := List.getElem?_eq_some_iff.1 b
      have he : exPG.edges[i]? = some (exPG.edges[i]'(by omega)) := List.getElem?_eq_getElem _
      exact ⟨a, _, he, Or.inl ⟨hw, ((h3 i _ he).1 hw).1 b⟩⟩
  constructor
  · rw [key 11 [false, false, false, false, false, false, false, true, false, false] rfl ⟨8, by decide⟩]
    constructor
    · rintro ⟨h1, h2⟩
      have hi : i < 10 := by simpa using (List.getElem?_eq_some_iff.1 h2).1
      interval_cases i <;> simp_all
    · rintro rfl; exact ⟨rfl, rfl⟩
  · rw [key 5 [false, false, false, false, false, false, false, false, true, true] rfl ⟨9, by decide⟩]
    constructor
    · rintro ⟨h1, h2⟩
      have hi : i < 10 := by simpa using (List.getElem?_eq_some_iff.1 h2).1
      interval_cases i <;> simp_all
    · rintro (rfl | rfl) <;> exact ⟨rfl, rfl⟩

/-- The leaves of the tree. -/
theorem exPG_leaf (path : List String) (i : Nat) : LeafHas (.grp .or exPGH) path i ↔
    (path = ["t", "b"] ∧ i ∈ [0, 1, 5, 6, 7]) ∨ (path = ["t", "W+", "u"] ∧ i ∈ [2, 3, 8, 9]) ∨
    (path = ["t", "W+", "d~"] ∧ i ∈ [2, 4, 8, 9]) := by
  have hmask : ∀ (d : List Bool) (l : List Nat), d.length = 10 → (∀ j ∈ List.range 10, d[j]? = some true ↔ j ∈ l) →
      (∀ j ∈ l, j < 10) → (d[i]? = some true ↔ i ∈ l) := by
    intro d l hd h1 h2
    by_cases hi : i < 10
    · exact h1 i (List.mem_range.2 hi)
    · constructor
      · intro h
        exact absurd (hd ▸ (List.getElem?_eq_some_iff.1 h).1) hi
      · intro h; exact absurd (h2 i h) hi
  have eb := hmask [true, true, false, false, false, true, true, true, false, false] [0, 1, 5, 6, 7] rfl (by decide)
    (by decide)
  have eu := hmask [false, false, true, true, false, false, false, false, true, true] [2, 3, 8, 9] rfl (by decide)
    (by decide)
  have ed := hmask [false, false, true, false, true, false, false, false, true, true] [2, 4, 8, 9] rfl (by decide)
    (by decide)
  constructor
  · rintro ⟨lp, d, l, t⟩
    rcases List.eq_nil_or_concat path with rfl | ⟨p, k, rfl⟩
    · cases l
    · rw [List.concat_eq_append] at l lp ⊢
      have hm := (C10_members .or exPGH exPG_nice.unique _ (topLeaves_model exPGH) k d).2 ⟨p, fun h => lp _ h rfl, l⟩
      have hlist : exPGH.flatMap (fun p => Mask.leafIter p.1 p.2) =
        [("b", [true, true, false, false, false, true, true, true, false, false]),
         ("u", [false, false, true, true, false, false, false, false, true, true]),
         ("d~", [false, false, true, false, true, false, false, false, true, true])] := rfl
      rw [hlist] at hm
      have hs : (look (.grp .or exPGH) (p ++ [k])).isSome := by rw [l]; rfl
      simp only [List.mem_cons, Prod.mk.injEq, List.not_mem_nil, or_false] at hm
      rcases hm with ⟨rfl, rfl⟩ | ⟨rfl, rfl⟩ | ⟨rfl, rfl⟩
      · have := exPG_nice.names p ["t"] "b" (by decide) hs rfl
        subst this
        exact Or.inl ⟨rfl, eb.1 t⟩
      · have := exPG_nice.names p ["t", "W+"] "u" (by decide) hs rfl
        subst this
        exact Or.inr (Or.inl ⟨rfl, eu.1 t⟩)
      · have := exPG_nice.names p ["t", "W+"] "d~" (by decide) hs rfl
        subst this
        exact Or.inr (Or.inr ⟨rfl, ed.1 t⟩)
  · rintro (⟨rfl, h⟩ | ⟨rfl, h⟩ | ⟨rfl, h⟩)
    · exact ⟨by simp [LeafPath], _, rfl, eb.2 h⟩
    · exact ⟨by simp [LeafPath], _, rfl, eu.2 h⟩
    · exact ⟨by simp [LeafPath], _, rfl, ed.2 h⟩

theorem exPG_enters (v : Int) (p : Nat) : (Enters exPG.edges 11 p ↔ p = 6) ∧
    (Enters exPG.edges 5 p ↔ p = 3 ∨ p = 4) := by
  constructor
  · constructor
    · rintro ⟨e, h1, h2⟩
      have hi : p < 10 := by simpa [exPG] using (List.getElem?_eq_some_iff.1 h1).1
      interval_cases p <;> simp_all [exPG] <;> (subst h1; simp at h2)
    · rintro rfl; exact ⟨_, rfl, rfl⟩
  · constructor
    · rintro ⟨e, h1, h2⟩
      have hi : p < 10 := by simpa [exPG] using (List.getElem?_eq_some_iff.1 h1).1
      interval_cases p <;> simp_all [exPG] <;> (subst h1; simp at h2)
    · rintro (rfl | rfl) <;> exact ⟨_, rfl, rfl⟩

/-- Every final particle of the example has a well-defined origin. -/
theorem exPG_settled (i : Nat) (hi : exPG.final[i]? = some true) : Settled exPG (.grp .or exPGH) i := by
  have hl : i < 10 := by simpa [exPG] using (List.getElem?_eq_some_iff.1 hi).1
  have h4 : i = 5 ∨ i = 7 ∨ i = 8 ∨ i = 9 := by interval_cases i <;> simp_all [exPG]
  have one : ∀ (p : Nat) (path : List String), LeafHas (.grp .or exPGH) path p →
      (∀ q, LeafHas (.grp .or exPGH) q p → q = path) → ∃! q, LeafHas (.grp .or exPGH) q p :=
    fun p path h1 h2 => ⟨path, h1, h2⟩
  rcases h4 with rfl | rfl | h
  · refine Or.inr ⟨?_, one 5 ["t", "b"] ((exPG_leaf _ _).2 (by simp)) (fun q hq => ?_)⟩
    · rintro ⟨v, hv, hh⟩
      rcases (exPG_vertex v).1 hv with rfl | rfl
      · simpa using (exPG_hadron 5).1.1 hh
      · simpa using (exPG_hadron 5).2.1 hh
    · have := (exPG_leaf q 5).1 hq
      simp at this; exact this
  · refine Or.inl ⟨11, (exPG_vertex _).2 (Or.inl rfl), (exPG_hadron 7).1.2 rfl, ?_, ⟨6, (exPG_enters 0 _).1.2 rfl⟩, ?_, ?_⟩
    · intro w hw hh
      rcases (exPG_vertex w).1 hw with rfl | rfl
      · rfl
      · simpa using (exPG_hadron 7).2.1 hh
    · intro p hp
      have := (exPG_enters 0 p).1.1 hp
      subst this
      refine one 6 ["t", "b"] ((exPG_leaf _ _).2 (by simp)) (fun q hq => ?_)
      have := (exPG_leaf q 6).1 hq
      simp at this; exact this
    · intro q hq
      have := (exPG_leaf q 7).1 hq
      simp at this; subst this
      exact ⟨6, (exPG_enters 0 _).1.2 rfl, (exPG_leaf _ _).2 (by simp)⟩
  · refine Or.inl ⟨5, (exPG_vertex _).2 (Or.inr rfl), (exPG_hadron i).2.2 h, ?_, ⟨3, (exPG_enters 0 _).2.2 (Or.inl rfl)⟩,
      ?_, ?_⟩
    · intro w hw hh
      rcases (exPG_vertex w).1 hw with rfl | rfl
      · have := (exPG_hadron i).1.1 hh
        omega
      · rfl
    · intro p hp
      rcases (exPG_enters 0 p).2.1 hp with rfl | rfl
      · refine one 3 ["t", "W+", "u"] ((exPG_leaf _ _).2 (by simp)) (fun q hq => ?_)
        have := (exPG_leaf q 3).1 hq
        simp at this; exact this
      · refine one 4 ["t", "W+", "d~"] ((exPG_leaf _ _).2 (by simp)) (fun q hq => ?_)
        have := (exPG_leaf q 4).1 hq
        simp at this; exact this
    · intro q hq
      have := (exPG_leaf q i).1 hq
      have hb : i ∉ [0, 1, 5, 6, 7] := by rcases h with rfl | rfl <;> decide
      rcases this with ⟨-, h'⟩ | ⟨rfl, -⟩ | ⟨rfl, -⟩
      · exact absurd h' hb
      · exact ⟨3, (exPG_enters 0 _).2.2 (Or.inl rfl), (exPG_leaf _ _).2 (by simp)⟩
      · exact ⟨4, (exPG_enters 0 _).2.2 (Or.inr rfl), (exPG_leaf _ _).2 (by simp)⟩

-- the hypotheses of both theorems are met
example : ∃ (leaves : List (String × List Bool)) (sums : List P4), leafMasks .or exPGO = .grp .or (leaves.map (fun q => (q.1, Mask.arr q.2))) ∧
    aggregateMomenta (selected exPG.pmu exPG.final) (leaves.map (fun q => selected q.2 exPG.final)) = .ok sums ∧
    sums.length = leaves.length ∧ total sums = total (selected exPG.pmu exPG.final) :=
  C125_momenta exPG_good exPG_hier (by simp [exPGH]) exPG_part exPG_settled

/-- **C125** Without `partition_descendants` this is false: the leaves of `hierarchy` count the hadrons of a colour
singlet once for each of its partons. -/
theorem C125_false : ∃ (nm : Int → String) (g : ClusterGraph) (hier : Dict Mask)
    (leaves : List (String × List Bool)) (sums : List P4), GoodEvent nm g ∧
    hierarchy nm g.pdg g.status g.final g.edges none = .ok hier ∧
    (∀ i : Nat, g.final[i]? = some true → Settled g (.grp .or hier) i) ∧
    leafMasks .or hier = .grp .or (leaves.map (fun q => (q.1, Mask.arr q.2))) ∧
    aggregateMomenta (selected g.pmu g.final) (leaves.map (fun q => selected q.2 g.final)) = .ok sums ∧
    total sums ≠ total (selected g.pmu g.final) := by
  refine ⟨exNames, exPG, exPGH, exPGH.flatMap (fun p => Mask.leafIter p.1 p.2), _, exPG_good, exPG_hier, exPG_settled,
    rfl, rfl, ?_⟩
  intro h
  have := congrArg P4.e h
  simp [total, exPG, selected, trueIdxs, gather] at this
  norm_num at this
end Example
end Gcl
