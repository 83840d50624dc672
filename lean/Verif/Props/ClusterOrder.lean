import Verif.Props.ClusterSym
import Verif.Props.OrderFree
import Verif.Props.Reorder
/-! # C133: clusters under reordered records and renamed vertices -/
namespace Gcl
set_option autoImplicit false
open Spec

/-- Two trees with the same nodes at the same paths are the same. -/
theorem look_ext (a : Mask) : ∀ (b : Mask), UniqueKeys a → UniqueKeys b → (∀ p, look a p = look b p) → a = b := by
  induction a using Mask.ind with
  | ha d =>
    intro b _ _ h
    have := h []
    cases b with
    | arr d' => simpa [look_nil, node] using this
    | grp op ks => simp [look_nil, node] at this
  | hg op ks ih =>
    intro b ha hb h
    have h0 := h []
    cases b with
    | arr d' => simp [look_nil, node] at h0
    | grp op' ks' =>
      simp only [look_nil, node, Option.some.injEq, Node.group.injEq] at h0
      obtain ⟨rfl, hk⟩ := h0
      have hlen : ks.length = ks'.length := by simpa using congrArg List.length hk
      congr 1
      apply List.ext_getElem hlen
      intro i h1 h2
      have hf : (ks[i]).1 = (ks'[i]).1 := by
        have := congrArg (fun l => l[i]?) hk
        simpa [h1, h2] using this
      have hm1 : ((ks[i]).1, (ks[i]).2) ∈ ks := List.getElem_mem h1
      have hm2 : ((ks[i]).1, (ks'[i]).2) ∈ ks' := by rw [hf]; exact List.getElem_mem h2
      refine Prod.ext hf (ih _ _ hm1 _ (ha.kid hm1) (hb.kid hm2) (fun p => ?_))
      have := h ((ks[i]).1 :: p)
      rw [look_cons, look_cons, child_grp, child_grp, Dict.get?_of_mem ha.keys hm1, Dict.get?_of_mem hb.keys hm2] at this
      exact this

theorem goodKids_unique {ks : Dict Mask} (op : Agg) (h : GoodKids ks) : UniqueKeys (.grp op ks) := uniqueKeys_grp h.1 h.2

/-- **C133** `clusters` does not depend on the ids of the vertices, if renaming keeps different ones different and the
hadronisation vertices in order. -/
theorem C133_clusters_ids {R : Type} [LinearOrder R] (dist : P4 → P4 → R) (setIter : List String → List String)
    (nm : Int → String) (tol radius : ℝ) (g : ClusterGraph) (hg : GoodEvent nm g) (f : Int → Int)
    (hinj : Set.InjOn f {w | IsVertex g.edges w}) (hmono : MonotoneOn f {v | HadronVertex g.edges g.status v}) :
    clusters dist setIter nm tol radius { g with edges := rename f g.edges } = clusters dist setIter nm tol radius g := by
  have hh := C105_hierarchy f nm g.pdg g.status g.final g.edges hinj none
  unfold clusters
  simp only [hh]
  cases h0 : hierarchy nm g.pdg g.status g.final g.edges none with
  | error e => rfl
  | ok hier0 =>
    simp only
    by_cases hne : hier0 = []
    · subst hne; rfl
    · obtain ⟨-, out, out', e1, e2, e3⟩ := C112_pipeline_ids dist nm g hg f hinj hmono hier0 h0 hne
      simp only [e1, e2]
      have hg0 := hierarchy_good _ _ _ _ _ _ h0
      have := look_ext _ _ (goodKids_unique .or (partition_good _ _ _ _ _ _ _ hg0 e2))
        (goodKids_unique .or (partition_good _ _ _ _ _ _ _ hg0 e1)) e3
      cases this
      rfl

/-! ## Reordering the records -/

/-- All leaves have the same length. -/
inductive LeavesLen (n : Nat) : Mask → Prop
  | leaf {d} : d.length = n → LeavesLen n (.arr d)
  | group {op ks} : (∀ k m, (k, m) ∈ ks → LeavesLen n m) → LeavesLen n (.grp op ks)

theorem LeavesLen.kid {n : Nat} {op : Agg} {ks : List (String × Mask)} (h : LeavesLen n (.grp op ks)) {k : String} {m : Mask}
    (hm : (k, m) ∈ ks) : LeavesLen n m := by cases h with | group h => exact h k m hm

theorem leavesLen_of {n : Nat} (m : Mask) (h : Aggregable n m) : LeavesLen n m := by
  induction h with
  | leaf h => exact .leaf h
  | group _ _ _ ih => exact .group ih

section
variable (G : List Bool → List Bool)

theorem mapLeaves_grp (op : Agg) (ks : List (String × Mask)) :
    mapLeaves G (.grp op ks) = .grp op (ks.map (fun p => (p.1, mapLeaves G p.2))) := by
  rw [mapLeaves, mapLeaves_kids]

mutual
theorem leafIter_mapLeaves (name : String) : ∀ m : Mask,
    (mapLeaves G m).leafIter name = (m.leafIter name).map (fun q => (q.1, G q.2))
  | .arr d => rfl
  | .grp op ks => by
    rw [mapLeaves_grp, Mask.leafIter, Mask.leafIter]
    exact leafIterKids_mapLeaves ks
theorem leafIterKids_mapLeaves : ∀ ks : List (String × Mask),
    Mask.leafIterKids (ks.map (fun p => (p.1, mapLeaves G p.2))) = (Mask.leafIterKids ks).map (fun q => (q.1, G q.2))
  | [] => rfl
  | (k, m) :: rest => by
    rw [List.map_cons, Mask.leafIterKids, Mask.leafIterKids, leafIterKids_mapLeaves rest, leafIter_mapLeaves k m]
    split
    · rfl
    · rw [List.map_append]
end

mutual
theorem leafRefs_mapLeaves (path : List String) (name : String) : ∀ m : Mask,
    (mapLeaves G m).leafRefs path name = m.leafRefs path name
  | .arr d => rfl
  | .grp op ks => by
    rw [mapLeaves_grp, Mask.leafRefs, Mask.leafRefs]
    exact leafRefsKids_mapLeaves path ks
theorem leafRefsKids_mapLeaves (path : List String) : ∀ ks : List (String × Mask),
    Mask.leafRefsKids path (ks.map (fun p => (p.1, mapLeaves G p.2))) = Mask.leafRefsKids path ks
  | [] => rfl
  | (k, m) :: rest => by
    rw [List.map_cons, Mask.leafRefsKids, Mask.leafRefsKids, leafRefsKids_mapLeaves path rest, leafRefs_mapLeaves]
end

theorem leafRefDict_mapLeaves (ks : Dict Mask) :
    leafRefDict (ks.map (fun p => (p.1, mapLeaves G p.2))) = leafRefDict ks := by
  unfold leafRefDict
  rw [List.foldl_map]
  simp only [leafRefs_mapLeaves]

mutual
theorem drop_mapLeaves (key : String) : ∀ m : Mask, (mapLeaves G m).drop key = mapLeaves G (m.drop key)
  | .arr d => rfl
  | .grp op ks => by
    rw [mapLeaves_grp, Mask.drop, Mask.drop, mapLeaves_grp, dropKids_mapLeaves]
theorem dropKids_mapLeaves (key : String) : ∀ ks : List (String × Mask),
    Mask.dropKids key (ks.map (fun p => (p.1, mapLeaves G p.2))) =
      (Mask.dropKids key ks).map (fun p => (p.1, mapLeaves G p.2))
  | [] => rfl
  | (k, m) :: rest => by
    rw [List.map_cons, Mask.dropKids, Mask.dropKids, dropKids_mapLeaves key rest, drop_mapLeaves key m]
    split <;> rfl
end

mutual
theorem drop_leavesLen {n : Nat} (key : String) : ∀ m : Mask, LeavesLen n m → LeavesLen n (m.drop key)
  | .arr d, h => h
  | .grp op ks, h => by
    rw [Mask.drop]
    exact .group (dropKids_leavesLen key ks (fun k m hm => h.kid hm))
theorem dropKids_leavesLen {n : Nat} (key : String) : ∀ ks : List (String × Mask), (∀ k m, (k, m) ∈ ks → LeavesLen n m) →
    ∀ k m, (k, m) ∈ Mask.dropKids key ks → LeavesLen n m
  | [], _, k, m, hm => by cases hm
  | (k', m') :: rest, h, k, m, hm => by
    rw [Mask.dropKids] at hm
    split at hm
    · exact dropKids_leavesLen key rest (fun a b hab => h a b (List.mem_cons_of_mem _ hab)) k m hm
    · rcases List.mem_cons.1 hm with e | hm
      · cases e
        exact drop_leavesLen key m' (h k' m' List.mem_cons_self)
      · exact dropKids_leavesLen key rest (fun a b hab => h a b (List.mem_cons_of_mem _ hab)) k m hm
end

theorem get?_mapLeaves (ks : List (String × Mask)) (k : String) :
    Dict.get? (ks.map (fun p => (p.1, mapLeaves G p.2))) k = (Dict.get? ks k).map (mapLeaves G) := by
  rw [Dict.get?_eq_find, Dict.get?_eq_find, List.find?_map]
  simp [Function.comp_def]

theorem leafAt_mapLeaves : ∀ (p : List String) (m : Mask), (mapLeaves G m).leafAt p = (m.leafAt p).map G
  | [], .arr d => rfl
  | [], .grp op ks => rfl
  | k :: p, .arr d => rfl
  | k :: p, .grp op ks => by
    rw [mapLeaves_grp, Mask.leafAt, Mask.leafAt, get?_mapLeaves]
    cases Dict.get? ks k with
    | none => rfl
    | some m => exact leafAt_mapLeaves p m

theorem setLeaf_mapLeaves (d : List Bool) : ∀ (p : List String) (m : Mask),
    (mapLeaves G m).setLeaf (G d) p = mapLeaves G (m.setLeaf d p)
  | [], .arr _ => rfl
  | [], .grp op ks => by rw [mapLeaves_grp, Mask.setLeaf, Mask.setLeaf, mapLeaves_grp]
  | k :: p, .arr _ => rfl
  | k :: p, .grp op ks => by
    rw [mapLeaves_grp, Mask.setLeaf, Mask.setLeaf, mapLeaves_grp, List.map_map, List.map_map]
    congr 1
    apply List.map_congr_left
    intro q _
    simp only [Function.comp]
    split
    · rw [setLeaf_mapLeaves d p q.2]
    · rfl

theorem setLeaf_leavesLen {n : Nat} {d : List Bool} (hd : d.length = n) : ∀ (p : List String) (m : Mask), LeavesLen n m →
    LeavesLen n (m.setLeaf d p)
  | [], .arr _, _ => .leaf hd
  | [], .grp op ks, h => h
  | k :: p, .arr _, h => h
  | k :: p, .grp op ks, h => by
    rw [Mask.setLeaf]
    refine .group (fun k' m' hm => ?_)
    obtain ⟨q, hq, e⟩ := List.mem_map.1 hm
    split at e
    · cases e
      exact setLeaf_leavesLen hd p q.2 (h.kid (k := q.1) hq)
    · subst e; exact h.kid hq

theorem leafAt_leavesLen {n : Nat} {d : List Bool} : ∀ (p : List String) (m : Mask), LeavesLen n m → m.leafAt p = some d →
    d.length = n
  | [], .arr d', h, e => by cases e; cases h with | leaf h => exact h
  | [], .grp op ks, _, e => by cases e
  | k :: p, .arr _, _, e => by cases e
  | k :: p, .grp op ks, h, e => by
    rw [Mask.leafAt] at e
    cases hk : Dict.get? ks k with
    | none => rw [hk] at e; cases e
    | some m =>
      rw [hk] at e
      exact leafAt_leavesLen p m (h.kid (Dict.mem_of_get? hk)) e

/-- `G` keeps one length and commutes with `and` and `or`. -/
structure Keeps (n : Nat) : Prop where
  len : ∀ d : List Bool, d.length = n → (G d).length = n
  zip : ∀ (f : Bool → Bool → Bool) (a b : List Bool), a.length = n → b.length = n →
    G (List.zipWith f a b) = List.zipWith f (G a) (G b)

variable {G} {n : Nat} (hG : Keeps G n)
include hG

theorem foldl_keeps (f : Bool → Bool → Bool) : ∀ (rs : List (List Bool)) (r : List Bool), r.length = n →
    (∀ x ∈ rs, x.length = n) → (rs.map G).foldl (List.zipWith f) (G r) = G (rs.foldl (List.zipWith f) r) ∧
      (rs.foldl (List.zipWith f) r).length = n
  | [], r, hr, _ => ⟨rfl, hr⟩
  | x :: rs, r, hr, h => by
    have hx := h x List.mem_cons_self
    have := foldl_keeps f rs (List.zipWith f r x) (by simp [hr, hx]) (fun y hy => h y (List.mem_cons_of_mem _ hy))
    simp only [List.map_cons, List.foldl_cons, ← hG.zip f r x hr hx]
    exact this

theorem reduceRows_keeps (f : Bool → Bool → Bool) (rows : List (List Bool)) (h : ∀ x ∈ rows, x.length = n) :
    reduceRows f (rows.map G) = (reduceRows f rows).map G ∧ ∀ d, reduceRows f rows = .ok d → d.length = n := by
  cases rows with
  | nil => exact ⟨rfl, fun d h => by cases h⟩
  | cons r rs =>
    have hr := h r List.mem_cons_self
    have hrs : ∀ x ∈ rs, x.length = n := fun x hx => h x (List.mem_cons_of_mem _ hx)
    obtain ⟨e1, e2⟩ := foldl_keeps hG f rs r hr hrs
    have c1 : rs.all (fun x => x.length == r.length) = true := by
      rw [List.all_eq_true]; intro x hx; simp [hrs x hx, hr]
    have c2 : (rs.map G).all (fun x => x.length == (G r).length) = true := by
      rw [List.all_map, List.all_eq_true]; intro x hx; simp [hG.len x (hrs x hx), hG.len r hr]
    simp only [List.map_cons, reduceRows, c1, c2, if_true, e1, Except.map]
    exact ⟨trivial, fun d h => by cases h; exact e2⟩

mutual
theorem data_mapLeaves : ∀ m : Mask, LeavesLen n m →
    (mapLeaves G m).data = m.data.map G ∧ ∀ d, m.data = .ok d → d.length = n
  | .arr d, h => ⟨rfl, fun d' h' => by cases h'; cases h with | leaf h => exact h⟩
  | .grp .none ks, h => by
    rw [mapLeaves_grp, Mask.data, Mask.data]
    exact ⟨rfl, fun d h => by cases h⟩
  | .grp .and ks, h => by
    obtain ⟨e1, e2⟩ := dataKids_mapLeaves ks (fun k m hm => h.kid hm)
    rw [mapLeaves_grp, Mask.data, Mask.data, e1]
    cases hk : Mask.dataKids ks with
    | error e => exact ⟨rfl, fun d h => by cases h⟩
    | ok rows => exact reduceRows_keeps hG _ rows (e2 rows hk)
  | .grp .or ks, h => by
    obtain ⟨e1, e2⟩ := dataKids_mapLeaves ks (fun k m hm => h.kid hm)
    rw [mapLeaves_grp, Mask.data, Mask.data, e1]
    cases hk : Mask.dataKids ks with
    | error e => exact ⟨rfl, fun d h => by cases h⟩
    | ok rows => exact reduceRows_keeps hG _ rows (e2 rows hk)
theorem dataKids_mapLeaves : ∀ ks : List (String × Mask), (∀ k m, (k, m) ∈ ks → LeavesLen n m) →
    Mask.dataKids (ks.map (fun p => (p.1, mapLeaves G p.2))) = (Mask.dataKids ks).map (List.map G) ∧
      ∀ rows, Mask.dataKids ks = .ok rows → ∀ x ∈ rows, x.length = n
  | [], _ => ⟨rfl, fun rows h x hx => by cases h; cases hx⟩
  | (k, m) :: rest, h => by
    obtain ⟨a1, a2⟩ := data_mapLeaves m (h k m List.mem_cons_self)
    obtain ⟨b1, b2⟩ := dataKids_mapLeaves rest (fun a b hab => h a b (List.mem_cons_of_mem _ hab))
    rw [List.map_cons, Mask.dataKids, Mask.dataKids, a1, b1]
    cases hd : m.data with
    | error e => exact ⟨rfl, fun rows h => by cases h⟩
    | ok d =>
      cases hk : Mask.dataKids rest with
      | error e => exact ⟨rfl, fun rows h => by cases h⟩
      | ok ds =>
        refine ⟨rfl, fun rows h x hx => ?_⟩
        cases h
        rcases List.mem_cons.1 hx with rfl | hx
        · exact a2 _ hd
        · exact b2 _ hk x hx
end

mutual
theorem visitItem_mapLeaves (key : String) : ∀ m : Mask, LeavesLen n m →
    (mapLeaves G m).visitItem key = (m.visitItem key).map (List.map (fun q => (q.1, G q.2))) ∧
      ∀ ps, m.visitItem key = .ok ps → ∀ q ∈ ps, q.2.length = n
  | .arr d, h => ⟨rfl, fun ps e q hq => by
      cases e; cases List.mem_singleton.1 hq; cases h with | leaf h => exact h⟩
  | .grp op ks, h => by
    obtain ⟨a1, a2⟩ := data_mapLeaves hG (.grp op ks) h
    obtain ⟨b1, b2⟩ := visitKids_mapLeaves ks (fun k m hm => h.kid hm)
    rw [mapLeaves_grp] at a1
    rw [mapLeaves_grp, Mask.visitItem, Mask.visitItem, a1, b1]
    cases hd : (Mask.grp op ks).data with
    | error e => exact ⟨rfl, fun rows h => by cases h⟩
    | ok d =>
      cases hk : Mask.visitKids ks with
      | error e => exact ⟨rfl, fun rows h => by cases h⟩
      | ok ps =>
        refine ⟨rfl, fun rows h x hx => ?_⟩
        cases h
        rcases List.mem_cons.1 hx with rfl | hx
        · exact a2 _ hd
        · exact b2 _ hk x hx
theorem visitKids_mapLeaves : ∀ ks : List (String × Mask), (∀ k m, (k, m) ∈ ks → LeavesLen n m) →
    Mask.visitKids (ks.map (fun p => (p.1, mapLeaves G p.2))) = (Mask.visitKids ks).map (List.map (fun q => (q.1, G q.2))) ∧
      ∀ ps, Mask.visitKids ks = .ok ps → ∀ q ∈ ps, q.2.length = n
  | [], _ => ⟨rfl, fun rows h x hx => by cases h; cases hx⟩
  | (k, m) :: rest, h => by
    obtain ⟨a1, a2⟩ := visitItem_mapLeaves k m (h k m List.mem_cons_self)
    obtain ⟨b1, b2⟩ := visitKids_mapLeaves rest (fun a b hab => h a b (List.mem_cons_of_mem _ hab))
    rw [List.map_cons, Mask.visitKids, Mask.visitKids, a1, b1]
    split
    · exact ⟨rfl, b2⟩
    · cases hd : m.visitItem k with
      | error e => exact ⟨rfl, fun rows h => by cases h⟩
      | ok ps =>
        cases hk : Mask.visitKids rest with
        | error e => exact ⟨rfl, fun rows h => by cases h⟩
        | ok qs =>
          refine ⟨by simp [Except.map], fun rows h x hx => ?_⟩
          cases h
          rcases List.mem_append.1 hx with hx | hx
          · exact a2 _ hd x hx
          · exact b2 _ hk x hx
end

end

/-! ## Reordering by a permutation -/

/-- The event with its records in another order. -/
def Spec.reordered (g : ClusterGraph) (idxs : List Nat) : ClusterGraph where
  pdg := gather g.pdg idxs
  status := gather g.status idxs
  final := gather g.final idxs
  edges := gather g.edges idxs
  pmu := gather g.pmu idxs
  color := gather g.color idxs

theorem mem_of_ofPairs {α : Type} {ps : List (String × α)} {p : String × α} (h : p ∈ Dict.ofPairs ps) : p ∈ ps := by
  have : ∀ (d : Dict α), p ∈ ps.foldl (fun d q => Dict.set d q.1 q.2) d → p ∈ d ∨ p ∈ ps := by
    clear h
    induction ps with
    | nil => exact fun d h => Or.inl h
    | cons q ps ih =>
      intro d h
      rcases ih _ h with h | h
      · rcases mem_set_pair d q.1 q.2 p h with h | h
        · exact Or.inl h
        · exact Or.inr (h ▸ List.mem_cons_self)
      · exact Or.inr (List.mem_cons_of_mem _ h)
  rcases this [] h with h | h
  · cases h
  · exact h

theorem gather_range_lt {n : Nat} {l : List Nat} (h : ∀ j ∈ l, j < n) : gather (List.range n) l = l := by
  unfold gather
  induction l with
  | nil => rfl
  | cons x l ih =>
    rw [List.filterMap_cons, List.getElem?_range (h x List.mem_cons_self), ih (fun j hj => h j (List.mem_cons_of_mem _ hj))]

section
variable {n : Nat} {idxs : List Nat} (hperm : idxs.Perm (List.range n))
include hperm

theorem keeps_gather : Keeps (fun d => gather d idxs) n :=
  ⟨fun _ h => gather_len hperm h, fun f a b ha hb => gather_zipWith f a b (ha.trans hb.symm) idxs⟩

theorem leafCentre_gather (tol : ℝ) {pmu : List P4} {hard leaf : List Bool} (hp : pmu.length = n) (hh : hard.length = n)
    (hl : leaf.length = n) :
    leafCentre tol (gather pmu idxs) (gather hard idxs) (gather leaf idxs) = leafCentre tol pmu hard leaf := by
  unfold leafCentre
  rw [bcast2_eq_length _ (by rw [gather_len hperm hh, gather_len hperm hl]), bcast2_eq_length _ (hh.trans hl.symm),
    ← gather_zipWith _ hard leaf (hh.trans hl.symm) idxs]
  have hz : (List.zipWith (· && ·) hard leaf).length = n := by simp [hh, hl]
  simp only [(C20_mask _ _).1 (hz.trans hp.symm), (C20_mask _ _).1 ((gather_len hperm hz).trans (gather_len hperm hp).symm)]
  have hs := selected_perm hperm hp hz
  generalize selected (gather pmu idxs) (gather (List.zipWith (· && ·) hard leaf) idxs) = A at hs
  generalize selected pmu (List.zipWith (· && ·) hard leaf) = B at hs
  match B, hs with
  | [], hs => rw [List.perm_nil.1 hs]
  | [q], hs => rw [List.perm_singleton.1 hs]
  | _ :: _ :: _, hs =>
    have := hs.length_eq
    match A, this with
    | _ :: _ :: _, _ => rfl

theorem centroidPrune_gather (tol radius : ℝ) {pmu : List P4} {leaf : List Bool} (centre : Fl × Fl) (hp : pmu.length = n)
    (hl : leaf.length = n) :
    centroidPrune tol (gather pmu idxs) radius (some (gather leaf idxs)) (some centre) =
      (centroidPrune tol pmu radius (some leaf) (some centre)).map (fun d => gather d idxs) ∧
    ∀ d, centroidPrune tol pmu radius (some leaf) (some centre) = .ok d → d.length = n := by
  obtain ⟨o, e1, e2, e3⟩ := C55_masked tol pmu radius leaf (some centre) (hl.trans hp.symm)
  obtain ⟨o', e1', e2', e3'⟩ := C55_masked tol (gather pmu idxs) radius (gather leaf idxs) (some centre)
    ((gather_len hperm hl).trans (gather_len hperm hp).symm)
  rw [e1, e1']
  refine ⟨?_, fun d h => by cases h; exact e2.trans hl⟩
  simp only [Except.map]
  congr 1
  rw [gather_len hperm hl] at e2'
  apply bools_ext (e2'.trans (gather_len hperm (e2.trans hl)).symm)
  intro k hkl
  rw [e3']
  rcases hk : idxs[k]? with _ | i
  · have hlen : idxs.length ≤ k := List.getElem?_eq_none_iff.1 hk
    rw [(perm_facts hperm).2.2.2] at hlen
    omega
  · rw [gather_at hperm hl hk, gather_at hperm hp hk, gather_at hperm (e2.trans hl) hk, e3]
    rfl

theorem pruneLoop_gather (tol radius : ℝ) {pmu : List P4} {hard : List Bool} (hp : pmu.length = n) (hh : hard.length = n)
    (leaves : Dict (List String)) : ∀ (ks : List String) (hier : Mask), LeavesLen n hier →
    pruneLoop tol (gather pmu idxs) radius (gather hard idxs) leaves ks (mapLeaves (fun d => gather d idxs) hier) =
      (pruneLoop tol pmu radius hard leaves ks hier).map (mapLeaves (fun d => gather d idxs)) ∧
    ∀ P, pruneLoop tol pmu radius hard leaves ks hier = .ok P → LeavesLen n P
  | [], hier, h => ⟨rfl, fun P e => by cases e; exact h⟩
  | k :: ks, hier, h => by
    unfold pruneLoop
    cases Dict.get? leaves k with
    | none => exact ⟨rfl, fun P e => by cases e⟩
    | some path =>
      simp only [leafAt_mapLeaves]
      cases hl : hier.leafAt path with
      | none => exact ⟨rfl, fun P e => by cases e⟩
      | some leaf =>
        have hlen := leafAt_leavesLen path hier h hl
        simp only [Option.map_some, leafCentre_gather hperm tol hp hh hlen]
        cases leafCentre tol pmu hard leaf with
        | error e => exact ⟨rfl, fun P e => by cases e⟩
        | ok centre =>
          simp only
          obtain ⟨c1, c2⟩ := centroidPrune_gather hperm tol radius centre hp hlen
          rw [c1]
          cases hc : centroidPrune tol pmu radius (some leaf) (some centre) with
          | error e => exact ⟨rfl, fun P e => by cases e⟩
          | ok d =>
            simp only [Except.map]
            rw [setLeaf_mapLeaves (fun d => gather d idxs) d path hier]
            exact pruneLoop_gather tol radius hp hh leaves ks _ (setLeaf_leavesLen (c2 d hc) path hier h)

/-- The order of the final particles after a reordering of all. -/
theorem final_order {final : List Bool} (hf : final.length = n) :
    ∃ τ : List Nat, τ.Perm (List.range (final.count true)) ∧ ∀ (α : Type) (a : List α), a.length = n →
      selected (gather a idxs) (gather final idxs) = gather (selected a final) τ := by
  have hT : ∀ j ∈ trueIdxs (gather final idxs), j < idxs.length := by
    intro j hj
    have := (List.getElem?_eq_some_iff.1 ((mem_trueIdxs _ j).1 hj)).1
    rwa [gather_len hperm hf, ← (perm_facts hperm).2.2.2] at this
  have hI : ∀ j ∈ trueIdxs final, j < n := by
    intro j hj
    have := (List.getElem?_eq_some_iff.1 ((mem_trueIdxs _ j).1 hj)).1
    omega
  have hidx : ∀ j ∈ idxs, j < n := (perm_facts hperm).1
  have hlenI : (trueIdxs final).length = final.count true := by
    have h1 := gather_eq_selected final final rfl
    have h2 := C20_mask_length final final rfl
    rw [← h1, gather_length final _ (fun j hj => by rw [hf]; exact hI j hj)] at h2
    exact h2
  -- the final particles in the new order
  have hJ : (gather idxs (trueIdxs (gather final idxs))).Perm (trueIdxs final) := by
    have hs := selected_perm hperm (a := List.range n) (m := final) (by simp) hf
    rw [← gather_eq_selected _ _ (by rw [gather_len hperm hf, gather_len hperm (by simp)]),
      ← gather_eq_selected _ _ (by simp [hf]), gather_gather _ idxs _ (by simpa using hidx) hT,
      gather_range_lt (fun j hj => ?_), gather_range_lt hI] at hs
    · exact hs
    · exact hidx j (mem_of_mem_gather hj)
  have hnd := trueIdxs_nodup final
  refine ⟨(gather idxs (trueIdxs (gather final idxs))).map (fun j => (trueIdxs final).idxOf j), ?_, ?_⟩
  · have := hJ.map (fun j => (trueIdxs final).idxOf j)
    refine this.trans (List.Perm.of_eq ?_)
    rw [← hlenI]
    apply List.ext_getElem (by simp)
    intro i h1 h2
    simp only [List.getElem_map, List.getElem_range]
    exact hnd.idxOf_getElem i _
  · intro α a ha
    have hlt : ∀ j ∈ (gather idxs (trueIdxs (gather final idxs))).map (fun j => (trueIdxs final).idxOf j),
        j < (trueIdxs final).length := by
      intro j hj
      obtain ⟨i, hi, rfl⟩ := List.mem_map.1 hj
      exact List.idxOf_lt_length_iff.2 (hJ.mem_iff.1 hi)
    rw [← gather_eq_selected _ _ (by rw [gather_len hperm hf, gather_len hperm ha]), ← gather_eq_selected _ _ (hf.trans ha.symm),
      gather_gather _ idxs _ (by rw [ha]; exact hidx) hT, gather_gather _ _ _ (by rw [ha]; exact hI) hlt]
    congr 1
    rw [show ∀ l : List Nat, gather (trueIdxs final) (l.map (fun j => (trueIdxs final).idxOf j)) =
      l.filterMap (fun j => (trueIdxs final)[(trueIdxs final).idxOf j]?) from fun l => by simp [gather, List.filterMap_map, Function.comp_def]]
    have : ∀ l : List Nat, (∀ j ∈ l, j ∈ trueIdxs final) →
        l.filterMap (fun j => (trueIdxs final)[(trueIdxs final).idxOf j]?) = l := by
      intro l
      induction l with
      | nil => simp
      | cons x l ih =>
        intro h
        have hx := List.idxOf_lt_length_iff.2 (h x List.mem_cons_self)
        rw [List.filterMap_cons, List.getElem?_eq_getElem hx, List.getElem_idxOf hx, ih (fun j hj => h j (List.mem_cons_of_mem _ hj))]
    exact (this _ (fun j hj => hJ.mem_iff.1 hj)).symm

omit hperm in
theorem compress_eq_selected {α : Type} (a : List α) (m : List Bool) : compress a m = selected a m := by
  unfold compress selected
  induction a generalizing m with
  | nil => rfl
  | cons x a ih =>
    cases m with
    | nil => rfl
    | cons b m =>
      have := ih m
      cases b <;> simp_all

omit hperm in
/-- A mask inside a sorted list of places, read along the list. -/
theorem compress_along {α : Type} {a : List α} {m : List Bool} (hl : m.length = a.length) {ps : List Nat}
    (hp : ps.Pairwise (· < ·)) (hsub : ∀ i : Nat, m[i]? = some true → i ∈ ps) (hlt : ∀ i ∈ ps, i < a.length) :
    compress a m = compress (gather a ps) (gather m ps) := by
  have e : trueIdxs m = ps.filter (fun i => m[i]? == some true) := by
    apply sorted_ext (trueIdxs_pairwise m) (hp.filter _)
    intro v
    rw [mem_trueIdxs, List.mem_filter, beq_iff_eq]
    exact ⟨fun h => ⟨hsub v h, h⟩, fun h => h.2⟩
  rw [compress_eq_selected, ← gather_eq_selected a m hl, e]
  clear e hsub hp
  induction ps with
  | nil => rfl
  | cons i ps ih =>
    have hi := hlt i List.mem_cons_self
    have ih := ih (fun j hj => hlt j (List.mem_cons_of_mem _ hj))
    have g1 : gather a (i :: ps) = a[i] :: gather a ps := by
      simp [gather, List.getElem?_eq_getElem hi]
    have g2 : gather m (i :: ps) = m[i] :: gather m ps := by
      simp [gather, List.getElem?_eq_getElem (hl ▸ hi : i < m.length)]
    rw [g1, g2, List.filter_cons]
    cases hb : m[i] with
    | true =>
      rw [if_pos (by rw [List.getElem?_eq_getElem (hl ▸ hi : i < m.length), hb]; rfl)]
      have : gather a (i :: ps.filter (fun i => m[i]? == some true)) = a[i] :: gather a (ps.filter (fun i => m[i]? == some true)) := by
        simp [gather, List.getElem?_eq_getElem hi]
      rw [this, ih]
      simp [compress]
    | false =>
      rw [if_neg (by rw [List.getElem?_eq_getElem (hl ▸ hi : i < m.length), hb]; decide)]
      rw [ih]
      simp [compress]

theorem compress_gather {status : List Int} (hs : status.length = n) (hk : KeepsPartons status idxs) {α : Type} {a : List α}
    (ha : a.length = n) {m : List Bool} (hm : m.length = n) (hsub : ∀ i : Nat, m[i]? = some true → i ∈ partons status) :
    compress (gather a idxs) (gather m idxs) = compress a m := by
  have hsub' : ∀ k : Nat, (gather m idxs)[k]? = some true → k ∈ partons (gather status idxs) := by
    intro k h
    rcases hk : idxs[k]? with _ | i
    · have hlen : idxs.length ≤ k := List.getElem?_eq_none_iff.1 hk
      have := (List.getElem?_eq_some_iff.1 h).1
      rw [gather_len hperm hm] at this
      rw [(perm_facts hperm).2.2.2] at hlen
      omega
    · rw [gather_at hperm hm hk] at h
      have := hsub i h
      rw [mem_partons] at this ⊢
      rwa [gather_at hperm hs hk]
  rw [compress_along (hm.trans ha.symm) (partons_sorted status) hsub (fun i hi => by rw [ha, ← hs]; exact partons_lt _ _ hi),
    compress_along ((gather_len hperm hm).trans (gather_len hperm ha).symm) (partons_sorted (gather status idxs)) hsub'
      (fun i hi => by rw [gather_len hperm ha, ← gather_len hperm hs]; exact partons_lt _ _ hi),
    gather_partons hperm hs hk a ha, gather_partons hperm hs hk m hm]

/-- **C133** `color_singlets` does not depend on the order of the records, if the hard partons stay in order. -/
theorem C133_singlets_order (setIter : List String → List String) (leaves : Dict (List Bool)) (status : List Int)
    (color : List (Int × Int)) (invert : Bool) (hs : status.length = n) (hc : color.length = n)
    (hl : ∀ p ∈ leaves, p.2.length = n) (hk : KeepsPartons status idxs) :
    colorSinglets setIter (leaves.map (fun p => (p.1, gather p.2 idxs))) (gather status idxs) (gather color idxs) invert =
      colorSinglets setIter leaves status color invert := by
  have e : singletParts (leaves.map (fun p => (p.1, gather p.2 idxs))) (gather status idxs) (gather color idxs) =
      singletParts leaves status color := by
    unfold singletParts
    rw [outgoingMask_eq, outgoingMask_eq]
    simp only
    have hh : (status.map (fun s => decide (|s| = 23))).length = n := by simp [hs]
    rw [← gather_map, andAll_ok, andAll_ok]
    rotate_left
    · intro m hm
      obtain ⟨p, hp, rfl⟩ := List.mem_map.1 hm
      rw [hh]; exact hl p hp
    · intro m hm
      rw [List.map_map] at hm
      obtain ⟨p, hp, rfl⟩ := List.mem_map.1 hm
      rw [gather_len hperm hh]
      exact gather_len hperm (hl p hp)
    simp only [List.map_map, Function.comp_def]
    have key : leaves.map (fun p => compress (gather color idxs) (List.zipWith (· && ·)
          (gather (status.map (fun s => decide (|s| = 23))) idxs) (gather p.2 idxs))) =
        leaves.map (fun p => compress color (List.zipWith (· && ·) (status.map (fun s => decide (|s| = 23))) p.2)) := by
      apply List.map_congr_left
      intro p hp
      rw [← gather_zipWith _ _ p.2 (hh.trans (hl p hp).symm) idxs]
      apply compress_gather hperm hs hk hc (by simp [hs, hl p hp])
      intro i hi
      rw [List.getElem?_zipWith, List.getElem?_map] at hi
      rw [mem_partons]
      rcases hsi : status[i]? with _ | s
      · rw [hsi] at hi; simp at hi
      · rw [hsi] at hi
        rcases hpi : p.2[i]? with _ | b
        · rw [hpi] at hi; simp at hi
        · rw [hpi] at hi
          simp only [Option.map_some, Option.some.injEq, Bool.and_eq_true, decide_eq_true_eq] at hi
          exact ⟨s, rfl, Or.inr (Or.inl (by rw [← Int.natCast_inj, Int.natCast_natAbs]; exact hi.1))⟩
    have hkeys : Dict.keys (leaves.map (fun p => (p.1, gather p.2 idxs))) = Dict.keys leaves := by
      simp [Dict.keys, Function.comp_def]
    rw [key, hkeys]
  unfold colorSinglets
  rw [e]

/-- What follows the partition of the hierarchy. -/
theorem clusterRest_gather (setIter : List String → List String) (tol radius : ℝ) (g : ClusterGraph) (hier : Dict Mask)
    (hp : g.pmu.length = n) (hs : g.status.length = n) (hc : g.color.length = n) (hf : g.final.length = n)
    (hN : NiceTree n (.grp .or hier)) (hk : KeepsPartons g.status idxs) (τ : List Nat)
    (hτ : ∀ a : List Bool, a.length = n → selected (gather a idxs) (gather g.final idxs) = gather (selected a g.final) τ) :
    clusterRest setIter tol radius (reordered g idxs)
        (hier.map (fun p => (p.1, mapLeaves (fun d => gather d idxs) p.2))) =
      (clusterRest setIter tol radius g hier).map (List.map (fun p => (p.1, gather p.2 τ))) := by
  have hG := keeps_gather hperm
  have hLL := leavesLen_of _ hN.aggregable
  set lo := hier.flatMap (fun p => Mask.leafIter p.1 p.2) with hlo0
  have hlo : topLeaves hier lo := topLeaves_model hier
  have hlo' : topLeaves (hier.map (fun p => (p.1, mapLeaves (fun d => gather d idxs) p.2)))
      (lo.map (fun p => (p.1, gather p.2 idxs))) := by
    have := topLeaves_model (hier.map (fun p => (p.1, mapLeaves (fun d => gather d idxs) p.2)))
    rw [List.flatMap_map] at this
    simp only [leafIter_mapLeaves] at this
    rwa [← List.map_flatMap] at this
  obtain ⟨n1, -, n3⟩ := leaves_nodup hN hlo
  have hh : (g.status.map (fun s => decide (|s| = 23))).length = n := by simp [hs]
  unfold clusterRest reordered
  rw [C10_leaf_masks .or hier lo hlo n1, C10_leaf_masks .or _ _ hlo' (by simpa [Function.comp_def] using n1)]
  simp only [flatEntries_arr, C133_singlets_order hperm setIter lo g.status g.color true hs hc n3 hk, outgoingMask_eq,
    leafRefDict_mapLeaves]
  cases colorSinglets setIter lo g.status g.color true with
  | error e => rfl
  | ok ck =>
    simp only
    obtain ⟨p1, p2⟩ := pruneLoop_gather hperm tol radius hp hh (leafRefDict hier) ck.flatten (.grp .or hier) hLL
    rw [mapLeaves_grp] at p1
    rw [← gather_map, p1]
    cases hP : pruneLoop tol g.pmu radius (g.status.map (fun s => decide (|s| = 23))) (leafRefDict hier) ck.flatten
        (.grp .or hier) with
    | error e => rfl
    | ok P =>
      have hPL := drop_leavesLen "latent" P (p2 P hP)
      simp only [Except.map, drop_mapLeaves]
      cases hD : P.drop "latent" with
      | arr d => rfl
      | grp op ks =>
        rw [hD] at hPL
        simp only [mapLeaves_grp, flattenRise]
        obtain ⟨v1, v2⟩ := visitKids_mapLeaves hG ks (fun k m hm => hPL.kid hm)
        rw [v1]
        cases hv : Mask.visitKids ks with
        | error e => rfl
        | ok ps =>
          have hlen := v2 ps hv
          simp only [Except.map]
          have e1 : ∀ qs : List (String × List Bool), Dict.ofPairs (qs.map (fun p => (p.1, Mask.arr p.2))) =
              (Dict.ofPairs qs).map (fun p => (p.1, Mask.arr p.2)) := fun qs => ofPairs_map Mask.arr qs
          have e2 : Dict.ofPairs (ps.map (fun q => (q.1, gather q.2 idxs))) =
              (Dict.ofPairs ps).map (fun q => (q.1, gather q.2 idxs)) := ofPairs_map (fun d => gather d idxs) ps
          rw [e1, e1, e2]
          simp only [flatEntries_arr]
          have hl1 : ∀ p ∈ Dict.ofPairs ps, p.2.length = n := fun p hp => hlen p (mem_of_ofPairs hp)
          rw [restrictAll_ok g.final _ (fun p hp => by rw [hf]; exact hl1 p hp), restrictAll_ok (gather g.final idxs)]
          rotate_left
          · intro p hp
            obtain ⟨q, hq, rfl⟩ := List.mem_map.1 hp
            rw [gather_len hperm hf]
            exact gather_len hperm (hl1 q hq)
          simp only [List.map_map]
          rw [← ofPairs_map (fun d => gather d τ), List.map_map]
          congr 2
          apply List.map_congr_left
          intro p hp
          simp only [Function.comp]
          rw [hτ p.2 (hl1 p hp)]

end

/-- **C133** `clusters` of reordered records: the same keys with the masks in the new order of the final particles, or the
same error, if the hard partons stay in order, the first record of every parton's descendants still leaves the same vertex
and no particle is equally far from two partons entering its hadronisation vertex. -/
theorem C133_clusters_order {R : Type} [LinearOrder R] (dist : P4 → P4 → R) (setIter : List String → List String)
    (nm : Int → String) (tol radius : ℝ) (g : ClusterGraph) (hg : GoodEvent nm g) (hc : g.color.length = g.edges.length)
    (idxs : List Nat) (hperm : idxs.Perm (List.range g.edges.length)) (hk : KeepsPartons g.status idxs)
    (desc : List (String × List Bool)) (hd : hardDescendants nm g.pdg g.status g.edges none false true = .ok desc)
    (hfirst : ∀ p ∈ desc, KeepsFirst g.edges idxs p.2)
    (hties : ∀ (v : Int) (i p q : Nat) (mi mp mq : P4), HadronVertex g.edges g.status v →
      HadronOf g.edges g.final v i → Enters g.edges v p → Enters g.edges v q → g.pmu[i]? = some mi →
      g.pmu[p]? = some mp → g.pmu[q]? = some mq → dist mp mi = dist mq mi → p = q) :
    ∃ τ : List Nat, τ.Perm (List.range (g.final.count true)) ∧
      (∀ (α : Type) (a : List α), a.length = g.edges.length →
        selected (gather a idxs) (gather g.final idxs) = gather (selected a g.final) τ) ∧
      clusters dist setIter nm tol radius (reordered g idxs) =
        (clusters dist setIter nm tol radius g).map (List.map (fun p => (p.1, gather p.2 τ))) := by
  obtain ⟨τ, t1, t2⟩ := final_order hperm hg.final
  refine ⟨τ, t1, t2, ?_⟩
  obtain ⟨hier0, q1, q2⟩ := C104_hierarchy nm g.pdg g.status g.final g.edges idxs hperm hg.pdg hg.status hg.final
    hg.colon hg.latent hk desc hd hfirst
  by_cases hne : hier0 = []
  · subst hne
    rw [C60_empty dist setIter nm tol radius g q1, C60_empty _ _ _ _ _ _ q2]
    rfl
  · obtain ⟨hier', out, out', r1, r2, r3, r4⟩ := C112_pipeline dist nm g hg idxs hperm hk desc hd hfirst hties hier0 q1 hne
    have hN := partition_nice hg q1 hne r2
    have hu' := goodKids_unique .or (partition_good _ _ _ _ _ _ _ (hierarchy_good _ _ _ _ _ _ r1) r3)
    have hlook : ∀ p, look (.grp .or out') p = look (mapLeaves (fun d => gather d idxs) (.grp .or out)) p := by
      intro p
      obtain ⟨a1, a2, a3⟩ := r4 p
      obtain ⟨b1, b2, b3⟩ := mapsIf_mapLeaves (fun d => gather d idxs) (.grp .or out) p
      rcases hl : look (.grp .or out) p with _ | ⟨d⟩ | ⟨op, ks⟩
      · rw [a1 hl, b1 hl]
      · obtain ⟨d', c1, c2, -⟩ := a3 d hl
        obtain ⟨d'', c1', c2', -⟩ := b3 d hl
        rw [c1, c1', c2 trivial, c2' trivial]
      · rw [a2 op ks hl, b2 op ks hl]
    have hu : UniqueKeys (mapLeaves (fun d => gather d idxs) (.grp .or out)) := by
      intro p op ks h
      rw [← hlook] at h
      exact hu' p op ks h
    have heq := look_ext _ _ hu' hu hlook
    rw [mapLeaves_grp] at heq
    simp only [Mask.grp.injEq, true_and] at heq
    unfold clusters
    simp only [q1, r2, reordered, r1, r3, heq]
    exact clusterRest_gather hperm setIter tol radius g out hg.pmu hg.status hc hg.final hN hk τ (t2 Bool)

/-! ## Witnesses -/

/-- Colour lines can be renamed: here 101 and 102 become 1 and 2, and 0 stays. -/
example : colorSinglets id exCLo exCG.status exCG.color false = .ok [["u", "d~"]] ∧
    colorSinglets id exCLo exCG.status (exCG.color.map (fun c => (c.1 % 100, c.2 % 100))) false = .ok [["u", "d~"]] := by
  have h : colorSinglets id exCLo exCG.status exCG.color false = .ok [["u", "d~"]] := by decide
  refine ⟨h, ?_⟩
  rw [← h]
  apply C133_labels (fun a : Int => a % 100)
  · have key : ∀ a : Int, (a = 0 ∨ ∃ c ∈ exCG.color, a = c.1 ∨ a = c.2) → a = 0 ∨ a = 101 ∨ a = 102 := by
      rintro a (h | ⟨c, hc, h⟩)
      · exact Or.inl h
      · simp only [exCG, List.mem_cons, List.not_mem_nil, or_false] at hc
        rcases hc with rfl | rfl | rfl | rfl | rfl | rfl | rfl | rfl | rfl <;> simp at h <;> omega
    intro a b ha hb h
    rcases key a ha with rfl | rfl | rfl <;> rcases key b hb with rfl | rfl | rfl <;> revert h <;> decide
  · rfl

/-- A name that merges two lines does change the singlets. -/
example : colorSinglets id exCLo exCG.status (exCG.color.map (fun c => (c.1 / 100, c.2 / 100))) false ≠
    colorSinglets id exCLo exCG.status exCG.color false := by decide

/-- The reordered event of C112. -/
example (tol radius : ℝ) : ∃ τ : List Nat, τ.Perm (List.range 4) ∧
    clusters (fun a _ : P4 => a.x) id exNames tol radius (reordered exPGM exPGI) =
      (clusters (fun a _ : P4 => a.x) id exNames tol radius exPGM).map (List.map (fun p => (p.1, gather p.2 τ))) := by
  obtain ⟨h1, h2, h3, h4, h5, h6, -⟩ := exPGM_hyps
  obtain ⟨τ, t1, -, t3⟩ := C133_clusters_order (fun a _ : P4 => a.x) id exNames tol radius exPGM h1 rfl exPGI h2 h3 exPGD h4 h5 h6
  exact ⟨τ, t1, t3⟩

/-- An event with clusters, under other names of its vertices. -/
example (tol radius : ℝ) : ∃ out,
    clusters (fun _ _ => (0 : Nat)) id exNames tol radius { exCG with edges := rename (fun v => 2 * v + 1) exCG.edges } = .ok out ∧
      IsClusters tol radius exCG (.grp .or exCH) ["b"] out := by
  rw [C133_clusters_ids _ _ _ _ _ exCG exCG_good]
  · exact exCG_clusters tol radius
  · intro a _ b _ h
    have : 2 * a + 1 = 2 * b + 1 := h
    omega
  · intro a _ b _ h
    show 2 * a + 1 ≤ 2 * b + 1
    omega

/-- Its momenta can be boosted. -/
example (ptExp s tol radius : ℝ) :
    clusters (weightedDist ptExp) id exNames tol radius { exCG with pmu := exCG.pmu.map (P4.shiftRapidity s) } =
      clusters (weightedDist ptExp) id exNames tol radius exCG := by
  apply C133_clusters_boosted
  have h1 : Light ⟨5, 0, 0, 5⟩ := by
    refine ⟨?_, ?_⟩
    · have : P4.pt ⟨5, 0, 0, 5⟩ = 5 := by
        show ‖P4.xyPol ⟨5, 0, 0, 5⟩‖ = 5
        rw [show P4.xyPol ⟨5, 0, 0, 5⟩ = ((5 : ℝ) : ℂ) by apply Complex.ext <;> rfl, Complex.norm_real]; norm_num
      rw [this]; norm_num
    · show (5 : ℝ) = Real.sqrt (5 ^ 2 + 0 ^ 2 + 0 ^ 2)
      rw [show (5 : ℝ) ^ 2 + 0 ^ 2 + 0 ^ 2 = 5 ^ 2 by norm_num, Real.sqrt_sq (by norm_num)]
  have h2 : Light ⟨-5, 0, 0, 5⟩ := by
    refine ⟨?_, ?_⟩
    · have : P4.pt ⟨-5, 0, 0, 5⟩ = 5 := by
        show ‖P4.xyPol ⟨-5, 0, 0, 5⟩‖ = 5
        rw [show P4.xyPol ⟨-5, 0, 0, 5⟩ = ((-5 : ℝ) : ℂ) by apply Complex.ext <;> simp [P4.xyPol], Complex.norm_real]; norm_num
      rw [this]; norm_num
    · show (5 : ℝ) = Real.sqrt ((-5) ^ 2 + 0 ^ 2 + 0 ^ 2)
      rw [show (-5 : ℝ) ^ 2 + 0 ^ 2 + 0 ^ 2 = 5 ^ 2 by norm_num, Real.sqrt_sq (by norm_num)]
  intro p hp
  simp only [exCG, List.mem_cons, List.not_mem_nil, or_false] at hp
  rcases hp with rfl | rfl | rfl | rfl | rfl | rfl | rfl | rfl | rfl <;> assumption

end Gcl
