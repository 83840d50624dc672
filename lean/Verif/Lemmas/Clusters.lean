import Verif.Model.Clusters
import Verif.Props.Hier
import Verif.Props.MaskC
import Verif.Lemmas.Partition
/-! # Lemmas about the tree of masks used by `clusters` -/
namespace Gcl
set_option autoImplicit false
open Spec

/-- What the trees made by `hierarchy` and `partition_descendants` look like. -/
structure NiceTree (n : Nat) (m : Mask) : Prop where
  top : ∃ op ks, look m [] = some (.group op ks)
  group : ∀ p op ks, look m p = some (.group op ks) → op = .or ∧ ks.Nodup ∧ ∃ k ∈ ks, k ≠ "latent"
  leaf : ∀ p d, look m p = some (.leaf d) → d.length = n
  names : ∀ p q x, x ≠ "latent" → (look m (p ++ [x])).isSome → (look m (q ++ [x])).isSome → p = q
  noTop : look m ["latent"] = none

/-- Same groups and keys, leaves of the same lengths at the same places. -/
def SameShape (a b : Mask) : Prop :=
  ∀ path, (look a path = none → look b path = none) ∧
    (∀ op ks, look a path = some (.group op ks) → look b path = some (.group op ks)) ∧
    (∀ d, look a path = some (.leaf d) → ∃ d', look b path = some (.leaf d') ∧ d'.length = d.length)

theorem SameShape.back {a b : Mask} (h : SameShape a b) (p : List String) :
    (look b p = none → look a p = none) ∧
    (∀ op ks, look b p = some (.group op ks) → look a p = some (.group op ks)) ∧
    (∀ d', look b p = some (.leaf d') → ∃ d, look a p = some (.leaf d) ∧ d'.length = d.length) := by
  obtain ⟨a1, a2, a3⟩ := h p
  rcases hl : look a p with _ | ⟨d⟩ | ⟨op, ks⟩
  · have := a1 hl; simp [this]
  · obtain ⟨d', e1, e2⟩ := a3 d hl
    rw [e1]
    simp [e2]
  · have := a2 op ks hl
    rw [this]
    simp

theorem NiceTree.congr {n : Nat} {a b : Mask} (h : NiceTree n a) (s : SameShape a b) : NiceTree n b := by
  refine ⟨?_, ?_, ?_, ?_, ?_⟩
  · obtain ⟨op, ks, h1⟩ := h.top
    exact ⟨op, ks, (s []).2.1 op ks h1⟩
  · intro p op ks hp
    exact h.group p op ks ((s.back p).2.1 op ks hp)
  · intro p d hp
    obtain ⟨d0, h1, h2⟩ := (s.back p).2.2 d hp
    rw [h2]
    exact h.leaf p d0 h1
  · intro p q x hx hp hq
    have key : ∀ r, (look b r).isSome → (look a r).isSome := by
      intro r hr
      by_contra hn
      rw [Option.not_isSome_iff_eq_none] at hn
      rw [(s r).1 hn] at hr
      simp at hr
    exact h.names p q x hx (key _ hp) (key _ hq)
  · exact (s _).1 h.noTop

theorem look_kid {op : Agg} {ks : List (String × Mask)} (hn : (Dict.keys ks).Nodup) {k : String} {m : Mask}
    (h : (k, m) ∈ ks) (p : List String) : look (.grp op ks) (k :: p) = look m p := by
  rw [look_cons, child_grp, Dict.get?_of_mem hn h]
  rfl

theorem aggregable_of_look {n : Nat} (m : Mask)
    (hg : ∀ p op ks, look m p = some (.group op ks) → op = .or ∧ ks.Nodup ∧ ks ≠ [])
    (hl : ∀ p d, look m p = some (.leaf d) → d.length = n) : Aggregable n m := by
  induction m using Mask.ind with
  | ha d => exact .leaf (hl [] d rfl)
  | hg op ks ih =>
    obtain ⟨h1, h2, h3⟩ := hg [] op (ks.map Prod.fst) rfl
    refine .group (by rw [h1]; decide) (by simpa using h3) (fun k m hm => ih k m hm ?_ ?_)
    · intro p op' ks' hp
      exact hg (k :: p) op' ks' (by rw [look_kid h2 hm]; exact hp)
    · intro p d hp
      exact hl (k :: p) d (by rw [look_kid h2 hm]; exact hp)

theorem holds_or_iff (i : Nat) (m : Mask)
    (hg : ∀ p op ks, look m p = some (.group op ks) → op = .or ∧ ks.Nodup) :
    Holds i m ↔ ∃ p d, look m p = some (.leaf d) ∧ d[i]? = some true := by
  induction m using Mask.ind with
  | ha d =>
    constructor
    · intro h
      cases h with
      | leaf h => exact ⟨[], d, rfl, h⟩
    · rintro ⟨p, d', h1, h2⟩
      cases p with
      | nil => rw [look_nil] at h1; simp only [node, Option.some.injEq, Node.leaf.injEq] at h1
               subst h1; exact .leaf h2
      | cons k p => simp [look_cons, child] at h1
  | hg op ks ih =>
    obtain ⟨h1, h2⟩ := hg [] op (ks.map Prod.fst) rfl
    subst h1
    have ih' : ∀ k m, (k, m) ∈ ks → (Holds i m ↔ ∃ p d, look m p = some (.leaf d) ∧ d[i]? = some true) := by
      intro k m hm
      apply ih k m hm
      intro p op' ks' hp
      exact hg (k :: p) op' ks' (by rw [look_kid h2 hm]; exact hp)
    constructor
    · intro h
      cases h with
      | any hm h =>
        obtain ⟨p, d, e1, e2⟩ := (ih' _ _ hm).1 h
        exact ⟨_ :: p, d, by rw [look_kid h2 hm]; exact e1, e2⟩
    · rintro ⟨p, d, e1, e2⟩
      cases p with
      | nil => simp [look_nil, node] at e1
      | cons k p =>
        rw [look_cons, child_grp] at e1
        cases hk : Dict.get? ks k with
        | none => simp [hk] at e1
        | some m =>
          rw [hk] at e1
          have hm := Dict.mem_of_get? hk
          exact .any hm ((ih' k m hm).2 ⟨p, d, e1, e2⟩)

/-! ## References to leaves -/

theorem leafRefsKids_eq (pre : List String) (ks : List (String × Mask)) :
    Mask.leafRefsKids pre ks =
      (ks.filter (fun p => p.1 != "latent")).flatMap (fun p => Mask.leafRefs (pre ++ [p.1]) p.1 p.2) := by
  induction ks with
  | nil => rfl
  | cons p ks ih =>
    obtain ⟨k, m⟩ := p
    rw [Mask.leafRefsKids]
    by_cases hk : k = "latent"
    · simp [hk, ih]
    · simp [hk, ih]

theorem mem_leafRefs (m : Mask) (hu : UniqueKeys m) (pre : List String) (name x : String)
    (path : List String) :
    (x, path) ∈ Mask.leafRefs pre name m ↔
      ∃ q, path = pre ++ q ∧ NoLatent q ∧ (∃ d, look m q = some (.leaf d)) ∧ x = q.getLast?.getD name := by
  induction m using Mask.ind generalizing pre name x path with
  | ha d =>
    simp only [Mask.leafRefs, List.mem_singleton, Prod.mk.injEq]
    constructor
    · rintro ⟨rfl, rfl⟩
      exact ⟨[], by simp, by simp [NoLatent], ⟨d, rfl⟩, by simp⟩
    · rintro ⟨q, rfl, h2, ⟨d', h3⟩, h4⟩
      cases q with
      | nil => simp at h4 ⊢; exact h4
      | cons k q => simp [look_cons, child] at h3
  | hg op ks ih =>
    simp only [Mask.leafRefs, leafRefsKids_eq, List.mem_flatMap, List.mem_filter, bne_iff_ne]
    constructor
    · rintro ⟨⟨k, m⟩, ⟨h1, h2⟩, h3⟩
      obtain ⟨q, e1, e2, ⟨d, e3⟩, e4⟩ := (ih k m h1 (hu.kid h1) _ _ _ _).1 h3
      refine ⟨k :: q, by simp [e1], ?_, ⟨d, by rw [look_kid hu.keys h1]; exact e3⟩, ?_⟩
      · intro k' hk'
        rcases List.mem_cons.1 hk' with rfl | hk'
        · exact h2
        · exact e2 k' hk'
      · rw [e4]
        cases q with
        | nil => simp
        | cons a q => rw [List.getLast?_cons_cons, List.getLast?_cons]; rfl
    · rintro ⟨q, rfl, h2, ⟨d, h3⟩, h4⟩
      cases q with
      | nil => simp [look_nil, node] at h3
      | cons k q =>
        rw [look_cons, child_grp] at h3
        cases hk : Dict.get? ks k with
        | none => simp [hk] at h3
        | some m =>
          rw [hk] at h3
          have hm := Dict.mem_of_get? hk
          refine ⟨(k, m), ⟨hm, h2 k (by simp)⟩, (ih k m hm (hu.kid hm) _ _ _ _).2
            ⟨q, by simp, fun k' hk' => h2 k' (by simp [hk']), ⟨d, h3⟩, ?_⟩⟩
          rw [h4]
          cases q with
          | nil => simp
          | cons a q => rw [List.getLast?_cons_cons, List.getLast?_cons]; rfl

theorem nodup_refs_flatMap (pre : List String) (ks : List (String × Mask)) (hn : (ks.map Prod.fst).Nodup)
    (hu : ∀ k m, (k, m) ∈ ks → UniqueKeys m)
    (h : ∀ k m, (k, m) ∈ ks → (Mask.leafRefs (pre ++ [k]) k m).Nodup) :
    (ks.flatMap (fun p => Mask.leafRefs (pre ++ [p.1]) p.1 p.2)).Nodup := by
  rw [List.nodup_flatMap]
  refine ⟨fun p hp => h p.1 p.2 hp, ?_⟩
  have : ks.Pairwise (fun a b => a.1 ≠ b.1) := by
    rw [List.nodup_iff_pairwise_ne, List.pairwise_map] at hn
    exact hn
  refine List.Pairwise.imp_of_mem ?_ this
  rintro ⟨a, ma⟩ ⟨b, mb⟩ ha hb hne ⟨x, path⟩ h1 h2
  obtain ⟨q1, e1, -⟩ := (mem_leafRefs ma (hu a ma ha) _ _ _ _).1 h1
  obtain ⟨q2, e2, -⟩ := (mem_leafRefs mb (hu b mb hb) _ _ _ _).1 h2
  rw [e1] at e2
  simp only [List.append_assoc, List.singleton_append, List.append_cancel_left_eq, List.cons.injEq] at e2
  exact hne e2.1

theorem nodup_leafRefs (m : Mask) (hu : UniqueKeys m) (pre : List String) (name : String) :
    (Mask.leafRefs pre name m).Nodup := by
  induction m using Mask.ind generalizing pre name with
  | ha d => simp [Mask.leafRefs]
  | hg op ks ih =>
    rw [Mask.leafRefs, leafRefsKids_eq]
    apply nodup_refs_flatMap
    · exact hu.keys.sublist (List.filter_sublist.map _)
    · intro k m hm
      exact hu.kid (List.mem_filter.1 hm).1
    · intro k m hm
      exact ih k m (List.mem_filter.1 hm).1 (hu.kid (List.mem_filter.1 hm).1) _ _

/-- All leaf references of a tree. -/
def allRefs (ks : Dict Mask) : List (String × List String) :=
  ks.flatMap (fun p => Mask.leafRefs [p.1] p.1 p.2)

theorem mem_allRefs {op : Agg} {ks : Dict Mask} (hu : UniqueKeys (.grp op ks)) (x : String)
    (path : List String) :
    (x, path) ∈ allRefs ks ↔
      ∃ p, path = p ++ [x] ∧ LeafPath path ∧ ∃ d, look (.grp op ks) path = some (.leaf d) := by
  unfold allRefs
  rw [List.mem_flatMap]
  constructor
  · rintro ⟨⟨k, m⟩, hm, h⟩
    obtain ⟨q, e1, e2, ⟨d, e3⟩, e4⟩ := (mem_leafRefs m (hu.kid hm) _ _ _ _).1 h
    subst e1
    refine ⟨([k] ++ q).dropLast, ?_, ?_, d, ?_⟩
    · have hx : x = ([k] ++ q).getLast (by simp) := by
        rw [e4]
        cases q with
        | nil => simp
        | cons a q => simp [List.getLast?_eq_getLast_of_ne_nil]
      rw [hx, List.dropLast_append_getLast]
    · intro k' hk'
      exact e2 k' (by simpa using hk')
    · rw [List.singleton_append, look_kid hu.keys hm]; exact e3
  · rintro ⟨p, rfl, h2, d, h3⟩
    obtain ⟨k, q, hkq⟩ : ∃ k q, p ++ [x] = k :: q := by
      cases p with
      | nil => exact ⟨x, [], rfl⟩
      | cons k p => exact ⟨k, p ++ [x], rfl⟩
    rw [hkq] at h2 h3
    rw [look_cons, child_grp] at h3
    cases hk : Dict.get? ks k with
    | none => simp [hk] at h3
    | some m =>
      rw [hk] at h3
      have hm := Dict.mem_of_get? hk
      refine ⟨(k, m), hm, (mem_leafRefs m (hu.kid hm) _ _ _ _).2 ⟨q, hkq, ?_, ⟨d, h3⟩, ?_⟩⟩
      · intro k' hk'; exact h2 k' (by simpa using hk')
      · have := congrArg List.getLast? hkq
        rw [List.getLast?_concat] at this
        cases q with
        | nil => simpa using this
        | cons a q => rw [List.getLast?_cons_cons] at this; simp [← this]

theorem nodup_allRefs {op : Agg} {ks : Dict Mask} (hu : UniqueKeys (.grp op ks)) : (allRefs ks).Nodup := by
  have := nodup_refs_flatMap [] ks hu.keys (fun k m hm => hu.kid hm)
    (fun k m hm => nodup_leafRefs m (hu.kid hm) _ _)
  simpa [allRefs] using this

theorem NiceTree.unique {n : Nat} {m : Mask} (h : NiceTree n m) : UniqueKeys m :=
  fun p op ks hp => (h.group p op ks hp).2.1

theorem NiceTree.ref_ne_latent {n : Nat} {op : Agg} {ks : Dict Mask} (h : NiceTree n (.grp op ks))
    {x : String} {path : List String} (hx : (x, path) ∈ allRefs ks) : x ≠ "latent" := by
  obtain ⟨p, e1, e2, d, e3⟩ := (mem_allRefs h.unique x path).1 hx
  rintro rfl
  cases p with
  | nil =>
    rw [e1, List.nil_append, h.noTop] at e3
    cases e3
  | cons k p =>
    rw [e1] at e2
    exact e2 "latent" (by simp) rfl

theorem NiceTree.ref_unique {n : Nat} {op : Agg} {ks : Dict Mask} (h : NiceTree n (.grp op ks))
    {x : String} {path path' : List String} (hx : (x, path) ∈ allRefs ks) (hx' : (x, path') ∈ allRefs ks) :
    path = path' := by
  obtain ⟨p, e1, e2, d, e3⟩ := (mem_allRefs h.unique x path).1 hx
  obtain ⟨p', e1', e2', d', e3'⟩ := (mem_allRefs h.unique x path').1 hx'
  rw [e1] at e3
  rw [e1'] at e3'
  have := h.names p p' x (h.ref_ne_latent hx) (by rw [e3]; rfl) (by rw [e3']; rfl)
  rw [e1, e1', this]

theorem NiceTree.refNames {n : Nat} {op : Agg} {ks : Dict Mask} (h : NiceTree n (.grp op ks)) :
    ((allRefs ks).map Prod.fst).Nodup := by
  apply List.Nodup.map_on _ (nodup_allRefs h.unique)
  rintro ⟨x, path⟩ h1 ⟨y, path'⟩ h2 hxy
  simp only at hxy
  subst hxy
  rw [h.ref_unique h1 h2]

theorem foldl_update_flatMap {α β : Type} (f : β → List (String × α)) (bs : List β) (acc : Dict α)
    (h : (Dict.keys acc ++ (bs.flatMap f).map Prod.fst).Nodup) :
    bs.foldl (fun acc b => Dict.update acc (Dict.ofPairs (f b))) acc = acc ++ bs.flatMap f := by
  induction bs generalizing acc with
  | nil => simp
  | cons b bs ih =>
    rw [List.flatMap_cons, List.map_append, ← List.append_assoc] at h
    have h1 := (List.nodup_append.1 h).1
    have h2 : ((f b).map Prod.fst).Nodup := (List.nodup_append.1 h1).2.1
    rw [List.foldl_cons, Dict.ofPairs_of_nodup _ h2, Dict.update_of_nodup _ _ h1, ih]
    · simp
    · simpa [Dict.keys, List.append_assoc] using h

theorem NiceTree.refDict {n : Nat} {op : Agg} {ks : Dict Mask} (h : NiceTree n (.grp op ks)) :
    leafRefDict ks = allRefs ks := by
  unfold leafRefDict allRefs
  rw [foldl_update_flatMap]
  · rfl
  · simpa [Dict.keys, allRefs] using h.refNames

theorem leafIter_names (m : Mask) (pre : List String) (name : String) :
    (Mask.leafIter name m).map Prod.fst = (Mask.leafRefs pre name m).map Prod.fst := by
  induction m using Mask.ind generalizing pre name with
  | ha d => rfl
  | hg op ks ih =>
    rw [Mask.leafIter, Mask.leafRefs]
    induction ks with
    | nil => rfl
    | cons p ks ih2 =>
      obtain ⟨k, m⟩ := p
      rw [Mask.leafIterKids, Mask.leafRefsKids]
      have ih2' := ih2 (fun k' m' h => ih k' m' (by simp [h]))
      split
      · exact ih2'
      · rw [List.map_append, List.map_append, ih2', ih k m (by simp) (pre ++ [k]) k]

/-- The leaves as `leaf_masks` lists them. -/
def leafList (ks : Dict Mask) : List (String × List Bool) := ks.flatMap (fun p => Mask.leafIter p.1 p.2)

theorem leafList_names (ks : Dict Mask) : (leafList ks).map Prod.fst = (allRefs ks).map Prod.fst := by
  unfold leafList allRefs
  rw [List.map_flatMap, List.map_flatMap]
  congr 1
  funext p
  exact leafIter_names p.2 [p.1] p.1

theorem flatEntries_arr (l : List (String × List Bool)) :
    flatEntries (l.map (fun q => (q.1, Mask.arr q.2))) = .ok l := by
  induction l with
  | nil => rfl
  | cons p l ih =>
    rw [List.map_cons, flatEntries]
    simp only [Mask.data, ih]

/-! ## Changing a leaf -/

theorem leafAt_iff (p : List String) (m : Mask) (d : List Bool) :
    m.leafAt p = some d ↔ look m p = some (.leaf d) := by
  induction p generalizing m with
  | nil => cases m <;> simp [Mask.leafAt, look_nil, node]
  | cons k p ih =>
    cases m with
    | arr d' => simp [Mask.leafAt, look_cons, child]
    | grp op ks =>
      rw [Mask.leafAt, look_cons, child_grp]
      cases Dict.get? ks k with
      | none => simp
      | some m => simpa using ih m

theorem get?_map_at (ks : Dict Mask) (k k' : String) (f : Mask → Mask) :
    Dict.get? (ks.map (fun q => if q.1 = k then (q.1, f q.2) else q)) k' =
      if k' = k then (Dict.get? ks k').map f else Dict.get? ks k' := by
  induction ks with
  | nil => simp [Dict.get?]
  | cons q ks ih =>
    obtain ⟨a, m⟩ := q
    rw [List.map_cons]
    by_cases hak : a = k
    · subst hak
      simp only [if_true]
      rw [Dict.get?_cons, Dict.get?_cons, ih]
      by_cases h : a = k'
      · subst h; simp
      · simp [h, Ne.symm h]
    · simp only [hak, if_false]
      rw [Dict.get?_cons, Dict.get?_cons, ih]
      by_cases h : a = k'
      · subst h; simp [hak]
      · simp [h]

theorem look_setLeaf (d d0 : List Bool) (p : List String) (m : Mask)
    (h : look m p = some (.leaf d0)) (q : List String) :
    look (m.setLeaf d p) q = if q = p then some (.leaf d) else look m q := by
  induction p generalizing m q with
  | nil =>
    cases m with
    | grp op ks => simp [look_nil, node] at h
    | arr d' =>
      cases q with
      | nil => simp [Mask.setLeaf, look_nil, node]
      | cons k q => simp [Mask.setLeaf, look_cons, child]
  | cons k p ih =>
    cases m with
    | arr d' => simp [look_cons, child] at h
    | grp op ks =>
      rw [Mask.setLeaf]
      cases q with
      | nil =>
        simp only [look_nil, node, List.map_map, reduceCtorEq, if_false, Option.some.injEq, Node.group.injEq,
          true_and]
        apply List.map_congr_left
        intro x _
        simp only [Function.comp]
        split <;> rfl
      | cons k' q =>
        rw [look_cons, child_grp, get?_map_at, look_cons, child_grp]
        rw [look_cons, child_grp] at h
        by_cases hk : k' = k
        · subst hk
          cases hg : Dict.get? ks k' with
          | none => simp [hg] at h
          | some c =>
            rw [hg] at h
            simp only [Option.bind_some] at h
            simp [ih c h q]
        · simp [hk]

end Gcl
