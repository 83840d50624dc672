import Verif.Lemmas.Clusters
import Verif.Props.Partition
import Verif.Props.Prune
import Verif.Props.Singlets
/-! # The hierarchy is a nice tree; the pruning loop -/
namespace Gcl
set_option autoImplicit false
open Spec

theorem look_of_at {m c : Mask} {p : List String} (h : at? m p = some c) : look m p = some (node c) := by
  unfold look; rw [h]; rfl

theorem at_of_look {m : Mask} {p : List String} {n : Node} (h : look m p = some n) :
    ∃ c, at? m p = some c ∧ node c = n := by
  unfold look at h
  exact Option.map_eq_some_iff.1 h

theorem aggregable_leaf {n : Nat} {m : Mask} (h : Aggregable n m) {p : List String} {d : List Bool}
    (hl : look m p = some (.leaf d)) : d.length = n := by
  induction h generalizing p with
  | leaf hd =>
    cases p with
    | nil => rw [look_nil] at hl; simp only [node, Option.some.injEq, Node.leaf.injEq] at hl; rw [← hl]; exact hd
    | cons k p => simp [look_cons, child] at hl
  | @group op ks _ _ _ ih =>
    cases p with
    | nil => simp [look_nil, node] at hl
    | cons k p =>
      rw [look_cons, child_grp] at hl
      cases hk : Dict.get? ks k with
      | none => simp [hk] at hl
      | some c =>
        rw [hk] at hl
        exact ih k c (Dict.mem_of_get? hk) hl

theorem NiceTree.aggregable {n : Nat} {m : Mask} (h : NiceTree n m) : Aggregable n m := by
  apply aggregable_of_look m _ h.leaf
  intro p op ks hp
  obtain ⟨h1, h2, k, h3, _⟩ := h.group p op ks hp
  exact ⟨h1, h2, List.ne_nil_of_mem h3⟩

theorem NiceTree.allOr {n : Nat} {m : Mask} (h : NiceTree n m) : AllAgg .or m :=
  fun p op ks hp => (h.group p op ks hp).1

section
variable {status : List Int} {es : List (Int × Int)} {desc : Dict (List Bool)}
  {kids : String → List String} {out : Dict Mask}

theorem Spec.HierarchyOf.kids_parent (H : HierarchyOf status es desc kids out)
    (hn : (desc.map Prod.fst).Nodup) (x x' y : String) (h : y ∈ kids x) (h' : y ∈ kids x') : x = x' := by
  have hy := (H.ordered x).subset h
  obtain ⟨c, hc⟩ := List.mem_iff_getElem?.1 hy
  obtain ⟨i, hi⟩ := List.mem_iff_getElem?.1 (H.known x (List.ne_nil_of_mem h))
  obtain ⟨i', hi'⟩ := List.mem_iff_getElem?.1 (H.known x' (List.ne_nil_of_mem h'))
  have p1 := (H.parents i c x y hi hc).1 h
  have p2 := (H.parents i' c x' y hi' hc).1 h'
  obtain ⟨j, -, hj⟩ := (C47_unique _ c).1 ⟨i, p1.1⟩
  have : i = i' := (hj i p1).trans (hj i' p2).symm
  subst this
  rw [hi] at hi'
  exact Option.some.inj hi'

theorem Spec.HierarchyOf.noTop (H : HierarchyOf status es desc kids out) (hlat : "latent" ∉ desc.map Prod.fst) :
    "latent" ∉ out.map Prod.fst := by
  rw [H.top]
  intro h
  exact hlat (List.mem_filter.1 h).1

theorem Spec.HierarchyOf.latent_leaf (H : HierarchyOf status es desc kids out) (hn : (desc.map Prod.fst).Nodup)
    (hlat : "latent" ∉ desc.map Prod.fst) (p : List String) (m : Mask)
    (h : at? (.grp .or out) (p ++ ["latent"]) = some m) : ∃ d, m = .arr d := by
  induction p using List.reverseRecOn generalizing m with
  | nil =>
    simp only [List.nil_append, at?] at h
    obtain ⟨c, h1, -⟩ := Option.bind_eq_some_iff.1 h
    rw [child_grp] at h1
    exact absurd (List.mem_map.2 ⟨_, Dict.mem_of_get? h1, rfl⟩) (H.noTop hlat)
  | append_singleton p z ih =>
    rw [at?_append] at h
    obtain ⟨mz, h1, h2⟩ := Option.bind_eq_some_iff.1 h
    simp only [at?] at h2
    obtain ⟨c, h3, h4⟩ := Option.bind_eq_some_iff.1 h2
    cases h4
    by_cases hz : z = "latent"
    · subst hz
      obtain ⟨d, rfl⟩ := ih mz h1
      simp [child] at h3
    · have ht := hierarchyOf_at H hn hlat hz h1
      cases ht with
      | leaf _ _ => simp [child] at h3
      | @node _ ms L hk hl hs hL hLi =>
        rw [child_grp] at h3
        rcases List.mem_append.1 (Dict.mem_of_get? h3) with hm | hm
        · exact absurd ((H.ordered z).subset (List.of_mem_zip hm).1) hlat
        · simp only [List.mem_singleton, Prod.mk.injEq] at hm
          exact ⟨L, hm.2⟩

theorem Spec.HierarchyOf.chain (H : HierarchyOf status es desc kids out) (hn : (desc.map Prod.fst).Nodup)
    (hlat : "latent" ∉ desc.map Prod.fst) (p : List String) (x : String) (m : Mask) (hx : x ≠ "latent")
    (h : at? (.grp .or out) (p ++ [x]) = some m) : UpChain kids (x :: p.reverse) := by
  induction p using List.reverseRecOn generalizing m x with
  | nil =>
    simp only [List.nil_append, at?] at h
    obtain ⟨c, h1, -⟩ := Option.bind_eq_some_iff.1 h
    rw [child_grp] at h1
    have hm : x ∈ out.map Prod.fst := List.mem_map.2 ⟨_, Dict.mem_of_get? h1, rfl⟩
    rw [H.top, List.mem_filter] at hm
    refine .root (fun z hz => ?_)
    obtain ⟨-, h2⟩ := hm
    rw [Bool.and_eq_true] at h2
    have := List.all_eq_true.1 h2.2 z (H.known z (List.ne_nil_of_mem hz))
    rw [Bool.not_eq_true', ← Bool.not_eq_true, List.contains_iff_mem] at this
    exact this hz
  | append_singleton p z ih =>
    rw [at?_append] at h
    obtain ⟨mz, h1, h2⟩ := Option.bind_eq_some_iff.1 h
    simp only [at?] at h2
    obtain ⟨c, h3, h4⟩ := Option.bind_eq_some_iff.1 h2
    cases h4
    by_cases hz : z = "latent"
    · subst hz
      obtain ⟨d, rfl⟩ := H.latent_leaf hn hlat p mz h1
      simp [child] at h3
    · have ht := hierarchyOf_at H hn hlat hz h1
      have hk := (treeOf_child ht (hn.sublist (H.ordered z)) hx h3).2
      rw [List.reverse_append]
      exact .step hk (ih z mz hz h1)

theorem Spec.HierarchyOf.nice (H : HierarchyOf status es desc kids out) (hn : (desc.map Prod.fst).Nodup)
    (hlat : "latent" ∉ desc.map Prod.fst) {n : Nat}
    (hlen : ∀ x ∈ desc.map Prod.fst, (maskOf desc x).length = n) (hne : out ≠ []) :
    NiceTree n (.grp .or out) := by
  have hkid : ∀ y z, y ∈ kids z → y ∈ desc.map Prod.fst := fun y z h => (H.ordered z).subset h
  have hagg : Aggregable n (.grp .or out) := by
    refine .group (by decide) hne (fun k m hm => ?_)
    refine treeOf_aggregable (H.entries _ hm) (fun y hy => hlen y ?_)
    rcases hy with rfl | ⟨z, hz⟩
    · have : y ∈ out.map Prod.fst := List.mem_map.2 ⟨_, hm, rfl⟩
      rw [H.top] at this
      exact (List.mem_filter.1 this).1
    · exact hkid y z hz
  refine ⟨⟨.or, _, rfl⟩, ?_, fun p d h => aggregable_leaf hagg h, ?_, ?_⟩
  · intro p op ks h
    obtain ⟨c, h1, h2⟩ := at_of_look h
    induction p using List.reverseRecOn with
    | nil =>
      simp only [at?, Option.some.injEq] at h1
      subst h1
      simp only [node, Node.group.injEq] at h2
      obtain ⟨rfl, rfl⟩ := h2
      refine ⟨rfl, ?_, ?_⟩
      · rw [H.top]; exact hn.filter _
      · obtain ⟨⟨k, m⟩, hk⟩ := List.exists_mem_of_ne_nil out hne
        have hm : k ∈ out.map Prod.fst := List.mem_map.2 ⟨_, hk, rfl⟩
        exact ⟨k, hm, fun h => H.noTop hlat (h ▸ hm)⟩
    | append_singleton p x _ =>
      have hx : x ≠ "latent" := by
        rintro rfl
        obtain ⟨d, rfl⟩ := H.latent_leaf hn hlat p c h1
        simp [node] at h2
      have ht := hierarchyOf_at H hn hlat hx h1
      cases ht with
      | leaf _ _ => simp [node] at h2
      | @node _ ms L hk hl hs hL hLi =>
        simp only [node, Node.group.injEq] at h2
        obtain ⟨rfl, rfl⟩ := h2
        rw [List.map_append, List.map_fst_zip (by omega)]
        refine ⟨rfl, ?_, ?_⟩
        · rw [List.nodup_append]
          refine ⟨hn.sublist (H.ordered x), by simp, ?_⟩
          intro a ha b hb
          simp only [List.map_cons, List.map_nil, List.mem_singleton] at hb
          subst hb
          rintro rfl
          exact hlat (hkid _ _ ha)
        · obtain ⟨k, hk'⟩ := List.exists_mem_of_ne_nil _ hk
          exact ⟨k, List.mem_append_left _ hk', fun h => hlat (hkid _ x (h ▸ hk'))⟩
  · intro p q x hx hp hq
    obtain ⟨a, ha⟩ := Option.isSome_iff_exists.1 hp
    obtain ⟨b, hb⟩ := Option.isSome_iff_exists.1 hq
    obtain ⟨a', ha', -⟩ := at_of_look ha
    obtain ⟨b', hb', -⟩ := at_of_look hb
    have := UpChain.unique (H.kids_parent hn) (H.chain hn hlat p x a' hx ha') (H.chain hn hlat q x b' hx hb')
    exact List.reverse_injective this
  · rw [look_cons, child_grp]
    cases hk : Dict.get? out "latent" with
    | none => rfl
    | some c => exact absurd (List.mem_map.2 ⟨_, Dict.mem_of_get? hk, rfl⟩) (H.noTop hlat)

end

theorem nice_flat {n : Nat} (l : List (String × List Bool)) (hn : (l.map Prod.fst).Nodup)
    (hlat : "latent" ∉ l.map Prod.fst) (hlen : ∀ p ∈ l, p.2.length = n) (hne : l ≠ []) :
    NiceTree n (.grp .or (l.map (fun p => (p.1, Mask.arr p.2)))) := by
  have hmap : (l.map (fun p => (p.1, Mask.arr p.2))).map Prod.fst = l.map Prod.fst := by simp
  have hlook : ∀ k p, look (.grp .or (l.map (fun p => (p.1, Mask.arr p.2)))) (k :: p) ≠ none →
      p = [] ∧ ∃ d, (k, d) ∈ l ∧
        look (.grp .or (l.map (fun p => (p.1, Mask.arr p.2)))) (k :: p) = some (.leaf d) := by
    intro k p h
    rw [look_cons, child_grp] at h ⊢
    cases hk : Dict.get? (l.map (fun p => (p.1, Mask.arr p.2))) k with
    | none => simp [hk] at h
    | some c =>
      rw [hk] at h
      obtain ⟨⟨k', d⟩, h1, h2⟩ := List.mem_map.1 (Dict.mem_of_get? hk)
      simp only [Prod.mk.injEq] at h2
      obtain ⟨rfl, rfl⟩ := h2
      cases p with
      | nil => exact ⟨rfl, d, h1, rfl⟩
      | cons a p => simp [look_cons, child] at h
  refine ⟨⟨.or, _, rfl⟩, ?_, ?_, ?_, ?_⟩
  · intro p op ks h
    cases p with
    | nil =>
      rw [look_nil] at h
      simp only [node, Option.some.injEq, Node.group.injEq] at h
      obtain ⟨rfl, rfl⟩ := h
      rw [hmap]
      refine ⟨rfl, hn, ?_⟩
      obtain ⟨⟨k, d⟩, hk⟩ := List.exists_mem_of_ne_nil l hne
      have hm : k ∈ l.map Prod.fst := List.mem_map.2 ⟨_, hk, rfl⟩
      exact ⟨k, hm, fun h => hlat (h ▸ hm)⟩
    | cons k p =>
      obtain ⟨_, d, _, h2⟩ := hlook k p (by rw [h]; simp)
      rw [h2] at h; cases h
  · intro p d h
    cases p with
    | nil => simp [look_nil, node] at h
    | cons k p =>
      obtain ⟨_, d', h1, h2⟩ := hlook k p (by rw [h]; simp)
      rw [h2] at h
      cases h
      exact hlen _ h1
  · intro p q x _ hp hq
    have one : ∀ p, (look (.grp .or (l.map (fun p => (p.1, Mask.arr p.2)))) (p ++ [x])).isSome → p = [] := by
      intro p hp
      cases p with
      | nil => rfl
      | cons a p =>
        have := (hlook a (p ++ [x]) (by
          intro h; rw [List.cons_append, h] at hp; simp at hp)).1
        simp at this
    rw [one p hp, one q hq]
  · by_contra h
    obtain ⟨_, d, h1, _⟩ := hlook "latent" [] h
    exact hlat (List.mem_map.2 ⟨_, h1, rfl⟩)

/-- The tree returned by `hierarchy` is a nice tree, unless it is empty. -/
theorem hierarchy_nice {nm : Int → String} {pdg status : List Int} {final : List Bool}
    {es : List (Int × Int)} (h1 : pdg.length = es.length) (h2 : status.length = es.length)
    (h3 : final.length = es.length) (hcol : ∀ c ∈ pdg, ':' ∉ (nm c).toList)
    (hlat : ∀ c ∈ pdg, nm c ≠ "latent") {out : Dict Mask}
    (ho : hierarchy nm pdg status final es none = .ok out) (hne : out ≠ []) :
    NiceTree es.length (.grp .or out) := by
  by_cases hint : ∃ s ∈ status, s.natAbs = 22
  · obtain ⟨desc, -, -, hd, -, -⟩ := C48_tree nm pdg status final es h1 h2 h3 hcol hlat hint
    obtain ⟨kids, H⟩ := hierarchy_of h1 h2 h3 hcol hlat hint hd ho
    obtain ⟨f1, f2, f3, f4⟩ := event_facts h1 h2 hcol hlat hd
    exact H.nice f1 f2 f3 hne
  · push Not at hint
    obtain ⟨desc, hd, hh⟩ := C48_flat nm pdg status final es h1 h2 hcol hint
    rw [ho] at hh
    cases hh
    obtain ⟨f1, f2, f3, f4⟩ := event_facts h1 h2 hcol hlat hd
    refine nice_flat desc f1 f2 (fun p hp => ?_) (by rintro rfl; exact hne rfl)
    rw [← f3 p.1 (List.mem_map.2 ⟨_, hp, rfl⟩), maskOf_mem f1 (d := p.2) hp]

end Gcl
