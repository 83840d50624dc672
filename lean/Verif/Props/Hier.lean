import Verif.Lemmas.HierB
import Verif.Props.HardDesc
/-!
# C48-C50: the tree returned by `hierarchy`
-/
namespace Gcl
set_option autoImplicit false
open Spec

theorem treeOf_congr {kids : String → List String} {D D' : String → List Bool}
    {es : List (Int × Int)} {x : String} {m : Mask} (h : TreeOf kids D es x m)
    (he : ∀ y, (y = x ∨ ∃ z, y ∈ kids z) → D y = D' y) : TreeOf kids D' es x m := by
  induction h with
  | leaf hk hm => exact .leaf hk (by rw [← he _ (Or.inl rfl)]; exact hm)
  | @node x ms L hk hl hs hL hLi ih =>
    refine .node hk hl (fun p hp => ih p hp (fun y hy => ?_)) ?_ ?_
    · rcases hy with rfl | hy
      · exact he _ (Or.inr ⟨x, (List.of_mem_zip (a := p.1) (b := p.2) hp).1⟩)
      · exact he _ (Or.inr hy)
    · rw [← he _ (Or.inl rfl)]; exact hL
    · rw [← he _ (Or.inl rfl)]; exact hLi

theorem maskOf_eq (desc : Dict (List Bool)) (x : String) :
    maskOf desc x = (Dict.get? desc x).getD [] := by
  unfold maskOf
  rw [Dict.get?_eq_find]

theorem maskOf_mem {desc : Dict (List Bool)} (hn : (desc.map Prod.fst).Nodup) {x : String}
    {d : List Bool} (h : (x, d) ∈ desc) : maskOf desc x = d := by
  rw [maskOf_eq, Dict.get?_of_mem hn h]; rfl

/-- facts about the default descendant masks, indexed by parton -/
theorem hardDesc_facts (nm : Int → String) (pdg status : List Int) (es : List (Int × Int))
    (h1 : pdg.length = es.length) (h2 : status.length = es.length)
    (hcol : ∀ c ∈ pdg, ':' ∉ (nm c).toList) :
    ∃ desc, hardDescendants nm pdg status es none false true = .ok desc ∧
      desc.map Prod.fst = pdgsToKeys ((gather pdg (partons status)).map nm) ∧
      (desc.map Prod.fst).Nodup ∧
      ∀ (k : Nat) (x : String) (d : List Bool), desc[k]? = some (x, d) →
        ∃ (p : Nat) (e : Int × Int), (partons status)[k]? = some p ∧ es[p]? = some e ∧
          d.length = es.length ∧ maskOf desc x = d ∧
          ∀ (i : Nat), d[i]? = some true ↔
            i = p ∨ ∃ e', es[i]? = some e' ∧ Descends es e.2 e' := by
  obtain ⟨desc, hd, hl, hs⟩ := C44_all nm pdg status es h1 h2 hcol false true
  have hpl : ∀ p ∈ partons status, p < pdg.length := by
    rw [h1, ← h2]; exact partons_lt status
  have hkeys : desc.map Prod.fst = pdgsToKeys ((gather pdg (partons status)).map nm) := by
    apply List.ext_getElem?
    intro k
    rw [(C43_keys _).2 k, List.getElem?_map]
    rcases hp : (partons status)[k]? with _ | p
    · rw [List.getElem?_eq_none_iff] at hp
      rw [List.getElem?_eq_none (by omega)]
      unfold partonKey
      rw [List.getElem?_eq_none]
      · rfl
      · rw [List.length_map, gather_length _ _ hpl]; exact hp
    · obtain ⟨key, d, h3, h4, _⟩ := hs k p hp
      rw [h3]
      have : (gather pdg (partons status)).map nm = namesAt nm pdg (partons status) := by
        rw [map_gather]; rfl
      rw [this, h4]; rfl
  have hnd : (desc.map Prod.fst).Nodup := by
    rw [hkeys]
    apply C43_unique
    intro x hx
    obtain ⟨c, hc, rfl⟩ := List.mem_map.1 hx
    obtain ⟨j, _, hj⟩ := List.mem_filterMap.1 hc
    exact hcol c (List.mem_of_getElem? hj)
  refine ⟨desc, hd, hkeys, hnd, fun k x d hk => ?_⟩
  have hkl : k < (partons status).length := by
    rw [← hl]; exact (List.getElem?_eq_some_iff.1 hk).1
  have hp : (partons status)[k]? = some (partons status)[k] := List.getElem?_eq_getElem hkl
  obtain ⟨key, d', g1, _, g3, g4⟩ := hs k _ hp
  rw [hk] at g1
  cases g1
  have hpe : (partons status)[k] < es.length := by
    rw [← h2]; exact partons_lt status _ (List.getElem_mem hkl)
  refine ⟨_, _, hp, List.getElem?_eq_getElem hpe, g3, maskOf_mem hnd (List.mem_of_getElem? hk), ?_⟩
  intro i
  constructor
  · intro hi
    have hil : i < es.length := by
      rw [← g3]; exact (List.getElem?_eq_some_iff.1 hi).1
    rcases (g4 i _ _ (List.getElem?_eq_getElem hil) (List.getElem?_eq_getElem hpe)).1 hi with h | h
    · exact Or.inl h
    · exact Or.inr ⟨_, List.getElem?_eq_getElem hil, h⟩
  · rintro (rfl | ⟨e', he', hde⟩)
    · exact (g4 _ _ _ (List.getElem?_eq_getElem hpe) (List.getElem?_eq_getElem hpe)).2 (Or.inl rfl)
    · exact (g4 i e' _ he' (List.getElem?_eq_getElem hpe)).2 (Or.inr hde)

theorem key_ne_latent (names : List String) (h : "latent" ∉ names) :
    "latent" ∉ pdgsToKeys names := by
  intro hm
  obtain ⟨i, hi⟩ := List.mem_iff_getElem?.1 hm
  rw [(C43_keys names).2 i] at hi
  unfold partonKey at hi
  obtain ⟨x, hx, hk⟩ := Option.map_eq_some_iff.1 hi
  split at hk
  · subst hk; exact h (List.mem_of_getElem? hx)
  · have := congrArg String.toList hk
    have hcol : ':' ∈ (x ++ ":" ++ toString ((names.take i).count x)).toList := by
      simp [String.toList_append]
    rw [this] at hcol
    revert hcol
    decide

/-- **C48** For every event with an intermediate hard parton: `hierarchy(graph)` succeeds and is the
tree of the hard partons, nested by closest ancestry, built from their descendant masks. -/
theorem C48_tree (nm : Int → String) (pdg status : List Int) (final : List Bool)
    (es : List (Int × Int)) (h1 : pdg.length = es.length) (h2 : status.length = es.length)
    (h3 : final.length = es.length) (hcol : ∀ c ∈ pdg, ':' ∉ (nm c).toList)
    (hlat : ∀ c ∈ pdg, nm c ≠ "latent") (hint : ∃ s ∈ status, s.natAbs = 22) :
    ∃ desc out kids, hardDescendants nm pdg status es none false true = .ok desc ∧
      hierarchy nm pdg status final es none = .ok out ∧ HierarchyOf status es desc kids out := by
  obtain ⟨desc, d1, d2, d3, d4⟩ := hardDesc_facts nm pdg status es h1 h2 hcol
  obtain ⟨hg, g1, g2, g3⟩ := hardGroup_or status
  set names := pdgsToKeys ((gather pdg (partons status)).map nm) with hnames
  have hhl : (hardBools status).length = es.length := by simp [hardBools, h2]
  have hdlen : desc.length = (partons status).length := by
    have := congrArg List.length d2
    rw [List.length_map, (C43_keys _).1, List.length_map, gather_length] at this
    · exact this
    · rw [h1, ← h2]; exact partons_lt status
  have hmaskmem : ∀ x ∈ names, Dict.get? desc x = some (maskOf desc x) ∧ (x, maskOf desc x) ∈ desc := by
    intro x hx
    rw [← d2] at hx
    obtain ⟨⟨y, d⟩, hp, rfl⟩ := List.mem_map.1 hx
    have := maskOf_mem d3 hp
    simp only
    rw [this]
    exact ⟨Dict.get?_of_mem d3 hp, hp⟩
  have hown : ∀ (k : Nat) (x : String) (p : Nat), names[k]? = some x → (partons status)[k]? = some p →
      (maskOf desc x)[p]? = some true := by
    intro k x p hx hp
    rw [← d2, List.getElem?_map] at hx
    obtain ⟨⟨y, d⟩, hk, rfl⟩ := Option.map_eq_some_iff.1 hx
    obtain ⟨p', e, q1, q2, q3, q4, q5⟩ := d4 k y d hk
    rw [hp] at q1
    cases q1
    simp only
    rw [q4]
    exact (q5 p).2 (Or.inl rfl)
  have hlen : ∀ p ∈ desc, p.2.length = es.length := by
    rintro ⟨x, d⟩ hp
    obtain ⟨k, hk⟩ := List.mem_iff_getElem?.1 hp
    obtain ⟨p', e, q1, q2, q3, _⟩ := d4 k x d hk
    exact q3
  have hnl : names.length = (trueIdxs (hardBools status)).length := by
    rw [trueIdxs_hard, ← hdlen, ← d2, List.length_map]
  obtain ⟨out, kids, D, t1, t2, t3, t4, t5, t6, t7⟩ := hierarchyTree_spec names (hardBools status)
    final es desc (by rw [← d2]; exact d3)
    (by
      apply key_ne_latent
      intro hm
      obtain ⟨c, hc, hcl⟩ := List.mem_map.1 hm
      obtain ⟨j, _, hj⟩ := List.mem_filterMap.1 hc
      exact hlat c (List.mem_of_getElem? hj) hcl) hnl hhl h3 hlen
    (maskOf desc) (fun x hx => (hmaskmem x hx).1)
    (fun x hx => by
      obtain ⟨k, hk⟩ := List.mem_iff_getElem?.1 hx
      have hkl : k < (partons status).length := by
        rw [← trueIdxs_hard, ← hnl]; exact (List.getElem?_eq_some_iff.1 hk).1
      exact ⟨_, hown k x _ hk (List.getElem?_eq_getElem hkl)⟩)
  rw [trueIdxs_hard] at t3 t5
  have hDeq : ∀ x ∈ names, D x = maskOf desc x := by
    intro x hx
    obtain ⟨u1, u2⟩ := t5 x hx
    have hml : (maskOf desc x).length = es.length := hlen _ (hmaskmem x hx).2
    apply List.ext_getElem (u1.trans hml.symm)
    intro i hi hi'
    have := u2 i
    rw [List.getElem?_eq_getElem hi, List.getElem?_eq_getElem hi'] at this
    rw [Bool.eq_iff_iff]
    constructor
    · intro h
      rcases this.1 (by rw [h]) with h | ⟨k, hk1, hk2, _⟩
      · exact Option.some.inj h
      · have := hown k x i hk1 hk2
        rw [List.getElem?_eq_getElem hi'] at this
        exact Option.some.inj this
    · intro h
      exact Option.some.inj (this.2 (Or.inl (by rw [h])))
  refine ⟨desc, out, kids, d1, ?_, ?_⟩
  · unfold hierarchy
    have hpd : (Key.mask (hardBools status)).apply pdg = .ok (gather pdg (partons status)) := by
      simp only [Key.apply, Key.resolve, h1, hhl, if_true, trueIdxs_hard]
    simp only [g1, g2, hpd, d1, g3, Mask.data]
    have hany : (status.map (fun s => decide (s.natAbs = 22))).any id = true := by
      obtain ⟨s, hs, hs'⟩ := hint
      rw [List.any_map, List.any_eq_true]
      exact ⟨s, hs, by simpa using hs'⟩
    rw [hany]
    exact t1
  · have hds : names.map (fun x => gather (maskOf desc x) (partons status)) =
        desc.map (fun p => atPartons status p.2) := by
      rw [← d2, List.map_map]
      apply List.map_congr_left
      rintro ⟨x, d⟩ hp
      simp only [Function.comp]
      rw [maskOf_mem d3 hp]; rfl
    rw [hds] at t3
    refine ⟨by rw [d2]; exact t2, by rw [d2]; exact t3, by rw [d2]; exact t4, by rw [d2]; exact t6, ?_⟩
    intro p hp
    refine treeOf_congr (t7 p hp) (fun y hy => hDeq y ?_)
    rcases hy with rfl | ⟨z, hz⟩
    · have : p.1 ∈ Dict.keys out := List.mem_map.2 ⟨p, hp, rfl⟩
      rw [t6] at this
      exact (List.mem_filter.1 this).1
    · exact (t2 z).subset hz

/-- **C48** Without an intermediate hard parton `hierarchy(graph)` is the flat group of descendant
masks. -/
theorem C48_flat (nm : Int → String) (pdg status : List Int) (final : List Bool)
    (es : List (Int × Int)) (h1 : pdg.length = es.length) (h2 : status.length = es.length)
    (hcol : ∀ c ∈ pdg, ':' ∉ (nm c).toList) (hint : ∀ s ∈ status, s.natAbs ≠ 22) :
    ∃ desc, hardDescendants nm pdg status es none false true = .ok desc ∧
      hierarchy nm pdg status final es none = .ok (desc.map (fun p => (p.1, Mask.arr p.2))) := by
  obtain ⟨desc, d1, d2, d3, d4⟩ := hardDesc_facts nm pdg status es h1 h2 hcol
  obtain ⟨hg, g1, g2, g3⟩ := hardGroup_or status
  have hhl : (hardBools status).length = es.length := by simp [hardBools, h2]
  refine ⟨desc, d1, ?_⟩
  unfold hierarchy
  have hpd : (Key.mask (hardBools status)).apply pdg = .ok (gather pdg (partons status)) := by
    simp only [Key.apply, Key.resolve, h1, hhl, if_true, trueIdxs_hard]
  simp only [g1, g2, hpd, d1, g3, Mask.data]
  have hany : (status.map (fun s => decide (s.natAbs = 22))).any id = false := by
    rw [← Bool.not_eq_true, List.any_map, List.any_eq_true]
    rintro ⟨s, hs, hs'⟩
    exact hint s hs (by simpa using hs')
  rw [hany]
  rfl

/-- **C48** The same with descendant masks passed by the caller, for all such masks (of the right
length, one non-empty mask for every hard parton, under its key, in any order and possibly among
others): the tree is built from them, after marking every final hard parton in its own mask. -/
theorem C48_given (nm : Int → String) (pdg status : List Int) (final : List Bool)
    (es : List (Int × Int)) (h1 : pdg.length = es.length) (h2 : status.length = es.length)
    (h3 : final.length = es.length) (hcol : ∀ c ∈ pdg, ':' ∉ (nm c).toList)
    (hlat : ∀ c ∈ pdg, nm c ≠ "latent") (hint : ∃ s ∈ status, s.natAbs = 22)
    (desc : Dict (List Bool)) (hdn : (desc.map Prod.fst).Nodup)
    (hdl : ∀ p ∈ desc, p.2.length = es.length) (names : List String)
    (hnames : ∀ k : Nat, names[k]? = partonKey (namesAt nm pdg (partons status)) k)
    (hdesc : ∀ x ∈ names, ∃ d, (x, d) ∈ desc ∧ ∃ i : Nat, d[i]? = some true) :
    ∃ (out : Dict Mask) (kids : String → List String) (D : String → List Bool),
      hierarchy nm pdg status final es (some desc) = .ok out ∧
      (∀ x, (kids x).Sublist names) ∧
      (∀ (i c : Nat) (x y : String), names[i]? = some x → names[c]? = some y →
        (y ∈ kids x ↔ IsParent (names.map (fun x => atPartons status (maskOf desc x))) i c)) ∧
      (∀ x ∈ names, (D x).length = es.length ∧ ∀ i : Nat, (D x)[i]? = some true ↔
        (maskOf desc x)[i]? = some true ∨
          ∃ k : Nat, names[k]? = some x ∧ (partons status)[k]? = some i ∧ final[i]? = some true) ∧
      out.map Prod.fst = names.filter (fun x => !(kids x).isEmpty &&
        names.all (fun z => !(kids z).contains x)) ∧
      (∀ p ∈ out, TreeOf kids D es p.1 p.2) := by
  obtain ⟨hg, g1, g2, g3⟩ := hardGroup_or status
  have hhl : (hardBools status).length = es.length := by simp [hardBools, h2]
  have hpl : ∀ p ∈ partons status, p < pdg.length := by rw [h1, ← h2]; exact partons_lt status
  have hnm : (gather pdg (partons status)).map nm = namesAt nm pdg (partons status) := by
    rw [map_gather]; rfl
  have hne : names = pdgsToKeys ((gather pdg (partons status)).map nm) := by
    apply List.ext_getElem?
    intro k
    rw [hnames, (C43_keys _).2 k, hnm]
  have hcolon : ∀ x ∈ (gather pdg (partons status)).map nm, ':' ∉ x.toList ∧ x ≠ "latent" := by
    intro x hx
    obtain ⟨c, hc, rfl⟩ := List.mem_map.1 hx
    obtain ⟨j, _, hj⟩ := List.mem_filterMap.1 hc
    exact ⟨hcol c (List.mem_of_getElem? hj), hlat c (List.mem_of_getElem? hj)⟩
  obtain ⟨out, kids, D, t1, t2, t3, t4, t5, t6, t7⟩ := hierarchyTree_spec names (hardBools status)
    final es desc (by rw [hne]; exact C43_unique _ (fun x hx => (hcolon x hx).1))
    (by rw [hne]; exact key_ne_latent _ (fun hm => (hcolon _ hm).2 rfl))
    (by rw [trueIdxs_hard, hne, (C43_keys _).1, List.length_map, gather_length _ _ hpl])
    hhl h3 hdl (maskOf desc)
    (fun x hx => by
      obtain ⟨d, hd, _⟩ := hdesc x hx
      rw [maskOf_mem hdn hd]; exact Dict.get?_of_mem hdn hd)
    (fun x hx => by
      obtain ⟨d, hd, ht⟩ := hdesc x hx
      rw [maskOf_mem hdn hd]; exact ht)
  rw [trueIdxs_hard] at t3 t5
  refine ⟨out, kids, D, ?_, t2, t3, t5, t6, t7⟩
  unfold hierarchy
  have hpd : (Key.mask (hardBools status)).apply pdg = .ok (gather pdg (partons status)) := by
    simp only [Key.apply, Key.resolve, h1, hhl, if_true, trueIdxs_hard]
  simp only [g1, g2, hpd, g3, Mask.data]
  have hany : (status.map (fun s => decide (s.natAbs = 22))).any id = true := by
    obtain ⟨s, hs, hs'⟩ := hint
    rw [List.any_map, List.any_eq_true]
    exact ⟨s, hs, by simpa using hs'⟩
  rw [hany, ← hne]
  exact t1

/-! ## What is found at a path -/

theorem at?_append (m : Mask) (p q : List String) :
    at? m (p ++ q) = (at? m p).bind (fun m' => at? m' q) := by
  induction p generalizing m with
  | nil => rfl
  | cons k p ih =>
    simp only [List.cons_append, at?]
    rcases child m k with _ | c
    · rfl
    · simp only [Option.bind_some, ih]

theorem treeOf_child {kids : String → List String} {D : String → List Bool} {es : List (Int × Int)}
    {z : String} {m : Mask} (h : TreeOf kids D es z m) (hn : (kids z).Nodup)
    {x : String} {m' : Mask} (hx : x ≠ "latent") (hc : child m x = some m') :
    TreeOf kids D es x m' ∧ x ∈ kids z := by
  cases h with
  | leaf _ _ => simp [child] at hc
  | @node _ ms L hk hl hs hL hLi =>
    rw [child_grp] at hc
    have hm := Dict.mem_of_get? hc
    rcases List.mem_append.1 hm with hm | hm
    · exact ⟨hs _ hm, (List.of_mem_zip hm).1⟩
    · simp only [List.mem_singleton, Prod.mk.injEq] at hm
      exact absurd hm.1 hx

theorem treeOf_at {kids : String → List String} {D : String → List Bool} {es : List (Int × Int)}
    (hn : ∀ z, (kids z).Nodup) (hlat : ∀ z, "latent" ∉ kids z) {z : String} {m : Mask}
    (h : TreeOf kids D es z m) {p : List String} {x : String} {m' : Mask} (hx : x ≠ "latent")
    (hc : at? m (p ++ [x]) = some m') : TreeOf kids D es x m' ∧ ∃ z, x ∈ kids z := by
  induction p generalizing z m with
  | nil =>
    simp only [List.nil_append, at?] at hc
    obtain ⟨c, h1, h2⟩ := Option.bind_eq_some_iff.1 hc
    cases h2
    exact ⟨(treeOf_child h (hn z) hx h1).1, z, (treeOf_child h (hn z) hx h1).2⟩
  | cons k p ih =>
    simp only [List.cons_append, at?] at hc
    obtain ⟨c, h1, h2⟩ := Option.bind_eq_some_iff.1 hc
    by_cases hk : k = "latent"
    · -- `latent` is a leaf
      exfalso
      cases h with
      | leaf _ _ => simp [child] at h1
      | @node _ ms L hk' hl hs hL hLi =>
        rw [child_grp] at h1
        have hm := Dict.mem_of_get? h1
        rcases List.mem_append.1 hm with hm | hm
        · exact hlat z (hk ▸ (List.of_mem_zip hm).1)
        · simp only [List.mem_singleton, Prod.mk.injEq] at hm
          rw [hm.2] at h2
          cases p with
          | nil => simp [at?, child] at h2
          | cons _ _ => simp [at?, child] at h2
    · exact ih (treeOf_child h (hn z) hk h1).1 h2

theorem hierarchyOf_at {status : List Int} {es : List (Int × Int)} {desc : Dict (List Bool)}
    {kids : String → List String} {out : Dict Mask} (H : HierarchyOf status es desc kids out)
    (hn : (desc.map Prod.fst).Nodup) (hlat : "latent" ∉ desc.map Prod.fst)
    {p : List String} {x : String} {m : Mask} (hx : x ≠ "latent")
    (hc : at? (.grp .or out) (p ++ [x]) = some m) : TreeOf kids (maskOf desc) es x m := by
  have hkn : ∀ z, (kids z).Nodup := fun z => hn.sublist (H.ordered z)
  have hkl : ∀ z, "latent" ∉ kids z := fun z h => hlat ((H.ordered z).subset h)
  cases p with
  | nil =>
    simp only [List.nil_append, at?] at hc
    obtain ⟨c, h1, h2⟩ := Option.bind_eq_some_iff.1 hc
    cases h2
    rw [child_grp] at h1
    exact H.entries _ (Dict.mem_of_get? h1)
  | cons k p =>
    simp only [List.cons_append, at?] at hc
    obtain ⟨c, h1, h2⟩ := Option.bind_eq_some_iff.1 hc
    rw [child_grp] at h1
    exact (treeOf_at hkn hkl (H.entries _ (Dict.mem_of_get? h1)) hx h2).1

theorem hierarchyOf_occurs {status : List Int} {es : List (Int × Int)} {desc : Dict (List Bool)}
    {kids : String → List String} {out : Dict Mask} (H : HierarchyOf status es desc kids out)
    (hn : (desc.map Prod.fst).Nodup) (hlat : "latent" ∉ desc.map Prod.fst)
    {p : List String} {x : String} {m : Mask} (hx : x ≠ "latent")
    (hc : at? (.grp .or out) (p ++ [x]) = some m) : kids x ≠ [] ∨ ∃ z, x ∈ kids z := by
  have hkn : ∀ z, (kids z).Nodup := fun z => hn.sublist (H.ordered z)
  have hkl : ∀ z, "latent" ∉ kids z := fun z h => hlat ((H.ordered z).subset h)
  cases p with
  | nil =>
    simp only [List.nil_append, at?] at hc
    obtain ⟨c, h1, h2⟩ := Option.bind_eq_some_iff.1 hc
    rw [child_grp] at h1
    have : x ∈ out.map Prod.fst := List.mem_map.2 ⟨_, Dict.mem_of_get? h1, rfl⟩
    rw [H.top, List.mem_filter, Bool.and_eq_true] at this
    exact Or.inl (by simpa using this.2.1)
  | cons k p =>
    simp only [List.cons_append, at?] at hc
    obtain ⟨c, h1, h2⟩ := Option.bind_eq_some_iff.1 hc
    rw [child_grp] at h1
    exact Or.inr (treeOf_at hkn hkl (H.entries _ (Dict.mem_of_get? h1)) hx h2).2

theorem holds_node {i : Nat} {sub : List (String × Mask)} {L : List Bool} :
    Holds i (.grp .or (sub ++ [("latent", .arr L)])) ↔
      (∃ p ∈ sub, Holds i p.2) ∨ L[i]? = some true := by
  constructor
  · intro h
    cases h with
    | any hm hh =>
      rcases List.mem_append.1 hm with hm | hm
      · exact Or.inl ⟨_, hm, hh⟩
      · simp only [List.mem_singleton, Prod.mk.injEq] at hm
        rw [hm.2] at hh
        cases hh with
        | leaf h => exact Or.inr h
  · rintro (⟨⟨k, m⟩, hm, hh⟩ | h)
    · exact .any (List.mem_append_left _ hm) hh
    · exact .any (List.mem_append_right _ (List.mem_singleton.2 rfl)) (.leaf h)

/-- one entry of the tree: the statement of C48 for it -/
theorem treeOf_group {kids : String → List String} {D : String → List Bool} {es : List (Int × Int)}
    {x : String} {op : Agg} {ks : List (String × Mask)} {n : Nat}
    (h : TreeOf kids D es x (.grp op ks))
    (hl : ∀ y, (y = x ∨ ∃ z, y ∈ kids z) → (D y).length = n) :
    op = .or ∧ ∃ sub L, ks = sub ++ [("latent", .arr L)] ∧ sub.map Prod.fst = kids x ∧ kids x ≠ [] ∧
      (∀ p ∈ sub, TreeOf kids D es p.1 p.2) ∧ L.length = n ∧
      (∀ i : Nat, i < n → (Holds i (.grp op ks) ↔
        (D x)[i]? = some true ∨ ∃ p ∈ sub, Holds i p.2)) ∧
      ((∀ i : Nat, i < n → (∃ p ∈ sub, Holds i p.2) → (D x)[i]? = some true) →
        IsAggregate (.grp op ks) (D x) ∧
        ∀ i : Nat, i < n → (L[i]? = some true ↔
          (D x)[i]? = some true ∧ ¬ ∃ p ∈ sub, Holds i p.2)) := by
  have hagg := treeOf_aggregable h hl
  cases h with
  | @node _ ms L hk hml hs hL hLi =>
    have hLn : L.length = n := hL.trans (hl x (Or.inl rfl))
    have hmain : ∀ i : Nat, i < n →
        (Holds i (.grp .or ((kids x).zip ms ++ [("latent", .arr L)])) ↔
          (D x)[i]? = some true ∨ ∃ p ∈ (kids x).zip ms, Holds i p.2) := by
      intro i hi
      rw [holds_node, hLi i (by omega)]
      by_cases ha : (D x)[i]? = some true <;> by_cases hb : ∃ p ∈ (kids x).zip ms, Holds i p.2 <;>
        simp [ha, hb]
    refine ⟨rfl, (kids x).zip ms, L, rfl, zip_keys hml, hk, hs, hLn, hmain, ?_⟩
    intro hsub
    refine ⟨⟨by rw [hl x (Or.inl rfl)]; exact hagg, fun i hi => ?_⟩, fun i hi => ?_⟩
    · have hi' : i < n := by rw [hl x (Or.inl rfl)] at hi; exact hi
      rw [hmain i hi', ← Option.some.injEq (D x)[i] true, ← List.getElem?_eq_getElem hi]
      constructor
      · exact Or.inl
      · rintro (h | h)
        · exact h
        · exact hsub i hi' h
    · rw [hLi i (by omega)]
      constructor
      · rintro (h | ⟨h1, h2⟩)
        · exact h
        · exact absurd (hsub i hi h2) h1
      · exact Or.inl

/-- facts needed to apply the lemmas above to an event -/
theorem event_facts {nm : Int → String} {pdg status : List Int} {es : List (Int × Int)}
    (h1 : pdg.length = es.length) (h2 : status.length = es.length)
    (hcol : ∀ c ∈ pdg, ':' ∉ (nm c).toList) (hlat : ∀ c ∈ pdg, nm c ≠ "latent")
    {desc : Dict (List Bool)} (hd : hardDescendants nm pdg status es none false true = .ok desc) :
    (desc.map Prod.fst).Nodup ∧ "latent" ∉ desc.map Prod.fst ∧
      (∀ x ∈ desc.map Prod.fst, (maskOf desc x).length = es.length) ∧
      ∀ (k : Nat) (x : String), (desc.map Prod.fst)[k]? = some x →
        ∃ (p : Nat) (e : Int × Int), (partons status)[k]? = some p ∧ es[p]? = some e ∧
          ∀ (i : Nat), (maskOf desc x)[i]? = some true ↔
            i = p ∨ ∃ e', es[i]? = some e' ∧ Descends es e.2 e' := by
  obtain ⟨desc', d1, d2, d3, d4⟩ := hardDesc_facts nm pdg status es h1 h2 hcol
  rw [hd] at d1
  cases d1
  refine ⟨d3, ?_, ?_, ?_⟩
  · rw [d2]
    apply key_ne_latent
    intro hm
    obtain ⟨c, hc, hcl⟩ := List.mem_map.1 hm
    obtain ⟨j, _, hj⟩ := List.mem_filterMap.1 hc
    exact hlat c (List.mem_of_getElem? hj) hcl
  · intro x hx
    obtain ⟨⟨y, d⟩, hp, rfl⟩ := List.mem_map.1 hx
    obtain ⟨k, hk⟩ := List.mem_iff_getElem?.1 hp
    obtain ⟨p', e, q1, q2, q3, q4, _⟩ := d4 k y d hk
    simp only
    rw [q4]; exact q3
  · intro k x hx
    rw [List.getElem?_map] at hx
    obtain ⟨⟨y, d⟩, hk, rfl⟩ := Option.map_eq_some_iff.1 hx
    obtain ⟨p', e, q1, q2, q3, q4, q5⟩ := d4 k y d hk
    simp only
    rw [q4]
    exact ⟨p', e, q1, q2, q5⟩

/-- the hierarchy of an event is its `HierarchyOf` -/
theorem hierarchy_of {nm : Int → String} {pdg status : List Int} {final : List Bool}
    {es : List (Int × Int)} (h1 : pdg.length = es.length) (h2 : status.length = es.length)
    (h3 : final.length = es.length) (hcol : ∀ c ∈ pdg, ':' ∉ (nm c).toList)
    (hlat : ∀ c ∈ pdg, nm c ≠ "latent") (hint : ∃ s ∈ status, s.natAbs = 22)
    {desc : Dict (List Bool)} {out : Dict Mask}
    (hd : hardDescendants nm pdg status es none false true = .ok desc)
    (ho : hierarchy nm pdg status final es none = .ok out) :
    ∃ kids, HierarchyOf status es desc kids out := by
  obtain ⟨desc', out', kids, d1, d2, H⟩ := C48_tree nm pdg status final es h1 h2 h3 hcol hlat hint
  rw [hd] at d1
  rw [ho] at d2
  cases d1
  cases d2
  exact ⟨kids, H⟩

/-- **C48** For every group anywhere in `hierarchy(graph)`, found under the key of parton `x`: it
aggregates with `or`, its last entry is `latent`, and its aggregate is the parton's own descendant mask
joined with those of the children.  If the children lie inside the parton's mask, the aggregate is
exactly that mask and `latent` exactly the part not covered by the children. -/
theorem C48_groups (nm : Int → String) (pdg status : List Int) (final : List Bool)
    (es : List (Int × Int)) (h1 : pdg.length = es.length) (h2 : status.length = es.length)
    (h3 : final.length = es.length) (hcol : ∀ c ∈ pdg, ':' ∉ (nm c).toList)
    (hlat : ∀ c ∈ pdg, nm c ≠ "latent") (hint : ∃ s ∈ status, s.natAbs = 22)
    (desc : Dict (List Bool)) (out : Dict Mask)
    (hd : hardDescendants nm pdg status es none false true = .ok desc)
    (ho : hierarchy nm pdg status final es none = .ok out)
    (path : List String) (x : String) (op : Agg) (ks : List (String × Mask)) (hx : x ≠ "latent")
    (hat : at? (.grp .or out) (path ++ [x]) = some (.grp op ks)) :
    op = .or ∧ ∃ sub L, ks = sub ++ [("latent", .arr L)] ∧ sub ≠ [] ∧ L.length = es.length ∧
      (∀ i : Nat, i < es.length → (Holds i (.grp op ks) ↔
        (maskOf desc x)[i]? = some true ∨ ∃ p ∈ sub, Holds i p.2)) ∧
      ((∀ i : Nat, i < es.length → (∃ p ∈ sub, Holds i p.2) → (maskOf desc x)[i]? = some true) →
        IsAggregate (.grp op ks) (maskOf desc x) ∧
        ∀ i : Nat, i < es.length → (L[i]? = some true ↔
          (maskOf desc x)[i]? = some true ∧ ¬ ∃ p ∈ sub, Holds i p.2)) := by
  obtain ⟨kids, H⟩ := hierarchy_of h1 h2 h3 hcol hlat hint hd ho
  obtain ⟨f1, f2, f3, f4⟩ := event_facts h1 h2 hcol hlat hd
  have ht := hierarchyOf_at H f1 f2 hx hat
  have hkx : kids x ≠ [] := by
    cases ht with
    | node hk _ _ _ _ => exact hk
  obtain ⟨g1, sub, L, g2, g3, g4, g5, g6, g7, g8⟩ := treeOf_group (n := es.length) ht (fun y hy => by
    apply f3
    rcases hy with rfl | ⟨z, hz⟩
    · exact H.known _ hkx
    · exact (H.ordered z).subset hz)
  refine ⟨g1, sub, L, g2, ?_, g6, g7, g8⟩
  rintro rfl
  exact g4 (by rw [← g3]; rfl)

theorem mem_atPartons {status : List Int} {d : List Bool} {n : Nat} (hl : d.length = n)
    (hp : ∀ p ∈ partons status, p < n) (c : Nat) :
    (atPartons status d)[c]? = (partons status)[c]?.bind (fun p => d[p]?) :=
  gather_getElem? d (partons status) (by rw [hl]; exact hp) c

/-- descent between hard partons, in terms of the event -/
theorem isAnc_event {nm : Int → String} {pdg status : List Int} {es : List (Int × Int)}
    (h1 : pdg.length = es.length) (h2 : status.length = es.length)
    (hcol : ∀ c ∈ pdg, ':' ∉ (nm c).toList) (hlat : ∀ c ∈ pdg, nm c ≠ "latent")
    {desc : Dict (List Bool)} (hd : hardDescendants nm pdg status es none false true = .ok desc)
    (a c : Nat) : isAnc (desc.map (fun p => atPartons status p.2)) a c = true →
    ∃ (x y : String) (pa pc : Nat) (ea ec : Int × Int), a ≠ c ∧
      (desc.map Prod.fst)[a]? = some x ∧ (desc.map Prod.fst)[c]? = some y ∧
      (partons status)[a]? = some pa ∧ (partons status)[c]? = some pc ∧
      es[pa]? = some ea ∧ es[pc]? = some ec ∧ pa ≠ pc ∧ Descends es ea.2 ec := by
  intro h
  obtain ⟨f1, f2, f3, f4⟩ := event_facts h1 h2 hcol hlat hd
  have hne := isAnc_ne h
  unfold isAnc at h
  simp only [Bool.and_eq_true, beq_iff_eq] at h
  obtain ⟨r, hr, hrc⟩ := Option.bind_eq_some_iff.1 h.2
  rw [List.getElem?_map] at hr
  obtain ⟨⟨x, d⟩, hk, rfl⟩ := Option.map_eq_some_iff.1 hr
  have hx : (desc.map Prod.fst)[a]? = some x := by rw [List.getElem?_map, hk]; rfl
  have hmd : maskOf desc x = d := maskOf_mem f1 (List.mem_of_getElem? hk)
  have hdl : d.length = es.length := by
    rw [← hmd]; exact f3 x (List.mem_of_getElem? hx)
  simp only at hrc
  rw [mem_atPartons hdl (by rw [← h2]; exact partons_lt status)] at hrc
  obtain ⟨pc, hpc, hdpc⟩ := Option.bind_eq_some_iff.1 hrc
  obtain ⟨pa, ea, q1, q2, q3⟩ := f4 a x hx
  rw [hmd] at q3
  have hpp : pa ≠ pc := by
    rintro rfl
    have := (List.getElem?_inj (List.getElem?_eq_some_iff.1 q1).1 (partons_nodup status)).1
      (q1.trans hpc.symm)
    exact hne this
  rcases (q3 pc).1 hdpc with h | ⟨ec, h4, h5⟩
  · exact absurd h.symm hpp
  · have hcl : c < (desc.map Prod.fst).length := by
      have e1 := (List.getElem?_eq_some_iff.1 hpc).1
      obtain ⟨desc', d1, d2, _⟩ := hardDesc_facts nm pdg status es h1 h2 hcol
      rw [hd] at d1
      cases d1
      rw [d2, (C43_keys _).1, List.length_map, gather_length]
      · exact e1
      · rw [h1, ← h2]; exact partons_lt status
    exact ⟨x, _, pa, pc, ea, ec, hne, hx, List.getElem?_eq_getElem hcl, q1, hpc, q2, h4, hpp, h5⟩

theorem descends_reach {status : List Int} {es : List (Int × Int)} (hpe : PrivateEnds status es)
    {pa pc : Nat} {ea ec : Int × Int} (hpa : pa ∈ partons status) (h1 : es[pa]? = some ea)
    (h2 : es[pc]? = some ec) (hne : pa ≠ pc) (h : Descends es ea.2 ec) :
    (∃ w, (ea.2, w) ∈ es) ∧ Reach es ea.2 ec.1 := by
  rcases h with h | ⟨h3, h4⟩
  · exact h
  · exact absurd (hpe pa ea hpa h1 h3 pc ec h2 h4).symm hne

/-- everything selected by the entry of a parton descends from the parton's parent -/
theorem leaf_inside {status : List Int} {es : List (Int × Int)} (hpe : PrivateEnds status es)
    {pa pc : Nat} {ea ec : Int × Int} (hpa : pa ∈ partons status) (hpc : pc ∈ partons status)
    (h1 : es[pa]? = some ea) (h2 : es[pc]? = some ec)
    (hne : pa ≠ pc) (h : Descends es ea.2 ec) {Da Dc : List Bool}
    (ha : ∀ i : Nat, Da[i]? = some true ↔ i = pa ∨ ∃ e', es[i]? = some e' ∧ Descends es ea.2 e')
    (hc : ∀ i : Nat, Dc[i]? = some true ↔ i = pc ∨ ∃ e', es[i]? = some e' ∧ Descends es ec.2 e') :
    (∀ i : Nat, Dc[i]? = some true → Da[i]? = some true) ∧
    (∀ (i f : Nat) (e : Int × Int), Dc[f]? = some true → es[f]? = some e → OnlyInto es e.1 i →
      Da[i]? = some true) := by
  obtain ⟨hw, hr⟩ := descends_reach hpe hpa h1 h2 hne h
  have hstep : Reach es ec.1 ec.2 :=
    Relation.ReflTransGen.single (show (ec.1, ec.2) ∈ es from List.mem_of_getElem? h2)
  have key : ∀ (f : Nat) (e : Int × Int), Dc[f]? = some true → es[f]? = some e → Reach es ea.2 e.1 := by
    intro f e hf he
    rcases (hc f).1 hf with rfl | ⟨e', he', hde⟩
    · rw [h2] at he; cases he; exact hr
    · rw [he] at he'
      cases he'
      rcases hde with ⟨_, hre⟩ | ⟨hno, hend⟩
      · exact (hr.trans hstep).trans hre
      · have := hpe pc ec hpc h2 hno f e he hend
        subst this
        rw [h2] at he; cases he; exact hr
  constructor
  · intro i hi
    rcases (hc i).1 hi with rfl | ⟨e', he', _⟩
    · exact (ha i).2 (Or.inr ⟨ec, h2, Or.inl ⟨hw, key i ec hi h2⟩⟩)
    · exact (ha i).2 (Or.inr ⟨e', he', Or.inl ⟨hw, key i e' hi he'⟩⟩)
  · intro i f e hf he ho
    have hre := key f e hf he
    obtain ⟨⟨ei, hei, hei2⟩, huniq⟩ := ho
    rcases Relation.ReflTransGen.cases_tail hre with heq | ⟨b, hb, hs⟩
    · have : pa = i := huniq pa ea h1 heq.symm
      exact (ha i).2 (Or.inl this.symm)
    · have hs' : (b, e.1) ∈ es := hs
      obtain ⟨j, hj⟩ := List.mem_iff_getElem?.1 hs'
      have hji := huniq j _ hj rfl
      subst hji
      exact (ha j).2 (Or.inr ⟨_, hj, Or.inl ⟨hw, hb⟩⟩)

/-- **C48** For every event in which hard partons that decay no further do not share their end vertex:
each group of `hierarchy(graph)`, found under the key of parton `x`, aggregates to exactly the
descendant mask of `x`, and `latent` is exactly the part of it not selected by any child. -/
theorem C48_exact (nm : Int → String) (pdg status : List Int) (final : List Bool)
    (es : List (Int × Int)) (h1 : pdg.length = es.length) (h2 : status.length = es.length)
    (h3 : final.length = es.length) (hcol : ∀ c ∈ pdg, ':' ∉ (nm c).toList)
    (hlat : ∀ c ∈ pdg, nm c ≠ "latent") (hint : ∃ s ∈ status, s.natAbs = 22)
    (hpe : PrivateEnds status es) (desc : Dict (List Bool)) (out : Dict Mask)
    (hd : hardDescendants nm pdg status es none false true = .ok desc)
    (ho : hierarchy nm pdg status final es none = .ok out)
    (path : List String) (x : String) (op : Agg) (ks : List (String × Mask)) (hx : x ≠ "latent")
    (hat : at? (.grp .or out) (path ++ [x]) = some (.grp op ks)) :
    IsAggregate (.grp op ks) (maskOf desc x) ∧
      ∃ sub L, ks = sub ++ [("latent", .arr L)] ∧
        ∀ i : Nat, i < es.length → (L[i]? = some true ↔
          (maskOf desc x)[i]? = some true ∧ ¬ ∃ p ∈ sub, Holds i p.2) := by
  obtain ⟨kids, H⟩ := hierarchy_of h1 h2 h3 hcol hlat hint hd ho
  obtain ⟨f1, f2, f3, f4⟩ := event_facts h1 h2 hcol hlat hd
  have ht := hierarchyOf_at H f1 f2 hx hat
  have hmem : ∀ y, (∃ z, y ∈ kids z) → y ∈ desc.map Prod.fst :=
    fun y ⟨z, hz⟩ => (H.ordered z).subset hz
  have hfam : ∀ z y, y ∈ kids z → ∃ (pa pc : Nat) (ea ec : Int × Int), pa ∈ partons status ∧
      pc ∈ partons status ∧ es[pa]? = some ea ∧ es[pc]? = some ec ∧ pa ≠ pc ∧ Descends es ea.2 ec ∧
      (∀ i : Nat, (maskOf desc z)[i]? = some true ↔
        i = pa ∨ ∃ e', es[i]? = some e' ∧ Descends es ea.2 e') ∧
      (∀ i : Nat, (maskOf desc y)[i]? = some true ↔
        i = pc ∨ ∃ e', es[i]? = some e' ∧ Descends es ec.2 e') := by
    intro z y hy
    obtain ⟨a, ha⟩ := List.mem_iff_getElem?.1 (H.known z (List.ne_nil_of_mem hy))
    obtain ⟨c, hc⟩ := List.mem_iff_getElem?.1 (hmem y ⟨z, hy⟩)
    have hpar := (H.parents a c z y ha hc).1 hy
    obtain ⟨x', y', pa, pc, ea, ec, q1, q2, q3, q4, q5, q6, q7, q8, q9⟩ :=
      isAnc_event h1 h2 hcol hlat hd a c hpar.1
    obtain ⟨pa', ea', r1, r2, r3⟩ := f4 a z ha
    obtain ⟨pc', ec', s1, s2, s3⟩ := f4 c y hc
    rw [q4] at r1
    cases r1
    rw [q6] at r2
    cases r2
    rw [q5] at s1
    cases s1
    rw [q7] at s2
    cases s2
    exact ⟨pa, pc, ea, ec, List.mem_of_getElem? q4, List.mem_of_getElem? q5, q6, q7, q8, q9, r3, s3⟩
  -- children lie inside their parent
  have inside : ∀ y m, TreeOf kids (maskOf desc) es y m → ∀ z, y ∈ kids z → ∀ i : Nat,
      Holds i m → (maskOf desc z)[i]? = some true := by
    intro y m hy
    induction hy with
    | @leaf y m hk hm =>
      intro z hz i hi
      obtain ⟨pa, pc, ea, ec, q1, q2, q3, q4, q5, q6, q7, q8⟩ := hfam z y hz
      obtain ⟨l1, l2⟩ := leaf_inside hpe q1 q2 q3 q4 q5 q6 q7 q8
      cases hi with
      | leaf hi =>
        rcases (hm.2 i).1 hi with h | ⟨f, e, hf, he, ho⟩
        · exact l1 i h
        · exact l2 i f e hf.1 he ho
    | @node y ms L hk hl hs hL hLi ih =>
      intro z hz i hi
      obtain ⟨pa, pc, ea, ec, q1, q2, q3, q4, q5, q6, q7, q8⟩ := hfam z y hz
      obtain ⟨l1, l2⟩ := leaf_inside hpe q1 q2 q3 q4 q5 q6 q7 q8
      have hkid : ∀ p ∈ (kids y).zip ms, Holds i p.2 → (maskOf desc y)[i]? = some true :=
        fun p hp hh => ih p hp y (List.of_mem_zip (a := p.1) (b := p.2) hp).1 i hh
      apply l1
      rcases holds_node.1 hi with ⟨p, hp, hh⟩ | h
      · exact hkid p hp hh
      · have hil := (List.getElem?_eq_some_iff.1 h).1
        rcases (hLi i hil).1 h with h | ⟨h, p, hp, hh⟩
        · exact h.1
        · exact absurd (hkid p hp hh) h
  have hkx : kids x ≠ [] := by
    cases ht with
    | node hk _ _ _ _ => exact hk
  obtain ⟨g1, sub, L, g2, g3, g4, g5, g6, g7, g8⟩ := treeOf_group (n := es.length) ht (fun y hy => by
    apply f3
    rcases hy with rfl | hy
    · exact H.known _ hkx
    · exact hmem y hy)
  have hin := g8 (fun i _ ⟨p, hp, hh⟩ => inside p.1 p.2 (g5 p hp) x (by
    rw [← g3]; exact List.mem_map.2 ⟨p, hp, rfl⟩) i hh)
  exact ⟨hin.1, sub, L, g2, hin.2⟩

/-! ## C49 -/

/-- Descent between the hard partons of an acyclic event is a strict order. -/
theorem strict_of_acyclic (nm : Int → String) (pdg status : List Int)
    (es : List (Int × Int)) (h1 : pdg.length = es.length) (h2 : status.length = es.length)
    (hcol : ∀ c ∈ pdg, ':' ∉ (nm c).toList) (hlat : ∀ c ∈ pdg, nm c ≠ "latent")
    (hpe : PrivateEnds status es) (hac : Acyclic es) (desc : Dict (List Bool))
    (hd : hardDescendants nm pdg status es none false true = .ok desc) :
    StrictDescent (desc.map (fun p => atPartons status p.2)) := by
  intro i j k hij hjk
  obtain ⟨x, y, pi, pj, ei, ej, q1, q2, q3, q4, q5, q6, q7, q8, q9⟩ :=
    isAnc_event h1 h2 hcol hlat hd i j hij
  obtain ⟨y', z, pj', pk, ej', ek, r1, r2, r3, r4, r5, r6, r7, r8, r9⟩ :=
    isAnc_event h1 h2 hcol hlat hd j k hjk
  rw [q5] at r4
  cases r4
  rw [q7] at r6
  cases r6
  obtain ⟨f1, f2, f3, f4⟩ := event_facts h1 h2 hcol hlat hd
  obtain ⟨w1, c1⟩ := descends_reach hpe (List.mem_of_getElem? q4) q6 q7 q8 q9
  obtain ⟨w2, c2⟩ := descends_reach hpe (List.mem_of_getElem? q5) q7 r7 r8 r9
  have hsj : Step es ej.1 ej.2 := show (ej.1, ej.2) ∈ es from List.mem_of_getElem? q7
  have hik : i ≠ k := by
    rintro rfl
    rw [q4] at r5
    cases r5
    rw [q6] at r7
    cases r7
    have hsi : Step es ei.1 ei.2 := show (ei.1, ei.2) ∈ es from List.mem_of_getElem? q6
    -- ei.1 -> ei.2 ->* ej.1 -> ej.2 ->* ei.1
    exact hac ei.1 (Relation.TransGen.trans_left
      (Relation.TransGen.trans_left (Relation.TransGen.single hsi) c1)
      (Relation.ReflTransGen.trans (Relation.ReflTransGen.single hsj) c2))
  unfold isAnc
  rw [Bool.and_eq_true, bne_iff_ne, beq_iff_eq]
  refine ⟨hik, ?_⟩
  obtain ⟨pi', ei', s1, s2, s3⟩ := f4 i x q2
  rw [q4] at s1
  cases s1
  rw [q6] at s2
  cases s2
  rw [List.getElem?_map] at q2
  obtain ⟨⟨x', d⟩, hk, rfl⟩ := Option.map_eq_some_iff.1 q2
  rw [List.getElem?_map, hk]
  have hmd : maskOf desc x' = d := maskOf_mem f1 (List.mem_of_getElem? hk)
  simp only at s3
  rw [hmd] at s3
  have hdl : d.length = es.length := by
    rw [← hmd]; exact f3 x' (List.mem_map.2 ⟨_, List.mem_of_getElem? hk, rfl⟩)
  simp only [Option.map_some, Option.bind_some]
  rw [mem_atPartons hdl (by rw [← h2]; exact partons_lt status), r5]
  simp only [Option.bind_some]
  rw [s3]
  refine Or.inr ⟨ek, r7, Or.inl ⟨w1, ?_⟩⟩
  exact c1.trans ((Relation.ReflTransGen.single hsj).trans c2)

theorem isAnc_bound {ds : List (List Bool)} {i c : Nat} (h : isAnc ds i c = true) : i < ds.length := by
  unfold isAnc at h
  simp only [Bool.and_eq_true, beq_iff_eq] at h
  obtain ⟨d, hd, _⟩ := Option.bind_eq_some_iff.1 h.2
  exact (List.getElem?_eq_some_iff.1 hd).1

theorem descCount_le (ds : List (List Bool)) (i : Nat) : descCount ds i ≤ ds.length := by
  unfold descCount
  calc _ ≤ (List.range ds.length).length := List.length_filter_le _ _
    _ = ds.length := List.length_range

theorem atPartons_square {nm : Int → String} {pdg status : List Int} {es : List (Int × Int)}
    (h1 : pdg.length = es.length) (h2 : status.length = es.length)
    (hcol : ∀ c ∈ pdg, ':' ∉ (nm c).toList) {desc : Dict (List Bool)}
    (hd : hardDescendants nm pdg status es none false true = .ok desc) :
    (∀ d ∈ desc.map (fun p => atPartons status p.2),
      d.length = (desc.map (fun p => atPartons status p.2)).length) := by
  obtain ⟨desc', d1, d2, d3, d4⟩ := hardDesc_facts nm pdg status es h1 h2 hcol
  rw [hd] at d1
  cases d1
  intro d hd'
  obtain ⟨⟨x, d0⟩, hp, rfl⟩ := List.mem_map.1 hd'
  obtain ⟨k, hk⟩ := List.mem_iff_getElem?.1 hp
  obtain ⟨p', e, q1, q2, q3, _⟩ := d4 k x d0 hk
  have h5 : (atPartons status d0).length = (partons status).length :=
    gather_length d0 (partons status) (by rw [q3, ← h2]; exact partons_lt status)
  have h6 := congrArg List.length d2
  rw [List.length_map, (C43_keys _).1, List.length_map, gather_length] at h6
  · simp only [List.length_map]
    rw [h5, h6]
  · rw [h1, ← h2]; exact partons_lt status

/-- a parton with nested children is in the tree, at a group -/
theorem parent_occurs {status : List Int} {es : List (Int × Int)} {desc : Dict (List Bool)}
    {kids : String → List String} {out : Dict Mask} (H : HierarchyOf status es desc kids out)
    (hn : (desc.map Prod.fst).Nodup) (hlat : "latent" ∉ desc.map Prod.fst)
    (hsq : ∀ d ∈ desc.map (fun p => atPartons status p.2),
      d.length = (desc.map (fun p => atPartons status p.2)).length)
    (hs : StrictDescent (desc.map (fun p => atPartons status p.2)))
    (a : Nat) (x : String) (hx : (desc.map Prod.fst)[a]? = some x) (hk : kids x ≠ []) :
    ∃ path m, at? (.grp .or out) (path ++ [x]) = some m ∧ TreeOf kids (maskOf desc) es x m := by
  set ds := desc.map (fun p => atPartons status p.2) with hds
  have hout : (Dict.keys out).Nodup := by
    show (out.map Prod.fst).Nodup
    rw [H.top]; exact hn.filter _
  have main : ∀ (r a : Nat) (x : String), ds.length - descCount ds a ≤ r →
      (desc.map Prod.fst)[a]? = some x → kids x ≠ [] →
      ∃ path m, at? (.grp .or out) (path ++ [x]) = some m ∧ TreeOf kids (maskOf desc) es x m := by
    intro r
    induction r with
    | zero =>
      intro a x hr hx hk
      by_cases htop : ∃ z, x ∈ kids z
      · exfalso
        obtain ⟨z, hz⟩ := htop
        obtain ⟨b, hb⟩ := List.mem_iff_getElem?.1 (H.known z (List.ne_nil_of_mem hz))
        have hp := (H.parents b a z x hb hx).1 hz
        have := descCount_lt hs hsq hp.1
        have := descCount_le ds b
        omega
      · have hm : x ∈ out.map Prod.fst := by
          rw [H.top, List.mem_filter]
          refine ⟨List.mem_of_getElem? hx, ?_⟩
          rw [Bool.and_eq_true]
          refine ⟨by simpa using hk, List.all_eq_true.2 fun z _ => ?_⟩
          rw [Bool.not_eq_true', ← Bool.not_eq_true, List.contains_iff_mem]
          exact fun hz => htop ⟨z, hz⟩
        obtain ⟨⟨x', m⟩, hm1, rfl⟩ := List.mem_map.1 hm
        refine ⟨[], m, ?_, H.entries _ hm1⟩
        simp only [List.nil_append, at?, child_grp, Dict.get?_of_mem hout hm1, Option.bind_some]
    | succ r ih =>
      intro a x hr hx hk
      by_cases htop : ∃ z, x ∈ kids z
      · obtain ⟨z, hz⟩ := htop
        obtain ⟨b, hb⟩ := List.mem_iff_getElem?.1 (H.known z (List.ne_nil_of_mem hz))
        have hp := (H.parents b a z x hb hx).1 hz
        have hlt := descCount_lt hs hsq hp.1
        have := descCount_le ds b
        obtain ⟨path, m, h1, h2⟩ := ih b z (by omega) hb (List.ne_nil_of_mem hz)
        cases h2 with
        | leaf hk' _ => exact absurd hk' (List.ne_nil_of_mem hz)
        | @node _ ms L hk' hl hsub hL hLi =>
          have hkeys : Dict.keys ((kids z).zip ms ++ [("latent", Mask.arr L)]) =
              kids z ++ ["latent"] := by
            have := zip_keys hl
            unfold Dict.keys at this ⊢
            rw [List.map_append, this]; rfl
          have hnd : (Dict.keys ((kids z).zip ms ++ [("latent", Mask.arr L)])).Nodup := by
            rw [hkeys, List.nodup_append]
            refine ⟨hn.sublist (H.ordered z), by simp, ?_⟩
            intro p hp q hq
            rw [List.mem_singleton] at hq
            subst hq
            rintro rfl
            exact hlat ((H.ordered z).subset hp)
          obtain ⟨q, hq⟩ := List.mem_iff_getElem?.1 hz
          have hql : q < ms.length := by rw [hl]; exact (List.getElem?_eq_some_iff.1 hq).1
          have hzip : (x, ms[q]) ∈ (kids z).zip ms := by
            rw [List.mem_iff_getElem?]
            refine ⟨q, List.getElem?_zip_eq_some.2 ⟨hq, List.getElem?_eq_getElem hql⟩⟩
          refine ⟨path ++ [z], ms[q], ?_, hsub _ hzip⟩
          rw [at?_append, h1]
          simp only [Option.bind_some, at?, child_grp]
          rw [Dict.get?_of_mem hnd (List.mem_append_left _ hzip)]
          rfl
      · have hm : x ∈ out.map Prod.fst := by
          rw [H.top, List.mem_filter]
          refine ⟨List.mem_of_getElem? hx, ?_⟩
          rw [Bool.and_eq_true]
          refine ⟨by simpa using hk, List.all_eq_true.2 fun z _ => ?_⟩
          rw [Bool.not_eq_true', ← Bool.not_eq_true, List.contains_iff_mem]
          exact fun hz => htop ⟨z, hz⟩
        obtain ⟨⟨x', m⟩, hm1, rfl⟩ := List.mem_map.1 hm
        refine ⟨[], m, ?_, H.entries _ hm1⟩
        simp only [List.nil_append, at?, child_grp, Dict.get?_of_mem hout hm1, Option.bind_some]
  exact main _ a x (le_refl _) hx hk

theorem occurs_of_related (nm : Int → String) (pdg status : List Int) (final : List Bool)
    (es : List (Int × Int)) (h1 : pdg.length = es.length) (h2 : status.length = es.length)
    (h3 : final.length = es.length) (hcol : ∀ c ∈ pdg, ':' ∉ (nm c).toList)
    (hlat : ∀ c ∈ pdg, nm c ≠ "latent") (hint : ∃ s ∈ status, s.natAbs = 22)
    (hpe : PrivateEnds status es) (hac : Acyclic es) (desc : Dict (List Bool)) (out : Dict Mask)
    (hd : hardDescendants nm pdg status es none false true = .ok desc)
    (ho : hierarchy nm pdg status final es none = .ok out)
    (c : Nat) (y : String) (hy : (desc.map Prod.fst)[c]? = some y) :
    ((∃ a, isAnc (desc.map (fun p => atPartons status p.2)) a c = true) →
      ∃ path m, at? (.grp .or out) (path ++ [y]) = some m) ∧
    (ForestDescent (desc.map (fun p => atPartons status p.2)) →
      (∃ a, isAnc (desc.map (fun p => atPartons status p.2)) c a = true) →
      ∃ path m, at? (.grp .or out) (path ++ [y]) = some m) := by
  obtain ⟨kids, H⟩ := hierarchy_of h1 h2 h3 hcol hlat hint hd ho
  obtain ⟨f1, f2, f3, f4⟩ := event_facts h1 h2 hcol hlat hd
  have hs := strict_of_acyclic nm pdg status es h1 h2 hcol hlat hpe hac desc hd
  have hsq := atPartons_square h1 h2 hcol hd
  constructor
  · intro hanc
    obtain ⟨a, ha, _⟩ := (C47_unique _ c).1 hanc
    have hal := isAnc_bound ha.1
    rw [List.length_map] at hal
    have hx : (desc.map Prod.fst)[a]? = some (desc[a]).1 := by
      rw [List.getElem?_map, List.getElem?_eq_getElem hal]; rfl
    have hyk := (H.parents a c _ y hx hy).2 ha
    obtain ⟨path, m, q1, q2⟩ := parent_occurs H f1 f2 hsq hs a _ hx (List.ne_nil_of_mem hyk)
    cases q2 with
    | leaf hk' _ => exact absurd hk' (List.ne_nil_of_mem hyk)
    | @node _ ms L hk' hl hsub hL hLi =>
      obtain ⟨q, hq⟩ := List.mem_iff_getElem?.1 hyk
      have hql : q < ms.length := by rw [hl]; exact (List.getElem?_eq_some_iff.1 hq).1
      have hzip : (y, ms[q]) ∈ (kids (desc[a]).1).zip ms :=
        List.mem_iff_getElem?.2 ⟨q, List.getElem?_zip_eq_some.2 ⟨hq, List.getElem?_eq_getElem hql⟩⟩
      have hyks : y ∈ Dict.keys ((kids (desc[a]).1).zip ms ++ [("latent", Mask.arr L)]) :=
        List.mem_map.2 ⟨_, List.mem_append_left _ hzip, rfl⟩
      rcases hg : Dict.get? ((kids (desc[a]).1).zip ms ++ [("latent", Mask.arr L)]) y with _ | m'
      · exact absurd hyks ((Dict.get?_eq_none_iff _ _).1 hg)
      · refine ⟨path ++ [(desc[a]).1], m', ?_⟩
        rw [at?_append, q1]
        simp only [Option.bind_some, at?, child_grp, hg]
  · rintro hf ⟨a0, ha0⟩
    -- a descendant with the most descendants is a child
    have hbest : ∀ (r a : Nat), isAnc (desc.map (fun p => atPartons status p.2)) c a = true →
        (desc.map (fun p => atPartons status p.2)).length -
          descCount (desc.map (fun p => atPartons status p.2)) a ≤ r →
        ∃ b, IsParent (desc.map (fun p => atPartons status p.2)) c b := by
      intro r
      induction r with
      | zero =>
        intro a ha hr
        refine ⟨a, (C47_forest _ hsq hf c a).2 ⟨ha, ?_⟩⟩
        rintro ⟨j, hj1, hj2⟩
        have := descCount_lt hs hsq hj2
        have := descCount_le (desc.map (fun p => atPartons status p.2)) j
        omega
      | succ r ih =>
        intro a ha hr
        by_cases hj : ∃ j, isAnc (desc.map (fun p => atPartons status p.2)) c j = true ∧
            isAnc (desc.map (fun p => atPartons status p.2)) j a = true
        · obtain ⟨j, hj1, hj2⟩ := hj
          have := descCount_lt hs hsq hj2
          have := descCount_le (desc.map (fun p => atPartons status p.2)) j
          exact ih j hj1 (by omega)
        · exact ⟨a, (C47_forest _ hsq hf c a).2 ⟨ha, hj⟩⟩
    obtain ⟨b, hb⟩ := hbest _ a0 ha0 (le_refl _)
    obtain ⟨x', y', pa, pc, ea, ec, q1, q2, q3, _⟩ := isAnc_event h1 h2 hcol hlat hd c b hb.1
    have hyk := (H.parents c b y y' hy q3).2 hb
    obtain ⟨path, m, q1, _⟩ := parent_occurs H f1 f2 hsq hs c y hy (List.ne_nil_of_mem hyk)
    exact ⟨path, m, q1⟩

theorem treeOf_chain {kids : String → List String} {D : String → List Bool} {es : List (Int × Int)}
    (hn : ∀ z, (kids z).Nodup) (hlat : ∀ z, "latent" ∉ kids z) {z : String} {m : Mask}
    (h : TreeOf kids D es z m) {p : List String} {x : String} {m' : Mask} (hx : x ≠ "latent")
    (hc : at? m (p ++ [x]) = some m') : Relation.ReflTransGen (fun a b => b ∈ kids a) z x := by
  induction p generalizing z m with
  | nil =>
    simp only [List.nil_append, at?] at hc
    obtain ⟨c, h1, h2⟩ := Option.bind_eq_some_iff.1 hc
    exact .single (treeOf_child h (hn z) hx h1).2
  | cons k p ih =>
    simp only [List.cons_append, at?] at hc
    obtain ⟨c, h1, h2⟩ := Option.bind_eq_some_iff.1 hc
    by_cases hk : k = "latent"
    · exfalso
      cases h with
      | leaf _ _ => simp [child] at h1
      | @node _ ms L hk' hl hs hL hLi =>
        rw [child_grp] at h1
        have hm := Dict.mem_of_get? h1
        rcases List.mem_append.1 hm with hm | hm
        · exact hlat z (hk ▸ (List.of_mem_zip hm).1)
        · simp only [List.mem_singleton, Prod.mk.injEq] at hm
          rw [hm.2] at h2
          cases p with
          | nil => simp [at?, child] at h2
          | cons _ _ => simp [at?, child] at h2
    · have := treeOf_child h (hn z) hk h1
      exact .head this.2 (ih this.1 h2)

/-- **C49** For every event, cyclic or not: a hard parton is a key somewhere in `hierarchy(graph)` exactly when it
is reached, going from closest ancestor to child, from a hard parton which has such a child and no ancestor. -/
theorem C49_any (nm : Int → String) (pdg status : List Int) (final : List Bool)
    (es : List (Int × Int)) (h1 : pdg.length = es.length) (h2 : status.length = es.length)
    (h3 : final.length = es.length) (hcol : ∀ c ∈ pdg, ':' ∉ (nm c).toList)
    (hlat : ∀ c ∈ pdg, nm c ≠ "latent") (hint : ∃ s ∈ status, s.natAbs = 22)
    (desc : Dict (List Bool)) (out : Dict Mask)
    (hd : hardDescendants nm pdg status es none false true = .ok desc)
    (ho : hierarchy nm pdg status final es none = .ok out)
    (c : Nat) (y : String) (hy : (desc.map Prod.fst)[c]? = some y) :
    (∃ path m, at? (.grp .or out) (path ++ [y]) = some m) ↔
      ∃ t, (∃ b, IsParent (desc.map (fun p => atPartons status p.2)) t b) ∧
        (∀ a, ¬ isAnc (desc.map (fun p => atPartons status p.2)) a t = true) ∧
        Relation.ReflTransGen (IsParent (desc.map (fun p => atPartons status p.2))) t c := by
  obtain ⟨kids, H⟩ := hierarchy_of h1 h2 h3 hcol hlat hint hd ho
  obtain ⟨f1, f2, f3, f4⟩ := event_facts h1 h2 hcol hlat hd
  have hsq := atPartons_square h1 h2 hcol hd
  set ds := desc.map (fun p => atPartons status p.2) with hds
  have hkn : ∀ z, (kids z).Nodup := fun z => f1.sublist (H.ordered z)
  have hkl : ∀ z, "latent" ∉ kids z := fun z h => f2 ((H.ordered z).subset h)
  have hyl : y ≠ "latent" := fun e => f2 (e ▸ List.mem_of_getElem? hy)
  have hout : (Dict.keys out).Nodup := by
    show (out.map Prod.fst).Nodup
    rw [H.top]; exact f1.filter _
  have hlen : ds.length = (desc.map Prod.fst).length := by simp [hds]
  -- a parton with an ancestor has a closest one
  have hpar : ∀ t a, isAnc ds a t = true → ∃ b, IsParent ds b t := fun t a ha => (C47_unique ds t).1 ⟨a, ha⟩ |>.imp (fun _ h => h.1)
  have hanc_lt : ∀ a b, isAnc ds a b = true → a < ds.length ∧ b < ds.length := by
    intro a b hab
    unfold isAnc at hab
    rw [Bool.and_eq_true, beq_iff_eq] at hab
    obtain ⟨d, hd1, hd2⟩ := Option.bind_eq_some_iff.1 hab.2
    refine ⟨(List.getElem?_eq_some_iff.1 hd1).1, ?_⟩
    have := (List.getElem?_eq_some_iff.1 hd2).1
    rw [hsq d (List.mem_of_getElem? hd1)] at this
    exact this
  have hname : ∀ a, a < ds.length → ∃ x, (desc.map Prod.fst)[a]? = some x := fun a ha =>
    ⟨_, List.getElem?_eq_getElem (by omega)⟩
  have htop : ∀ (t : Nat) (x : String), (desc.map Prod.fst)[t]? = some x →
      (x ∈ out.map Prod.fst ↔ (∃ b, IsParent ds t b) ∧ ∀ a, ¬ isAnc ds a t = true) := by
    intro t x hx
    rw [H.top, List.mem_filter, Bool.and_eq_true]
    constructor
    · rintro ⟨_, hk, hall⟩
      have hk' : kids x ≠ [] := by simpa using hk
      obtain ⟨w, hw⟩ := List.exists_mem_of_ne_nil _ hk'
      obtain ⟨b, hb⟩ := List.mem_iff_getElem?.1 ((H.ordered x).subset hw)
      refine ⟨⟨b, (H.parents t b x w hx hb).1 hw⟩, fun a ha => ?_⟩
      obtain ⟨q, hq⟩ := hpar t a ha
      obtain ⟨z, hz⟩ := hname q (hanc_lt q t hq.1).1
      have hzk := (H.parents q t z x hz hx).2 hq
      have := List.all_eq_true.1 hall z (List.mem_of_getElem? hz)
      rw [Bool.not_eq_true', ← Bool.not_eq_true, List.contains_iff_mem] at this
      exact this hzk
    · rintro ⟨⟨b, hb⟩, hno⟩
      obtain ⟨w, hw⟩ := hname b (hanc_lt t b hb.1).2
      refine ⟨List.mem_of_getElem? hx, ?_, List.all_eq_true.2 fun z hz => ?_⟩
      · have := List.ne_nil_of_mem ((H.parents t b x w hx hw).2 hb)
        simpa using this
      · rw [Bool.not_eq_true', ← Bool.not_eq_true, List.contains_iff_mem]
        intro hzk
        obtain ⟨q, hq⟩ := List.mem_iff_getElem?.1 hz
        exact hno q ((H.parents q t z x hq hx).1 hzk).1
  constructor
  · rintro ⟨path, m, hat⟩
    have hchain : ∃ t0, t0 ∈ out.map Prod.fst ∧ Relation.ReflTransGen (fun a b => b ∈ kids a) t0 y := by
      cases path with
      | nil =>
        simp only [List.nil_append, at?] at hat
        obtain ⟨c', q1, q2⟩ := Option.bind_eq_some_iff.1 hat
        rw [child_grp] at q1
        exact ⟨y, List.mem_map.2 ⟨_, Dict.mem_of_get? q1, rfl⟩, .refl⟩
      | cons k p =>
        simp only [List.cons_append, at?] at hat
        obtain ⟨c', q1, q2⟩ := Option.bind_eq_some_iff.1 hat
        rw [child_grp] at q1
        have hm := Dict.mem_of_get? q1
        exact ⟨k, List.mem_map.2 ⟨_, hm, rfl⟩, treeOf_chain hkn hkl (H.entries _ hm) hyl q2⟩
    obtain ⟨t0, ht0, hr⟩ := hchain
    have ht0' : t0 ∈ desc.map Prod.fst := by
      rw [H.top, List.mem_filter] at ht0; exact ht0.1
    obtain ⟨t, ht⟩ := List.mem_iff_getElem?.1 ht0'
    obtain ⟨g1, g2⟩ := (htop t t0 ht).1 ht0
    refine ⟨t, g1, g2, ?_⟩
    clear hat hyl
    induction hr generalizing c with
    | refl =>
      have : t = c := (List.getElem?_inj (List.getElem?_eq_some_iff.1 ht).1 f1).1 (ht.trans hy.symm)
      subst this
      exact .refl
    | @tail u v _ huv ih =>
      obtain ⟨b, hb⟩ := List.mem_iff_getElem?.1 (H.known u (List.ne_nil_of_mem huv))
      exact .tail (ih b hb) ((H.parents b c u v hb hy).1 huv)
  · rintro ⟨t, g1, g2, hr⟩
    have : ∃ path m, at? (.grp .or out) (path ++ [y]) = some m ∧ TreeOf kids (maskOf desc) es y m := by
      clear hyl
      induction hr generalizing y with
      | refl =>
        have hm := (htop t y hy).2 ⟨g1, g2⟩
        obtain ⟨⟨x', m⟩, hm1, rfl⟩ := List.mem_map.1 hm
        refine ⟨[], m, ?_, H.entries _ hm1⟩
        simp only [List.nil_append, at?, child_grp, Dict.get?_of_mem hout hm1, Option.bind_some]
      | @tail u v _ huv ih =>
        obtain ⟨z, hz⟩ := hname u (hanc_lt u v huv.1).1
        obtain ⟨path, m, q1, q2⟩ := ih z hz
        have hk := (H.parents u v z y hz hy).2 huv
        cases q2 with
        | leaf hk' _ => exact absurd hk' (List.ne_nil_of_mem hk)
        | @node _ ms L hk' hl hsub hL hLi =>
          have hkeys : Dict.keys ((kids z).zip ms ++ [("latent", Mask.arr L)]) =
              kids z ++ ["latent"] := by
            have := zip_keys hl
            unfold Dict.keys at this ⊢
            rw [List.map_append, this]; rfl
          have hnd : (Dict.keys ((kids z).zip ms ++ [("latent", Mask.arr L)])).Nodup := by
            rw [hkeys, List.nodup_append]
            refine ⟨f1.sublist (H.ordered z), by simp, ?_⟩
            intro p hp q hq
            rw [List.mem_singleton] at hq
            subst hq
            rintro rfl
            exact f2 ((H.ordered z).subset hp)
          obtain ⟨q, hq⟩ := List.mem_iff_getElem?.1 hk
          have hql : q < ms.length := by rw [hl]; exact (List.getElem?_eq_some_iff.1 hq).1
          have hzip : (y, ms[q]) ∈ (kids z).zip ms := by
            rw [List.mem_iff_getElem?]
            refine ⟨q, List.getElem?_zip_eq_some.2 ⟨hq, List.getElem?_eq_getElem hql⟩⟩
          refine ⟨path ++ [z], ms[q], ?_, hsub _ hzip⟩
          rw [at?_append, q1]
          simp only [Option.bind_some, at?, child_grp]
          rw [Dict.get?_of_mem hnd (List.mem_append_left _ hzip)]
          rfl
    obtain ⟨path, m, q, _⟩ := this
    exact ⟨path, m, q⟩

/-- **C49** For every acyclic event in which final hard partons do not share their end vertex: a hard parton is a key
somewhere in `hierarchy(graph)` exactly when another hard parton is its ancestor, or has it as closest ancestor. -/
theorem C49_occurs (nm : Int → String) (pdg status : List Int) (final : List Bool)
    (es : List (Int × Int)) (h1 : pdg.length = es.length) (h2 : status.length = es.length)
    (h3 : final.length = es.length) (hcol : ∀ c ∈ pdg, ':' ∉ (nm c).toList)
    (hlat : ∀ c ∈ pdg, nm c ≠ "latent") (hint : ∃ s ∈ status, s.natAbs = 22)
    (hpe : PrivateEnds status es) (hac : Acyclic es) (desc : Dict (List Bool)) (out : Dict Mask)
    (hd : hardDescendants nm pdg status es none false true = .ok desc)
    (ho : hierarchy nm pdg status final es none = .ok out)
    (c : Nat) (y : String) (hy : (desc.map Prod.fst)[c]? = some y) :
    (∃ path m, at? (.grp .or out) (path ++ [y]) = some m) ↔
      (∃ a, isAnc (desc.map (fun p => atPartons status p.2)) a c = true) ∨
      ∃ b, IsParent (desc.map (fun p => atPartons status p.2)) c b := by
  obtain ⟨kids, H⟩ := hierarchy_of h1 h2 h3 hcol hlat hint hd ho
  obtain ⟨f1, f2, f3, f4⟩ := event_facts h1 h2 hcol hlat hd
  have hs := strict_of_acyclic nm pdg status es h1 h2 hcol hlat hpe hac desc hd
  have hsq := atPartons_square h1 h2 hcol hd
  have hyl : y ≠ "latent" := fun e => f2 (e ▸ List.mem_of_getElem? hy)
  constructor
  · rintro ⟨path, m, hat⟩
    rcases hierarchyOf_occurs H f1 f2 hyl hat with hk | ⟨z, hz⟩
    · obtain ⟨x, hx⟩ := List.exists_mem_of_ne_nil _ hk
      obtain ⟨b, hb⟩ := List.mem_iff_getElem?.1 ((H.ordered y).subset hx)
      exact Or.inr ⟨b, (H.parents c b y x hy hb).1 hx⟩
    · obtain ⟨a, ha⟩ := List.mem_iff_getElem?.1 (H.known z (List.ne_nil_of_mem hz))
      exact Or.inl ⟨a, ((H.parents a c z y ha hy).1 hz).1⟩
  · rintro (h | ⟨b, hb⟩)
    · exact (occurs_of_related nm pdg status final es h1 h2 h3 hcol hlat hint hpe hac desc out hd ho c y hy).1 h
    · obtain ⟨x', y', pa, pc, ea, ec, q1, q2, q3, _⟩ := isAnc_event h1 h2 hcol hlat hd c b hb.1
      have hyk := (H.parents c b y y' hy q3).2 hb
      obtain ⟨path, m, q1, _⟩ := parent_occurs H f1 f2 hsq hs c y hy (List.ne_nil_of_mem hyk)
      exact ⟨path, m, q1⟩

/-- **C49** When the ancestors of every hard parton form a chain, this says: exactly the partons that are ancestor or
descendant of another hard parton occur; one related to no other is dropped. -/
theorem C49_forest (nm : Int → String) (pdg status : List Int) (final : List Bool)
    (es : List (Int × Int)) (h1 : pdg.length = es.length) (h2 : status.length = es.length)
    (h3 : final.length = es.length) (hcol : ∀ c ∈ pdg, ':' ∉ (nm c).toList)
    (hlat : ∀ c ∈ pdg, nm c ≠ "latent") (hint : ∃ s ∈ status, s.natAbs = 22)
    (hpe : PrivateEnds status es) (hac : Acyclic es) (desc : Dict (List Bool)) (out : Dict Mask)
    (hf : ForestDescent (desc.map (fun p => atPartons status p.2)))
    (hd : hardDescendants nm pdg status es none false true = .ok desc)
    (ho : hierarchy nm pdg status final es none = .ok out)
    (c : Nat) (y : String) (hy : (desc.map Prod.fst)[c]? = some y) :
    (∃ path m, at? (.grp .or out) (path ++ [y]) = some m) ↔
      ∃ a, isAnc (desc.map (fun p => atPartons status p.2)) a c = true ∨
        isAnc (desc.map (fun p => atPartons status p.2)) c a = true := by
  have h := occurs_of_related nm pdg status final es h1 h2 h3 hcol hlat hint hpe hac desc out hd ho c y hy
  constructor
  · intro ho'
    rcases (C49_occurs nm pdg status final es h1 h2 h3 hcol hlat hint hpe hac desc out hd ho c y hy).1 ho' with
      ⟨a, ha⟩ | ⟨b, hb⟩
    · exact ⟨a, Or.inl ha⟩
    · exact ⟨b, Or.inr hb.1⟩
  · rintro ⟨a, ha | ha⟩
    · exact h.1 ⟨a, ha⟩
    · exact h.2 hf ⟨a, ha⟩

/-! ## C50 -/

/-- **C50** The mask of a parton without nested children, anywhere in
`hierarchy(graph)`, is its `hard_descendants` mask together with the one particle entering the source
vertex of its first selected particle (if exactly one particle enters it); so it is exactly that mask
if and only if no single particle enters there or that particle is selected already. -/
theorem C50_leaf (nm : Int → String) (pdg status : List Int) (final : List Bool)
    (es : List (Int × Int)) (h1 : pdg.length = es.length) (h2 : status.length = es.length)
    (h3 : final.length = es.length) (hcol : ∀ c ∈ pdg, ':' ∉ (nm c).toList)
    (hlat : ∀ c ∈ pdg, nm c ≠ "latent") (hint : ∃ s ∈ status, s.natAbs = 22)
    (desc : Dict (List Bool)) (out : Dict Mask)
    (hd : hardDescendants nm pdg status es none false true = .ok desc)
    (ho : hierarchy nm pdg status final es none = .ok out)
    (path : List String) (x : String) (m : List Bool) (hx : x ≠ "latent")
    (hat : at? (.grp .or out) (path ++ [x]) = some (.arr m)) :
    LeafMask es (maskOf desc x) m ∧
    (m = maskOf desc x ↔ ∀ (f i : Nat) (e : Int × Int), FirstTrue (maskOf desc x) f → es[f]? = some e →
        OnlyInto es e.1 i → (maskOf desc x)[i]? = some true) := by
  obtain ⟨kids, H⟩ := hierarchy_of h1 h2 h3 hcol hlat hint hd ho
  obtain ⟨f1, f2, f3, f4⟩ := event_facts h1 h2 hcol hlat hd
  have ht := hierarchyOf_at H f1 f2 hx hat
  cases ht with
  | leaf hk hm =>
    refine ⟨hm, fun he f i e hf hef ho => ?_, fun hno => ?_⟩
    · have := (hm.2 i).2 (Or.inr ⟨f, e, hf, hef, ho⟩)
      rwa [he] at this
    apply List.ext_getElem hm.1
    intro i hi hi'
    have := hm.2 i
    rw [List.getElem?_eq_getElem hi, List.getElem?_eq_getElem hi'] at this
    rw [Bool.eq_iff_iff]
    constructor
    · intro h
      rcases this.1 (by rw [h]) with h | ⟨f, e, hf, he, hoo⟩
      · exact Option.some.inj h
      · have := hno f i e hf he hoo
        rw [List.getElem?_eq_getElem hi'] at this
        exact Option.some.inj this
    · intro h
      exact Option.some.inj (this.2 (Or.inl (by rw [h])))

/-! ## A concrete event

`t -> b W`, `W -> u d~`, `b` radiating, next to a gluon `g` unrelated to the others. -/
section Example
/-- particle names of the example -/
def exNames : Int → String := fun c =>
  if c = 6 then "t" else if c = 5 then "b" else if c = 24 then "W+" else if c = 2 then "u"
  else if c = -1 then "d~" else "g"
def exPdg : List Int := [6, 5, 24, 2, -1, 21, 5]
def exStatus : List Int := [22, 23, 22, 23, 23, 23, 51]
def exEdges : List (Int × Int) := [(1, 2), (2, 3), (2, 4), (4, 5), (4, 6), (1, 7), (3, 8)]
def exFinal : List Bool := [false, false, false, true, true, true, true]
def exDesc : Dict (List Bool) :=
  [("t", [true, true, true, true, true, false, true]),
   ("b", [false, true, false, false, false, false, true]),
   ("W+", [false, false, true, true, true, false, false]),
   ("u", [false, false, false, true, false, false, false]),
   ("d~", [false, false, false, false, true, false, false]),
   ("g", [false, false, false, false, false, true, false])]
def exOut : Dict Mask :=
  [("t", .grp .or
    [("b", .arr [true, true, false, false, false, false, true]),
     ("W+", .grp .or
       [("u", .arr [false, false, true, true, false, false, false]),
        ("d~", .arr [false, false, true, false, true, false, false]),
        ("latent", .arr [false, false, false, false, false, false, false])]),
     ("latent", .arr [false, false, false, false, false, false, false])])]

theorem ex_desc : hardDescendants exNames exPdg exStatus exEdges none false true = .ok exDesc := by
  decide
theorem ex_out : hierarchy exNames exPdg exStatus exFinal exEdges none = .ok exOut := by rfl

/-- **C49** The expectation that every hard parton occurs is refuted: the hard gluon of the example event is in no group of the
hierarchy. -/
theorem C49_false : ∃ (nm : Int → String) (pdg status : List Int) (final : List Bool)
    (es : List (Int × Int)) (desc : Dict (List Bool)) (out : Dict Mask),
    hardDescendants nm pdg status es none false true = .ok desc ∧
    hierarchy nm pdg status final es none = .ok out ∧
    (∃ d, ("g", d) ∈ desc) ∧ ∀ path, at? (.grp .or out) (path ++ ["g"]) = none := by
  refine ⟨_, _, _, _, _, _, _, ex_desc, ex_out, ⟨[false, false, false, false, false, true, false], by decide⟩, ?_⟩
  intro path
  rcases h : at? (.grp .or exOut) (path ++ ["g"]) with _ | m
  · rfl
  exfalso
  obtain ⟨kids, H⟩ := hierarchy_of (by decide) (by decide) (by decide) (by decide) (by decide)
    ⟨22, by decide, by decide⟩ ex_desc ex_out
  obtain ⟨f1, f2, _, _⟩ := event_facts (by decide) (by decide) (by decide) (by decide) ex_desc
  -- the last key of the path is a child of its parent or at the top
  have hkn : ∀ z, (kids z).Nodup := fun z => f1.sublist (H.ordered z)
  have hg : ∀ z, "g" ∉ kids z := by
    intro z hz
    obtain ⟨b, hb⟩ := List.mem_iff_getElem?.1 (H.known z (List.ne_nil_of_mem hz))
    have hp := ((H.parents b 5 z "g" hb (by decide)).1 hz).1
    have hb5 := isAnc_bound hp
    have hno : ∀ b ∈ List.range 6, isAnc (exDesc.map (fun p => atPartons exStatus p.2)) b 5 = false := by
      decide
    rw [hno b (List.mem_range.2 (by simpa [exDesc] using hb5))] at hp
    cases hp
  have hrec : ∀ (path : List String) (z : String) (m m' : Mask), TreeOf kids (maskOf exDesc) exEdges z m →
      at? m (path ++ ["g"]) ≠ some m' := by
    intro path
    induction path with
    | nil =>
      intro z m m' ht hc
      simp only [List.nil_append, at?] at hc
      obtain ⟨c, e1, e2⟩ := Option.bind_eq_some_iff.1 hc
      exact hg z (treeOf_child ht (hkn z) (by decide) e1).2
    | cons k path ih =>
      intro z m m' ht hc
      simp only [List.cons_append, at?] at hc
      obtain ⟨c, e1, e2⟩ := Option.bind_eq_some_iff.1 hc
      by_cases hk : k = "latent"
      · subst hk
        have hl : ∀ (q : List String) (L : List Bool), at? (.arr L) (q ++ ["g"]) = none := by
          intro q L
          cases q <;> rfl
        cases ht with
        | leaf _ _ => simp [child] at e1
        | @node _ ms L hk' hl' hs hL hLi =>
          rw [child_grp] at e1
          rcases List.mem_append.1 (Dict.mem_of_get? e1) with hm | hm
          · exact f2 ((H.ordered z).subset (List.of_mem_zip hm).1)
          · simp only [List.mem_singleton, Prod.mk.injEq] at hm
            rw [hm.2, hl] at e2
            cases e2
      · exact ih k c m' (treeOf_child ht (hkn z) hk e1).1 e2
  cases path with
  | nil => cases h
  | cons k path =>
    simp only [List.cons_append, at?] at h
    obtain ⟨c, e1, e2⟩ := Option.bind_eq_some_iff.1 h
    rw [child_grp] at e1
    exact hrec path k c m (H.entries _ (Dict.mem_of_get? e1)) e2

/-- **C50** The expectation that a leaf mask is the descendant mask is refuted: in the example event the mask of `b` contains the top quark, which
does not descend from it. -/
theorem C50_false : ∃ (nm : Int → String) (pdg status : List Int) (final : List Bool)
    (es : List (Int × Int)) (desc : Dict (List Bool)) (out : Dict Mask) (m : List Bool),
    hardDescendants nm pdg status es none false true = .ok desc ∧
    hierarchy nm pdg status final es none = .ok out ∧
    at? (.grp .or out) ["t", "b"] = some (.arr m) ∧ (maskOf desc "b")[0]? = some false ∧
    m[0]? = some true :=
  ⟨_, _, _, _, _, _, _, _, ex_desc, ex_out, rfl, by decide, by decide⟩

-- the hypotheses of C48-C50 hold of the example event
example : exPdg.length = exEdges.length ∧ exStatus.length = exEdges.length ∧
    exFinal.length = exEdges.length ∧ (∀ c ∈ exPdg, ':' ∉ (exNames c).toList) ∧
    (∀ c ∈ exPdg, exNames c ≠ "latent") ∧ (∃ s ∈ exStatus, s.natAbs = 22) := by decide
example : PrivateEnds exStatus exEdges := by
  have hp : partons exStatus = [0, 1, 2, 3, 4, 5] := by decide
  intro p e hpm he hno j e' hj heq
  have hall : ∀ p ∈ List.range 6, ∀ j ∈ List.range 7,
      (exEdges[p]?.map Prod.snd = exEdges[j]?.map Prod.snd) → p = j := by decide
  rw [hp] at hpm
  have h6 : p < 6 := by
    simp only [List.mem_cons, List.not_mem_nil, or_false] at hpm
    omega
  have hj7 : j < 7 := by simpa [exEdges] using (List.getElem?_eq_some_iff.1 hj).1
  exact (hall p (List.mem_range.2 h6) j (List.mem_range.2 hj7) (by
    rw [he, hj]; simp [heq])).symm
example : Acyclic exEdges := by
  have hup : ∀ a b, Step exEdges a b → a < b := by
    intro a b h
    have hall : ∀ e ∈ exEdges, e.1 < e.2 := by decide
    exact hall (a, b) h
  have htr : ∀ a b, Relation.TransGen (Step exEdges) a b → a < b := by
    intro a b h
    induction h with
    | single h => exact hup _ _ h
    | tail _ h ih => exact lt_trans ih (hup _ _ h)
  exact fun v h => lt_irrefl v (htr v v h)
-- the hypotheses of C48_given: the partons' own masks with the gluon's mask first
example : hierarchy exNames exPdg exStatus exFinal exEdges
    (some (("g", [false, false, false, false, false, true, false]) :: exDesc.take 5)) = .ok exOut := by
  rfl
-- a path to a nested group and to a leaf
example : at? (.grp .or exOut) (["t"] ++ ["W+"]) = some (.grp .or
       [("u", .arr [false, false, true, true, false, false, false]),
        ("d~", .arr [false, false, true, false, true, false, false]),
        ("latent", .arr [false, false, false, false, false, false, false])]) := rfl
example : at? (.grp .or exOut) (["t", "W+"] ++ ["u"]) =
    some (.arr [false, false, true, true, false, false, false]) := rfl
end Example

end Gcl
