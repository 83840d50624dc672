import Verif.Lemmas.ShareMem
/-! # C122: which objects a group has in common with the masks it was made from -/
namespace Gcl
set_option autoImplicit false
open Spec

theorem prefix_same {h h' : MHeap} (hp : h <+: h') : ∀ x : Nat, x < h.length → h'[x]? = h[x]? := by
  obtain ⟨t, rfl⟩ := hp
  exact fun x hx => List.getElem?_append_left hx

theorem newGroup_prefix (op : Agg) (ms : List (String × Member)) (h : MHeap) : h <+: (newGroup op ms h).1 :=
  (placeMembers_prefix ms h).trans (List.prefix_append _ _)

theorem newGroup_at (op : Agg) (ms : List (String × Member)) (h : MHeap) :
    (newGroup op ms h).1[(newGroup op ms h).2]? = some (.group op (placeMembers ms h).2) := by
  simp [newGroup]

theorem newGroup_new (op : Agg) (ms : List (String × Member)) (h : MHeap) : h.length ≤ (newGroup op ms h).2 :=
  (placeMembers_prefix ms h).length_le

theorem newGroup_made (op : Agg) (ms : List (String × Member)) (h : MHeap) :
    DictRel (MadeFor h (newGroup op ms h).1) ms (placeMembers ms h).2 :=
  placeMembers_made ms h h _ (Nat.le_refl _) (List.prefix_append _ _)

/-- **C122** `MaskGroup(mapping, agg_op)` for every mapping and every state of memory: no existing object changes; the
new group has the names of the mapping in order; a mask or group given is itself the member, an array given is the
buffer of a new mask, other values get a mask and buffer of their own, and nested mappings are treated alike; two
members have nothing in common that was not there before. -/
theorem C122_construct (op : Agg) (ms : List (String × Member)) (h : MHeap) :
    let r := newGroup op ms h
    (∀ x : Nat, x < h.length → r.1[x]? = h[x]?) ∧ h.length ≤ r.2 ∧
    ∃ es, r.1[r.2]? = some (.group op es) ∧ ms.map Prod.fst = es.map Prod.fst ∧
      (∀ (i : Nat) (m : String × Member) (e : String × Nat), ms[i]? = some m → es[i]? = some e →
        MadeFor h r.1 m.2 e.2) ∧
      (Closed h → (∀ k m, (k, m) ∈ ms → ValidMember h m) → NewApart h r.1 es) := by
  refine ⟨prefix_same (newGroup_prefix op ms h), newGroup_new op ms h, _, newGroup_at op ms h, ?_, ?_, ?_⟩
  · exact (dictRel_index (newGroup_made op ms h)).1
  · exact (dictRel_index (newGroup_made op ms h)).2
  · intro hc hv
    exact (placeMembers_reach h _ (newGroup_prefix op ms h) hc ms h hv (Nat.le_refl _) (List.prefix_append _ _)).2

theorem pickRefs_ok (es : Dict Nat) (names : List String) (acc : Dict Nat) :
    ((∃ k ∈ names, Dict.get? es k = none) → pickRefs es acc names = .error .keyError) ∧
    ((∀ k ∈ names, Dict.get? es k ≠ none) → ∃ ps : List (String × Nat), pickRefs es acc names = .ok (Dict.update acc ps) ∧
      ps.map Prod.fst = names ∧ ∀ k v, (k, v) ∈ ps → Dict.get? es k = some v) := by
  induction names generalizing acc with
  | nil => exact ⟨by simp, fun _ => ⟨[], rfl, rfl, by simp⟩⟩
  | cons n names ih =>
    simp only [pickRefs]
    cases hg : Dict.get? es n with
    | none => exact ⟨fun _ => rfl, fun h => absurd hg (h n (by simp))⟩
    | some v =>
      obtain ⟨i1, i2⟩ := ih (Dict.set acc n v)
      refine ⟨fun h => i1 ?_, fun h => ?_⟩
      · obtain ⟨k, hk, hn⟩ := h
        rcases List.mem_cons.1 hk with rfl | hk
        · rw [hg] at hn; cases hn
        · exact ⟨k, hk, hn⟩
      · obtain ⟨ps, h1, h2, h3⟩ := i2 (fun k hk => h k (by simp [hk]))
        refine ⟨(n, v) :: ps, h1, by simp [h2], ?_⟩
        intro k w hm
        rcases List.mem_cons.1 hm with e | hm
        · cases e; exact hg
        · exact h3 k w hm

theorem placeMembers_objs (ps : List (String × Nat)) (h : MHeap) :
    placeMembers (ps.map (fun p => (p.1, Member.obj p.2))) h = (h, ps) := by
  induction ps with
  | nil => rfl
  | cons p ps ih =>
    obtain ⟨k, v⟩ := p
    simp [placeMembers, placeMember, ih]

/-- **C122** `group[[k1, k2, ...]]`: `KeyError` if a name is missing; otherwise a new group with the same `agg_op`, the
names in the order given (a repeated one counted at its first place), in which each name leads to the very object it
leads to in the old one. -/
theorem C122_select (names : List String) (h : MHeap) (a : Nat) (op : Agg) (es : List (String × Nat))
    (ha : h[a]? = some (.group op es)) :
    let r := selectH names h a
    (∀ x : Nat, x < h.length → r.1[x]? = h[x]?) ∧
    ((∃ k ∈ names, navigate h a [k] = none) → r.2 = .error .keyError) ∧
    ((∀ k ∈ names, navigate h a [k] ≠ none) → ∃ b ps, r.2 = .ok b ∧ h.length ≤ b ∧ r.1[b]? = some (.group op ps) ∧
      ps.map Prod.fst = firstNames names ∧ ∀ k ∈ names, navigate r.1 b [k] = navigate h a [k]) := by
  intro r
  have hnav : ∀ k, navigate h a [k] = Dict.get? es k := by
    intro k
    simp only [navigate, ha]
    cases Dict.get? es k <;> rfl
  obtain ⟨p1, p2⟩ := pickRefs_ok es names []
  have hr : r = selectH names h a := rfl
  simp only [selectH, ha] at hr
  refine ⟨?_, ?_, ?_⟩
  · intro x hx
    rw [hr]
    cases hp : pickRefs es [] names with
    | error e => simp
    | ok ps => exact prefix_same (newGroup_prefix _ _ _) x hx
  · intro hk
    rw [hr, p1 (by simpa only [hnav] using hk)]
  · intro hk
    simp only [hnav] at hk
    obtain ⟨ps, h1, h2, h3⟩ := p2 hk
    rw [h1] at hr
    have hkeys : (Dict.update [] ps).map Prod.fst = firstNames names := by
      have := keys_update_first [] ps
      simp only [Dict.keys, List.map_nil, List.nil_append, List.not_mem_nil, not_false_eq_true, decide_true,
        List.filter_true] at this
      rw [this, h2]
    have hat : r.1[(newGroup op ((Dict.update [] ps).map (fun p => (p.1, Member.obj p.2))) h).2]? =
        some (.group op (Dict.update [] ps)) := by
      rw [hr, newGroup_at, placeMembers_objs]
    refine ⟨_, Dict.update [] ps, by rw [hr], newGroup_new _ _ _, hat, hkeys, ?_⟩
    intro k hkn
    rw [hnav]
    have hlast : ∃ v, LastNamed ps k v := exists_lastNamed ps k (by rw [h2]; exact hkn)
    obtain ⟨v, hv⟩ := hlast
    have hmem : (k, v) ∈ ps := by
      obtain ⟨l1, l2, rfl, -⟩ := hv
      simp
    simp only [navigate, hat, lastNamed_get [] ps k v hv, h3 k v hmem]

/-- What `flatten("leaves")`, which is `leaf_masks`, does to the objects. -/
theorem leaves_objects (h : MHeap) (a : Nat) (op : Agg) (ks : List (String × Mask)) (es : List (String × Nat))
    (hs : ShowsMask h a (.grp op ks)) (he : h[a]? = some (.group op es)) :
    ∃ N, ∀ fuel, N ≤ fuel → ∃ l, TopLeafObjs h es l ∧ ∃ flat,
      leafMasksH fuel h a = (h ++ [.group op flat], .ok h.length) ∧ flat.map Prod.fst = firstNames (l.map Prod.fst) ∧
      (∀ k v, (k, v) ∈ flat → LastNamed l k v) ∧
      ShowsMask (h ++ [.group op flat]) h.length (leafMasks op ks) := by
  obtain ⟨N, hN⟩ := readMask_of_shows hs
  refine ⟨N, fun fuel hf => ?_⟩
  have hr := hN (fuel + 1) (by omega)
  simp only [readMask, he] at hr
  split at hr
  · cases hr
  · next ks' hks =>
    cases hr
    obtain ⟨l, h1, h2, h3⟩ := leafDict_share fuel h es ks (readKids_inv _ _ _ hks) [] [] (by simp [Dict.keys]) .nil
    refine ⟨l, h2, Dict.update [] l, ?_, ?_, fun k v hm => mem_ofPairs_last l k v hm, ?_⟩
    · simp only [leafMasksH, he, h1]
    · have := keys_update_first [] l
      simp only [Dict.keys, List.map_nil, List.nil_append, List.not_mem_nil, not_false_eq_true, decide_true,
        List.filter_true] at this
      exact this
    · unfold leafMasks
      refine dictRel_shows (es := Dict.update [] l) (by simp) ?_
      exact h3.imp (fun m x hx => showsMask_prefix (List.prefix_append _ _) hx)

/-- **C122** `leaf_masks(tree)` and `tree.flatten("leaves")` for every tree of masks anywhere in memory: no existing
object changes, and the members of the new group are the leaf objects of the tree themselves (for each name the last
one in depth-first order); it shows what is computed on values. -/
theorem C122_leaves (h : MHeap) (a : Nat) (op : Agg) (ks : List (String × Mask)) (es : List (String × Nat))
    (hs : ShowsMask h a (.grp op ks)) (he : h[a]? = some (.group op es)) :
    ∃ N, ∀ fuel, N ≤ fuel →
      let r := flattenH .leaves fuel h a
      leafMasksH fuel h a = r ∧ (∀ x : Nat, x < h.length → r.1[x]? = h[x]?) ∧
      ∃ b flat l, r.2 = .ok b ∧ h.length ≤ b ∧ r.1[b]? = some (.group op flat) ∧ TopLeafObjs h es l ∧
        flat.map Prod.fst = firstNames (l.map Prod.fst) ∧ (∀ k v, (k, v) ∈ flat → LastNamed l k v) ∧
        ShowsMask r.1 b (leafMasks op ks) := by
  obtain ⟨N, hN⟩ := leaves_objects h a op ks es hs he
  refine ⟨N, fun fuel hf => ?_⟩
  obtain ⟨l, h1, flat, h2, h3, h4, h5⟩ := hN fuel hf
  simp only [flattenH, h2]
  exact ⟨trivial, prefix_same (List.prefix_append _ _), _, flat, l, rfl, Nat.le_refl _, by simp, h1, h3, h4, h5⟩

theorem valid_rise {h : MHeap} {x : Nat} {it : Member} (hr : RiseItem h x it) : ValidMember h it := by
  rcases hr with ⟨⟨b, hb⟩, rfl⟩ | ⟨-, d, rfl⟩
  · exact .obj (List.getElem?_eq_some_iff.1 hb).1
  · exact .values d

/-- **C122** `group.flatten()` for every tree of masks anywhere in memory: no existing object changes; it raises what
the computation on values raises; otherwise the new group shows what is computed on values, a leaf of the tree is itself
the member of the new group, and a nested group is represented by a new mask with a buffer of its own (for each name it
is the last object in depth-first order which counts); two members have nothing in common that was not there before. -/
theorem C122_rise (h : MHeap) (a : Nat) (op : Agg) (ks : List (String × Mask)) (es : List (String × Nat))
    (hs : ShowsMask h a (.grp op ks)) (he : h[a]? = some (.group op es)) :
    ∃ N, ∀ fuel, N ≤ fuel →
      let r := flattenH .rise fuel h a
      (∀ x : Nat, x < h.length → r.1[x]? = h[x]?) ∧
      match flattenRise op ks with
      | .error e => r.2 = .error e
      | .ok out => ∃ b flat l, r.2 = .ok b ∧ h.length ≤ b ∧ r.1[b]? = some (.group op flat) ∧ ObjOrder h es l ∧
          flat.map Prod.fst = firstNames (l.map Prod.fst) ∧
          (∀ k v, (k, v) ∈ flat → ∃ x, LastNamed l k x ∧ Risen h r.1 x v) ∧
          ShowsMask r.1 b out ∧ (Closed h → NewApart h r.1 flat) := by
  obtain ⟨N, hN⟩ := readMask_of_shows hs
  refine ⟨N, fun fuel hf => ?_⟩
  have hr := hN (fuel + 1) (by omega)
  simp only [readMask, he] at hr
  split at hr
  · cases hr
  · next ks' hks =>
    cases hr
    have hv := visitKids_ok fuel h es ks (readKids_inv _ _ _ hks)
    simp only [flattenRise, flattenH, he]
    cases hk : Mask.visitKids ks with
    | error e =>
      simp only [hk] at hv ⊢
      rw [hv]
      exact ⟨fun _ _ => rfl, rfl⟩
    | ok ps =>
      simp only [hk] at hv ⊢
      obtain ⟨items, l, h1, h2, h3, h4⟩ := hv
      rw [h1]
      have hmade := newGroup_made op (Dict.ofPairs items) h
      have hpre := newGroup_prefix op (Dict.ofPairs items) h
      have hitems := h3.ofPairs
      have hboth := dictRel_comp hitems hmade
      refine ⟨prefix_same hpre, _, _, l, rfl, newGroup_new _ _ _, newGroup_at _ _ _, h2, ?_, ?_, ?_, ?_⟩
      · have hk' := keys_update_first [] l
        simp only [Dict.keys, List.map_nil, List.nil_append, List.not_mem_nil, not_false_eq_true, decide_true,
          List.filter_true] at hk'
        rw [← hk']
        exact (dictRel_index hboth).1.symm
      · intro k v hm
        obtain ⟨x, hx, it, hi, hmd⟩ := dictRel_mem_right hboth hm
        refine ⟨x, mem_ofPairs_last l k x hx, ?_, ?_⟩
        · intro b hb
          rcases hi with ⟨-, rfl⟩ | ⟨⟨op', es', hg⟩, -⟩
          · cases hmd; rfl
          · rw [hb] at hg; cases hg
        · intro op' es' hg
          rcases hi with ⟨⟨b, hb⟩, -⟩ | ⟨-, d, rfl⟩
          · rw [hb] at hg; cases hg
          · cases hmd with
            | values a1 a2 a3 a4 => exact ⟨a1, _, a2, a3⟩
      · refine dictRel_shows (newGroup_at _ _ _) ?_
        exact (dictRel_comp h4.ofPairs hmade).imp (fun m x ⟨it, i1, i2⟩ => made_shows hpre i2 i1)
      · intro hc
        refine (placeMembers_reach h _ hpre hc _ h ?_ (Nat.le_refl _) (List.prefix_append _ _)).2
        intro k it hm
        obtain ⟨x, -, hx⟩ := dictRel_mem_right hitems hm
        exact valid_rise hx

theorem valid_agg {h : MHeap} (hc : Closed h) {x : Nat} {it : Member} (hr : AggItem h x it) : ValidMember h it := by
  rcases hr with ⟨b, hb, rfl⟩ | ⟨-, d, rfl⟩
  · exact .array (hc _ _ hb b (by simp [refs]))
  · exact .values d

/-- **C122** `group.flatten("agg")` for every tree of masks anywhere in memory (names of one group are distinct): no
existing object changes; it raises what the computation on values raises; otherwise the new group shows what is computed
on values, every member is a new mask, and its buffer is that of the old member if that is a mask, and a new one if it
is a group; two members have nothing in common that was not there before. -/
theorem C122_agg (h : MHeap) (a : Nat) (op : Agg) (ks : List (String × Mask)) (es : List (String × Nat))
    (hs : ShowsMask h a (.grp op ks)) (he : h[a]? = some (.group op es)) (hn : (es.map Prod.fst).Nodup) :
    ∃ N, ∀ fuel, N ≤ fuel →
      let r := flattenH .agg fuel h a
      (∀ x : Nat, x < h.length → r.1[x]? = h[x]?) ∧
      match flattenAgg ks with
      | .error e => r.2 = .error e
      | .ok out => ∃ b flat, r.2 = .ok b ∧ h.length ≤ b ∧ r.1[b]? = some (.group .or flat) ∧
          List.Forall₂ (fun e f => e.1 = f.1 ∧ Aggregated h r.1 e.2 f.2) es flat ∧
          ShowsMask r.1 b out ∧ (Closed h → NewApart h r.1 flat) := by
  obtain ⟨N, hN⟩ := readMask_of_shows hs
  refine ⟨N, fun fuel hf => ?_⟩
  have hr := hN (fuel + 1) (by omega)
  simp only [readMask, he] at hr
  split at hr
  · cases hr
  · next ks' hks =>
    cases hr
    have hread : List.Forall₂ (fun e k => e.1 = k.1 ∧ readMask fuel h e.2 = .ok k.2) es ks := readKids_inv _ _ _ hks
    have hv := aggMembers_ok fuel h es ks hread
    simp only [flattenAgg, flattenH, he]
    cases hk : Mask.dataKids ks with
    | error e =>
      simp only [hk] at hv ⊢
      rw [hv]
      exact ⟨fun _ _ => rfl, rfl⟩
    | ok rows =>
      simp only [hk] at hv ⊢
      obtain ⟨items, h1, h2, h3⟩ := hv
      rw [h1]
      have hmade := newGroup_made .or (Dict.ofPairs items) h
      have hpre := newGroup_prefix .or (Dict.ofPairs items) h
      have hes : Dict.ofPairs es = es := Dict.ofPairs_of_nodup es hn
      have hitems := h2.ofPairs
      rw [hes] at hitems
      have hboth := dictRel_comp hitems hmade
      refine ⟨prefix_same hpre, _, _, rfl, newGroup_new _ _ _, newGroup_at _ _ _, ?_, ?_, ?_⟩
      · refine List.Forall₂.imp ?_ hboth
        rintro e f ⟨hk', it, hi, hmd⟩
        refine ⟨hk', ?_, ?_⟩
        · intro b hb
          rcases hi with ⟨b', hb', rfl⟩ | ⟨⟨op', es', hg⟩, -⟩
          · rw [hb] at hb'
            cases hb'
            cases hmd with
            | array a1 a2 => exact ⟨a1, a2⟩
          · rw [hb] at hg; cases hg
        · intro op' es' hg
          rcases hi with ⟨b', hb', rfl⟩ | ⟨-, d, hit⟩
          · rw [hg] at hb'; cases hb'
          · rw [hit] at hmd
            cases hmd with
            | values a1 a2 a3 a4 => exact ⟨a1, _, a2, a3⟩
      · refine dictRel_shows (newGroup_at _ _ _) ?_
        exact (dictRel_comp h3.ofPairs hmade).imp (fun m x ⟨it, i1, i2⟩ => made_shows hpre i2 i1)
      · intro hc
        refine (placeMembers_reach h _ hpre hc _ h ?_ (Nat.le_refl _) (List.prefix_append _ _)).2
        intro k it hm
        obtain ⟨x, -, hx⟩ := dictRel_mem_right hitems hm
        exact valid_agg hc hx

/-- **C122** The use of identity: when two places, in any two groups, hold the same mask object, values written through
one are read through the other; when they hold masks on the same buffer likewise; and a mask with another buffer is not
affected. -/
theorem C122_write (h : MHeap) (a a' x x' b b' : Nat) (p p' : List String) (d d' : List Bool)
    (h1 : navigate h a p = some x) (h2 : navigate h a' p' = some x') (hx : h[x]? = some (.mask b))
    (hx' : h[x']? = some (.mask b')) (hb : ∃ c, h[b]? = some (.buf c)) (hb' : h[b']? = some (.buf d')) :
    let h' := HOp.run h a a (.write p d)
    navigate h' a' p' = some x' ∧
    (b = b' → ShowsMask h' x' (.arr d)) ∧ (b ≠ b' → ShowsMask h' x' (.arr d')) := by
  obtain ⟨c, hb⟩ := hb
  have hrun : HOp.run h a a (.write p d) = h.set b (.buf d) := by simp only [HOp.run, h1, hx]
  simp only [hrun]
  have hget : ∀ y : Nat, y ≠ b → (h.set b (.buf d))[y]? = h[y]? := fun y hy => List.getElem?_set_ne (Ne.symm hy)
  have hbl := (List.getElem?_eq_some_iff.1 hb).1
  have hself : (h.set b (.buf d))[b]? = some (.buf d) := by
    rw [List.getElem?_set_self hbl]
  have hmask : ∀ (y c' : Nat), h[y]? = some (HObj.mask c') → (h.set b (.buf d))[y]? = some (.mask c') := by
    intro y c' hy
    rw [hget y (by rintro rfl; rw [hb] at hy; cases hy)]
    exact hy
  refine ⟨?_, ?_, ?_⟩
  · have nav : ∀ (q : List String) (y : Nat), navigate (h.set b (.buf d)) y q = navigate h y q := by
      intro q
      induction q with
      | nil => intro y; rfl
      | cons k q ih =>
        intro y
        simp only [navigate]
        by_cases hy : y = b
        · subst hy
          rw [hself, hb]
        · rw [hget y hy]
          cases h[y]? with
          | none => rfl
          | some o =>
            cases o with
            | group op es =>
              simp only
              cases Dict.get? es k with
              | none => rfl
              | some v => exact ih v
            | _ => rfl
    rw [nav]
    exact h2
  · rintro rfl
    exact .arr (hmask _ _ hx') hself
  · intro hne
    exact .arr (hmask _ _ hx') (by rw [hget b' (Ne.symm hne)]; exact hb')

/-! ## Examples -/

/-- A tree with a nested group, in which one mask object occurs twice. -/
def shHeap : MHeap :=
  [.buf [true, false], .mask 0, .buf [false, true], .mask 2, .group .or [("b", 1), ("latent", 3)],
    .group .and [("a", 4), ("c", 1), ("d", 3)]]

/-- What it shows. -/
def shKids : List (String × Mask) :=
  [("a", .grp .or [("b", .arr [true, false]), ("latent", .arr [false, true])]), ("c", .arr [true, false]),
    ("d", .arr [false, true])]

theorem shHeap_shows : ShowsMask shHeap 5 (.grp .and shKids) := readMask_shows 3 _ _ _ rfl

theorem shHeap_closed : Closed shHeap := by
  intro x o ho
  have hx := (List.getElem?_eq_some_iff.1 ho).1
  simp only [shHeap, List.length_cons, List.length_nil] at hx
  match x, hx with
  | 0, _ => cases ho; simp [refs]
  | 1, _ => cases ho; simp [refs, shHeap]
  | 2, _ => cases ho; simp [refs]
  | 3, _ => cases ho; simp [refs, shHeap]
  | 4, _ => cases ho; simp [refs, shHeap]
  | 5, _ => cases ho; simp [refs, shHeap]

example : flattenH .rise 3 shHeap 5 =
    (shHeap ++ [.buf [true, true], .mask 6, .group .and [("a", 7), ("b", 1), ("c", 1), ("d", 3)]], .ok 8) := rfl
example : flattenH .agg 3 shHeap 5 =
    (shHeap ++ [.buf [true, true], .mask 6, .mask 0, .mask 2, .group .or [("a", 7), ("c", 8), ("d", 9)]], .ok 10) := rfl
example : flattenH .leaves 3 shHeap 5 = (shHeap ++ [.group .and [("b", 1), ("c", 1), ("d", 3)]], .ok 6) := rfl
example : selectH ["d", "a", "d"] shHeap 5 = (shHeap ++ [.group .and [("d", 3), ("a", 4)]], .ok 6) := rfl
example : ∃ N, ∀ fuel, N ≤ fuel →
    let r := flattenH .rise fuel shHeap 5
    (∀ x : Nat, x < shHeap.length → r.1[x]? = shHeap[x]?) ∧
    match flattenRise .and shKids with
    | .error e => r.2 = .error e
    | .ok out => ∃ b flat l, r.2 = .ok b ∧ shHeap.length ≤ b ∧ r.1[b]? = some (.group .and flat) ∧
        ObjOrder shHeap [("a", 4), ("c", 1), ("d", 3)] l ∧ flat.map Prod.fst = firstNames (l.map Prod.fst) ∧
        (∀ k v, (k, v) ∈ flat → ∃ x, LastNamed l k x ∧ Risen shHeap r.1 x v) ∧
        ShowsMask r.1 b out ∧ (Closed shHeap → NewApart shHeap r.1 flat) :=
  C122_rise shHeap 5 .and shKids _ shHeap_shows rfl
example := C122_agg shHeap 5 .and shKids _ shHeap_shows rfl (by decide)
example := C122_leaves shHeap 5 .and shKids _ shHeap_shows rfl
example : ∀ k m, (k, m) ∈ [("x", Member.obj 4), ("y", .array 0), ("z", .mapping [("u", .values [true])])] →
    ValidMember shHeap m := by
  intro k m hm
  simp only [List.mem_cons, List.not_mem_nil, or_false, Prod.mk.injEq] at hm
  rcases hm with ⟨-, rfl⟩ | ⟨-, rfl⟩ | ⟨-, rfl⟩
  · exact .obj (by decide)
  · exact .array (by decide)
  · refine .mapping (fun k m hm => ?_)
    simp only [List.mem_cons, List.not_mem_nil, or_false, Prod.mk.injEq] at hm
    rw [hm.2]
    exact .values _
-- writing through `flat["b"]` is seen in `tree["a"]["b"]`
example := C122_write (shHeap ++ [.buf [true, true], .mask 6, .group .and [("a", 7), ("b", 1), ("c", 1), ("d", 3)]])
  8 5 1 1 0 0 ["b"] ["a", "b"] [false, false] [true, false] rfl rfl rfl rfl ⟨_, rfl⟩ rfl

end Gcl
