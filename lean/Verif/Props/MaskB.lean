import Verif.Props.MaskA
/-! # C04–C07: serialization, structural equality, recursive_drop -/
namespace Gcl
set_option autoImplicit false
open Spec

/-! ## Lookup in the results of the tree functions -/

theorem get?_serializeKids (ks : List (String × Mask)) (k : String) :
    Dict.get? (Mask.serializeKids ks) k = (Dict.get? ks k).map Mask.serialize := by
  induction ks with
  | nil => rfl
  | cons p ks ih =>
    obtain ⟨k', m⟩ := p
    simp only [Mask.serializeKids, Dict.get?_cons, ih]
    split <;> rfl

theorem get?_convertKids (ks : List (String × Ser)) (k : String) :
    Dict.get? (Ser.convertKids ks) k = (Dict.get? ks k).map Ser.convert := by
  induction ks with
  | nil => rfl
  | cons p ks ih =>
    obtain ⟨k', m⟩ := p
    simp only [Ser.convertKids, Dict.get?_cons, ih]
    split <;> rfl

theorem keys_roundtrip (ks : List (String × Mask)) :
    (Ser.convertKids (Mask.serializeKids ks)).map Prod.fst = ks.map Prod.fst := by
  induction ks with
  | nil => rfl
  | cons p ks ih =>
    obtain ⟨k', m⟩ := p
    simp [Mask.serializeKids, Ser.convertKids, ih]

theorem look_roundtrip (m : Mask) (p : List String) :
    look (Ser.convert (Mask.serialize m)) p = (look m p).map Node.resetAgg := by
  induction p generalizing m with
  | nil =>
    cases m with
    | arr d => rfl
    | grp op ks =>
      simp only [Mask.serialize, Ser.convert, look_nil, node, Option.map_some, Node.resetAgg,
        keys_roundtrip]
  | cons k p ih =>
    cases m with
    | arr d => simp [Mask.serialize, Ser.convert, look_cons, child]
    | grp op ks =>
      simp only [Mask.serialize, Ser.convert, look_cons, child_grp, get?_convertKids,
        get?_serializeKids]
      cases Dict.get? ks k with
      | none => rfl
      | some c => simpa using ih c

theorem serialize_roundtrip (m : Mask) : (Ser.convert m.serialize).serialize = m.serialize := by
  induction m using Mask.ind with
  | ha d => rfl
  | hg op ks ih =>
    simp only [Mask.serialize, Ser.convert]
    congr 1
    induction ks with
    | nil => rfl
    | cons p ks ih2 =>
      obtain ⟨k, m⟩ := p
      simp only [Mask.serializeKids, Ser.convertKids]
      rw [ih k m (by simp), ih2 (fun k' m' h => ih k' m' (by simp [h]))]

/-! ## equal_to -/

theorem keysAgree_iff (o : Bool) (k1 k2 : List String) :
    keysAgree o k1 k2 = true ↔ (if o then k1 = k2 else ∀ k, k ∈ k1 ↔ k ∈ k2) := by
  cases o
  · simp only [keysAgree, Bool.false_eq_true, if_false, Bool.and_eq_true, List.all_eq_true,
      List.contains_eq_mem, decide_eq_true_eq]
    constructor
    · rintro ⟨h1, h2⟩ k; exact ⟨h1 k, h2 k⟩
    · intro h; exact ⟨fun k hk => (h k).1 hk, fun k hk => (h k).2 hk⟩
  · simp [keysAgree]

theorem equalKids_iff (o : Bool) (k1 k2 : List (String × Mask)) :
    Mask.equalKids o k1 k2 = true ↔
      ∀ k m, (k, m) ∈ k1 → ∃ m2, Dict.get? k2 k = some m2 ∧ m.equalTo o m2 = true := by
  induction k1 with
  | nil => simp [Mask.equalKids]
  | cons p k1 ih =>
    obtain ⟨k, m⟩ := p
    simp only [Mask.equalKids, Bool.and_eq_true, ih]
    constructor
    · rintro ⟨h1, h2⟩ k' m' hm
      rcases List.mem_cons.1 hm with e | hm
      · cases e
        split at h1
        · rename_i m2 hg; exact ⟨m2, hg, h1⟩
        · cases h1
      · exact h2 k' m' hm
    · intro h
      refine ⟨?_, fun k' m' hm => h k' m' (by simp [hm])⟩
      obtain ⟨m2, hg, he⟩ := h k m (by simp)
      rw [hg]; exact he

/-- **C05**: `a.equal_to(b, check_order)` is `True` exactly when at every path the two trees show
alike nodes: the path exists in both or neither, leaves hold identical booleans, groups have the
same keys (in the same order if `check_order`). -/
theorem C05_equal_to (ordered : Bool) (a b : Mask) (ha : UniqueKeys a) (hb : UniqueKeys b) :
    a.equalTo ordered b = true ↔ ∀ p, NodeAlike ordered (look a p) (look b p) := by
  induction a using Mask.ind generalizing b with
  | ha x =>
    cases b with
    | arr y =>
      simp only [Mask.equalTo, beq_iff_eq]
      constructor
      · rintro rfl p
        cases p with
        | nil => rfl
        | cons k p => simp [look_cons, child, NodeAlike]
      · intro h; exact h []
    | grp op ks =>
      simp only [Mask.equalTo, Bool.false_eq_true, false_iff]
      intro h; exact h []
  | hg op1 k1 ih =>
    cases b with
    | arr y =>
      simp only [Mask.equalTo, Bool.false_eq_true, false_iff]
      intro h; exact h []
    | grp op2 k2 =>
      simp only [Mask.equalTo, Bool.and_eq_true, keysAgree_iff, equalKids_iff]
      have hn1 := ha.keys
      have hn2 := hb.keys
      constructor
      · rintro ⟨hk, hc⟩ p
        cases p with
        | nil => exact hk
        | cons k p =>
          rw [look_cons, look_cons, child_grp, child_grp]
          have hmem : k ∈ Dict.keys k1 ↔ k ∈ Dict.keys k2 := by
            cases ordered
            · exact hk k
            · simp only [if_true] at hk; rw [hk]
          cases hg : Dict.get? k1 k with
          | none =>
            have := (Dict.get?_eq_none_iff k1 k).1 hg
            rw [hmem] at this
            rw [(Dict.get?_eq_none_iff k2 k).2 this]
            trivial
          | some m1 =>
            have hm := Dict.mem_of_get? hg
            obtain ⟨m2, hg2, he⟩ := hc k m1 hm
            rw [hg2]
            exact (ih k m1 hm m2 (ha.kid hm) (hb.kid (Dict.mem_of_get? hg2))).1 he p
      · intro h
        refine ⟨h [], ?_⟩
        intro k m hm
        have hg := Dict.get?_of_mem hn1 hm
        cases hg2 : Dict.get? k2 k with
        | none =>
          have := h [k]
          rw [look_cons, look_cons, child_grp, child_grp, hg, hg2] at this
          cases m <;> exact this.elim
        | some m2 =>
          refine ⟨m2, rfl, ?_⟩
          refine (ih k m hm m2 (ha.kid hm) (hb.kid (Dict.mem_of_get? hg2))).2 (fun p => ?_)
          have := h (k :: p)
          rwa [look_cons, look_cons, child_grp, child_grp, hg, hg2] at this

theorem nodeAlike_refl (o : Bool) (n : Option Node) : NodeAlike o n n := by
  cases n with
  | none => trivial
  | some n => cases n <;> cases o <;> simp [NodeAlike]

theorem nodeAlike_symm (o : Bool) {n n' : Option Node} (h : NodeAlike o n n') :
    NodeAlike o n' n := by
  match n, n', h with
  | none, none, _ => trivial
  | some (.leaf a), some (.leaf b), h => exact Eq.symm h
  | some (.group _ k1), some (.group _ k2), h =>
    cases o
    · intro k; exact (h k).symm
    · exact Eq.symm h

theorem nodeAlike_trans (o : Bool) {n1 n2 n3 : Option Node} (h : NodeAlike o n1 n2)
    (h' : NodeAlike o n2 n3) : NodeAlike o n1 n3 := by
  match n1, n2, n3, h, h' with
  | none, none, none, _, _ => trivial
  | some (.leaf a), some (.leaf b), some (.leaf c), h, h' => exact Eq.trans h h'
  | some (.group _ k1), some (.group _ k2), some (.group _ k3), h, h' =>
    cases o
    · intro k; exact (h k).trans (h' k)
    · exact Eq.trans h h'

/-- **C05**: `equal_to` is reflexive, symmetric and transitive. -/
theorem C05_equivalence (o : Bool) :
    (∀ a, UniqueKeys a → a.equalTo o a = true) ∧
    (∀ a b, UniqueKeys a → UniqueKeys b → a.equalTo o b = true → b.equalTo o a = true) ∧
    (∀ a b c, UniqueKeys a → UniqueKeys b → UniqueKeys c →
      a.equalTo o b = true → b.equalTo o c = true → a.equalTo o c = true) := by
  refine ⟨?_, ?_, ?_⟩
  · intro a ha; rw [C05_equal_to o a a ha ha]; intro p; exact nodeAlike_refl o _
  · intro a b ha hb h
    rw [C05_equal_to o a b ha hb] at h
    rw [C05_equal_to o b a hb ha]
    intro p; exact nodeAlike_symm o (h p)
  · intro a b c ha hb hc h h'
    rw [C05_equal_to o a b ha hb] at h
    rw [C05_equal_to o b c hb hc] at h'
    rw [C05_equal_to o a c ha hc]
    intro p; exact nodeAlike_trans o (h p) (h' p)

/-- **C05**: equality with `check_order=True` implies equality without. -/
theorem C05_order_implies (a b : Mask) (ha : UniqueKeys a) (hb : UniqueKeys b)
    (h : a.equalTo true b = true) : a.equalTo false b = true := by
  rw [C05_equal_to _ a b ha hb] at *
  intro p
  have := h p
  revert this
  generalize look a p = n; generalize look b p = n'
  intro h
  match n, n', h with
  | none, none, _ => trivial
  | some (.leaf a), some (.leaf b), h => exact h
  | some (.group _ k1), some (.group _ k2), h =>
    have e : k1 = k2 := h
    subst e
    intro k; exact Iff.rfl

/-- **C05**: equal trees whose groups also aggregate alike have the same aggregate — conversely
`equal_to` ignores `agg_op`: it can hold for groups with different aggregates. -/
theorem C05_ignores_agg_op : ∃ a b : Mask, UniqueKeys a ∧ UniqueKeys b ∧
    a.equalTo true b = true ∧ a.data ≠ b.data := by
  refine ⟨.grp .and [("a", .arr [true]), ("b", .arr [false])],
    .grp .or [("a", .arr [true]), ("b", .arr [false])], ?_, ?_, by decide, by decide⟩ <;>
  · refine uniqueKeys_grp (by decide) ?_
    simp only [List.mem_cons, Prod.mk.injEq, List.not_mem_nil, or_false]
    rintro k m (⟨-, rfl⟩ | ⟨-, rfl⟩) <;> exact uniqueKeys_arr _

example : exTree.equalTo true exTree = true := by decide
example : (Mask.grp .and [("a", .arr [true]), ("b", .arr [false])]).equalTo false
    (.grp .or [("b", .arr [false]), ("a", .arr [true])]) = true := by decide
example : (Mask.grp .and [("a", .arr [true]), ("b", .arr [false])]).equalTo true
    (.grp .or [("b", .arr [false]), ("a", .arr [true])]) = false := by decide

/-! ## Serialization -/

/-- **C04**: `MaskGroup(group.serialize())` shows the group's keys in order and its booleans at
every path; only `agg_op` is reset. -/
theorem C04_look (op : Agg) (ks : List (String × Mask)) (p : List String) :
    look (groupOfSer (Mask.serializeKids ks)) p = (look (.grp op ks) p).map Node.resetAgg := by
  have := look_roundtrip (.grp op ks) p
  simpa [Mask.serialize, Ser.convert, groupOfSer] using this

theorem nodeAlike_reset (o : Bool) (n : Option Node) : NodeAlike o (n.map Node.resetAgg) n := by
  cases n with
  | none => trivial
  | some n => cases n <;> cases o <;> simp [NodeAlike, Node.resetAgg]

/-- **C04**: the restored group `equal_to` the original (also with `check_order=True`), and
serializes to the same value. -/
theorem C04_roundtrip (ordered : Bool) (op : Agg) (ks : List (String × Mask))
    (hu : UniqueKeys (.grp op ks)) :
    (groupOfSer (Mask.serializeKids ks)).equalTo ordered (.grp op ks) = true ∧
    (groupOfSer (Mask.serializeKids ks)).serialize = (Mask.grp op ks).serialize := by
  constructor
  · rw [C05_equal_to ordered _ _ ?_ hu]
    · intro p; rw [C04_look op]; exact nodeAlike_reset _ _
    · intro p op' ks' h
      rw [C04_look op] at h
      cases hl : look (.grp op ks) p with
      | none => simp [hl] at h
      | some n =>
        cases n with
        | leaf d => simp [hl, Node.resetAgg] at h
        | group op2 k2 =>
          simp only [hl, Option.map_some, Node.resetAgg, Option.some.injEq, Node.group.injEq] at h
          rw [← h.2]
          exact hu p op2 k2 hl
  · have := serialize_roundtrip (.grp op ks)
    simpa [Mask.serialize, Ser.convert, groupOfSer] using this

/-- **C04**: the serialized value determines the booleans: two groups with equal serialization are
`equal_to` each other. -/
theorem C04_faithful (a b : Mask) (ha : UniqueKeys a) (hb : UniqueKeys b)
    (h : a.serialize = b.serialize) : a.equalTo true b = true := by
  rw [C05_equal_to true a b ha hb]
  intro p
  have h1 := look_roundtrip a p
  rw [h, look_roundtrip b p] at h1
  exact nodeAlike_trans true (nodeAlike_symm true (nodeAlike_reset true (look a p)))
    (by rw [← h1]; exact nodeAlike_reset true (look b p))

example : UniqueKeys exTree := exTree_unique

theorem data_roundtrip_and (m : Mask) (hu : UniqueKeys m) (h : AllAgg .and m) :
    Ser.convert m.serialize = m := by
  induction m using Mask.ind with
  | ha d => rfl
  | hg op ks ih =>
    have hop : op = .and := h [] op _ rfl
    subst hop
    simp only [Mask.serialize, Ser.convert]
    congr 1
    have : ∀ k m, (k, m) ∈ ks → Ser.convert m.serialize = m :=
      fun k m hm => ih k m hm (hu.kid hm) (h.kid hu hm)
    clear ih hu h
    induction ks with
    | nil => rfl
    | cons p ks ih2 =>
      obtain ⟨k, m⟩ := p
      simp only [Mask.serializeKids, Ser.convertKids]
      rw [this k m (by simp), ih2 (fun k' m' hm => this k' m' (by simp [hm]))]

theorem aggregable_iff_look (n : Nat) (m : Mask) (hu : UniqueKeys m) (h : AllAgg .and m) :
    Aggregable n m ↔ (∀ p x, look m p = some (.leaf x) → x.length = n) ∧
      ∀ p op, look m p ≠ some (.group op []) := by
  induction m using Mask.ind with
  | ha x =>
    constructor
    · rintro ⟨hx⟩
      refine ⟨fun p y hp => ?_, fun p op hp => ?_⟩
      · cases p with
        | nil => simp only [look_nil, node, Option.some.injEq, Node.leaf.injEq] at hp; rwa [← hp]
        | cons k p => simp [look_cons, child] at hp
      · cases p with
        | nil => simp [look_nil, node] at hp
        | cons k p => simp [look_cons, child] at hp
    · intro hh; exact .leaf (hh.1 [] x rfl)
  | hg op ks ih =>
    have hop : op = .and := h [] op _ rfl
    subst hop
    constructor
    · intro hh
      cases hh with
      | group hop hne hall =>
        have key : ∀ k p nd, look (.grp .and ks) (k :: p) = some nd →
            ∃ c, (k, c) ∈ ks ∧ look c p = some nd := by
          intro k p nd hp
          rw [look_cons, child_grp] at hp
          cases hg : Dict.get? ks k with
          | none => simp [hg] at hp
          | some c =>
            simp only [hg, Option.bind_some] at hp
            exact ⟨c, Dict.mem_of_get? hg, hp⟩
        refine ⟨fun p y hp => ?_, fun p op hp => ?_⟩
        · cases p with
          | nil => simp [look_nil, node] at hp
          | cons k p =>
            obtain ⟨c, hc, hp⟩ := key k p _ hp
            exact ((ih k c hc (hu.kid hc) (h.kid hu hc)).1 (hall k c hc)).1 p y hp
        · cases p with
          | nil =>
            simp only [look_nil, node, Option.some.injEq, Node.group.injEq, List.map_eq_nil_iff] at hp
            exact hne hp.2
          | cons k p =>
            obtain ⟨c, hc, hp⟩ := key k p _ hp
            exact ((ih k c hc (hu.kid hc) (h.kid hu hc)).1 (hall k c hc)).2 p op hp
    · rintro ⟨h1, h2⟩
      refine .group (by decide) ?_ ?_
      · rintro rfl; exact h2 [] .and rfl
      · intro k c hc
        refine (ih k c hc (hu.kid hc) (h.kid hu hc)).2 ⟨fun p x hp => h1 (k :: p) x ?_, fun p op hp => h2 (k :: p) op ?_⟩
        · rw [look_cons, child_grp, Dict.get?_of_mem hu.keys hc]; exact hp
        · rw [look_cons, child_grp, Dict.get?_of_mem hu.keys hc]; exact hp

/-- **C06**: whatever the aggregation operations in the tree, the restored group's aggregate is the conjunction of all
leaves: it is `d` exactly when all leaves have the length of `d`, no group is empty, and position `i` of `d` is `True`
iff every leaf is `True` there. -/
theorem C06_restored (op : Agg) (ks : List (String × Mask)) (hu : UniqueKeys (.grp op ks)) (d : List Bool) :
    (groupOfSer (Mask.serializeKids ks)).data = .ok d ↔
      (∀ p x, look (.grp op ks) p = some (.leaf x) → x.length = d.length) ∧
      (∀ p op', look (.grp op ks) p ≠ some (.group op' [])) ∧
      ∀ (i : Nat) (hi : i < d.length),
        d[i] = true ↔ ∀ p x, look (.grp op ks) p = some (.leaf x) → x[i]? = some true := by
  have hl := C04_look op ks
  have hleaf : ∀ p x, look (groupOfSer (Mask.serializeKids ks)) p = some (.leaf x) ↔
      look (.grp op ks) p = some (.leaf x) := by
    intro p x
    rw [hl]
    cases look (.grp op ks) p with
    | none => simp
    | some nd => cases nd <;> simp [Node.resetAgg]
  have hgrp : ∀ p op' l, look (groupOfSer (Mask.serializeKids ks)) p = some (.group op' l) ↔
      op' = .and ∧ ∃ op'', look (.grp op ks) p = some (.group op'' l) := by
    intro p op' l
    rw [hl]
    cases look (.grp op ks) p with
    | none => simp
    | some nd =>
      cases nd with
      | leaf x => simp [Node.resetAgg]
      | group o2 l2 =>
        simp only [Node.resetAgg, Option.map_some, Option.some.injEq, Node.group.injEq]
        constructor
        · rintro ⟨rfl, rfl⟩; exact ⟨rfl, o2, rfl, rfl⟩
        · rintro ⟨rfl, o3, rfl, rfl⟩; exact ⟨rfl, rfl⟩
  have hu' : UniqueKeys (groupOfSer (Mask.serializeKids ks)) := by
    intro p op' l h
    obtain ⟨-, op'', h⟩ := (hgrp p op' l).1 h
    exact hu p op'' l h
  have ha : AllAgg .and (groupOfSer (Mask.serializeKids ks)) := fun p op' l h => ((hgrp p op' l).1 h).1
  have hagg : ∀ n, Aggregable n (groupOfSer (Mask.serializeKids ks)) ↔
      (∀ p x, look (.grp op ks) p = some (.leaf x) → x.length = n) ∧
        ∀ p op', look (.grp op ks) p ≠ some (.group op' []) := by
    intro n
    rw [aggregable_iff_look n _ hu' ha]
    refine and_congr ⟨fun h p x hx => h p x ((hleaf p x).2 hx), fun h p x hx => h p x ((hleaf p x).1 hx)⟩ ⟨?_, ?_⟩
    · intro h p op' hx
      exact h p .and ((hgrp p .and []).2 ⟨rfl, op', hx⟩)
    · intro h p op' hx
      obtain ⟨-, op'', hx⟩ := (hgrp p op' []).1 hx
      exact h p op'' hx
  constructor
  · intro h
    obtain ⟨h1, h2⟩ := (hagg d.length).1 (data_ok_isAggregate h).1
    refine ⟨h1, h2, fun i hi => ?_⟩
    rw [C03_all_and _ d hu' ha h i hi]
    simp only [hleaf]
  · rintro ⟨h1, h2, h3⟩
    obtain ⟨e, he, hle⟩ := aggregable_data ((hagg d.length).2 ⟨h1, h2⟩)
    rw [he]
    congr 1
    refine List.ext_getElem hle (fun i hi hi' => ?_)
    rw [Bool.eq_iff_iff, h3 i hi', C03_all_and _ e hu' ha he i hi]
    simp only [hleaf]

/-- **C06**: so the aggregate survives when every group of the tree aggregates with `and`, also in the cases where it
is an exception; -/
theorem C06_and (op : Agg) (ks : List (String × Mask))
    (hu : UniqueKeys (.grp op ks)) (h : AllAgg .and (.grp op ks)) :
    (groupOfSer (Mask.serializeKids ks)).data = (Mask.grp op ks).data := by
  have := data_roundtrip_and _ hu h
  simp only [Mask.serialize, Ser.convert] at this
  rw [groupOfSer, this]

/-- **C06**: and passing the top-level `agg_op` explicitly restores the aggregate when all *nested* groups use
`and`. -/
theorem C06_explicit (op : Agg) (ks : List (String × Mask))
    (hu : UniqueKeys (.grp op ks)) (h : ∀ k m, (k, m) ∈ ks → AllAgg .and m) :
    (groupOfSer (Mask.serializeKids ks) op).data = (Mask.grp op ks).data := by
  have : Ser.convertKids (Mask.serializeKids ks) = ks := by
    have h2 : ∀ k m, (k, m) ∈ ks → Ser.convert m.serialize = m :=
      fun k m hm => data_roundtrip_and m (hu.kid hm) (h k m hm)
    clear hu h
    induction ks with
    | nil => rfl
    | cons p ks ih =>
      obtain ⟨k, m⟩ := p
      simp only [Mask.serializeKids, Ser.convertKids]
      rw [h2 k m (by simp), ih (fun k' m' hm => h2 k' m' (by simp [hm]))]
  rw [groupOfSer, this]

/-- **C06** The expectation that the aggregate always survives is refuted: `agg_op` is not serialized. -/
theorem C06_false : ¬ ∀ (op : Agg) (ks : List (String × Mask)), UniqueKeys (.grp op ks) →
    (groupOfSer (Mask.serializeKids ks)).data = (Mask.grp op ks).data := by
  intro h
  have := h .or [("a", .arr [true]), ("b", .arr [false])] (by
    refine uniqueKeys_grp (by decide) ?_
    simp only [List.mem_cons, Prod.mk.injEq, List.not_mem_nil, or_false]
    rintro k m (⟨-, rfl⟩ | ⟨-, rfl⟩) <;> exact uniqueKeys_arr _)
  revert this
  decide

example : AllAgg .and exAnd := exAnd_all

/-! ## recursive_drop -/

theorem get?_dropKids (key : String) (ks : List (String × Mask)) (k : String) :
    Dict.get? (Mask.dropKids key ks) k =
      if k = key then none else (Dict.get? ks k).map (Mask.drop key) := by
  induction ks with
  | nil => simp [Mask.dropKids]
  | cons p ks ih =>
    obtain ⟨k', m⟩ := p
    simp only [Mask.dropKids]
    by_cases h : k' = key
    · subst h
      simp only [if_true, ih, Dict.get?_cons]
      by_cases h2 : k = k'
      · simp [h2]
      · simp [h2, Ne.symm h2]
    · simp only [h, if_false, Dict.get?_cons, ih]
      by_cases h2 : k' = k
      · subst h2; simp [h]
      · simp [h2]

theorem keys_dropKids (key : String) (ks : List (String × Mask)) :
    (Mask.dropKids key ks).map Prod.fst = (ks.map Prod.fst).filter (· != key) := by
  induction ks with
  | nil => rfl
  | cons p ks ih =>
    obtain ⟨k', m⟩ := p
    simp only [Mask.dropKids, List.map_cons, List.filter_cons]
    by_cases h : k' = key
    · simp [h, ih]
    · simp [h, ih]

/-- **C07**: after `recursive_drop(key)` every path through `key` is gone and every other path shows
the same node as before — same booleans, same `agg_op`, same keys in the same order minus `key`. -/
theorem C07_recursive_drop (key : String) (m : Mask) (p : List String) :
    look (m.drop key) p = if key ∈ p then none else (look m p).map (Node.without key) := by
  induction p generalizing m with
  | nil =>
    cases m with
    | arr d => rfl
    | grp op ks =>
      simp [Mask.drop, look_nil, node, Node.without, keys_dropKids]
  | cons k p ih =>
    cases m with
    | arr d => simp [Mask.drop, look_cons, child]
    | grp op ks =>
      simp only [Mask.drop, look_cons, child_grp, get?_dropKids, List.mem_cons]
      by_cases h : k = key
      · simp [h]
      · have h' : ¬ key = k := fun e => h e.symm
        simp only [h, if_false, h', false_or]
        cases Dict.get? ks k with
        | none => simp
        | some c => simpa using ih c

/-- **C07**: no group at any depth has the key any more. -/
theorem C07_key_gone (key : String) (m : Mask) (p : List String) (op : Agg) (ks : List String)
    (h : look (m.drop key) p = some (.group op ks)) : key ∉ ks := by
  rw [C07_recursive_drop] at h
  split at h
  · cases h
  · cases hl : look m p with
    | none => simp [hl] at h
    | some n =>
      cases n with
      | leaf d => simp [hl, Node.without] at h
      | group op' ks' =>
        simp only [hl, Option.map_some, Node.without, Option.some.injEq, Node.group.injEq] at h
        rw [← h.2]; simp

/-- **C07**: dropping again changes nothing. -/
theorem C07_idempotent (key : String) (m : Mask) : (m.drop key).drop key = m.drop key := by
  induction m using Mask.ind with
  | ha d => rfl
  | hg op ks ih =>
    simp only [Mask.drop]
    congr 1
    induction ks with
    | nil => rfl
    | cons p ks ih2 =>
      obtain ⟨k, m⟩ := p
      simp only [Mask.dropKids]
      have ih2' := ih2 (fun k' m' h => ih k' m' (by simp [h]))
      by_cases h : k = key
      · simp [h, ih2']
      · simp only [h, if_false, Mask.dropKids]
        rw [ih k m (by simp), ih2']

/-- **C07**: a key that occurs nowhere drops nothing. -/
theorem C07_absent (key : String) (m : Mask)
    (h : ∀ p op ks, look m p = some (.group op ks) → key ∉ ks) (hu : UniqueKeys m) :
    m.drop key = m := by
  induction m using Mask.ind with
  | ha d => rfl
  | hg op ks ih =>
    simp only [Mask.drop]
    congr 1
    have hk : key ∉ ks.map Prod.fst := h [] op _ rfl
    have hc : ∀ k m, (k, m) ∈ ks → m.drop key = m := by
      intro k m hm
      refine ih k m hm ?_ (hu.kid hm)
      intro p op' ks' hp
      refine h (k :: p) op' ks' ?_
      rw [look_cons, child_grp, Dict.get?_of_mem hu.keys hm]; exact hp
    clear ih h hu
    induction ks with
    | nil => rfl
    | cons p ks ih2 =>
      obtain ⟨k, m⟩ := p
      simp only [List.map_cons, List.mem_cons, not_or] at hk
      simp only [Mask.dropKids]
      rw [if_neg (Ne.symm hk.1), hc k m (by simp), ih2 hk.2 (fun k' m' h => hc k' m' (by simp [h]))]

example : look ((Mask.grp .or [("t", .grp .or [("latent", .arr [true]), ("b", .arr [false])]),
    ("latent", .arr [true])]).drop "latent") ["t"] = some (.group .or ["b"]) := by decide

end Gcl
