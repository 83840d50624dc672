import Verif.Spec.Hier
import Verif.Props.Parent
/-! # Lemmas about the construction of the hierarchy -/
namespace Gcl
set_option autoImplicit false
open Spec

theorem mem_trueIdxs (m : List Bool) (i : Nat) : i ∈ trueIdxs m ↔ m[i]? = some true := by
  rw [trueIdxs_eq_filter, List.mem_filter, List.mem_range, getD_eq_true_iff]
  constructor
  · exact fun h => h.2
  · intro h; exact ⟨(List.getElem?_eq_some_iff.1 h).1, h⟩

theorem trueIdxs_nodup (m : List Bool) : (trueIdxs m).Nodup := by
  rw [trueIdxs_eq_filter]; exact List.nodup_range.filter _

theorem trueIdxs_pairwise (m : List Bool) : (trueIdxs m).Pairwise (· < ·) := by
  rw [trueIdxs_eq_filter]; exact List.pairwise_lt_range.filter _

theorem trueIdxs_head {m : List Bool} {f : Nat} {r : List Nat} (h : trueIdxs m = f :: r) :
    FirstTrue m f := by
  refine ⟨(mem_trueIdxs m f).1 (by rw [h]; simp), fun j hj hm => ?_⟩
  have hj' := (mem_trueIdxs m j).2 hm
  rw [h] at hj'
  rcases List.mem_cons.1 hj' with rfl | hj'
  · omega
  · have := trueIdxs_pairwise m
    rw [h, List.pairwise_cons] at this
    have := this.1 j hj'
    omega

theorem firstTrue_unique {d : List Bool} {f g : Nat} (h : FirstTrue d f) (h' : FirstTrue d g) :
    f = g := by
  by_contra hne
  rcases Nat.lt_or_gt_of_ne hne with hlt | hlt
  · exact h'.2 f hlt h.1
  · exact h.2 g hlt h'.1

theorem count_one_iff (l : List Bool) :
    l.count true = 1 ↔ ∃ i : Nat, l[i]? = some true ∧ ∀ j : Nat, l[j]? = some true → j = i := by
  rw [← trueIdxs_length]
  constructor
  · intro h
    obtain ⟨i, hi⟩ := List.length_eq_one_iff.1 h
    refine ⟨i, (mem_trueIdxs l i).1 (by rw [hi]; simp), fun j hj => ?_⟩
    have := (mem_trueIdxs l j).2 hj
    rw [hi] at this
    simpa using this
  · rintro ⟨i, h1, h2⟩
    have hi := (mem_trueIdxs l i).2 h1
    have hall : ∀ j ∈ trueIdxs l, j = i := fun j hj => h2 j ((mem_trueIdxs l j).1 hj)
    have hnd := trueIdxs_nodup l
    rcases hl : trueIdxs l with _ | ⟨a, _ | ⟨b, r⟩⟩
    · rw [hl] at hi; cases hi
    · rfl
    · rw [hl] at hnd hall
      have h1 := hall a (by simp)
      have h2 := hall b (by simp)
      subst h1 h2
      simp at hnd

theorem into_getElem (es : List (Int × Int)) (v : Int) (i : Nat) :
    (es.map (fun e => e.2 == v))[i]? = some true ↔ ∃ e, es[i]? = some e ∧ e.2 = v := by
  rw [List.getElem?_map, Option.map_eq_some_iff]
  simp only [beq_iff_eq]

theorem onlyInto_iff (es : List (Int × Int)) (v : Int) :
    (es.map (fun e => e.2 == v)).count true = 1 ↔ ∃ i, OnlyInto es v i := by
  rw [count_one_iff]
  apply exists_congr
  intro i
  rw [into_getElem]
  constructor
  · rintro ⟨h1, h2⟩
    exact ⟨h1, fun j e hj he => h2 j ((into_getElem es v j).2 ⟨e, hj, he⟩)⟩
  · rintro ⟨h1, h2⟩
    refine ⟨h1, fun j hj => ?_⟩
    obtain ⟨e, he, hev⟩ := (into_getElem es v j).1 hj
    exact h2 j e he hev

theorem setMask_true (d init : List Bool) (h : init.length = d.length) :
    ∃ m, setMask d init true = .ok m ∧ m.length = d.length ∧
      ∀ i : Nat, m[i]? = some true ↔ d[i]? = some true ∨ init[i]? = some true := by
  refine ⟨List.zipWith (fun x b => if b then true else x) d init, ?_, by simp [h], ?_⟩
  · unfold setMask; rw [if_pos h]
  · intro i
    rw [List.getElem?_zipWith]
    rcases h1 : d[i]? with _ | a
    · have : init[i]? = none := by
        rw [List.getElem?_eq_none_iff] at h1 ⊢; omega
      simp [this]
    · rcases h2 : init[i]? with _ | b
      · rw [List.getElem?_eq_none_iff] at h2
        have := (List.getElem?_eq_some_iff.1 h1).1
        omega
      · cases b <;> simp

theorem leafEntry_ok (es : List (Int × Int)) (desc : Dict (List Bool)) (x : String) (d : List Bool)
    (hd : Dict.get? desc x = some d) (hl : d.length = es.length) (ht : ∃ i : Nat, d[i]? = some true) :
    ∃ m, leafEntry es desc x = .ok (.arr m) ∧ LeafMask es d m := by
  obtain ⟨i, hi⟩ := ht
  have hi' := (mem_trueIdxs d i).2 hi
  rcases hidx : trueIdxs d with _ | ⟨f, r⟩
  · rw [hidx] at hi'; cases hi'
  have hft := trueIdxs_head hidx
  have hfl : f < es.length := by
    rw [← hl]; exact (List.getElem?_eq_some_iff.1 hft.1).1
  have happ : (Key.mask d).apply (es.map (fun e => e.1)) =
      .ok ((es[f]).1 :: gather (es.map (fun e => e.1)) r) := by
    simp only [Key.apply, Key.resolve, List.length_map, hl, if_true, hidx]
    unfold gather
    rw [List.filterMap_cons]
    simp [List.getElem?_eq_getElem hfl]
  unfold leafEntry descGet
  rw [hd]
  simp only [happ]
  by_cases hc : (es.map (fun e => e.2 == (es[f]).1)).count true = 1
  · rw [if_pos hc]
    obtain ⟨m, h1, h2, h3⟩ := setMask_true d (es.map (fun e => e.2 == (es[f]).1)) (by simp [hl])
    rw [h1]
    refine ⟨m, rfl, h2, fun i => ?_⟩
    rw [h3, into_getElem]
    obtain ⟨q, hq⟩ := (onlyInto_iff es _).1 hc
    constructor
    · rintro (h | ⟨e, he, hev⟩)
      · exact Or.inl h
      · refine Or.inr ⟨f, es[f], hft, List.getElem?_eq_getElem hfl, ?_⟩
        have := hq.2 i e he hev
        rw [this]; exact hq
    · rintro (h | ⟨f', e, hf', he, ho⟩)
      · exact Or.inl h
      · have := firstTrue_unique hf' hft
        subst this
        rw [List.getElem?_eq_getElem hfl] at he
        cases he
        exact Or.inr ho.1
  · rw [if_neg hc]
    refine ⟨d, rfl, rfl, fun i => ⟨Or.inl, ?_⟩⟩
    rintro (h | ⟨f', e, hf', he, ho⟩)
    · exact h
    · have := firstTrue_unique hf' hft
      subst this
      rw [List.getElem?_eq_getElem hfl] at he
      cases he
      exact absurd ((onlyInto_iff es _).2 ⟨i, ho⟩) hc

theorem dict_set_fresh {α : Type} (d : Dict α) (k : String) (v : α) (h : k ∉ Dict.keys d) :
    Dict.set d k v = d ++ [(k, v)] := by
  induction d with
  | nil => rfl
  | cons p d ih =>
    obtain ⟨a, b⟩ := p
    have h1 : a ≠ k := by rintro rfl; exact h (by simp [Dict.keys])
    have h2 : k ∉ Dict.keys d := by
      intro hm; apply h; simp only [Dict.keys, List.map_cons, List.mem_cons]; exact Or.inr hm
    simp only [Dict.set, if_neg h1, ih h2, List.cons_append]

theorem buildBranch_ok (f : String → Py Mask) (P : String → Mask → Prop) (acc : Dict Mask)
    (xs : List String) (h : ∀ x ∈ xs, ∃ m, f x = .ok m ∧ P x m) (hn : (Dict.keys acc ++ xs).Nodup) :
    ∃ ms, buildBranch f acc xs = .ok (acc ++ xs.zip ms) ∧ ms.length = xs.length ∧
      ∀ p ∈ xs.zip ms, P p.1 p.2 := by
  induction xs generalizing acc with
  | nil => exact ⟨[], by simp [buildBranch], rfl, by simp⟩
  | cons x xs ih =>
    obtain ⟨m, hm, hp⟩ := h x (by simp)
    have hx : x ∉ Dict.keys acc := by
      intro hm'
      rw [List.nodup_append] at hn
      exact hn.2.2 x hm' x (by simp) rfl
    obtain ⟨ms, h1, h2, h3⟩ := ih (acc ++ [(x, m)]) (fun y hy => h y (by simp [hy]))
      (by simpa [Dict.keys] using hn)
    refine ⟨m :: ms, ?_, by simp [h2], ?_⟩
    · simp only [buildBranch, hm, groupSet, dict_set_fresh acc x m hx, h1]
      simp
    · intro p hp'
      rw [List.zip_cons_cons] at hp'
      rcases List.mem_cons.1 hp' with rfl | hp'
      · exact hp
      · exact h3 p hp'

theorem dataKids_groupOr {n : Nat} {ks : Dict Mask} (h0 : ks ≠ [])
    (h : ∀ k m, (k, m) ∈ ks → Aggregable n m) :
    ∃ d, groupOr ks = .ok d ∧ d.length = n ∧
      ∀ i : Nat, i < n → (d[i]? = some true ↔ ∃ p ∈ ks, Holds i p.2) := by
  obtain ⟨d, hd, hl⟩ := aggregable_data (Aggregable.group (op := .or) (by decide) h0 h)
  have hg : groupOr ks = .ok d := by
    obtain ⟨rows, h1, h2⟩ := data_grp_or hd
    unfold groupOr
    rw [h1]; exact h2
  refine ⟨d, hg, hl, fun i hi => ?_⟩
  have := (data_ok_isAggregate hd).2 i (by omega)
  rw [List.getElem?_eq_getElem (by omega), Option.some.injEq, this]
  constructor
  · intro hh
    cases hh with
    | any hm hh => exact ⟨_, hm, hh⟩
  · rintro ⟨⟨k, m⟩, hm, hh⟩
    exact .any hm hh

theorem addLatent_ok {n : Nat} (desc : Dict (List Bool)) (x : String) (sub : Dict Mask) (D : List Bool)
    (hd : Dict.get? desc x = some D) (hl : D.length = n) (h0 : sub ≠ [])
    (hlat : "latent" ∉ Dict.keys sub) (h : ∀ k m, (k, m) ∈ sub → Aggregable n m) :
    ∃ L, addLatent desc x sub = .ok (.grp .or (sub ++ [("latent", .arr L)])) ∧ L.length = n ∧
      ∀ i : Nat, i < n → (L[i]? = some true ↔
        (D[i]? = some true ∧ ¬ ∃ p ∈ sub, Holds i p.2) ∨
        (D[i]? ≠ some true ∧ ∃ p ∈ sub, Holds i p.2)) := by
  obtain ⟨d, h1, h2, h3⟩ := dataKids_groupOr h0 h
  refine ⟨List.zipWith (fun a b => a != b) d D, ?_, by simp [h2, hl], ?_⟩
  · unfold addLatent descGet
    rw [h1, hd]
    simp only [bcast2_eq_length _ (h2.trans hl.symm), groupSet, dict_set_fresh _ _ _ hlat]
  · intro i hi
    rw [← h3 i hi, List.getElem?_zipWith]
    rw [List.getElem?_eq_getElem (show i < d.length by omega),
      List.getElem?_eq_getElem (show i < D.length by omega)]
    cases d[i] <;> cases D[i] <;> simp

/-! ## Chains of nested partons -/

/-- A path upwards from a parton to one that is nested in none. -/
inductive UpChain (kids : String → List String) : List String → Prop
  | root {r} : (∀ z, r ∉ kids z) → UpChain kids [r]
  | step {x y ch} : y ∈ kids x → UpChain kids (x :: ch) → UpChain kids (y :: x :: ch)

theorem UpChain.unique {kids : String → List String}
    (hu : ∀ x x' y, y ∈ kids x → y ∈ kids x' → x = x') {x : String} {c c' : List String}
    (h : UpChain kids (x :: c)) (h' : UpChain kids (x :: c')) : c = c' := by
  induction c generalizing x c' with
  | nil =>
    cases h with
    | root hr =>
      cases h' with
      | root _ => rfl
      | step hy _ => exact absurd hy (hr _)
  | cons z c ih =>
    cases h with
    | step hy hc =>
      cases h' with
      | root hr => exact absurd hy (hr _)
      | step hy' hc' =>
        have := hu _ _ _ hy hy'
        subst this
        rw [ih hc hc']

theorem UpChain.suffix {kids : String → List String} {l : List String} (h : UpChain kids l)
    {a : String} (ha : a ∈ l) : ∃ c, UpChain kids (a :: c) ∧ (a :: c) <:+ l := by
  induction h with
  | root hr =>
    rw [List.mem_singleton] at ha
    subst ha
    exact ⟨[], .root hr, List.suffix_refl _⟩
  | @step x y ch hy hc ih =>
    rcases List.mem_cons.1 ha with rfl | ha
    · exact ⟨_, .step hy hc, List.suffix_refl _⟩
    · obtain ⟨c, h1, h2⟩ := ih ha
      exact ⟨c, h1, h2.trans (List.suffix_cons _ _)⟩

theorem UpChain.nodup {kids : String → List String}
    (hu : ∀ x x' y, y ∈ kids x → y ∈ kids x' → x = x') {l : List String} (h : UpChain kids l) :
    l.Nodup := by
  induction h with
  | root _ => simp
  | @step x y ch hy hc ih =>
    refine List.nodup_cons.2 ⟨fun hm => ?_, ih⟩
    obtain ⟨c, h1, h2⟩ := hc.suffix hm
    have := UpChain.unique hu h1 (.step hy hc)
    subst this
    have := h2.length_le
    simp at this

theorem treeOf_aggregable {kids : String → List String} {D : String → List Bool}
    {es : List (Int × Int)} {n : Nat} {x : String} {m : Mask} (h : TreeOf kids D es x m)
    (hl : ∀ y, (y = x ∨ ∃ z, y ∈ kids z) → (D y).length = n) : Aggregable n m := by
  induction h with
  | leaf _ hm => exact .leaf (hm.1.trans (hl _ (Or.inl rfl)))
  | @node x ms L hk hml hsub hL _ ih =>
    refine .group (by decide) (by simp) ?_
    intro k m hkm
    rcases List.mem_append.1 hkm with hkm | hkm
    · exact ih _ hkm (fun y hy => by
        rcases hy with rfl | hy
        · exact hl _ (Or.inr ⟨x, (List.of_mem_zip hkm).1⟩)
        · exact hl _ (Or.inr hy))
    · simp only [List.mem_singleton, Prod.mk.injEq] at hkm
      rw [hkm.2]
      exact .leaf (hL.trans (hl _ (Or.inl rfl)))

theorem zip_keys {ms : List Mask} {xs : List String} (h : ms.length = xs.length) :
    Dict.keys (xs.zip ms) = xs := by
  unfold Dict.keys
  rw [List.map_fst_zip (by omega)]

/-- `_make_tree` below a parton succeeds and builds the specified entries. -/
theorem makeTree_ok (flat : Dict (List String)) (desc : Dict (List Bool)) (es : List (Int × Int))
    (kids : String → List String) (D : String → List Bool)
    (hkids : ∀ x, Dict.get? flat x = if kids x = [] then none else some (kids x))
    (hnd : ∀ x, (kids x).Nodup) (hu : ∀ x x' y, y ∈ kids x → y ∈ kids x' → x = x')
    (hD : ∀ x y, y ∈ kids x → Dict.get? desc y = some (D y) ∧ (D y).length = es.length ∧
      (∃ i : Nat, (D y)[i]? = some true) ∧ y ≠ "latent")
    (fuel : Nat) (x : String) (ch : List String) (hch : UpChain kids (x :: ch))
    (hkey : ∀ z ∈ x :: ch, kids z ≠ []) (hf : flat.length + 1 ≤ fuel + (x :: ch).length) :
    ∃ ms, makeTree flat desc es fuel (kids x) = .ok ((kids x).zip ms) ∧
      ms.length = (kids x).length ∧
      ∀ p ∈ (kids x).zip ms, TreeOf kids D es p.1 p.2 := by
  induction fuel generalizing x ch with
  | zero =>
    exfalso
    have hnodup := hch.nodup hu
    have hsub : (x :: ch) ⊆ Dict.keys flat := by
      intro z hz
      by_contra hno
      have := (Dict.get?_eq_none_iff flat z).2 hno
      rw [hkids, if_neg (hkey z hz)] at this
      cases this
    have := (List.subperm_of_subset hnodup hsub).length_le
    simp only [Dict.keys, List.length_map] at this
    omega
  | succ fuel ih =>
    have := buildBranch_ok (fun parton =>
      match Dict.get? flat parton with
      | some nest =>
        match makeTree flat desc es fuel nest with
        | .error e => .error e
        | .ok sub => addLatent desc parton sub
      | none => leafEntry es desc parton) (TreeOf kids D es) [] (kids x) ?_ (by simpa [Dict.keys] using hnd x)
    · obtain ⟨ms, h1, h2, h3⟩ := this
      refine ⟨ms, ?_, h2, h3⟩
      unfold makeTree
      exact h1
    · intro y hy
      obtain ⟨d1, d2, d3, d4⟩ := hD x y hy
      by_cases hk : kids y = []
      · rw [hkids, if_pos hk]
        obtain ⟨m, h1, h2⟩ := leafEntry_ok es desc y (D y) d1 d2 d3
        exact ⟨_, h1, .leaf hk h2⟩
      · rw [hkids, if_neg hk]
        obtain ⟨ms, h1, h2, h3⟩ := ih y (x :: ch) (.step hy hch)
          (fun z hz => by
            rcases List.mem_cons.1 hz with rfl | hz
            · exact hk
            · exact hkey z hz) (by simp only [List.length_cons] at hf ⊢; omega)
        have hagg : ∀ k m, (k, m) ∈ (kids y).zip ms → Aggregable es.length m := by
          intro k m hkm
          refine treeOf_aggregable (h3 _ hkm) (fun w hw => ?_)
          rcases hw with rfl | ⟨z, hz⟩
          · exact (hD y _ (List.of_mem_zip hkm).1).2.1
          · exact (hD z w hz).2.1
        obtain ⟨L, l1, l2, l3⟩ := addLatent_ok desc y ((kids y).zip ms) (D y) d1 d2
          (by
            intro h0
            have : ((kids y).zip ms).length = 0 := by rw [h0]; rfl
            rw [List.length_zip, h2, Nat.min_self, List.length_eq_zero_iff] at this
            exact hk this)
          (by
            rw [zip_keys h2]
            intro hm
            exact (hD y _ hm).2.2.2 rfl) hagg
        refine ⟨_, ?_, .node hk h2 h3 (l2.trans d2.symm) (by rw [l2]; exact l3)⟩
        simp only [h1, l1]

theorem makeTreeTop_ok (flat : Dict (List String)) (desc : Dict (List Bool)) (es : List (Int × Int))
    (kids : String → List String) (D : String → List Bool) (hfn : (Dict.keys flat).Nodup)
    (hkids : ∀ x, Dict.get? flat x = if kids x = [] then none else some (kids x))
    (hnd : ∀ x, (kids x).Nodup) (hu : ∀ x x' y, y ∈ kids x → y ∈ kids x' → x = x')
    (hD : ∀ y, (kids y ≠ [] ∨ ∃ x, y ∈ kids x) → Dict.get? desc y = some (D y) ∧
      (D y).length = es.length ∧ (∃ i : Nat, (D y)[i]? = some true) ∧ y ≠ "latent") :
    ∃ out, makeTreeTop flat desc es flat.length (hierRoots flat) = .ok out ∧
      Dict.keys out = (Dict.keys flat).filter (fun k => !((flat.map Prod.snd).flatten.contains k)) ∧
      ∀ p ∈ out, TreeOf kids D es p.1 p.2 := by
  have hroots : (Dict.keys flat).filter (fun k => (hierRoots flat).contains k) =
      (Dict.keys flat).filter (fun k => !((flat.map Prod.snd).flatten.contains k)) := by
    apply List.filter_congr
    intro k hk
    rw [Bool.eq_iff_iff, List.contains_iff_mem]
    unfold hierRoots
    simp only [List.mem_filter, hk, true_and]
    rw [List.contains_iff_mem.2 hk, Bool.true_and]
  have := buildBranch_ok (fun key =>
    match Dict.get? flat key with
    | some nest =>
      match makeTree flat desc es flat.length nest with
      | .error e => .error e
      | .ok sub => addLatent desc key sub
    | none => .error .keyError) (TreeOf kids D es) []
    ((Dict.keys flat).filter (fun k => (hierRoots flat).contains k)) ?_
    (by simpa [Dict.keys] using hfn.filter _)
  · obtain ⟨ms, h1, h2, h3⟩ := this
    refine ⟨_, h1, ?_, by simpa using h3⟩
    simp only [List.nil_append]
    rw [zip_keys h2, hroots]
  · intro y hy
    rw [hroots, List.mem_filter] at hy
    have hk : kids y ≠ [] := by
      intro h0
      have := hkids y
      rw [if_pos h0] at this
      exact (Dict.get?_eq_none_iff flat y).1 this hy.1
    have hroot : ∀ z, y ∉ kids z := by
      intro z hz
      have h1 := hkids z
      rw [if_neg (List.ne_nil_of_mem hz)] at h1
      have h2 := Dict.mem_of_get? h1
      have : y ∈ (flat.map Prod.snd).flatten :=
        List.mem_flatten.2 ⟨kids z, List.mem_map.2 ⟨_, h2, rfl⟩, hz⟩
      have h3 := hy.2
      rw [List.contains_iff_mem.2 this] at h3
      cases h3
    obtain ⟨d1, d2, d3, d4⟩ := hD y (Or.inl hk)
    rw [hkids, if_neg hk]
    obtain ⟨ms, h1, h2, h3⟩ := makeTree_ok flat desc es kids D hkids hnd hu
      (fun x y hy => hD y (Or.inr ⟨x, hy⟩)) flat.length y [] (.root hroot)
      (by intro z hz; rw [List.mem_singleton] at hz; subst hz; exact hk) (by simp)
    have hagg : ∀ k m, (k, m) ∈ (kids y).zip ms → Aggregable es.length m := by
      intro k m hkm
      refine treeOf_aggregable (h3 _ hkm) (fun w hw => ?_)
      rcases hw with rfl | ⟨z, hz⟩
      · exact (hD _ (Or.inr ⟨y, (List.of_mem_zip hkm).1⟩)).2.1
      · exact (hD w (Or.inr ⟨z, hz⟩)).2.1
    obtain ⟨L, l1, l2, l3⟩ := addLatent_ok desc y ((kids y).zip ms) (D y) d1 d2
      (by
        intro h0
        have : ((kids y).zip ms).length = 0 := by rw [h0]; rfl
        rw [List.length_zip, h2, Nat.min_self, List.length_eq_zero_iff] at this
        exact hk this)
      (by
        rw [zip_keys h2]
        intro hm
        exact (hD _ (Or.inr ⟨y, hm⟩)).2.2.2 rfl) hagg
    refine ⟨_, ?_, .node hk h2 h3 (l2.trans d2.symm) (by rw [l2]; exact l3)⟩
    simp only [h1, l1]

end Gcl

namespace Gcl
open Spec
theorem parentDict_sublist (P : List (List Bool)) (names : List String) (hn : names.Nodup) :
    (Dict.keys (parentDict P names)).Sublist names := by
  have hsub : (((names.zip P).filter (fun p => p.2.any id)).map
      (fun p => (p.1, compress names p.2))).map Prod.fst =
      ((names.zip P).filter (fun p => p.2.any id)).map Prod.fst := by
    rw [List.map_map]; rfl
  have hz : ∀ (ns : List String) (Q : List (List Bool)), ((ns.zip Q).map Prod.fst).Sublist ns := by
    intro ns
    induction ns with
    | nil => intro Q; simp
    | cons a ns ih =>
      intro Q
      cases Q with
      | nil => simp
      | cons q Q => simp only [List.zip_cons_cons, List.map_cons]; exact (ih Q).cons_cons _
  have h1 : ((names.zip P).filter (fun p => p.2.any id)).map Prod.fst |>.Sublist names :=
    (List.Sublist.map _ List.filter_sublist).trans (hz names P)
  have hval : parentDict P names = ((names.zip P).filter (fun p => p.2.any id)).map
      (fun p => (p.1, compress names p.2)) := Dict.ofPairs_of_nodup _ (by rw [hsub]; exact hn.sublist h1)
  rw [hval]
  unfold Dict.keys
  rw [hsub]
  exact h1
end Gcl
