import Verif.Props.SymHard
import Verif.Props.PartitionSym
import Mathlib.Tactic.IntervalCases
/-! # C104: `hard_descendants` and `hierarchy` under reordered records -/
namespace Gcl
set_option autoImplicit false
open Spec

/-- Apply a function to every leaf of a tree. -/
def Spec.mapLeaves (g : List Bool → List Bool) : Mask → Mask
  | .arr d => .arr (g d)
  | .grp op ks => .grp op (kids ks)
where
  /-- the same for the members of a group -/
  kids : List (String × Mask) → List (String × Mask)
    | [] => []
    | (k, m) :: rest => (k, mapLeaves g m) :: kids rest

theorem mapLeaves_kids (g : List Bool → List Bool) (ks : List (String × Mask)) :
    mapLeaves.kids g ks = ks.map (fun p => (p.1, mapLeaves g p.2)) := by
  induction ks with
  | nil => rfl
  | cons p ks ih => obtain ⟨k, m⟩ := p; simp [mapLeaves.kids, ih]

theorem at?_mapLeaves (g : List Bool → List Bool) (path : List String) (m : Mask) :
    at? (mapLeaves g m) path = (at? m path).map (mapLeaves g) := by
  induction path generalizing m with
  | nil => rfl
  | cons k path ih =>
    have hc : child (mapLeaves g m) k = (child m k).map (mapLeaves g) := by
      cases m with
      | arr d => rfl
      | grp op ks =>
        simp only [mapLeaves, child, mapLeaves_kids, List.find?_map, Option.map_map]
        rfl
    simp only [at?, hc]
    cases child m k with
    | none => rfl
    | some c => exact ih c

theorem mapsIf_mapLeaves (g : List Bool → List Bool) (m : Mask) :
    MapsIf (fun _ => True) (fun d d' => d' = g d) m (mapLeaves g m) := by
  intro path
  have h : look (mapLeaves g m) path = (at? m path).map (fun c => node (mapLeaves g c)) := by
    simp [look, at?_mapLeaves, Function.comp_def]
  unfold look at *
  refine ⟨fun h' => ?_, fun op ks h' => ?_, fun d h' => ?_⟩
  · rw [Option.map_eq_none_iff] at h'
    rw [h, h']; rfl
  · obtain ⟨c, hc, hn⟩ := Option.map_eq_some_iff.1 h'
    rw [h, hc]
    cases c with
    | arr d => cases hn
    | grp op' ks' =>
      cases hn
      simp [node, mapLeaves, mapLeaves_kids, Function.comp_def]
  · obtain ⟨c, hc, hn⟩ := Option.map_eq_some_iff.1 h'
    rw [h, hc]
    cases c with
    | arr d => cases hn; exact ⟨g d, rfl, fun _ => rfl, fun h => absurd trivial h⟩
    | grp op' ks' => cases hn

/-! ## The reordering -/

section
variable {n : Nat} {idxs : List Nat}

/-- Facts about a reordering of `n` records. -/
theorem perm_facts (hperm : idxs.Perm (List.range n)) : (∀ j ∈ idxs, j < n) ∧ (∀ j, j < n → j ∈ idxs) ∧ idxs.Nodup ∧
    idxs.length = n := by
  refine ⟨fun j hj => List.mem_range.1 (hperm.mem_iff.1 hj), fun j hj => hperm.mem_iff.2 (List.mem_range.2 hj),
    hperm.nodup_iff.2 List.nodup_range, by simpa using hperm.length_eq⟩

theorem gather_at {α : Type} (hperm : idxs.Perm (List.range n)) {a : List α} (ha : a.length = n) {k i : Nat}
    (h : idxs[k]? = some i) : (gather a idxs)[k]? = a[i]? := by
  rw [gather_getElem? a idxs (fun j hj => by rw [ha]; exact (perm_facts hperm).1 j hj), h]; rfl

theorem gather_len {α : Type} (hperm : idxs.Perm (List.range n)) {a : List α} (ha : a.length = n) :
    (gather a idxs).length = n := by
  rw [gather_length a idxs (fun j hj => by rw [ha]; exact (perm_facts hperm).1 j hj), (perm_facts hperm).2.2.2]

/-- The hard partons are in the same order among the reordered records. -/
def Spec.KeepsPartons (status : List Int) (idxs : List Nat) : Prop :=
  ∀ (a b i j : Nat), idxs[a]? = some i → idxs[b]? = some j → i ∈ partons status → j ∈ partons status → a < b → i < j

theorem mem_partons (status : List Int) (i : Nat) : i ∈ partons status ↔
    ∃ s, status[i]? = some s ∧ (s.natAbs = 22 ∨ s.natAbs = 23 ∨ s.natAbs = 24) := by
  unfold partons
  rw [List.mem_filter, List.mem_range]
  constructor
  · rintro ⟨h1, h2⟩
    rw [List.getElem?_eq_getElem h1] at h2
    refine ⟨_, List.getElem?_eq_getElem h1, ?_⟩
    simpa [or_assoc] using h2
  · rintro ⟨s, h1, h2⟩
    refine ⟨(List.getElem?_eq_some_iff.1 h1).1, ?_⟩
    rw [h1]
    simpa [or_assoc] using h2

theorem partons_sorted (status : List Int) : (partons status).Pairwise (· < ·) :=
  List.pairwise_lt_range.filter _

theorem sorted_ext {xs ys : List Nat} (hx : xs.Pairwise (· < ·)) (hy : ys.Pairwise (· < ·))
    (h : ∀ v, v ∈ xs ↔ v ∈ ys) : xs = ys := by
  have hp : xs.Perm ys := (List.perm_ext_iff_of_nodup (hx.imp (fun h => Nat.ne_of_lt h))
    (hy.imp (fun h => Nat.ne_of_lt h))).2 h
  exact hp.eq_of_pairwise (fun a b _ _ h1 h2 => absurd h1 (Nat.lt_asymm h2)) hx hy

/-- The partons of the reordered event, numbered as before, are those of the event. -/
theorem partons_gather {status : List Int} (hperm : idxs.Perm (List.range n)) (hs : status.length = n)
    (hk : KeepsPartons status idxs) : gather idxs (partons (gather status idxs)) = partons status := by
  have hlt : ∀ j ∈ partons (gather status idxs), j < idxs.length := fun j hj => by
    have := partons_lt _ _ hj
    rwa [gather_len hperm hs, ← (perm_facts hperm).2.2.2] at this
  have hiff : ∀ k i, idxs[k]? = some i → (k ∈ partons (gather status idxs) ↔ i ∈ partons status) := by
    intro k i h
    rw [mem_partons, mem_partons, gather_at hperm hs h]
  refine sorted_ext ?_ (partons_sorted status) (fun v => ?_)
  · unfold gather
    rw [List.pairwise_filterMap]
    refine (partons_sorted _).imp_of_mem (fun {a b} ha hb hab i hi j hj => ?_)
    exact hk a b i j hi hj ((hiff a i hi).1 ha) ((hiff b j hj).1 hb) hab
  · unfold gather
    rw [List.mem_filterMap]
    constructor
    · rintro ⟨k, hk', hv⟩
      exact (hiff k v hv).1 hk'
    · intro hv
      obtain ⟨k, hk'⟩ := List.getElem?_of_mem ((perm_facts hperm).2.1 v (hs ▸ partons_lt _ _ hv))
      exact ⟨k, (hiff k v hk').2 hv, hk'⟩

theorem gather_partons {α : Type} {status : List Int} (hperm : idxs.Perm (List.range n)) (hs : status.length = n)
    (hk : KeepsPartons status idxs) (a : List α) (ha : a.length = n) :
    gather (gather a idxs) (partons (gather status idxs)) = gather a (partons status) := by
  rw [gather_gather a idxs _ (fun j hj => by rw [ha]; exact (perm_facts hperm).1 j hj) (fun j hj => by
    have := partons_lt _ _ hj
    rwa [gather_len hperm hs, ← (perm_facts hperm).2.2.2] at this), partons_gather hperm hs hk]

theorem namesAt_gather (nm : Int → String) {pdg status : List Int} (hperm : idxs.Perm (List.range n))
    (hp : pdg.length = n) (hs : status.length = n) (hk : KeepsPartons status idxs) :
    namesAt nm (gather pdg idxs) (partons (gather status idxs)) = namesAt nm pdg (partons status) := by
  have e : ∀ (a : List Int) (ps : List Nat), namesAt nm a ps = (gather a ps).map nm := by
    intro a ps; simp [namesAt, gather, List.map_filterMap]
  rw [e, e, gather_partons hperm hs hk pdg hp]

/-- **C104** `hard_descendants(graph)` of reordered records, if the hard partons stay in order (they are numbered in
that order): the same keys in the same order, and every mask is reordered. -/
theorem C104_hard (nm : Int → String) (pdg status : List Int) (es : List (Int × Int)) (idxs : List Nat)
    (hperm : idxs.Perm (List.range es.length)) (h1 : pdg.length = es.length) (h2 : status.length = es.length)
    (hcol : ∀ c ∈ pdg, ':' ∉ (nm c).toList) (hk : KeepsPartons status idxs) (ss strict : Bool) :
    ∃ out, hardDescendants nm pdg status es none ss strict = .ok out ∧
      hardDescendants nm (gather pdg idxs) (gather status idxs) (gather es idxs) none ss strict =
        .ok (out.map (fun p => (p.1, gather p.2 idxs))) := by
  obtain ⟨f1, f2, f3, f4⟩ := perm_facts hperm
  obtain ⟨out, o1, o2, o3⟩ := C44_all nm pdg status es h1 h2 hcol ss strict
  obtain ⟨out', p1, p2, p3⟩ := C44_all nm (gather pdg idxs) (gather status idxs) (gather es idxs)
    (by rw [gather_len hperm h1, gather_len hperm rfl]) (by rw [gather_len hperm h2, gather_len hperm rfl])
    (fun c hc => hcol c (mem_of_mem_gather hc)) ss strict
  refine ⟨out, o1, ?_⟩
  rw [p1]
  congr 1
  have hpg := partons_gather hperm h2 hk
  have hlen : (partons (gather status idxs)).length = (partons status).length := by
    have := congrArg List.length hpg
    rwa [gather_length _ _ (fun j hj => by
      have := partons_lt _ _ hj
      rwa [gather_len hperm h2, ← f4] at this)] at this
  have hmem : ∀ e, e ∈ gather es idxs ↔ e ∈ es := gather_mem_iff es idxs f2
  refine List.ext_getElem? (fun k => ?_)
  by_cases hkl : k < (partons status).length
  · have hp : (partons status)[k]? = some (partons status)[k] := List.getElem?_eq_getElem hkl
    generalize (partons status)[k] = p at hp
    have hp' : ∃ p', (partons (gather status idxs))[k]? = some p' ∧ idxs[p']? = some p := by
      have e : (gather idxs (partons (gather status idxs)))[k]? = some p := by rw [hpg]; exact hp
      rw [gather_getElem? _ _ (fun j hj => by
        have := partons_lt _ _ hj
        rwa [gather_len hperm h2, ← f4] at this)] at e
      cases hx : (partons (gather status idxs))[k]? with
      | none => rw [hx] at e; cases e
      | some p' => rw [hx] at e; exact ⟨p', rfl, e⟩
    obtain ⟨p', hp', hpp⟩ := hp'
    obtain ⟨key, d, a1, a2, a3, a4⟩ := o3 k p hp
    obtain ⟨key', d', b1, b2, b3, b4⟩ := p3 k p' hp'
    rw [namesAt_gather nm hperm h1 h2 hk, a2] at b2
    cases b2
    rw [List.getElem?_map, a1, b1]
    simp only [Option.map_some, Option.some.injEq, Prod.mk.injEq, true_and]
    rw [gather_len hperm rfl] at b3
    have hplt : p < es.length := f1 p (List.mem_of_getElem? hpp)
    have hep : es[p]? = some es[p] := List.getElem?_eq_getElem hplt
    refine bools_ext (by rw [gather_len hperm a3, b3]) (fun i hi => ?_)
    have hil : i < idxs.length := by omega
    have hij : idxs[i]? = some idxs[i] := List.getElem?_eq_getElem hil
    generalize idxs[i] = j at hij
    have hjl : j < es.length := f1 j (List.mem_of_getElem? hij)
    have hej : es[j]? = some es[j] := List.getElem?_eq_getElem hjl
    rw [gather_at hperm a3 hij, a4 j _ _ hej hep,
      b4 i es[j] es[p] (by rw [gather_at hperm rfl hij]; exact hej) (by rw [gather_at hperm rfl hpp]; exact hep)]
    refine or_congr ?_ ?_
    · constructor
      · rintro rfl; rw [hij] at hpp; exact Option.some.inj hpp
      · rintro rfl
        obtain ⟨x1, x2⟩ := List.getElem?_eq_some_iff.1 hij
        obtain ⟨y1, y2⟩ := List.getElem?_eq_some_iff.1 hpp
        exact (f3.getElem_inj_iff (hi := x1) (hj := y1)).1 (x2.trans y2.symm)
    · unfold Descends
      have : ∀ v, (∃ w, (v, w) ∈ gather es idxs) ↔ ∃ w, (v, w) ∈ es := fun v =>
        exists_congr (fun w => hmem (v, w))
      rw [this, reach_of_mem_iff hmem]
  · rw [List.getElem?_eq_none (by rw [p2, hlen]; omega), List.getElem?_eq_none (by rw [List.length_map, o2]; omega)]

/-! ## hierarchy -/

/-- The first record of mask `d`, and the first one after reordering, leave the same vertex. -/
def Spec.KeepsFirst (es : List (Int × Int)) (idxs : List Nat) (d : List Bool) : Prop :=
  ∀ (f k : Nat) (e e' : Int × Int), FirstTrue d f → FirstTrue (gather d idxs) k → es[f]? = some e →
    (gather es idxs)[k]? = some e' → e'.1 = e.1

theorem firstTrue_exists {d : List Bool} {i : Nat} (h : d[i]? = some true) : ∃ f, FirstTrue d f := by
  classical
  have hex : ∃ i, d[i]? = some true := ⟨i, h⟩
  exact ⟨Nat.find hex, Nat.find_spec hex, fun j hj => Nat.find_min hex hj⟩

theorem onlyInto_gather {es : List (Int × Int)} (hperm : idxs.Perm (List.range es.length)) (v : Int) {k i : Nat}
    (h : idxs[k]? = some i) : OnlyInto (gather es idxs) v k ↔ OnlyInto es v i := by
  obtain ⟨f1, f2, f3, f4⟩ := perm_facts hperm
  unfold OnlyInto
  rw [gather_at hperm rfl h]
  refine and_congr Iff.rfl ⟨fun hh j e he hv => ?_, fun hh j e he hv => ?_⟩
  · obtain ⟨k', hk'⟩ := List.getElem?_of_mem (f2 j (List.getElem?_eq_some_iff.1 he).1)
    have := hh k' e (by rw [gather_at hperm rfl hk']; exact he) hv
    subst this
    rw [hk'] at h; exact Option.some.inj h
  · have hj : j < idxs.length := by
      have := (List.getElem?_eq_some_iff.1 he).1
      rwa [gather_len hperm rfl, ← f4] at this
    have hjj : idxs[j]? = some idxs[j] := List.getElem?_eq_getElem hj
    rw [gather_at hperm rfl hjj] at he
    have := hh _ e he hv
    obtain ⟨y1, y2⟩ := List.getElem?_eq_some_iff.1 h
    exact (f3.getElem_inj_iff (hi := hj) (hj := y1)).1 (this.trans y2.symm)

theorem leafMask_gather {es : List (Int × Int)} (hperm : idxs.Perm (List.range es.length)) {d m m' : List Bool}
    (hd : d.length = es.length) (hf : KeepsFirst es idxs d) (h : LeafMask es d m)
    (h' : LeafMask (gather es idxs) (gather d idxs) m') : m' = gather m idxs := by
  obtain ⟨f1, f2, f3, f4⟩ := perm_facts hperm
  have hml : m.length = es.length := h.1.trans hd
  have hml' : m'.length = es.length := h'.1.trans (gather_len hperm hd)
  refine bools_ext (by rw [gather_len hperm hml, hml']) (fun k hk => ?_)
  have hkl : k < idxs.length := by omega
  have hi : idxs[k]? = some idxs[k] := List.getElem?_eq_getElem hkl
  generalize idxs[k] = i at hi
  rw [gather_at hperm hml hi, h.2 i, h'.2 k, gather_at hperm hd hi]
  refine or_congr Iff.rfl ⟨?_, ?_⟩
  · rintro ⟨f', e', a1, a2, a3⟩
    have hf' : f' < idxs.length := by
      have := (List.getElem?_eq_some_iff.1 a1.1).1
      rwa [gather_len hperm hd, ← f4] at this
    have ht : d[idxs[f']]? = some true := by
      rw [← gather_at hperm hd (List.getElem?_eq_getElem hf')]; exact a1.1
    obtain ⟨f, hff⟩ := firstTrue_exists ht
    have hfl : f < es.length := by rw [← hd]; exact (List.getElem?_eq_some_iff.1 hff.1).1
    have he : es[f]? = some es[f] := List.getElem?_eq_getElem hfl
    refine ⟨f, es[f], hff, he, ?_⟩
    rw [← hf f f' _ _ hff a1 he a2]
    exact (onlyInto_gather hperm _ hi).1 a3
  · rintro ⟨f, e, a1, a2, a3⟩
    obtain ⟨k0, hk0⟩ := List.getElem?_of_mem (f2 f (List.getElem?_eq_some_iff.1 a2).1)
    obtain ⟨f', hff⟩ := firstTrue_exists (d := gather d idxs) (i := k0) (by rw [gather_at hperm hd hk0]; exact a1.1)
    have hfl : f' < (gather es idxs).length := by
      have := (List.getElem?_eq_some_iff.1 hff.1).1
      rwa [gather_len hperm hd, ← gather_len hperm rfl] at this
    have he : (gather es idxs)[f']? = some (gather es idxs)[f'] := List.getElem?_eq_getElem hfl
    refine ⟨f', _, hff, he, ?_⟩
    rw [hf f f' _ _ a1 hff a2 he]
    exact (onlyInto_gather hperm _ hi).2 a3

/-- The tree of the reordered event is the reordered tree. -/
theorem treeOf_gather {es : List (Int × Int)} (hperm : idxs.Perm (List.range es.length))
    {kids : String → List String} {D D' : String → List Bool} {x : String} {m : Mask} (h : TreeOf kids D es x m)
    (hD : ∀ y, (y = x ∨ ∃ z, y ∈ kids z) → (D y).length = es.length ∧ D' y = gather (D y) idxs ∧
      (kids y = [] → KeepsFirst es idxs (D y))) :
    ∀ m', TreeOf kids D' (gather es idxs) x m' → m' = mapLeaves (fun d => gather d idxs) m ∧
      ∀ k i : Nat, idxs[k]? = some i → (Holds k m' ↔ Holds i m) := by
  induction h with
  | @leaf x m hk hm =>
    intro m' hm'
    obtain ⟨e1, e2, e3⟩ := hD x (Or.inl rfl)
    cases hm' with
    | leaf _ hm' =>
      rw [e2] at hm'
      have := leafMask_gather hperm e1 (e3 hk) hm hm'
      subst this
      refine ⟨rfl, fun k i h => ?_⟩
      have : (gather m idxs)[k]? = m[i]? := gather_at hperm (hm.1.trans e1) h
      constructor
      · rintro (_ | _ | _)
        rename_i a
        exact .leaf (by rw [← this]; exact a)
      · rintro (_ | _ | _)
        rename_i a
        exact .leaf (by rw [this]; exact a)
    | node hk' => exact absurd hk hk'
  | @node x ms L hk hl hsub hL hLi ih =>
    intro m' hm'
    obtain ⟨e1, e2, e3⟩ := hD x (Or.inl rfl)
    cases hm' with
    | leaf hk' => exact absurd hk' hk
    | @node _ ms' L' _ hl' hsub' hL' hLi' =>
      have hzip : ∀ (j : Nat) (y : String) (a a' : Mask), (kids x)[j]? = some y → ms[j]? = some a → ms'[j]? = some a' →
          a' = mapLeaves (fun d => gather d idxs) a ∧ ∀ k i : Nat, idxs[k]? = some i → (Holds k a' ↔ Holds i a) := by
        intro j y a a' h1 h2 h3
        have hm1 : (y, a) ∈ (kids x).zip ms :=
          List.mem_of_getElem? (i := j) (by rw [List.getElem?_zip_eq_some]; exact ⟨h1, h2⟩)
        have hm2 : (y, a') ∈ (kids x).zip ms' :=
          List.mem_of_getElem? (i := j) (by rw [List.getElem?_zip_eq_some]; exact ⟨h1, h3⟩)
        refine ih (y, a) hm1 (fun z hz => hD z (Or.inr ?_)) a' (hsub' (y, a') hm2)
        rcases hz with rfl | hz
        · exact ⟨x, List.mem_of_getElem? h1⟩
        · exact hz
      have hms : ms' = ms.map (mapLeaves (fun d => gather d idxs)) := by
        refine List.ext_getElem (by rw [List.length_map, hl, hl']) (fun j h1 h2 => ?_)
        rw [List.getElem_map]
        have hj : j < (kids x).length := by omega
        exact (hzip j _ _ _ (List.getElem?_eq_getElem hj) (List.getElem?_eq_getElem (by omega))
          (List.getElem?_eq_getElem h1)).1
      have hany : ∀ k i : Nat, idxs[k]? = some i →
          ((∃ p ∈ (kids x).zip ms', Holds k p.2) ↔ ∃ p ∈ (kids x).zip ms, Holds i p.2) := by
        intro k i hki
        constructor
        · rintro ⟨⟨y, a'⟩, hp, hh⟩
          obtain ⟨j, hj⟩ := List.getElem?_of_mem hp
          obtain ⟨h1, h3⟩ := List.getElem?_zip_eq_some.1 hj
          have hjl : j < ms.length := by
            have := (List.getElem?_eq_some_iff.1 h1).1
            omega
          have h2 : ms[j]? = some ms[j] := List.getElem?_eq_getElem hjl
          refine ⟨(y, ms[j]), List.mem_of_getElem? (i := j) (by rw [List.getElem?_zip_eq_some]; exact ⟨h1, h2⟩), ?_⟩
          exact ((hzip j y _ _ h1 h2 h3).2 k i hki).1 hh
        · rintro ⟨⟨y, a⟩, hp, hh⟩
          obtain ⟨j, hj⟩ := List.getElem?_of_mem hp
          obtain ⟨h1, h2⟩ := List.getElem?_zip_eq_some.1 hj
          have hjl : j < ms'.length := by
            have := (List.getElem?_eq_some_iff.1 h1).1
            omega
          have h3 : ms'[j]? = some ms'[j] := List.getElem?_eq_getElem hjl
          refine ⟨(y, ms'[j]), List.mem_of_getElem? (i := j) (by rw [List.getElem?_zip_eq_some]; exact ⟨h1, h3⟩), ?_⟩
          exact ((hzip j y _ _ h1 h2 h3).2 k i hki).2 hh
      have hLl : L.length = es.length := hL.trans e1
      have hLl' : L'.length = es.length := by rw [hL', e2, gather_len hperm e1]
      have hLe : L' = gather L idxs := by
        refine bools_ext (by rw [gather_len hperm hLl, hLl']) (fun k hk' => ?_)
        have hkl : k < idxs.length := by rw [(perm_facts hperm).2.2.2]; omega
        have hi : idxs[k]? = some idxs[k] := List.getElem?_eq_getElem hkl
        generalize idxs[k] = i at hi
        have hil : i < L.length := by rw [hLl]; exact (perm_facts hperm).1 i (List.mem_of_getElem? hi)
        rw [gather_at hperm hLl hi, hLi' k hk', hLi i hil, hany k i hi, e2, gather_at hperm e1 hi]
      refine ⟨?_, fun k i hki => ?_⟩
      · simp only [mapLeaves, mapLeaves_kids, List.map_append, List.map_cons, List.map_nil, hLe, hms]
        congr 2
        rw [List.zip_map_right]; rfl
      · have hor : ∀ (i : Nat) (ks : List (String × Mask)), Holds i (.grp .or ks) ↔ ∃ p ∈ ks, Holds i p.2 := by
          intro i ks
          constructor
          · intro h
            cases h with
            | any hm hh => exact ⟨_, hm, hh⟩
          · rintro ⟨p, hp, hh⟩; exact .any (k := p.1) (m := p.2) hp hh
        have harr : ∀ (i : Nat) (d : List Bool), Holds i (.arr d) ↔ d[i]? = some true := by
          intro i d
          constructor
          · intro h
            cases h with
            | leaf h => exact h
          · exact .leaf
        rw [hor, hor]
        simp only [List.mem_append, List.mem_singleton, or_and_right, exists_or, exists_eq_left, harr]
        rw [hany k i hki, hLe, gather_at hperm hLl hki]

theorem atPartons_eq (status : List Int) (d : List Bool) : atPartons status d = gather d (partons status) := rfl

theorem maskOf_map (g : List Bool → List Bool) (hg : g [] = []) (desc : List (String × List Bool)) (x : String) :
    maskOf (desc.map (fun p => (p.1, g p.2))) x = g (maskOf desc x) := by
  unfold maskOf
  rw [List.find?_map]
  simp only [Function.comp_def, Option.map_map]
  cases desc.find? (fun p => p.1 == x) with
  | none => simp [hg]
  | some p => rfl

theorem sublist_ext {names xs ys : List String} (hn : names.Nodup) (hx : xs.Sublist names) (hy : ys.Sublist names)
    (h : ∀ v, v ∈ xs ↔ v ∈ ys) : xs = ys := by
  have key : ∀ (names zs : List String), zs.Sublist names → names.Nodup →
      zs = names.filter (fun v => decide (v ∈ zs)) := by
    intro names zs hz
    induction hz with
    | slnil => intro _; rfl
    | @cons l1 l2 a hs ih =>
      intro hn
      have ha : a ∉ l1 := fun h => (List.nodup_cons.1 hn).1 (hs.subset h)
      rw [List.filter_cons_of_neg (by simpa using ha)]
      exact ih (List.nodup_cons.1 hn).2
    | @cons_cons l1 l2 a hs ih =>
      intro hn
      rw [List.filter_cons_of_pos (by simp)]
      congr 1
      refine (ih (List.nodup_cons.1 hn).2).trans (List.filter_congr (fun v hv => ?_))
      have : v ≠ a := fun h => (List.nodup_cons.1 hn).1 (h ▸ hv)
      simp [this]
  rw [key names xs hx hn, key names ys hy hn]
  exact List.filter_congr (fun v _ => by simp [h v])

/-- **C104** `hierarchy(graph)` of reordered records, if the hard partons stay in order and the first record of every
parton's descendant mask still leaves the same vertex: the same tree of keys, every leaf mask reordered. -/
theorem C104_hierarchy (nm : Int → String) (pdg status : List Int) (final : List Bool) (es : List (Int × Int))
    (idxs : List Nat) (hperm : idxs.Perm (List.range es.length)) (h1 : pdg.length = es.length)
    (h2 : status.length = es.length) (h3 : final.length = es.length) (hcol : ∀ c ∈ pdg, ':' ∉ (nm c).toList)
    (hlat : ∀ c ∈ pdg, nm c ≠ "latent") (hk : KeepsPartons status idxs) (desc : List (String × List Bool))
    (hd : hardDescendants nm pdg status es none false true = .ok desc)
    (hfirst : ∀ p ∈ desc, KeepsFirst es idxs p.2) :
    ∃ out, hierarchy nm pdg status final es none = .ok out ∧
      hierarchy nm (gather pdg idxs) (gather status idxs) (gather final idxs) (gather es idxs) none =
        .ok (out.map (fun p => (p.1, mapLeaves (fun d => gather d idxs) p.2))) := by
  have g1 : (gather pdg idxs).length = (gather es idxs).length := by rw [gather_len hperm h1, gather_len hperm rfl]
  have g2 : (gather status idxs).length = (gather es idxs).length := by rw [gather_len hperm h2, gather_len hperm rfl]
  have g3 : (gather final idxs).length = (gather es idxs).length := by rw [gather_len hperm h3, gather_len hperm rfl]
  have gcol : ∀ c ∈ gather pdg idxs, ':' ∉ (nm c).toList := fun c hc => hcol c (mem_of_mem_gather hc)
  have glat : ∀ c ∈ gather pdg idxs, nm c ≠ "latent" := fun c hc => hlat c (mem_of_mem_gather hc)
  have hsm : ∀ s, s ∈ gather status idxs ↔ s ∈ status := fun s => by
    refine ⟨mem_of_mem_gather, fun hs => ?_⟩
    obtain ⟨i, hi⟩ := List.getElem?_of_mem hs
    exact List.mem_filterMap.2 ⟨i, (perm_facts hperm).2.1 i (h2 ▸ (List.getElem?_eq_some_iff.1 hi).1), hi⟩
  obtain ⟨desc0, q1, hd'⟩ := C104_hard nm pdg status es idxs hperm h1 h2 hcol hk false true
  rw [hd] at q1; cases q1
  by_cases hint : ∃ s ∈ status, s.natAbs = 22
  · obtain ⟨desc1, out, kids, r1, r2, r3⟩ := C48_tree nm pdg status final es h1 h2 h3 hcol hlat hint
    rw [hd] at r1; cases r1
    obtain ⟨s, hs, hs'⟩ := hint
    obtain ⟨desc2, out', kids', t1, t2, t3⟩ := C48_tree nm (gather pdg idxs) (gather status idxs) (gather final idxs)
      (gather es idxs) g1 g2 g3 gcol glat ⟨s, (hsm s).2 hs, hs'⟩
    rw [hd'] at t1; cases t1
    refine ⟨out, r2, ?_⟩
    rw [t2]
    congr 1
    obtain ⟨f1, f2, f3, -⟩ := event_facts h1 h2 hcol hlat hd
    obtain ⟨desc3, d1, -, -, d4⟩ := hardDesc_facts nm pdg status es h1 h2 hcol
    rw [hd] at d1; cases d1
    have hkeys : (desc.map (fun p => (p.1, gather p.2 idxs))).map Prod.fst = desc.map Prod.fst := by
      simp [Function.comp_def]
    have hat : (desc.map (fun p => (p.1, gather p.2 idxs))).map (fun p => atPartons (gather status idxs) p.2) =
        desc.map (fun p => atPartons status p.2) := by
      rw [List.map_map]
      refine List.map_congr_left (fun p hp => ?_)
      obtain ⟨k, hk'⟩ := List.getElem?_of_mem hp
      obtain ⟨p', e, q1, q2, q3, q4, -⟩ := d4 k p.1 p.2 hk'
      simp only [Function.comp, atPartons_eq]
      exact gather_partons hperm h2 hk p.2 q3
    have hkids : kids' = kids := by
      funext x
      by_cases hx : x ∈ desc.map Prod.fst
      · refine sublist_ext f1 (hkeys ▸ t3.ordered x) (r3.ordered x) (fun y => ?_)
        by_cases hy : y ∈ desc.map Prod.fst
        · obtain ⟨i, hi⟩ := List.getElem?_of_mem hx
          obtain ⟨c, hc⟩ := List.getElem?_of_mem hy
          rw [t3.parents i c x y (by rw [hkeys]; exact hi) (by rw [hkeys]; exact hc), r3.parents i c x y hi hc, hat]
        · exact ⟨fun h => absurd ((hkeys ▸ t3.ordered x).subset h) hy, fun h => absurd ((r3.ordered x).subset h) hy⟩
      · have a : kids x = [] := by
          by_contra h; exact hx (r3.known x h)
        have b : kids' x = [] := by
          by_contra h; exact hx (hkeys ▸ t3.known x h)
        rw [a, b]
    subst hkids
    have htop : out'.map Prod.fst = out.map Prod.fst := by
      rw [t3.top, r3.top, hkeys]
    refine List.ext_getElem? (fun k => ?_)
    have hko : (out'.map Prod.fst)[k]? = (out.map Prod.fst)[k]? := by rw [htop]
    rw [List.getElem?_map] at hko ⊢
    rw [List.getElem?_map] at hko
    cases ho : out[k]? with
    | none =>
      rw [ho] at hko
      simp only [Option.map_none, Option.map_eq_none_iff] at hko
      rw [hko]; rfl
    | some p =>
      rw [ho] at hko
      obtain ⟨p', hp', hpp⟩ := Option.map_eq_some_iff.1 hko
      rw [hp']
      obtain ⟨x, m⟩ := p
      obtain ⟨x', m'⟩ := p'
      cases hpp
      have hm := r3.entries _ (List.mem_of_getElem? ho)
      have hm' := t3.entries _ (List.mem_of_getElem? hp')
      have hx : x ∈ desc.map Prod.fst := by
        have : x ∈ out.map Prod.fst := List.mem_map.2 ⟨_, List.mem_of_getElem? ho, rfl⟩
        rw [r3.top] at this
        exact List.mem_of_mem_filter this
      have := treeOf_gather hperm hm (D' := maskOf (desc.map (fun p => (p.1, gather p.2 idxs)))) (fun y hy => ?_) m' hm'
      · simp only [Option.map_some, this.1]
      · have hy' : y ∈ desc.map Prod.fst := by
          rcases hy with rfl | ⟨z, hz⟩
          · exact hx
          · exact (r3.ordered z).subset hz
        refine ⟨f3 y hy', maskOf_map (fun d => gather d idxs) (by simp [gather]) desc y, fun _ => ?_⟩
        obtain ⟨p, hp, rfl⟩ := List.mem_map.1 hy'
        obtain ⟨k, hk'⟩ := List.getElem?_of_mem hp
        obtain ⟨p', e, q1, q2, q3, q4, -⟩ := d4 k p.1 p.2 hk'
        rw [q4]
        exact hfirst p hp
  · have hint' : ∀ s ∈ status, s.natAbs ≠ 22 := fun s hs h => hint ⟨s, hs, h⟩
    obtain ⟨desc1, r1, r2⟩ := C48_flat nm pdg status final es h1 h2 hcol hint'
    rw [hd] at r1; cases r1
    obtain ⟨desc2, t1, t2⟩ := C48_flat nm (gather pdg idxs) (gather status idxs) (gather final idxs) (gather es idxs)
      g1 g2 gcol (fun s hs => hint' s ((hsm s).1 hs))
    rw [hd'] at t1; cases t1
    refine ⟨_, r2, ?_⟩
    rw [t2]
    simp [Function.comp_def, mapLeaves]
end

/-- **C104** Refuted without that proviso: moving the shower record of the `b` quark before the quark itself,
all partons staying in order, changes which particles the leaf of `b` selects. -/
theorem C104_hierarchy_false : ¬ ∀ (nm : Int → String) (pdg status : List Int) (final : List Bool)
    (es : List (Int × Int)) (idxs : List Nat), idxs.Perm (List.range es.length) → pdg.length = es.length →
    status.length = es.length → final.length = es.length → (∀ c ∈ pdg, ':' ∉ (nm c).toList) →
    (∀ c ∈ pdg, nm c ≠ "latent") → KeepsPartons status idxs → ∀ out : Dict Mask,
      hierarchy nm pdg status final es none = .ok out →
      hierarchy nm (gather pdg idxs) (gather status idxs) (gather final idxs) (gather es idxs) none =
        .ok (out.map (fun p => (p.1, mapLeaves (fun d => gather d idxs) p.2))) := by
  intro h
  have := h exNames exPdg exStatus exFinal exEdges [6, 0, 1, 2, 3, 4, 5] (by decide) rfl rfl rfl (by decide)
    (by decide) ?_ exOut ex_out
  · have e : hierarchy exNames (gather exPdg [6, 0, 1, 2, 3, 4, 5]) (gather exStatus [6, 0, 1, 2, 3, 4, 5])
        (gather exFinal [6, 0, 1, 2, 3, 4, 5]) (gather exEdges [6, 0, 1, 2, 3, 4, 5]) none = .ok
        [("t", .grp .or [("b", .arr [true, false, true, false, false, false, false]),
          ("W+", .grp .or [("u", .arr [false, false, false, true, true, false, false]),
            ("d~", .arr [false, false, false, true, false, true, false]),
            ("latent", .arr [false, false, false, false, false, false, false])]),
          ("latent", .arr [false, true, false, false, false, false, false])])] := by rfl
    rw [e] at this
    simp [exOut, mapLeaves, mapLeaves.kids, gather] at this
  · intro a b i j ha hb hi hj hab
    have e : partons exStatus = [0, 1, 2, 3, 4, 5] := by decide
    rw [e] at hi hj
    match a, b with
    | 0, _ => simp at ha; subst ha; simp at hi
    | a + 1, 0 => omega
    | a + 1, b + 1 =>
      have ha' : ([0, 1, 2, 3, 4, 5] : List Nat)[a]? = some i := ha
      have hb' : ([0, 1, 2, 3, 4, 5] : List Nat)[b]? = some j := hb
      have key : ∀ (a i : Nat), ([0, 1, 2, 3, 4, 5] : List Nat)[a]? = some i → i = a := by
        intro a i h
        have hl := (List.getElem?_eq_some_iff.1 h).1
        simp only [List.length_cons, List.length_nil] at hl
        interval_cases a <;> simp at h <;> exact h.symm
      rw [key a i ha', key b j hb']; omega

/-- A reordering that moves a record of the shower meets the hypotheses. -/
example : ([0, 1, 6, 2, 3, 4, 5] : List Nat).Perm (List.range exEdges.length) ∧
    KeepsPartons exStatus [0, 1, 6, 2, 3, 4, 5] ∧
    (∀ p ∈ exDesc, KeepsFirst exEdges [0, 1, 6, 2, 3, 4, 5] p.2) ∧
    hierarchy exNames (gather exPdg [0, 1, 6, 2, 3, 4, 5]) (gather exStatus [0, 1, 6, 2, 3, 4, 5])
      (gather exFinal [0, 1, 6, 2, 3, 4, 5]) (gather exEdges [0, 1, 6, 2, 3, 4, 5]) none =
      .ok (exOut.map (fun p => (p.1, mapLeaves (fun d => gather d [0, 1, 6, 2, 3, 4, 5]) p.2))) := by
  have ex : ∀ {d : List Bool} {f g : Nat}, FirstTrue d f → FirstTrue d g → f = g := by
    intro d f g h h'
    rcases Nat.lt_trichotomy f g with hl | hl | hl
    · exact absurd h.1 (h'.2 f hl)
    · exact hl
    · exact absurd h'.1 (h.2 g hl)
  have ft : ∀ (d : List Bool) (f : Nat), d[f]? = some true → (∀ j ∈ List.range f, d[j]? ≠ some true) → FirstTrue d f :=
    fun d f h1 h2 => ⟨h1, fun j hj => h2 j (List.mem_range.2 hj)⟩
  have kf : ∀ (d : List Bool) (f k : Nat) (e e' : Int × Int), FirstTrue d f →
      FirstTrue (gather d [0, 1, 6, 2, 3, 4, 5]) k → exEdges[f]? = some e →
      (gather exEdges [0, 1, 6, 2, 3, 4, 5])[k]? = some e' → e'.1 = e.1 →
      KeepsFirst exEdges [0, 1, 6, 2, 3, 4, 5] d := by
    intro d f k e e' h1 h2 h3 h4 h5 f' k' a a' g1 g2 g3 g4
    rw [ex g1 h1, h3] at g3
    rw [ex g2 h2, h4] at g4
    cases g3; cases g4
    exact h5
  refine ⟨by decide, ?_, ?_, rfl⟩
  · intro a b i j ha hb hi hj hab
    have e : partons exStatus = [0, 1, 2, 3, 4, 5] := by decide
    rw [e] at hi hj
    have hbl := (List.getElem?_eq_some_iff.1 hb).1
    simp only [List.length_cons, List.length_nil] at hbl
    interval_cases b <;> interval_cases a <;> simp at ha hb <;> subst ha <;> subst hb <;> simp at hi hj ⊢
  · simp only [exDesc, List.forall_mem_cons]
    exact ⟨kf _ 0 0 _ _ (ft _ _ (by decide) (by decide)) (ft _ _ (by decide) (by decide)) rfl rfl rfl,
      kf _ 1 1 _ _ (ft _ _ (by decide) (by decide)) (ft _ _ (by decide) (by decide)) rfl rfl rfl,
      kf _ 2 3 _ _ (ft _ _ (by decide) (by decide)) (ft _ _ (by decide) (by decide)) rfl rfl rfl,
      kf _ 3 4 _ _ (ft _ _ (by decide) (by decide)) (ft _ _ (by decide) (by decide)) rfl rfl rfl,
      kf _ 4 5 _ _ (ft _ _ (by decide) (by decide)) (ft _ _ (by decide) (by decide)) rfl rfl rfl,
      kf _ 5 6 _ _ (ft _ _ (by decide) (by decide)) (ft _ _ (by decide) (by decide)) rfl rfl rfl, fun p hp => absurd hp (by simp)⟩

/-- An event and a renaming that meet the hypotheses of `C105_hard` and `C105_hierarchy`. -/
example : Set.InjOn (fun v : Int => 100 - v) {w | IsVertex exEdges w} ∧
    hierarchy exNames exPdg exStatus exFinal (rename (fun v : Int => 100 - v) exEdges) none = .ok exOut :=
  ⟨fun a _ b _ h => by simp only at h; omega, rfl⟩
end Gcl
