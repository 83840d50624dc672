import Verif.Lemmas.Hier
/-! # Lemmas about `hierarchy` after the early return -/
namespace Gcl
set_option autoImplicit false
open Spec

theorem getElem?_set_true (d : List Bool) (idx i : Nat) (h : idx < d.length) :
    (d.set idx true)[i]? = some true ↔ d[i]? = some true ∨ i = idx := by
  rw [List.getElem?_set]
  by_cases hi : idx = i
  · subst hi; simp [h]
  · rw [if_neg hi]
    constructor
    · exact Or.inl
    · rintro (h | h)
      · exact h
      · exact absurd h.symm hi

theorem markAll_spec (n : Nat) (ps : List (String × Nat)) (g : Dict (List Bool))
    (h : ∀ p ∈ ps, p.2 < n ∧ ∃ d, Dict.get? g p.1 = some d)
    (hl : ∀ k d, Dict.get? g k = some d → d.length = n) :
    ∃ g', markAll g ps = .ok g' ∧ Dict.keys g' = Dict.keys g ∧
      ∀ k d, Dict.get? g k = some d → ∃ d', Dict.get? g' k = some d' ∧ d'.length = n ∧
        ∀ i : Nat, d'[i]? = some true ↔ d[i]? = some true ∨ (k, i) ∈ ps := by
  induction ps generalizing g with
  | nil =>
    refine ⟨g, rfl, rfl, fun k d hd => ⟨d, hd, hl k d hd, by simp⟩⟩
  | cons p ps ih =>
    obtain ⟨key, idx⟩ := p
    obtain ⟨hidx, d0, hd0⟩ := h (key, idx) (by simp)
    simp only at hidx hd0
    have hd0l := hl key d0 hd0
    have hget : ∀ k, Dict.get? (Dict.set g key (d0.set idx true)) k =
        if key = k then some (d0.set idx true) else Dict.get? g k := by
      intro k
      rw [Dict.get?_set]
    obtain ⟨g', h1, h1k, h2⟩ := ih (Dict.set g key (d0.set idx true))
      (fun p hp => by
        refine ⟨(h p (by simp [hp])).1, ?_⟩
        obtain ⟨d, hd⟩ := (h p (by simp [hp])).2
        rw [hget]
        by_cases hk : key = p.1
        · rw [if_pos hk]; exact ⟨_, rfl⟩
        · rw [if_neg hk]; exact ⟨d, hd⟩)
      (fun k d hd => by
        rw [hget] at hd
        by_cases hk : key = k
        · rw [if_pos hk] at hd; cases hd; rw [List.length_set]; exact hd0l
        · rw [if_neg hk] at hd; exact hl k d hd)
    refine ⟨g', ?_, ?_, ?_⟩
    · simp only [markAll, markOne, hd0, if_pos (show idx < d0.length by omega), h1]
    · rw [h1k, Dict.keys_set, if_pos]
      by_contra hno
      rw [(Dict.get?_eq_none_iff g key).2 hno] at hd0
      cases hd0
    · intro k d hd
      by_cases hk : key = k
      · subst hk
        rw [hd0] at hd
        cases hd
        obtain ⟨d', e1, e2, e3⟩ := h2 key (d0.set idx true) (by rw [hget, if_pos rfl])
        refine ⟨d', e1, e2, fun i => ?_⟩
        rw [e3, getElem?_set_true d0 idx i (by omega)]
        simp only [List.mem_cons, Prod.mk.injEq, true_and]
        tauto
      · obtain ⟨d', e1, e2, e3⟩ := h2 k d (by rw [hget, if_neg hk]; exact hd)
        refine ⟨d', e1, e2, fun i => ?_⟩
        rw [e3]
        simp only [List.mem_cons, Prod.mk.injEq]
        constructor
        · rintro (h | h)
          · exact Or.inl h
          · exact Or.inr (Or.inr h)
        · rintro (h | h | h)
          · exact Or.inl h
          · exact absurd h.1.symm hk
          · exact Or.inr h

theorem sliceAll_ok (m : List Bool) (desc : Dict (List Bool)) (h : ∀ p ∈ desc, p.2.length = m.length) :
    sliceAll m desc = .ok (desc.map (fun p => (p.1, gather p.2 (trueIdxs m)))) := by
  induction desc with
  | nil => rfl
  | cons p desc ih =>
    obtain ⟨k, d⟩ := p
    have hd : d.length = m.length := h (k, d) (by simp)
    simp only [sliceAll, Key.apply, Key.resolve, hd, if_true, ih (fun p hp => h p (by simp [hp])),
      List.map_cons]

theorem get?_map {α β : Type} (f : α → β) (d : Dict α) (k : String) :
    Dict.get? (d.map (fun p => (p.1, f p.2))) k = (Dict.get? d k).map f := by
  induction d with
  | nil => rfl
  | cons p d ih =>
    obtain ⟨a, b⟩ := p
    simp only [List.map_cons, Dict.get?_cons]
    split
    · rfl
    · exact ih

theorem selectNames_ok (g : Dict (List Bool)) (F : String → List Bool) (acc : Dict (List Bool))
    (names : List String) (h : ∀ x ∈ names, Dict.get? g x = some (F x))
    (hn : (Dict.keys acc ++ names).Nodup) :
    selectNames g acc names = .ok (acc ++ names.map (fun x => (x, F x))) := by
  induction names generalizing acc with
  | nil => simp [selectNames]
  | cons x names ih =>
    have hx : x ∉ Dict.keys acc := by
      intro hm'
      rw [List.nodup_append] at hn
      exact hn.2.2 x hm' x (by simp) rfl
    simp only [selectNames, h x (by simp), dict_set_fresh _ _ _ hx]
    rw [ih _ (fun y hy => h y (by simp [hy])) (by simpa [Dict.keys] using hn)]
    simp

theorem zip_filter_aux {names : List String} {P : List Nat} (h : names.length = P.length)
    (f : Nat → Bool) :
    (compress names (P.map f)).zip (P.filter f) = (names.zip P).filter (fun p => f p.2) := by
  induction names generalizing P with
  | nil =>
    cases P with
    | nil => rfl
    | cons _ _ => simp at h
  | cons x names ih =>
    cases P with
    | nil => simp at h
    | cons p P =>
      have ih' := ih (P := P) (by simpa using h)
      unfold compress at ih' ⊢
      simp only [List.map_cons, List.zip_cons_cons, List.filterMap_cons, List.filter_cons]
      cases f p <;> simp [ih']

/-- The tree built for partons `names` (positions `trueIdxs hard`) from descendant masks `desc`. -/
theorem hierarchyTree_spec (names : List String) (hard final : List Bool) (es : List (Int × Int))
    (desc : Dict (List Bool)) (hn : names.Nodup) (hlat : "latent" ∉ names)
    (hnl : names.length = (trueIdxs hard).length) (hh : hard.length = es.length)
    (hf : final.length = es.length) (hdl : ∀ p ∈ desc, p.2.length = es.length)
    (F : String → List Bool) (hF : ∀ x ∈ names, Dict.get? desc x = some (F x))
    (hne : ∀ x ∈ names, ∃ i : Nat, (F x)[i]? = some true) :
    ∃ (out : Dict Mask) (kids : String → List String) (D : String → List Bool),
      hierarchyTree names hard final es desc = .ok out ∧
      (∀ x, (kids x).Sublist names) ∧
      (∀ (i c : Nat) (x y : String), names[i]? = some x → names[c]? = some y →
        (y ∈ kids x ↔ IsParent (names.map (fun x => gather (F x) (trueIdxs hard))) i c)) ∧
      (∀ x, kids x ≠ [] → x ∈ names) ∧
      (∀ x ∈ names, (D x).length = es.length ∧ ∀ i : Nat, (D x)[i]? = some true ↔
        (F x)[i]? = some true ∨
          ∃ k : Nat, names[k]? = some x ∧ (trueIdxs hard)[k]? = some i ∧ final[i]? = some true) ∧
      Dict.keys out = names.filter (fun x => !(kids x).isEmpty && names.all (fun z => !(kids z).contains x)) ∧
      (∀ p ∈ out, TreeOf kids D es p.1 p.2) := by
  set P := trueIdxs hard with hP
  have hPlt : ∀ p ∈ P, p < es.length := fun p hp => by
    have := (mem_trueIdxs hard p).1 hp
    rw [← hh]; exact (List.getElem?_eq_some_iff.1 this).1
  have hFl : ∀ x ∈ names, (F x).length = es.length :=
    fun x hx => hdl (x, F x) (Dict.mem_of_get? (hF x hx))
  set hd : Dict (List Bool) := names.map (fun x => (x, gather (F x) P)) with hhd
  have hd1 : hd.map Prod.fst = names := by rw [hhd, List.map_map]; simp [Function.comp_def]
  have hd2 : hd.map Prod.snd = names.map (fun x => gather (F x) P) := by
    rw [hhd, List.map_map]; rfl
  have hhdl : hd.length = names.length := by rw [hhd, List.length_map]
  have hsl : sliceAll hard desc = .ok (desc.map (fun p => (p.1, gather p.2 P))) :=
    sliceAll_ok hard desc (fun p hp => (hdl p hp).trans hh.symm)
  have hsel : selectNames (desc.map (fun p => (p.1, gather p.2 P))) [] names = .ok hd := by
    rw [selectNames_ok _ (fun x => gather (F x) P) [] names ?_ (by simpa [Dict.keys] using hn)]
    · rfl
    · intro x hx
      rw [get?_map (fun d => gather d P), hF x hx]; rfl
  obtain ⟨flat, f1, f2, f3, f4⟩ := C47_parent hd (by rw [hd1]; exact hn) (by
    rw [hd2]
    intro d hd'
    obtain ⟨x, hx, rfl⟩ := List.mem_map.1 hd'
    rw [gather_length _ _ (by rw [hFl x hx]; exact hPlt), hhdl, hnl])
  rw [hd1] at f3 f4
  rw [hd2] at f4
  -- children
  set kids : String → List String := fun x => (Dict.get? flat x).getD [] with hkdef
  have hkids : ∀ x, Dict.get? flat x = if kids x = [] then none else some (kids x) := by
    intro x
    simp only [hkdef]
    rcases h : Dict.get? flat x with _ | cs
    · simp
    · have := (f3 x cs (Dict.mem_of_get? h)).2.1
      simp [this]
  have hmemk : ∀ x y, y ∈ kids x ↔ ∃ cs, (x, cs) ∈ flat ∧ y ∈ cs := by
    intro x y
    simp only [hkdef]
    constructor
    · intro hy
      rcases h : Dict.get? flat x with _ | cs
      · rw [h] at hy; cases hy
      · rw [h] at hy
        exact ⟨cs, Dict.mem_of_get? h, hy⟩
    · rintro ⟨cs, h1, h2⟩
      rw [Dict.get?_of_mem f2 h1]
      exact h2
  have hsubl : ∀ x, (kids x).Sublist names := by
    intro x
    simp only [hkdef]
    rcases h : Dict.get? flat x with _ | cs
    · simp
    · exact (f3 x cs (Dict.mem_of_get? h)).2.2
  have hkname : ∀ x, kids x ≠ [] → x ∈ names := by
    intro x hx
    have := hkids x
    rw [if_neg hx] at this
    exact (f3 x _ (Dict.mem_of_get? this)).1
  have hpar : ∀ (i c : Nat) (x y : String), names[i]? = some x → names[c]? = some y →
      (y ∈ kids x ↔ IsParent (names.map (fun x => gather (F x) P)) i c) := by
    intro i c x y hx hy
    rw [hmemk]; exact f4 i c x y hx hy
  have hu : ∀ x x' y, y ∈ kids x → y ∈ kids x' → x = x' := by
    intro x x' y h1 h2
    have hx := hkname x (List.ne_nil_of_mem h1)
    have hx' := hkname x' (List.ne_nil_of_mem h2)
    obtain ⟨i, hi⟩ := List.mem_iff_getElem?.1 hx
    obtain ⟨j, hj⟩ := List.mem_iff_getElem?.1 hx'
    obtain ⟨c, hc⟩ := List.mem_iff_getElem?.1 ((hsubl x).subset h1)
    have p1 := (hpar i c x y hi hc).1 h1
    have p2 := (hpar j c x' y hj hc).1 h2
    obtain ⟨k, _, hk⟩ := (C47_unique _ c).1 ⟨i, p1.1⟩
    have := (hk i p1).trans (hk j p2).symm
    subst this
    rw [hi] at hj
    exact Option.some.inj hj
  -- marking the final hard partons
  have hbc : bcast2 (· && ·) hard final = .ok (List.zipWith (· && ·) hard final) :=
    bcast2_eq_length _ (hh.trans hf.symm)
  set hF' := List.zipWith (· && ·) hard final with hhF'
  have hF'l : hF'.length = es.length := by simp [hhF', hh, hf]
  have hF'get : ∀ i : Nat, hF'[i]?.getD false = (hard[i]?.getD false && final[i]?.getD false) := by
    intro i
    rw [hhF', List.getElem?_zipWith]
    by_cases hi : i < es.length
    · rw [List.getElem?_eq_getElem (show i < hard.length by omega),
        List.getElem?_eq_getElem (show i < final.length by omega)]
      rfl
    · rw [List.getElem?_eq_none (show hard.length ≤ i by omega)]
      rfl
  have hidx : trueIdxs hF' = P.filter (fun i => final[i]?.getD false) := by
    rw [hP, trueIdxs_eq_filter, trueIdxs_eq_filter, List.filter_filter, hF'l, hh]
    apply List.filter_congr
    intro i _
    rw [hF'get, Bool.and_comm]
  have hcomp : (Key.mask hard).apply hF' = .ok (P.map (fun i => final[i]?.getD false)) := by
    simp only [Key.apply, Key.resolve, hF'l, hh, if_true]
    rw [← hP]
    congr 1
    apply List.ext_getElem?
    intro k
    rw [gather_getElem? _ _ (by rw [hF'l]; exact hPlt), List.getElem?_map]
    rcases h : P[k]? with _ | p
    · rfl
    · have hp := List.mem_of_getElem? h
      have hp' := (mem_trueIdxs hard p).1 hp
      have := hF'get p
      rw [hp'] at this
      simp only [Option.bind_some, Option.map_some]
      have hlt : p < hF'.length := by rw [hF'l]; exact hPlt p hp
      rw [List.getElem?_eq_getElem hlt] at this ⊢
      simpa using this
  have hpairs : (compress names (P.map (fun i => final[i]?.getD false))).zip (trueIdxs hF') =
      (names.zip P).filter (fun p => final[p.2]?.getD false) := by
    rw [hidx]; exact zip_filter_aux hnl _
  obtain ⟨desc', g1, g1k, g2⟩ := markAll_spec es.length
    ((names.zip P).filter (fun p => final[p.2]?.getD false)) desc
    (fun p hp => by
      rw [List.mem_filter] at hp
      have := List.of_mem_zip (a := p.1) (b := p.2) hp.1
      exact ⟨hPlt _ this.2, _, hF _ this.1⟩)
    (fun k d hd => hdl _ (Dict.mem_of_get? hd))
  set D : String → List Bool := fun x => (Dict.get? desc' x).getD [] with hDdef
  have hDspec : ∀ x ∈ names, Dict.get? desc' x = some (D x) ∧ (D x).length = es.length ∧
      ∀ i : Nat, (D x)[i]? = some true ↔ (F x)[i]? = some true ∨
          ∃ k : Nat, names[k]? = some x ∧ P[k]? = some i ∧ final[i]? = some true := by
    intro x hx
    obtain ⟨d', e1, e2, e3⟩ := g2 x (F x) (hF x hx)
    have : D x = d' := by simp only [hDdef, e1]; rfl
    rw [this]
    refine ⟨e1, e2, fun i => ?_⟩
    rw [e3, List.mem_filter, getD_eq_true_iff, List.mem_iff_getElem?]
    simp only [List.getElem?_zip_eq_some]
    constructor
    · rintro (h | ⟨⟨k, h1, h2⟩, h3⟩)
      · exact Or.inl h
      · exact Or.inr ⟨k, h1, h2, h3⟩
    · rintro (h | ⟨k, h1, h2, h3⟩)
      · exact Or.inl h
      · exact Or.inr ⟨⟨k, h1, h2⟩, h3⟩
  obtain ⟨out, o1, o2, o3⟩ := makeTreeTop_ok flat desc' es kids D f2 hkids
    (fun x => hn.sublist (hsubl x)) hu (fun y hy => by
      have hyn : y ∈ names := by
        rcases hy with hy | ⟨x, hy⟩
        · exact hkname y hy
        · exact (hsubl x).subset hy
      obtain ⟨e1, e2, e3⟩ := hDspec y hyn
      obtain ⟨i, hi⟩ := hne y hyn
      exact ⟨e1, e2, ⟨i, (e3 i).2 (Or.inl hi)⟩, fun h => hlat (h ▸ hyn)⟩)
  refine ⟨out, kids, D, ?_, hsubl, hpar, hkname, fun x hx => (hDspec x hx).2, ?_, o3⟩
  · unfold hierarchyTree
    have hmf : markFinal names hard hF' desc = .ok desc' := by
      unfold markFinal
      split
      · simp only [hcomp, hpairs, g1]
      · next hno =>
        have hnil : trueIdxs hF' = [] := by
          rw [List.eq_nil_iff_forall_not_mem]
          intro i hi
          exact hno (List.any_eq_true.2 ⟨true, List.mem_of_getElem? ((mem_trueIdxs hF' i).1 hi), rfl⟩)
        rw [← hpairs, hnil, List.zip_nil_right] at g1
        exact g1
    simp only [hsl, hsel, f1, hbc, hmf, o1]
  · rw [o2]
    -- the keys of the flat dictionary are, in order, the names having children
    have hkeys : Dict.keys flat = names.filter (fun x => !(kids x).isEmpty) := by
      have hmem : ∀ x, x ∈ Dict.keys flat ↔ kids x ≠ [] := by
        intro x
        rw [← not_iff_not, ← Dict.get?_eq_none_iff, hkids]
        simp
      have hsubk : (Dict.keys flat).Sublist names := by
        have : flatHierarchy hd = .ok flat := f1
        unfold flatHierarchy at this
        split at this
        · cases this
        · rename_i A hA
          cases this
          have hpd := parentDict_sublist (parentMatrix A) (Dict.keys hd) (by
            show (hd.map Prod.fst).Nodup
            rw [hd1]; exact hn)
          have hkd : Dict.keys hd = names := hd1
          exact hpd.trans (by rw [hkd])
      have h1 : (Dict.keys flat) = (Dict.keys flat).filter (fun x => !(kids x).isEmpty) := by
        rw [List.filter_eq_self.2]
        intro x hx
        have := (hmem x).1 hx
        simpa using this
      rw [h1]
      apply List.Sublist.antisymm
      · exact hsubk.filter _
      · have hnd1 : (names.filter (fun x => !(kids x).isEmpty)).Nodup := hn.filter _
        have hsubset : names.filter (fun x => !(kids x).isEmpty) ⊆ Dict.keys flat := by
          intro x hx
          rw [List.mem_filter] at hx
          exact (hmem x).2 (by simpa using hx.2)
        have hle := (List.subperm_of_subset hnd1 hsubset).length_le
        rw [← h1]
        have hs2 : (Dict.keys flat).Sublist (names.filter (fun x => !(kids x).isEmpty)) := by
          rw [h1]; exact hsubk.filter _
        rw [hs2.eq_of_length_le hle]
    rw [hkeys, List.filter_filter]
    apply List.filter_congr
    intro x hx
    rw [Bool.and_comm]
    congr 1
    rw [Bool.eq_iff_iff, Bool.not_eq_true', List.all_eq_true]
    constructor
    · intro h z _
      rw [Bool.not_eq_true', ← Bool.not_eq_true, List.contains_iff_mem]
      intro hz
      rw [← Bool.not_eq_true, List.contains_iff_mem] at h
      obtain ⟨cs, h1, h2⟩ := (hmemk z x).1 hz
      exact h (List.mem_flatten.2 ⟨cs, List.mem_map.2 ⟨_, h1, rfl⟩, h2⟩)
    · intro h
      rw [← Bool.not_eq_true, List.contains_iff_mem]
      intro hm
      obtain ⟨cs, h1, h2⟩ := List.mem_flatten.1 hm
      obtain ⟨⟨z, cs'⟩, h3, h4⟩ := List.mem_map.1 h1
      simp only at h4
      subst h4
      have hz := (hmemk z x).2 ⟨_, h3, h2⟩
      have := h z (hkname z (List.ne_nil_of_mem hz))
      rw [List.contains_iff_mem.2 hz] at this
      cases this

end Gcl
