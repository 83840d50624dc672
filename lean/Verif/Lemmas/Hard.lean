import Verif.Lemmas.Basic
import Verif.Lemmas.Adj
import Verif.Props.Keys
import Verif.Props.Descend
import Verif.Props.Composite
/-! # Lemmas for `hard_descendants` -/
namespace Gcl
set_option autoImplicit false
open Spec

theorem gather_nil_pos {α : Type} (a : List α) (m : List Bool) :
    gather a (trueIdxs m) = selected a m := by
  have := gather_trueIdxs [] a m
  simpa using this

theorem selected_map {α : Type} (a : List α) (f : α → Bool) : selected a (a.map f) = a.filter f := by
  induction a with
  | nil => rfl
  | cons x a ih => rw [List.map_cons, selected_cons, ih]; simp [List.filter_cons]

theorem gather_getElem? {α : Type} (a : List α) (js : List Nat) (h : ∀ j ∈ js, j < a.length)
    (k : Nat) : (gather a js)[k]? = js[k]?.bind (fun j => a[j]?) := by
  have := congrArg (fun l => l[k]?) (gather_map_some a js h)
  simp only [List.getElem?_map] at this
  rcases hj : js[k]? with _ | j
  · rw [hj] at this
    simpa using this
  · rw [hj] at this
    have hlt := h j (List.mem_of_getElem? hj)
    simp only [Option.map_some, List.getElem?_eq_getElem hlt] at this
    obtain ⟨y, hy, hy'⟩ := Option.map_eq_some_iff.1 this
    rw [hy]
    simp [List.getElem?_eq_getElem hlt, Option.some.inj hy']

theorem gather_length {α : Type} (a : List α) (js : List Nat) (h : ∀ j ∈ js, j < a.length) :
    (gather a js).length = js.length := by
  have := congrArg List.length (gather_map_some a js h)
  simpa using this

theorem gather_gather {α : Type} (a : List α) (P T : List Nat) (hP : ∀ j ∈ P, j < a.length)
    (hT : ∀ j ∈ T, j < P.length) : gather (gather a P) T = gather a (gather P T) := by
  have hT' : ∀ j ∈ T, j < (gather a P).length := by rw [gather_length a P hP]; exact hT
  have hmem : ∀ j ∈ gather P T, j < a.length := by
    intro j hj
    obtain ⟨t, ht, hjt⟩ := List.mem_filterMap.1 hj
    exact hP j (List.mem_of_getElem? hjt)
  apply List.ext_getElem?
  intro k
  rw [gather_getElem? _ _ hT', gather_getElem? _ _ hmem, gather_getElem? _ _ hT]
  rcases T[k]? with _ | t
  · rfl
  · simp [gather_getElem? _ _ hP]

theorem map_gather {α β : Type} (f : α → β) (a : List α) (js : List Nat) :
    (gather a js).map f = js.filterMap (fun j => a[j]?.map f) := by
  unfold gather
  rw [List.map_filterMap]

theorem trueIdxs_eq_filter (m : List Bool) :
    trueIdxs m = (List.range m.length).filter (fun i => m[i]?.getD false) := by
  have h1 : gather (List.range m.length) (trueIdxs m) = trueIdxs m := by
    have hb : ∀ j ∈ trueIdxs m, j < (List.range m.length).length := by
      intro j hj
      have := trueIdxs_lt m 0 j hj
      simpa using this
    apply List.ext_getElem?
    intro k
    rw [gather_getElem? _ _ hb]
    rcases h : (trueIdxs m)[k]? with _ | j
    · rfl
    · have := hb j (List.mem_of_getElem? h)
      simp only [List.length_range] at this
      simp [List.getElem?_range, this]
  rw [← h1, gather_nil_pos]
  have h2 : m = (List.range m.length).map (fun i => m[i]?.getD false) := by
    apply List.ext_getElem?
    intro i
    by_cases hi : i < m.length
    · simp [List.getElem?_map, List.getElem?_range hi, List.getElem?_eq_getElem hi]
    · rw [List.getElem?_eq_none (by omega), List.getElem?_eq_none (by simp; omega)]
  conv_lhs => rw [h2]
  simp only [List.length_map, List.length_range]
  rw [selected_map]

/-- the boolean mask of the non-incoming hard partons -/
def hardBools (status : List Int) : List Bool :=
  status.map (fun s => s.natAbs = 22 || s.natAbs = 23 || s.natAbs = 24)

theorem hardGroup_or (status : List Int) :
    ∃ hg, hardGroup status = .ok hg ∧ groupOr hg = .ok (hardBools status) ∧
      groupGet hg "intermediate" = .ok (.arr (status.map (fun s => decide (s.natAbs = 22)))) := by
  have hform : hardGroup status = .ok
    [("intermediate", .arr ((status.map (absWrap 16)).map (fun x => x == 22))),
     ("outgoing", .arr ((status.map (absWrap 16)).map (fun x => x == 23))),
     ("outgoing_nonperturbative_diffraction",
       .arr ((status.map (absWrap 16)).map (fun x => x == 24)))] := by
    rfl
  have habs : ∀ (x : Int) (s : Nat), (|x| = (s : Int)) ↔ x.natAbs = s := by
    intro x s; rw [Int.abs_eq_natAbs]; omega
  refine ⟨_, hform, ?_, ?_⟩
  · simp only [groupOr, Mask.data, Mask.dataKids, reduceRows, List.length_map, List.all_cons,
      beq_self_eq_true, List.all_nil, Bool.and_true, if_true, List.foldl_cons, List.foldl_nil,
      List.zipWith_map, List.map_map, Except.ok.injEq]
    apply List.ext_getElem?
    intro i
    by_cases hi : i < status.length
    · simp only [List.getElem?_zipWith, List.getElem?_map, List.getElem?_eq_getElem hi,
        Option.map_some, Option.some.injEq, Function.comp, hardBools]
      have key := absWrap16_beq
      rw [key _ 22 (by decide) (by decide),
        key _ 23 (by decide) (by decide), key _ 24 (by decide) (by decide)]
      have h22 := habs status[i] 22
      have h23 := habs status[i] 23
      have h24 := habs status[i] 24
      push_cast at h22 h23 h24
      simp [h22, h23, h24]
    · rw [List.getElem?_eq_none (by simp; omega), List.getElem?_eq_none (by simp [hardBools]; omega)]
  · unfold groupGet
    rw [Dict.get?_cons, if_pos rfl]
    simp only [Except.ok.injEq, Mask.arr.injEq, List.map_map]
    apply List.map_congr_left
    intro x _
    simp only [Function.comp]
    rw [absWrap16_beq _ 22 (by decide) (by decide)]
    have h22 := habs x 22
    push_cast at h22
    simp [h22]

theorem trueIdxs_hard (status : List Int) : trueIdxs (hardBools status) = partons status := by
  rw [trueIdxs_eq_filter]
  unfold partons hardBools
  rw [List.length_map]
  apply List.filter_congr
  intro i hi
  rw [List.mem_range] at hi
  simp [List.getElem?_map, List.getElem?_eq_getElem hi]

theorem partons_lt (status : List Int) : ∀ p ∈ partons status, p < status.length := by
  intro p hp
  unfold partons at hp
  rw [List.mem_filter, List.mem_range] at hp
  exact hp.1

theorem partons_nodup (status : List Int) : (partons status).Nodup :=
  List.nodup_range.filter _

/-! ## marking -/

theorem dict_get?_mid {α : Type} (pre rest : Dict α) (k : String) (d : α) (h : k ∉ Dict.keys pre) :
    Dict.get? (pre ++ (k, d) :: rest) k = some d := by
  induction pre with
  | nil => simp [Dict.get?]
  | cons p pre ih =>
    have h1 : p.1 ≠ k := by rintro rfl; exact h (by simp [Dict.keys])
    have h2 : k ∉ Dict.keys pre := by
      intro hm; apply h; simp only [Dict.keys, List.map_cons, List.mem_cons]; exact Or.inr hm
    simp only [List.cons_append]
    rw [Dict.get?_cons, if_neg h1]
    exact ih h2

theorem dict_set_mid {α : Type} (pre rest : Dict α) (k : String) (d d' : α)
    (h : k ∉ Dict.keys pre) :
    Dict.set (pre ++ (k, d) :: rest) k d' = pre ++ (k, d') :: rest := by
  induction pre with
  | nil => simp [Dict.set]
  | cons p pre ih =>
    have h1 : p.1 ≠ k := by rintro rfl; exact h (by simp [Dict.keys])
    have h2 : k ∉ Dict.keys pre := by
      intro hm; apply h; simp only [Dict.keys, List.map_cons, List.mem_cons]; exact Or.inr hm
    obtain ⟨a, b⟩ := p
    simp only at h1
    simp only [List.cons_append, Dict.set, if_neg h1, ih h2]

theorem markAll_zip (pre : Dict (List Bool)) (keys : List String) (ds : List (List Bool))
    (idxs : List Nat) (hl : keys.length = ds.length) (hi : keys.length ≤ idxs.length)
    (hk : (Dict.keys pre ++ keys).Nodup) (n : Nat) (hd : ∀ d ∈ ds, d.length = n)
    (hb : ∀ i ∈ idxs, i < n) :
    markAll (pre ++ keys.zip ds) (keys.zip idxs) =
      .ok (pre ++ keys.zip (List.zipWith (fun d i => d.set i true) ds idxs)) := by
  induction keys generalizing pre ds idxs with
  | nil => simp [markAll]
  | cons k keys ih =>
    cases ds with
    | nil => simp at hl
    | cons d ds =>
      cases idxs with
      | nil => simp at hi
      | cons i idxs =>
        have hkp : k ∉ Dict.keys pre := by
          intro hm
          rw [List.nodup_append] at hk
          exact hk.2.2 k hm k (by simp) rfl
        simp only [List.zip_cons_cons, markAll, markOne]
        rw [dict_get?_mid _ _ _ _ hkp]
        simp only
        rw [if_pos (by rw [hd d (by simp)]; exact hb i (by simp)), dict_set_mid _ _ _ _ _ hkp]
        simp only
        have := ih (pre ++ [(k, d.set i true)]) ds idxs (by simpa using hl) (by simpa using hi)
          (by simpa [Dict.keys] using hk) (fun d' hd' => hd d' (by simp [hd']))
          (fun i' hi' => hb i' (by simp [hi']))
        simpa using this

theorem descMasks_ok (es : List (Int × Int)) (vs : List Int) :
    ∃ ds, descMasks es vs = .ok ds ∧
      List.Forall₂ (fun v d => vertexDescendants es v = .ok d) vs ds := by
  induction vs with
  | nil => exact ⟨[], rfl, .nil⟩
  | cons v vs ih =>
    obtain ⟨ds, h1, h2⟩ := ih
    obtain ⟨m, h3, _⟩ := C39_descendants es v
    refine ⟨m :: ds, ?_, .cons h3 h2⟩
    simp only [descMasks, h3, h1]

theorem hardGraph_get (pdg : List Int) (es : List (Int × Int)) (m : List Bool)
    (h1 : pdg.length = m.length) (h2 : es.length = m.length) :
    HardGraph.get ⟨pdg, es⟩ m = .ok ⟨gather pdg (trueIdxs m), gather es (trueIdxs m)⟩ := by
  have hcol : ∀ {α : Type} (a : List α), a.length = m.length →
      getCol (.mask m) a = .ok (gather a (trueIdxs m)) := by
    intro α a ha
    unfold getCol
    split
    · simp [Key.apply, Key.resolve, ha]
    · next h =>
      have : a = [] := by rw [← listTruthy_false]; simpa using h
      subst this
      simp only [Except.ok.injEq]
      unfold gather
      simp
  unfold HardGraph.get
  simp only [hcol pdg h1, hcol es h2]

/-- Everything after the filtering: one mask per selected position `P'`, marked with the positions
`P` in order. -/
theorem hardDesc_tail (nm : Int → String) (pdg : List Int) (es : List (Int × Int)) (P P' : List Nat)
    (hn : pdg.length = es.length) (hP : ∀ p ∈ P, p < es.length) (hP' : ∀ p ∈ P', p < es.length)
    (hlen : P'.length ≤ P.length)
    (hcol : ∀ c ∈ gather pdg P', ':' ∉ (nm c).toList) :
    ∃ ds, descMasks es ((gather es P').map (fun e => e.2)) = .ok ds ∧
      ∃ out, markAll (Dict.ofPairs ((pdgsToKeys ((gather pdg P').map nm)).zip ds))
          ((pdgsToKeys ((gather pdg P').map nm)).zip P) = .ok out ∧
        out.length = P'.length ∧
        ∀ (k p h : Nat), P'[k]? = some p → P[k]? = some h →
          ∃ key d, out[k]? = some (key, d) ∧ partonKey (namesAt nm pdg P') k = some key ∧
            d.length = es.length ∧
            ∀ (i : Nat) (e ep : Int × Int), es[i]? = some e → es[p]? = some ep →
              (d[i]? = some true ↔ i = h ∨ Descends es ep.2 e) := by
  obtain ⟨ds, hds, hf⟩ := descMasks_ok es ((gather es P').map (fun e => e.2))
  refine ⟨ds, hds, ?_⟩
  have hnames : (gather pdg P').map nm = namesAt nm pdg P' := by
    rw [map_gather]; rfl
  have hPp : ∀ p ∈ P', p < pdg.length := by rw [hn]; exact hP'
  set K := pdgsToKeys ((gather pdg P').map nm) with hK
  have hKlen : K.length = P'.length := by
    rw [hK, (C43_keys _).1, List.length_map, gather_length pdg P' hPp]
  have hKn : K.Nodup := by
    apply C43_unique
    intro x hx
    obtain ⟨c, hc, rfl⟩ := List.mem_map.1 hx
    exact hcol c hc
  have hdslen : ds.length = P'.length := by
    rw [← hf.length_eq, List.length_map, gather_length es P' hP']
  have hdl : ∀ d ∈ ds, d.length = es.length := by
    intro d hd
    obtain ⟨v, _, hv⟩ := forall₂_mem_right hf hd
    obtain ⟨m, hm, hl, _⟩ := C39_descendants es v
    rw [hv] at hm; cases hm; exact hl
  have hpairs : Dict.ofPairs (K.zip ds) = K.zip ds := by
    apply Dict.ofPairs_of_nodup
    rw [List.map_fst_zip (by omega)]
    exact hKn
  have hmark := markAll_zip [] K ds P (by omega) (by omega) (by simpa [Dict.keys] using hKn)
    es.length hdl hP
  simp only [List.nil_append] at hmark
  rw [hpairs, hmark]
  refine ⟨_, rfl, ?_, ?_⟩
  · simp [List.length_zip, List.length_zipWith]; omega
  · intro k p h hp hh
    have hkl : k < P'.length := (List.getElem?_eq_some_iff.1 hp).1
    have hKk : K[k]? = some (K[k]'(by omega)) := List.getElem?_eq_getElem _
    have hdk : ds[k]? = some (ds[k]'(by omega)) := List.getElem?_eq_getElem _
    refine ⟨K[k]'(by omega), (ds[k]'(by omega)).set h true, ?_, ?_, ?_, ?_⟩
    · simp only [List.zip, List.getElem?_zipWith, hKk, hdk, hh]
    · rw [← hnames, ← (C43_keys _).2 k, ← hK, hKk]
    · rw [List.length_set]; exact hdl _ (List.getElem_mem _)
    · intro i e ep he hep
      have hgk : ((gather es P').map (fun e => e.2))[k]? = some ep.2 := by
        rw [List.getElem?_map, gather_getElem? es P' hP', hp]
        simp [hep]
      have hvd : vertexDescendants es ep.2 = .ok (ds[k]'(by omega)) := by
        have := List.forall₂_iff_get.1 hf
        have h2 := this.2 k (by rw [List.length_map, gather_length es P' hP']; exact hkl) (by omega)
        simp only [List.get_eq_getElem] at h2
        have h3 : ((gather es P').map (fun e => e.2))[k]'(by
            rw [List.length_map, gather_length es P' hP']; exact hkl) = ep.2 := by
          have := List.getElem?_eq_getElem (l := (gather es P').map (fun e => e.2)) (i := k) (by
            rw [List.length_map, gather_length es P' hP']; exact hkl)
          rw [hgk] at this
          exact (Option.some.inj this).symm
        rw [h3] at h2
        exact h2
      obtain ⟨m, hm, hml, hms⟩ := C39_descendants es ep.2
      rw [hvd] at hm
      cases hm
      have hil : i < es.length := (List.getElem?_eq_some_iff.1 he).1
      have hdesc : (ds[k]'(by omega))[i]? = some true ↔ Descends es ep.2 e := by
        unfold Descends
        by_cases hex : ∃ w, (ep.2, w) ∈ es
        · rw [(hms i e he).1 hex]; simp [hex]
        · rw [(hms i e he).2 hex]
          constructor
          · intro h; exact Or.inr ⟨hex, h⟩
          · rintro (⟨h, _⟩ | ⟨_, h⟩)
            · exact absurd h hex
            · exact h
      rw [List.getElem?_set]
      by_cases hih : h = i
      · subst hih
        rw [if_pos rfl, if_pos (by rw [hdl _ (List.getElem_mem _)]; exact hil)]
        simp
      · rw [if_neg hih, hdesc]
        constructor
        · exact Or.inr
        · rintro (h' | h')
          · exact absurd h'.symm hih
          · exact h'

end Gcl
