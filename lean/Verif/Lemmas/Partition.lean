import Mathlib.Order.Defs.LinearOrder
import Mathlib.Data.List.Sort
import Verif.Model.Partition
import Verif.Spec.Partition
import Verif.Props.Hier
/-! # Lemmas about `partition_descendants` -/
namespace Gcl
set_option autoImplicit false
open Spec

theorem argminFrom_spec {R : Type} [LinearOrder R] (pre : List R) (best : R) (bi : Nat) (xs : List R)
    (h1 : pre[bi]? = some best) (h2 : ∀ (j : Nat) (x : R), pre[j]? = some x → best ≤ x ∧ (j < bi → best < x)) :
    ∃ m, (pre ++ xs)[argminFrom best bi pre.length xs]? = some m ∧
      ∀ (j : Nat) (x : R), (pre ++ xs)[j]? = some x → m ≤ x ∧
        (j < argminFrom best bi pre.length xs → m < x) := by
  induction xs generalizing pre best bi with
  | nil =>
    refine ⟨best, ?_, ?_⟩
    · simpa [argminFrom] using h1
    · intro j x hj
      simp only [argminFrom, List.append_nil] at hj ⊢
      exact h2 j x hj
  | cons y ys ih =>
    have hb : bi < pre.length := (List.getElem?_eq_some_iff.1 h1).1
    by_cases hy : y < best
    · simp only [argminFrom, if_pos hy]
      have := ih (pre ++ [y]) y pre.length (by simp) (by
        intro j x hj
        by_cases hlt : j < pre.length
        · rw [List.getElem?_append_left hlt] at hj
          have := (h2 j x hj).1
          exact ⟨le_of_lt (lt_of_lt_of_le hy this), fun _ => lt_of_lt_of_le hy this⟩
        · rw [List.getElem?_append_right (by omega)] at hj
          have hj0 : j - pre.length = 0 := by
            by_contra hne
            rw [List.getElem?_eq_none (by simp; omega)] at hj
            cases hj
          rw [hj0] at hj
          cases hj
          exact ⟨le_refl _, fun h => absurd h hlt⟩)
      simpa using this
    · simp only [argminFrom, if_neg hy]
      have := ih (pre ++ [y]) best bi (by rw [List.getElem?_append_left hb]; exact h1) (by
        intro j x hj
        by_cases hlt : j < pre.length
        · rw [List.getElem?_append_left hlt] at hj
          exact h2 j x hj
        · rw [List.getElem?_append_right (by omega)] at hj
          have hj0 : j - pre.length = 0 := by
            by_contra hne
            rw [List.getElem?_eq_none (by simp; omega)] at hj
            cases hj
          rw [hj0] at hj
          cases hj
          exact ⟨not_lt.1 hy, fun h => by omega⟩)
      simpa using this

theorem argmin_spec {R : Type} [LinearOrder R] (l : List R) (h : l ≠ []) :
    ∃ a m, argmin l = .ok a ∧ l[a]? = some m ∧
      ∀ (j : Nat) (x : R), l[j]? = some x → m ≤ x ∧ (j < a → m < x) := by
  cases l with
  | nil => exact absurd rfl h
  | cons x xs =>
    obtain ⟨m, h1, h2⟩ := argminFrom_spec [x] x 0 xs rfl (by
      intro j y hj
      cases j with
      | zero => simp at hj; subst hj; exact ⟨le_refl _, fun h => by omega⟩
      | succ j => simp at hj)
    exact ⟨_, m, rfl, by simpa using h1, by simpa using h2⟩

theorem allocate_spec {M R : Type} [LinearOrder R] (dist : M → M → R) (ps hs : List M)
    (h : ps ≠ []) : ∃ alloc, allocate dist ps hs = .ok alloc ∧ alloc.length = hs.length ∧
      ∀ (b : Nat) (mi : M), hs[b]? = some mi → ∃ a mp, alloc[b]? = some a ∧ ps[a]? = some mp ∧
        ∀ (j : Nat) (mq : M), ps[j]? = some mq → dist mp mi ≤ dist mq mi ∧
          (j < a → dist mp mi < dist mq mi) := by
  induction hs with
  | nil =>
    refine ⟨[], ?_, rfl, by simp⟩
    have : ps.isEmpty = false := by simpa using h
    simp [allocate, this]
  | cons x hs ih =>
    obtain ⟨alloc, h1, h2, h3⟩ := ih
    obtain ⟨a, m, g1, g2, g3⟩ := argmin_spec (ps.map (fun p => dist p x)) (by simpa using h)
    refine ⟨a :: alloc, by simp only [allocate, g1, h1], by simp [h2], ?_⟩
    intro b mi hb
    cases b with
    | zero =>
      simp only [List.getElem?_cons_zero, Option.some.injEq] at hb
      subst hb
      rw [List.getElem?_map, Option.map_eq_some_iff] at g2
      obtain ⟨mp, g4, rfl⟩ := g2
      refine ⟨a, mp, rfl, g4, fun j mq hj => ?_⟩
      exact g3 j _ (by rw [List.getElem?_map, hj]; rfl)
    | succ b =>
      simp only [List.getElem?_cons_succ] at hb ⊢
      exact h3 b mi hb

theorem trueIdxs_succ (m : List Bool) (off : Nat) :
    trueIdxs m (off + 1) = (trueIdxs m off).map (· + 1) := by
  induction m generalizing off with
  | nil => rfl
  | cons b m ih => cases b <;> simp [trueIdxs, ih]

theorem setMaskVals_go_spec {α : Type} (a : List α) (m : List Bool) (vals : List α)
    (h1 : m.length = a.length) (h2 : vals.length = (trueIdxs m).length) :
    (setMaskVals.go a m vals).length = a.length ∧
    (∀ i : Nat, m[i]? ≠ some true → (setMaskVals.go a m vals)[i]? = a[i]?) ∧
    (∀ b i : Nat, (trueIdxs m)[b]? = some i → (setMaskVals.go a m vals)[i]? = vals[b]?) := by
  induction a generalizing m vals with
  | nil =>
    have : m = [] := List.length_eq_zero_iff.1 (by simpa using h1)
    subst this
    cases vals <;> simp [setMaskVals.go, trueIdxs]
  | cons x a ih =>
    cases m with
    | nil => simp at h1
    | cons b m =>
      cases b with
      | false =>
        rw [trueIdxs, trueIdxs_succ, List.length_map] at h2
        obtain ⟨i1, i2, i3⟩ := ih m vals (by simpa using h1) h2
        refine ⟨by simp [setMaskVals.go, i1], ?_, ?_⟩
        · intro i hi
          cases i with
          | zero => simp [setMaskVals.go]
          | succ i =>
            simp only [setMaskVals.go, List.getElem?_cons_succ] at hi ⊢
            exact i2 i hi
        · intro b i hb
          rw [trueIdxs, trueIdxs_succ, List.getElem?_map] at hb
          obtain ⟨i', hb', rfl⟩ := Option.map_eq_some_iff.1 hb
          simp only [setMaskVals.go, List.getElem?_cons_succ]
          exact i3 b i' hb'
      | true =>
        cases vals with
        | nil => simp [trueIdxs] at h2
        | cons v vals =>
          rw [trueIdxs, trueIdxs_succ] at h2
          obtain ⟨i1, i2, i3⟩ := ih m vals (by simpa using h1) (by simpa using h2)
          refine ⟨by simp [setMaskVals.go, i1], ?_, ?_⟩
          · intro i hi
            cases i with
            | zero => simp at hi
            | succ i =>
              simp only [setMaskVals.go, List.getElem?_cons_succ] at hi ⊢
              exact i2 i hi
          · intro b i hb
            rw [trueIdxs, trueIdxs_succ] at hb
            cases b with
            | zero =>
              simp only [List.getElem?_cons_zero, Option.some.injEq] at hb
              subst hb
              simp [setMaskVals.go]
            | succ b =>
              rw [List.getElem?_cons_succ, List.getElem?_map] at hb
              obtain ⟨i', hb', rfl⟩ := Option.map_eq_some_iff.1 hb
              simp only [setMaskVals.go, List.getElem?_cons_succ]
              exact i3 b i' hb'

theorem enters_iff (es : List (Int × Int)) (v : Int) (p : Nat) :
    Enters es v p ↔ (es.map (fun e => v == e.2))[p]? = some true := by
  rw [List.getElem?_map, Option.map_eq_some_iff]
  unfold Enters
  simp only [beq_iff_eq]
  constructor
  · rintro ⟨e, h1, h2⟩; exact ⟨e, h1, h2.symm⟩
  · rintro ⟨e, h1, h2⟩; exact ⟨e, h1, h2.symm⟩

theorem contains_true (sel : List Bool) (a : Nat) :
    (trueIdxs sel).contains a = true ↔ sel[a]? = some true := by
  rw [List.contains_iff_mem, mem_trueIdxs]

/-- positions in an ascending list compare like the entries -/
theorem trueIdxs_lt_iff {m : List Bool} {a b p q : Nat} (ha : (trueIdxs m)[a]? = some p)
    (hb : (trueIdxs m)[b]? = some q) : a < b ↔ p < q := by
  have hs := trueIdxs_pairwise m
  have hal := (List.getElem?_eq_some_iff.1 ha).1
  have hbl := (List.getElem?_eq_some_iff.1 hb).1
  have ea := (List.getElem?_eq_some_iff.1 ha).2
  have eb := (List.getElem?_eq_some_iff.1 hb).2
  rw [List.pairwise_iff_getElem] at hs
  constructor
  · intro h
    have := hs a b hal hbl h
    rw [ea, eb] at this; exact this
  · intro h
    by_contra hno
    rcases Nat.lt_or_eq_of_le (Nat.not_lt.1 hno) with hlt | heq
    · have := hs b a hbl hal hlt
      rw [ea, eb] at this; omega
    · subst heq; rw [ea] at eb; omega

theorem vertexDesc_mask (es : List (Int × Int)) (v : Int) :
    ∃ m, vertexDescendants es v = .ok m ∧ m.length = es.length ∧
      ∀ i : Nat, m[i]? = some true ↔ ∃ e, es[i]? = some e ∧ Descends es v e := by
  obtain ⟨m, h1, h2, h3⟩ := C39_descendants es v
  refine ⟨m, h1, h2, fun i => ?_⟩
  by_cases hi : i < es.length
  · have := h3 i es[i] (List.getElem?_eq_getElem hi)
    unfold Descends
    simp only [List.getElem?_eq_getElem hi, Option.some.injEq, exists_eq_left']
    by_cases hw : ∃ w, (v, w) ∈ es
    · rw [this.1 hw]; simp [hw]
    · rw [this.2 hw]; simp [hw]
  · rw [List.getElem?_eq_none (by omega), List.getElem?_eq_none (by omega)]
    simp

theorem partitionLeaf_spec {M R : Type} [LinearOrder R] (dist : M → M → R) (pmu : List M)
    (final : List Bool) (es : List (Int × Int)) (v : Int) (vtxDesc d : List Bool)
    (hp : pmu.length = es.length) (hf : final.length = es.length) (hd : d.length = es.length)
    (hvl : vtxDesc.length = es.length)
    (hv : ∀ i : Nat, vtxDesc[i]? = some true ↔ ∃ e, es[i]? = some e ∧ Descends es v e) :
    ∃ d', partitionLeaf dist pmu final es v (es.map (fun e => v == e.2)) vtxDesc d = .ok d' ∧
      LeafStep dist pmu final es v d d' := by
  have happ : (Key.mask d).apply (es.map (fun e => e.2)) =
      .ok (gather (es.map (fun e => e.2)) (trueIdxs d)) := by
    simp only [Key.apply, Key.resolve, List.length_map, hd, if_true]
  have hinc : (gather (es.map (fun e => e.2)) (trueIdxs d)).contains v = true ↔ Incident es v d := by
    rw [List.contains_iff_mem]
    unfold gather Incident Enters
    rw [List.mem_filterMap]
    simp only [mem_trueIdxs, List.getElem?_map, Option.map_eq_some_iff]
  unfold partitionLeaf
  simp only [happ]
  by_cases hi : Incident es v d
  · rw [if_pos (hinc.2 hi)]
    set inM := es.map (fun e => v == e.2) with hinM
    have hinl : inM.length = es.length := by simp [hinM]
    have hfv : bcast2 (· && ·) vtxDesc final = .ok (List.zipWith (· && ·) vtxDesc final) :=
      bcast2_eq_length _ (hvl.trans hf.symm)
    set fv := List.zipWith (· && ·) vtxDesc final with hfvdef
    have hfvl : fv.length = es.length := by simp [hfvdef, hvl, hf]
    have hfvi : ∀ i : Nat, fv[i]? = some true ↔ HadronOf es final v i := by
      intro i
      rw [hfvdef, List.getElem?_zipWith]
      unfold HadronOf
      rw [← hv i]
      by_cases hil : i < es.length
      · rw [List.getElem?_eq_getElem (show i < vtxDesc.length by omega),
          List.getElem?_eq_getElem (show i < final.length by omega)]
        cases vtxDesc[i] <;> cases final[i] <;> simp
      · rw [List.getElem?_eq_none (show vtxDesc.length ≤ i by omega)]
        simp
    have hbd : ∀ (m : List Bool), m.length = es.length → ∀ j ∈ trueIdxs m, j < es.length := by
      intro m hm j hj
      rw [← hm]; exact (List.getElem?_eq_some_iff.1 ((mem_trueIdxs m j).1 hj)).1
    have a1 : (Key.mask inM).apply pmu = .ok (gather pmu (trueIdxs inM)) := by
      simp only [Key.apply, Key.resolve, hp, hinl, if_true]
    have a2 : (Key.mask fv).apply pmu = .ok (gather pmu (trueIdxs fv)) := by
      simp only [Key.apply, Key.resolve, hp, hfvl, if_true]
    have a3 : (Key.mask inM).apply d = .ok (gather d (trueIdxs inM)) := by
      simp only [Key.apply, Key.resolve, hd, hinl, if_true]
    have hne : gather pmu (trueIdxs inM) ≠ [] := by
      obtain ⟨p, _, hpe⟩ := hi
      have hm := (mem_trueIdxs inM p).2 ((enters_iff es v p).1 hpe)
      intro h0
      have := gather_length pmu (trueIdxs inM) (by rw [hp]; exact hbd inM hinl)
      rw [h0] at this
      have h1 : trueIdxs inM = [] := List.length_eq_zero_iff.1 this.symm
      rw [h1] at hm
      cases hm
    obtain ⟨alloc, b1, b2, b3⟩ := allocate_spec dist (gather pmu (trueIdxs inM))
      (gather pmu (trueIdxs fv)) hne
    have hgl : (gather pmu (trueIdxs fv)).length = (trueIdxs fv).length :=
      gather_length _ _ (by rw [hp]; exact hbd fv hfvl)
    set vals := alloc.map (fun a => (trueIdxs (gather d (trueIdxs inM))).contains a) with hvals
    have hvl' : vals.length = (trueIdxs fv).length := by
      rw [hvals, List.length_map, b2, hgl]
    have hset : setMaskVals d fv vals = .ok (setMaskVals.go d fv vals) := by
      unfold setMaskVals
      rw [if_neg (by simp [hfvl, hd]), if_pos hvl']
    obtain ⟨s1, s2, s3⟩ := setMaskVals_go_spec d fv vals (by omega) hvl'
    refine ⟨setMaskVals.go d fv vals, ?_, s1, ?_, ?_⟩
    · unfold partitionVertex
      simp only [a1, hfv, a2, b1, a3]
      exact hset
    · intro i hno
      exact s2 i (fun h => hno ⟨(hfvi i).1 h, hi⟩)
    · intro i hh _
      have hmem := (mem_trueIdxs fv i).2 ((hfvi i).2 hh)
      obtain ⟨b, hb⟩ := List.mem_iff_getElem?.1 hmem
      have hil : i < es.length := hbd fv hfvl i hmem
      have hgi : (gather pmu (trueIdxs fv))[b]? = some (pmu[i]'(by omega)) := by
        rw [gather_getElem? _ _ (by rw [hp]; exact hbd fv hfvl), hb]
        simp only [Option.bind_some]
        exact List.getElem?_eq_getElem (by omega)
      obtain ⟨a, mp, c1, c2, c3⟩ := b3 b _ hgi
      rw [gather_getElem? _ _ (by rw [hp]; exact hbd inM hinl)] at c2
      obtain ⟨p, hpa, hpm⟩ := Option.bind_eq_some_iff.1 c2
      have hpe : Enters es v p := (enters_iff es v p).2 ((mem_trueIdxs inM p).1 (List.mem_of_getElem? hpa))
      refine ⟨p, ⟨hpe, _, mp, List.getElem?_eq_getElem (show i < pmu.length by omega), hpm, ?_⟩, ?_⟩
      · intro q mq hq hmq
        have hqm := (mem_trueIdxs inM q).2 ((enters_iff es v q).1 hq)
        obtain ⟨j, hj⟩ := List.mem_iff_getElem?.1 hqm
        have := c3 j mq (by
          rw [gather_getElem? _ _ (by rw [hp]; exact hbd inM hinl), hj]
          exact hmq)
        exact ⟨this.1, fun hlt => this.2 ((trueIdxs_lt_iff hj hpa).2 hlt)⟩
      · rw [s3 b i hb, hvals, List.getElem?_map, c1]
        simp only [Option.map_some, Option.some.injEq]
        rw [contains_true, gather_getElem? _ _ (by rw [hd]; exact hbd inM hinl), hpa]
        rfl
  · rw [if_neg (fun h => hi (hinc.1 h))]
    refine ⟨d, rfl, rfl, fun _ _ => rfl, ?_⟩
    intro i _ h
    exact absurd h hi

/-! ## Mapping over the tree -/

theorem mapsIf_refl (E : List String → Prop) (R : List Bool → List Bool → Prop) (hR : ∀ d, R d d)
    (a : Mask) : MapsIf E R a a :=
  fun _ => ⟨id, fun _ _ => id, fun d h => ⟨d, h, fun _ => hR d, fun _ => rfl⟩⟩

theorem mapsIf_trans {E : List String → Prop} {R S T : List Bool → List Bool → Prop}
    (hT : ∀ a b c, R a b → S b c → T a c) {a b c : Mask} (h1 : MapsIf E R a b)
    (h2 : MapsIf E S b c) : MapsIf E T a c := by
  intro path
  obtain ⟨a1, a2, a3⟩ := h1 path
  obtain ⟨b1, b2, b3⟩ := h2 path
  refine ⟨fun h => b1 (a1 h), fun op ks h => b2 op ks (a2 op ks h), fun d h => ?_⟩
  obtain ⟨d', e1, e2, e3⟩ := a3 d h
  obtain ⟨d'', f1, f2, f3⟩ := b3 d' e1
  refine ⟨d'', f1, fun hE => hT _ _ _ (e2 hE) (f2 hE), fun hE => ?_⟩
  rw [f3 hE, e3 hE]

/-- `none` and groups transfer backwards as well -/
theorem mapsIf_leaf_back {E : List String → Prop} {R : List Bool → List Bool → Prop} {a b : Mask}
    (h : MapsIf E R a b) {path : List String} {d' : List Bool} (hb : look b path = some (.leaf d')) :
    ∃ d, look a path = some (.leaf d) ∧ (E path → R d d') ∧ (¬ E path → d' = d) := by
  obtain ⟨a1, a2, a3⟩ := h path
  rcases hl : look a path with _ | ⟨d⟩ | ⟨op, ks⟩
  · rw [a1 hl] at hb; cases hb
  · obtain ⟨d'', e1, e2, e3⟩ := a3 d hl
    rw [e1] at hb
    cases hb
    exact ⟨d, rfl, e2, e3⟩
  · rw [a2 op ks hl] at hb; cases hb

/-- pairs of entries with equal keys, position by position -/
theorem mapsIf_grp {E E' : List String → Prop} {R : List Bool → List Bool → Prop} (op : Agg)
    {ks ks' : List (String × Mask)}
    (h : List.Forall₂ (fun (p q : String × Mask) => p.1 = q.1 ∧
      MapsIf (fun path => E' (p.1 :: path)) R p.2 q.2) ks ks')
    (hE : ∀ k path, E (k :: path) ↔ E' (k :: path)) : MapsIf E R (.grp op ks) (.grp op ks') := by
  have hkeys : ks'.map Prod.fst = ks.map Prod.fst := by
    induction h with
    | nil => rfl
    | cons h1 _ ih => simp only [List.map_cons, ih, h1.1]
  intro path
  cases path with
  | nil =>
    refine ⟨fun h => ?_, fun op' ks'' h => ?_, fun d h => ?_⟩
    · simp [look_nil] at h
    · rw [look_nil] at h ⊢
      simp only [node, Option.some.injEq, Node.group.injEq] at h ⊢
      exact ⟨h.1, hkeys.trans h.2⟩
    · simp [look_nil, node] at h
  | cons k path =>
    simp only [look_cons, child_grp]
    have hget : (Dict.get? ks k = none ∧ Dict.get? ks' k = none) ∨
        ∃ m m', Dict.get? ks k = some m ∧ Dict.get? ks' k = some m' ∧
          MapsIf (fun path => E' (k :: path)) R m m' := by
      clear hkeys
      induction h with
      | nil => exact Or.inl ⟨rfl, rfl⟩
      | @cons p q ks ks' h1 _ ih =>
        obtain ⟨a, m⟩ := p
        obtain ⟨b, m'⟩ := q
        obtain ⟨h1, h2⟩ := h1
        simp only at h1 h2
        subst h1
        by_cases hk : a = k
        · subst hk
          right
          exact ⟨m, m', by rw [Dict.get?_cons, if_pos rfl], by rw [Dict.get?_cons, if_pos rfl], h2⟩
        · rw [Dict.get?_cons, Dict.get?_cons, if_neg hk, if_neg hk]
          exact ih
    rcases hget with ⟨h1, h2⟩ | ⟨m, m', h1, h2, h3⟩
    · rw [h1, h2]
      simp
    · rw [h1, h2]
      simp only [Option.bind_some]
      obtain ⟨c1, c2, c3⟩ := h3 path
      refine ⟨c1, c2, fun d hd => ?_⟩
      obtain ⟨d', e1, e2, e3⟩ := c3 d hd
      exact ⟨d', e1, fun h => e2 ((hE k path).1 h), fun h => e3 (fun h' => h ((hE k path).2 h'))⟩

/-- no key on the path is `latent` -/
def NoLatent (path : List String) : Prop := ∀ k ∈ path, k ≠ "latent"

theorem mapLeaves_spec {n : Nat} (f : List Bool → Py (List Bool)) (R : List Bool → List Bool → Prop)
    (hf : ∀ d, d.length = n → ∃ d', f d = .ok d' ∧ d'.length = n ∧ R d d') (m : Mask) :
    Aggregable n m → ∃ m', Mask.mapLeaves f m = .ok m' ∧ Aggregable n m' ∧
      MapsIf NoLatent R m m' := by
  induction m using Mask.ind with
  | ha d =>
    intro h
    cases h with
    | leaf hl =>
      obtain ⟨d', h1, h2, h3⟩ := hf d hl
      refine ⟨.arr d', by simp only [Mask.mapLeaves, h1], .leaf h2, fun path => ?_⟩
      cases path with
      | nil =>
        refine ⟨fun h => by simp [look_nil] at h, fun op ks h => by simp [look_nil, node] at h,
          fun e h => ?_⟩
        simp only [look_nil, node, Option.some.injEq, Node.leaf.injEq] at h
        subst h
        exact ⟨d', rfl, fun _ => h3, fun h => absurd (by intro k hk; cases hk) h⟩
      | cons k path =>
        refine ⟨fun _ => by simp [look_cons, child], fun op ks h => by simp [look_cons, child] at h,
          fun e h => by simp [look_cons, child] at h⟩
  | hg op ks ih =>
    intro h
    cases h with
    | group hop hne hk =>
      have hkids : ∀ ks : List (String × Mask),
          (∀ k m, (k, m) ∈ ks → Aggregable n m → ∃ m', Mask.mapLeaves f m = .ok m' ∧
            Aggregable n m' ∧ MapsIf NoLatent R m m') →
          (∀ k m, (k, m) ∈ ks → Aggregable n m) →
          ∃ ks', Mask.mapLeavesKids f ks = .ok ks' ∧ (ks ≠ [] → ks' ≠ []) ∧
            (∀ k m, (k, m) ∈ ks' → Aggregable n m) ∧
            List.Forall₂ (fun (p q : String × Mask) => p.1 = q.1 ∧
              MapsIf (fun path => NoLatent (p.1 :: path)) R p.2 q.2) ks ks' := by
        intro ks
        induction ks with
        | nil => exact fun _ _ => ⟨[], rfl, fun h => h, by simp, .nil⟩
        | cons p ks ihk =>
          intro hi ha
          obtain ⟨k, m⟩ := p
          obtain ⟨ks', g1, _, g3, g4⟩ := ihk (fun k m h => hi k m (by simp [h]))
            (fun k m h => ha k m (by simp [h]))
          by_cases hlat : k = "latent"
          · refine ⟨(k, m) :: ks', ?_, fun _ => by simp, ?_, .cons ⟨rfl, ?_⟩ g4⟩
            · simp only [Mask.mapLeavesKids, hlat, if_true, g1]
            · intro k' m' h'
              rcases List.mem_cons.1 h' with h' | h'
              · cases h'; exact ha k m (by simp)
              · exact g3 k' m' h'
            · intro path
              refine ⟨id, fun _ _ => id, fun d h => ⟨d, h, fun hE => ?_, fun _ => rfl⟩⟩
              exact absurd hlat (hE k (by simp))
          · obtain ⟨m', e1, e2, e3⟩ := hi k m (by simp) (ha k m (by simp))
            refine ⟨(k, m') :: ks', ?_, fun _ => by simp, ?_, .cons ⟨rfl, ?_⟩ g4⟩
            · simp only [Mask.mapLeavesKids, hlat, if_false, e1, g1]
            · intro k' m'' h'
              rcases List.mem_cons.1 h' with h' | h'
              · cases h'; exact e2
              · exact g3 k' m'' h'
            · intro path
              obtain ⟨c1, c2, c3⟩ := e3 path
              refine ⟨c1, c2, fun d hd => ?_⟩
              obtain ⟨d', q1, q2, q3⟩ := c3 d hd
              have : NoLatent (k :: path) ↔ NoLatent path := by
                unfold NoLatent
                simp [hlat]
              exact ⟨d', q1, fun h => q2 (this.1 h), fun h => q3 (fun h' => h (this.2 h'))⟩
      obtain ⟨ks', g1, g2, g3, g4⟩ := hkids ks ih hk
      exact ⟨.grp op ks', by simp only [Mask.mapLeaves, g1], .group hop (g2 hne) g3,
        mapsIf_grp (E' := NoLatent) op g4 (fun _ _ => Iff.rfl)⟩

theorem mapTop_spec {n : Nat} (f : List Bool → Py (List Bool)) (R : List Bool → List Bool → Prop)
    (hf : ∀ d, d.length = n → ∃ d', f d = .ok d' ∧ d'.length = n ∧ R d d') (ks : Dict Mask)
    (h : Aggregable n (.grp .or ks)) :
    ∃ ks', mapTop f ks = .ok ks' ∧ Aggregable n (.grp .or ks') ∧
      MapsIf LeafPath R (.grp .or ks) (.grp .or ks') := by
  cases h with
  | group hop hne hk =>
    have hkids : ∀ ks : List (String × Mask), (∀ k m, (k, m) ∈ ks → Aggregable n m) →
        ∃ ks', mapTop f ks = .ok ks' ∧ (ks ≠ [] → ks' ≠ []) ∧
          (∀ k m, (k, m) ∈ ks' → Aggregable n m) ∧
          List.Forall₂ (fun (p q : String × Mask) => p.1 = q.1 ∧
            MapsIf (fun path => LeafPath (p.1 :: path)) R p.2 q.2) ks ks' := by
      intro ks
      induction ks with
      | nil => exact fun _ => ⟨[], rfl, fun h => h, by simp, .nil⟩
      | cons p ks ihk =>
        intro ha
        obtain ⟨k, m⟩ := p
        obtain ⟨ks', g1, _, g3, g4⟩ := ihk (fun k m h => ha k m (by simp [h]))
        obtain ⟨m', e1, e2, e3⟩ := mapLeaves_spec f R hf m (ha k m (by simp))
        refine ⟨(k, m') :: ks', ?_, fun _ => by simp, ?_, .cons ⟨rfl, e3⟩ g4⟩
        · simp only [mapTop, e1, g1]
        · intro k' m'' h'
          rcases List.mem_cons.1 h' with h' | h'
          · cases h'; exact e2
          · exact g3 k' m'' h'
    obtain ⟨ks', g1, g2, g3, g4⟩ := hkids ks hk
    exact ⟨ks', g1, .group hop (g2 hne) g3, mapsIf_grp (E' := LeafPath) .or g4 (fun _ _ => Iff.rfl)⟩

theorem partitionLoop_spec {M R : Type} [LinearOrder R] (dist : M → M → R) (pmu : List M)
    (final : List Bool) (es : List (Int × Int)) (hp : pmu.length = es.length)
    (hf : final.length = es.length) (vs : List Int) (hier : Dict Mask)
    (h : Aggregable es.length (.grp .or hier)) :
    ∃ out, partitionLoop dist pmu final es (vs.map (fun v => (v, es.map (fun e => v == e.2)))) hier =
        .ok out ∧ Aggregable es.length (.grp .or out) ∧
      MapsIf LeafPath (LeafSteps dist pmu final es vs) (.grp .or hier) (.grp .or out) := by
  induction vs generalizing hier with
  | nil => exact ⟨hier, rfl, h, mapsIf_refl _ _ (fun _ => .nil) _⟩
  | cons v vs ih =>
    obtain ⟨vd, v1, v2, v3⟩ := vertexDesc_mask es v
    obtain ⟨h', m1, m2, m3⟩ := mapTop_spec
      (partitionLeaf dist pmu final es v (es.map (fun e => v == e.2)) vd)
      (LeafStep dist pmu final es v) (fun d hd => by
        obtain ⟨d', e1, e2⟩ := partitionLeaf_spec dist pmu final es v vd d hp hf hd v2 v3
        exact ⟨d', e1, e2.len.trans hd, e2⟩) hier h
    obtain ⟨out, o1, o2, o3⟩ := ih h' m2
    refine ⟨out, ?_, o2, mapsIf_trans (fun a b c h1 h2 => .cons h1 h2) m3 o3⟩
    simp only [List.map_cons, partitionLoop, v1, m1, o1]

/-- what a sequence of vertices does to a leaf, when final particles enter none of them -/
theorem leafSteps_spec {M R : Type} [LinearOrder R] {dist : M → M → R} {pmu : List M}
    {final : List Bool} {es : List (Int × Int)} {vs : List Int} {d d' : List Bool}
    (h : LeafSteps dist pmu final es vs d d')
    (hno : ∀ v ∈ vs, ∀ p : Nat, Enters es v p → final[p]? ≠ some true) :
    d'.length = d.length ∧ (∀ p : Nat, final[p]? ≠ some true → d'[p]? = d[p]?) ∧
    (∀ i : Nat, (∀ v ∈ vs, ¬ (HadronOf es final v i ∧ Incident es v d)) → d'[i]? = d[i]?) ∧
    (∀ (i : Nat) (pre post : List Int) (v : Int), vs = pre ++ v :: post → HadronOf es final v i →
      Incident es v d → (∀ w ∈ post, ¬ (HadronOf es final w i ∧ Incident es w d)) →
      ∃ p, Nearest dist pmu es v i p ∧ (d'[i]? = some true ↔ d[p]? = some true)) := by
  induction h with
  | nil =>
    refine ⟨rfl, fun _ _ => rfl, fun _ _ => rfl, ?_⟩
    intro i pre post v h
    cases pre <;> simp at h
  | @cons v vs d d' d'' h1 h2 ih =>
    obtain ⟨i1, i2, i3, i4⟩ := ih (fun w hw => hno w (by simp [hw]))
    have hstep : ∀ p : Nat, final[p]? ≠ some true → d'[p]? = d[p]? :=
      fun p hp => h1.same p (fun h => hp h.1.1)
    have hinc : ∀ w ∈ vs, (Incident es w d' ↔ Incident es w d) := by
      intro w hw
      unfold Incident
      constructor
      · rintro ⟨p, e1, e2⟩
        exact ⟨p, by rw [← hstep p (hno w (by simp [hw]) p e2)]; exact e1, e2⟩
      · rintro ⟨p, e1, e2⟩
        exact ⟨p, by rw [hstep p (hno w (by simp [hw]) p e2)]; exact e1, e2⟩
    refine ⟨i1.trans h1.len, fun p hp => (i2 p hp).trans (hstep p hp), ?_, ?_⟩
    · intro i hi
      rw [i3 i (fun w hw hh => hi w (by simp [hw]) ⟨hh.1, (hinc w hw).1 hh.2⟩)]
      exact h1.same i (hi v (by simp))
    · intro i pre post w hvs hh hw hpost
      cases pre with
      | nil =>
        simp only [List.nil_append, List.cons.injEq] at hvs
        obtain ⟨rfl, rfl⟩ := hvs
        obtain ⟨p, hp1, hp2⟩ := h1.near i hh hw
        refine ⟨p, hp1, ?_⟩
        rw [i3 i (fun u hu hh' => hpost u hu ⟨hh'.1, (hinc u hu).1 hh'.2⟩)]
        exact hp2
      | cons v' pre =>
        simp only [List.cons_append, List.cons.injEq] at hvs
        obtain ⟨rfl, rfl⟩ := hvs
        obtain ⟨p, hp1, hp2⟩ := i4 i pre post w rfl hh ((hinc w (by simp)).2 hw)
          (fun u hu hh' => hpost u hu ⟨hh'.1, (hinc u (by simp [hu])).1 hh'.2⟩)
        refine ⟨p, hp1, ?_⟩
        rw [hp2, hstep p (hno w (by simp) p hp1.1)]

theorem hadronVtxPartons_spec (es : List (Int × Int)) (fh : List Bool) (hl : fh.length = es.length)
    (vs : List Int) : hadronVtxPartons es fh vs =
      .ok ((vs.filter (fun v => (List.zipWith (· && ·) (es.map (fun e => v == e.2)) fh).any id)).map
        (fun v => (v, es.map (fun e => v == e.2)))) := by
  induction vs with
  | nil => rfl
  | cons v vs ih =>
    simp only [hadronVtxPartons]
    rw [bcast2_eq_length _ (by simp [hl])]
    simp only [ih, List.filter_cons]
    split <;> simp_all

theorem overlap_iff (es : List (Int × Int)) (fh : List Bool) (v : Int) :
    (List.zipWith (· && ·) (es.map (fun e => v == e.2)) fh).any id = true ↔ Incident es v fh := by
  rw [List.any_eq_true]
  unfold Incident
  constructor
  · rintro ⟨b, hb, hb'⟩
    simp only [id] at hb'
    subst hb'
    obtain ⟨p, hp⟩ := List.mem_iff_getElem?.1 hb
    rw [List.getElem?_zipWith] at hp
    rcases h1 : (es.map (fun e => v == e.2))[p]? with _ | a
    · rw [h1] at hp; simp at hp
    · rcases h2 : fh[p]? with _ | b
      · rw [h1, h2] at hp; simp at hp
      · rw [h1, h2] at hp
        simp only [Option.some.injEq, Bool.and_eq_true] at hp
        refine ⟨p, by rw [h2, hp.2], (enters_iff es v p).2 (by rw [h1, hp.1])⟩
  · rintro ⟨p, h1, h2⟩
    refine ⟨true, List.mem_iff_getElem?.2 ⟨p, ?_⟩, rfl⟩
    rw [List.getElem?_zipWith, (enters_iff es v p).1 h2, h1]
    rfl

/-- a leaf of a tree of `or` groups is part of the aggregate -/
theorem holds_of_leaf {p : Nat} (path : List String) : ∀ (m : Mask) (d : List Bool), AllAgg .or m →
    look m path = some (.leaf d) → d[p]? = some true → Holds p m := by
  induction path with
  | nil =>
    intro m d _ hl hp
    cases m with
    | arr d' =>
      simp only [look_nil, node, Option.some.injEq, Node.leaf.injEq] at hl
      subst hl
      exact .leaf hp
    | grp op ks => simp [look_nil, node] at hl
  | cons k path ih =>
    intro m d ha hl hp
    cases m with
    | arr d' => simp [look_cons, child] at hl
    | grp op ks =>
      have hop : op = .or := ha [] op (ks.map Prod.fst) rfl
      subst hop
      rw [look_cons, child_grp] at hl
      obtain ⟨c, h1, h2⟩ := Option.bind_eq_some_iff.1 hl
      refine .any (Dict.mem_of_get? h1) (ih c d ?_ h2 hp)
      intro q op' ks' hq
      exact ha (k :: q) op' ks' (by rw [look_cons, child_grp, h1]; exact hq)

end Gcl
