import Mathlib.Data.List.Forall2
import Verif.Model.Mask
import Verif.Spec.Mask
import Verif.Lemmas.Basic
/-! # Lemmas about mask trees -/
namespace Gcl
set_option autoImplicit false
open Spec

/-- Structural induction over mask trees. -/
theorem Mask.ind {P : Mask → Prop} (ha : ∀ d, P (.arr d))
    (hg : ∀ op ks, (∀ k m, (k, m) ∈ ks → P m) → P (.grp op ks)) : ∀ m, P m := by
  intro m
  refine Mask.rec (motive_1 := P) (motive_2 := fun ks => ∀ k m, (k, m) ∈ ks → P m)
    (motive_3 := fun p => P p.2) ha hg ?_ ?_ ?_ m
  · intro k m h; cases h
  · intro p r ih1 ih2 k m h
    cases h with
    | head => exact ih1
    | tail _ h => exact ih2 k m h
  · intro a b ih; exact ih

theorem child_grp (op : Agg) (ks : List (String × Mask)) (k : String) :
    child (.grp op ks) k = Dict.get? ks k := (Dict.get?_eq_find ks k).symm

theorem look_nil (m : Mask) : look m [] = some (node m) := rfl

theorem look_cons (m : Mask) (k : String) (p : List String) :
    look m (k :: p) = (child m k).bind (fun c => look c p) := by
  unfold look
  show Option.map node ((child m k).bind _) = _
  cases child m k <;> rfl

theorem Spec.UniqueKeys.keys {op : Agg} {ks : List (String × Mask)} (h : UniqueKeys (.grp op ks)) :
    (Dict.keys ks).Nodup := h [] op (ks.map Prod.fst) rfl

theorem Spec.UniqueKeys.kid {op : Agg} {ks : List (String × Mask)} (h : UniqueKeys (.grp op ks))
    {k : String} {m : Mask} (hm : (k, m) ∈ ks) : UniqueKeys m := by
  intro p op' ks' hp
  refine h (k :: p) op' ks' ?_
  rw [look_cons, child_grp, Dict.get?_of_mem h.keys hm]
  exact hp

theorem uniqueKeys_arr (d : List Bool) : UniqueKeys (.arr d) := by
  intro p op ks h
  cases p with
  | nil => simp [look, at?, node] at h
  | cons k p => simp [look_cons, child] at h

theorem uniqueKeys_grp {op : Agg} {ks : List (String × Mask)} (h1 : (Dict.keys ks).Nodup)
    (h2 : ∀ k m, (k, m) ∈ ks → UniqueKeys m) : UniqueKeys (.grp op ks) := by
  intro p op' ks' h
  cases p with
  | nil =>
    simp only [look_nil, node, Option.some.injEq, Node.group.injEq] at h
    rw [← h.2]; exact h1
  | cons k p =>
    rw [look_cons, child_grp] at h
    cases hg : Dict.get? ks k with
    | none => simp [hg] at h
    | some m =>
      simp only [hg, Option.bind_some] at h
      exact h2 k m (Dict.mem_of_get? hg) p op' ks' h

theorem allAgg_arr {op : Agg} (d : List Bool) : AllAgg op (.arr d) := by
  intro p op' ks h
  cases p with
  | nil => simp [look, at?, node] at h
  | cons k p => simp [look_cons, child] at h

theorem allAgg_grp {op : Agg} {ks : List (String × Mask)}
    (h2 : ∀ k m, (k, m) ∈ ks → AllAgg op m) : AllAgg op (.grp op ks) := by
  intro p op' ks' h
  cases p with
  | nil =>
    simp only [look_nil, node, Option.some.injEq, Node.group.injEq] at h
    exact h.1.symm
  | cons k p =>
    rw [look_cons, child_grp] at h
    cases hg : Dict.get? ks k with
    | none => simp [hg] at h
    | some m =>
      simp only [hg, Option.bind_some] at h
      exact h2 k m (Dict.mem_of_get? hg) p op' ks' h

/-! ## Aggregation -/

theorem dataKids_ok_iff (ks : List (String × Mask)) (rows : List (List Bool)) :
    Mask.dataKids ks = .ok rows ↔
      List.Forall₂ (fun (p : String × Mask) r => p.2.data = .ok r) ks rows := by
  induction ks generalizing rows with
  | nil =>
    simp only [Mask.dataKids, Except.ok.injEq]
    constructor
    · rintro rfl; exact .nil
    · rintro h; cases h; rfl
  | cons p ks ih =>
    obtain ⟨k, m⟩ := p
    simp only [Mask.dataKids]
    constructor
    · intro h
      split at h
      · cases h
      · rename_i d hd
        split at h
        · cases h
        · rename_i ds hds
          cases h
          exact .cons hd ((ih ds).1 hds)
    · intro h
      cases h with
      | cons h1 h2 =>
        rw [(ih _).2 h2]
        simp only at h1
        rw [h1]

theorem dataKids_length {ks : List (String × Mask)} {rows : List (List Bool)}
    (h : Mask.dataKids ks = .ok rows) : rows.length = ks.length :=
  ((dataKids_ok_iff ks rows).1 h).length_eq.symm

theorem reduceRows_ok_iff (f : Bool → Bool → Bool) (rows : List (List Bool)) (d : List Bool) :
    reduceRows f rows = .ok d ↔
      ∃ r rs, rows = r :: rs ∧ (∀ x ∈ rs, x.length = r.length) ∧
        d = rs.foldl (List.zipWith f) r := by
  cases rows with
  | nil => simp [reduceRows]
  | cons r rs =>
    simp only [reduceRows]
    split
    · rename_i h
      simp only [List.all_eq_true, beq_iff_eq] at h
      simp only [Except.ok.injEq]
      constructor
      · intro e; exact ⟨r, rs, rfl, h, e.symm⟩
      · rintro ⟨r', rs', e, _, e2⟩
        cases e; exact e2.symm
    · rename_i h
      simp only [List.all_eq_true, beq_iff_eq] at h
      constructor
      · intro e; cases e
      · rintro ⟨r', rs', e, h2, _⟩
        cases e; exact absurd h2 h

theorem foldl_zipWith_length (f : Bool → Bool → Bool) (r : List Bool) (rs : List (List Bool))
    (h : ∀ x ∈ rs, x.length = r.length) : (rs.foldl (List.zipWith f) r).length = r.length := by
  induction rs generalizing r with
  | nil => rfl
  | cons x rs ih =>
    have hx : x.length = r.length := h x (by simp)
    have hl : (List.zipWith f r x).length = r.length := by simp [hx]
    rw [List.foldl_cons, ih, hl]
    intro y hy
    rw [hl]; exact h y (by simp [hy])

/-- Entry `i` of a reduction is the fold of entries `i`. -/
theorem foldl_zipWith_getElem (f : Bool → Bool → Bool) (r : List Bool) (rs : List (List Bool))
    (h : ∀ x ∈ rs, x.length = r.length) (i : Nat) :
    (rs.foldl (List.zipWith f) r)[i]? =
      r[i]?.map (fun b => rs.foldl (fun acc x => f acc (x[i]?.getD false)) b) := by
  induction rs generalizing r with
  | nil => simp
  | cons x rs ih =>
    have hx : x.length = r.length := h x (by simp)
    have hl : (List.zipWith f r x).length = r.length := by simp [hx]
    rw [List.foldl_cons, ih]
    · rw [List.getElem?_zipWith]
      by_cases hi : i < r.length
      · have hi' : i < x.length := by omega
        simp [List.getElem?_eq_getElem hi, List.getElem?_eq_getElem hi']
      · have hi' : ¬ i < x.length := by omega
        simp [List.getElem?_eq_none (Nat.le_of_not_lt hi)]
    · intro y hy
      rw [hl]; exact h y (by simp [hy])

theorem foldl_and_eq (rs : List (List Bool)) (i : Nat) (b : Bool) :
    (rs.foldl (fun acc x => acc && (x[i]?.getD false)) b) = true ↔
      b = true ∧ ∀ x ∈ rs, x[i]?.getD false = true := by
  induction rs generalizing b with
  | nil => simp
  | cons x rs ih => simp [ih, and_assoc]

theorem foldl_or_eq (rs : List (List Bool)) (i : Nat) (b : Bool) :
    (rs.foldl (fun acc x => acc || (x[i]?.getD false)) b) = true ↔
      b = true ∨ ∃ x ∈ rs, x[i]?.getD false = true := by
  induction rs generalizing b with
  | nil => simp
  | cons x rs ih => simp [ih, or_assoc]

theorem reduce_and_spec {rows : List (List Bool)} {d : List Bool}
    (h : reduceRows (· && ·) rows = .ok d) :
    rows ≠ [] ∧ (∀ x ∈ rows, x.length = d.length) ∧
      ∀ i, i < d.length → (d[i]?.getD false = true ↔ ∀ x ∈ rows, x[i]?.getD false = true) := by
  obtain ⟨r, rs, rfl, hl, rfl⟩ := (reduceRows_ok_iff _ _ _).1 h
  have hlen := foldl_zipWith_length (· && ·) r rs hl
  refine ⟨by simp, ?_, ?_⟩
  · intro x hx
    rw [hlen]
    rcases List.mem_cons.1 hx with rfl | hx
    · rfl
    · exact hl x hx
  · intro i hi
    rw [hlen] at hi
    rw [foldl_zipWith_getElem _ _ _ hl, List.getElem?_eq_getElem hi]
    simp only [Option.map_some, Option.getD_some, foldl_and_eq, List.mem_cons, forall_eq_or_imp,
      List.getElem?_eq_getElem hi]

theorem reduce_or_spec {rows : List (List Bool)} {d : List Bool}
    (h : reduceRows (· || ·) rows = .ok d) :
    rows ≠ [] ∧ (∀ x ∈ rows, x.length = d.length) ∧
      ∀ i, i < d.length → (d[i]?.getD false = true ↔ ∃ x ∈ rows, x[i]?.getD false = true) := by
  obtain ⟨r, rs, rfl, hl, rfl⟩ := (reduceRows_ok_iff _ _ _).1 h
  have hlen := foldl_zipWith_length (· || ·) r rs hl
  refine ⟨by simp, ?_, ?_⟩
  · intro x hx
    rw [hlen]
    rcases List.mem_cons.1 hx with rfl | hx
    · rfl
    · exact hl x hx
  · intro i hi
    rw [hlen] at hi
    rw [foldl_zipWith_getElem _ _ _ hl, List.getElem?_eq_getElem hi]
    simp only [Option.map_some, Option.getD_some, foldl_or_eq, List.mem_cons, exists_eq_or_imp,
      List.getElem?_eq_getElem hi]

theorem reduceRows_ok_of {f : Bool → Bool → Bool} {rows : List (List Bool)} {n : Nat}
    (h0 : rows ≠ []) (h : ∀ x ∈ rows, x.length = n) :
    ∃ d, reduceRows f rows = .ok d ∧ d.length = n := by
  cases rows with
  | nil => exact absurd rfl h0
  | cons r rs =>
    have hr : r.length = n := h r (by simp)
    have hl : ∀ x ∈ rs, x.length = r.length := fun x hx => by rw [hr]; exact h x (by simp [hx])
    refine ⟨_, (reduceRows_ok_iff _ _ _).2 ⟨r, rs, rfl, hl, rfl⟩, ?_⟩
    rw [foldl_zipWith_length _ _ _ hl, hr]

theorem forall₂_mem_left {α β : Type} {R : α → β → Prop} {xs : List α} {ys : List β}
    (h : List.Forall₂ R xs ys) {x : α} (hx : x ∈ xs) : ∃ y ∈ ys, R x y := by
  induction h with
  | nil => cases hx
  | cons h1 _ ih =>
    rcases List.mem_cons.1 hx with rfl | hx
    · exact ⟨_, by simp, h1⟩
    · obtain ⟨y, hy, hr⟩ := ih hx
      exact ⟨y, by simp [hy], hr⟩

theorem forall₂_mem_right {α β : Type} {R : α → β → Prop} {xs : List α} {ys : List β}
    (h : List.Forall₂ R xs ys) {y : β} (hy : y ∈ ys) : ∃ x ∈ xs, R x y := by
  induction h with
  | nil => cases hy
  | cons h1 _ ih =>
    rcases List.mem_cons.1 hy with rfl | hy
    · exact ⟨_, by simp, h1⟩
    · obtain ⟨x, hx, hr⟩ := ih hy
      exact ⟨x, by simp [hx], hr⟩

theorem dataKids_ok_of {n : Nat} {ks : List (String × Mask)}
    (h : ∀ k m, (k, m) ∈ ks → ∃ d, m.data = .ok d ∧ d.length = n) :
    ∃ rows, Mask.dataKids ks = .ok rows ∧ ∀ x ∈ rows, x.length = n := by
  induction ks with
  | nil => exact ⟨[], rfl, by simp⟩
  | cons p ks ih =>
    obtain ⟨k, m⟩ := p
    obtain ⟨d, hd, hl⟩ := h k m (by simp)
    obtain ⟨rows, hr, hrl⟩ := ih (fun k' m' hm => h k' m' (by simp [hm]))
    refine ⟨d :: rows, by simp [Mask.dataKids, hd, hr], ?_⟩
    intro x hx
    rcases List.mem_cons.1 hx with rfl | hx
    · exact hl
    · exact hrl x hx

theorem aggregable_data {n : Nat} {m : Mask} (h : Aggregable n m) :
    ∃ d, m.data = .ok d ∧ d.length = n := by
  induction h with
  | leaf h => exact ⟨_, rfl, h⟩
  | @group op ks hop hne _ ih =>
    obtain ⟨rows, hr, hrl⟩ := dataKids_ok_of ih
    have h0 : rows ≠ [] := by
      intro e; subst e
      have := dataKids_length hr
      simp only [List.length_nil] at this
      exact hne (List.length_eq_zero_iff.1 this.symm)
    cases op with
    | none => exact absurd rfl hop
    | and =>
      obtain ⟨d, hd, hl⟩ := reduceRows_ok_of (f := (· && ·)) h0 hrl
      exact ⟨d, by simp [Mask.data, hr, hd], hl⟩
    | or =>
      obtain ⟨d, hd, hl⟩ := reduceRows_ok_of (f := (· || ·)) h0 hrl
      exact ⟨d, by simp [Mask.data, hr, hd], hl⟩

theorem data_grp_and {ks : List (String × Mask)} {d : List Bool}
    (h : (Mask.grp .and ks).data = .ok d) :
    ∃ rows, Mask.dataKids ks = .ok rows ∧ reduceRows (· && ·) rows = .ok d := by
  simp only [Mask.data] at h
  split at h
  · rename_i rows hr; exact ⟨rows, hr, h⟩
  · cases h

theorem data_grp_or {ks : List (String × Mask)} {d : List Bool}
    (h : (Mask.grp .or ks).data = .ok d) :
    ∃ rows, Mask.dataKids ks = .ok rows ∧ reduceRows (· || ·) rows = .ok d := by
  simp only [Mask.data] at h
  split at h
  · rename_i rows hr; exact ⟨rows, hr, h⟩
  · cases h

theorem getD_eq_true_iff {d : List Bool} {i : Nat} :
    d[i]?.getD false = true ↔ d[i]? = some true := by
  cases h : d[i]? with
  | none => simp
  | some b => simp

theorem data_isAggregate (m : Mask) :
    ∀ d, m.data = .ok d → Aggregable d.length m ∧
      ∀ i, i < d.length → (d[i]?.getD false = true ↔ Holds i m) := by
  induction m using Mask.ind with
  | ha d =>
    intro d' h
    cases h
    refine ⟨.leaf rfl, fun i _ => ?_⟩
    rw [getD_eq_true_iff]
    exact ⟨.leaf, fun h => by cases h with | leaf h => exact h⟩
  | hg op ks ih =>
    intro d h
    cases op with
    | none => simp [Mask.data] at h
    | and =>
      obtain ⟨rows, hr, hd⟩ := data_grp_and h
      obtain ⟨hne, hl, hi⟩ := reduce_and_spec hd
      have hf := (dataKids_ok_iff ks rows).1 hr
      refine ⟨.group (by simp) ?_ ?_, ?_⟩
      · rintro rfl; cases hf; exact hne rfl
      · intro k m hm
        obtain ⟨r, hr1, hr2⟩ := forall₂_mem_left hf hm
        have := (ih k m hm r hr2).1
        rwa [hl r hr1] at this
      · intro i hlt
        rw [hi i hlt]
        constructor
        · intro hall
          refine .all (fun k m hm => ?_)
          obtain ⟨r, hr1, hr2⟩ := forall₂_mem_left hf hm
          exact ((ih k m hm r hr2).2 i (by rw [hl r hr1]; exact hlt)).1 (hall r hr1)
        · intro hh x hx
          cases hh with
          | all hall =>
            obtain ⟨⟨k, m⟩, hkm, he⟩ := forall₂_mem_right hf hx
            exact ((ih k m hkm x he).2 i (by rw [hl x hx]; exact hlt)).2 (hall k m hkm)
    | or =>
      obtain ⟨rows, hr, hd⟩ := data_grp_or h
      obtain ⟨hne, hl, hi⟩ := reduce_or_spec hd
      have hf := (dataKids_ok_iff ks rows).1 hr
      refine ⟨.group (by simp) ?_ ?_, ?_⟩
      · rintro rfl; cases hf; exact hne rfl
      · intro k m hm
        obtain ⟨r, hr1, hr2⟩ := forall₂_mem_left hf hm
        have := (ih k m hm r hr2).1
        rwa [hl r hr1] at this
      · intro i hlt
        rw [hi i hlt]
        constructor
        · rintro ⟨x, hx, hxi⟩
          obtain ⟨⟨k, m⟩, hkm, he⟩ := forall₂_mem_right hf hx
          exact .any hkm (((ih k m hkm x he).2 i (by rw [hl x hx]; exact hlt)).1 hxi)
        · intro hh
          cases hh with
          | any hkm hm =>
            obtain ⟨r, hr1, hr2⟩ := forall₂_mem_left hf hkm
            exact ⟨r, hr1, ((ih _ _ hkm r hr2).2 i (by rw [hl r hr1]; exact hlt)).2 hm⟩

theorem data_ok_isAggregate {m : Mask} {d : List Bool} (h : m.data = .ok d) : IsAggregate m d := by
  obtain ⟨h1, h2⟩ := data_isAggregate m d h
  refine ⟨h1, fun i hi => ?_⟩
  have := h2 i hi
  rw [List.getElem?_eq_getElem hi] at this
  simpa using this

theorem isAggregate_unique {m : Mask} {d d' : List Bool} (h : IsAggregate m d)
    (hl : d.length = d'.length) (h' : IsAggregate m d') : d = d' := by
  apply List.ext_getElem hl
  intro i h1 h2
  have a := h.2 i h1
  have b := h'.2 i h2
  rw [Bool.eq_iff_iff, a, b]

end Gcl
