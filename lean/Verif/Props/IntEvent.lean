import Verif.Model.IntEvent
import Verif.Props.Iter
/-! # C128: one record of an event, and iterating over an event -/
namespace Gcl
set_option autoImplicit false
open Spec

/-- Every attribute is empty or in the usual layout, one row per record. -/
def Laid {α : Type} (e : NdEvent α) : Prop := ∀ a, (e a).shape.head? = some 0 ∨ ∃ n, Stored a.kind n (e a)

/-- The integer `i` is a position of an array of length `n`, counted from the start or from the end. -/
def InRange (n : Nat) (i : Int) : Prop := -(n : Int) ≤ i ∧ i < n

/-- `b` is the array that keeps record `j` of `a` only; of a `ColorArray` this is a flat buffer of length two. -/
structure OneRecord {α : Type} (k : Kind) (a b : Nd α) (j : Nat) : Prop where
  record : ∃ r, (records k a)[j]? = some r ∧ records k b = [r]
  len : b.len = if k = .color then 2 else 1

theorem all_attrs (a : Attr) : a ∈ particleAttrs ++ [.adj] := by cases a <;> decide

theorem attrs_nodup : (particleAttrs ++ [Attr.adj]).Nodup := by decide

theorem Laid.stored {α : Type} {e : NdEvent α} (hl : Laid e) (a : Attr) (ha : (e a).len ≠ 0) :
    Stored a.kind (e a).len (e a) := by
  rcases hl a with h | ⟨n, h⟩
  · exact absurd (by simp only [Nd.len, List.headD_eq_head?_getD, h]; rfl) ha
  · have : (e a).len = n := by
      simp only [Nd.len, h.1]
      cases a.kind <;> rfl
    rw [this]; exact h

theorem getInt_in {α : Type} {e : NdEvent α} (hl : Laid e) (a : Attr) (ha : (e a).len ≠ 0) (i : Int) (j : Nat)
    (hj : Denotes (e a).len i j) : ∃ b, getInt a.kind (e a) i = .ok b ∧ OneRecord a.kind (e a) b j := by
  have hs := hl.stored a ha
  by_cases hc : a.kind = .color
  · rw [hc] at hs ⊢
    obtain ⟨b, r, h1, h2, h3, h4⟩ := (C19_color _ _ hs i).1 j hj.1 hj.2
    exact ⟨b, h1, ⟨r, h3, h4⟩, by rw [h2]; rfl⟩
  · obtain ⟨b, r, h1, h2, h3, h4⟩ := (C19_getitem_int _ hc _ _ hs i).1 j hj.1 hj.2
    exact ⟨b, h1, ⟨r, h3, h4⟩, by rw [h2, if_neg hc]⟩

theorem getInt_out {α : Type} {e : NdEvent α} (hl : Laid e) (a : Attr) (ha : (e a).len ≠ 0) (i : Int)
    (hi : ¬ InRange (e a).len i) : getInt a.kind (e a) i = .error .indexError := by
  have hs := hl.stored a ha
  have hr : i < -((e a).len : Int) ∨ ((e a).len : Int) ≤ i := by unfold InRange at hi; omega
  by_cases hc : a.kind = .color
  · rw [hc] at hs ⊢
    exact (C19_color _ _ hs i).2 hr
  · exact (C19_getitem_int _ hc _ _ hs i).2 hr

theorem getAttrs_ok {α : Type} {e : NdEvent α} (hl : Laid e) (i : Int) (as : List Attr) (hn : as.Nodup) (h : NdEvent α)
    (hi : ∀ a ∈ as, (e a).len ≠ 0 → InRange (e a).len i) :
    ∃ g, getAttrs e i h as = .ok g ∧ (∀ a, a ∉ as → g a = h a) ∧
      ∀ a ∈ as, ((e a).len = 0 → g a = h a) ∧
        ((e a).len ≠ 0 → ∃ j, Denotes (e a).len i j ∧ OneRecord a.kind (e a) (g a) j) := by
  induction as generalizing h with
  | nil => exact ⟨h, rfl, fun _ _ => rfl, by simp⟩
  | cons a as ih =>
    obtain ⟨hna, hns⟩ := List.nodup_cons.1 hn
    by_cases ha : (e a).len = 0
    · obtain ⟨g, h1, h2, h3⟩ := ih hns h (fun x hx => hi x (List.mem_cons_of_mem _ hx))
      refine ⟨g, by simp only [getAttrs, ha, if_true]; exact h1, ?_, ?_⟩
      · intro x hx; exact h2 x (fun hm => hx (List.mem_cons_of_mem _ hm))
      · intro x hx
        rcases List.mem_cons.1 hx with rfl | hx
        · exact ⟨fun _ => h2 _ hna, fun hc => absurd ha hc⟩
        · exact h3 x hx
    · have hr := hi a (by simp) ha
      have : ∃ j, Denotes (e a).len i j := by
        unfold InRange at hr; unfold Denotes
        by_cases h0 : 0 ≤ i
        · exact ⟨i.toNat, by omega, by omega⟩
        · exact ⟨(i + (e a).len).toNat, by omega, by omega⟩
      obtain ⟨j, hj⟩ := this
      obtain ⟨b, hb1, hb2⟩ := getInt_in hl a ha i j hj
      obtain ⟨g, h1, h2, h3⟩ := ih hns (h.with a b) (fun x hx => hi x (List.mem_cons_of_mem _ hx))
      have hw : ∀ x, x ≠ a → (h.with a b) x = h x := fun x hx => by simp [NdEvent.with, hx]
      refine ⟨g, by simp only [getAttrs, ha, if_false, hb1]; exact h1, ?_, ?_⟩
      · intro x hx
        rw [h2 x (fun hm => hx (List.mem_cons_of_mem _ hm)), hw x (fun hc => hx (by simp [hc]))]
      · intro x hx
        rcases List.mem_cons.1 hx with rfl | hx
        · refine ⟨fun hc => absurd hc ha, fun _ => ⟨j, hj, ?_⟩⟩
          rw [h2 _ hna]
          simpa [NdEvent.with] using hb2
        · have hxa : x ≠ a := fun hc => hna (hc ▸ hx)
          rw [← hw x hxa]
          exact h3 x hx

theorem getAttrs_err {α : Type} {e : NdEvent α} (hl : Laid e) (i : Int) (as : List Attr) (h : NdEvent α)
    (hi : ∃ a ∈ as, (e a).len ≠ 0 ∧ ¬ InRange (e a).len i) : getAttrs e i h as = .error .indexError := by
  induction as generalizing h with
  | nil => obtain ⟨a, ha, -⟩ := hi; cases ha
  | cons a as ih =>
    by_cases ha : (e a).len = 0
    · simp only [getAttrs, ha, if_true]
      apply ih
      obtain ⟨x, hx, h1, h2⟩ := hi
      rcases List.mem_cons.1 hx with rfl | hx
      · exact absurd ha h1
      · exact ⟨x, hx, h1, h2⟩
    · by_cases hr : InRange (e a).len i
      · have : ∃ j, Denotes (e a).len i j := by
          unfold InRange at hr; unfold Denotes
          by_cases h0 : 0 ≤ i
          · exact ⟨i.toNat, by omega, by omega⟩
          · exact ⟨(i + (e a).len).toNat, by omega, by omega⟩
        obtain ⟨j, hj⟩ := this
        obtain ⟨b, hb, -⟩ := getInt_in hl a ha i j hj
        simp only [getAttrs, ha, if_false, hb]
        apply ih
        obtain ⟨x, hx, h1, h2⟩ := hi
        rcases List.mem_cons.1 hx with rfl | hx
        · exact absurd hr h2
        · exact ⟨x, hx, h1, h2⟩
      · simp only [getAttrs, ha, if_false, getInt_out hl a ha i hr]

/-- **C128** `event[i]` for an integer `i`: if `i` is a position of every non-empty attribute, the result keeps that record
of each of them, and empty attributes stay empty; if it is not a position of some non-empty attribute, it raises
`IndexError`. -/
theorem C128_getitem {α : Type} (e : NdEvent α) (hl : Laid e) (i : Int) :
    ((∀ a, (e a).len ≠ 0 → InRange (e a).len i) → ∃ g, e.getInt i = .ok g ∧
      ∀ a, ((e a).len = 0 → (g a).len = 0) ∧
        ((e a).len ≠ 0 → ∃ j, Denotes (e a).len i j ∧ OneRecord a.kind (e a) (g a) j)) ∧
    ((∃ a, (e a).len ≠ 0 ∧ ¬ InRange (e a).len i) → e.getInt i = .error .indexError) := by
  constructor
  · intro hi
    obtain ⟨g, h1, -, h3⟩ := getAttrs_ok hl i _ attrs_nodup emptyEvent (fun a _ => hi a)
    refine ⟨g, h1, fun a => ⟨fun h0 => ?_, (h3 a (all_attrs a)).2⟩⟩
    rw [(h3 a (all_attrs a)).1 h0]
    cases a <;> rfl
  · rintro ⟨a, h1, h2⟩
    exact getAttrs_err hl i _ _ ⟨a, all_attrs a, h1, h2⟩

theorem nexts_ended {β : Type} (get : Int → Py β) (k m : Nat) : nexts get ⟨k, true⟩ m = List.replicate m .stop := by
  induction m with
  | zero => rfl
  | succ m ih => simp only [nexts, SeqIter.next, if_true, List.replicate_succ, ih]

theorem nexts_items {β : Type} (get : Int → Py β) (xs : List β) (k : Nat)
    (h : ∀ i (hi : i < xs.length), get ((k + i : Nat) : Int) = .ok xs[i])
    (hend : get ((k + xs.length : Nat) : Int) = .error .indexError) (m : Nat) :
    nexts get ⟨k, false⟩ (xs.length + m) = xs.map .item ++ List.replicate m .stop := by
  induction xs generalizing k with
  | nil =>
    simp only [List.length_nil, Nat.add_zero] at hend
    cases m with
    | zero => rfl
    | succ m =>
      rw [show ([] : List β).length + (m + 1) = m + 1 by simp]
      simp only [nexts, SeqIter.next, hend, Bool.false_eq_true, if_false, List.map_nil,
        List.nil_append, List.replicate_succ, nexts_ended]
  | cons x xs ih =>
    have h0 := h 0 (by simp)
    simp only [Nat.add_zero, List.getElem_cons_zero] at h0
    have e : (x :: xs).length + m = (xs.length + m) + 1 := by simp; omega
    rw [e]
    simp only [nexts, SeqIter.next, h0, Bool.false_eq_true, if_false, List.map_cons, List.cons_append]
    rw [ih (k + 1)]
    · intro i hi
      have := h (i + 1) (by simp; omega)
      rw [show k + 1 + i = k + (i + 1) by omega]
      simpa using this
    · rw [show k + 1 + xs.length = k + (x :: xs).length by simp; omega]
      exact hend

/-- **C128** Iterating over an event that is not empty gives as many items as its shortest non-empty attribute has
records, namely `event[0]`, `event[1]`, ..., and then ends, for good. -/
theorem C128_iter {α : Type} (e : NdEvent α) (hl : Laid e) (n : Nat) (h1 : ∀ a, (e a).len ≠ 0 → n ≤ (e a).len)
    (h2 : ∃ a, (e a).len ≠ 0 ∧ (e a).len = n) :
    ∃ xs : List (NdEvent α), xs.length = n ∧ (∀ i (hi : i < xs.length), e.getInt i = .ok xs[i]) ∧
      ∀ m, nexts e.getInt {} (n + m) = xs.map .item ++ List.replicate m .stop := by
  have hex : ∀ i : Nat, i < n → ∃ g, e.getInt i = .ok g := by
    intro i hi
    obtain ⟨g, hg, -⟩ := (C128_getitem e hl i).1 (fun a ha => by have := h1 a ha; unfold InRange; omega)
    exact ⟨g, hg⟩
  refine ⟨List.ofFn (fun i : Fin n => (hex i.1 i.2).choose), by simp, ?_, ?_⟩
  · intro i hi
    simp only [List.length_ofFn] at hi
    simp only [List.getElem_ofFn]
    exact (hex i hi).choose_spec
  · intro m
    have hlen : (List.ofFn (fun i : Fin n => (hex i.1 i.2).choose)).length = n := by simp
    have := nexts_items e.getInt (List.ofFn (fun i : Fin n => (hex i.1 i.2).choose)) 0 (by
      intro i hi
      simp only [List.length_ofFn] at hi
      simp only [List.getElem_ofFn, Nat.zero_add]
      exact (hex i hi).choose_spec) (by
      rw [hlen, Nat.zero_add]
      obtain ⟨a, ha, hn⟩ := h2
      exact (C128_getitem e hl n).2 ⟨a, ha, by unfold InRange; omega⟩) m
    rw [hlen] at this
    exact this

theorem getAttrs_empty {α : Type} (e : NdEvent α) (i : Int) (as : List Attr) (h : NdEvent α)
    (h0 : ∀ a, (e a).len = 0) : getAttrs e i h as = .ok h := by
  induction as generalizing h with
  | nil => rfl
  | cons a as ih => simp only [getAttrs, h0 a, if_true, ih]

/-- **C128** An empty event can be subscripted with every integer, and iterating over it never ends: each of any number
of calls of `next` gives another empty event. -/
theorem C128_endless {α : Type} (e : NdEvent α) (h0 : ∀ a, (e a).len = 0) :
    (∀ i, e.getInt i = .ok emptyEvent) ∧ ∀ m, nexts e.getInt {} m = List.replicate m (.item emptyEvent) := by
  have hg : ∀ i, e.getInt i = .ok emptyEvent := fun i => getAttrs_empty e i _ _ h0
  refine ⟨hg, fun m => ?_⟩
  have : ∀ k, nexts e.getInt ⟨k, false⟩ m = List.replicate m (.item emptyEvent) := by
    induction m with
    | zero => intro k; rfl
    | succ m ih =>
      intro k
      simp only [nexts, SeqIter.next, hg, Bool.false_eq_true, if_false, List.replicate_succ, ih]
  exact this 0

/-- **C128** `len(event)` is the length of the first attribute that is not empty, in the order pdg, pmu, color, helicity,
status, final, edges; it is zero exactly if all are empty. -/
theorem C128_len {α : Type} (e : NdEvent α) :
    ((∀ a, (e a).len = 0) → e.len = 0) ∧
    (∀ pre a post, [Attr.pdg, .pmu, .color, .helicity, .status, .final, .adj] = pre ++ a :: post →
      (∀ b ∈ pre, (e b).len = 0) → (e a).len ≠ 0 → e.len = (e a).len) := by
  refine ⟨fun h => ?_, fun pre a post hs hp ha => ?_⟩
  · simp [NdEvent.len, particleAttrs, h]
  · have hq : particleAttrs ++ [Attr.adj] = pre ++ a :: post := by rw [← hs]; rfl
    have hn : (pre.map (fun a => (e a).len)).find? (fun n => decide (0 < n)) = none := by
      simp only [List.find?_eq_none, List.mem_map]
      rintro _ ⟨b, hb, rfl⟩
      simp [hp b hb]
    rw [NdEvent.len, hq, List.map_append, List.find?_append, hn]
    simp [Nat.pos_of_ne_zero ha]

/-- Refuted: iterating over an event gives as many items as `len(event)` says, and ends. -/
theorem C128_endless_false : ¬ ∀ (e : NdEvent Nat), Laid e → ∃ xs : List (NdEvent Nat),
    ∀ m, nexts e.getInt {} (e.len + m) = xs.map .item ++ List.replicate m .stop := by
  intro h
  obtain ⟨xs, hx⟩ := h emptyEvent (fun a => .inl (by cases a <;> rfl))
  have hl : (emptyEvent : NdEvent Nat).len = 0 := rfl
  have e1 := hx (xs.length + 1)
  rw [(C128_endless emptyEvent (fun a => by cases a <;> rfl)).2, hl] at e1
  have e2 := congrArg List.getLast? e1
  simp [List.getLast?_append, List.getLast?_replicate] at e2

theorem readRow_error {α : Type} (e : NdEvent α) (a : Attr) (x : PyErr) (pre post : List Attr)
    (hp : ∀ b ∈ pre, (e b).len ≠ 0 → ∃ rs, iterate b.kind (e b) = .ok rs) (h0 : (e a).len ≠ 0)
    (ha : iterate a.kind (e a) = .error x) : readRow e (pre ++ a :: post) = .error x := by
  induction pre with
  | nil => simp only [List.nil_append, readRow, h0, if_false, ha]
  | cons b pre ih =>
    have ih' := ih (fun c hc => hp c (List.mem_cons_of_mem _ hc))
    by_cases hb : (e b).len = 0
    · simp only [List.cons_append, readRow, hb, if_true, ih']
    · obtain ⟨rs, hr⟩ := hp b (by simp) hb
      simp only [List.cons_append, readRow, hb, if_false, hr, ih']

theorem serializeAttrs_error {α : Type} (e : NdEvent α) (a : Attr) (x : PyErr) (pre post : List Attr)
    (hp : ∀ b ∈ pre, ∃ rs, serializeArr b.kind (e b) = .ok rs)
    (ha : serializeArr a.kind (e a) = .error x) : serializeAttrs e (pre ++ a :: post) = .error x := by
  induction pre with
  | nil => simp only [List.nil_append, serializeAttrs, ha]
  | cons b pre ih =>
    have ih' := ih (fun c hc => hp c (List.mem_cons_of_mem _ hc))
    obtain ⟨rs, hr⟩ := hp b (by simp)
    simp only [List.cons_append, serializeAttrs, hr, ih']

theorem getInt_color_shape {α : Type} (n : Nat) (a b : Nd α) (h : Stored .color n a) (i : Int)
    (hb : getInt .color a i = .ok b) : ∃ r : List α, r.length = 2 ∧ b = ⟨[2], r⟩ := by
  by_cases hr : i < -(n : Int) ∨ (n : Int) ≤ i
  · rw [(C19_color n a h i).2 hr] at hb; cases hb
  · have hj : ∃ j : Nat, j < n ∧ (i = (j : Int) ∨ i = (j : Int) - n) := by
      by_cases h0 : 0 ≤ i
      · exact ⟨i.toNat, by omega, by omega⟩
      · exact ⟨(i + n).toNat, by omega, by omega⟩
    obtain ⟨j, hj1, hj2⟩ := hj
    have hnorm : normIdx n i = .ok j := by rw [normIdx_ok_iff]; exact ⟨hj1, hj2⟩
    have hrow := rowAt_stored .color n a h i j hnorm
    have hlen := ((records_rows _ n a h).2 j hj1).2
    obtain ⟨hs, -⟩ := h
    simp only [Kind.cols] at hs hlen
    simp only [getInt, hrow, hs, List.tail_cons, Kind.cols] at hb
    simp [construct, convertNd, isFlat, Kind.cols] at hb
    exact ⟨_, hlen, hb.symm⟩

theorem iterate_oneRecord {α : Type} (k : Kind) (hk : k = .scalar ∨ k = .momentum) (n : Nat) (a b : Nd α) (i : Int)
    (h : Stored k n a) (hb : getInt k a i = .ok b) : ∃ rs, iterate k b = .ok rs ∧ serializeArr k b = .ok rs := by
  rcases hk with rfl | rfl
  · exact ⟨_, rfl, rfl⟩
  · by_cases hr : i < -(n : Int) ∨ (n : Int) ≤ i
    · rw [(C19_getitem_int .momentum (by simp) n a h i).2 hr] at hb; cases hb
    · have hj : ∃ j : Nat, j < n ∧ (i = (j : Int) ∨ i = (j : Int) - n) := by
        by_cases h0 : 0 ≤ i
        · exact ⟨i.toNat, by omega, by omega⟩
        · exact ⟨(i + n).toNat, by omega, by omega⟩
      obtain ⟨j, hj1, hj2⟩ := hj
      have hnorm : normIdx n i = .ok j := by rw [normIdx_ok_iff]; exact ⟨hj1, hj2⟩
      have hrow := rowAt_stored .momentum n a h i j hnorm
      have hlen := ((records_rows _ n a h).2 j hj1).2
      obtain ⟨hs, -⟩ := h
      simp only [Kind.cols] at hs hlen
      simp only [getInt, hrow, hs, List.tail_cons, Kind.cols] at hb
      simp [construct, convertNd, isFlat, Kind.cols, hlen] at hb
      subst hb
      simp [serializeArr, iterate, Kind.cols]

/-- **C128** An event in the usual layout can be serialized and printed. -/
theorem C128_whole {α : Type} (e : NdEvent α) (hl : Laid e) : (∃ s, e.serialize = .ok s) ∧ e.print = .ok () := by
  have hit : ∀ a, ∃ rs, iterate a.kind (e a) = .ok rs ∧ serializeArr a.kind (e a) = .ok rs := by
    intro a
    rcases hl a with h | ⟨n, h⟩
    · cases hk : a.kind with
      | scalar => exact ⟨_, rfl, rfl⟩
      | _ =>
        have : iterate a.kind (e a) = .ok [] := by
          rw [hk]
          revert h
          generalize e a = q
          obtain ⟨sh, fl⟩ := q
          intro h
          rcases sh with _ | ⟨n, _ | ⟨c, rest⟩⟩
          · simp at h
          · simp at h; subst h; simp [iterate]
          · simp at h; subst h; simp [iterate]
        rw [hk] at this
        exact ⟨[], this, this⟩
    · obtain ⟨rs, h1, h2, -⟩ := C94_records a.kind n (e a) h
      exact ⟨rs, h1, h2⟩
  have hser : ∀ as, ∃ s, serializeAttrs e as = .ok s := by
    intro as
    induction as with
    | nil => exact ⟨[], rfl⟩
    | cons a as ih =>
      obtain ⟨rs, -, h2⟩ := hit a
      obtain ⟨s, hs⟩ := ih
      exact ⟨(a, rs) :: s, by simp only [serializeAttrs, h2, hs]⟩
  have hrow : ∀ as, readRow e as = .ok () := by
    intro as
    induction as with
    | nil => rfl
    | cons a as ih =>
      obtain ⟨rs, h1, -⟩ := hit a
      by_cases h0 : (e a).len = 0
      · simp only [readRow, h0, if_true, ih]
      · simp only [readRow, h0, if_false, h1, ih]
  refine ⟨hser _, ?_⟩
  simp only [NdEvent.print, hrow]
  split <;> rfl

theorem getAttrs_color {α : Type} (g : NdEvent α) (i : Int) (r : List α) (hc : g .color = ⟨[2], r⟩)
    (hp : ∀ a, a = .pdg ∨ a = .pmu → (g a).len ≠ 0 →
      (∃ b, getInt a.kind (g a) i = .ok b) ∨ getInt a.kind (g a) i = .error .indexError) :
    g.getInt i = .error .indexError := by
  have hcol : getInt .color (g .color) i = .error .indexError := by
    rw [hc]
    simp only [getInt, rowAt]
    cases hn : normIdx 2 i with
    | error x =>
      have : x = .indexError := by
        unfold normIdx at hn
        split at hn
        · cases hn
        · split at hn
          · cases hn
          · cases hn; rfl
      subst this; rfl
    | ok j => simp [construct, convertNd, isFlat, Kind.cols]
  have hcl : (g .color).len ≠ 0 := by rw [hc]; simp [Nd.len]
  have step : ∀ h : NdEvent α, getAttrs g i h ([.color, .helicity, .status, .final] ++ [.adj]) = .error .indexError := by
    intro h
    simp only [List.cons_append, getAttrs, hcl, if_false, Attr.kind, hcol]
  have step2 : ∀ h : NdEvent α, getAttrs g i h (.pmu :: ([.color, .helicity, .status, .final] ++ [.adj])) =
      .error .indexError := by
    intro h
    by_cases h0 : (g .pmu).len = 0
    · rw [getAttrs, if_pos h0, step]
    · rw [getAttrs, if_neg h0]
      rcases hp .pmu (.inr rfl) h0 with ⟨b, hb⟩ | hb
      · rw [hb]; exact step _
      · rw [hb]
  show getAttrs g i emptyEvent (.pdg :: .pmu :: ([.color, .helicity, .status, .final] ++ [.adj])) = _
  by_cases h0 : (g .pdg).len = 0
  · rw [getAttrs, if_pos h0, step2]
  · rw [getAttrs, if_neg h0]
    rcases hp .pdg (.inl rfl) h0 with ⟨b, hb⟩ | hb
    · rw [hb]; exact step2 _
    · rw [hb]

/-- **C128** `event[i]` of an event with colours is not an event like the others: its `color` has length two, it can neither
be serialized nor printed (`TypeError`), it cannot be subscripted by any integer again (`IndexError`), and iterating over
it gives nothing. -/
theorem C128_color {α : Type} (e g : NdEvent α) (hl : Laid e) (hc : (e .color).len ≠ 0) (i : Int)
    (hg : e.getInt i = .ok g) :
    (g .color).len = 2 ∧ g.serialize = .error .typeError ∧ g.print = .error .typeError ∧
      (∀ k, g.getInt k = .error .indexError) ∧ ∀ m, nexts g.getInt {} m = List.replicate m .stop := by
  by_cases hin : ∀ a, (e a).len ≠ 0 → InRange (e a).len i
  swap
  · push Not at hin
    obtain ⟨a, h1, h2⟩ := hin
    rw [(C128_getitem e hl i).2 ⟨a, h1, h2⟩] at hg; cases hg
  have hcols : ∀ a, ((e a).len = 0 → g a = emptyNd a.kind) ∧ ((e a).len ≠ 0 → getInt a.kind (e a) i = .ok (g a)) := by
    have key : ∀ (as : List Attr), as.Nodup → ∀ h g, getAttrs e i h as = .ok g → (∀ a, a ∉ as → g a = h a) ∧
        ∀ a ∈ as, ((e a).len = 0 → g a = h a) ∧ ((e a).len ≠ 0 → getInt a.kind (e a) i = .ok (g a)) := by
      intro as
      induction as with
      | nil => intro _ h g hh; cases hh; exact ⟨fun _ _ => rfl, by simp⟩
      | cons a as ih =>
        intro hn h g hh
        obtain ⟨hna, hns⟩ := List.nodup_cons.1 hn
        by_cases h0 : (e a).len = 0
        · rw [getAttrs, if_pos h0] at hh
          obtain ⟨p1, p2⟩ := ih hns h g hh
          refine ⟨fun x hx => p1 x (fun hm => hx (List.mem_cons_of_mem _ hm)), fun x hx => ?_⟩
          rcases List.mem_cons.1 hx with rfl | hx
          · exact ⟨fun _ => p1 _ hna, fun hc => absurd h0 hc⟩
          · exact p2 x hx
        · rw [getAttrs, if_neg h0] at hh
          cases hb : Gcl.getInt a.kind (e a) i with
          | error x => rw [hb] at hh; cases hh
          | ok b =>
            rw [hb] at hh
            obtain ⟨p1, p2⟩ := ih hns (h.with a b) g hh
            have hw : ∀ x, x ≠ a → (h.with a b) x = h x := fun x hx => by simp [NdEvent.with, hx]
            refine ⟨fun x hx => ?_, fun x hx => ?_⟩
            · rw [p1 x (fun hm => hx (List.mem_cons_of_mem _ hm)), hw x (fun hc => hx (by simp [hc]))]
            · rcases List.mem_cons.1 hx with rfl | hx
              · refine ⟨fun hc => absurd hc h0, fun _ => ?_⟩
                rw [hb, p1 _ hna]; simp [NdEvent.with]
              · rw [← hw x (fun hc => hna (hc ▸ hx))]; exact p2 x hx
    intro a
    exact (key _ attrs_nodup _ _ hg).2 a (all_attrs a)
  obtain ⟨r, hr, hgc⟩ := getInt_color_shape _ _ _ (hl.stored .color hc) i ((hcols .color).2 hc)
  have hflat := C94_flat .color (by simp) r hr
  rw [hr] at hflat
  have hother : ∀ a, a = .pdg ∨ a = .pmu → ∃ rs, iterate a.kind (g a) = .ok rs ∧ serializeArr a.kind (g a) = .ok rs := by
    intro a ha
    by_cases h0 : (e a).len = 0
    · rw [(hcols a).1 h0]
      rcases ha with rfl | rfl
      · exact ⟨_, rfl, rfl⟩
      · exact ⟨[], by simp [Attr.kind, emptyNd, iterate], by simp [Attr.kind, emptyNd, serializeArr, iterate]⟩
    · exact iterate_oneRecord a.kind (by rcases ha with rfl | rfl <;> simp [Attr.kind]) _ _ _ i (hl.stored a h0)
        ((hcols a).2 h0)
  have hget : ∀ k, g.getInt k = .error .indexError := by
    intro k
    refine getAttrs_color g k r hgc (fun a ha h0 => ?_)
    have hne : (e a).len ≠ 0 := by
      intro h; rw [(hcols a).1 h] at h0; rcases ha with rfl | rfl <;> exact h0 rfl
    have hs : Stored a.kind 1 (g a) := by
      obtain ⟨j, hj⟩ : ∃ j, Denotes (e a).len i j := by
        have := hin a hne; unfold InRange at this; unfold Denotes
        by_cases h0 : 0 ≤ i
        · exact ⟨i.toNat, by omega, by omega⟩
        · exact ⟨(i + (e a).len).toNat, by omega, by omega⟩
      obtain ⟨b, hb, ho⟩ := getInt_in hl a hne i j hj
      have := (hcols a).2 hne
      rw [hb] at this
      have hst := hl.stored a hne
      have hnorm : normIdx (e a).len i = .ok j := by rw [normIdx_ok_iff]; exact hj
      have hrow := rowAt_stored a.kind _ _ hst i j hnorm
      have hlen := ((records_rows _ _ _ hst).2 j hj.1).2
      obtain ⟨hs, -⟩ := hst
      rw [← Except.ok.inj this]
      rcases ha with rfl | rfl
      · simp only [Attr.kind, Kind.cols] at hs hlen hrow hb
        simp only [getInt, hrow, hs, List.tail_cons] at hb
        simp [construct, convertNd, isFlat, Kind.cols, hlen] at hb
        subst hb
        exact ⟨rfl, by simp [Kind.cols, Attr.kind, hlen]⟩
      · simp only [Attr.kind, Kind.cols] at hs hlen hrow hb
        simp only [getInt, hrow, hs, List.tail_cons] at hb
        simp [construct, convertNd, isFlat, Kind.cols, hlen] at hb
        subst hb
        exact ⟨rfl, by simp [Kind.cols, Attr.kind, hlen]⟩
    have hk : a.kind ≠ .color := by rcases ha with rfl | rfl <;> simp [Attr.kind]
    by_cases hr : k < -((1 : Nat) : Int) ∨ ((1 : Nat) : Int) ≤ k
    · exact .inr ((C19_getitem_int _ hk 1 _ hs k).2 hr)
    · obtain ⟨b, -, hb, -⟩ := (C19_getitem_int _ hk 1 _ hs k).1 0 (by omega) (by omega)
      exact .inl ⟨b, hb⟩
  refine ⟨by rw [hgc]; rfl, ?_, ?_, hget, ?_⟩
  · refine serializeAttrs_error g .color .typeError [.pdg, .pmu] ([.helicity, .status, .final] ++ [.adj]) ?_ ?_
    · intro b hb
      obtain ⟨rs, -, h2⟩ := hother b (by simpa using hb)
      exact ⟨rs, h2⟩
    · rw [hgc]; exact hflat.2.1
  · have : readRow g particleAttrs = .error .typeError := by
      refine readRow_error g .color .typeError [.pdg, .pmu] [.helicity, .status, .final] ?_ ?_ ?_
      · intro b hb _
        obtain ⟨rs, h1, -⟩ := hother b (by simpa using hb)
        exact ⟨rs, h1⟩
      · rw [hgc]; simp [Nd.len]
      · rw [hgc]; exact hflat.1
    simp only [NdEvent.print, this]
  · intro m
    have := nexts_items g.getInt [] 0 (by intro i hi; simp at hi) (hget _) m
    simpa using this

/-- An event with two records of codes and colours. -/
def exNdEvent : NdEvent Nat := fun a =>
  match a with
  | .pdg => ⟨[2], [1, 21]⟩
  | .color => ⟨[2, 2], [501, 0, 502, 501]⟩
  | _ => emptyNd a.kind

theorem exNdEvent_laid : Laid exNdEvent := by
  intro a
  cases a
  · exact .inr ⟨2, rfl, rfl⟩
  · exact .inl rfl
  · exact .inr ⟨2, rfl, rfl⟩
  all_goals exact .inl rfl

example : ∃ g, exNdEvent.getInt (-1) = .ok g ∧ g.print = .error .typeError := by
  obtain ⟨g, hg, -⟩ := (C128_getitem exNdEvent exNdEvent_laid (-1)).1 (by
    intro a ha; cases a <;> first | exact absurd rfl ha | (unfold InRange; decide))
  exact ⟨g, hg, (C128_color _ g exNdEvent_laid (by decide) _ hg).2.2.1⟩

example : ∃ xs : List (NdEvent Nat), xs.length = 2 ∧ nexts exNdEvent.getInt {} 3 = xs.map .item ++ [.stop] := by
  obtain ⟨xs, h1, -, h3⟩ := C128_iter exNdEvent exNdEvent_laid 2
    (by intro a ha; cases a <;> first | exact absurd rfl ha | decide) ⟨.pdg, by decide, rfl⟩
  exact ⟨xs, h1, h3 1⟩

theorem getAttrs_skip {α : Type} (e : NdEvent α) (i : Int) (as : List Attr) (h g : NdEvent α)
    (hg : getAttrs e i h as = .ok g) (a : Attr) (h0 : (e a).len = 0) : g a = h a := by
  induction as generalizing h with
  | nil => cases hg; rfl
  | cons b as ih =>
    simp only [getAttrs] at hg
    split at hg
    · exact ih h hg
    · next hb =>
      split at hg
      · rw [ih _ hg]
        unfold NdEvent.with
        rw [if_neg]
        rintro rfl
        exact hb h0
      · cases hg

/-- **C128** What an attribute without records becomes in `event[i]`: an array without elements, of shape `(0, 4)` for the
momenta and `(0,)` for the others. -/
theorem C128_absent {α : Type} (e g : NdEvent α) (i : Int) (hg : e.getInt i = .ok g) (a : Attr) (h0 : (e a).len = 0) :
    (g a).flat = [] ∧ (g a).shape = if a = .pmu then [0, 4] else [0] := by
  rw [getAttrs_skip e i _ _ g hg a h0]
  cases a <;> exact ⟨rfl, rfl⟩

theorem readRow_ok_iff {α : Type} (e : NdEvent α) (as : List Attr) :
    (readRow e as = .ok () ↔ ∀ a ∈ as, (e a).len ≠ 0 → ∃ rs, iterate a.kind (e a) = .ok rs) := by
  induction as with
  | nil => simp [readRow]
  | cons a as ih =>
    simp only [readRow, List.forall_mem_cons]
    by_cases ha : (e a).len = 0
    · simp [ha, ih]
    · cases hr : iterate a.kind (e a) with
      | ok rs => simp [ha, ih]
      | error x => simp [ha]

theorem iterate_error {α : Type} (k : Kind) (a : Nd α) (x : PyErr) (h : iterate k a = .error x) : x = .typeError := by
  unfold iterate at h
  split at h
  · cases h
  · split at h
    · cases h; rfl
    · split at h
      · cases h
      · cases h; rfl
    · split at h
      · cases h
      · split at h
        · cases h
        · cases h; rfl

theorem readRow_error_type {α : Type} (e : NdEvent α) (as : List Attr) (x : PyErr) (h : readRow e as = .error x) :
    x = .typeError := by
  induction as with
  | nil => cases h
  | cons a as ih =>
    simp only [readRow] at h
    split at h
    · exact ih h
    · split at h
      · next x' hx =>
        cases h
        exact iterate_error _ _ _ hx
      · exact ih h

/-- **C128** Exactly when an event can be printed, whatever its buffers: the records of every non-empty attribute of the
particles can be read, and those of the edges too, unless there are no edges or no particles at all (an event of edges
only is printed without looking at them).  Otherwise it is a `TypeError`. -/
theorem C128_print {α : Type} (e : NdEvent α) :
    (e.print = .ok () ↔ (∀ a, a ≠ .adj → (e a).len ≠ 0 → ∃ rs, iterate a.kind (e a) = .ok rs) ∧
      ((∃ a, a ≠ .adj ∧ (e a).len ≠ 0) → (e .adj).len ≠ 0 → ∃ rs, iterate .edges (e .adj) = .ok rs)) ∧
    (e.print ≠ .ok () → e.print = .error .typeError) := by
  have hmem : ∀ a : Attr, a ∈ particleAttrs ↔ a ≠ .adj := by intro a; cases a <;> decide
  have hp := readRow_ok_iff e particleAttrs
  have ha := readRow_ok_iff e [.adj]
  simp only [hmem] at hp
  simp only [List.mem_singleton, forall_eq] at ha
  have hany : (particleAttrs.any (fun a => decide ((e a).len ≠ 0))) = true ↔ ∃ a, a ≠ .adj ∧ (e a).len ≠ 0 := by
    simp only [List.any_eq_true, decide_eq_true_eq, hmem]
  unfold NdEvent.print
  constructor
  · cases hr : readRow e particleAttrs with
    | error x =>
      rw [hr] at hp
      have : ¬ ∀ a, a ≠ .adj → (e a).len ≠ 0 → ∃ rs, iterate a.kind (e a) = .ok rs := fun h => by cases hp.2 h
      simp [this]
    | ok u =>
      rw [hr] at hp
      have h1 := hp.1 rfl
      simp only
      by_cases hq : ∃ a, a ≠ .adj ∧ (e a).len ≠ 0
      · rw [if_pos (hany.2 hq), ha]
        exact ⟨fun h => ⟨h1, fun _ => h⟩, fun h => h.2 hq⟩
      · rw [if_neg (fun h => hq (hany.1 h))]
        exact ⟨fun _ => ⟨h1, fun h => absurd h hq⟩, fun _ => rfl⟩
  · intro hne
    cases hr : readRow e particleAttrs with
    | error x => simp only; rw [readRow_error_type _ _ _ hr]
    | ok u =>
      rw [hr] at hne
      simp only at hne ⊢
      split at hne
      · next hq =>
        rw [if_pos hq]
        cases hr' : readRow e [.adj] with
        | error x => rw [readRow_error_type _ _ _ hr']
        | ok u' => rw [hr'] at hne; exact absurd rfl hne
      · exact absurd rfl hne

/-- Witness: flat edges cannot be read, but without particles that does not matter. -/
example : (NdEvent.with (emptyEvent : NdEvent Nat) .adj ⟨[2], [1, 2]⟩).print = .ok () ∧
    (NdEvent.with (NdEvent.with (emptyEvent : NdEvent Nat) .adj ⟨[2], [1, 2]⟩) .pdg ⟨[1], [5]⟩).print = .error .typeError :=
  ⟨rfl, rfl⟩

end Gcl
