import Verif.Model.Iter
import Verif.Props.Convert
/-! # C94, C95: iteration, `serialize` and assignment to `data` -/
namespace Gcl
set_option autoImplicit false
open Spec

theorem records_rows {α : Type} (k : Kind) (n : Nat) (a : Nd α) (h : Stored k n a) :
    IsRows k.cols n a.flat (records k a) := by
  have : a.flat.length / k.cols = n := by
    rw [h.2]; cases k <;> simp [Kind.cols]
  unfold records
  rw [this]
  exact chunks_spec _ _ _ h.2

theorem chunks_one {α : Type} (l : List α) : chunks 1 l.length l = l.map (fun x => [x]) := by
  induction l with
  | nil => rfl
  | cons x l ih => simpa [chunks] using ih

/-- **C94** An array of `n` records in the usual layout (one row per record) is iterated over in order: `n` tuples,
tuple `i` with the components of record `i`; `serialize` gives the same tuples; and tuple `i` is the record that the
subscript `array[i]` selects. -/
theorem C94_records {α : Type} (k : Kind) (n : Nat) (a : Nd α) (h : Stored k n a) :
    ∃ rs, iterate k a = .ok rs ∧ serializeArr k a = .ok rs ∧ IsRows k.cols n a.flat rs ∧
      ∀ j : Nat, j < n → ∃ b r, getInt k a j = .ok b ∧ records k b = [r] ∧ rs[j]? = some r := by
  have hit : iterate k a = .ok (records k a) := by
    obtain ⟨hs, hl⟩ := h
    unfold iterate records
    cases k with
    | scalar => simp [Kind.cols, chunks_one]
    | momentum =>
      simp only [Kind.cols] at hs hl ⊢
      rw [hs, hl]
      by_cases hn : n = 0
      · subst hn; simp [chunks]
      · simp [hn]
    | color =>
      simp only [Kind.cols] at hs hl ⊢
      rw [hs, hl]
      by_cases hn : n = 0
      · subst hn; simp [chunks]
      · simp [hn]
    | edges =>
      simp only [Kind.cols] at hs hl ⊢
      rw [hs, hl]
      by_cases hn : n = 0
      · subst hn; simp [chunks]
      · simp [hn]
  refine ⟨records k a, hit, ?_, records_rows k n a h, ?_⟩
  · unfold serializeArr
    cases k with
    | scalar => exact hit
    | _ => exact hit
  · intro j hj
    by_cases hk : k = .color
    · subst hk
      obtain ⟨b, r, h1, h2, h3, h4⟩ := (C19_color n a h j).1 j hj (Or.inl rfl)
      exact ⟨b, r, h1, h4, h3⟩
    · obtain ⟨b, r, h1, h2, h3, h4⟩ := (C19_getitem_int k hk n a h j).1 j hj (Or.inl rfl)
      exact ⟨b, r, h1, h4, h3⟩

/-- **C94** (other layouts): a class with records refuses to iterate over a zero-dimensional buffer, over a
non-empty flat one, and over non-empty rows of another width: `TypeError`, also from `serialize`. -/
theorem C94_refused {α : Type} (k : Kind) (hk : k ≠ .scalar) (a : Nd α)
    (h : a.shape = [] ∨ (∃ n, n ≠ 0 ∧ a.shape = [n]) ∨ ∃ n c rest, n ≠ 0 ∧ c ≠ k.cols ∧ a.shape = n :: c :: rest) :
    iterate k a = .error .typeError ∧ serializeArr k a = .error .typeError := by
  have hit : iterate k a = .error .typeError := by
    rcases h with h | ⟨n, h0, h⟩ | ⟨n, c, rest, h0, hc, h⟩
    · cases k with
      | scalar => exact absurd rfl hk
      | _ => simp [iterate, h]
    · cases k with
      | scalar => exact absurd rfl hk
      | _ => simp [iterate, h, h0]
    · cases k with
      | scalar => exact absurd rfl hk
      | _ => simp only [iterate, h, if_neg h0, if_neg hc]
  refine ⟨hit, ?_⟩
  cases k with
  | scalar => exact absurd rfl hk
  | _ => exact hit

example : iterate .momentum (⟨[2, 3], [1, 2, 3, 4, 5, 6]⟩ : Nd Int) = .error .typeError :=
  (C94_refused .momentum (by decide) _ (.inr (.inr ⟨2, 3, [], by decide, by decide, rfl⟩))).1

/-- **C94** (one flat record): a class with records whose buffer is a single record stored flat, which is what
`ColorArray([c, a])`, `color[i]` for an integer `i`, and `AdjacencyList([s, d])` hold, cannot be iterated over:
`TypeError`. -/
theorem C94_flat {α : Type} (k : Kind) (hk : k ≠ .scalar) (l : List α) (hl : l.length = k.cols) :
    iterate k ⟨[l.length], l⟩ = .error .typeError ∧
    serializeArr k ⟨[l.length], l⟩ = .error .typeError ∧
    records k ⟨[l.length], l⟩ = [l] ∧
    (k ≠ .momentum → construct k ⟨[l.length], l⟩ = .ok ⟨[l.length], l⟩) ∧
    (∀ (n : Nat) (a : Nd α) (j : Nat), k = .color → Stored k n a → (records k a)[j]? = some l →
      getInt k a j = .ok ⟨[l.length], l⟩) := by
  have h0 : l.length ≠ 0 := by rw [hl]; cases k <;> simp [Kind.cols]
  have hit : iterate k ⟨[l.length], l⟩ = .error .typeError := by
    cases k with
    | scalar => exact absurd rfl hk
    | _ => simp [iterate, h0]
  refine ⟨hit, ?_, ?_, ?_, ?_⟩
  · cases k with
    | scalar => exact absurd rfl hk
    | _ => exact hit
  · have hp : 0 < k.cols := by cases k <;> simp [Kind.cols]
    simp only [records, hl, Nat.div_self hp, chunks]
    simp [← hl]
  · intro hm
    cases k with
    | scalar => exact absurd rfl hk
    | momentum => exact absurd rfl hm
    | color => simp [construct, convertNd, isFlat, hl, Kind.cols]
    | edges => simp [construct, convertNd, isFlat, hl, Kind.cols]
  · rintro n a j rfl hst hj
    have hr := records_rows _ n a hst
    have hjn : j < n := by rw [← hr.1]; exact (List.getElem?_eq_some_iff.1 hj).1
    have hnorm : normIdx n (j : Int) = .ok j := by
      rw [normIdx_ok_iff]; unfold Denotes; omega
    have hrow := rowAt_stored .color n a hst j j hnorm
    have hlr : rowOf 2 a.flat j = l := by
      have := (hr.2 j hjn).1
      rw [hj] at this
      exact (Option.some.inj this).symm
    obtain ⟨hs, -⟩ := hst
    simp only [Kind.cols] at hs hl
    simp only [getInt, hrow, hs, List.tail_cons, Kind.cols, hlr]
    simp [construct, convertNd, isFlat, Kind.cols, hl]

example : iterate .momentum (⟨[2, 4], [1, 2, 3, 4, 5, 6, 7, 8]⟩ : Nd Nat) = .ok [[1, 2, 3, 4], [5, 6, 7, 8]] := by
  decide
example : Stored .edges 2 (⟨[2, 2], [1, -2, -2, 3]⟩ : Nd Int) := ⟨rfl, rfl⟩

/-! ## C95 -/

/-- **C95** Assigning `array.data = values` succeeds exactly when constructing an array of that class from `values`
does, and then holds the same records; it fails with the same exception otherwise and leaves the array as it was.
`AdjacencyList.data` cannot be assigned. -/
theorem C95_assign {α : Type} (k : Kind) (old values : Nd α) :
    (k ≠ .edges → ∀ b, construct k values = .ok b →
      (assignData k old values).2 = .ok () ∧ records k (assignData k old values).1 = records k b ∧
      (k ≠ .momentum → (assignData k old values).1 = b)) ∧
    (k ≠ .edges → ∀ e, construct k values = .error e → assignData k old values = (old, .error e)) ∧
    (k = .edges → assignData k old values = (old, .error .attributeError)) := by
  refine ⟨fun hk b hb => ?_, fun hk e he => ?_, fun hk => by subst hk; rfl⟩
  · unfold construct at hb
    cases hc : convertNd k.cols values with
    | error e => rw [hc] at hb; simp at hb
    | ok c =>
      rw [hc] at hb
      have hadd : assignData k old values = (c, .ok ()) := by
        cases k with
        | edges => exact absurd rfl hk
        | _ => simp [assignData, hc]
      rw [hadd]
      cases k with
      | edges => exact absurd rfl hk
      | momentum =>
        simp only [Except.ok.injEq] at hb
        subst hb
        exact ⟨rfl, rfl, fun h => absurd rfl h⟩
      | scalar => simp only [Except.ok.injEq] at hb; subst hb; exact ⟨rfl, rfl, fun _ => rfl⟩
      | color => simp only [Except.ok.injEq] at hb; subst hb; exact ⟨rfl, rfl, fun _ => rfl⟩
  · unfold construct at he
    cases hc : convertNd k.cols values with
    | error e' =>
      rw [hc] at he
      simp only [Except.error.injEq] at he
      subst he
      cases k with
      | edges => exact absurd rfl hk
      | _ => simp [assignData, hc]
    | ok c => rw [hc] at he; cases k <;> simp at he

/-- **C95** The same for structured arrays: fields are matched by name as in the constructor. -/
theorem C95_structured {α : Type} (k : Kind) (old : Nd α) (values : Structured α) :
    (k ≠ .edges → ∀ b, constructStructured k values = .ok b →
      (assignStructured k old values).2 = .ok () ∧ records k (assignStructured k old values).1 = records k b) ∧
    (k ≠ .edges → ∀ e, constructStructured k values = .error e →
      assignStructured k old values = (old, .error e)) ∧
    (k = .edges → assignStructured k old values = (old, .error .attributeError)) := by
  refine ⟨fun hk b hb => ?_, fun hk e he => ?_, fun hk => by subst hk; rfl⟩
  · unfold constructStructured at hb
    cases hc : convertStructured k.cols values with
    | error e => rw [hc] at hb; simp at hb
    | ok c =>
      rw [hc] at hb
      have hadd : assignStructured k old values = (c, .ok ()) := by
        cases k with
        | edges => exact absurd rfl hk
        | _ => simp [assignStructured, hc]
      rw [hadd]
      cases k with
      | edges => exact absurd rfl hk
      | _ => simp only [Except.ok.injEq] at hb; subst hb; exact ⟨rfl, rfl⟩
  · unfold constructStructured at he
    cases hc : convertStructured k.cols values with
    | error e' =>
      rw [hc] at he
      simp only [Except.error.injEq] at he
      subst he
      cases k with
      | edges => exact absurd rfl hk
      | _ => simp [assignStructured, hc]
    | ok c => rw [hc] at he; cases k <;> simp at he

/-- **C95** (one momentum): unlike the constructor, the assignment does not turn a flat momentum into a row: the array
then reports length four, holds one record and cannot be iterated over; for `(n, 4)` values there is no difference. -/
theorem C95_momentum {α : Type} (old : Nd α) :
    (∀ l : List α, l.length = 4 →
      (assignData .momentum old ⟨[4], l⟩).1.len = 4 ∧ records .momentum (assignData .momentum old ⟨[4], l⟩).1 = [l] ∧
      iterate .momentum (assignData .momentum old ⟨[4], l⟩).1 = .error .typeError ∧
      ∃ b, construct .momentum ⟨[4], l⟩ = .ok b ∧ b.len = 1 ∧ records .momentum b = [l] ∧
        iterate .momentum b = .ok [l]) ∧
    (∀ (n : Nat) (l : List α), l.length = n * 4 →
      construct .momentum ⟨[n, 4], l⟩ = .ok (assignData .momentum old ⟨[n, 4], l⟩).1) := by
  constructor
  · intro l hl
    have h1 : assignData .momentum old ⟨[4], l⟩ = (⟨[4], l⟩, .ok ()) := by
      simp [assignData, convertNd, isFlat, Kind.cols]
    have ht : List.take 4 l = l := by rw [List.take_of_length_le (by omega)]
    rw [h1]
    refine ⟨rfl, by simp [records, Kind.cols, hl, chunks, ht], by simp [iterate], ⟨[1, 4], l⟩, ?_, rfl, ?_, ?_⟩
    · simp [construct, convertNd, isFlat, Kind.cols, hl]
    · simp [records, Kind.cols, hl, chunks, ht]
    · simp [iterate, Kind.cols, chunks, ht]
  · intro n l hl
    have : l.length / 4 = n := by omega
    by_cases hn : n = 0
    · subst hn; simp [construct, assignData, convertNd, isFlat, Kind.cols, this]
    · simp [construct, assignData, convertNd, isFlat, Kind.cols, this]

end Gcl
