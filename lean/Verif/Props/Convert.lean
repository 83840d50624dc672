import Mathlib.Data.List.Forall2
import Mathlib.Data.List.Nodup
import Mathlib.Data.List.Perm.Basic
import Mathlib.Tactic.Linarith
import Verif.Spec.Convert
import Verif.Spec.Index
import Verif.Lemmas.Basic
import Verif.Props.Index
/-! # C15–C19: array construction and integer subscripts -/
namespace Gcl
set_option autoImplicit false
open Spec

/-! ## Rows -/

theorem chunks_spec {α : Type} (k n : Nat) (l : List α) (h : l.length = n * k) :
    IsRows k n l (chunks k n l) := by
  induction n generalizing l with
  | zero => simp [IsRows, chunks]
  | succ n ih =>
    have h' : (l.drop k).length = n * k := by
      rw [List.length_drop, h, Nat.succ_mul]; omega
    obtain ⟨h1, h2⟩ := ih (l.drop k) h'
    refine ⟨by simp [chunks, h1], ?_⟩
    intro i hi
    cases i with
    | zero =>
      refine ⟨by simp [chunks, rowOf], ?_⟩
      simp only [rowOf, Nat.zero_mul, List.drop_zero, List.length_take, h, Nat.succ_mul]
      omega
    | succ i =>
      obtain ⟨g1, g2⟩ := h2 i (by omega)
      have e : rowOf k l (i + 1) = rowOf k (l.drop k) i := by
        simp only [rowOf, List.drop_drop]
        congr 2
        rw [Nat.succ_mul]; omega
      rw [e]
      exact ⟨by simpa [chunks] using g1, g2⟩

theorem isRows_unique {α : Type} {k n : Nat} {l : List α} {r s : List (List α)}
    (h : IsRows k n l r) (h' : IsRows k n l s) : r = s := by
  apply List.ext_getElem?
  intro i
  by_cases hi : i < n
  · rw [(h.2 i hi).1, (h'.2 i hi).1]
  · rw [List.getElem?_eq_none (by rw [h.1]; omega), List.getElem?_eq_none (by rw [h'.1]; omega)]

/-- **C15** (MaskArray, PdgArray, StatusArray, HelicityArray): scalars, flat arrays, single-column
arrays and empty arrays are accepted, with one record per element in order and the right length;
every other two-dimensional input is rejected with `ValueError`. -/
theorem C15_scalar {α : Type} (a : Nd α) (hwf : Nd.WF a) (hdim : a.shape.length ≤ 2) :
    ((a.shape.length ≤ 1 ∨ a.shape[1]? = some 1 ∨ a.shape[0]? = some 0) →
      ∃ b, construct .scalar a = .ok b ∧ b.len = a.flat.length ∧
        records .scalar b = a.flat.map (fun x => [x])) ∧
    (¬ (a.shape.length ≤ 1 ∨ a.shape[1]? = some 1 ∨ a.shape[0]? = some 0) →
      construct .scalar a = .error .valueError) := by
  have hrec : ∀ l : List α, chunks 1 l.length l = l.map (fun x => [x]) := by
    intro l
    induction l with
    | nil => rfl
    | cons x l ih => simpa [chunks] using ih
  obtain ⟨shape, flat⟩ := a
  match shape, hdim with
  | [], _ =>
    refine ⟨fun _ => ⟨⟨[flat.length], flat⟩, rfl, rfl, ?_⟩, fun h => absurd (.inl (by simp)) h⟩
    simp [records, Kind.cols, hrec]
  | [n], _ =>
    refine ⟨fun _ => ⟨⟨[flat.length], flat⟩, rfl, rfl, ?_⟩, fun h => absurd (.inl (by simp)) h⟩
    simp [records, Kind.cols, hrec]
  | [n, c], _ =>
    simp only [List.length_cons, List.length_nil, List.getElem?_cons_succ, List.getElem?_cons_zero,
      Option.some.injEq, construct, convertNd, isFlat, Kind.cols]
    by_cases hc : c = 1
    · subst hc
      refine ⟨fun _ => ⟨⟨[flat.length], flat⟩, by simp, rfl, ?_⟩, fun h => absurd (.inr (.inl rfl)) h⟩
      simp [records, Kind.cols, hrec]
    · have hb : (c == 1) = false := by simp [hc]
      by_cases hn : n = 0
      · subst hn
        have h0 : flat = [] := by
          have : flat.length = 0 := by simpa [Nd.WF] using hwf
          exact List.length_eq_zero_iff.1 this
        subst h0
        refine ⟨fun _ => ⟨⟨[0, c], []⟩, by simp [hb], by simp [Nd.len], by simp [records, chunks]⟩,
          fun h => absurd (.inr (.inr rfl)) h⟩
      · refine ⟨fun h => ?_, fun _ => by simp [hb, hn, hc]⟩
        rcases h with h | h | h
        · omega
        · exact absurd h hc
        · exact absurd h hn

/-- **C15** (MomentumArray): `(n, 4)` arrays give their `n` rows; a flat array of 4 (or a `(4, 1)`
column) gives one momentum; arrays of length zero give none; everything else of at most two
dimensions is rejected (`IndexError` for a bare scalar, `ValueError` otherwise). -/
theorem C15_momentum {α : Type} (a : Nd α) (hwf : Nd.WF a) (hdim : a.shape.length ≤ 2) :
    (∀ n, (a.shape = [n, 4] ∨ (n = 1 ∧ (a.shape = [4] ∨ a.shape = [4, 1])) ∨
        (n = 0 ∧ a.shape[0]? = some 0)) →
      ∃ b, construct .momentum a = .ok b ∧ b.shape = [n, 4] ∧ b.len = n ∧
        IsRows 4 n a.flat (records .momentum b)) ∧
    (a.shape = [] → construct .momentum a = .error .indexError) ∧
    (a.shape ≠ [] → (∀ n, a.shape ≠ [n, 4]) → a.shape ≠ [4] → a.shape ≠ [4, 1] →
      a.shape[0]? ≠ some 0 → construct .momentum a = .error .valueError) := by
  obtain ⟨shape, flat⟩ := a
  have fin : ∀ n, flat.length = n * 4 → IsRows 4 n flat (records .momentum ⟨[flat.length / 4, 4], flat⟩) ∧
      flat.length / 4 = n := by
    intro n h
    have e : flat.length / 4 = n := by omega
    refine ⟨?_, e⟩
    simp only [records, Kind.cols, e]
    exact chunks_spec 4 n flat h
  refine ⟨?_, ?_, ?_⟩
  · intro n h
    simp only at h
    rcases h with rfl | ⟨rfl, rfl | rfl⟩ | ⟨rfl, h⟩
    · obtain ⟨h1, h2⟩ := fin n (by simpa [Nd.WF] using hwf)
      refine ⟨⟨[flat.length / 4, 4], flat⟩, ?_, by simp [h2], by simp [Nd.len, h2], h1⟩
      simp [construct, convertNd, isFlat, Kind.cols]
    · obtain ⟨h1, h2⟩ := fin 1 (by simpa [Nd.WF] using hwf)
      exact ⟨⟨[flat.length / 4, 4], flat⟩, by simp [construct, convertNd, isFlat, Kind.cols],
        by simp [h2], by simp [Nd.len, h2], h1⟩
    · obtain ⟨h1, h2⟩ := fin 1 (by simpa [Nd.WF] using hwf)
      exact ⟨⟨[flat.length / 4, 4], flat⟩, by simp [construct, convertNd, isFlat, Kind.cols],
        by simp [h2], by simp [Nd.len, h2], h1⟩
    · match shape, h with
      | 0 :: rest, _ =>
        have h0 : flat.length = 0 := by
          have hz : ∀ l : List Nat, l.foldl (· * ·) 0 = 0 := by
            intro l; induction l with
            | nil => rfl
            | cons x l ih => simpa using ih
          have hw : flat.length = (0 :: rest).foldl (· * ·) 1 := hwf
          simpa [hz] using hw
        obtain ⟨h1, h2⟩ := fin 0 (by omega)
        refine ⟨⟨[flat.length / 4, 4], flat⟩, ?_, by simp [h2], by simp [Nd.len, h2], h1⟩
        simp [construct, convertNd, Kind.cols]
  · rintro rfl; rfl
  · intro h1 h2 h3 h4 h5
    match shape, hdim with
    | [], _ => exact absurd rfl h1
    | [n], _ =>
      have hn0 : n ≠ 0 := fun e => h5 (by simp [e])
      have hn4 : n ≠ 4 := fun e => h3 (by simp [e])
      simp [construct, convertNd, isFlat, Kind.cols, hn0, hn4]
    | [n, c], _ =>
      have hn0 : n ≠ 0 := fun e => h5 (by simp [e])
      have hc : c ≠ 4 := fun e => h2 n (by simp [e])
      by_cases hc1 : c = 1
      · subst hc1
        have hn4 : n ≠ 4 := fun e => h4 (by simp [e])
        simp [construct, convertNd, isFlat, Kind.cols, hn0, hn4]
      · have hb : (c == 1) = false := by simp [hc1]
        simp [construct, convertNd, isFlat, Kind.cols, hn0, hc, hb]

/-- **C15** (ColorArray, AdjacencyList): `(n, 2)` input gives `n` records in order; non-empty
two-dimensional input with a column count other than 2 (and not a `(2, 1)` column) is rejected with
`ValueError`. -/
theorem C15_pairs {α : Type} (k : Kind) (hk : k = .color ∨ k = .edges) (a : Nd α) (hwf : Nd.WF a)
    (n c : Nat) (hs : a.shape = [n, c]) :
    (c = 2 → ∃ b, construct k a = .ok b ∧ b.len = n ∧ IsRows 2 n a.flat (records k b)) ∧
    (n ≠ 0 → c ≠ 2 → ¬ (n = 2 ∧ c = 1) → construct k a = .error .valueError) := by
  obtain ⟨shape, flat⟩ := a
  simp only at hs
  subst hs
  have hcols : k.cols = 2 := by rcases hk with rfl | rfl <;> rfl
  have hcon : construct k ⟨[n, c], flat⟩ = convertNd 2 ⟨[n, c], flat⟩ := by
    rcases hk with rfl | rfl
    · simp only [construct, Kind.cols]; split <;> simp_all
    · simp only [construct, Kind.cols]; split <;> simp_all
  rw [hcon]
  constructor
  · rintro rfl
    refine ⟨⟨[n, 2], flat⟩, by simp [convertNd, isFlat], rfl, ?_⟩
    have hl : flat.length = n * 2 := by simpa [Nd.WF] using hwf
    simp only [records, hcols]
    have : flat.length / 2 = n := by omega
    rw [this]
    exact chunks_spec 2 n flat hl
  · intro hn hc hne
    by_cases hc1 : c = 1
    · subst hc1
      have : n ≠ 2 := fun e => hne ⟨e, rfl⟩
      simp [convertNd, isFlat, hn, this]
    · have hb : (c == 1) = false := by simp [hc1]
      simp [convertNd, isFlat, hn, hc, hb]

example : Nd.WF (⟨[2, 4], [1, 2, 3, 4, 5, 6, 7, 8]⟩ : Nd Nat) := rfl
example : (construct .momentum (⟨[2, 4], [1, 2, 3, 4, 5, 6, 7, 8]⟩ : Nd Nat)).toOption.map
    (records .momentum) = some [[1, 2, 3, 4], [5, 6, 7, 8]] := by decide
example : construct .momentum (⟨[2, 3], [1, 2, 3, 4, 5, 6]⟩ : Nd Nat) = .error .valueError := by decide
example : construct .scalar (⟨[3, 1], [1, 2, 3]⟩ : Nd Nat) = .ok ⟨[3], [1, 2, 3]⟩ := by decide

/-! ## Structured input -/

/-- Value of the field `f` in a record. -/
def Spec.valueOf {α : Type} (names : List String) (rec : List α) (f : String) : Option α :=
  rec[names.idxOf f]?

theorem fieldOf_eq {α : Type} (names : List String) (rec : List α) (f : String)
    (hl : rec.length = names.length) (hf : f ∈ names) :
    fieldOf names rec f = valueOf names rec f ∧ (fieldOf names rec f).isSome := by
  induction names generalizing rec with
  | nil => simp at hf
  | cons n ns ih =>
    cases rec with
    | nil => simp at hl
    | cons x xs =>
      unfold fieldOf valueOf
      rw [List.zip_cons_cons, Dict.get?_cons]
      by_cases h : n = f
      · subst h; simp
      · have hf' : f ∈ ns := by
          rcases List.mem_cons.1 hf with e | e
          · exact absurd e.symm h
          · exact e
        simp only [h, if_false, List.idxOf_cons_ne _ h, List.getElem?_cons_succ]
        exact ih xs (by simpa using hl) hf'

theorem mapNames_ok (m : List (String × String)) (names canon : List String)
    (h : List.Forall₂ (fun n c => Dict.get? m n = some c) names canon) :
    mapNames m names = .ok canon := by
  induction h with
  | nil => rfl
  | cons h1 _ ih => simp [mapNames, h1, ih]

theorem mapNames_err (m : List (String × String)) (names : List String) (n : String)
    (hn : n ∈ names) (h : Dict.get? m n = none) : mapNames m names = .error .keyError := by
  induction names with
  | nil => cases hn
  | cons x xs ih =>
    simp only [mapNames]
    cases hx : Dict.get? m x with
    | none => rfl
    | some c =>
      have : n ∈ xs := by
        rcases List.mem_cons.1 hn with e | e
        · subst e; rw [h] at hx; cases hx
        · exact e
      simp [ih this]

theorem filterMap_valueOf {α : Type} (names ext : List String) (rec : List α)
    (hl : rec.length = names.length) (hf : ∀ f ∈ ext, f ∈ names) :
    (reorderRec names ext rec).map some = ext.map (valueOf names rec) := by
  unfold reorderRec
  induction ext with
  | nil => rfl
  | cons f fs ih =>
    obtain ⟨h1, h2⟩ := fieldOf_eq names rec f hl (hf f (by simp))
    obtain ⟨v, hv⟩ := Option.isSome_iff_exists.1 h2
    rw [List.filterMap_cons, hv]
    simp only [List.map_cons]
    rw [ih (fun g hg => hf g (by simp [hg])), ← h1, hv]

/-- Reordering by field names, for any alias table. -/
theorem reorder_spec {α : Type} (aliases : List (String × String)) (order ext : List String)
    (a : Structured α) (hself : ∀ o ∈ order, Dict.get? aliases o = some o) (hnd : order.Nodup)
    (hext : List.Forall₂ (fun o f => Dict.get? aliases f = some o) order ext)
    (hperm : a.names.Perm ext) (hrec : ∀ r ∈ a.records, r.length = a.names.length) :
    ∃ b, reorder aliases order a = .ok b ∧ b.names.length = order.length ∧
      List.Forall₂ (fun r s => s.map some = ext.map (valueOf a.names r)) a.records b.records := by
  have hextmap : order.map some = ext.map (Dict.get? aliases) := by
    clear hself hnd hperm
    induction hext with
    | nil => rfl
    | cons h1 _ ih => simp [h1, ih]
  have hextnd : ext.Nodup := by
    have : (ext.map (Dict.get? aliases)).Nodup := by
      rw [← hextmap]
      exact hnd.map (Option.some_injective _)
    exact List.Nodup.of_map _ this
  have hsub : ∀ f ∈ ext, f ∈ a.names := fun f hf => hperm.mem_iff.2 hf
  have hcols : ∀ (names ext : List String) (rs : List (List α)),
      (∀ r ∈ rs, r.length = names.length) → (∀ f ∈ ext, f ∈ names) →
      List.Forall₂ (fun r s => s.map some = ext.map (valueOf names r)) rs (rs.map (reorderRec names ext)) := by
    intro names ext rs hr hs
    rw [List.forall₂_map_right_iff, List.forall₂_same]
    intro r hrm
    exact filterMap_valueOf names ext r (hr r hrm) hs
  unfold reorder
  by_cases hn : a.names = order
  · rw [if_pos hn]
    -- with canonical names in canonical order, `ext` is `order`
    have hext' : ext = order := by
      have hmem : ∀ f ∈ ext, Dict.get? aliases f = some f := by
        intro f hf
        have : f ∈ order := by rw [← hn]; exact hsub f hf
        exact hself f this
      clear hperm hsub hextnd hn hnd hself hextmap
      induction hext with
      | nil => rfl
      | @cons o f _ _ h1 _ ih =>
        have := hmem f (by simp)
        rw [h1] at this
        rw [Option.some.inj this, ih (fun g hg => hmem g (by simp [hg]))]
    refine ⟨a, rfl, by rw [hn], ?_⟩
    rw [hext', ← hn, List.forall₂_same]
    intro r hr
    have hl := hrec r hr
    have : ∀ (names : List String) (r : List α), names.Nodup → r.length = names.length →
        r.map some = names.map (valueOf names r) := by
      intro names r hnd hl
      apply List.ext_getElem?
      intro i
      simp only [List.getElem?_map]
      by_cases hi : i < names.length
      · rw [List.getElem?_eq_getElem hi, List.getElem?_eq_getElem (by omega : i < r.length)]
        simp only [Option.map_some, valueOf, Option.some.injEq]
        rw [List.Nodup.idxOf_getElem hnd i hi, List.getElem?_eq_getElem]
      · rw [List.getElem?_eq_none (by omega), List.getElem?_eq_none (by omega)]
        rfl
    exact this a.names r (by rw [hn]; exact hnd) hl
  · rw [if_neg hn]
    -- every external name is known
    have hcanon : ∃ canon, List.Forall₂ (fun n c => Dict.get? aliases n = some c) a.names canon := by
      have : ∀ n ∈ a.names, ∃ c, Dict.get? aliases n = some c := by
        intro n hnm
        have hne : n ∈ ext := hperm.mem_iff.1 hnm
        obtain ⟨o, _, ho⟩ : ∃ o ∈ order, Dict.get? aliases n = some o := by
          have hm : Dict.get? aliases n ∈ ext.map (Dict.get? aliases) := List.mem_map.2 ⟨n, hne, rfl⟩
          rw [← hextmap] at hm
          obtain ⟨o, ho, he⟩ := List.mem_map.1 hm
          exact ⟨o, ho, he.symm⟩
        exact ⟨o, ho⟩
      revert this
      generalize a.names = ns
      intro this
      induction ns with
      | nil => exact ⟨[], .nil⟩
      | cons n ns ih =>
        obtain ⟨c, hc⟩ := this n (by simp)
        obtain ⟨cs, hcs⟩ := ih (fun m hm => this m (by simp [hm]))
        exact ⟨c :: cs, .cons hc hcs⟩
    obtain ⟨canon, hcan⟩ := hcanon
    rw [mapNames_ok aliases a.names canon hcan]
    simp only
    have hcm : canon.map some = a.names.map (Dict.get? aliases) := by
      clear hn hperm hsub hrec
      revert hcan
      generalize a.names = ns
      intro hcan
      induction hcan with
      | nil => rfl
      | cons h1 _ ih => simp [h1, ih]
    have hcnd : canon.Nodup := by
      have : (canon.map some).Nodup := by
        rw [hcm]
        exact (hperm.map _).nodup_iff.2 (by
          rw [← hextmap]; exact hnd.map (Option.some_injective _))
      exact List.Nodup.of_map _ this
    have hlen : canon.length = a.names.length := hcan.length_eq.symm
    have hkeys : Dict.keys (canon.zip a.names) = canon := by
      unfold Dict.keys
      rw [List.map_fst_zip (by omega)]
    have hof : Dict.ofPairs (canon.zip a.names) = canon.zip a.names :=
      Dict.ofPairs_of_nodup _ (by
        show (Dict.keys _).Nodup
        rw [hkeys]; exact hcnd)
    rw [hof]
    have hmap2 : mapNames (canon.zip a.names) order = .ok ext := by
      apply mapNames_ok
      have hget : ∀ o f, f ∈ a.names → Dict.get? aliases f = some o →
          Dict.get? (canon.zip a.names) o = some f := by
        intro o f hf ho
        apply Dict.get?_of_mem (by rw [hkeys]; exact hcnd)
        obtain ⟨i, hi, rfl⟩ := List.getElem_of_mem hf
        have hci : i < canon.length := by omega
        have : canon[i] = o := by
          have h1 : (canon.map some)[i]? = (a.names.map (Dict.get? aliases))[i]? := by rw [hcm]
          simp only [List.getElem?_map, List.getElem?_eq_getElem hi, List.getElem?_eq_getElem hci,
            Option.map_some, Option.some.injEq, ho] at h1
          exact h1
        rw [← this]
        have := List.getElem_mem (l := canon.zip a.names) (n := i) (by simp; omega)
        simpa using this
      clear hextmap hextnd hnd hself hperm hn
      induction hext with
      | nil => exact .nil
      | @cons o f _ _ h1 _ ih =>
        exact .cons (hget o f (hsub f (by simp)) h1) (ih (fun g hg => hsub g (by simp [hg])))
    rw [hmap2]
    refine ⟨_, rfl, ?_, hcols a.names ext a.records hrec hsub⟩
    exact hext.length_eq.symm

/-- Reordering fails with `KeyError` when a field name is unknown or a component is missing. -/
theorem reorder_err {α : Type} (aliases : List (String × String)) (order : List String)
    (a : Structured α) (hself : ∀ o ∈ order, Dict.get? aliases o = some o)
    (h : (∃ n ∈ a.names, Dict.get? aliases n = none) ∨
      (∃ o ∈ order, ∀ n ∈ a.names, Dict.get? aliases n ≠ some o)) :
    reorder aliases order a = .error .keyError := by
  have hn : a.names ≠ order := by
    intro e
    rcases h with ⟨n, hn, hx⟩ | ⟨o, ho, hx⟩
    · rw [e] at hn; rw [hself n hn] at hx; cases hx
    · exact hx o (by rw [e]; exact ho) (hself o ho)
  unfold reorder
  rw [if_neg hn]
  by_cases hunk : ∃ n ∈ a.names, Dict.get? aliases n = none
  · obtain ⟨n, hn, hx⟩ := hunk
    rw [mapNames_err aliases a.names n hn hx]
  · obtain ⟨o, ho, hx⟩ := h.resolve_left hunk
    have hall : ∀ n ∈ a.names, ∃ c, Dict.get? aliases n = some c := by
      intro n hn
      cases hg : Dict.get? aliases n with
      | none => exact absurd ⟨n, hn, hg⟩ hunk
      | some c => exact ⟨c, rfl⟩
    have hcanon : ∃ canon, List.Forall₂ (fun n c => Dict.get? aliases n = some c) a.names canon := by
      clear hn h hunk hx
      revert hall
      generalize a.names = ns
      intro hall
      induction ns with
      | nil => exact ⟨[], .nil⟩
      | cons n ns ih =>
        obtain ⟨c, hc⟩ := hall n (by simp)
        obtain ⟨cs, hcs⟩ := ih (fun m hm => hall m (by simp [hm]))
        exact ⟨c :: cs, .cons hc hcs⟩
    obtain ⟨canon, hcan⟩ := hcanon
    rw [mapNames_ok aliases a.names canon hcan]
    simp only
    have : Dict.get? (Dict.ofPairs (canon.zip a.names)) o = none := by
      rw [Dict.get?_eq_none_iff]
      have hk : ∀ (ps : List (String × String)) (k : String),
          k ∈ Dict.keys (Dict.ofPairs ps) → k ∈ ps.map Prod.fst := by
        intro ps k hk
        have := (Dict.mem_keys_update ([] : Dict String) ps k).1 (by simpa [Dict.update, Dict.ofPairs] using hk)
        simpa [Dict.keys] using this
      intro hmem
      have hm := hk _ _ hmem
      rw [List.map_fst_zip (by rw [hcan.length_eq])] at hm
      have : ∃ n ∈ a.names, Dict.get? aliases n = some o := by
        clear hn h hunk hx hall hmem
        revert hcan
        generalize a.names = ns
        intro hcan
        induction hcan with
        | nil => cases hm
        | cons h1 _ ih =>
          rcases List.mem_cons.1 hm with e | e
          · subst e; exact ⟨_, by simp, h1⟩
          · obtain ⟨n, hn, hh⟩ := ih e
            exact ⟨n, by simp [hn], hh⟩
      obtain ⟨n, hn, hh⟩ := this
      exact hx n hn hh
    rw [mapNames_err _ order o ho this]

theorem momentumAlias_iff (c f : String) (hc : c ∈ ["x", "y", "z", "e"]) :
    Dict.get? momentumMap f = some c ↔ MomentumAlias c f := by
  simp only [List.mem_cons, List.not_mem_nil, or_false] at hc
  by_cases hf : f ∈ ["x", "px", "y", "py", "z", "pz", "e", "pe", "E"]
  · simp only [List.mem_cons, List.not_mem_nil, or_false] at hf
    rcases hc with rfl | rfl | rfl | rfl <;>
    rcases hf with rfl | rfl | rfl | rfl | rfl | rfl | rfl | rfl | rfl <;>
    simp [MomentumAlias, momentumMap, Dict.get?_cons]
  · have hn : Dict.get? momentumMap f = none := by
      rw [Dict.get?_eq_none_iff]; simpa [momentumMap, Dict.keys] using hf
    rw [hn]
    simp only [List.mem_cons, List.not_mem_nil, or_false, not_or] at hf
    obtain ⟨h1, h2, h3, h4, h5, h6, h7, h8, h9⟩ := hf
    rcases hc with rfl | rfl | rfl | rfl <;>
    simp [MomentumAlias, h1, h2, h3, h4, h5, h6, h7, h8, h9]

theorem edgeAlias_iff (c f : String) (hc : c ∈ ["src", "dst"]) :
    Dict.get? edgeMap f = some c ↔ EdgeAlias c f := by
  simp only [List.mem_cons, List.not_mem_nil, or_false] at hc
  by_cases hf : f ∈ ["in", "src", "out", "dst"]
  · simp only [List.mem_cons, List.not_mem_nil, or_false] at hf
    rcases hc with rfl | rfl <;>
    rcases hf with rfl | rfl | rfl | rfl <;>
    simp [EdgeAlias, edgeMap, Dict.get?_cons]
  · have hn : Dict.get? edgeMap f = none := by
      rw [Dict.get?_eq_none_iff]; simpa [edgeMap, Dict.keys] using hf
    rw [hn]
    simp only [List.mem_cons, List.not_mem_nil, or_false, not_or] at hf
    obtain ⟨h1, h2, h3, h4⟩ := hf
    rcases hc with rfl | rfl <;> simp [EdgeAlias, h1, h2, h3, h4]

theorem chunks_flatten {α : Type} (k : Nat) (rs : List (List α)) (h : ∀ r ∈ rs, r.length = k) :
    chunks k rs.length rs.flatten = rs ∧ rs.flatten.length = rs.length * k := by
  induction rs with
  | nil => simp [chunks]
  | cons r rs ih =>
    obtain ⟨h1, h2⟩ := ih (fun x hx => h x (by simp [hx]))
    have hr : r.length = k := h r (by simp)
    constructor
    · simp [chunks, ← hr]
      rw [hr]; exact h1
    · simp only [List.flatten_cons, List.length_append, h2, hr, List.length_cons, Nat.succ_mul]
      omega

theorem forall₂_map_lengths {α : Type} {ext names : List String} {rs ss : List (List α)}
    (h : List.Forall₂ (fun r s => s.map some = ext.map (valueOf names r)) rs ss) :
    ∀ s ∈ ss, s.length = ext.length := by
  induction h with
  | nil => simp
  | cons h1 _ ih =>
    intro s hs
    rcases List.mem_cons.1 hs with rfl | hs
    · have := congrArg List.length h1; simpa using this
    · exact ih s hs

/-- **C16** A structured momentum array whose four fields carry any of the accepted names, in any
order, is accepted, and record `i` of the result is the value of the x-field, y-field, z-field and
e-field of record `i` of the input, whatever positions these fields have. -/
theorem C16_by_name {α : Type} (a : Structured α) (fx fy fz fe : String)
    (hx : MomentumAlias "x" fx) (hy : MomentumAlias "y" fy) (hz : MomentumAlias "z" fz)
    (he : MomentumAlias "e" fe) (hperm : a.names.Perm [fx, fy, fz, fe])
    (hrec : ∀ r ∈ a.records, r.length = 4) :
    ∃ b, constructStructured .momentum a = .ok b ∧ b.len = a.records.length ∧
      List.Forall₂ (fun r s => s.map some =
        [valueOf a.names r fx, valueOf a.names r fy, valueOf a.names r fz, valueOf a.names r fe])
        a.records (records .momentum b) := by
  have hnl : a.names.length = 4 := by simpa using hperm.length_eq
  obtain ⟨b, hb, hbn, hbr⟩ := reorder_spec momentumMap ["x", "y", "z", "e"] [fx, fy, fz, fe] a
    (by decide) (by decide)
    (.cons ((momentumAlias_iff _ _ (by simp)).2 hx) (.cons ((momentumAlias_iff _ _ (by simp)).2 hy)
      (.cons ((momentumAlias_iff _ _ (by simp)).2 hz)
        (.cons ((momentumAlias_iff _ _ (by simp)).2 he) .nil)))) hperm
    (by rw [hnl]; exact hrec)
  have hl4 : ∀ s ∈ b.records, s.length = 4 := forall₂_map_lengths hbr
  obtain ⟨hc, hfl⟩ := chunks_flatten 4 b.records hl4
  have hlen : b.records.length = a.records.length := hbr.length_eq.symm
  have hbn4 : b.names.length = 4 := hbn
  refine ⟨⟨[b.records.flatten.length / 4, 4], b.records.flatten⟩, ?_, ?_, ?_⟩
  · simp [constructStructured, convertStructured, Kind.cols, hb, convertNd, unstructure, hbn4, isFlat]
  · simp [Nd.len, hfl, hlen]
  · have : records .momentum ⟨[b.records.flatten.length / 4, 4], b.records.flatten⟩ = b.records := by
      simp only [records, Kind.cols, hfl]
      simpa using hc
    rw [this]; simpa using hbr

/-- **C16** Field order and spelling never matter: two structured momentum arrays that show the same
values under their x, y, z and e fields give the same `MomentumArray`. -/
theorem C16_order_irrelevant {α : Type} (a a' : Structured α) (fx fy fz fe gx gy gz ge : String)
    (hx : MomentumAlias "x" fx) (hy : MomentumAlias "y" fy) (hz : MomentumAlias "z" fz)
    (he : MomentumAlias "e" fe) (hx' : MomentumAlias "x" gx) (hy' : MomentumAlias "y" gy)
    (hz' : MomentumAlias "z" gz) (he' : MomentumAlias "e" ge)
    (hp : a.names.Perm [fx, fy, fz, fe]) (hp' : a'.names.Perm [gx, gy, gz, ge])
    (hr : ∀ r ∈ a.records, r.length = 4) (hr' : ∀ r ∈ a'.records, r.length = 4)
    (hsame : List.Forall₂ (fun r r' =>
      valueOf a.names r fx = valueOf a'.names r' gx ∧ valueOf a.names r fy = valueOf a'.names r' gy ∧
      valueOf a.names r fz = valueOf a'.names r' gz ∧ valueOf a.names r fe = valueOf a'.names r' ge)
      a.records a'.records) :
    ∃ b b', constructStructured .momentum a = .ok b ∧ constructStructured .momentum a' = .ok b' ∧
      records .momentum b = records .momentum b' := by
  obtain ⟨b, hb, -, h1⟩ := C16_by_name a fx fy fz fe hx hy hz he hp hr
  obtain ⟨b', hb', -, h2⟩ := C16_by_name a' gx gy gz ge hx' hy' hz' he' hp' hr'
  refine ⟨b, b', hb, hb', ?_⟩
  clear hr hr' hp hp' hb hb'
  have : ∀ (n n' : List String) (rs rs' ss ss' : List (List α)),
      List.Forall₂ (fun r r' => valueOf n r fx = valueOf n' r' gx ∧ valueOf n r fy = valueOf n' r' gy ∧
        valueOf n r fz = valueOf n' r' gz ∧ valueOf n r fe = valueOf n' r' ge) rs rs' →
      List.Forall₂ (fun r s => s.map some =
        [valueOf n r fx, valueOf n r fy, valueOf n r fz, valueOf n r fe]) rs ss →
      List.Forall₂ (fun r s => s.map some =
        [valueOf n' r gx, valueOf n' r gy, valueOf n' r gz, valueOf n' r ge]) rs' ss' → ss = ss' := by
    intro n n' rs rs' ss ss' h0
    induction h0 generalizing ss ss' with
    | nil => intro h1 h2; cases h1; cases h2; rfl
    | cons h _ ih =>
      intro h1 h2
      cases h1 with
      | cons a1 a2 =>
        cases h2 with
        | cons b1 b2 =>
          rw [ih _ _ a2 b2]
          rw [h.1, h.2.1, h.2.2.1, h.2.2.2, ← b1] at a1
          rw [List.map_injective_iff.2 (Option.some_injective _) a1]
  exact this _ _ _ _ _ _ hsame h1 h2

/-- **C16** An unknown field name or a missing component raises `KeyError`. -/
theorem C16_error {α : Type} (a : Structured α)
    (h : (∃ n ∈ a.names, ∀ c ∈ ["x", "y", "z", "e"], ¬ MomentumAlias c n) ∨
      (∃ c ∈ ["x", "y", "z", "e"], ∀ n ∈ a.names, ¬ MomentumAlias c n)) :
    constructStructured .momentum a = .error .keyError := by
  have : reorder momentumMap ["x", "y", "z", "e"] a = .error .keyError := by
    apply reorder_err _ _ _ (by decide)
    rcases h with ⟨n, hn, h⟩ | ⟨c, hc, h⟩
    · refine Or.inl ⟨n, hn, ?_⟩
      cases hg : Dict.get? momentumMap n with
      | none => rfl
      | some c =>
        exfalso
        have hc : c ∈ ["x", "y", "z", "e"] := by
          have := Dict.mem_of_get? hg
          revert this
          simp only [momentumMap, List.mem_cons, Prod.mk.injEq, List.not_mem_nil, or_false]
          tauto
        exact h c hc ((momentumAlias_iff c n hc).1 hg)
    · exact Or.inr ⟨c, hc, fun n hn e => h n hn ((momentumAlias_iff c n hc).1 e)⟩
  simp [constructStructured, convertStructured, Kind.cols, this]

/-- Non-vacuity: two particles given as (E, pz, py, px) come out as (x, y, z, e). -/
example : (constructStructured .momentum
    ⟨["E", "pz", "py", "px"], [[9, 3, 2, 1], [8, 6, 5, 4]]⟩).map (records .momentum) =
    .ok [[1, 2, 3, 9], [4, 5, 6, 8]] := by decide

/-- **C17** A structured edge list whose two fields carry any of the accepted names, in either
order, is accepted, and record `i` of the result is (source, destination) of record `i`. -/
theorem C17_by_name {α : Type} (a : Structured α) (fs fd : String)
    (hs : EdgeAlias "src" fs) (hd : EdgeAlias "dst" fd) (hperm : a.names.Perm [fs, fd])
    (hrec : ∀ r ∈ a.records, r.length = 2) :
    ∃ b, constructStructured .edges a = .ok b ∧ b.len = a.records.length ∧
      List.Forall₂ (fun r s => s.map some = [valueOf a.names r fs, valueOf a.names r fd])
        a.records (records .edges b) := by
  have hnl : a.names.length = 2 := by simpa using hperm.length_eq
  obtain ⟨b, hb, hbn, hbr⟩ := reorder_spec edgeMap ["src", "dst"] [fs, fd] a
    (by decide) (by decide)
    (.cons ((edgeAlias_iff _ _ (by simp)).2 hs) (.cons ((edgeAlias_iff _ _ (by simp)).2 hd) .nil))
    hperm (by rw [hnl]; exact hrec)
  have hl2 : ∀ s ∈ b.records, s.length = 2 := forall₂_map_lengths hbr
  obtain ⟨hc, hfl⟩ := chunks_flatten 2 b.records hl2
  have hlen : b.records.length = a.records.length := hbr.length_eq.symm
  have hbn2 : b.names.length = 2 := hbn
  have hany : a.names.any (fun n => (Dict.get? edgeMap n).isSome) = true := by
    rw [List.any_eq_true]
    exact ⟨fs, hperm.mem_iff.2 (by simp), by rw [(edgeAlias_iff _ _ (by simp)).2 hs]; rfl⟩
  refine ⟨⟨[b.records.length, b.names.length], b.records.flatten⟩, ?_, ?_, ?_⟩
  · simp only [constructStructured, convertStructured, Kind.cols, hany, hb, convertNd, unstructure,
      hbn2, isFlat]
    simp
  · simp [Nd.len, hlen]
  · have : records .edges ⟨[b.records.length, b.names.length], b.records.flatten⟩ = b.records := by
      simp only [records, Kind.cols, hfl]
      simpa using hc
    rw [this]; simpa using hbr

example : (constructStructured .edges ⟨["out", "in"], [[2, 1], [3, 2]]⟩).map (records .edges) =
    .ok [[1, 2], [2, 3]] := by decide

/-- **C18** The fields of structured colours are taken in the order of their columns, whatever their names: the first
field becomes the colour and the second the anticolour, for every pair of field names but those of edges. -/
theorem C18_columns {α : Type} (f g : String) (hfg : f ≠ g) (hf : f ∉ ["in", "out", "src", "dst"])
    (hg : g ∉ ["in", "out", "src", "dst"]) (rs : List (List α)) (hrec : ∀ r ∈ rs, r.length = 2) :
    ∃ b, constructStructured .color ⟨[f, g], rs⟩ = .ok b ∧ b.len = rs.length ∧
      List.Forall₂ (fun r s => s.map some = [valueOf [f, g] r f, valueOf [f, g] r g]) rs (records .color b) := by
  obtain ⟨hc, hfl⟩ := chunks_flatten 2 rs hrec
  refine ⟨⟨[rs.length, 2], rs.flatten⟩, ?_, ?_, ?_⟩
  · simp only [List.mem_cons, List.not_mem_nil, or_false, not_or] at hf hg
    simp [constructStructured, convertStructured, Kind.cols, edgeMap, Dict.get?_cons, convertNd,
      unstructure, isFlat, Dict.get?_nil, Ne.symm hf.1, Ne.symm hf.2.1, Ne.symm hf.2.2.1, Ne.symm hf.2.2.2,
      Ne.symm hg.1, Ne.symm hg.2.1, Ne.symm hg.2.2.1, Ne.symm hg.2.2.2]
  · simp [Nd.len]
  · have : records .color (⟨[rs.length, 2], rs.flatten⟩ : Nd α) = rs := by
      simp only [records, Kind.cols, hfl]; simpa using hc
    rw [this]
    clear hc hfl this
    induction rs with
    | nil => exact .nil
    | cons r rs ih =>
      refine .cons ?_ (ih (fun r h => hrec r (by simp [h])))
      match r, hrec r (by simp) with
      | [x, y], _ => simp [valueOf, hfg, Ne.symm hfg, List.idxOf_cons]

/-- **C18** So `color` and `anticolor` are read by name exactly when they come in that order: in the other order, every
record is read correctly only if its two numbers coincide. -/
theorem C18_swapped {α : Type} (rs : List (List α)) (hrec : ∀ r ∈ rs, r.length = 2) (b : Nd α)
    (hb : constructStructured .color ⟨["anticolor", "color"], rs⟩ = .ok b) :
    List.Forall₂ (fun r s => s.map some =
        [valueOf ["anticolor", "color"] r "color", valueOf ["anticolor", "color"] r "anticolor"]) rs
        (records .color b) ↔ ∀ r ∈ rs, ∃ x, r = [x, x] := by
  obtain ⟨b', hb', -, hf⟩ := C18_columns "anticolor" "color" (by decide) (by decide) (by decide) rs hrec
  rw [hb'] at hb
  cases hb
  generalize records Kind.color b = ss at hf
  have hv : ∀ x y : α, valueOf ["anticolor", "color"] [x, y] "anticolor" = some x ∧
      valueOf ["anticolor", "color"] [x, y] "color" = some y := fun x y => ⟨rfl, rfl⟩
  clear hb'
  induction hf with
  | nil => simp
  | @cons r s rs ss h hf ih =>
    have ih' := ih (fun r h => hrec r (List.mem_cons_of_mem _ h))
    rw [List.forall₂_cons, List.forall_mem_cons]
    refine and_congr ?_ ih'
    match r, hrec r (by simp), h with
    | [x, y], _, h =>
      rw [(hv x y).1, (hv x y).2] at h ⊢
      rw [h]
      constructor
      · intro e; simp only [List.cons.injEq, Option.some.injEq] at e; exact ⟨x, by rw [← e.1]⟩
      · rintro ⟨z, e⟩; simp only [List.cons.injEq] at e; obtain ⟨rfl, rfl, -⟩ := e; rfl

/-- **C18** The expectation that structured colours are read by name is refuted. -/
theorem C18_false : ∃ a : Structured Nat, a.names.Perm ["color", "anticolor"] ∧
    (∀ r ∈ a.records, r.length = 2) ∧ ∃ b, constructStructured .color a = .ok b ∧
    ¬ List.Forall₂ (fun r s => s.map some = [valueOf a.names r "color", valueOf a.names r "anticolor"])
        a.records (records .color b) := by
  refine ⟨⟨["anticolor", "color"], [[501, 502]]⟩, by decide, by decide, ⟨[1, 2], [501, 502]⟩,
    by decide, ?_⟩
  intro h
  have h1 : records .color (⟨[1, 2], [501, 502]⟩ : Nd Nat) = [[501, 502]] := by decide
  rw [h1] at h
  cases h with
  | cons h _ => revert h; decide

/-! ## C19: integer subscripts -/

/-- The array a class holds after construction from `n` records. -/
def Stored {α : Type} (k : Kind) (n : Nat) (a : Nd α) : Prop :=
  (a.shape = match k with | .scalar => [n] | _ => [n, k.cols]) ∧ a.flat.length = n * k.cols

theorem rowAt_stored {α : Type} (k : Kind) (n : Nat) (a : Nd α) (h : Stored k n a) (i : Int) (j : Nat)
    (hj : normIdx n i = .ok j) :
    rowAt a i = .ok ⟨a.shape.tail, rowOf k.cols a.flat j⟩ := by
  obtain ⟨hs, hl⟩ := h
  cases k <;> simp [rowAt, hs, hj, Kind.cols, rowOf]

/-- **C19** For every class but `ColorArray`: a valid integer subscript gives an array of length one
holding record `i` (counted from the end when negative), and any other integer is `IndexError`. -/
theorem C19_getitem_int {α : Type} (k : Kind) (hk : k ≠ .color) (n : Nat) (a : Nd α)
    (h : Stored k n a) (i : Int) :
    (∀ j : Nat, j < n → (i = (j : Int) ∨ i = (j : Int) - n) →
      ∃ b r, getInt k a i = .ok b ∧ b.len = 1 ∧ (records k a)[j]? = some r ∧ records k b = [r]) ∧
    ((i < -(n : Int) ∨ (n : Int) ≤ i) → getInt k a i = .error .indexError) := by
  have hn : a.shape.head? = some n := by rw [h.1]; cases k <;> rfl
  constructor
  · intro j hj hi
    have hnorm : normIdx n i = .ok j := by
      rw [normIdx_ok_iff]; unfold Denotes; omega
    have hrow := rowAt_stored k n a h i j hnorm
    have hrec : IsRows k.cols n a.flat (records k a) := by
      have : a.flat.length / k.cols = n := by
        rw [h.2]; cases k <;> simp [Kind.cols]
      unfold records
      rw [this]
      exact chunks_spec _ _ _ h.2
    obtain ⟨h1, h2⟩ := hrec.2 j hj
    have hone : ∀ (r : List α), r.length = k.cols → chunks k.cols (r.length / k.cols) r = [r] := by
      intro r hr
      have : r.length / k.cols = 1 := by rw [hr]; cases k <;> simp [Kind.cols]
      rw [this]; simp [chunks, ← hr]
    cases k with
    | color => exact absurd rfl hk
    | scalar =>
      refine ⟨⟨[1], rowOf 1 a.flat j⟩, _, ?_, rfl, h1, ?_⟩
      · have h2' : (rowOf 1 a.flat j).length = 1 := h2
        have hs := h.1
        simp only at hs
        simp [getInt, hrow, construct, convertNd, hs, isFlat, Kind.cols, h2']
      · exact hone _ h2
    | momentum =>
      refine ⟨⟨[1, 4], rowOf 4 a.flat j⟩, _, ?_, rfl, h1, ?_⟩
      · have h2' : (rowOf 4 a.flat j).length = 4 := h2
        have hs := h.1
        simp only [Kind.cols] at hs
        simp [getInt, hrow, construct, convertNd, hs, isFlat, Kind.cols, h2']
      · exact hone _ h2
    | edges =>
      refine ⟨⟨[1, 2], rowOf 2 a.flat j⟩, _, ?_, rfl, h1, ?_⟩
      · have h2' : (rowOf 2 a.flat j).length = 2 := h2
        have hs := h.1
        simp only [Kind.cols] at hs
        simp [getInt, hrow, construct, convertNd, isFlat, Kind.cols, h2']
      · exact hone _ h2
  · intro hi
    have hnorm : normIdx n i = .error .indexError := by
      unfold normIdx
      rw [if_neg (by omega), if_neg (by omega)]
    have hr : rowAt a i = .error .indexError := by
      obtain ⟨hs, -⟩ := h
      cases k <;> simp [rowAt, hs, hnorm]
    cases k <;> simp [getInt, hr]

/-- **C19** The expectation of length one is refuted for `ColorArray`: a valid integer subscript gives an array reporting
length two. -/
theorem C19_false : ∃ (a b : Nd Nat), Stored .color 3 a ∧ getInt .color a 1 = .ok b ∧ b.len = 2 :=
  ⟨⟨[3, 2], [501, 0, 0, 501, 502, 503]⟩, ⟨[2], [0, 501]⟩, ⟨by decide, by decide⟩, by decide, by decide⟩

/-- **C19** (`ColorArray`): the two numbers stored are those of record `i`, as one flat record of reported
length 2, and outside the range the subscript is `IndexError`. -/
theorem C19_color {α : Type} (n : Nat) (a : Nd α) (h : Stored .color n a) (i : Int) :
    (∀ j : Nat, j < n → (i = (j : Int) ∨ i = (j : Int) - n) →
      ∃ b r, getInt .color a i = .ok b ∧ b.len = 2 ∧ (records .color a)[j]? = some r ∧
        records .color b = [r]) ∧
    ((i < -(n : Int) ∨ (n : Int) ≤ i) → getInt .color a i = .error .indexError) := by
  constructor
  · intro j hj hi
    have hnorm : normIdx n i = .ok j := by
      rw [normIdx_ok_iff]; unfold Denotes; omega
    have hrow := rowAt_stored .color n a h i j hnorm
    have hrec : IsRows 2 n a.flat (records .color a) := by
      have : a.flat.length / 2 = n := by rw [h.2]; simp [Kind.cols]
      unfold records
      rw [Kind.cols, this]
      exact chunks_spec _ _ _ h.2
    obtain ⟨h1, h2⟩ := hrec.2 j hj
    have hs := h.1
    simp only [Kind.cols] at hs
    refine ⟨⟨[2], rowOf 2 a.flat j⟩, _, ?_, rfl, h1, ?_⟩
    · simp [getInt, hrow, construct, convertNd, hs, isFlat, Kind.cols]
    · simp only [records, Kind.cols, h2]
      have := List.take_of_length_le (l := rowOf 2 a.flat j) (i := 2) (by omega)
      simp [chunks, this]
  · intro hi
    have hnorm : normIdx n i = .error .indexError := by
      unfold normIdx
      rw [if_neg (by omega), if_neg (by omega)]
    have hr : rowAt a i = .error .indexError := by simp [rowAt, h.1, hnorm]
    simp [getInt, hr]

example : Stored .momentum 2 (⟨[2, 4], [1, 2, 3, 4, 5, 6, 7, 8]⟩ : Nd Nat) := by
  constructor <;> decide

end Gcl
