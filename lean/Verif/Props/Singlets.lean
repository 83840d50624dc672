import Verif.Spec.Select
import Verif.Props.Pdg
import Verif.Lemmas.Hard
import Mathlib.Data.List.Dedup
/-!
# C54: `color_singlets`
-/
namespace Gcl
set_option autoImplicit false
open Spec Classical

/-! ## Combinations -/

theorem combos_map {α β : Type} (f : α → β) (k : Nat) (l : List α) :
    combos k (l.map f) = (combos k l).map (fun c => c.map f) := by
  induction l generalizing k with
  | nil => cases k <;> simp [combos]
  | cons x xs ih =>
    cases k with
    | zero => simp [combos]
    | succ k => simp [combos, ih, Function.comp_def]

theorem combos_filter {α : Type} (p : α → Bool) (k : Nat) (l : List α) :
    combos k (l.filter p) = (combos k l).filter (fun c => c.all p) := by
  induction l generalizing k with
  | nil => cases k <;> simp [combos, List.filter_cons]
  | cons x xs ih =>
    cases k with
    | zero => simp [combos, List.filter_cons]
    | succ k =>
      by_cases hx : p x = true
      · rw [List.filter_cons_of_pos hx]
        simp only [combos, ih, List.filter_append, List.filter_map]
        congr 2
        apply List.filter_congr
        intro c _
        simp [hx]
      · rw [List.filter_cons_of_neg hx]
        simp only [combos, List.filter_append, ih (k + 1), List.filter_map]
        have : (combos k xs).filter ((fun c => c.all p) ∘ fun x_1 => x :: x_1) = [] := by
          rw [List.filter_eq_nil_iff]; intro c _; simp [hx]
        rw [this]; simp

theorem mem_combos {α : Type} (k : Nat) (l c : List α) :
    c ∈ combos k l ↔ c.Sublist l ∧ c.length = k := by
  induction l generalizing k c with
  | nil =>
    cases k with
    | zero => simp [combos]
    | succ k =>
      simp only [combos, List.not_mem_nil, List.sublist_nil, false_iff, not_and]
      rintro rfl; simp
  | cons x xs ih =>
    cases k with
    | zero =>
      simp only [combos, List.mem_singleton, List.length_eq_zero_iff]
      exact ⟨fun h => ⟨by simp [h], h⟩, fun h => h.2⟩
    | succ k =>
      simp only [combos, List.mem_append, List.mem_map, ih]
      constructor
      · rintro (⟨d, ⟨h1, h2⟩, rfl⟩ | ⟨h1, h2⟩)
        · exact ⟨h1.cons_cons x, by simp [h2]⟩
        · exact ⟨h1.cons x, h2⟩
      · rintro ⟨h1, h2⟩
        cases h1 with
        | cons _ h => exact Or.inr ⟨h, h2⟩
        | cons_cons _ h => exact Or.inl ⟨_, ⟨h, by simpa using h2⟩, rfl⟩

theorem combos_lex (k : Nat) (l : List Nat) (h : l.Pairwise (· < ·)) :
    (combos k l).Pairwise (List.Lex (· < ·)) := by
  induction l generalizing k with
  | nil => cases k <;> simp [combos]
  | cons x xs ih =>
    rw [List.pairwise_cons] at h
    cases k with
    | zero => simp [combos]
    | succ k =>
      simp only [combos]
      rw [List.pairwise_append]
      refine ⟨?_, ih (k + 1) h.2, ?_⟩
      · rw [List.pairwise_map]
        exact (ih k h.2).imp (fun h => List.Lex.cons h)
      · intro a ha b hb
        obtain ⟨d, _, rfl⟩ := List.mem_map.1 ha
        obtain ⟨hb1, hb2⟩ := (mem_combos _ _ _).1 hb
        cases b with
        | nil => simp at hb2
        | cons y ys => exact List.Lex.rel (h.1 y (hb1.mem (by simp)))

theorem combos_range (n k : Nat) : IsCombos n k (combos k (List.range n)) := by
  refine ⟨combos_lex k _ List.pairwise_lt_range, fun c => ?_⟩
  rw [mem_combos]
  constructor
  · rintro ⟨h1, h2⟩
    exact ⟨h2, List.pairwise_lt_range.sublist h1, fun i hi => List.mem_range.1 (h1.mem hi)⟩
  · rintro ⟨h1, h2, h3⟩
    refine ⟨?_, h1⟩
    exact List.sublist_of_subperm_of_pairwise
      (List.subperm_of_subset (h2.imp (fun h => Nat.ne_of_lt h)) (fun i hi => List.mem_range.2 (h3 i hi)))
      h2 List.pairwise_lt_range

/-! ## The colours of the leaves -/

theorem outgoingMask_eq (status : List Int) :
    outgoingMask status = .ok (status.map (fun s => decide (|s| = 23))) := by
  have : status.map (fun s => decide (|s| = 23)) = (status.map (absWrap 16)).map (fun x => x == 23) := by
    rw [List.map_map]
    apply List.map_congr_left
    intro s _
    exact (absWrap16_beq s 23 (by omega) (by omega)).symm
  rw [this]
  rfl

theorem compress_single {α : Type} (l : List α) (m : List Bool) (i : Nat) (x : α) (hx : l[i]? = some x)
    (hi : m[i]? = some true) (hu : ∀ i' : Nat, m[i']? = some true → i' = i) :
    compress l m = [x] := by
  induction m generalizing l i with
  | nil => simp at hi
  | cons b m ih =>
    cases l with
    | nil => simp at hx
    | cons y l =>
      cases i with
      | zero =>
        simp only [List.getElem?_cons_zero, Option.some.injEq] at hx hi
        subst hx hi
        have : compress l m = [] := by
          unfold compress
          rw [List.filterMap_eq_nil_iff]
          rintro ⟨a, b⟩ hp
          obtain ⟨j, hj⟩ := List.mem_iff_getElem?.1 hp
          rw [List.getElem?_zip_eq_some] at hj
          cases b with
          | false => rfl
          | true => have := hu (j + 1) (by simpa using hj.2); omega
        unfold compress at this ⊢
        simp [this]
      | succ i =>
        have hb : b = false := by
          cases b with
          | false => rfl
          | true => have := hu 0 (by simp); omega
        subst hb
        have := ih l i (by simpa using hx) (by simpa using hi) (fun i' h' => by
          have := hu (i' + 1) (by simpa using h'); omega)
        unfold compress at this ⊢
        simpa using this

theorem andAll_ok (hard : List Bool) (ms : List (List Bool)) (h : ∀ m ∈ ms, m.length = hard.length) :
    andAll hard ms = .ok (ms.map (fun m => List.zipWith (· && ·) hard m)) := by
  induction ms with
  | nil => rfl
  | cons m ms ih =>
    simp only [andAll, bcast2_eq_length _ (h m (by simp)).symm, ih (fun m' h' => h m' (by simp [h'])),
      List.map_cons]

theorem compress_range {α : Type} (l : List α) (m : List Bool) :
    compress l m = (List.range m.length).filterMap (fun i => if m[i]? = some true then l[i]? else none) := by
  induction m generalizing l with
  | nil => simp [compress]
  | cons b m ih =>
    rw [List.length_cons, List.range_succ_eq_map]
    cases l with
    | nil =>
      simp only [compress, List.zip_nil_left, List.filterMap_nil]
      symm
      rw [List.filterMap_eq_nil_iff]
      intro i _
      simp
    | cons x l =>
      have := ih l
      unfold compress at this ⊢
      cases b with
      | false => simp [this, List.filterMap_map, Function.comp_def]
      | true => simp [this, List.filterMap_map, Function.comp_def]

/-- The chained colours. -/
theorem colors_any {leaves : Dict (List Bool)} {status : List Int} {color : List (Int × Int)}
    (hlen : ∀ kv ∈ leaves, kv.2.length = status.length) :
    (((leaves.map Prod.snd).map (fun m =>
      List.zipWith (· && ·) (status.map (fun s => decide (|s| = 23))) m)).map (compress color)).flatten
      = partonColours leaves status color := by
  unfold partonColours
  rw [List.map_map, List.map_map, List.flatMap_def]
  congr 1
  apply List.map_congr_left
  intro kv hkv
  have hl := hlen kv hkv
  simp only [Function.comp_apply, compress_range]
  rw [show (List.zipWith (· && ·) (status.map (fun s => decide (|s| = 23))) kv.2).length = status.length by simp [hl]]
  apply List.filterMap_congr
  intro i hi
  have hi' : i < status.length := List.mem_range.1 hi
  have hi2 : i < kv.2.length := by omega
  simp [List.getElem?_zipWith, List.getElem?_map, List.getElem?_eq_getElem hi', List.getElem?_eq_getElem hi2,
    and_comm]

/-- Under the one-parton condition the chained colours are the colours of the leaves' partons. -/
theorem colors_one {leaves : Dict (List Bool)} {status : List Int} {color cols : List (Int × Int)}
    (hone : OneParton leaves status color cols)
    (hlen : ∀ kv ∈ leaves, kv.2.length = status.length) :
    partonColours leaves status color = cols := by
  rw [← colors_any hlen]
  induction hone with
  | nil => rfl
  | @cons kv c leaves cols h _ ih =>
    obtain ⟨i, h1, h2, h3, h4⟩ := h
    have hmi : ∀ j : Nat, (List.zipWith (· && ·) (status.map (fun s => decide (|s| = 23))) kv.2)[j]? =
        some true ↔ kv.2[j]? = some true ∧ Outgoing status j := by
      intro j
      rw [List.getElem?_zipWith, List.getElem?_map]
      cases hs : status[j]? with
      | none => simp [Outgoing, hs]
      | some s =>
        cases hk : kv.2[j]? with
        | none => simp
        | some b => simp [Outgoing, hs, and_comm]
    have hc := compress_single color (List.zipWith (· && ·) (status.map (fun s => decide (|s| = 23))) kv.2)
      i c h3 ((hmi i).2 ⟨h1, h2⟩) (fun i' h' => h4 i' ((hmi i').1 h').1 ((hmi i').1 h').2)
    rw [List.map_cons, List.map_cons, List.map_cons, List.flatten_cons, hc,
      ih (fun kv' h' => hlen kv' (by simp [h']))]
    rfl

theorem compress_map_zip {α : Type} (ks : List α) (cols : List (Int × Int))
    (p : Int × Int → Bool) :
    (compress ks (cols.map p)).zip (compress cols (cols.map p)) =
      (ks.zip cols).filter (fun q => p q.2) ∧
    compress ks (cols.map p) = ((ks.zip cols).filter (fun q => p q.2)).map Prod.fst := by
  induction ks generalizing cols with
  | nil => simp [compress]
  | cons k ks ih =>
    cases cols with
    | nil => simp [compress]
    | cons c cols =>
      obtain ⟨h1, h2⟩ := ih cols
      unfold compress at h1 h2 ⊢
      by_cases hc : p c = true
      · constructor
        · simp [hc, h1]
        · simp [hc, h2]
      · simp only [Bool.not_eq_true] at hc
        constructor
        · simp [hc, h1]
        · simp [hc, h2]

theorem setEq_iff (a b : List Int) : setEq a b = true ↔ ∀ x, x ∈ a ↔ x ∈ b := by
  unfold setEq
  simp only [Bool.and_eq_true, List.all_eq_true, List.contains_iff_mem]
  exact ⟨fun h x => ⟨h.1 x, h.2 x⟩, fun h => ⟨fun x => (h x).1, fun x => (h x).2⟩⟩

/-- The named colour at position `j`. -/
theorem zip_eq_map_range (ks : List String) (cols : List (Int × Int)) :
    ks.zip cols = (List.range (min ks.length cols.length)).map (fun j => (ks.getD j "", cols.getD j (0, 0))) := by
  apply List.ext_getElem?
  intro i
  by_cases hi : i < min ks.length cols.length
  · rw [List.getElem?_eq_getElem (by rw [List.length_zip]; omega), List.getElem_zip]
    simp [hi, show i < ks.length by omega, show i < cols.length by omega]
  · rw [List.getElem?_eq_none (by rw [List.length_zip]; omega), List.getElem?_eq_none (by rw [List.length_map, List.length_range]; omega)]

/-- The two tests made on a combination amount to `Neutral`. -/
theorem singlet_test (ks : List String) (cols : List (Int × Int)) (c : List Nat)
    (hc : ∀ j ∈ c, j < cols.length) :
    ((c.map (fun j => (ks.getD j "", cols.getD j (0, 0)))).all (fun q => q.2 != (0, 0)) &&
      isSinglet (c.map (fun j => (ks.getD j "", cols.getD j (0, 0))))) = decide (Neutral cols c) := by
  rw [Bool.eq_iff_iff, Bool.and_eq_true, decide_eq_true_eq]
  unfold isSinglet Neutral
  rw [setEq_iff]
  have key : ∀ (P : Int × Int → Prop), (∃ j ∈ c, ∃ q, cols[j]? = some q ∧ P q) ↔
      ∃ j ∈ c, P (cols.getD j (0, 0)) := by
    intro P
    constructor
    · rintro ⟨j, hj, q, hq, hp⟩
      exact ⟨j, hj, by simpa [List.getD_eq_getElem?_getD, hq] using hp⟩
    · rintro ⟨j, hj, hp⟩
      refine ⟨j, hj, _, List.getElem?_eq_getElem (hc j hj), ?_⟩
      simpa [List.getD_eq_getElem?_getD, hc j hj] using hp
  refine and_congr ?_ (forall_congr' fun x => ?_)
  · simp only [List.all_map, List.all_eq_true, Function.comp_apply, bne_iff_ne, ne_eq]
    refine forall_congr' fun j => forall_congr' fun hj => ?_
    have := hc j hj
    simp [List.getD_eq_getElem?_getD, this]
  · rw [key (fun q => q.1 = x), key (fun q => q.2 = x)]
    simp [List.mem_map]

/-- Value of lines 1040-1056. -/
theorem singletParts_any {leaves : Dict (List Bool)} {status : List Int} {color : List (Int × Int)}
    (hlen : ∀ kv ∈ leaves, kv.2.length = status.length) (cols : List (Int × Int))
    (hcols : partonColours leaves status color = cols) (n : Nat) (hn : n = min leaves.length cols.length) :
    singletParts leaves status color = .ok
      (((List.range n).filter (fun j => cols.getD j (0, 0) != (0, 0))).map
          (fun j => (Dict.keys leaves).getD j ""),
        ((combos 2 (List.range n) ++ combos 3 (List.range n)).filter
          (fun c => decide (Neutral cols c))).map
            (fun c => c.map (fun j => (Dict.keys leaves).getD j ""))) := by
  have hkl : min (Dict.keys leaves).length cols.length = n := by
    rw [Dict.keys, List.length_map, hn]
  have hand := andAll_ok (status.map (fun s => decide (|s| = 23))) (leaves.map Prod.snd) (by
    intro m hm
    obtain ⟨kv, hkv, rfl⟩ := List.mem_map.1 hm
    rw [List.length_map]; exact hlen kv hkv)
  obtain ⟨z1, z2⟩ := compress_map_zip (Dict.keys leaves) cols (fun c => c != ((0 : Int), (0 : Int)))
  have hz := zip_eq_map_range (Dict.keys leaves) cols
  rw [hkl] at hz
  have hcombo : ∀ k, (combos k ((compress (Dict.keys leaves) (cols.map (fun c => c != ((0 : Int), (0 : Int))))).zip
      (compress cols (cols.map (fun c => c != ((0 : Int), (0 : Int))))))).filter isSinglet =
      ((combos k (List.range n)).filter (fun c => decide (Neutral cols c))).map
        (fun c => c.map (fun j => ((Dict.keys leaves).getD j "", cols.getD j (0, 0)))) := by
    intro k
    rw [z1, combos_filter, List.filter_filter, hz, combos_map, List.filter_map]
    congr 1
    apply List.filter_congr
    intro c hc
    have hlt : ∀ j ∈ c, j < cols.length := fun j hj => by
      have := List.mem_range.1 (((mem_combos _ _ _).1 hc).1.mem hj)
      omega
    rw [← singlet_test (Dict.keys leaves) cols c hlt]
    simp only [Function.comp_apply]
    exact Bool.and_comm _ _
  unfold singletParts
  simp only [outgoingMask_eq, hand, colors_any hlen, hcols]
  congr 2
  · rw [z2, hz, List.filter_map, List.map_map]; rfl
  · rw [List.filter_append, hcombo 2, hcombo 3, ← List.map_append, ← List.filter_append, List.map_map]
    apply List.map_congr_left
    intro c _
    simp [Function.comp_def]

/-- **C54** For all leaves: with `cols` the colours of all outgoing partons in the leaves, leaf after leaf,
`color_singlets` takes the `j`-th colour for that of the `j`-th leaf, and lists the names at the colour neutral
pairs and then triples, each kind in the lexicographic order of positions.  Colours or leaves in excess of the
other are ignored. -/
theorem C54_any (setIter : List String → List String) (leaves : Dict (List Bool))
    (status : List Int) (color cols : List (Int × Int))
    (hlen : ∀ kv ∈ leaves, kv.2.length = status.length) (hcols : cols = partonColours leaves status color) :
    ∃ L2 L3, IsCombos (min leaves.length cols.length) 2 L2 ∧ IsCombos (min leaves.length cols.length) 3 L3 ∧
      colorSinglets setIter leaves status color false =
        .ok (((L2 ++ L3).filter (fun c => decide (Neutral cols c))).map
          (fun c => c.map (fun j => (Dict.keys leaves).getD j ""))) := by
  refine ⟨_, _, combos_range _ 2, combos_range _ 3, ?_⟩
  unfold colorSinglets
  rw [singletParts_any hlen cols hcols.symm _ rfl]
  rfl

/-- **C54** With exactly one outgoing hard parton per leaf, `color_singlets` lists the names of the colour
neutral pairs and then triples of coloured leaves, each kind in the lexicographic order of positions. -/
theorem C54_singlets (setIter : List String → List String) (leaves : Dict (List Bool))
    (status : List Int) (color cols : List (Int × Int))
    (hone : OneParton leaves status color cols)
    (hlen : ∀ kv ∈ leaves, kv.2.length = status.length) :
    ∃ L2 L3, IsCombos leaves.length 2 L2 ∧ IsCombos leaves.length 3 L3 ∧
      colorSinglets setIter leaves status color false =
        .ok (((L2 ++ L3).filter (fun c => decide (Neutral cols c))).map
          (fun c => c.map (fun j => (Dict.keys leaves).getD j ""))) := by
  obtain ⟨L2, L3, h2, h3, h⟩ := C54_any setIter leaves status color cols hlen (colors_one hone hlen).symm
  rw [← hone.length_eq, Nat.min_self] at h2 h3
  exact ⟨L2, L3, h2, h3, h⟩

/-- **C54** For all leaves, with `invert=True`: the names at the coloured positions that are in no neutral pair or
triple, each once. -/
theorem C54_invert_any (setIter : List String → List String)
    (hset : ∀ l : List String, l.Nodup → (setIter l).Perm l) (leaves : Dict (List Bool))
    (status : List Int) (color cols : List (Int × Int)) (hkeys : (Dict.keys leaves).Nodup)
    (hlen : ∀ kv ∈ leaves, kv.2.length = status.length) (hcols : cols = partonColours leaves status color) :
    ∃ ks : List String, colorSinglets setIter leaves status color true = .ok (ks.map (fun k => [k])) ∧ ks.Nodup ∧
      ∀ k, k ∈ ks ↔ ∃ j : Nat, (Dict.keys leaves)[j]? = some k ∧
        (∃ q, cols[j]? = some q ∧ q ≠ (0, 0)) ∧
        ¬ ∃ c : List Nat, (c.length = 2 ∨ c.length = 3) ∧ c.Pairwise (· < ·) ∧
          (∀ i ∈ c, i < min leaves.length cols.length) ∧ Neutral cols c ∧ j ∈ c := by
  unfold colorSinglets
  rw [singletParts_any hlen cols hcols.symm _ rfl]
  simp only [if_true]
  refine ⟨_, rfl, (hset _ (List.nodup_dedup _)).nodup_iff.2 (List.nodup_dedup _), fun k => ?_⟩
  rw [(hset _ (List.nodup_dedup _)).mem_iff, List.mem_dedup, List.mem_append]
  have hkl : (Dict.keys leaves).length = leaves.length := by
    rw [Dict.keys, List.length_map]
  generalize hn : min leaves.length cols.length = n
  set K := Dict.keys leaves with hK
  have hget : ∀ j, j < n → K[j]? = some (K.getD j "") := by
    intro j hj
    simp [show j < K.length by omega]
  have hmem : ∀ x, x ∈ (((combos 2 (List.range n) ++ combos 3 (List.range n)).filter
          (fun c => decide (Neutral cols c))).map (fun c => c.map (fun j => K.getD j ""))).flatten ↔
      ∃ j : Nat, K[j]? = some x ∧ ∃ c : List Nat, (c.length = 2 ∨ c.length = 3) ∧ c.Pairwise (· < ·) ∧
          (∀ i ∈ c, i < n) ∧ Neutral cols c ∧ j ∈ c := by
    intro x
    simp only [List.mem_flatten, List.mem_map, List.mem_filter, List.mem_append, decide_eq_true_eq,
      (combos_range _ _).2]
    constructor
    · rintro ⟨l, ⟨c, ⟨hc, hn⟩, rfl⟩, hx⟩
      obtain ⟨j, hj, rfl⟩ := List.mem_map.1 hx
      rcases hc with ⟨h1, h2, h3⟩ | ⟨h1, h2, h3⟩
      · exact ⟨j, hget j (h3 j hj), c, Or.inl h1, h2, h3, hn, hj⟩
      · exact ⟨j, hget j (h3 j hj), c, Or.inr h1, h2, h3, hn, hj⟩
    · rintro ⟨j, hjx, c, h1, h2, h3, hn, hj⟩
      refine ⟨_, ⟨c, ⟨?_, hn⟩, rfl⟩, ?_⟩
      · rcases h1 with h1 | h1
        · exact Or.inl ⟨h1, h2, h3⟩
        · exact Or.inr ⟨h1, h2, h3⟩
      · refine List.mem_map.2 ⟨j, hj, ?_⟩
        have := hget j (h3 j hj)
        rw [hjx] at this
        exact (Option.some.inj this).symm
  have hkmem : ∀ x, x ∈ ((List.range n).filter (fun j => cols.getD j (0, 0) != (0, 0))).map
          (fun j => K.getD j "") ↔ ∃ j : Nat, K[j]? = some x ∧ ∃ q, cols[j]? = some q ∧ q ≠ (0, 0) := by
    intro x
    simp only [List.mem_map, List.mem_filter, List.mem_range, bne_iff_ne]
    constructor
    · rintro ⟨j, ⟨h1, h2⟩, rfl⟩
      have h1' : j < cols.length := by omega
      refine ⟨j, hget j h1, _, List.getElem?_eq_getElem h1', ?_⟩
      simpa [List.getD_eq_getElem?_getD, h1'] using h2
    · rintro ⟨j, h1, q, h2, h3⟩
      have hj' := (List.getElem?_eq_some_iff.1 h2).1
      have hjk := (List.getElem?_eq_some_iff.1 h1).1
      have hj : j < n := by omega
      refine ⟨j, ⟨hj, ?_⟩, ?_⟩
      · simpa [List.getD_eq_getElem?_getD, h2] using h3
      · have := hget j hj
        rw [h1] at this
        exact (Option.some.inj this).symm
  constructor
  · rintro (h | h)
    · rw [List.mem_filter] at h
      obtain ⟨h1, h2⟩ := h
      obtain ⟨j, hj, hq⟩ := (hkmem k).1 h1
      refine ⟨j, hj, hq, fun hc => ?_⟩
      have := (hmem k).2 ⟨j, hj, hc⟩
      rw [Bool.not_eq_true', ← Bool.not_eq_true, List.contains_iff_mem] at h2
      exact h2 this
    · exfalso
      rw [List.mem_filter] at h
      obtain ⟨h1, h2⟩ := h
      obtain ⟨j, hj, c, _, _, _, hn, hjc⟩ := (hmem k).1 h1
      rw [Bool.not_eq_true', ← Bool.not_eq_true, List.contains_iff_mem] at h2
      exact h2 ((hkmem k).2 ⟨j, hj, hn.1 j hjc⟩)
  · rintro ⟨j, hj, hq, hno⟩
    left
    rw [List.mem_filter]
    refine ⟨(hkmem k).2 ⟨j, hj, hq⟩, ?_⟩
    rw [Bool.not_eq_true', ← Bool.not_eq_true, List.contains_iff_mem]
    intro h
    obtain ⟨j', hj', c, hc⟩ := (hmem k).1 h
    have hjl := (List.getElem?_eq_some_iff.1 hj).1
    have : j = j' := (List.getElem?_inj hjl hkeys).1 (hj.trans hj'.symm)
    subst this
    exact hno ⟨c, hc⟩

/-- **C54** With exactly one outgoing hard parton per leaf and `invert=True`: the names of the coloured leaves that
are in no neutral pair or triple, each once. -/
theorem C54_invert (setIter : List String → List String)
    (hset : ∀ l : List String, l.Nodup → (setIter l).Perm l) (leaves : Dict (List Bool))
    (status : List Int) (color cols : List (Int × Int)) (hkeys : (Dict.keys leaves).Nodup)
    (hone : OneParton leaves status color cols)
    (hlen : ∀ kv ∈ leaves, kv.2.length = status.length) :
    ∃ ks : List String, colorSinglets setIter leaves status color true = .ok (ks.map (fun k => [k])) ∧ ks.Nodup ∧
      ∀ k, k ∈ ks ↔ ∃ j : Nat, (Dict.keys leaves)[j]? = some k ∧
        (∃ q, cols[j]? = some q ∧ q ≠ (0, 0)) ∧
        ¬ ∃ c : List Nat, (c.length = 2 ∨ c.length = 3) ∧ c.Pairwise (· < ·) ∧
          (∀ i ∈ c, i < leaves.length) ∧ Neutral cols c ∧ j ∈ c := by
  have := C54_invert_any setIter hset leaves status color cols hkeys hlen (colors_one hone hlen).symm
  rwa [← hone.length_eq, Nat.min_self] at this

/-! ## Witnesses -/

/-- Two W quarks (colours 101/0 and 0/101) and a bottom quark (102/0). -/
def exLeaves : Dict (List Bool) :=
  [("c", [true, false, false, false]), ("s~", [false, true, false, true]), ("b", [false, false, true, false])]

example : OneParton exLeaves [23, 23, -23, 91] [(101, 0), (0, 101), (102, 0), (0, 0)]
    [(101, 0), (0, 101), (102, 0)] := by
  refine .cons ⟨0, rfl, ⟨23, rfl, rfl⟩, rfl, ?_⟩ (.cons ⟨1, rfl, ⟨23, rfl, rfl⟩, rfl, ?_⟩
    (.cons ⟨2, rfl, ⟨-23, rfl, rfl⟩, rfl, ?_⟩ .nil))
  · intro i h1 _
    match i with
    | 0 => rfl
    | 1 => simp at h1
    | 2 => simp at h1
    | 3 => simp at h1
    | n + 4 => simp at h1
  · rintro i h1 ⟨s, h2, h3⟩
    match i with
    | 0 => simp at h1
    | 1 => rfl
    | 2 => simp at h1
    | 3 => simp at h2; subst h2; simp at h3
    | n + 4 => simp at h1
  · intro i h1 _
    match i with
    | 0 => simp at h1
    | 1 => simp at h1
    | 2 => rfl
    | 3 => simp at h1
    | n + 4 => simp at h1

example : (colorSinglets id exLeaves [23, 23, -23, 91] [(101, 0), (0, 101), (102, 0), (0, 0)] false =
    .ok [["c", "s~"]]) ∧
    (colorSinglets id exLeaves [23, 23, -23, 91] [(101, 0), (0, 101), (102, 0), (0, 0)] true =
    .ok [["b"]]) := by decide +kernel

/-- A leaf with no outgoing parton and one with two of them. -/
example : partonColours [("x", [false, false, true]), ("c", [true, true, false])] [23, -23, 91]
    [(101, 0), (0, 101), (0, 0)] = [(101, 0), (0, 101)] ∧
    colorSinglets id [("x", [false, false, true]), ("c", [true, true, false])] [23, -23, 91]
    [(101, 0), (0, 101), (0, 0)] false = .ok [["x", "c"]] := by decide +kernel

/-- Without the one-parton condition the names are misaligned: here leaf `x` holds no outgoing parton, and
the singlet of `c` and `s~` is reported as one of `x` and `c`. -/
theorem C54_misaligned :
    colorSinglets id [("x", [false, false, true]), ("c", [true, false, false]), ("s~", [false, true, false])]
      [23, 23, 91] [(101, 0), (0, 101), (0, 0)] false = .ok [["x", "c"]] := by decide +kernel

end Gcl
