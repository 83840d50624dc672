import Mathlib.Data.List.Nodup
import Mathlib.Data.List.Perm.Basic
import Mathlib.Data.List.Induction
import Mathlib.Tactic.Linarith
import Verif.Model.Hard
import Verif.Spec.Hier
/-! # Lemmas on `_hard_parent_matrix` -/
namespace Gcl
set_option autoImplicit false
open Spec

theorem insertByKey_perm (key : Nat → Nat) (i : Nat) (l : List Nat) :
    (insertByKey key i l).Perm (i :: l) := by
  induction l with
  | nil => exact .refl _
  | cons j l ih =>
    unfold insertByKey
    split
    · exact .refl _
    · exact (List.Perm.cons j ih).trans (List.Perm.swap i j l)

theorem sortByKey_perm (key : Nat → Nat) (l : List Nat) : (sortByKey key l).Perm l := by
  induction l with
  | nil => exact .refl _
  | cons i l ih =>
    show (insertByKey key i (sortByKey key l)).Perm (i :: l)
    exact (insertByKey_perm key i _).trans (ih.cons i)

/-- order of the sorted rows: by number of entries, then by position -/
def Before (key : Nat → Nat) (i j : Nat) : Prop := key i < key j ∨ (key i = key j ∧ i < j)

theorem insertByKey_sorted (key : Nat → Nat) (i : Nat) (l : List Nat)
    (h : l.Pairwise (Before key)) (hi : ∀ j ∈ l, i < j) :
    (insertByKey key i l).Pairwise (Before key) := by
  induction l with
  | nil => simp [insertByKey]
  | cons j l ih =>
    rw [List.pairwise_cons] at h
    unfold insertByKey
    split
    · next hle =>
      rw [List.pairwise_cons, List.pairwise_cons]
      refine ⟨?_, h⟩
      intro k hk
      have hik := hi k hk
      rcases List.mem_cons.1 hk with rfl | hk
      · unfold Before; omega
      · have := h.1 k hk
        unfold Before at *; omega
    · next hnle =>
      rw [List.pairwise_cons]
      refine ⟨?_, ih h.2 (fun k hk => hi k (by simp [hk]))⟩
      intro k hk
      rcases List.mem_cons.1 ((insertByKey_perm key i l).mem_iff.1 hk) with rfl | hk
      · unfold Before; omega
      · exact h.1 k hk

theorem sortByKey_sorted (key : Nat → Nat) (l : List Nat) (h : l.Pairwise (· < ·)) :
    (sortByKey key l).Pairwise (Before key) := by
  induction l with
  | nil => simp [sortByKey]
  | cons i l ih =>
    rw [List.pairwise_cons] at h
    apply insertByKey_sorted _ _ _ (ih h.2)
    intro j hj
    exact h.1 j ((sortByKey_perm key l).mem_iff.1 hj)

/-- entry of a boolean table, `false` outside -/
def tab (A : List (List Bool)) (i c : Nat) : Bool := ((A[i]?.getD [])[c]?).getD false

/-- all rows have length `n` -/
def Rows (n : Nat) (A : List (List Bool)) : Prop := ∀ r ∈ A, r.length = n

theorem rows_getD {n : Nat} {A : List (List Bool)} (h : Rows n A) {i : Nat} (hi : i < A.length) :
    (A[i]?.getD []).length = n := by
  rw [List.getElem?_eq_getElem hi]; exact h _ (List.getElem_mem _)

theorem clearWhere_tab {a b : List Bool} (h : a.length = b.length) (c : Nat) :
    ((clearWhere a b)[c]?).getD false = ((a[c]?).getD false && !((b[c]?).getD false)) := by
  unfold clearWhere
  rw [List.getElem?_zipWith]
  by_cases hc : c < a.length
  · rw [List.getElem?_eq_getElem hc, List.getElem?_eq_getElem (by omega)]; rfl
  · rw [List.getElem?_eq_none (by omega), List.getElem?_eq_none (by omega)]; rfl

theorem parentStep_spec {n : Nat} {A : List (List Bool)} (h : Rows n A) {i j : Nat}
    (hi : i < A.length) (hj : j < A.length) :
    Rows n (parentStep A (i, j)) ∧ (parentStep A (i, j)).length = A.length ∧
    ∀ k c, tab (parentStep A (i, j)) k c =
      if k = i ∧ i ≠ j then tab A i c && !(tab A j c) else tab A k c := by
  unfold parentStep
  simp only
  split
  · next heq => refine ⟨h, rfl, fun k c => ?_⟩; rw [if_neg]; rintro ⟨_, h⟩; exact h heq
  · next hne =>
    refine ⟨?_, by simp, ?_⟩
    · intro r hr
      rcases List.mem_or_eq_of_mem_set hr with hr | rfl
      · exact h r hr
      · unfold clearWhere
        rw [List.length_zipWith, rows_getD h hi, rows_getD h hj]; simp
    · intro k c
      by_cases hk : k = i
      · subst hk
        rw [if_pos ⟨rfl, hne⟩]
        unfold tab
        rw [List.getElem?_set_self hi]
        simp only [Option.getD_some]
        exact clearWhere_tab (by rw [rows_getD h hi, rows_getD h hj]) c
      · rw [if_neg (by rintro ⟨h, _⟩; exact hk h)]
        unfold tab
        rw [List.getElem?_set_ne (Ne.symm hk)]

theorem inner_loop {n : Nat} (i : Nat) (js : List Nat) (A : List (List Bool)) (h : Rows n A)
    (hi : i < A.length) (hj : ∀ j ∈ js, j < A.length) :
    let B := (js.map (fun j => (i, j))).foldl parentStep A
    Rows n B ∧ B.length = A.length ∧
    (∀ k c, k ≠ i → tab B k c = tab A k c) ∧
    ∀ c, tab B i c = true ↔ tab A i c = true ∧ ∀ j ∈ js, j ≠ i → tab A j c = false := by
  induction js generalizing A with
  | nil => simp [h]
  | cons j js ih =>
    obtain ⟨s1, s2, s3⟩ := parentStep_spec h hi (hj j (by simp))
    obtain ⟨t1, t2, t3, t4⟩ := ih (parentStep A (i, j)) s1 (by omega)
      (fun j' hj' => by rw [s2]; exact hj j' (by simp [hj']))
    simp only [List.map_cons, List.foldl_cons]
    refine ⟨t1, by omega, ?_, ?_⟩
    · intro k c hk
      rw [t3 k c hk, s3, if_neg (by rintro ⟨h, _⟩; exact hk h)]
    · intro c
      rw [t4 c]
      have hother : ∀ k, k ≠ i → tab (parentStep A (i, j)) k c = tab A k c := by
        intro k hk; rw [s3, if_neg (by rintro ⟨h, _⟩; exact hk h)]
      rw [s3 i c]
      by_cases hij : i = j
      · subst hij
        simp only [ne_eq, not_true_eq_false, and_false, if_false, List.mem_cons]
        constructor
        · rintro ⟨a, b⟩
          refine ⟨a, ?_⟩
          rintro k (rfl | hk) hki
          · exact absurd rfl hki
          · rw [← hother k hki]; exact b k hk hki
        · rintro ⟨a, b⟩
          exact ⟨a, fun k hk hki => by rw [hother k hki]; exact b k (Or.inr hk) hki⟩
      · simp only [ne_eq, hij, not_false_eq_true, and_self, if_true, Bool.and_eq_true,
          Bool.not_eq_true', List.mem_cons]
        constructor
        · rintro ⟨⟨a, a'⟩, b⟩
          refine ⟨a, ?_⟩
          rintro k (rfl | hk) hki
          · exact a'
          · rw [← hother k hki]; exact b k hk hki
        · rintro ⟨a, b⟩
          exact ⟨⟨a, b j (Or.inl rfl) (fun h => hij h.symm)⟩,
            fun k hk hki => by rw [hother k hki]; exact b k (Or.inr hk) hki⟩

theorem outer_loop {n : Nat} (A : List (List Bool)) (hA : Rows n A) (asc : List Nat)
    (lt : Nat → Nat → Prop) (hirr : ∀ i, ¬ lt i i) (hasym : ∀ i j, lt i j → ¬ lt j i)
    (hs : asc.Pairwise lt) (hlt : ∀ i ∈ asc, i < A.length)
    (pre suf : List Nat) (hsplit : asc = pre ++ suf) (B : List (List Bool)) (hB : Rows n B)
    (hBl : B.length = A.length)
    (hun : ∀ k c, k ∉ suf → tab B k c = tab A k c)
    (hdone : ∀ k ∈ suf, ∀ c, tab B k c = true ↔
      tab A k c = true ∧ ∀ j ∈ asc, lt j k → tab A j c = false) :
    let C := (pre.reverse.flatMap (fun i => asc.map (fun j => (i, j)))).foldl parentStep B
    Rows n C ∧ C.length = A.length ∧
    (∀ k c, k ∉ asc → tab C k c = tab A k c) ∧
    (∀ k ∈ asc, ∀ c, tab C k c = true ↔
      tab A k c = true ∧ ∀ j ∈ asc, lt j k → tab A j c = false) := by
  induction pre using List.reverseRecOn generalizing suf B with
  | nil =>
    simp only [List.nil_append] at hsplit
    subst hsplit
    exact ⟨hB, hBl, hun, hdone⟩
  | append_singleton pre i ih =>
    simp only [List.reverse_append, List.reverse_cons, List.reverse_nil, List.nil_append,
      List.singleton_append, List.flatMap_cons, List.foldl_append]
    have hiasc : i ∈ asc := by rw [hsplit]; simp
    obtain ⟨t1, t2, t3, t4⟩ := inner_loop (n := n) i asc B hB (by rw [hBl]; exact hlt i hiasc)
      (fun j hj => by rw [hBl]; exact hlt j hj)
    have hsplit' : asc = pre ++ (i :: suf) := by rw [hsplit]; simp
    have hpw := hs
    rw [hsplit'] at hpw
    rw [List.pairwise_append, List.pairwise_cons] at hpw
    obtain ⟨_, ⟨hisuf, _⟩, hcross⟩ := hpw
    have hinsuf : i ∉ suf := fun h => hirr i (hisuf i h)
    apply ih (i :: suf) hsplit' _ t1 (by omega)
    · intro k c hk
      have hki : k ≠ i := fun h => hk (by simp [h])
      rw [t3 k c hki, hun k c (fun h => hk (by simp [h]))]
    · intro k hk c
      rcases List.mem_cons.1 hk with rfl | hk
      · rw [t4 c, hun k c hinsuf]
        constructor
        · rintro ⟨a, b⟩
          refine ⟨a, fun j hj hji => ?_⟩
          have hjk : j ≠ k := fun h => hirr k (h ▸ hji)
          have hjs : j ∉ suf := fun h => hasym _ _ hji (hisuf j h)
          rw [← hun j c hjs]
          exact b j hj hjk
        · rintro ⟨a, b⟩
          refine ⟨a, fun j hj hjk => ?_⟩
          by_cases hjs : j ∈ suf
          · rw [Bool.eq_false_iff]
            intro hj'
            have := ((hdone j hjs c).1 hj').2 k hiasc (hisuf j hjs)
            rw [a] at this; cases this
          · rw [hun j c hjs]
            apply b j hj
            rw [hsplit'] at hj
            rcases List.mem_append.1 hj with hj | hj
            · exact hcross j hj k (by simp)
            · rcases List.mem_cons.1 hj with h | h
              · exact absurd h hjk
              · exact absurd h hjs
      · have hki : k ≠ i := fun h => hinsuf (h ▸ hk)
        rw [t3 k c hki]
        exact hdone k hk c

/-- The matrix result: an entry survives exactly if its row is the first of the rows with an entry in
that column, ordered by number of entries, then by position. -/
theorem parentMatrix_spec {n : Nat} (A : List (List Bool)) (hA : Rows n A) :
    Rows n (parentMatrix A) ∧ (parentMatrix A).length = A.length ∧
    ∀ i c, tab (parentMatrix A) i c = true ↔ tab A i c = true ∧
      ∀ j, tab A j c = true → j ≠ i → Before (fun k => popcount (A[k]?.getD [])) i j := by
  set key := fun (k : Nat) => popcount (A[k]?.getD []) with hkey
  set ne := (List.range A.length).filter (fun i => (A[i]?.getD []).any id) with hne
  set asc := sortByKey key ne with hasc
  have hmem : ∀ j c, tab A j c = true → j ∈ asc := by
    intro j c hj
    rw [hasc, (sortByKey_perm key ne).mem_iff, hne, List.mem_filter, List.mem_range]
    unfold tab at hj
    have hjl : j < A.length := by
      by_contra h
      have hnone : A[j]? = none := List.getElem?_eq_none (by omega)
      rw [hnone] at hj
      simp at hj
    refine ⟨hjl, ?_⟩
    rw [List.any_eq_true]
    rcases h : (A[j]?.getD [])[c]? with _ | b
    · rw [h] at hj; simp at hj
    · rw [h] at hj
      simp only [Option.getD_some] at hj
      exact ⟨b, List.mem_of_getElem? h, by simp [hj]⟩
  have hlt : ∀ i ∈ asc, i < A.length := by
    intro i hi
    rw [hasc, (sortByKey_perm key ne).mem_iff, hne, List.mem_filter, List.mem_range] at hi
    exact hi.1
  have hsorted : asc.Pairwise (Before key) := by
    apply sortByKey_sorted
    exact List.Pairwise.filter _ List.pairwise_lt_range
  have hirr : ∀ i, ¬ Before key i i := by intro i; unfold Before; omega
  have hasym : ∀ i j, Before key i j → ¬ Before key j i := by intro i j; unfold Before; omega
  obtain ⟨c1, c2, c3, c4⟩ := outer_loop A hA asc (Before key) hirr hasym hsorted hlt asc []
    (by simp) A hA rfl (fun _ _ _ => rfl) (by simp)
  have hval : parentMatrix A =
      (asc.reverse.flatMap (fun i => asc.map (fun j => (i, j)))).foldl parentStep A := rfl
  rw [hval]
  refine ⟨c1, c2, fun i c => ?_⟩
  by_cases hi : i ∈ asc
  · rw [c4 i hi c]
    constructor
    · rintro ⟨a, b⟩
      refine ⟨a, fun j hj hji => ?_⟩
      have hja := hmem j c hj
      by_contra hnb
      have : Before key j i := by unfold Before at *; omega
      have := b j hja this
      rw [hj] at this; cases this
    · rintro ⟨a, b⟩
      refine ⟨a, fun j hj hji => ?_⟩
      rw [Bool.eq_false_iff]
      intro hjc
      have hne : j ≠ i := fun h => hirr i (h ▸ hji)
      exact hasym _ _ hji (b j hjc hne)
  · have : tab A i c = false := by
      rw [Bool.eq_false_iff]; intro h; exact hi (hmem i c h)
    rw [c3 i c hi, this]; simp

end Gcl
