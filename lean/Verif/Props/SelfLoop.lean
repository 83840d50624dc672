import Verif.Props.Adj
/-! # C111: `from_matrix` with self-loops -/
namespace Gcl
set_option autoImplicit false
open Spec

variable {W : Type} [AddCommMonoid W] [DecidableEq W]

theorem selfLoop_vertexList (n : Nat) (A : List (List W)) (hA : Square n A) (b : Bool) :
    VertexList (fromMatrix A b true).edges ((List.range n).map (fun i : Nat => (i : Int))) := by
  constructor
  · rw [List.pairwise_map]
    exact List.pairwise_lt_range.imp (fun h => by simpa using h)
  · intro v
    simp only [List.mem_map, List.mem_range, IsVertex]
    constructor
    · rintro ⟨i, hi, rfl⟩
      refine ⟨((i : Int), (i : Int)), ?_, Or.inl rfl⟩
      rw [← List.count_pos_iff, C36_self_loop n A hA]
      simp [hi]
    · rintro ⟨e, he, hv⟩
      unfold fromMatrix setdiagZero at he
      simp only [if_true, List.map_append, List.mem_append, List.mem_map, List.mem_filter, List.mem_range,
        hA.1] at he
      rcases he with ⟨⟨i, j, w⟩, ⟨hm, -⟩, rfl⟩ | ⟨t, ⟨i, hi, rfl⟩, rfl⟩
      · obtain ⟨h1, -⟩ := (mem_coo A i j w).1 hm
        obtain ⟨hi, hj⟩ := (entry_isSome_iff n A hA i j).1 ⟨w, h1⟩
        rcases hv with rfl | rfl
        · exact ⟨i, hi, rfl⟩
        · exact ⟨j, hj, rfl⟩
      · rcases hv with rfl | rfl <;> exact ⟨i, hi, rfl⟩

/-- The weights of the edges from `i` to `j`. -/
theorem selfLoop_weights (n : Nat) (A : List (List W)) (hA : Square n A) (i j : Nat) :
    ((((fromMatrix A true true).edges.zip (fromMatrix A true true).weights).filter
        (fun p => p.1 = ((i : Int), (j : Int)))).map Prod.snd).sum =
      if i = j then 0 else
        ((((fromMatrix A true false).edges.zip (fromMatrix A true false).weights).filter
          (fun p => p.1 = ((i : Int), (j : Int)))).map Prod.snd).sum := by
  have hz : ∀ (t : List (Nat × Nat × W)),
      ((t.map (fun e => ((e.1 : Int), (e.2.1 : Int)))).zip (t.map (fun e => e.2.2))).filter
        (fun p => p.1 = ((i : Int), (j : Int))) =
      (t.filter (fun e => decide (e.1 = i ∧ e.2.1 = j))).map (fun e => (((e.1 : Int), (e.2.1 : Int)), e.2.2)) := by
    intro t
    induction t with
    | nil => rfl
    | cons a t ih =>
      simp only [List.map_cons, List.zip_cons_cons, List.filter_cons, ih]
      by_cases h : a.1 = i ∧ a.2.1 = j
      · simp [h]
      · have h' : ¬ (((a.1 : Int), (a.2.1 : Int)) = ((i : Int), (j : Int))) := by
          simp only [Prod.mk.injEq]; omega
        simp [h, h']
  unfold fromMatrix setdiagZero
  simp only [if_true, Bool.false_eq_true, if_false]
  rw [hz, hz, List.filter_append, List.filter_filter, List.map_append, List.map_append, List.sum_append]
  by_cases hij : i = j
  · subst hij
    have h1 : (cooOfDense A).filter (fun a => decide (a.1 = i ∧ a.2.1 = i) && (a.1 != a.2.1)) = [] := by
      rw [List.filter_eq_nil_iff]
      intro a _
      simp only [Bool.and_eq_true, decide_eq_true_eq, bne_iff_ne, not_and, not_not]
      rintro ⟨h1, h2⟩; rw [h1, h2]
    rw [h1]
    simp only [if_true, List.map_nil, List.sum_nil, zero_add]
    apply List.sum_eq_zero
    intro x hx
    simp only [List.mem_map, List.mem_filter] at hx
    obtain ⟨p, ⟨t, ⟨⟨k, -, rfl⟩, -⟩, rfl⟩, rfl⟩ := hx
    rfl
  · have h1 : (cooOfDense A).filter (fun a => decide (a.1 = i ∧ a.2.1 = j) && (a.1 != a.2.1)) =
        (cooOfDense A).filter (fun a => decide (a.1 = i ∧ a.2.1 = j)) := by
      apply List.filter_congr
      intro a _
      rw [Bool.eq_iff_iff]
      simp only [Bool.and_eq_true, decide_eq_true_eq, bne_iff_ne]
      constructor
      · exact fun h => h.1
      · rintro ⟨h1, h2⟩; exact ⟨⟨h1, h2⟩, by rw [h1, h2]; exact hij⟩
    have h2 : ((List.range A.length).map (fun i => ((i, i, 0) : Nat × Nat × W))).filter
        (fun e => decide (e.1 = i ∧ e.2.1 = j)) = [] := by
      rw [List.filter_eq_nil_iff]
      intro a ha
      obtain ⟨k, -, rfl⟩ := List.mem_map.1 ha
      simp only [decide_eq_true_eq, not_and]
      rintro rfl; exact hij
    rw [h1, h2, if_neg hij]
    simp

/-- **C111** `from_matrix(A, weighted=True, self_loop=True)`: no node is lost, every node has one self-loop, and its
weight is zero, whatever the diagonal of `A` was: `matrix` of the result is `A` with its diagonal set to zero. -/
theorem C111_weighted (n : Nat) (hn : 0 < n) (A : List (List W)) (hA : Square n A) :
    ∃ B, matrixWeighted (fromMatrix A true true).edges (fromMatrix A true true).weights = .ok B ∧ Square n B ∧
      ∀ i j, i < n → j < n → entry B i j = if i = j then some 0 else entry A i j := by
  have hv := selfLoop_vertexList n A hA true
  have hne : (fromMatrix A true true).edges ≠ [] := by
    intro h
    have := C36_self_loop n A hA true 0 0
    rw [h] at this
    simp [hn] at this
  obtain ⟨B, hB, hBs, hBe⟩ := C38_weighted _ (fromMatrix A true true).weights hne (by simp [fromMatrix]) _ hv
  rw [List.length_map, List.length_range] at hBs
  refine ⟨B, hB, hBs, fun i j hi hj => ?_⟩
  rw [hBe i j i j (by simp [hi]) (by simp [hj]), selfLoop_weights n A hA i j]
  split
  · rfl
  · rw [(C36_edges A i j).2.2.2]
    obtain ⟨w, hw⟩ := (entry_isSome_iff n A hA i j).2 ⟨hi, hj⟩
    rw [hw]
    by_cases h0 : w = 0 <;> simp [h0]

/-- **C111** `from_matrix(A, self_loop=True)` for 0/1 matrices: no node is lost, and `matrix` of the result is `A` with
ones on the diagonal. -/
theorem C111_unweighted (n : Nat) (hn : 0 < n) (A : List (List Int)) (hA : Square n A)
    (h01 : ∀ i j w, entry A i j = some w → w = 0 ∨ w = 1) :
    ∃ B, matrixUnweighted (fromMatrix A false true).edges = .ok B ∧ Square n B ∧
      ∀ i j, i < n → j < n → entry B i j = if i = j then some 1 else entry A i j := by
  have hv := selfLoop_vertexList n A hA false
  have hne : (fromMatrix A false true).edges ≠ [] := by
    intro h
    have := C36_self_loop n A hA false 0 0
    rw [h] at this
    simp [hn] at this
  obtain ⟨B, hB, hBs, hBe⟩ := C35_matrix _ hne _ hv
  rw [List.length_map, List.length_range] at hBs
  refine ⟨B, hB, hBs, fun i j hi hj => ?_⟩
  rw [hBe i j i j (by simp [hi]) (by simp [hj]), C36_self_loop n A hA false i j, (C36_edges A i j).1]
  split
  · simp [hi]
  · obtain ⟨w, hw⟩ := (entry_isSome_iff n A hA i j).2 ⟨hi, hj⟩
    rw [hw]
    rcases h01 i j w hw with rfl | rfl <;> simp

/-- **C111** What a user may expect, and is false: that adding self-loops to a weighted matrix keeps the weights it has.
The weight 5 of the first node's own loop is lost. -/
theorem C111_false : ¬ ∀ (n : Nat) (A : List (List Int)), 0 < n → Square n A →
    (∀ i, i < n → ∃ w, entry A i i = some w ∧ w ≠ 0) →
    matrixWeighted (fromMatrix A true true).edges (fromMatrix A true true).weights = .ok A := by
  intro h
  have h' := h 2 [[5, 3], [0, 7]] (by decide) ⟨rfl, by simp⟩ (by
    intro i hi
    have : i = 0 ∨ i = 1 := by omega
    rcases this with rfl | rfl
    · exact ⟨5, rfl, by decide⟩
    · exact ⟨7, rfl, by decide⟩)
  obtain ⟨B, hB, -, hBe⟩ := C111_weighted 2 (by decide) ([[5, 3], [0, 7]] : List (List Int)) ⟨rfl, by simp⟩
  rw [h'] at hB
  cases hB
  have := hBe 0 0 (by decide) (by decide)
  simp [entry] at this

-- non-vacuity: a matrix with an isolated node, which is kept
example : Square 3 ([[0, 0, 4], [0, 0, 0], [0, 0, 0]] : List (List Int)) := ⟨rfl, by simp⟩
example : matrixWeighted (fromMatrix ([[0, 0, 4], [0, 0, 0], [0, 0, 0]] : List (List Int)) true true).edges
    (fromMatrix ([[0, 0, 4], [0, 0, 0], [0, 0, 0]] : List (List Int)) true true).weights =
    .ok [[0, 0, 4], [0, 0, 0], [0, 0, 0]] := by decide

end Gcl
