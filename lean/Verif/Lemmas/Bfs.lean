import Mathlib.Data.List.Nodup
import Mathlib.Data.List.Perm.Subperm
import Mathlib.Logic.Relation
import Mathlib.Tactic.Linarith
import Verif.Model.Descend
/-! # Correctness of the breadth-first search -/
namespace Gcl
set_option autoImplicit false

theorem bfsVisit_fold (head p : Nat) (cs : List Nat) (q : List Nat) (ps : List (Nat × Nat)) :
    ∃ news : List Nat, cs.foldl (bfsVisit head p) (q, ps) =
        (q ++ news, ps ++ news.map (fun c => (c, p))) ∧
      (∀ c ∈ news, c ∈ cs ∧ c ≠ head ∧ c ∉ ps.map Prod.fst) ∧ news.Nodup ∧
      (∀ c ∈ cs, c = head ∨ c ∈ ps.map Prod.fst ∨ c ∈ news) := by
  induction cs generalizing q ps with
  | nil => exact ⟨[], by simp⟩
  | cons c cs ih =>
    simp only [List.foldl_cons]
    by_cases hc : c = head
    · have : bfsVisit head p (q, ps) c = (q, ps) := by simp [bfsVisit, hc]
      rw [this]
      obtain ⟨news, h1, h2, h3, h4⟩ := ih q ps
      refine ⟨news, h1, fun x hx => ⟨by simp [(h2 x hx).1], (h2 x hx).2⟩, h3, ?_⟩
      intro x hx
      rcases List.mem_cons.1 hx with rfl | hx
      · exact Or.inl hc
      · exact h4 x hx
    · by_cases hm : c ∈ ps.map Prod.fst
      · have : bfsVisit head p (q, ps) c = (q, ps) := by
          have : ps.any (fun x => x.1 == c) = true := by
            rw [List.any_eq_true]
            obtain ⟨x, hx, rfl⟩ := List.mem_map.1 hm
            exact ⟨x, hx, by simp⟩
          simp [bfsVisit, this]
        rw [this]
        obtain ⟨news, h1, h2, h3, h4⟩ := ih q ps
        refine ⟨news, h1, fun x hx => ⟨by simp [(h2 x hx).1], (h2 x hx).2⟩, h3, ?_⟩
        intro x hx
        rcases List.mem_cons.1 hx with rfl | hx
        · exact Or.inr (Or.inl hm)
        · exact h4 x hx
      · have : bfsVisit head p (q, ps) c = (q ++ [c], ps ++ [(c, p)]) := by
          have : ¬ (ps.any (fun x => x.1 == c) = true) := by
            rw [List.any_eq_true]
            rintro ⟨x, hx, hxc⟩
            exact hm (List.mem_map.2 ⟨x, hx, by simpa using hxc⟩)
          simp only [bfsVisit, hc, this, if_false]
          simp
        rw [this]
        obtain ⟨news, h1, h2, h3, h4⟩ := ih (q ++ [c]) (ps ++ [(c, p)])
        refine ⟨c :: news, by rw [h1]; simp, ?_, ?_, ?_⟩
        · intro x hx
          rcases List.mem_cons.1 hx with rfl | hx
          · exact ⟨by simp, hc, hm⟩
          · obtain ⟨a, b, d⟩ := h2 x hx
            refine ⟨by simp [a], b, ?_⟩
            intro hmem; apply d; simp only [List.map_append, List.mem_append]; exact Or.inl hmem
        · rw [List.nodup_cons]
          refine ⟨?_, h3⟩
          intro hcn
          exact (h2 c hcn).2.2 (by simp)
        · intro x hx
          rcases List.mem_cons.1 hx with rfl | hx
          · simp
          · rcases h4 x hx with h | h | h
            · exact Or.inl h
            · simp only [List.map_append, List.mem_append, List.map_cons, List.map_nil,
                List.mem_singleton] at h
              rcases h with h | h
              · exact Or.inr (Or.inl h)
              · exact Or.inr (Or.inr (by simp [h]))
            · exact Or.inr (Or.inr (by simp [h]))

/-- What holds before and after every iteration of the search. -/
structure BfsInv (succ : Nat → List Nat) (head n : Nat) (q : List Nat) (ps : List (Nat × Nat)) :
    Prop where
  nodup : (head :: ps.map Prod.fst).Nodup
  bound : ∀ x ∈ head :: ps.map Prod.fst, x < n
  sound : ∀ x ∈ head :: ps.map Prod.fst, Relation.ReflTransGen (fun a b => b ∈ succ a) head x
  queue : ∀ x ∈ q, x ∈ head :: ps.map Prod.fst
  closed : ∀ x ∈ head :: ps.map Prod.fst, x ∉ q → ∀ c ∈ succ x, c ∈ head :: ps.map Prod.fst

theorem bfsInv_init (succ : Nat → List Nat) (head n : Nat) (h : head < n) :
    BfsInv succ head n [head] [] := by
  constructor
  · simp
  · simpa using h
  · intro x hx; simp only [List.map_nil, List.mem_singleton] at hx; subst hx; exact .refl
  · simp
  · intro x hx hq; simp only [List.map_nil, List.mem_singleton] at hx hq; exact absurd hx hq

theorem bfsInv_step {succ : Nat → List Nat} {head n p : Nat} {q : List Nat}
    {ps : List (Nat × Nat)} (hs : ∀ x, ∀ c ∈ succ x, c < n)
    (h : BfsInv succ head n (p :: q) ps) :
    ∃ news : List Nat, (succ p).foldl (bfsVisit head p) (q, ps) =
        (q ++ news, ps ++ news.map (fun c => (c, p))) ∧
      BfsInv succ head n (q ++ news) (ps ++ news.map (fun c => (c, p))) := by
  obtain ⟨news, h1, h2, h3, h4⟩ := bfsVisit_fold head p (succ p) q ps
  refine ⟨news, h1, ?_⟩
  have hfst : (ps ++ news.map (fun c => (c, p))).map Prod.fst = ps.map Prod.fst ++ news := by
    simp [List.map_map, Function.comp_def]
  have hp := h.sound p (h.queue p (by simp))
  constructor
  · rw [hfst, ← List.cons_append, List.nodup_append]
    refine ⟨h.nodup, h3, ?_⟩
    intro a ha b hb hab
    subst hab
    rcases List.mem_cons.1 ha with rfl | ha
    · exact (h2 a hb).2.1 rfl
    · exact (h2 a hb).2.2 ha
  · rw [hfst, ← List.cons_append]
    intro x hx
    rcases List.mem_append.1 hx with hx | hx
    · exact h.bound x hx
    · exact hs p x (h2 x hx).1
  · rw [hfst, ← List.cons_append]
    intro x hx
    rcases List.mem_append.1 hx with hx | hx
    · exact h.sound x hx
    · exact hp.tail (h2 x hx).1
  · rw [hfst, ← List.cons_append]
    intro x hx
    rw [List.mem_append] at hx ⊢
    rcases hx with hx | hx
    · exact Or.inl (h.queue x (by simp [hx]))
    · exact Or.inr hx
  · rw [hfst, ← List.cons_append]
    intro x hx hq c hc
    rw [List.mem_append] at hx hq
    push Not at hq
    rcases hx with hx | hx
    · by_cases hxp : x = p
      · subst hxp
        rcases h4 c hc with h | h | h
        · simp [h]
        · rw [List.mem_append]; exact Or.inl (by simp only [List.mem_cons]; exact Or.inr h)
        · rw [List.mem_append]; exact Or.inr h
      · rw [List.mem_append]
        exact Or.inl (h.closed x hx (by simp [hxp, hq.1]) c hc)
    · exact absurd hx hq.2

theorem nodup_bounded_length {l : List Nat} {n : Nat} (h : l.Nodup) (hb : ∀ x ∈ l, x < n) :
    l.length ≤ n := by
  have := (List.Nodup.subperm h (l₂ := List.range n)
    (fun x hx => List.mem_range.2 (hb x hx))).length_le
  simpa using this

theorem bfsLoop_spec {succ : Nat → List Nat} {head n : Nat} (hs : ∀ x, ∀ c ∈ succ x, c < n)
    (fuel : Nat) (q : List Nat) (ps : List (Nat × Nat)) (h : BfsInv succ head n q ps)
    (hf : n + q.length ≤ fuel + (ps.length + 1)) :
    (bfsLoop succ head fuel q ps).1 = [] ∧
    BfsInv succ head n [] (bfsLoop succ head fuel q ps).2 := by
  induction fuel generalizing q ps with
  | zero =>
    have hlen := nodup_bounded_length h.nodup h.bound
    simp only [List.length_cons, List.length_map] at hlen
    have : q = [] := List.length_eq_zero_iff.1 (by omega)
    subst this
    exact ⟨rfl, h⟩
  | succ fuel ih =>
    cases q with
    | nil => exact ⟨rfl, h⟩
    | cons p q =>
      obtain ⟨news, h1, h2⟩ := bfsInv_step hs h
      simp only [bfsLoop, h1]
      apply ih _ _ h2
      simp only [List.length_append, List.length_map, List.length_cons] at hf ⊢
      omega

/-- The search ends within `n` iterations and finds exactly the nodes reachable from the head. -/
theorem bfs_correct {succ : Nat → List Nat} {head n : Nat} (hh : head < n)
    (hs : ∀ x, ∀ c ∈ succ x, c < n) :
    (bfsLoop succ head n [head] []).1 = [] ∧
    ∀ x, (x = head ∨ x ∈ (bfsLoop succ head n [head] []).2.map Prod.fst) ↔
      Relation.ReflTransGen (fun a b => b ∈ succ a) head x := by
  obtain ⟨h1, h2⟩ := bfsLoop_spec hs n [head] [] (bfsInv_init succ head n hh) (by simp)
  refine ⟨h1, fun x => ⟨fun hx => h2.sound x (List.mem_cons.2 hx), fun hx => ?_⟩⟩
  rw [← List.mem_cons]
  induction hx with
  | refl => simp
  | tail _ hbc ih => exact h2.closed _ ih (by simp) _ hbc

end Gcl
