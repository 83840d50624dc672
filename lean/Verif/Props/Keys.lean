import Mathlib.Data.List.Nodup
import Mathlib.Data.List.Count
import Verif.Model.Hard
import Verif.Spec.Hard
/-!
# C43: parton keys
-/
namespace Gcl
set_option autoImplicit false
open Spec

theorem dupNumbers_get (names : List String) (counters : String → Nat) (i : Nat) :
    (dupNumbers counters names)[i]? =
      names[i]?.map (fun x => counters x + (names.take i).count x) := by
  induction names generalizing counters i with
  | nil => simp [dupNumbers]
  | cons y ys ih =>
    cases i with
    | zero => simp [dupNumbers]
    | succ i =>
      simp only [dupNumbers, List.getElem?_cons_succ, ih, List.take_succ_cons]
      rcases h : ys[i]? with _ | x
      · simp
      · simp only [Option.map_some, Option.some.injEq, List.count_cons, beq_iff_eq]
        split
        · next h1 => subst h1; simp; omega
        · next h1 =>
          have : ¬ (y = x) := fun h => h1 h.symm
          simp [this]

theorem dupNumbers_length (names : List String) (counters : String → Nat) :
    (dupNumbers counters names).length = names.length := by
  induction names generalizing counters with
  | nil => rfl
  | cons y ys ih => simp [dupNumbers, ih]

/-- C43.  One key per parton, in order; each is the bare name if no other parton has it, otherwise
the name followed by a colon and the number of earlier partons of the same name.  For every list of
names. -/
theorem C43_keys (names : List String) :
    (pdgsToKeys names).length = names.length ∧
    ∀ i : Nat, (pdgsToKeys names)[i]? = partonKey names i := by
  unfold pdgsToKeys
  simp only
  split
  · next h =>
    refine ⟨rfl, fun i => ?_⟩
    unfold partonKey
    rcases hi : names[i]? with _ | x
    · simp
    · simp only [Option.map_some, Option.some.injEq]
      have hx : x ∈ names := List.mem_of_getElem? hi
      have : ¬ (1 < names.count x) := by
        intro hlt
        simp only [Bool.not_eq_true', List.any_map, List.any_eq_false, Function.comp_def,
          id_eq, decide_eq_true_eq] at h
        exact h x hx hlt
      have h1 : 0 < names.count x := List.count_pos_iff.2 hx
      rw [if_pos (by omega)]
  · refine ⟨by simp [dupNumbers_length], fun i => ?_⟩
    unfold partonKey
    simp only [List.getElem?_zipWith, List.getElem?_map, List.getElem?_zip_eq_some,
      List.zip, dupNumbers_get]
    rcases hi : names[i]? with _ | x
    · simp
    · have hx : x ∈ names := List.mem_of_getElem? hi
      have h1 : 0 < names.count x := List.count_pos_iff.2 hx
      simp only [Option.map_some, Nat.zero_add, Option.some.injEq, decide_eq_true_eq]
      by_cases hc : names.count x = 1
      · rw [if_neg (by omega), if_pos hc]
      · rw [if_pos (by omega), if_neg hc]

theorem toString_nat_inj {m n : Nat} (h : toString m = toString n) : m = n := by
  have h' : (Nat.repr m).toList = (Nat.repr n).toList := congrArg String.toList h
  rw [Nat.toList_repr, Nat.toList_repr] at h'
  have := congrArg (fun l => Nat.ofDigitChars 10 l 0) h'
  simpa [Nat.ofDigitChars_ten_toDigits] using this

theorem split_at_colon {a b c d : List Char} (ha : ':' ∉ a) (hc : ':' ∉ c)
    (h : a ++ ':' :: b = c ++ ':' :: d) : a = c ∧ b = d := by
  induction a generalizing c with
  | nil =>
    cases c with
    | nil => simpa using h
    | cons x c =>
      simp only [List.nil_append, List.cons_append, List.cons.injEq] at h
      exact absurd (by rw [h.1]; simp) hc
  | cons y a ih =>
    cases c with
    | nil =>
      simp only [List.nil_append, List.cons_append, List.cons.injEq] at h
      exact absurd (by rw [h.1]; simp) ha
    | cons x c =>
      simp only [List.cons_append, List.cons.injEq] at h
      have := ih (by intro hm; exact ha (by simp [hm])) (by intro hm; exact hc (by simp [hm])) h.2
      exact ⟨by rw [h.1, this.1], this.2⟩

/-- Occurrences of the same name have different numbers. -/
theorem take_count_lt (names : List String) (i j : Nat) (x : String) (hi : names[i]? = some x)
    (hij : i < j) : (names.take i).count x < (names.take j).count x := by
  have h1 : names.take (i + 1) = names.take i ++ [x] := by
    rw [List.take_succ, hi]; rfl
  have h2 : (names.take (i + 1)).count x ≤ (names.take j).count x := by
    have : names.take (i + 1) = (names.take j).take (i + 1) := by
      rw [List.take_take]; congr 1; omega
    rw [this]
    exact (List.take_sublist _ _).count_le _
  rw [h1] at h2
  simp at h2
  omega

theorem partonKey_inj (names : List String) (hn : ∀ x ∈ names, ':' ∉ x.toList) {i j : Nat}
    {k : String} (hi : partonKey names i = some k) (hj : partonKey names j = some k) : i = j := by
  unfold partonKey at hi hj
  obtain ⟨x, hx, hkx⟩ := Option.map_eq_some_iff.1 hi
  obtain ⟨y, hy, hky⟩ := Option.map_eq_some_iff.1 hj
  have hxm := List.mem_of_getElem? hx
  have hym := List.mem_of_getElem? hy
  have hcol : ∀ (z : String) (n : Nat), (z ++ ":" ++ toString n).toList =
      z.toList ++ ':' :: (toString n).toList := by
    intro z n; simp [String.toList_append]
  -- both bare, or both numbered
  have hxy : x = y := by
    by_cases h1 : names.count x = 1 <;> by_cases h2 : names.count y = 1
    · rw [if_pos h1] at hkx; rw [if_pos h2] at hky; rw [hkx, hky]
    · rw [if_pos h1] at hkx; rw [if_neg h2] at hky
      exact absurd (by rw [hkx, ← hky, hcol]; simp) (hn x hxm)
    · rw [if_neg h1] at hkx; rw [if_pos h2] at hky
      exact absurd (by rw [hky, ← hkx, hcol]; simp) (hn y hym)
    · rw [if_neg h1] at hkx; rw [if_neg h2] at hky
      have := congrArg String.toList (hkx.trans hky.symm)
      rw [hcol, hcol] at this
      exact String.toList_inj.1 (split_at_colon (hn x hxm) (hn y hym) this).1
  subst hxy
  by_cases h1 : names.count x = 1
  · by_contra hne
    rcases Nat.lt_or_gt_of_ne hne with h | h
    · have := take_count_lt names i j x hx h
      have h2 := (List.take_sublist (j + 1) names).count_le x
      have h3 : names.take (j + 1) = names.take j ++ [x] := by rw [List.take_succ, hy]; rfl
      rw [h3] at h2
      simp at h2
      omega
    · have := take_count_lt names j i x hy h
      have h2 := (List.take_sublist (i + 1) names).count_le x
      have h3 : names.take (i + 1) = names.take i ++ [x] := by rw [List.take_succ, hx]; rfl
      rw [h3] at h2
      simp at h2
      omega
  · rw [if_neg h1] at hkx hky
    have h2 := congrArg String.toList (hkx.trans hky.symm)
    rw [hcol, hcol] at h2
    have h3 := (split_at_colon (hn x hxm) (hn x hxm) h2).2
    have h4 := toString_nat_inj (String.toList_inj.1 h3)
    by_contra hne
    rcases Nat.lt_or_gt_of_ne hne with h | h
    · have := take_count_lt names i j x hx h; omega
    · have := take_count_lt names j i x hy h; omega

/-- C43, uniqueness: no two partons get the same key, provided no particle name contains a colon. -/
theorem C43_unique (names : List String) (hn : ∀ x ∈ names, ':' ∉ x.toList) :
    (pdgsToKeys names).Nodup := by
  rw [List.nodup_iff_getElem?_ne_getElem?]
  intro i j hij hj heq
  rw [(C43_keys names).2 i, (C43_keys names).2 j] at heq
  rcases h : partonKey names j with _ | k
  · rw [← (C43_keys names).2 j, List.getElem?_eq_none_iff] at h; omega
  · have := partonKey_inj names hn (heq.trans h) h
    omega

/-- The side condition on colons is needed: with a particle called `"t:0"` two keys coincide. -/
example : pdgsToKeys ["t:0", "t", "t"] = ["t:0", "t:0", "t:1"] := by decide
example : pdgsToKeys ["t", "b", "t~", "b", "b"] = ["t", "b:0", "t~", "b:1", "b:2"] := by decide
example : ∀ x ∈ ["t", "b", "t~", "b", "b"], ':' ∉ x.toList := by decide

end Gcl
