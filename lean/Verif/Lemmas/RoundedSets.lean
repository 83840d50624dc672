import Verif.Spec.RoundedSets
import Verif.Props.Cluster
/-! # Lemmas for C153: running sums of numbers that are not negative -/
namespace Gcl
set_option autoImplicit false
open Real Spec

/-- A running sum. -/
noncomputable def runO (A : Arith) (big : ℝ) (a : Fl) (l : List Fl) : Fl := l.foldl (addO A big) a

theorem jaccardLoopO_run (A : Arith) (big : ℝ) {n : Nat} (u v : Fin n → Bool) (w : Fin n → Fl) (a b : Fl) :
    jaccardLoopO A big (a, b) (List.ofFn u) (List.ofFn v) (List.ofFn w) =
      (runO A big a (List.ofFn (fun i => timesFlag (w i) (u i != v i))),
        runO A big b (List.ofFn (fun i => timesFlag (w i) (u i || v i)))) := by
  induction n generalizing a b with
  | zero => simp [jaccardLoopO, runO]
  | succ n ih =>
    rw [List.ofFn_succ, List.ofFn_succ, List.ofFn_succ, jaccardLoopO, ih, List.ofFn_succ, List.ofFn_succ]
    cases hu : u 0 <;> cases hv : v 0 <;> simp [runO, hu, hv]

theorem addO_pinf (A : Arith) (big x : ℝ) : addO A big .pinf (.fin x) = .pinf := rfl

theorem runO_pinf (A : Arith) (big : ℝ) (xs : List ℝ) : runO A big .pinf (xs.map Fl.fin) = .pinf := by
  induction xs with
  | nil => rfl
  | cons x xs ih => exact ih

/-- Once a sum is not a number it stays so. -/
theorem runO_start (A : Arith) (big : ℝ) (l : List Fl) (a : Fl) (ha : ∀ r, a ≠ .fin r) : ∀ r, runO A big a l ≠ .fin r := by
  induction l generalizing a with
  | nil => exact ha
  | cons x xs ih =>
    refine ih (addO A big a x) ?_
    cases a with
    | fin y => exact absurd rfl (ha y)
    | nan => cases x <;> simp [addO, Fl.addF]
    | pinf => cases x <;> simp [addO, Fl.addF]
    | ninf => cases x <;> simp [addO, Fl.addF]

/-- A term that is not a number makes a sum that is not a number. -/
theorem runO_mem (A : Arith) (big : ℝ) (l : List Fl) (a : Fl) (h : ∃ x ∈ l, ∀ r, x ≠ .fin r) : ∀ r, runO A big a l ≠ .fin r := by
  induction l generalizing a with
  | nil => obtain ⟨x, hx, _⟩ := h; cases hx
  | cons x xs ih =>
    obtain ⟨y, hy, hn⟩ := h
    rcases List.mem_cons.1 hy with rfl | hy
    · refine runO_start A big xs (addO A big a y) ?_
      cases y with
      | fin z => exact absurd rfl (hn z)
      | nan => cases a <;> simp [addO, Fl.addF]
      | pinf => cases a <;> simp [addO, Fl.addF]
      | ninf => cases a <;> simp [addO, Fl.addF]
    · exact ih _ ⟨y, hy, hn⟩

/-- The distance from the two sums. -/
theorem jaccardO_of {A : Arith} {big : ℝ} {u v : List Bool} {w : List Fl} {d s : Fl}
    (h : jaccardLoopO A big (.fin 0, .fin 0) u v w = (d, s)) :
    (s = .fin 0 → jaccardO A big u v (some w) = .fin 0) ∧ (s ≠ .fin 0 → jaccardO A big u v (some w) = divO A big d s) := by
  unfold jaccardO
  simp only
  rw [show jaccardLoopO A big (.fin 0, .fin 0) u v w = (d, s) from h]
  exact ⟨fun e => if_pos e, fun e => if_neg e⟩

/-- A sum of finite terms is never nan. -/
theorem runO_not_nan (A : Arith) (big : ℝ) (xs : List ℝ) (a : Fl) (ha : a ≠ .nan) :
    runO A big a (xs.map Fl.fin) ≠ .nan := by
  induction xs generalizing a with
  | nil => exact ha
  | cons x xs ih =>
    refine ih _ ?_
    cases a with
    | nan => exact absurd rfl ha
    | fin y =>
      show ovf big (A.add y x) ≠ _
      unfold ovf
      split_ifs <;> simp
    | pinf => simp [addO, Fl.addF]
    | ninf => simp [addO, Fl.addF]

section
variable {u η : ℝ} {A : Arith} (h0 : 0 ≤ u) (h1 : u < 1) (hA : RoundsInOrder u η A)
include h0 h1 hA

theorem add_bounds (x y : ℝ) (hx : 0 ≤ x) (hy : 0 ≤ y) :
    (1 - u) * (x + y) ≤ A.add x y ∧ A.add x y ≤ (1 + u) * (x + y) := by
  have h := hA.add x y
  rw [abs_of_nonneg (add_nonneg hx hy), abs_le] at h
  constructor <;> linarith [h.1, h.2]

theorem add_nonneg' (x y : ℝ) (hx : 0 ≤ x) (hy : 0 ≤ y) : 0 ≤ A.add x y :=
  le_trans (mul_nonneg (by linarith) (add_nonneg hx hy)) (add_bounds h0 h1 hA x y hx hy).1

/-- A running sum of numbers that are not negative is accurate, or infinite and close to or beyond the range. -/
theorem runO_bounds (big : ℝ) (xs : List ℝ) (hx : ∀ x ∈ xs, 0 ≤ x) (s s' : ℝ) (k : Nat) (hs : 0 ≤ s)
    (hlo : (1 - u) ^ k * s ≤ s') (hhi : s' ≤ (1 + u) ^ k * s) (hb : s' ≤ big) :
    (∃ S', runO A big (.fin s') (xs.map Fl.fin) = .fin S' ∧ (1 - u) ^ (k + xs.length) * (s + xs.sum) ≤ S' ∧
      S' ≤ (1 + u) ^ (k + xs.length) * (s + xs.sum) ∧ S' ≤ big) ∨
    (runO A big (.fin s') (xs.map Fl.fin) = .pinf ∧ big < (1 + u) ^ (k + xs.length) * (s + xs.sum)) := by
  induction xs generalizing s s' k with
  | nil => exact Or.inl ⟨s', rfl, by simpa using hlo, by simpa using hhi, hb⟩
  | cons x xs ih =>
    have hx0 := hx x List.mem_cons_self
    have hxs : ∀ y ∈ xs, 0 ≤ y := fun y hy => hx y (List.mem_cons_of_mem _ hy)
    have hlk : 0 ≤ (1 - u) ^ k := pow_nonneg (by linarith) k
    have hlk1 : (1 - u) ^ k ≤ 1 := pow_le_one₀ (by linarith) (by linarith)
    have hhk : 1 ≤ (1 + u) ^ k := one_le_pow₀ (by linarith)
    have hs' : 0 ≤ s' := le_trans (mul_nonneg hlk hs) hlo
    obtain ⟨b1, b2⟩ := add_bounds h0 h1 hA s' x hs' hx0
    have c1 : (1 - u) ^ (k + 1) * (s + x) ≤ A.add s' x := by
      refine le_trans ?_ b1
      rw [pow_succ, mul_comm ((1 - u) ^ k), mul_assoc]
      exact mul_le_mul_of_nonneg_left (by nlinarith) (by linarith)
    have c2 : A.add s' x ≤ (1 + u) ^ (k + 1) * (s + x) := by
      refine le_trans b2 ?_
      rw [pow_succ, mul_comm ((1 + u) ^ k), mul_assoc]
      exact mul_le_mul_of_nonneg_left (by nlinarith) (by linarith)
    have hadd0 := add_nonneg' h0 h1 hA s' x hs' hx0
    have e : k + (x :: xs).length = (k + 1) + xs.length := by simp; omega
    have e2 : s + (x :: xs).sum = (s + x) + xs.sum := by simp [add_assoc]
    rw [e, e2]
    show (∃ S', runO A big (ovf big (A.add s' x)) (xs.map Fl.fin) = .fin S' ∧ _) ∨
      (runO A big (ovf big (A.add s' x)) (xs.map Fl.fin) = .pinf ∧ _)
    unfold ovf
    rw [abs_of_nonneg hadd0]
    split_ifs with hc hn
    · exact ih hxs (s + x) _ (k + 1) (add_nonneg hs hx0) c1 c2 hc
    · exact absurd hadd0 (not_le.2 hn)
    · refine Or.inr ⟨runO_pinf A big xs, lt_of_lt_of_le (not_le.1 hc) (le_trans c2 ?_)⟩
      have hsum : 0 ≤ xs.sum := List.sum_nonneg hxs
      have : (1 + u) ^ (k + 1) ≤ (1 + u) ^ (k + 1 + xs.length) := pow_le_pow_right₀ (by linarith) (by omega)
      exact mul_le_mul this (by linarith) (by positivity) (by positivity)

/-- Smaller terms have the smaller running sum. -/
theorem runO_le (big : ℝ) (xs ys : List ℝ) (hxy : List.Forall₂ (· ≤ ·) xs ys) (hx : ∀ x ∈ xs, 0 ≤ x) (a b : ℝ) (ha : 0 ≤ a)
    (hab : a ≤ b) (S : ℝ) (hS : runO A big (.fin b) (ys.map Fl.fin) = .fin S) :
    ∃ D, runO A big (.fin a) (xs.map Fl.fin) = .fin D ∧ 0 ≤ D ∧ D ≤ S := by
  induction hxy generalizing a b with
  | nil =>
    have : b = S := by simpa [runO] using hS
    exact ⟨a, rfl, ha, this ▸ hab⟩
  | @cons x y xs ys h _ ih =>
    have hx0 := hx x List.mem_cons_self
    have hxs : ∀ y ∈ xs, 0 ≤ y := fun y hy => hx y (List.mem_cons_of_mem _ hy)
    have n1 := add_nonneg' h0 h1 hA a x ha hx0
    have l1 := hA.add_le a b x y hab h
    have hS' : runO A big (ovf big (A.add b y)) (ys.map Fl.fin) = .fin S := hS
    show ∃ D, runO A big (ovf big (A.add a x)) (xs.map Fl.fin) = .fin D ∧ _
    by_cases hc : A.add b y ≤ big
    · have e1 : ovf big (A.add b y) = .fin (A.add b y) := by
        unfold ovf; rw [abs_of_nonneg (n1.trans l1), if_pos hc]
      have e2 : ovf big (A.add a x) = .fin (A.add a x) := by
        unfold ovf; rw [abs_of_nonneg n1, if_pos (l1.trans hc)]
      rw [e1] at hS'
      rw [e2]
      exact ih hxs _ _ n1 l1 hS'
    · have e1 : ovf big (A.add b y) = .pinf := by
        unfold ovf; rw [abs_of_nonneg (n1.trans l1), if_neg hc, if_neg (not_lt.2 (n1.trans l1))]
      rw [e1, runO_pinf] at hS'
      cases hS'

/-- A running sum of zeros. -/
theorem runO_zero (big : ℝ) (hb : 0 ≤ big) (xs : List ℝ) (hx : ∀ x ∈ xs, x = 0) :
    runO A big (.fin 0) (xs.map Fl.fin) = .fin 0 := by
  rcases runO_bounds h0 h1 hA big xs (fun x h => (hx x h).ge) 0 0 0 le_rfl (by simp) (by simp) hb with
    ⟨S, e, l, h, _⟩ | ⟨_, h⟩
  · rw [List.sum_eq_zero hx] at l h
    simp only [add_zero, mul_zero] at l h
    rw [e, le_antisymm h l]
  · rw [List.sum_eq_zero hx] at h
    simp only [add_zero, mul_zero] at h
    exact absurd hb (not_le.2 h)

end

end Gcl
