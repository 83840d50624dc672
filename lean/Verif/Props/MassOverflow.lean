import Verif.Model.MassOverflow
import Verif.Props.RoundedSum
/-! # C127: `combined_mass` when numbers overflow -/
namespace Gcl
set_option autoImplicit false
open Spec

section
variable {u : ℝ} (h0 : 0 ≤ u) {A : Arith} (hA : Accurate u A)
include h0 hA

theorem eval_abs_le (xs : List ℝ) (t : SumTree) :
    |t.eval A xs| ≤ (1 + u) ^ t.depth * leafSum (fun i => |xs.getD i 0|) t := by
  have h1 := eval_bound h0 hA xs t
  have h2 := leafSum_abs_le (fun i => xs.getD i 0) t
  have h3 := abs_sub_abs_le_abs_sub (t.eval A xs) (leafSum (fun i => xs.getD i 0) t)
  linarith

theorem evalO_some (xs : List ℝ) (big : ℝ) (t : SumTree)
    (h : (1 + u) ^ t.depth * leafSum (fun i => |xs.getD i 0|) t ≤ big) : t.evalO A big xs = some (t.eval A xs) := by
  induction t with
  | leaf i => rfl
  | node l r h1 h2 =>
    have nl := leafSum_nonneg (fun i => xs.getD i 0) l
    have nr := leafSum_nonneg (fun i => xs.getD i 0) r
    have hu : (1 : ℝ) ≤ 1 + u := by linarith
    have dl : (1 + u) ^ l.depth ≤ (1 + u) ^ (SumTree.node l r).depth :=
      pow_le_pow_right₀ hu (by simp only [SumTree.depth]; omega)
    have dr : (1 + u) ^ r.depth ≤ (1 + u) ^ (SumTree.node l r).depth :=
      pow_le_pow_right₀ hu (by simp only [SumTree.depth]; omega)
    have pp : 0 ≤ (1 + u) ^ (SumTree.node l r).depth := by positivity
    have hb := eval_abs_le h0 hA xs (.node l r)
    rw [leafSum_node] at h hb
    have e1 := h1 (by nlinarith [mul_le_mul_of_nonneg_right dl nl, mul_nonneg pp nr])
    have e2 := h2 (by nlinarith [mul_le_mul_of_nonneg_right dr nr, mul_nonneg pp nl])
    simp only [SumTree.evalO, e1, e2]
    simp only [SumTree.eval] at hb
    rw [if_pos (hb.trans h)]
    rfl

theorem sumA_abs_le (t : SumTree) (xs : List ℝ) (ht : Orders xs.length t) :
    |sumA A t xs| ≤ (1 + u) ^ t.depth * sumAbs xs := by
  have h1 := C123_sum h0 hA t xs ht
  have h2 := sumAbs_abs xs
  have h3 := abs_sub_abs_le_abs_sub (sumA A t xs) xs.sum
  linarith

omit h0 hA in
theorem sumAbs_nonneg' (xs : List ℝ) : 0 ≤ sumAbs xs := (abs_nonneg _).trans (sumAbs_abs xs)

theorem sumO_some (big : ℝ) (t : SumTree) (xs : List ℝ) (ht : Orders xs.length t)
    (h : (1 + u) ^ t.depth * sumAbs xs ≤ big) : sumO A big t xs = some (sumA A t xs) := by
  cases xs with
  | nil => rfl
  | cons x xs =>
    simp only [sumO, sumA]
    refine evalO_some h0 hA _ big t ?_
    rw [leafSum_list (x :: xs) (fun v => |v|) t ht]
    exact h

omit h0 in
theorem mul_abs_le (x y : ℝ) : |A.mul x y| ≤ (1 + u) * |x * y| := by
  have h1 := hA.mul x y
  have h3 := abs_sub_abs_le_abs_sub (A.mul x y) (x * y)
  linarith

theorem square_abs_le (t : SumTree) (xs : List ℝ) (ht : Orders xs.length t) :
    |A.mul (sumA A t xs) (sumA A t xs)| ≤ (1 + u) ^ (2 * t.depth + 1) * sumAbs xs ^ 2 := by
  have h1 := sumA_abs_le h0 hA t xs ht
  have h2 := mul_abs_le hA (sumA A t xs) (sumA A t xs)
  have h3 : |sumA A t xs * sumA A t xs| ≤ ((1 + u) ^ t.depth * sumAbs xs) ^ 2 := by
    rw [abs_mul, ← sq]; exact pow_le_pow_left₀ (abs_nonneg _) h1 2
  calc _ ≤ (1 + u) * |sumA A t xs * sumA A t xs| := h2
    _ ≤ (1 + u) * ((1 + u) ^ t.depth * sumAbs xs) ^ 2 := by
        apply mul_le_mul_of_nonneg_left h3; linarith
    _ = _ := by ring

theorem squareO_some (big : ℝ) (hbig : 1 ≤ big) (t : SumTree) (xs : List ℝ) (ht : Orders xs.length t)
    (h : (1 + u) ^ (2 * t.depth + 1) * sumAbs xs ^ 2 ≤ big) :
    squareO A big t xs = some (A.mul (sumA A t xs) (sumA A t xs)) := by
  have hn := sumAbs_nonneg' xs
  have hu : (1 : ℝ) ≤ 1 + u := by linarith
  have hS : (1 + u) ^ t.depth * sumAbs xs ≤ big := by
    by_contra hc
    push Not at hc
    set S := (1 + u) ^ t.depth * sumAbs xs with hSd
    have : S ^ 2 ≤ big := by
      refine le_trans ?_ h
      have e : (1 + u) ^ (2 * t.depth + 1) * sumAbs xs ^ 2 = (1 + u) * S ^ 2 := by rw [hSd]; ring
      rw [e]
      nlinarith [sq_nonneg S]
    nlinarith
  unfold squareO
  rw [sumO_some h0 hA big t xs ht hS]
  simp only
  rw [if_pos ((square_abs_le h0 hA t xs ht).trans h)]

/-- **C127** As long as the squares of the summed magnitudes, with as many roundings as there can be, stay within the
range of numbers, nothing overflows: `combined_mass` is what it is without a limit (about which C123 speaks). -/
theorem C127_fits (big : ℝ) (hbig : 1 ≤ big) (t d : SumTree) (blas : Fl) (ps : List P4) (ht : Orders ps.length t)
    (hd : Orders 4 d)
    (h : (1 + u) ^ (2 * t.depth + d.depth + 2) *
        (sumAbs (ps.map P4.e) ^ 2 + sumAbs (ps.map P4.x) ^ 2 + sumAbs (ps.map P4.y) ^ 2 + sumAbs (ps.map P4.z) ^ 2)
        ≤ big) :
    combinedMassO A big t d blas ps = .fin (combinedMassA A t d ps) := by
  have hu : (1 : ℝ) ≤ 1 + u := by linarith
  have hT : ∀ f : P4 → ℝ, Orders (ps.map f).length t := fun f => by rw [List.length_map]; exact ht
  have hle : ∀ T S : ℝ, 0 ≤ T → T ≤ S → (1 + u) ^ (2 * t.depth + d.depth + 2) * S ≤ big →
      (1 + u) ^ (2 * t.depth + 1) * T ≤ big := by
    intro T S hT0 hTS hS
    have p1 : (1 + u) ^ (2 * t.depth + 1) ≤ (1 + u) ^ (2 * t.depth + d.depth + 2) := pow_le_pow_right₀ hu (by omega)
    have p2 : 0 ≤ (1 + u) ^ (2 * t.depth + 1) := by positivity
    calc _ ≤ (1 + u) ^ (2 * t.depth + 1) * S := by exact mul_le_mul_of_nonneg_left hTS p2
      _ ≤ (1 + u) ^ (2 * t.depth + d.depth + 2) * S := mul_le_mul_of_nonneg_right p1 (hT0.trans hTS)
      _ ≤ big := hS
  have se := sq_nonneg (sumAbs (ps.map P4.e))
  have sx := sq_nonneg (sumAbs (ps.map P4.x))
  have sy := sq_nonneg (sumAbs (ps.map P4.y))
  have sz := sq_nonneg (sumAbs (ps.map P4.z))
  unfold combinedMassO
  rw [squareO_some h0 hA big hbig t _ (hT P4.x) (hle _ _ sx (by linarith) h),
    squareO_some h0 hA big hbig t _ (hT P4.y) (hle _ _ sy (by linarith) h),
    squareO_some h0 hA big hbig t _ (hT P4.z) (hle _ _ sz (by linarith) h),
    squareO_some h0 hA big hbig t _ (hT P4.e) (hle _ _ se (by linarith) h)]
  simp only
  have hterm : ∀ (f : P4 → ℝ) (c : ℝ), |c| = 1 → |A.mul (A.mul (sumA A t (ps.map f)) (sumA A t (ps.map f))) c| ≤
      (1 + u) ^ (2 * t.depth + 2) * sumAbs (ps.map f) ^ 2 := by
    intro f c hc
    have a1 := mul_abs_le hA (A.mul (sumA A t (ps.map f)) (sumA A t (ps.map f))) c
    have a2 := square_abs_le h0 hA t (ps.map f) (hT f)
    rw [abs_mul, hc, mul_one] at a1
    calc _ ≤ (1 + u) * |A.mul (sumA A t (ps.map f)) (sumA A t (ps.map f))| := a1
      _ ≤ (1 + u) * ((1 + u) ^ (2 * t.depth + 1) * sumAbs (ps.map f) ^ 2) := by
          apply mul_le_mul_of_nonneg_left a2; linarith
      _ = _ := by ring
  have hx := hterm P4.x (-1) (by norm_num)
  have hy := hterm P4.y (-1) (by norm_num)
  have hz := hterm P4.z (-1) (by norm_num)
  have he := hterm P4.e 1 (by norm_num)
  have e : minkSquares A (A.mul (sumA A t (ps.map P4.x)) (sumA A t (ps.map P4.x)))
      (A.mul (sumA A t (ps.map P4.y)) (sumA A t (ps.map P4.y)))
      (A.mul (sumA A t (ps.map P4.z)) (sumA A t (ps.map P4.z)))
      (A.mul (sumA A t (ps.map P4.e)) (sumA A t (ps.map P4.e))) = minkTerms A (totalA A t ps) := rfl
  rw [e, evalO_some h0 hA _ big d]
  · rfl
  · rw [leafSum_list (minkTerms A (totalA A t ps)) (fun v => |v|) d hd]
    have : ((minkTerms A (totalA A t ps)).map (fun v => |v|)).sum ≤ (1 + u) ^ (2 * t.depth + 2) *
        (sumAbs (ps.map P4.e) ^ 2 + sumAbs (ps.map P4.x) ^ 2 + sumAbs (ps.map P4.y) ^ 2 + sumAbs (ps.map P4.z) ^ 2) := by
      simp only [minkTerms, totalA, List.map_cons, List.map_nil, List.sum_cons, List.sum_nil]
      linarith
    calc _ ≤ (1 + u) ^ d.depth * ((1 + u) ^ (2 * t.depth + 2) *
        (sumAbs (ps.map P4.e) ^ 2 + sumAbs (ps.map P4.x) ^ 2 + sumAbs (ps.map P4.y) ^ 2 + sumAbs (ps.map P4.z) ^ 2)) := by
          apply mul_le_mul_of_nonneg_left this; positivity
      _ = (1 + u) ^ (2 * t.depth + d.depth + 2) * (sumAbs (ps.map P4.e) ^ 2 + sumAbs (ps.map P4.x) ^ 2 +
          sumAbs (ps.map P4.y) ^ 2 + sumAbs (ps.map P4.z) ^ 2) := by ring
      _ ≤ big := h
omit h0 hA in
theorem evalO_eq {big : ℝ} {xs : List ℝ} {t : SumTree} {s : ℝ} (h : t.evalO A big xs = some s) : s = t.eval A xs := by
  induction t generalizing s with
  | leaf i => exact (Option.some.inj h).symm
  | node l r h1 h2 =>
    simp only [SumTree.evalO] at h
    cases hl : l.evalO A big xs with
    | none => rw [hl] at h; cases h
    | some a =>
      cases hr : r.evalO A big xs with
      | none => rw [hl, hr] at h; cases h
      | some b =>
        rw [hl, hr] at h
        simp only at h
        split at h
        · rw [← Option.some.inj h, h1 hl, h2 hr]; rfl
        · cases h

/-- **C127** If the square of the sum of one component is beyond the range of numbers, even with all roundings
downwards, `combined_mass` is `0.0`, whatever the mass. -/
theorem C127_zero (h1 : u ≤ 1) (big : ℝ) (t d : SumTree) (blas : Fl) (ps : List P4) (ht : Orders ps.length t)
    (c : P4 → ℝ) (hc : c = P4.x ∨ c = P4.y ∨ c = P4.z ∨ c = P4.e)
    (hpos : ((1 + u) ^ t.depth - 1) * sumAbs (ps.map c) ≤ |(ps.map c).sum|)
    (h : big < (1 - u) * (|(ps.map c).sum| - ((1 + u) ^ t.depth - 1) * sumAbs (ps.map c)) ^ 2) :
    combinedMassO A big t d blas ps = .fin 0 := by
  have key : squareO A big t (ps.map c) = none := by
    unfold squareO
    cases hs : sumO A big t (ps.map c) with
    | none => rfl
    | some s =>
      have es : s = sumA A t (ps.map c) := by
        unfold sumO at hs
        unfold sumA
        cases hm : ps.map c with
        | nil => rw [hm] at hs; exact (Option.some.inj hs).symm
        | cons x xs => rw [hm] at hs; exact evalO_eq hs
      simp only
      rw [if_neg]
      push Not
      have b1 := C123_sum h0 hA t (ps.map c) (by rw [List.length_map]; exact ht)
      rw [← es] at b1
      have b2 : |(ps.map c).sum| - ((1 + u) ^ t.depth - 1) * sumAbs (ps.map c) ≤ |s| := by
        have := abs_sub_abs_le_abs_sub (ps.map c).sum s
        rw [abs_sub_comm] at this
        linarith
      have b3 := hA.mul s s
      have b4 : (1 - u) * s ^ 2 ≤ |A.mul s s| := by
        have e : |s * s| = s ^ 2 := by rw [← sq, abs_of_nonneg (sq_nonneg s)]
        have := abs_sub_abs_le_abs_sub (s * s) (A.mul s s)
        rw [abs_sub_comm, e] at this
        rw [e] at b3
        linarith
      have b5 : (|(ps.map c).sum| - ((1 + u) ^ t.depth - 1) * sumAbs (ps.map c)) ^ 2 ≤ s ^ 2 := by
        rw [← sq_abs s]
        exact pow_le_pow_left₀ (by linarith) b2 2
      have b6 := mul_le_mul_of_nonneg_left b5 (show 0 ≤ 1 - u by linarith)
      linarith
  unfold combinedMassO
  rcases hc with rfl | rfl | rfl | rfl
  · rw [key]
  · rw [key]
    cases squareO A big t (ps.map P4.x) <;> rfl
  · rw [key]
    cases squareO A big t (ps.map P4.x) <;> cases squareO A big t (ps.map P4.y) <;> rfl
  · rw [key]
    cases squareO A big t (ps.map P4.x) <;> cases squareO A big t (ps.map P4.y) <;>
      cases squareO A big t (ps.map P4.z) <;> rfl
end

/-- **C127** The documentation's "in the event of a squared mass below zero this function will simply return `0.0`" is
not the only case: whatever the range of numbers, a particle at rest, whose mass is a number in that range, has combined
mass `0.0`, even if all results are exact. -/
theorem C127_false : ¬ ∀ (big : ℝ) (t d : SumTree) (blas : Fl) (ps : List P4), 4 ≤ big → Orders ps.length t → Orders 4 d →
    (∀ p ∈ ps, |p.x| ≤ big ∧ |p.y| ≤ big ∧ |p.z| ≤ big ∧ |p.e| ≤ big) → 0 < mdot (total ps) (total ps) →
    combinedMass ps ≤ big → combinedMassO .exact big t d blas ps = .fin (combinedMass ps) := by
  intro h
  have hz := C127_zero (le_refl (0 : ℝ)) (accurate_exact (le_refl 0)) zero_le_one 4 (.leaf 0) (sequential 3) (.fin 0)
    [⟨0, 0, 0, 3⟩] (by simp [Orders, SumTree.leaves]) P4.e (by simp) (by simp [SumTree.depth])
    (by simp [SumTree.depth]; norm_num)
  have hm : combinedMass [⟨0, 0, 0, 3⟩] = 3 := by
    simp [combinedMass, total]
  have := h 4 (.leaf 0) (sequential 3) (.fin 0) [⟨0, 0, 0, 3⟩] le_rfl (by simp [Orders, SumTree.leaves])
    (((C123_worst (le_refl (0 : ℝ)) (accurate_exact (le_refl 0)) (.leaf 0) [0] (by simp [Orders, SumTree.leaves])).2 3).1)
    (by intro p hp; simp at hp; subst hp; norm_num) (by simp [mdot, total]) (by rw [hm]; norm_num)
  rw [hz, hm] at this
  simp at this

/-- Two particles that meet the hypotheses of `C127_fits`. -/
example : combinedMassO .exact 1000 (sequential 1) (sequential 3) .pinf [⟨0, 0, 3, 5⟩, ⟨0, 0, -3, 5⟩] =
    .fin (combinedMassA .exact (sequential 1) (sequential 3) [⟨0, 0, 3, 5⟩, ⟨0, 0, -3, 5⟩]) := by
  have w := (C123_worst (le_refl (0 : ℝ)) (accurate_exact (le_refl 0)) (.leaf 0) [0] (by simp [Orders, SumTree.leaves])).2
  refine C127_fits (le_refl 0) (accurate_exact (le_refl 0)) 1000 (by norm_num) _ _ _ _ (w 1).1 (w 3).1 ?_
  simp [sumAbs]; norm_num
end Gcl
