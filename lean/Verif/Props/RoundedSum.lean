import Verif.Spec.RoundedSum
import Verif.Props.Rounded
/-! # C123: sums, the combined mass and centroids when arithmetic rounds -/
namespace Gcl
set_option autoImplicit false
open Real Spec

/-- The exact sum of the leaves of a tree. -/
def leafSum (f : Nat → ℝ) (t : SumTree) : ℝ := (t.leaves.map f).sum

theorem leafSum_node (f : Nat → ℝ) (l r : SumTree) : leafSum f (.node l r) = leafSum f l + leafSum f r := by
  simp [leafSum, SumTree.leaves]

theorem leafSum_abs_le (f : Nat → ℝ) (t : SumTree) : |leafSum f t| ≤ leafSum (fun i => |f i|) t := by
  induction t with
  | leaf i => simp [leafSum, SumTree.leaves]
  | node l r h1 h2 =>
    rw [leafSum_node, leafSum_node]
    exact (abs_add_le _ _).trans (add_le_add h1 h2)

theorem leafSum_nonneg (f : Nat → ℝ) (t : SumTree) : 0 ≤ leafSum (fun i => |f i|) t :=
  (abs_nonneg _).trans (leafSum_abs_le f t)

theorem leafSum_list (xs : List ℝ) (g : ℝ → ℝ) (t : SumTree) (ht : Orders xs.length t) :
    leafSum (fun i => g (xs.getD i 0)) t = (xs.map g).sum := by
  unfold leafSum
  rw [(ht.map _).sum_eq]
  congr 1
  apply List.ext_getElem (by simp)
  intro i h1 h2
  simp at h1
  simp [h1]

section
variable {u : ℝ} (h0 : 0 ≤ u) {A : Arith} (hA : Accurate u A)
include h0 hA

theorem eval_bound (xs : List ℝ) (t : SumTree) :
    |t.eval A xs - leafSum (fun i => xs.getD i 0) t| ≤
      ((1 + u) ^ t.depth - 1) * leafSum (fun i => |xs.getD i 0|) t := by
  induction t with
  | leaf i => simp [SumTree.eval, leafSum, SumTree.leaves, SumTree.depth]
  | node l r h1 h2 =>
    rw [leafSum_node, leafSum_node, SumTree.eval, SumTree.depth]
    set m := max l.depth r.depth with hm
    set P := leafSum (fun i => xs.getD i 0) l
    set Q := leafSum (fun i => xs.getD i 0) r
    set S := leafSum (fun i => |xs.getD i 0|) l
    set T := leafSum (fun i => |xs.getD i 0|) r
    set a := l.eval A xs
    set b := r.eval A xs
    have hS : 0 ≤ S := leafSum_nonneg _ _
    have hT : 0 ≤ T := leafSum_nonneg _ _
    have hPS : |P| ≤ S := leafSum_abs_le _ _
    have hQT : |Q| ≤ T := leafSum_abs_le _ _
    have e1 : (1 + u) ^ l.depth ≤ (1 + u) ^ m := pow_le_pow_right₀ (by linarith) (le_max_left _ _)
    have e2 : (1 + u) ^ r.depth ≤ (1 + u) ^ m := pow_le_pow_right₀ (by linarith) (le_max_right _ _)
    have h1' : |a - P| ≤ ((1 + u) ^ m - 1) * S := h1.trans (by nlinarith)
    have h2' : |b - Q| ≤ ((1 + u) ^ m - 1) * T := h2.trans (by nlinarith)
    have hab : |(a + b) - (P + Q)| ≤ ((1 + u) ^ m - 1) * (S + T) := by
      have : (a + b) - (P + Q) = (a - P) + (b - Q) := by ring
      rw [this, mul_add]
      exact (abs_add_le _ _).trans (add_le_add h1' h2')
    have hab2 : |a + b| ≤ (1 + u) ^ m * (S + T) := by
      have h3 : |a + b| ≤ |(a + b) - (P + Q)| + |P + Q| := by
        have := abs_add_le ((a + b) - (P + Q)) (P + Q)
        simpa using this
      have h4 : |P + Q| ≤ S + T := (abs_add_le _ _).trans (add_le_add hPS hQT)
      linarith
    have h5 := hA.add a b
    have h6 : |A.add a b - (P + Q)| ≤ |A.add a b - (a + b)| + |(a + b) - (P + Q)| := abs_sub_le _ _ _
    have h7 : u * |a + b| ≤ u * ((1 + u) ^ m * (S + T)) := mul_le_mul_of_nonneg_left hab2 h0
    rw [pow_succ]
    calc |A.add a b - (P + Q)| ≤ u * ((1 + u) ^ m * (S + T)) + ((1 + u) ^ m - 1) * (S + T) := by linarith
      _ = ((1 + u) ^ m * (1 + u) - 1) * (S + T) := by ring

/-- **C123** A sum computed in any order differs from the exact sum by at most as many roundings of the sum of the
magnitudes as the deepest term goes through additions. -/
theorem C123_sum (t : SumTree) (xs : List ℝ) (ht : Orders xs.length t) :
    |sumA A t xs - xs.sum| ≤ ((1 + u) ^ t.depth - 1) * sumAbs xs := by
  cases xs with
  | nil => simp [sumA, sumAbs]
  | cons x xs =>
    have := eval_bound h0 hA (x :: xs) t
    rw [leafSum_list _ (fun y => |y|) t ht, show leafSum (fun i => (x :: xs).getD i 0) t = (x :: xs).sum by
      have := leafSum_list (x :: xs) id t ht
      simpa using this] at this
    exact this

omit h0 hA in
theorem depth_lt_leaves (t : SumTree) : t.depth + 1 ≤ t.leaves.length := by
  induction t with
  | leaf i => simp [SumTree.depth, SumTree.leaves]
  | node l r h1 h2 => simp only [SumTree.depth, SumTree.leaves, List.length_append]; omega

/-- **C123** Whatever the order, `n` terms take at most `n - 1` roundings; this many are needed by adding one term after
the other. -/
theorem C123_worst (t : SumTree) (xs : List ℝ) (ht : Orders xs.length t) :
    |sumA A t xs - xs.sum| ≤ ((1 + u) ^ (xs.length - 1) - 1) * sumAbs xs ∧
    ∀ n, Orders (n + 1) (sequential n) ∧ (sequential n).depth = n := by
  constructor
  · refine (C123_sum h0 hA t xs ht).trans ?_
    have hl : t.depth ≤ xs.length - 1 := by
      have h1 := depth_lt_leaves t
      have h2 := ht.length_eq
      rw [List.length_range] at h2
      omega
    have h3 : (1 + u) ^ t.depth ≤ (1 + u) ^ (xs.length - 1) := pow_le_pow_right₀ (by linarith) hl
    have h4 : 0 ≤ sumAbs xs := List.sum_nonneg (by
      intro x hx
      obtain ⟨y, -, rfl⟩ := List.mem_map.1 hx
      exact abs_nonneg y)
    nlinarith
  · intro n
    induction n with
    | zero => exact ⟨by simp [Orders, sequential, SumTree.leaves, List.range_succ], rfl⟩
    | succ n ih =>
      refine ⟨?_, ?_⟩
      · rw [Orders, sequential, SumTree.leaves, SumTree.leaves, List.range_succ]
        exact ih.1.append_right _
      · rw [sequential, SumTree.depth, ih.2]
        simp [SumTree.depth]

/-- The square of a sum, twice rounded. -/
theorem square_bound {α s S T c : ℝ} (hα : 1 ≤ α) (hc : |c| = 1) (hs : |s - S| ≤ (α - 1) * T) (hS : |S| ≤ T) :
    |A.mul (A.mul s s) c - S ^ 2 * c| ≤ ((1 + u) ^ 2 * α ^ 2 - 1) * T ^ 2 := by
  have hT : 0 ≤ T := (abs_nonneg _).trans hS
  have hs' : |s| ≤ α * T := by
    have := abs_add_le (s - S) S
    rw [sub_add_cancel] at this
    linarith
  have h1 : |s ^ 2 - S ^ 2| ≤ (α ^ 2 - 1) * T ^ 2 := by
    have : s ^ 2 - S ^ 2 = (s - S) * (s + S) := by ring
    rw [this, abs_mul]
    have h2 : |s + S| ≤ (α + 1) * T := (abs_add_le _ _).trans (by linarith)
    calc |s - S| * |s + S| ≤ ((α - 1) * T) * ((α + 1) * T) :=
          mul_le_mul hs h2 (abs_nonneg _) (mul_nonneg (by linarith) hT)
      _ = (α ^ 2 - 1) * T ^ 2 := by ring
  have hsq : s * s ≤ α ^ 2 * T ^ 2 := by
    have : |s| * |s| ≤ (α * T) * (α * T) := mul_le_mul hs' hs' (abs_nonneg _) (by positivity)
    rw [abs_mul_abs_self] at this
    linarith
  have h3 := hA.mul s s
  rw [abs_of_nonneg (mul_self_nonneg s)] at h3
  have h4 : |A.mul s s - S ^ 2| ≤ ((1 + u) * α ^ 2 - 1) * T ^ 2 := by
    have := abs_sub_le (A.mul s s) (s * s) (S ^ 2)
    have h5 : |s * s - S ^ 2| ≤ (α ^ 2 - 1) * T ^ 2 := by rw [← sq]; exact h1
    nlinarith [mul_le_mul_of_nonneg_left hsq h0]
  have h6 : |A.mul s s| ≤ (1 + u) * α ^ 2 * T ^ 2 := by
    have h7 : |S ^ 2| ≤ T ^ 2 := by
      rw [abs_pow]
      exact pow_le_pow_left₀ (abs_nonneg _) hS 2
    have := abs_add_le (A.mul s s - S ^ 2) (S ^ 2)
    rw [sub_add_cancel] at this
    linarith
  have h8 := hA.mul (A.mul s s) c
  rw [abs_mul, hc, mul_one] at h8
  have h9 : |A.mul s s * c - S ^ 2 * c| ≤ ((1 + u) * α ^ 2 - 1) * T ^ 2 := by
    rw [← sub_mul, abs_mul, hc, mul_one]
    exact h4
  have h10 := abs_sub_le (A.mul (A.mul s s) c) (A.mul s s * c) (S ^ 2 * c)
  nlinarith [mul_le_mul_of_nonneg_left h6 h0]

omit h0 hA in
theorem sumAbs_abs (xs : List ℝ) : |xs.sum| ≤ sumAbs xs := by
  unfold sumAbs
  induction xs with
  | nil => simp
  | cons x xs ih =>
    rw [List.sum_cons, List.map_cons, List.sum_cons]
    exact (abs_add_le _ _).trans (by linarith)

/-- The squared mass, before the square root. -/
theorem mink_bound (t d : SumTree) (ps : List P4) (ht : Orders ps.length t) (hd : Orders 4 d) :
    |sumA A d (minkTerms A (totalA A t ps)) -
        ((ps.map P4.e).sum ^ 2 - (ps.map P4.x).sum ^ 2 - (ps.map P4.y).sum ^ 2 - (ps.map P4.z).sum ^ 2)| ≤
      ((1 + u) ^ (2 * t.depth + d.depth + 2) - 1) *
        (sumAbs (ps.map P4.e) ^ 2 + sumAbs (ps.map P4.x) ^ 2 + sumAbs (ps.map P4.y) ^ 2 + sumAbs (ps.map P4.z) ^ 2) := by
  set α := (1 + u) ^ t.depth with hα
  have hα1 : 1 ≤ α := one_le_pow₀ (by linarith)
  have comp : ∀ (f : P4 → ℝ) (c : ℝ), |c| = 1 →
      |A.mul (A.mul (sumA A t (ps.map f)) (sumA A t (ps.map f))) c - (ps.map f).sum ^ 2 * c| ≤
        ((1 + u) ^ 2 * α ^ 2 - 1) * sumAbs (ps.map f) ^ 2 := fun f c hc =>
    square_bound h0 hA hα1 hc (C123_sum h0 hA t (ps.map f) (by rw [List.length_map]; exact ht)) (sumAbs_abs _)
  have cx := comp P4.x (-1) (by simp)
  have cy := comp P4.y (-1) (by simp)
  have cz := comp P4.z (-1) (by simp)
  have ce := comp P4.e 1 (by simp)
  have hsum := C123_sum h0 hA d (minkTerms A (totalA A t ps)) hd
  set q := sumA A d (minkTerms A (totalA A t ps))
  simp only [minkTerms, totalA, sumAbs, List.map_cons, List.map_nil, List.sum_cons, List.sum_nil, add_zero] at hsum
  set X := A.mul (A.mul (sumA A t (ps.map P4.x)) (sumA A t (ps.map P4.x))) (-1)
  set Y := A.mul (A.mul (sumA A t (ps.map P4.y)) (sumA A t (ps.map P4.y))) (-1)
  set Z := A.mul (A.mul (sumA A t (ps.map P4.z)) (sumA A t (ps.map P4.z))) (-1)
  set E := A.mul (A.mul (sumA A t (ps.map P4.e)) (sumA A t (ps.map P4.e))) 1
  have mag : ∀ {w S T c : ℝ}, |c| = 1 → |S| ≤ T → |w - S ^ 2 * c| ≤ ((1 + u) ^ 2 * α ^ 2 - 1) * T ^ 2 →
      |w| ≤ (1 + u) ^ 2 * α ^ 2 * T ^ 2 := by
    intro w S T c hc hS hw
    have h1 : |S ^ 2 * c| ≤ T ^ 2 := by
      rw [abs_mul, hc, mul_one, abs_pow]
      exact pow_le_pow_left₀ (abs_nonneg _) hS 2
    have := abs_add_le (w - S ^ 2 * c) (S ^ 2 * c)
    rw [sub_add_cancel] at this
    linarith
  have mx := mag (by simp) (sumAbs_abs (ps.map P4.x)) cx
  have my := mag (by simp) (sumAbs_abs (ps.map P4.y)) cy
  have mz := mag (by simp) (sumAbs_abs (ps.map P4.z)) cz
  have me := mag (by simp) (sumAbs_abs (ps.map P4.e)) ce
  set B := sumAbs (ps.map P4.e) ^ 2 + sumAbs (ps.map P4.x) ^ 2 + sumAbs (ps.map P4.y) ^ 2 + sumAbs (ps.map P4.z) ^ 2 with hB
  have hδ1 : 1 ≤ (1 + u) ^ d.depth := one_le_pow₀ (by linarith)
  have hmag : |X| + (|Y| + (|Z| + |E|)) ≤ (1 + u) ^ 2 * α ^ 2 * B := by rw [hB]; linarith
  have hterms : |(X + (Y + (Z + E))) -
      ((ps.map P4.e).sum ^ 2 - (ps.map P4.x).sum ^ 2 - (ps.map P4.y).sum ^ 2 - (ps.map P4.z).sum ^ 2)| ≤
      ((1 + u) ^ 2 * α ^ 2 - 1) * B := by
    rw [hB]
    rw [abs_le] at cx cy cz ce ⊢
    constructor <;> linarith [cx.1, cx.2, cy.1, cy.2, cz.1, cz.2, ce.1, ce.2]
  have h1 := abs_sub_le q (X + (Y + (Z + E)))
    ((ps.map P4.e).sum ^ 2 - (ps.map P4.x).sum ^ 2 - (ps.map P4.y).sum ^ 2 - (ps.map P4.z).sum ^ 2)
  have h2 : ((1 + u) ^ d.depth - 1) * (|X| + (|Y| + (|Z| + |E|))) ≤
      ((1 + u) ^ d.depth - 1) * ((1 + u) ^ 2 * α ^ 2 * B) := mul_le_mul_of_nonneg_left hmag (by linarith)
  have hpow : (1 + u) ^ (2 * t.depth + d.depth + 2) = (1 + u) ^ d.depth * ((1 + u) ^ 2 * α ^ 2) := by
    rw [hα]; ring
  rw [hpow]
  calc |q - _| ≤ ((1 + u) ^ d.depth - 1) * ((1 + u) ^ 2 * α ^ 2 * B) + ((1 + u) ^ 2 * α ^ 2 - 1) * B := by linarith
    _ = ((1 + u) ^ d.depth * ((1 + u) ^ 2 * α ^ 2) - 1) * B := by ring

/-- **C123** `combined_mass` in any order of summation is a non-negative number whose square is that of the exact mass
up to `2 h + d + 4` roundings of the squares of the summed magnitudes, where no component goes through more than `h`
additions in the sum over particles and `d` in the Minkowski product. -/
theorem C123_mass (h1 : u < 1) (t d : SumTree) (ps : List P4) (ht : Orders ps.length t) (hd : Orders 4 d) :
    0 ≤ combinedMassA A t d ps ∧
    |combinedMassA A t d ps ^ 2 - combinedMass ps ^ 2| ≤
      ((1 + u) ^ (2 * t.depth + d.depth + 4) - 1) *
        (sumAbs (ps.map P4.e) ^ 2 + sumAbs (ps.map P4.x) ^ 2 + sumAbs (ps.map P4.y) ^ 2 +
          sumAbs (ps.map P4.z) ^ 2) := by
  have hq := mink_bound h0 hA t d ps ht hd
  set q := sumA A d (minkTerms A (totalA A t ps)) with hqd
  set M := (ps.map P4.e).sum ^ 2 - (ps.map P4.x).sum ^ 2 - (ps.map P4.y).sum ^ 2 - (ps.map P4.z).sum ^ 2 with hM
  set B := sumAbs (ps.map P4.e) ^ 2 + sumAbs (ps.map P4.x) ^ 2 + sumAbs (ps.map P4.y) ^ 2 + sumAbs (ps.map P4.z) ^ 2 with hB
  have hB0 : 0 ≤ B := by positivity
  have hMB : |M| ≤ B := by
    have sq : ∀ f : P4 → ℝ, (ps.map f).sum ^ 2 ≤ sumAbs (ps.map f) ^ 2 := fun f => by
      rw [← sq_abs]
      exact pow_le_pow_left₀ (abs_nonneg _) (sumAbs_abs _) 2
    have := sq P4.e
    have := sq P4.x
    have := sq P4.y
    have := sq P4.z
    rw [abs_le]
    constructor <;> nlinarith [sq_nonneg (ps.map P4.e).sum, sq_nonneg (ps.map P4.x).sum, sq_nonneg (ps.map P4.y).sum,
      sq_nonneg (ps.map P4.z).sum]
  have hexact : combinedMass ps ^ 2 = max 0 M := by
    have hm : (total ps).x ^ 2 * (-1) + (total ps).y ^ 2 * (-1) + (total ps).z ^ 2 * (-1) + (total ps).e ^ 2 * 1 = M := by
      rw [hM]; simp only [total]; ring
    simp only [combinedMass]
    rw [hm]
    split_ifs with h
    · rw [max_eq_left h.le]; norm_num
    · rw [sq_sqrt (not_lt.1 h), max_eq_right (not_lt.1 h)]
  set k := 2 * t.depth + d.depth + 2 with hk
  have hk4 : 2 * t.depth + d.depth + 4 = k + 2 := by omega
  have hpk : 1 ≤ (1 + u) ^ k := one_le_pow₀ (by linarith)
  rw [hexact, hk4, pow_add]
  simp only [combinedMassA]
  rw [← hqd]
  have h2u : (1:ℝ) ≤ (1 + u) ^ 2 := one_le_pow₀ (by linarith)
  by_cases hneg : q < 0
  · rw [if_pos hneg]
    refine ⟨le_refl _, ?_⟩
    have h3 : |(0:ℝ) ^ 2 - max 0 M| ≤ |q - M| := by
      rcases le_total M 0 with hM0 | hM0
      · rw [max_eq_left hM0]; simp
      · rw [max_eq_right hM0, abs_of_nonpos (by linarith : q - M ≤ 0)]
        norm_num
        rw [abs_of_nonneg hM0]
        linarith
    refine h3.trans (hq.trans ?_)
    apply mul_le_mul_of_nonneg_right _ hB0
    nlinarith
  · rw [if_neg hneg]
    have hq0 : 0 ≤ q := not_lt.1 hneg
    have hs := hA.sqrt q hq0
    rw [abs_of_nonneg (sqrt_nonneg q), abs_le] at hs
    have hsq0 := sqrt_nonneg q
    have hlo : (1 - u) * √q ≤ A.sqrt q := by linarith [hs.1]
    have hhi : A.sqrt q ≤ (1 + u) * √q := by linarith [hs.2]
    have hnn : 0 ≤ A.sqrt q := (mul_nonneg (by linarith) hsq0).trans hlo
    refine ⟨hnn, ?_⟩
    have h4 : |A.sqrt q ^ 2 - q| ≤ ((1 + u) ^ 2 - 1) * q := by
      have hq2 : q = √q ^ 2 := (sq_sqrt hq0).symm
      have hup : A.sqrt q ^ 2 ≤ ((1 + u) * √q) ^ 2 := pow_le_pow_left₀ hnn hhi 2
      have hdn : ((1 - u) * √q) ^ 2 ≤ A.sqrt q ^ 2 := pow_le_pow_left₀ (mul_nonneg (by linarith) hsq0) hlo 2
      rw [mul_pow, sq_sqrt hq0] at hup hdn
      rw [abs_le]
      constructor <;> nlinarith
    have h5 : |q - max 0 M| ≤ |q - M| := by
      have := abs_max_sub_max_le_abs q M 0
      rw [max_eq_left hq0, max_comm M 0] at this
      exact this
    have h6 : q ≤ (1 + u) ^ k * B := by
      have := abs_le.1 hq
      have := abs_le.1 hMB
      linarith [this.2]
    have h7 := abs_sub_le (A.sqrt q ^ 2) q (max 0 M)
    have h8 : ((1 + u) ^ 2 - 1) * q ≤ ((1 + u) ^ 2 - 1) * ((1 + u) ^ k * B) := mul_le_mul_of_nonneg_left h6 (by linarith)
    calc |A.sqrt q ^ 2 - max 0 M| ≤ ((1 + u) ^ 2 - 1) * ((1 + u) ^ k * B) + ((1 + u) ^ k - 1) * B := by linarith
      _ = ((1 + u) ^ k * (1 + u) ^ 2 - 1) * B := by ring

omit h0 hA in
theorem sumAbs_perm {xs ys : List ℝ} (h : xs.Perm ys) : sumAbs xs = sumAbs ys := (h.map _).sum_eq

/-- **C123** Two runs on the same particles, listed or added in different orders, agree up to the two bounds. -/
theorem C123_reorder (h1 : u < 1) (t t' d d' : SumTree) (ps ps' : List P4) (hp : ps.Perm ps')
    (ht : Orders ps.length t) (ht' : Orders ps'.length t') (hd : Orders 4 d) (hd' : Orders 4 d') (k : Nat)
    (hk : 2 * t.depth + d.depth + 4 ≤ k) (hk' : 2 * t'.depth + d'.depth + 4 ≤ k) :
    |combinedMassA A t d ps ^ 2 - combinedMassA A t' d' ps' ^ 2| ≤
      2 * ((1 + u) ^ k - 1) *
        (sumAbs (ps.map P4.e) ^ 2 + sumAbs (ps.map P4.x) ^ 2 + sumAbs (ps.map P4.y) ^ 2 + sumAbs (ps.map P4.z) ^ 2) := by
  have m1 := (C123_mass h0 hA h1 t d ps ht hd).2
  have m2 := (C123_mass h0 hA h1 t' d' ps' ht' hd').2
  have hc : combinedMass ps' = combinedMass ps := by
    have e : ∀ f : P4 → ℝ, (ps'.map f).sum = (ps.map f).sum := fun f => ((hp.map f).sum_eq).symm
    have ht : total ps' = total ps := by
      simp only [total]
      congr 1 <;> exact e _
    unfold combinedMass
    rw [ht]
  have e : ∀ f : P4 → ℝ, sumAbs (ps'.map f) = sumAbs (ps.map f) := fun f => (sumAbs_perm (hp.map f)).symm
  rw [hc, e, e, e, e] at m2
  set B := sumAbs (ps.map P4.e) ^ 2 + sumAbs (ps.map P4.x) ^ 2 + sumAbs (ps.map P4.y) ^ 2 + sumAbs (ps.map P4.z) ^ 2 with hB
  have hB0 : 0 ≤ B := by positivity
  have p1 : (1 + u) ^ (2 * t.depth + d.depth + 4) ≤ (1 + u) ^ k := pow_le_pow_right₀ (by linarith) hk
  have p2 : (1 + u) ^ (2 * t'.depth + d'.depth + 4) ≤ (1 + u) ^ k := pow_le_pow_right₀ (by linarith) hk'
  have q1 := mul_le_mul_of_nonneg_right p1 hB0
  have q2 := mul_le_mul_of_nonneg_right p2 hB0
  have tri := abs_sub_le (combinedMassA A t d ps ^ 2) (combinedMass ps ^ 2) (combinedMassA A t' d' ps' ^ 2)
  rw [abs_sub_comm (combinedMass ps ^ 2)] at tri
  linarith

/-- A sum of non-negative terms has a small relative error. -/
theorem eval_nonneg_bound (h1 : u < 1) (xs : List ℝ) (hx : ∀ x ∈ xs, 0 ≤ x) (t : SumTree) :
    (1 - u) ^ t.depth * leafSum (fun i => xs.getD i 0) t ≤ t.eval A xs ∧
    t.eval A xs ≤ (1 + u) ^ t.depth * leafSum (fun i => xs.getD i 0) t ∧ 0 ≤ leafSum (fun i => xs.getD i 0) t := by
  induction t with
  | leaf i =>
    have : 0 ≤ xs.getD i 0 := by
      rw [List.getD_eq_getElem?_getD]
      cases h : xs[i]? with
      | none => simp
      | some x => exact hx x (List.mem_of_getElem? h)
    simp [SumTree.eval, leafSum, SumTree.leaves, SumTree.depth]
    simpa using this
  | node l r i1 i2 =>
    rw [leafSum_node, SumTree.eval, SumTree.depth]
    set m := max l.depth r.depth
    set P := leafSum (fun i => xs.getD i 0) l
    set Q := leafSum (fun i => xs.getD i 0) r
    set a := l.eval A xs
    set b := r.eval A xs
    obtain ⟨a1, a2, a3⟩ := i1
    obtain ⟨b1, b2, b3⟩ := i2
    have e1 : (1 + u) ^ l.depth ≤ (1 + u) ^ m := pow_le_pow_right₀ (by linarith) (le_max_left _ _)
    have e2 : (1 + u) ^ r.depth ≤ (1 + u) ^ m := pow_le_pow_right₀ (by linarith) (le_max_right _ _)
    have f1 : (1 - u) ^ m ≤ (1 - u) ^ l.depth := pow_le_pow_of_le_one (by linarith) (by linarith) (le_max_left _ _)
    have f2 : (1 - u) ^ m ≤ (1 - u) ^ r.depth := pow_le_pow_of_le_one (by linarith) (by linarith) (le_max_right _ _)
    have hlo : (1 - u) ^ m * (P + Q) ≤ a + b := by nlinarith
    have hhi : a + b ≤ (1 + u) ^ m * (P + Q) := by nlinarith
    have hpos : 0 ≤ a + b := (mul_nonneg (pow_nonneg (by linarith) m) (add_nonneg a3 b3)).trans hlo
    have h5 := hA.add a b
    rw [abs_of_nonneg hpos, abs_le] at h5
    refine ⟨?_, ?_, add_nonneg a3 b3⟩
    · rw [pow_succ]
      nlinarith [mul_le_mul_of_nonneg_left hlo (by linarith : 0 ≤ 1 - u)]
    · rw [pow_succ]
      nlinarith [mul_le_mul_of_nonneg_left hhi (by linarith : 0 ≤ 1 + u)]

/-- **C123** The weighted mean of `weighted_centroid`, for weights that are not negative and not all zero: it differs
from the exact one by at most `(1 + u)^(h + 2) / (1 - u)^h - 1` times the weighted mean of the magnitudes, where no term
goes through more than `h` additions. -/
theorem C123_centroid (h1 : u < 1) (t t' : SumTree) (rs ws : List ℝ) (hl : rs.length = ws.length)
    (ht : Orders ws.length t) (ht' : Orders ws.length t') (hw : ∀ w ∈ ws, 0 ≤ w) (hpos : 0 < ws.sum) (h : Nat)
    (hh : t.depth ≤ h) (hh' : t'.depth ≤ h) :
    |weightedMeanA A t t' rs ws - (List.zipWith (· * ·) rs ws).sum / ws.sum| ≤
      ((1 + u) ^ (h + 2) / (1 - u) ^ h - 1) * ((List.zipWith (fun r w => |r| * w) rs ws).sum / ws.sum) := by
  have hne : ws ≠ [] := by rintro rfl; simp at hpos
  -- the denominator
  have hden : (1 - u) ^ h * ws.sum ≤ sumA A t' ws := by
    have hb := (eval_nonneg_bound h0 hA h1 ws hw t').1
    rw [show leafSum (fun i => ws.getD i 0) t' = ws.sum by simpa using leafSum_list ws id t' ht'] at hb
    have : sumA A t' ws = t'.eval A ws := by
      cases ws with
      | nil => exact absurd rfl hne
      | cons w ws => rfl
    rw [this]
    have := pow_le_pow_of_le_one (by linarith : 0 ≤ 1 - u) (by linarith) hh'
    nlinarith
  have hdenhi : sumA A t' ws ≤ (1 + u) ^ h * ws.sum := by
    have hb := (eval_nonneg_bound h0 hA h1 ws hw t').2.1
    rw [show leafSum (fun i => ws.getD i 0) t' = ws.sum by simpa using leafSum_list ws id t' ht'] at hb
    have : sumA A t' ws = t'.eval A ws := by
      cases ws with
      | nil => exact absurd rfl hne
      | cons w ws => rfl
    rw [this]
    have := pow_le_pow_right₀ (by linarith : 1 ≤ 1 + u) hh'
    nlinarith
  -- the products
  have key : ∀ (rs ws : List ℝ), (∀ w ∈ ws, 0 ≤ w) →
      |(List.zipWith A.mul rs ws).sum - (List.zipWith (· * ·) rs ws).sum| ≤ u * (List.zipWith (fun r w => |r| * w) rs ws).sum ∧
      sumAbs (List.zipWith A.mul rs ws) ≤ (1 + u) * (List.zipWith (fun r w => |r| * w) rs ws).sum ∧
      |(List.zipWith (· * ·) rs ws).sum| ≤ (List.zipWith (fun r w => |r| * w) rs ws).sum := by
    intro rs
    induction rs with
    | nil => intro ws _; simp [sumAbs]
    | cons r rs ih =>
      intro ws hw
      cases ws with
      | nil => simp [sumAbs]
      | cons w ws =>
        obtain ⟨i1, i2, i3⟩ := ih ws (fun w hw' => hw w (by simp [hw']))
        have hw0 := hw w (by simp)
        have hm := hA.mul r w
        have habs : |r * w| = |r| * w := by rw [abs_mul, abs_of_nonneg hw0]
        rw [habs] at hm
        simp only [List.zipWith_cons_cons, List.sum_cons, sumAbs, List.map_cons] at i2 ⊢
        refine ⟨?_, ?_, ?_⟩
        · rw [abs_le] at hm i1 ⊢
          constructor <;> linarith [hm.1, hm.2, i1.1, i1.2]
        · have : |A.mul r w| ≤ (1 + u) * (|r| * w) := by
            have := abs_add_le (A.mul r w - r * w) (r * w)
            rw [sub_add_cancel, habs] at this
            linarith
          linarith
        · exact (abs_add_le _ _).trans (by rw [habs]; linarith)
  obtain ⟨k1, k2, k3⟩ := key rs ws hw
  set D := ws.sum
  set N := (List.zipWith (· * ·) rs ws).sum
  set T := (List.zipWith (fun r w => |r| * w) rs ws).sum
  have hT : 0 ≤ T := (abs_nonneg _).trans k3
  have hnum : |sumA A t (List.zipWith A.mul rs ws) - N| ≤ ((1 + u) ^ (h + 1) - 1) * T := by
    have hs := C123_sum h0 hA t (List.zipWith A.mul rs ws) (by
      rw [List.length_zipWith, hl, min_self]; exact ht)
    have hp := pow_le_pow_right₀ (by linarith : 1 ≤ 1 + u) hh
    have hp1 : 1 ≤ (1 + u) ^ t.depth := one_le_pow₀ (by linarith)
    have h3 := abs_sub_le (sumA A t (List.zipWith A.mul rs ws)) (List.zipWith A.mul rs ws).sum N
    have h4 : ((1 + u) ^ t.depth - 1) * sumAbs (List.zipWith A.mul rs ws) ≤ ((1 + u) ^ h - 1) * ((1 + u) * T) := by
      apply mul_le_mul (by linarith) k2
      · exact (abs_nonneg _).trans (sumAbs_abs _)
      · linarith
    rw [pow_succ]
    linarith
  set num := sumA A t (List.zipWith A.mul rs ws)
  set den := sumA A t' ws
  have hlow : 0 < (1 - u) ^ h := pow_pos (by linarith) h
  have hden0 : 0 < den := lt_of_lt_of_le (mul_pos hlow hpos) hden
  have hdiv := hA.div num den hden0.ne'
  set L := (1 - u) ^ h
  set H := (1 + u) ^ h with hH
  have hH1 : 1 ≤ H := one_le_pow₀ (by linarith)
  have hL1 : L ≤ 1 := pow_le_one₀ (by linarith) (by linarith)
  have hHL : 1 - L ≤ H - 1 := low_high h0 h1 h
  -- `|num| ≤ (1+u)^(h+1) T`
  have hnumabs : |num| ≤ (1 + u) ^ (h + 1) * T := by
    have := abs_add_le (num - N) N
    rw [sub_add_cancel] at this
    linarith
  have hq : |num / den| ≤ (1 + u) ^ (h + 1) * T / (L * D) := by
    rw [abs_div, abs_of_pos hden0]
    exact div_le_div₀ (by positivity) hnumabs (mul_pos hlow hpos) hden
  have hdiff : |num / den - N / D| ≤ ((1 + u) ^ (h + 1) / L - 1) * (T / D) := by
    have hdd : |D - den| * L ≤ (1 - L) * den := by
      rcases le_total den D with hle | hle
      · rw [abs_of_nonneg (by linarith)]
        nlinarith
      · rw [abs_of_nonpos (by linarith)]
        -- `(den - D) L ≤ (1 - L) den` follows from `L (2 den - D) ≤ den`
        have h2 : den * L ≤ D := by
          have h3 : H * L ≤ 1 := by
            rw [hH, ← mul_pow]
            exact pow_le_one₀ (by nlinarith) (by nlinarith)
          calc den * L ≤ (H * D) * L := mul_le_mul_of_nonneg_right hdenhi hlow.le
            _ = (H * L) * D := by ring
            _ ≤ D := by nlinarith
        nlinarith
    have e : num / den - N / D = (num - N) / den + N * (D - den) / (den * D) := by
      field_simp
      ring
    rw [e]
    refine (abs_add_le _ _).trans ?_
    have t1 : |(num - N) / den| ≤ ((1 + u) ^ (h + 1) - 1) * T / (L * D) := by
      rw [abs_div, abs_of_pos hden0]
      exact div_le_div₀ (mul_nonneg (by linarith [one_le_pow₀ (by linarith : 1 ≤ 1 + u) (n := h + 1)]) hT) hnum
        (mul_pos hlow hpos) hden
    have t2 : |N * (D - den) / (den * D)| ≤ T * (1 - L) / (L * D) := by
      rw [abs_div, abs_mul, abs_of_pos (mul_pos hden0 hpos), div_le_div_iff₀ (mul_pos hden0 hpos) (mul_pos hlow hpos)]
      calc |N| * |D - den| * (L * D) = |N| * (|D - den| * L) * D := by ring
        _ ≤ T * ((1 - L) * den) * D := by
            apply mul_le_mul_of_nonneg_right _ hpos.le
            exact mul_le_mul k3 hdd (mul_nonneg (abs_nonneg _) hlow.le) hT
        _ = T * (1 - L) * (den * D) := by ring
    refine (add_le_add t1 t2).trans (le_of_eq ?_)
    field_simp
    ring
  have hfin := abs_sub_le (weightedMeanA A t t' rs ws) (num / den) (N / D)
  have hdiv' : |weightedMeanA A t t' rs ws - num / den| ≤ u * ((1 + u) ^ (h + 1) * T / (L * D)) :=
    hdiv.trans (mul_le_mul_of_nonneg_left hq h0)
  refine hfin.trans ((add_le_add hdiv' hdiff).trans (le_of_eq ?_))
  rw [pow_succ (1 + u) (h + 1)]
  field_simp
  ring

end

/-- An arithmetic in which every sum comes out too large. -/
noncomputable def exAddUp (u : ℝ) : Arith := { Arith.exact with add := fun x y => (1 + u) * (x + y) }

theorem exAddUp_accurate {u : ℝ} (h0 : 0 ≤ u) : Accurate u (exAddUp u) := by
  have e := accurate_exact h0
  refine ⟨fun x y => ?_, e.sub, e.mul, e.div, e.sqrt, e.log, e.hypot, e.arctanh⟩
  change |(1 + u) * (x + y) - (x + y)| ≤ u * |x + y|
  rw [show (1 + u) * (x + y) - (x + y) = u * (x + y) by ring, abs_mul, abs_of_nonneg h0]

/-- **C123** The mass does depend on the order of the particles: for every accuracy `u > 0` there is an arithmetic with
that accuracy and a list of particles that, added one after the other, have another mass than the reversed list. -/
theorem C123_order_false {u : ℝ} (h0 : 0 < u) :
    ∃ A, Accurate u A ∧ ∃ ps : List P4,
      combinedMassA A (sequential (ps.length - 1)) (sequential 3) ps ≠
        combinedMassA A (sequential (ps.length - 1)) (sequential 3) ps.reverse := by
  refine ⟨exAddUp u, exAddUp_accurate h0.le, [⟨0, 0, 0, 1⟩, ⟨0, 0, 0, 1⟩, ⟨0, 0, 0, 0⟩], ?_⟩
  have e1 : combinedMassA (exAddUp u) (sequential 2) (sequential 3) [⟨0, 0, 0, 1⟩, ⟨0, 0, 0, 1⟩, ⟨0, 0, 0, 0⟩] =
      √((1 + u) * (2 * (1 + u) ^ 2) ^ 2) := by
    simp only [combinedMassA, minkTerms, totalA, sumA, sequential, SumTree.eval, exAddUp, Arith.exact, List.map_cons,
      List.map_nil, List.getD_cons_zero, List.getD_cons_succ]
    norm_num
    rw [if_neg (not_lt.2 (by positivity))]
    congr 1
    ring
  have e2 : combinedMassA (exAddUp u) (sequential 2) (sequential 3) [⟨0, 0, 0, 0⟩, ⟨0, 0, 0, 1⟩, ⟨0, 0, 0, 1⟩] =
      √((1 + u) * ((1 + u) * (2 + u)) ^ 2) := by
    simp only [combinedMassA, minkTerms, totalA, sumA, sequential, SumTree.eval, exAddUp, Arith.exact, List.map_cons,
      List.map_nil, List.getD_cons_zero, List.getD_cons_succ]
    norm_num
    rw [if_neg (not_lt.2 (by positivity))]
    congr 1
    ring
  change combinedMassA (exAddUp u) (sequential 2) (sequential 3) [⟨0, 0, 0, 1⟩, ⟨0, 0, 0, 1⟩, ⟨0, 0, 0, 0⟩] ≠
    combinedMassA (exAddUp u) (sequential 2) (sequential 3) [⟨0, 0, 0, 0⟩, ⟨0, 0, 0, 1⟩, ⟨0, 0, 0, 1⟩]
  rw [e1, e2]
  apply ne_of_gt
  apply sqrt_lt_sqrt (by positivity)
  apply mul_lt_mul_of_pos_left _ (by linarith)
  apply pow_lt_pow_left₀ _ (by positivity) (by norm_num)
  nlinarith

/-- **C123** With exact arithmetic these are the functions the other properties are about, in every order. -/
theorem C123_exact (t d : SumTree) (ps : List P4) (ht : Orders ps.length t) (hd : Orders 4 d) :
    totalA .exact t ps = total ps ∧ combinedMassA .exact t d ps = combinedMass ps := by
  have ha := accurate_exact (le_refl (0:ℝ))
  have hs : ∀ (t : SumTree) (xs : List ℝ), Orders xs.length t → sumA .exact t xs = xs.sum := by
    intro t xs ht
    have := C123_sum (le_refl 0) ha t xs ht
    simp only [add_zero, one_pow, sub_self, zero_mul] at this
    linarith [abs_nonpos_iff.1 this]
  have ht' : totalA .exact t ps = total ps := by
    simp only [totalA, total]
    rw [hs t _ (by simpa using ht), hs t _ (by simpa using ht), hs t _ (by simpa using ht), hs t _ (by simpa using ht)]
  refine ⟨ht', ?_⟩
  simp only [combinedMassA, ht']
  rw [hs d (minkTerms .exact (total ps)) hd]
  simp only [minkTerms, Arith.exact, List.sum_cons, List.sum_nil, combinedMass, add_zero]
  have e : (total ps).x * (total ps).x * -1 + ((total ps).y * (total ps).y * -1 + ((total ps).z * (total ps).z * -1 +
      (total ps).e * (total ps).e * 1)) = (total ps).x ^ 2 * (-1) + (total ps).y ^ 2 * (-1) + (total ps).z ^ 2 * (-1) +
      (total ps).e ^ 2 * 1 := by ring
  rw [e]

example : Orders 4 (.node (.node (.leaf 2) (.leaf 0)) (.node (.leaf 3) (.leaf 1))) := by
  simp only [Orders, SumTree.leaves]; decide
example : Orders 4 (sequential 3) := ((C123_worst (u := 0) (le_refl 0) (accurate_exact (le_refl 0)) (.leaf 0) [1] (by
  simp [Orders, SumTree.leaves, List.range_succ])).2 3).1

/-- The hypotheses are met by an arithmetic that does round, at the accuracy of doubles, and three particles. -/
example : Accurate (1 / 2 ^ 53) (exAddUp (1 / 2 ^ 53)) ∧ Orders 3 (sequential 2) ∧ Orders 4 (sequential 3) ∧
    (∀ w ∈ [(1 : ℝ), 0, 3], 0 ≤ w) ∧ 0 < [(1 : ℝ), 0, 3].sum := by
  have hs := fun n => ((C123_worst (u := 0) (le_refl 0) (accurate_exact (le_refl 0)) (.leaf 0) [1] (by
    simp [Orders, SumTree.leaves, List.range_succ])).2 n).1
  refine ⟨exAddUp_accurate (by positivity), hs 2, hs 3, ?_, ?_⟩
  · intro w hw; fin_cases hw <;> norm_num
  · norm_num

end Gcl
