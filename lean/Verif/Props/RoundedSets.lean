import Verif.Lemmas.RoundedSets
/-!
# C153: Jaccard distances with rounding, overflow and weights that are not numbers
-/
namespace Gcl
set_option autoImplicit false
open Real Spec

/-- The terms of the two sums, for finite weights. -/
theorem jaccardO_terms (A : Arith) (big : ℝ) {n : Nat} (w : Fin n → ℝ) (X Y : Finset (Fin n)) :
    ∃ ds us : List ℝ, jaccardLoopO A big (.fin 0, .fin 0) (setMaskOf X) (setMaskOf Y) (numbers w) =
        (runO A big (.fin 0) (ds.map Fl.fin), runO A big (.fin 0) (us.map Fl.fin)) ∧
      ds = List.ofFn (fun i => if i ∈ symmDiff X Y then w i else 0) ∧
      us = List.ofFn (fun i => if i ∈ X ∪ Y then w i else 0) ∧
      ds.length = n ∧ us.length = n ∧ ds.sum = weightOf w (symmDiff X Y) ∧ us.sum = weightOf w (X ∪ Y) := by
  refine ⟨_, _, ?_, rfl, rfl, by simp, by simp, ?_, ?_⟩
  · unfold setMaskOf numbers
    rw [jaccardLoopO_run, List.map_ofFn, List.map_ofFn]
    congr 3
    · funext i
      by_cases h1 : i ∈ X <;> by_cases h2 : i ∈ Y <;> simp [timesFlag, Fl.mul, Finset.mem_symmDiff, h1, h2]
    · funext i
      by_cases h1 : i ∈ X <;> by_cases h2 : i ∈ Y <;> simp [timesFlag, Fl.mul, h1, h2]
  · rw [List.sum_ofFn, weightOf, ← Finset.sum_filter]; simp
  · rw [List.sum_ofFn, weightOf, ← Finset.sum_filter]; congr 1; ext i; simp

/-- **C153** Whatever the arithmetic and the weights, infinite and nan among them: the distance is symmetric, exactly. -/
theorem C153_symmetric (A : Arith) (big : ℝ) (u v : List Bool) (w : List Fl) (huv : u.length = v.length) :
    jaccardO A big u v (some w) = jaccardO A big v u (some w) ∧ jaccardO A big u v none = jaccardO A big v u none := by
  have key : ∀ (u v : List Bool) (w : List Fl) (a : Fl × Fl), jaccardLoopO A big a u v w = jaccardLoopO A big a v u w := by
    intro u
    induction u with
    | nil => intro v w a; cases v <;> cases w <;> simp [jaccardLoopO]
    | cons x u ih =>
      intro v w a
      obtain ⟨d, s⟩ := a
      cases v with
      | nil => simp [jaccardLoopO]
      | cons y v =>
        cases w with
        | nil => simp [jaccardLoopO]
        | cons z w =>
          simp only [jaccardLoopO]
          rw [Bool.or_comm y x, show (y != x) = (x != y) by cases x <;> cases y <;> rfl]
          exact ih v w _
  unfold jaccardO
  simp only
  rw [key u v, key u v, huv]
  exact ⟨rfl, rfl⟩

section
variable {u η : ℝ} {A : Arith} (h0 : 0 ≤ u) (h1 : u < 1) (hA : RoundsInOrder u η A)
include h0 h1 hA

/-- **C153** With weights that are not negative, and the weight of the union in range with a margin of one rounding for each
element: the distance is a number in `[0, 1]`, within `2 n + 1` relative roundings and an underflow of the exact one. -/
theorem C153_value {n : Nat} (big : ℝ) (hbig : 1 ≤ big) (w : Fin n → ℝ) (hw : ∀ i, 0 ≤ w i) (X Y : Finset (Fin n))
    (hfit : (1 + u) ^ n * weightOf w (X ∪ Y) ≤ big) :
    ∃ r, jaccardO A big (setMaskOf X) (setMaskOf Y) (some (numbers w)) = .fin r ∧ 0 ≤ r ∧ r ≤ 1 ∧
      (1 - u) ^ (n + 1) / (1 + u) ^ n * jaccard w X Y - η ≤ r ∧
      r ≤ (1 + u) ^ (n + 1) / (1 - u) ^ n * jaccard w X Y + η := by
  obtain ⟨ds, us, hloop, hds, hus, ld, lu, sd, su⟩ := jaccardO_terms A big w X Y
  have hu0 : ∀ x ∈ us, 0 ≤ x := by
    rw [hus]; intro x hx
    obtain ⟨i, rfl⟩ := List.mem_ofFn.1 hx
    split_ifs <;> simp [hw]
  have hd0 : ∀ x ∈ ds, 0 ≤ x := by
    rw [hds]; intro x hx
    obtain ⟨i, rfl⟩ := List.mem_ofFn.1 hx
    split_ifs <;> simp [hw]
  have hdu : List.Forall₂ (· ≤ ·) ds us := by
    rw [hds, hus, List.forall₂_iff_get]
    refine ⟨by simp, fun i h1 h2 => ?_⟩
    simp only [List.get_ofFn]
    have hsub : ∀ j : Fin n, j ∈ symmDiff X Y → j ∈ X ∪ Y := by
      intro j hj; rw [Finset.mem_symmDiff] at hj; rw [Finset.mem_union]; tauto
    split_ifs with a b
    · exact le_rfl
    · exact absurd (hsub _ a) b
    · exact hw _
    · exact le_rfl
  have hη : 0 ≤ η := by
    have := (abs_nonneg _).trans (hA.div 0 1 one_ne_zero)
    simpa using this
  rcases runO_bounds h0 h1 hA big us hu0 0 0 0 le_rfl (by simp) (by simp) (by linarith) with ⟨S, eS, lS, hS, -⟩ | ⟨_, hS⟩
  swap
  · rw [lu, su] at hS
    simp only [zero_add] at hS
    exact absurd hfit (not_le.2 hS)
  obtain ⟨D, eD, hD0, hDS⟩ := runO_le h0 h1 hA big ds us hdu hd0 0 0 le_rfl le_rfl S eS
  obtain ⟨lD, hD⟩ : (1 - u) ^ n * weightOf w (symmDiff X Y) ≤ D ∧ D ≤ (1 + u) ^ n * weightOf w (symmDiff X Y) := by
    rcases runO_bounds h0 h1 hA big ds hd0 0 0 0 le_rfl (by simp) (by simp) (by linarith) with ⟨D', eD', l, h, -⟩ | ⟨e, _⟩
    · rw [eD] at eD'
      cases eD'
      rw [ld, sd] at l h
      simp only [zero_add] at l h
      exact ⟨l, h⟩
    · rw [eD] at e; cases e
  rw [lu, su] at lS hS
  simp only [zero_add] at lS hS
  have hU0 : 0 ≤ weightOf w (X ∪ Y) := Finset.sum_nonneg (fun i _ => hw i)
  have hW0 : 0 ≤ weightOf w (symmDiff X Y) := Finset.sum_nonneg (fun i _ => hw i)
  have lo : 0 < (1 - u) ^ n := pow_pos (by linarith) n
  have hi : 0 < (1 + u) ^ n := pow_pos (by linarith) n
  rw [eS, eD] at hloop
  unfold jaccard
  by_cases hU : weightOf w (X ∪ Y) = 0
  · have hS0 : S = 0 := by
      rw [hU] at lS hS
      linarith [lS, hS, mul_zero ((1 - u) ^ n), mul_zero ((1 + u) ^ n)]
    rw [if_pos hU]
    exact ⟨0, (jaccardO_of hloop).1 (by rw [hS0]), le_rfl, zero_le_one, by simpa using hη, by simpa using hη⟩
  · have hUp : 0 < weightOf w (X ∪ Y) := lt_of_le_of_ne hU0 (Ne.symm hU)
    have hSp : 0 < S := lt_of_lt_of_le (mul_pos lo hUp) lS
    rw [if_neg hU, (jaccardO_of hloop).2 (by simpa using hSp.ne')]
    have r0 : 0 ≤ A.div D S := by
      have := hA.div_le 0 D S hSp hD0
      rwa [hA.zero_div S hSp.ne'] at this
    have r1 : A.div D S ≤ 1 := by
      have := hA.div_le D S S hSp hDS
      rwa [hA.div_self S hSp.ne'] at this
    refine ⟨A.div D S, ?_, r0, r1, ?_, ?_⟩
    · show ovf big (A.div D S) = _
      unfold ovf
      rw [abs_of_nonneg r0, if_pos (r1.trans hbig)]
    · have hd := hA.div D S hSp.ne'
      rw [abs_of_nonneg (div_nonneg hD0 hSp.le), abs_le] at hd
      have q : (1 - u) ^ n / (1 + u) ^ n * (weightOf w (symmDiff X Y) / weightOf w (X ∪ Y)) ≤ D / S := by
        rw [div_mul_div_comm]
        exact div_le_div₀ hD0 lD hSp hS
      have : (1 - u) ^ (n + 1) / (1 + u) ^ n * (weightOf w (symmDiff X Y) / weightOf w (X ∪ Y)) =
          (1 - u) * ((1 - u) ^ n / (1 + u) ^ n * (weightOf w (symmDiff X Y) / weightOf w (X ∪ Y))) := by
        rw [pow_succ]; ring
      rw [this]
      nlinarith [mul_le_mul_of_nonneg_left q (by linarith : (0:ℝ) ≤ 1 - u)]
    · have hd := hA.div D S hSp.ne'
      rw [abs_of_nonneg (div_nonneg hD0 hSp.le), abs_le] at hd
      have q : D / S ≤ (1 + u) ^ n / (1 - u) ^ n * (weightOf w (symmDiff X Y) / weightOf w (X ∪ Y)) := by
        rw [div_mul_div_comm]
        exact div_le_div₀ (mul_nonneg hi.le hW0) hD (mul_pos lo hUp) lS
      have : (1 + u) ^ (n + 1) / (1 - u) ^ n * (weightOf w (symmDiff X Y) / weightOf w (X ∪ Y)) =
          (1 + u) * ((1 + u) ^ n / (1 - u) ^ n * (weightOf w (symmDiff X Y) / weightOf w (X ∪ Y))) := by
        rw [pow_succ]; ring
      rw [this]
      nlinarith [mul_le_mul_of_nonneg_left q (by linarith : (0:ℝ) ≤ 1 + u)]

/-- **C153** A mask is at distance zero, exactly, from itself: for all weights that are numbers, negative ones and sums out of
range included. -/
theorem C153_self {n : Nat} (big : ℝ) (hbig : 0 ≤ big) (w : Fin n → ℝ) (X : Finset (Fin n)) :
    jaccardO A big (setMaskOf X) (setMaskOf X) (some (numbers w)) = .fin 0 := by
  obtain ⟨ds, us, hloop, hds, -, -, -, -, -⟩ := jaccardO_terms A big w X X
  have hz : ∀ x ∈ ds, x = 0 := by
    rw [hds]; intro x hx
    obtain ⟨i, rfl⟩ := List.mem_ofFn.1 hx
    simp
  have hn := runO_not_nan A big us (.fin 0) (by simp)
  rw [runO_zero h0 h1 hA big hbig ds hz] at hloop
  by_cases hs0 : runO A big (.fin 0) (us.map Fl.fin) = .fin 0
  · exact (jaccardO_of hloop).1 hs0
  rw [(jaccardO_of hloop).2 hs0]
  cases hS : runO A big (.fin 0) (us.map Fl.fin) with
  | nan => exact absurd hS hn
  | pinf => simp [divO, Fl.div]
  | ninf => simp [divO, Fl.div]
  | fin s =>
    have hs : s ≠ 0 := fun e => hs0 (by rw [hS, e])
    show ovf big (A.div 0 s) = _
    rw [hA.zero_div s hs]
    simp [ovf, hbig]

/-- **C153** Out of range: if the weight of the symmetric difference is beyond the range even with all roundings downwards, the
distance is nan; if only that of the union is, the distance is zero, however different the masks. -/
theorem C153_overflow {n : Nat} (big : ℝ) (hbig : 0 ≤ big) (w : Fin n → ℝ) (hw : ∀ i, 0 ≤ w i) (X Y : Finset (Fin n)) :
    (big < (1 - u) ^ n * weightOf w (symmDiff X Y) →
      jaccardO A big (setMaskOf X) (setMaskOf Y) (some (numbers w)) = .nan) ∧
    (big < (1 - u) ^ n * weightOf w (X ∪ Y) → (1 + u) ^ n * weightOf w (symmDiff X Y) ≤ big →
      jaccardO A big (setMaskOf X) (setMaskOf Y) (some (numbers w)) = .fin 0) := by
  obtain ⟨ds, us, hloop, hds, hus, ld, lu, sd, su⟩ := jaccardO_terms A big w X Y
  have hu0 : ∀ x ∈ us, 0 ≤ x := by
    rw [hus]; intro x hx
    obtain ⟨i, rfl⟩ := List.mem_ofFn.1 hx
    split_ifs <;> simp [hw]
  have hd0 : ∀ x ∈ ds, 0 ≤ x := by
    rw [hds]; intro x hx
    obtain ⟨i, rfl⟩ := List.mem_ofFn.1 hx
    split_ifs <;> simp [hw]
  have lo : 0 ≤ (1 - u) ^ n := pow_nonneg (by linarith) n
  have hsub : weightOf w (symmDiff X Y) ≤ weightOf w (X ∪ Y) := by
    refine Finset.sum_le_sum_of_subset_of_nonneg ?_ (fun i _ _ => hw i)
    intro j hj; rw [Finset.mem_symmDiff] at hj; rw [Finset.mem_union]; tauto
  have bd := runO_bounds h0 h1 hA big ds hd0 0 0 0 le_rfl (by simp) (by simp) hbig
  have bu := runO_bounds h0 h1 hA big us hu0 0 0 0 le_rfl (by simp) (by simp) hbig
  rw [ld, sd] at bd
  rw [lu, su] at bu
  simp only [zero_add] at bd bu
  have over : big < (1 - u) ^ n * weightOf w (X ∪ Y) → runO A big (.fin 0) (us.map Fl.fin) = .pinf := by
    intro h
    rcases bu with ⟨S, -, l, -, hS⟩ | ⟨e, -⟩
    · exact absurd (l.trans hS) (not_le.2 h)
    · exact e
  constructor
  · intro h
    have e1 : runO A big (.fin 0) (ds.map Fl.fin) = .pinf := by
      rcases bd with ⟨S, -, l, -, hS⟩ | ⟨e, -⟩
      · exact absurd (l.trans hS) (not_le.2 h)
      · exact e
    rw [e1, over (lt_of_lt_of_le h (mul_le_mul_of_nonneg_left hsub lo))] at hloop
    rw [(jaccardO_of hloop).2 (by simp)]
    simp [divO, Fl.div]
  · intro h h'
    rcases bd with ⟨S, e, -⟩ | ⟨-, hS⟩
    · rw [e, over h] at hloop
      rw [(jaccardO_of hloop).2 (by simp)]
      simp [divO, Fl.div]
    · exact absurd h' (not_le.2 hS)

omit h0 h1 hA in
/-- **C153** A single weight that is infinite or nan, also at an element of neither mask, which does not count, makes the
distance nan. -/
theorem C153_weights (A : Arith) (big : ℝ) {n : Nat} (w : Fin n → Fl) (X Y : Finset (Fin n)) (i : Fin n)
    (hi : ∀ r : ℝ, w i ≠ .fin r) : jaccardO A big (setMaskOf X) (setMaskOf Y) (some (List.ofFn w)) = .nan := by
  have hloop := jaccardLoopO_run A big (fun i => decide (i ∈ X)) (fun i => decide (i ∈ Y)) w (.fin 0) (.fin 0)
  have term : ∀ b, ∀ r, timesFlag (w i) b ≠ .fin r := by
    intro b r
    cases hw : w i with
    | fin r => exact absurd hw (hi r)
    | nan => simp [timesFlag, Fl.mul]
    | pinf => cases b <;> simp [timesFlag, Fl.mul]
    | ninf => cases b <;> simp [timesFlag, Fl.mul]
  have run : ∀ f : Fin n → Bool, ∀ r, runO A big (.fin 0) (List.ofFn (fun i => timesFlag (w i) (f i))) ≠ .fin r := fun f =>
    runO_mem A big _ _ ⟨_, List.mem_ofFn.2 ⟨i, rfl⟩, term _⟩
  have r1 := run (fun i => decide (i ∈ X) != decide (i ∈ Y))
  have r2 := run (fun i => decide (i ∈ X) || decide (i ∈ Y))
  unfold setMaskOf
  rw [(jaccardO_of hloop).2 (r2 0)]
  revert r1 r2
  generalize runO A big (.fin 0) (List.ofFn (fun i => timesFlag (w i) (decide (i ∈ X) != decide (i ∈ Y)))) = d
  generalize runO A big (.fin 0) (List.ofFn (fun i => timesFlag (w i) (decide (i ∈ X) || decide (i ∈ Y)))) = s
  intro r1 r2
  cases d <;> cases s <;> first | rfl | exact absurd rfl (r1 _) | exact absurd rfl (r2 _)

omit h1 in
/-- **C153** Without weights, as long as the arithmetic can count to the number of elements, the distance is the quotient of the
two numbers of elements, with a single rounding. -/
theorem C153_counts {n : Nat} (big : ℝ) (hbig : 1 ≤ big) (hn : (n : ℝ) ≤ big)
    (hc : ∀ m : Nat, m < n → A.add m 1 = (m + 1 : ℕ) ∧ A.add m 0 = m) (X Y : Finset (Fin n)) :
    ∃ r, jaccardO A big (setMaskOf X) (setMaskOf Y) none = .fin r ∧
      (r = if X = ∅ ∧ Y = ∅ then 0 else A.div ((symmDiff X Y).card : ℝ) ((X ∪ Y).card : ℝ)) ∧
      |r - jaccard (fun _ => 1) X Y| ≤ u * jaccard (fun _ => 1) X Y + η := by
  have hη : 0 ≤ η := by
    have := (abs_nonneg _).trans (hA.div 0 1 one_ne_zero)
    simpa using this
  have run : ∀ (bs : List Bool) (m : Nat), m + bs.length ≤ n →
      runO A big (.fin (m : ℝ)) ((bs.map (fun b => if b then (1 : ℝ) else 0)).map Fl.fin) = .fin ((m + bs.count true : ℕ) : ℝ) := by
    intro bs
    induction bs with
    | nil => intro m _; simp [runO]
    | cons b bs ih =>
      intro m hm
      simp only [List.length_cons] at hm
      have hm' := hc m (by omega)
      have hfit : ∀ k : Nat, k ≤ n → ovf big (k : ℝ) = .fin (k : ℝ) := by
        intro k hk
        unfold ovf
        rw [abs_of_nonneg (Nat.cast_nonneg k), if_pos (le_trans (Nat.cast_le.2 hk) hn)]
      cases b with
      | true =>
        show runO A big (ovf big (A.add m 1)) _ = _
        rw [hm'.1, hfit _ (by omega), ih (m + 1) (by omega)]
        simp [add_assoc, add_comm 1]
      | false =>
        show runO A big (ovf big (A.add m 0)) _ = _
        rw [hm'.2, hfit _ (by omega), ih m (by omega)]
        simp
  have hlen : (setMaskOf X).length = n := by simp [setMaskOf]
  have enone : jaccardO A big (setMaskOf X) (setMaskOf Y) none =
      jaccardO A big (setMaskOf X) (setMaskOf Y) (some (numbers (fun _ : Fin n => (1 : ℝ)))) := by
    unfold jaccardO numbers
    simp only
    rw [List.ofFn_const, hlen]
  obtain ⟨ds, us, hloop, hds, hus, ld, lu, sd, su⟩ := jaccardO_terms A big (fun _ : Fin n => (1 : ℝ)) X Y
  have count : ∀ (S : Finset (Fin n)) (l : List ℝ), l = List.ofFn (fun i => if i ∈ S then (1 : ℝ) else 0) →
      runO A big (.fin 0) (l.map Fl.fin) = .fin (S.card : ℝ) := by
    intro S l hl
    have e : l = (setMaskOf S).map (fun b => if b then (1 : ℝ) else 0) := by
      rw [hl, setMaskOf, List.map_ofFn]
      congr 1
      funext i
      simp
    have c : (setMaskOf S).count true = S.card := by
      have : ((setMaskOf S).count true : ℝ) = (S.card : ℝ) := by
        have h1 : l.sum = (S.card : ℝ) := by
          rw [hl, List.sum_ofFn, ← Finset.sum_filter]; simp
        have h2 : ∀ bs : List Bool, (bs.map (fun b => if b then (1 : ℝ) else 0)).sum = (bs.count true : ℝ) := by
          intro bs
          induction bs with
          | nil => simp
          | cons b bs ih => cases b <;> simp [ih, add_comm]
        rw [← h2, ← e, h1]
      exact_mod_cast this
    have := run (setMaskOf S) 0 (by simp [setMaskOf])
    rw [e]
    simpa [c] using this
  have c1 := count _ ds (by rw [hds])
  have c2 := count _ us (by rw [hus])
  rw [c1, c2] at hloop
  have ej : jaccard (fun _ => 1) X Y = if X = ∅ ∧ Y = ∅ then 0 else ((symmDiff X Y).card : ℝ) / ((X ∪ Y).card : ℝ) := by
    unfold jaccard weightOf
    simp only [Finset.sum_const, nsmul_eq_mul, mul_one]
    have : ((X ∪ Y).card : ℝ) = 0 ↔ (X = ∅ ∧ Y = ∅) := by
      rw [Nat.cast_eq_zero, Finset.card_eq_zero, Finset.union_eq_empty]
    simp only [this]
  rw [enone, ej]
  by_cases he : X = ∅ ∧ Y = ∅
  · refine ⟨0, (jaccardO_of hloop).1 ?_, by rw [if_pos he], ?_⟩
    · simp [he.1, he.2]
    · rw [if_pos he]; simpa using hη
  · have hne : ((X ∪ Y).card : ℝ) ≠ 0 := by
      rw [Ne, Nat.cast_eq_zero, Finset.card_eq_zero, Finset.union_eq_empty]; exact he
    have hpos : (0 : ℝ) < (X ∪ Y).card := lt_of_le_of_ne (Nat.cast_nonneg _) (Ne.symm hne)
    have hle : ((symmDiff X Y).card : ℝ) ≤ (X ∪ Y).card := by
      refine Nat.cast_le.2 (Finset.card_le_card ?_)
      intro j hj; rw [Finset.mem_symmDiff] at hj; rw [Finset.mem_union]; tauto
    have r0 : 0 ≤ A.div ((symmDiff X Y).card : ℝ) ((X ∪ Y).card : ℝ) := by
      have := hA.div_le 0 ((symmDiff X Y).card : ℝ) _ hpos (Nat.cast_nonneg _)
      rwa [hA.zero_div _ hne] at this
    have r1 : A.div ((symmDiff X Y).card : ℝ) ((X ∪ Y).card : ℝ) ≤ 1 := by
      have := hA.div_le _ _ _ hpos hle
      rwa [hA.div_self _ hne] at this
    refine ⟨_, ?_, rfl, ?_⟩
    · rw [(jaccardO_of hloop).2 (by simpa using hne), if_neg he]
      show ovf big _ = _
      unfold ovf
      rw [abs_of_nonneg r0, if_pos (r1.trans hbig)]
    · rw [if_neg he, if_neg he]
      have := hA.div ((symmDiff X Y).card : ℝ) _ hne
      rwa [abs_of_nonneg (show (0 : ℝ) ≤ ((symmDiff X Y).card : ℝ) / ((X ∪ Y).card : ℝ) by positivity)] at this

/-- **C153** The triangle inequality holds up to `4 n + 2` relative roundings and the underflow. -/
theorem C153_triangle {n : Nat} (big : ℝ) (hbig : 1 ≤ big) (w : Fin n → ℝ) (hw : ∀ i, 0 ≤ w i) (X Y Z : Finset (Fin n))
    (hfit : (1 + u) ^ n * weightOf w (X ∪ Y ∪ Z) ≤ big) :
    ∃ a b c : ℝ, jaccardO A big (setMaskOf X) (setMaskOf Y) (some (numbers w)) = .fin a ∧
      jaccardO A big (setMaskOf Y) (setMaskOf Z) (some (numbers w)) = .fin b ∧
      jaccardO A big (setMaskOf X) (setMaskOf Z) (some (numbers w)) = .fin c ∧
      c ≤ ((1 + u) / (1 - u)) ^ (2 * n + 1) * (a + b + 2 * η) + η := by
  have hi : 0 < 1 + u := by linarith
  have lo : 0 < 1 - u := by linarith
  have fit : ∀ S : Finset (Fin n), S ⊆ X ∪ Y ∪ Z → (1 + u) ^ n * weightOf w S ≤ big := by
    intro S hS
    refine le_trans (mul_le_mul_of_nonneg_left ?_ (pow_nonneg hi.le n)) hfit
    exact Finset.sum_le_sum_of_subset_of_nonneg hS (fun i _ _ => hw i)
  obtain ⟨a, ea, -, -, la, -⟩ := C153_value h0 h1 hA big hbig w hw X Y (fit _ (by intro i; simp; tauto))
  obtain ⟨b, eb, -, -, lb, -⟩ := C153_value h0 h1 hA big hbig w hw Y Z (fit _ (by intro i; simp; tauto))
  obtain ⟨c, ec, -, -, -, hc⟩ := C153_value h0 h1 hA big hbig w hw X Z (fit _ (by intro i; simp; tauto))
  refine ⟨a, b, c, ea, eb, ec, ?_⟩
  have tri : jaccard w X Z ≤ jaccard w X Y + jaccard w Y Z := jaccard_triangle w hw X Y Z
  have hk : ((1 + u) / (1 - u)) ^ (2 * n + 1) * ((1 - u) ^ (n + 1) / (1 + u) ^ n) = (1 + u) ^ (n + 1) / (1 - u) ^ n := by
    rw [div_pow]
    field_simp
    ring
  have hK : 0 ≤ ((1 + u) / (1 - u)) ^ (2 * n + 1) := pow_nonneg (div_nonneg hi.le lo.le) _
  have hq : 0 ≤ (1 + u) ^ (n + 1) / (1 - u) ^ n := by positivity
  calc c ≤ (1 + u) ^ (n + 1) / (1 - u) ^ n * jaccard w X Z + η := hc
    _ ≤ (1 + u) ^ (n + 1) / (1 - u) ^ n * (jaccard w X Y + jaccard w Y Z) + η := by
      gcongr
    _ = ((1 + u) / (1 - u)) ^ (2 * n + 1) *
          ((1 - u) ^ (n + 1) / (1 + u) ^ n * jaccard w X Y + (1 - u) ^ (n + 1) / (1 + u) ^ n * jaccard w Y Z) + η := by
      rw [← hk]; ring
    _ ≤ ((1 + u) / (1 - u)) ^ (2 * n + 1) * (a + b + 2 * η) + η := by
      have : (1 - u) ^ (n + 1) / (1 + u) ^ n * jaccard w X Y + (1 - u) ^ (n + 1) / (1 + u) ^ n * jaccard w Y Z ≤
        a + b + 2 * η := by linarith
      gcongr

end

/-- Exact arithmetic is an instance. -/
theorem exact_inOrder : RoundsInOrder 0 0 Arith.exact where
  add x y := by simp [Arith.exact]
  div x y _ := by simp [Arith.exact]
  add_le x x' y y' h h' := add_le_add h h'
  div_le x x' y hy h := div_le_div_of_nonneg_right h hy.le
  zero_div y _ := zero_div y
  div_self y h := div_self h

/-- **C153** False: that the distance of masks that differ, with positive weights, is positive; or a number.  Whatever the range
of numbers, there are positive weights in range for which different masks are at distance zero, and others at distance nan,
even if all results are exact. -/
theorem C153_false (big : ℝ) (hbig : 1 ≤ big) : ∃ (w : Fin 2 → ℝ) (X Y : Finset (Fin 2)), X ≠ Y ∧
    (∀ i, 0 < w i ∧ w i ≤ big) ∧
    jaccardO .exact big (setMaskOf X) (setMaskOf Y) (some (numbers w)) = .fin 0 ∧
    jaccardO .exact big (setMaskOf X) (setMaskOf (∅ : Finset (Fin 2))) (some (numbers w)) = .nan := by
  have hb : 0 < big := by linarith
  refine ⟨fun _ => big, Finset.univ, {0}, by decide, fun _ => ⟨hb, le_rfl⟩, ?_, ?_⟩
  · refine (C153_overflow le_rfl one_pos exact_inOrder big hb.le _ (fun _ => hb.le) _ _).2 ?_ ?_
    · simp [weightOf]; linarith
    · have : symmDiff (Finset.univ : Finset (Fin 2)) {0} = {1} := by decide
      simp [weightOf, this]
  · refine (C153_overflow le_rfl one_pos exact_inOrder big hb.le _ (fun _ => hb.le) _ _).1 ?_
    have : symmDiff (Finset.univ : Finset (Fin 2)) ∅ = Finset.univ := by decide
    rw [this]
    simp [weightOf]; linarith

/-- **C153** False: the triangle inequality without such a margin.  Whatever `u`, some arithmetic of that accuracy that rounds in
order breaks it, for masks of two elements without weights. -/
theorem C153_triangle_false (u : ℝ) (h0 : 0 < u) (h1 : u < 1) (big : ℝ) (hbig : 2 ≤ big) :
    ∃ (A : Arith), RoundsInOrder u 0 A ∧ ∃ (X Y Z : Finset (Fin 2)) (a b c : ℝ),
      jaccardO A big (setMaskOf X) (setMaskOf Y) none = .fin a ∧
      jaccardO A big (setMaskOf Y) (setMaskOf Z) none = .fin b ∧
      jaccardO A big (setMaskOf X) (setMaskOf Z) none = .fin c ∧ a + b < c := by
  set A : Arith := { Arith.exact with div := fun x y => if |x / y| < 1 then (1 - u) * (x / y) else x / y } with hA
  have inst : RoundsInOrder u 0 A := by
    refine ⟨?_, ?_, ?_, ?_, ?_, ?_⟩
    · intro x y
      show |x + y - (x + y)| ≤ _
      simp; positivity
    · intro x y _
      show |(if |x / y| < 1 then (1 - u) * (x / y) else x / y) - x / y| ≤ _
      split_ifs
      · have : (1 - u) * (x / y) - x / y = -(u * (x / y)) := by ring
        rw [this, abs_neg, abs_mul, abs_of_pos h0]; simp
      · simp; positivity
    · intro x x' y y' h h'; exact add_le_add h h'
    · intro x x' y hy h
      show (if |x / y| < 1 then (1 - u) * (x / y) else x / y) ≤ (if |x' / y| < 1 then (1 - u) * (x' / y) else x' / y)
      have hq : x / y ≤ x' / y := div_le_div_of_nonneg_right h hy.le
      generalize x / y = p at hq
      generalize x' / y = q at hq
      split_ifs with a b b
      · exact mul_le_mul_of_nonneg_left hq (by linarith)
      · rw [abs_lt] at a
        rw [not_lt, le_abs] at b
        rcases b with b | b
        · nlinarith [a.1, a.2]
        · linarith [a.1]
      · rw [abs_lt] at b
        rw [not_lt, le_abs] at a
        rcases a with a | a
        · linarith [b.2]
        · nlinarith [b.1, b.2]
      · exact hq
    · intro y _
      show (if |0 / y| < 1 then (1 - u) * (0 / y) else 0 / y) = 0
      simp
    · intro y hy
      show (if |y / y| < 1 then (1 - u) * (y / y) else y / y) = 1
      simp [div_self hy]
  have cnt : ∀ m : Nat, m < 2 → A.add m 1 = (m + 1 : ℕ) ∧ A.add m 0 = m := by
    intro m _
    exact ⟨by show (m : ℝ) + 1 = _; simp, by show (m : ℝ) + 0 = _; simp⟩
  have val : ∀ X Y : Finset (Fin 2), ¬ (X = ∅ ∧ Y = ∅) → jaccardO A big (setMaskOf X) (setMaskOf Y) none =
      .fin (A.div ((symmDiff X Y).card : ℝ) ((X ∪ Y).card : ℝ)) := by
    intro X Y h
    obtain ⟨r, e, hr, -⟩ := C153_counts (n := 2) h0.le inst big (by linarith) (by exact_mod_cast hbig) cnt X Y
    rw [e, hr, if_neg h]
  refine ⟨A, inst, {0}, {0, 1}, {1}, _, _, _, val _ _ (by decide), val _ _ (by decide), val _ _ (by decide), ?_⟩
  have k1 : (symmDiff ({0} : Finset (Fin 2)) {0, 1}).card = 1 := by decide
  have k2 : (({0} : Finset (Fin 2)) ∪ {0, 1}).card = 2 := by decide
  have k3 : (symmDiff ({0, 1} : Finset (Fin 2)) {1}).card = 1 := by decide
  have k4 : (({0, 1} : Finset (Fin 2)) ∪ {1}).card = 2 := by decide
  have k5 : (symmDiff ({0} : Finset (Fin 2)) {1}).card = 2 := by decide
  have k6 : (({0} : Finset (Fin 2)) ∪ {1}).card = 2 := by decide
  rw [k1, k2, k3, k4, k5, k6]
  have d1 : A.div ((1 : ℕ) : ℝ) ((2 : ℕ) : ℝ) = (1 - u) / 2 := by
    show (if |((1 : ℕ) : ℝ) / ((2 : ℕ) : ℝ)| < 1 then _ else _) = _
    rw [if_pos (by norm_num [abs_of_pos])]
    push_cast; ring
  have d2 : A.div ((2 : ℕ) : ℝ) ((2 : ℕ) : ℝ) = 1 := inst.div_self _ (by norm_num)
  rw [d1, d2]
  linarith

/-- Weights 1 and 3, masks that share the heavier element: the distance is a quarter, when arithmetic is exact. -/
example : jaccardO .exact 1000 [true, true] [false, true] (some [.fin 1, .fin 3]) = .fin (1 / 4) := by
  have hl : jaccardLoopO .exact 1000 (.fin 0, .fin 0) [true, true] [false, true] [.fin 1, .fin 3] = (.fin 1, .fin 4) := by
    have a : |(4 : ℝ)| ≤ 1000 := by norm_num
    norm_num [jaccardLoopO, addO, timesFlag, Fl.mul, Arith.exact, ovf]
  rw [(jaccardO_of hl).2 (by norm_num)]
  norm_num [divO, Arith.exact, ovf, abs_of_pos]

/-- IEEE double precision meets the hypotheses on ranges: a thousand elements with weights up to `10^100`. -/
example (w : Fin 1000 → ℝ) (hw : ∀ i, 0 ≤ w i ∧ w i ≤ 10 ^ 100) (X Y : Finset (Fin 1000)) :
    (1 + 1 / 2 ^ 53 : ℝ) ^ 1000 * weightOf w (X ∪ Y) ≤ 10 ^ 308 := by
  have h1 : weightOf w (X ∪ Y) ≤ 1000 * 10 ^ 100 := by
    calc weightOf w (X ∪ Y) ≤ ∑ i ∈ X ∪ Y, (10 : ℝ) ^ 100 := Finset.sum_le_sum (fun i _ => (hw i).2)
      _ = (X ∪ Y).card * 10 ^ 100 := by simp
      _ ≤ 1000 * 10 ^ 100 := by
        have : (X ∪ Y).card ≤ 1000 := by simpa using Finset.card_le_univ (X ∪ Y)
        have : ((X ∪ Y).card : ℝ) ≤ 1000 := by exact_mod_cast this
        gcongr
  have h2 : (1 + 1 / 2 ^ 53 : ℝ) ^ 1000 ≤ 2 := by
    have := one_add_mul_le_pow (show (-2 : ℝ) ≤ -(1 / 2 ^ 53) / (1 + 1 / 2 ^ 53) by norm_num) 1000
    have e : 1 + -(1 / 2 ^ 53 : ℝ) / (1 + 1 / 2 ^ 53) = (1 + 1 / 2 ^ 53)⁻¹ := by norm_num
    rw [e, inv_pow] at this
    have h3 : (1 / 2 : ℝ) ≤ ((1 + 1 / 2 ^ 53 : ℝ) ^ 1000)⁻¹ := le_trans (by norm_num) this
    have hpos : (0 : ℝ) < (1 + 1 / 2 ^ 53 : ℝ) ^ 1000 := by positivity
    rw [le_inv_comm₀ (by norm_num) hpos] at h3
    simpa using h3
  have h3 : 0 ≤ weightOf w (X ∪ Y) := Finset.sum_nonneg (fun i _ => (hw i).1)
  calc (1 + 1 / 2 ^ 53 : ℝ) ^ 1000 * weightOf w (X ∪ Y) ≤ 2 * (1000 * 10 ^ 100) := mul_le_mul h2 h1 h3 (by norm_num)
    _ ≤ 10 ^ 200 := by norm_num
    _ ≤ 10 ^ 308 := pow_le_pow_right₀ (by norm_num) (by norm_num)

end Gcl
