import Verif.Spec.Cluster
import Verif.Props.DeltaR
import Verif.Lemmas.Mask
import Mathlib.Data.Finset.Prod
/-!
# C72–C74: Jaccard distance, clustering coefficients, thread counts
-/
namespace Gcl
set_option autoImplicit false
open Real Spec

/-! ## C72 -/

/-- Every mask is the mask of a set of positions. -/
theorem setMaskOf_surj (l : List Bool) : ∃ A : Finset (Fin l.length), setMaskOf A = l := by
  refine ⟨Finset.univ.filter (fun i => l[i] = true), ?_⟩
  unfold setMaskOf
  apply List.ext_getElem (by simp)
  intro i h1 h2
  simp

theorem jaccardLoop_ofFn {n : Nat} (u v : Fin n → Bool) (w : Fin n → ℝ) (a b : ℝ) :
    jaccardLoop (a, b) (List.ofFn u) (List.ofFn v) (List.ofFn w) =
      (a + ∑ i, (if u i ≠ v i then w i else 0), b + ∑ i, (if u i = true ∨ v i = true then w i else 0)) := by
  induction n generalizing a b with
  | zero => simp [jaccardLoop]
  | succ n ih =>
    rw [List.ofFn_succ, List.ofFn_succ, List.ofFn_succ, jaccardLoop, ih, Fin.sum_univ_succ,
      Fin.sum_univ_succ]
    cases u 0 <;> cases v 0 <;> simp [timesBool, add_assoc]

theorem jaccardLoop_sets {n : Nat} (A B : Finset (Fin n)) (w : Fin n → ℝ) :
    jaccardLoop (0, 0) (setMaskOf A) (setMaskOf B) (List.ofFn w) =
      (weightOf w (symmDiff A B), weightOf w (A ∪ B)) := by
  unfold setMaskOf
  rw [jaccardLoop_ofFn]
  unfold weightOf
  rw [← Finset.sum_filter, ← Finset.sum_filter]
  have e1 : (Finset.univ.filter (fun i => decide (i ∈ A) ≠ decide (i ∈ B))) = symmDiff A B := by
    ext i
    by_cases h1 : i ∈ A <;> by_cases h2 : i ∈ B <;> simp [Finset.mem_symmDiff, h1, h2]
  have e2 : (Finset.univ.filter (fun i => decide (i ∈ A) = true ∨ decide (i ∈ B) = true)) = A ∪ B := by
    ext i; simp
  rw [e1, e2]; simp

/-- **C72** The weighted distance is the weight of the symmetric difference over the weight of the union
(zero if that is zero); without weights, the ratio of the numbers of elements. -/
theorem C72_value {n : Nat} (A B : Finset (Fin n)) (w : Fin n → ℝ) :
    jaccardDistance (.ndarray (setMaskOf A)) (.ndarray (setMaskOf B)) (some (List.ofFn w)) =
      .ok (if weightOf w (A ∪ B) = 0 then 0 else weightOf w (symmDiff A B) / weightOf w (A ∪ B)) ∧
    jaccardDistance (.ndarray (setMaskOf A)) (.ndarray (setMaskOf B)) none =
      .ok (if A = ∅ ∧ B = ∅ then 0 else ((symmDiff A B).card : ℝ) / ((A ∪ B).card : ℝ)) := by
  constructor
  · simp only [jaccardDistance, jaccardArg, jaccardKernel, jaccardLoop_sets]
  · have : List.replicate (setMaskOf A).length (1 : ℝ) = List.ofFn (fun _ : Fin n => (1 : ℝ)) := by
      rw [List.ofFn_const]; simp [setMaskOf]
    simp only [jaccardDistance, jaccardArg, jaccardKernel, this, jaccardLoop_sets, weightOf,
      Finset.sum_const, nsmul_eq_mul, mul_one]
    congr 1
    have : ((A ∪ B).card : ℝ) = 0 ↔ (A = ∅ ∧ B = ∅) := by
      rw [Nat.cast_eq_zero, Finset.card_eq_zero, Finset.union_eq_empty]
    simp only [this]

/-- Triangle inequality for the ratios. -/
theorem jaccard_triangle {n : Nat} (w : Fin n → ℝ) (hw : ∀ i, 0 ≤ w i) (A B C : Finset (Fin n)) :
    (if weightOf w (A ∪ C) = 0 then 0 else weightOf w (symmDiff A C) / weightOf w (A ∪ C)) ≤
    (if weightOf w (A ∪ B) = 0 then 0 else weightOf w (symmDiff A B) / weightOf w (A ∪ B)) +
    (if weightOf w (B ∪ C) = 0 then 0 else weightOf w (symmDiff B C) / weightOf w (B ∪ C)) := by
  have mono : ∀ {X Y : Finset (Fin n)}, X ⊆ Y → weightOf w X ≤ weightOf w Y := fun h =>
    Finset.sum_le_sum_of_subset_of_nonneg h (fun i _ _ => hw i)
  have nn : ∀ X : Finset (Fin n), 0 ≤ weightOf w X := fun X => Finset.sum_nonneg (fun i _ => hw i)
  have sub : ∀ X Y : Finset (Fin n), symmDiff X Y ⊆ X ∪ Y := by
    intro X Y i hi
    rw [Finset.mem_symmDiff] at hi
    rw [Finset.mem_union]; tauto
  set U := weightOf w (A ∪ B ∪ C) with hU
  -- each ratio is at least the ratio over the large union
  have lower : ∀ X Y : Finset (Fin n), X ∪ Y ⊆ A ∪ B ∪ C →
      weightOf w (symmDiff X Y) / U ≤
        (if weightOf w (X ∪ Y) = 0 then 0 else weightOf w (symmDiff X Y) / weightOf w (X ∪ Y)) := by
    intro X Y h
    by_cases h0 : weightOf w (X ∪ Y) = 0
    · have : weightOf w (symmDiff X Y) = 0 := le_antisymm (h0 ▸ mono (sub X Y)) (nn _)
      simp [h0, this]
    · rw [if_neg h0]
      exact div_le_div_of_nonneg_left (nn _) (lt_of_le_of_ne (nn _) (Ne.symm h0)) (mono h)
  by_cases h0 : weightOf w (A ∪ C) = 0
  · rw [if_pos h0]
    have h1 : 0 ≤ weightOf w (symmDiff A B) / U := div_nonneg (nn _) (nn _)
    have h2 : 0 ≤ weightOf w (symmDiff B C) / U := div_nonneg (nn _) (nn _)
    have h3 := lower A B (by intro i; simp only [Finset.mem_union]; tauto)
    have h4 := lower B C (by intro i; simp only [Finset.mem_union]; tauto)
    linarith
  rw [if_neg h0]
  have hpos : 0 < weightOf w (A ∪ C) := lt_of_le_of_ne (nn _) (Ne.symm h0)
  set T := B \ (A ∪ C) with hT
  have hUT : U = weightOf w (A ∪ C) + weightOf w T := by
    rw [hU, hT]
    unfold weightOf
    rw [← Finset.sum_union (by
      rw [Finset.disjoint_left]; intro i h1 h2; rw [Finset.mem_sdiff] at h2; exact h2.2 h1)]
    congr 1
    ext i; simp only [Finset.mem_union, Finset.mem_sdiff]; tauto
  have hle : weightOf w (symmDiff A C) ≤ weightOf w (A ∪ C) := mono (sub A C)
  have hUpos : 0 < U := by rw [hUT]; have := nn T; linarith
  have step1 : weightOf w (symmDiff A C) / weightOf w (A ∪ C) ≤
      (weightOf w (symmDiff A C) + weightOf w T) / U := by
    rw [div_le_div_iff₀ hpos hUpos, hUT]
    nlinarith [nn T]
  have step2 : weightOf w (symmDiff A C) + weightOf w T ≤
      weightOf w (symmDiff A B) + weightOf w (symmDiff B C) := by
    have : weightOf w (symmDiff A C) + weightOf w T = weightOf w (symmDiff A C ∪ T) := by
      unfold weightOf
      rw [Finset.sum_union (by
        rw [Finset.disjoint_left]
        intro i h1 h2
        rw [hT, Finset.mem_sdiff] at h2
        exact h2.2 (sub A C h1))]
    rw [this]
    refine le_trans (mono (Y := symmDiff A B ∪ symmDiff B C) ?_) ?_
    · intro i
      simp only [hT, Finset.mem_union, Finset.mem_symmDiff, Finset.mem_sdiff]; tauto
    · have := Finset.sum_union_inter (s₁ := symmDiff A B) (s₂ := symmDiff B C) (f := w)
      have h2 := nn (symmDiff A B ∩ symmDiff B C)
      unfold weightOf at *
      linarith
  have h3 := lower A B (by intro i; simp only [Finset.mem_union]; tauto)
  have h4 := lower B C (by intro i; simp only [Finset.mem_union]; tauto)
  calc _ ≤ (weightOf w (symmDiff A C) + weightOf w T) / U := step1
    _ ≤ (weightOf w (symmDiff A B) + weightOf w (symmDiff B C)) / U := by gcongr
    _ = weightOf w (symmDiff A B) / U + weightOf w (symmDiff B C) / U := add_div _ _ _
    _ ≤ _ := add_le_add h3 h4

/-- **C72** For non-negative weights (or none): a value in `[0, 1]`, symmetric, zero on equal masks,
the triangle inequality; with positive weights (or none) zero only on equal masks. -/
theorem C72_metric {n : Nat} (A B C : Finset (Fin n)) (w : Option (Fin n → ℝ))
    (hw : ∀ f, w = some f → ∀ i, 0 ≤ f i) :
    ∃ dAB dBA dBC dAC : ℝ,
      jaccardDistance (.ndarray (setMaskOf A)) (.ndarray (setMaskOf B)) (w.map List.ofFn) = .ok dAB ∧
      jaccardDistance (.ndarray (setMaskOf B)) (.ndarray (setMaskOf A)) (w.map List.ofFn) = .ok dBA ∧
      jaccardDistance (.ndarray (setMaskOf B)) (.ndarray (setMaskOf C)) (w.map List.ofFn) = .ok dBC ∧
      jaccardDistance (.ndarray (setMaskOf A)) (.ndarray (setMaskOf C)) (w.map List.ofFn) = .ok dAC ∧
      0 ≤ dAB ∧ dAB ≤ 1 ∧ dAB = dBA ∧ (A = B → dAB = 0) ∧ dAC ≤ dAB + dBC ∧
      ((∀ f, w = some f → ∀ i, 0 < f i) → dAB = 0 → A = B) := by
  -- no weights is the same as weights one
  have red : ∀ X Y : Finset (Fin n),
      jaccardDistance (.ndarray (setMaskOf X)) (.ndarray (setMaskOf Y)) (w.map List.ofFn) =
      jaccardDistance (.ndarray (setMaskOf X)) (.ndarray (setMaskOf Y))
        (some (List.ofFn (w.getD (fun _ => 1)))) := by
    intro X Y
    cases w with
    | some f => rfl
    | none =>
      have : List.replicate (setMaskOf X).length (1 : ℝ) = List.ofFn (fun _ : Fin n => (1 : ℝ)) := by
        rw [List.ofFn_const]; simp [setMaskOf]
      simp only [Option.map_none, Option.getD_none, jaccardDistance, jaccardArg, jaccardKernel, this]
  have hf : ∀ i, 0 ≤ (w.getD (fun _ => 1)) i := by
    cases w with
    | some f => exact hw f rfl
    | none => intro i; simp
  simp only [red, (C72_value _ _ _).1]
  generalize hg : w.getD (fun _ => 1) = f at hf ⊢
  have nn : ∀ X : Finset (Fin n), 0 ≤ weightOf f X := fun X => Finset.sum_nonneg (fun i _ => hf i)
  have sub : symmDiff A B ⊆ A ∪ B := by
    intro i hi
    rw [Finset.mem_symmDiff] at hi
    rw [Finset.mem_union]; tauto
  have hle : weightOf f (symmDiff A B) ≤ weightOf f (A ∪ B) :=
    Finset.sum_le_sum_of_subset_of_nonneg sub (fun i _ _ => hf i)
  refine ⟨_, _, _, _, rfl, rfl, rfl, rfl, ?_, ?_, ?_, ?_, ?_, ?_⟩
  · split
    · exact le_refl _
    · exact div_nonneg (nn _) (nn _)
  · split
    · exact zero_le_one
    · exact div_le_one_of_le₀ hle (nn _)
  · rw [Finset.union_comm A B, symmDiff_comm A B]
  · rintro rfl
    simp [weightOf]
  · exact jaccard_triangle f hf A B C
  · intro hpos h0
    have hp : ∀ i, 0 < f i := by
      cases w with
      | some g => simp only [Option.getD_some] at hg; subst hg; exact hpos g rfl
      | none => simp only [Option.getD_none] at hg; subst hg; intro i; simp
    have hz : weightOf f (symmDiff A B) = 0 := by
      split at h0
      · next h => exact le_antisymm (h ▸ hle) (nn _)
      · next h => exact (div_eq_zero_iff.1 h0).resolve_right h
    have : symmDiff A B = ∅ := by
      by_contra hne
      obtain ⟨i, hi⟩ := Finset.nonempty_iff_ne_empty.2 hne
      have : 0 < weightOf f (symmDiff A B) := Finset.sum_pos (fun i _ => hp i) ⟨i, hi⟩
      linarith
    exact symmDiff_eq_bot.1 this

theorem jaccardArg_shows {a : Operand} {u : List Bool} (h : Shows a u) : jaccardArg a = .ok u := by
  cases a with
  | mask m =>
    obtain ⟨hd, hp⟩ := h
    obtain ⟨d, h1, h2⟩ := aggregable_data hd
    have := data_ok_isAggregate h1
    rw [jaccardArg, h1, isAggregate_unique this h2 ⟨hd, hp⟩]
  | ndarray d => simp only [Shows] at h; subst h; rfl
  | foreign => exact h.elim

/-- **C72** Graphicle masks stand for their aggregates: with masks or arrays that show `u` and `v` the
result is that for the arrays. -/
theorem C72_operands (a b : Operand) (u v : List Bool) (ha : Shows a u) (hb : Shows b v)
    (w : Option (List ℝ)) :
    jaccardDistance a b w = jaccardDistance (.ndarray u) (.ndarray v) w := by
  rw [jaccardDistance, jaccardArg_shows ha, jaccardArg_shows hb]
  rfl

/-- **C72** An argument which is neither an array nor a mask is an `AttributeError`; a group without an aggregate raises
what reading its aggregate raises; the first argument is looked at first. -/
theorem C72_errors (a b : Operand) (u : List Bool) (m : Mask) (e : PyErr) (w : Option (List ℝ)) :
    jaccardDistance .foreign b w = .error .attributeError ∧
    (Shows a u → jaccardDistance a .foreign w = .error .attributeError) ∧
    (m.data = .error e → jaccardDistance (.mask m) b w = .error e ∧
      (Shows a u → jaccardDistance a (.mask m) w = .error e)) := by
  refine ⟨rfl, fun ha => ?_, fun hm => ⟨?_, fun ha => ?_⟩⟩
  · rw [jaccardDistance, jaccardArg_shows ha]; rfl
  · rw [jaccardDistance, jaccardArg, hm]
  · rw [jaccardDistance, jaccardArg_shows ha]; simp only [jaccardArg, hm]

/-- **C72** (boundary) Arrays of different lengths are accepted and silently cut to the shortest. -/
theorem C72_truncates (u v : List Bool) (w : List ℝ) :
    jaccardDistance (.ndarray u) (.ndarray v) (some w) =
      jaccardDistance (.ndarray (u.take (min u.length (min v.length w.length))))
        (.ndarray (v.take (min u.length (min v.length w.length))))
        (some (w.take (min u.length (min v.length w.length)))) := by
  have : ∀ (u v : List Bool) (w : List ℝ) (acc : ℝ × ℝ), jaccardLoop acc u v w =
      jaccardLoop acc (u.take (min u.length (min v.length w.length)))
        (v.take (min u.length (min v.length w.length)))
        (w.take (min u.length (min v.length w.length))) := by
    intro u
    induction u with
    | nil => intro v w acc; simp [jaccardLoop]
    | cons x u ih =>
      intro v w acc
      cases v with
      | nil => simp [jaccardLoop]
      | cons y v =>
        cases w with
        | nil => simp [jaccardLoop]
        | cons z w =>
          have e : min (x :: u).length (min (y :: v).length (z :: w).length) =
              min u.length (min v.length w.length) + 1 := by
            simp only [List.length_cons]; omega
          rw [e]
          simp only [List.take_succ_cons]
          obtain ⟨a, b⟩ := acc
          rw [jaccardLoop, jaccardLoop, ih]
  simp only [jaccardDistance, jaccardArg, jaccardKernel]
  rw [← this]

example : jaccardDistance (.ndarray [true, true, false]) (.ndarray [true, false, true]) none =
    .ok (2 / 3) := by
  simp only [jaccardDistance, jaccardArg, jaccardKernel, jaccardLoop, List.length_cons, List.length_nil,
    List.replicate, timesBool]
  norm_num

/-! ## C73 -/

theorem length_filter_finRange {n : Nat} (p : Fin n → Bool) :
    ((List.finRange n).filter p).length = (Finset.univ.filter (fun j => p j = true)).card := by
  have : (Finset.univ.filter (fun j => p j = true)) = ((List.finRange n).filter p).toFinset := by
    ext j; simp
  rw [this, List.toFinset_card_of_nodup ((List.nodup_finRange n).filter _)]

theorem sum_filter_finRange {n : Nat} (p : Fin n → Bool) (f : Fin n → Nat) :
    (((List.finRange n).filter p).map f).sum = ∑ j ∈ Finset.univ.filter (fun j => p j = true), f j := by
  have : (Finset.univ.filter (fun j => p j = true)) = ((List.finRange n).filter p).toFinset := by
    ext j; simp
  rw [this, List.sum_toFinset _ ((List.nodup_finRange n).filter _)]

/-- **C73** For a relation without loops, the coefficient of a node is the fraction of ordered pairs of
distinct neighbours that are adjacent; zero with fewer than two neighbours. -/
theorem C73_value {n : Nat} (adj : Arr2 n n Bool) (hd : ∀ i, adj i i = false) (i : Fin n) :
    clustCoeffs adj i =
      if (neighbours adj i).card < 2 then 0
      else ((linkedPairs adj i).card : ℚ) / ((neighbourPairs adj i).card : ℚ) := by
  unfold clustCoeffs clustCoeff
  simp only [length_filter_finRange, sum_filter_finRange]
  change (if (neighbours adj i).card < 2 then (0 : ℚ) else _) = _
  split
  · rfl
  next h =>
  have e1 : (∑ a ∈ neighbours adj i, ∑ b ∈ neighbours adj i, if adj a b then 1 else 0) =
      (linkedPairs adj i).card := by
    rw [← Finset.sum_product' (neighbours adj i) (neighbours adj i) (fun a b => if adj a b then 1 else 0),
      ← Finset.card_filter]
    congr 1
    ext ⟨a, b⟩
    simp only [linkedPairs, neighbourPairs, Finset.mem_filter, Finset.mem_product, Finset.mem_offDiag]
    constructor
    · rintro ⟨⟨h1, h2⟩, h3⟩
      exact ⟨⟨h1, h2, fun e => by subst e; rw [hd a] at h3; exact absurd h3 (by simp)⟩, h3⟩
    · rintro ⟨⟨h1, h2, _⟩, h3⟩
      exact ⟨⟨h1, h2⟩, h3⟩
  have e2 : ((neighbourPairs adj i).card : ℚ) =
      ((neighbours adj i).card : ℚ) * (((neighbours adj i).card : ℚ) - 1) := by
    unfold neighbourPairs
    rw [Finset.offDiag_card, Nat.cast_sub (Nat.le_mul_self _)]
    push_cast; ring
  rw [e2]
  congr 1
  exact_mod_cast e1

/-- **C73** Coefficients lie in `[0, 1]`. -/
theorem C73_range {n : Nat} (adj : Arr2 n n Bool) (hd : ∀ i, adj i i = false) (i : Fin n) :
    0 ≤ clustCoeffs adj i ∧ clustCoeffs adj i ≤ 1 := by
  rw [C73_value adj hd i]
  split
  · exact ⟨le_refl _, zero_le_one⟩
  · refine ⟨by positivity, div_le_one_of_le₀ ?_ (by positivity)⟩
    exact_mod_cast Finset.card_le_card (Finset.filter_subset _ _)

/-- **C73** On a complete graph with at least three nodes every coefficient is one. -/
theorem C73_complete {n : Nat} (h3 : 3 ≤ n) (adj : Arr2 n n Bool)
    (hc : ∀ i j, adj i j = true ↔ i ≠ j) (i : Fin n) : clustCoeffs adj i = 1 := by
  have hd : ∀ i, adj i i = false := fun i => by
    have := (hc i i).not.2 (by simp)
    simpa using this
  have hn : (neighbours adj i).card = n - 1 := by
    have : neighbours adj i = Finset.univ.erase i := by
      ext j; simp [neighbours, hc, eq_comm]
    rw [this, Finset.card_erase_of_mem (Finset.mem_univ i)]; simp
  rw [C73_value adj hd i, if_neg (by omega)]
  have : linkedPairs adj i = neighbourPairs adj i := by
    unfold linkedPairs
    rw [Finset.filter_eq_self]
    rintro ⟨a, b⟩ h
    exact (hc a b).2 (Finset.mem_offDiag.1 h).2.2
  rw [this, div_self]
  have : (neighbourPairs adj i).card ≠ 0 := by
    unfold neighbourPairs
    rw [Finset.offDiag_card, hn]
    obtain ⟨m, rfl⟩ : ∃ m, n = m + 3 := ⟨n - 3, by omega⟩
    have e : m + 3 - 1 = m + 2 := by omega
    rw [e]
    have : (m + 2) * (m + 2) - (m + 2) = (m + 2) * (m + 1) := by
      rw [show (m + 2) * (m + 2) = (m + 2) * (m + 1) + (m + 2) by ring]; omega
    rw [this]; positivity
  exact_mod_cast this

/-- **C73** For `cluster_coeff_distbn`, under every schedule of the parallel distance kernel: the graph
joins distinct particles at distance strictly below `radius`, it is undirected, and the coefficients are
those of that graph. -/
theorem C73_distbn (ps : List P4) (pseudo : Bool) (tol radius : ℝ) (init : Nat × Nat → Fl)
    (tr : List Write)
    (h : Interleave (deltaRLoop true (cloudOf pseudo tol ps) (cloudOf pseudo tol ps)) tr) :
    ∃ adj : Fin ps.length → Fin ps.length → Bool,
      (∀ i j, adj i j = true ↔ i ≠ j ∧ ∃ d, deltaRCell
          (if pseudo then ps[i].eta else ps[i].rapidity tol)
          (if pseudo then ps[j].eta else ps[j].rapidity tol) ps[i].xyPol ps[j].xyPol = .fin d ∧
            d < radius) ∧
      (∀ i j, adj i j = adj j i) ∧
      ∀ i, clusterCoeffDistbn ps radius init tr i =
        (if (neighbours adj i).card < 2 then 0
          else ((linkedPairs adj i).card : ℚ) / ((neighbourPairs adj i).card : ℚ)) ∧
        0 ≤ clusterCoeffDistbn ps radius init tr i ∧ clusterCoeffDistbn ps radius init tr i ≤ 1 := by
  have hlen : (cloudOf pseudo tol ps).length = ps.length := by simp [cloudOf]
  have hcell : ∀ i j : Fin ps.length, runWrites init tr (i.val, j.val) = deltaRCell
      (if pseudo then ps[i].eta else ps[i].rapidity tol)
      (if pseudo then ps[j].eta else ps[j].rapidity tol) ps[i].xyPol ps[j].xyPol := by
    intro i j
    have := (C66_schedule true _ _ (fun _ => rfl) tr h init).2.2.1 i.val j.val
      (if pseudo then ps[i].eta else ps[i].rapidity tol, ps[i].xyPol)
      (if pseudo then ps[j].eta else ps[j].rapidity tol, ps[j].xyPol)
      (by simp [cloudOf]) (by simp [cloudOf])
    exact this
  have hadj : ∀ i j : Fin ps.length,
      radiusAdj ps.length (runWrites init tr) radius i j = true ↔ i ≠ j ∧ ∃ d, deltaRCell
          (if pseudo then ps[i].eta else ps[i].rapidity tol)
          (if pseudo then ps[j].eta else ps[j].rapidity tol) ps[i].xyPol ps[j].xyPol = .fin d ∧
            d < radius := by
    intro i j
    unfold radiusAdj fillDiagonal
    by_cases hij : i = j
    · simp [hij]
    · have hv : i.val ≠ j.val := fun e => hij (Fin.ext e)
      simp only [hv, if_false, decide_eq_true_eq, ne_eq, hij, not_false_eq_true, true_and]
      rcases C65_nonneg (if pseudo then ps[i].eta else ps[i].rapidity tol)
          (if pseudo then ps[j].eta else ps[j].rapidity tol) ps[i].xyPol ps[j].xyPol with hp | ⟨x, hx, _⟩
      · rw [hcell, hp]; simp [Fl.ltR]
      · rw [hcell, hx]; simp [Fl.ltR]
  have hdiag : ∀ i : Fin ps.length, radiusAdj ps.length (runWrites init tr) radius i i = false := by
    intro i; simp [radiusAdj, fillDiagonal]
  refine ⟨radiusAdj ps.length (runWrites init tr) radius, hadj, fun i j => ?_, fun i => ?_⟩
  · rw [Bool.eq_iff_iff, hadj, hadj, C65_symm]
    exact and_congr_left fun _ => ⟨Ne.symm, Ne.symm⟩
  · exact ⟨C73_value _ hdiag i, C73_range _ hdiag i⟩

/-- A path of three nodes: the middle one has coefficient 0; closing the triangle makes it 1. -/
example : clustCoeffs (n := 3) (fun i j => decide (i ≠ j)) 1 = 1 ∧
    clustCoeffs (n := 3) (fun i j => decide (i ≠ j) && (decide (i = 1) || decide (j = 1))) 1 = 0 := by
  refine ⟨C73_complete (by omega) _ (by decide) 1, ?_⟩
  rw [C73_value _ (by decide), if_neg (by decide), show (linkedPairs (n := 3)
    (fun i j => decide (i ≠ j) && (decide (i = 1) || decide (j = 1))) 1).card = 0 by decide]
  simp

/-! ## C74 -/

/-- **C74** Whatever the program does — nested scopes, exceptions, invalid thread counts — the thread count
afterwards is the one before; kernels run with the count of the innermost enclosing scope; and an invalid
count (or an exception raised inside) is reported to the caller. -/
theorem C74_restored (limit t : Int) (p : TProg) (ht : 1 ≤ t ∧ t ≤ limit) :
    (p.run limit t).threads = t ∧ (p.run limit t).seen = (expected limit p t).1 ∧
    ((p.run limit t).err = none ↔ (expected limit p t).2 = true) := by
  induction p generalizing t with
  | ret => simp [TProg.run, expected]
  | fail e => simp [TProg.run, expected]
  | kernel next ih =>
    obtain ⟨h1, h2, h3⟩ := ih t ht
    simp [TProg.run, expected, h1, h2, h3]
  | scope n body next ihb ihn =>
    by_cases hn : 1 ≤ n ∧ n ≤ limit
    · obtain ⟨b1, b2, b3⟩ := ihb n hn
      obtain ⟨n1, n2, n3⟩ := ihn t ht
      simp only [TProg.run, expected, setNumThreads, if_pos hn, if_pos ht]
      cases he : (body.run limit n).err with
      | some e =>
        have : (expected limit body n).2 = false := by
          rw [he] at b3; simpa using b3
        simp [this, b2]
      | none =>
        have : (expected limit body n).2 = true := b3.1 he
        simp [this, b2, n1, n2, n3]
    · simp [TProg.run, expected, setNumThreads, hn]

/-- **C74** The three library calls: valid counts run their kernels with that count and go on; invalid
counts are a `ValueError` before any kernel runs; the count is restored either way. -/
theorem C74_calls (limit t n : Int) (ht : 1 ≤ t ∧ t ≤ limit) (next : TProg) :
    ∀ ck ∈ [(deltaRProg, 1), (clusterCoeffProg, 2), (argClosestProg, 1)],
      ((ck.1 n next).run limit t).threads = t ∧
      (¬ (1 ≤ n ∧ n ≤ limit) → ((ck.1 n next).run limit t).err = some .valueError ∧
        ((ck.1 n next).run limit t).seen = []) ∧
      (1 ≤ n ∧ n ≤ limit → ((ck.1 n next).run limit t).err = (next.run limit t).err ∧
        ((ck.1 n next).run limit t).seen = List.replicate ck.2 n ++ (next.run limit t).seen) := by
  intro ck hc
  refine ⟨(C74_restored limit t _ ht).1, fun h => ?_, fun h => ?_⟩
  · simp only [List.mem_cons, List.not_mem_nil, or_false] at hc
    rcases hc with rfl | rfl | rfl <;>
      simp [deltaRProg, clusterCoeffProg, argClosestProg, TProg.run, setNumThreads, h]
  · simp only [List.mem_cons, List.not_mem_nil, or_false] at hc
    rcases hc with rfl | rfl | rfl <;>
      simp [deltaRProg, clusterCoeffProg, argClosestProg, TProg.run, setNumThreads, h, ht,
        List.replicate]

/-- Nested scopes with an exception inside: the count is back at 4. -/
example : ((TProg.scope 2 (.kernel (.scope 3 (.kernel (.fail .indexError)) .ret)) .ret).run 8 4).threads = 4 ∧
    ((TProg.scope 2 (.kernel (.scope 3 (.kernel (.fail .indexError)) .ret)) .ret).run 8 4).seen = [2, 3] := by
  decide

end Gcl
