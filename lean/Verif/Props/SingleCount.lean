import Verif.Spec.SingleCount
import Verif.Props.Cluster
/-!
# C154: clustering coefficients in single precision
-/
namespace Gcl
set_option autoImplicit false
open Real Spec

/-- Counting stops at `N`. -/
theorem count32_min {N : Nat} {u v : ℝ} {C : Arith32} (hC : CountsTo N u v C) (bs : List Bool) :
    count32 C bs = (min (bs.count true) N : ℕ) := by
  have key : ∀ (bs : List Bool) (m : Nat), bs.foldl (fun acc b => C.add acc (if b then 1 else 0)) ((min m N : ℕ) : ℝ) =
      ((min (m + bs.count true) N : ℕ) : ℝ) := by
    intro bs
    induction bs with
    | nil => intro m; simp
    | cons b bs ih =>
      intro m
      rw [List.foldl_cons]
      cases b with
      | false =>
        have : C.add ((min m N : ℕ) : ℝ) (if false = true then 1 else 0) = ((min m N : ℕ) : ℝ) := by
          simpa using hC.add_zero (min m N) (min_le_right _ _)
        rw [this, ih]; simp
      | true =>
        have : C.add ((min m N : ℕ) : ℝ) (if true = true then 1 else 0) = ((min (m + 1) N : ℕ) : ℝ) := by
          simp only [if_true]
          by_cases h : m < N
          · rw [min_eq_left h.le, hC.add_one m h, min_eq_left (by omega : m + 1 ≤ N)]; push_cast; rfl
          · rw [min_eq_right (by omega : N ≤ m), hC.stuck, min_eq_right (by omega : N ≤ m + 1)]
        rw [this, ih]
        have : m + 1 + bs.count true = m + (true :: bs).count true := by simp; omega
        rw [this]
  have := key bs 0
  simpa [count32] using this

theorem count_linked {n : Nat} (adj : Arr2 n n Bool) (hd : ∀ i, adj i i = false) (i : Fin n) :
    (((List.finRange n).filter (fun j => adj i j)).flatMap
      (fun a => ((List.finRange n).filter (fun j => adj i j)).map (fun b => adj a b))).count true = (linkedPairs adj i).card := by
  rw [List.count_flatMap]
  have : (List.count true ∘ fun a => ((List.finRange n).filter (fun j => adj i j)).map (fun b => adj a b)) =
      fun a => (((List.finRange n).filter (fun j => adj i j)).map (fun b => if adj a b then 1 else 0)).sum := by
    funext a
    have : ∀ l : List (Fin n), (l.map (fun b => adj a b)).count true = (l.map (fun b => if adj a b then 1 else 0)).sum := by
      intro l
      induction l with
      | nil => rfl
      | cons x l ih => simp only [List.map_cons, List.count_cons, List.sum_cons, ih]; cases adj a x <;> simp [add_comm]
    exact this _
  rw [this]
  simp only [sum_filter_finRange]
  change (∑ a ∈ neighbours adj i, ∑ b ∈ neighbours adj i, if adj a b then 1 else 0) = _
  rw [← Finset.sum_product' (neighbours adj i) (neighbours adj i) (fun a b => if adj a b then 1 else 0),
      ← Finset.card_filter]
  congr 1
  ext ⟨a, b⟩
  simp only [linkedPairs, neighbourPairs, Finset.mem_filter, Finset.mem_product, Finset.mem_offDiag]
  constructor
  · rintro ⟨⟨h1, h2⟩, h3⟩
    exact ⟨⟨h1, h2, fun e => by subst e; rw [hd a] at h3; exact absurd h3 (by simp)⟩, h3⟩
  · rintro ⟨⟨h1, h2, _⟩, h3⟩
    exact ⟨⟨h1, h2⟩, h3⟩

/-- The graph: particles at a distance below the radius. -/
theorem radiusAdj_iff (ps : List P4) (pseudo : Bool) (tol radius : ℝ) (init : Nat × Nat → Fl) (tr : List Write)
    (h : Interleave (deltaRLoop true (cloudOf pseudo tol ps) (cloudOf pseudo tol ps)) tr) (i j : Fin ps.length) :
    radiusAdj ps.length (runWrites init tr) radius i j = true ↔ i ≠ j ∧ ∃ d, deltaRCell
          (if pseudo then ps[i].eta else ps[i].rapidity tol)
          (if pseudo then ps[j].eta else ps[j].rapidity tol) ps[i].xyPol ps[j].xyPol = .fin d ∧ d < radius := by
  have hcell := (C66_schedule true _ _ (fun _ => rfl) tr h init).2.2.1 i.val j.val
      (if pseudo then ps[i].eta else ps[i].rapidity tol, ps[i].xyPol)
      (if pseudo then ps[j].eta else ps[j].rapidity tol, ps[j].xyPol)
      (by simp [cloudOf]) (by simp [cloudOf])
  unfold radiusAdj fillDiagonal
  by_cases hij : i = j
  · simp [hij]
  · have hv : i.val ≠ j.val := fun e => hij (Fin.ext e)
    simp only [hv, if_false, decide_eq_true_eq, ne_eq, hij, not_false_eq_true, true_and]
    rcases C65_nonneg (if pseudo then ps[i].eta else ps[i].rapidity tol)
        (if pseudo then ps[j].eta else ps[j].rapidity tol) ps[i].xyPol ps[j].xyPol with hp | ⟨x, hx, _⟩
    · rw [hcell, hp]; simp [Fl.ltR]
    · rw [hcell, hx]; simp [Fl.ltR]

section
variable {N : Nat} {u v : ℝ} {C : Arith32} (hC : CountsTo N u v C)
include hC

/-- **C154** The coefficient of a node is the number of ordered pairs of neighbours that are linked, but at most `N`, over the
number of ordered pairs of neighbours, with one rounding for the division and one for the conversion. -/
theorem C154_value {n : Nat} (adj : Arr2 n n Bool) (hd : ∀ i, adj i i = false) (i : Fin n) :
    clustCoeff32 C adj i = if (neighbours adj i).card < 2 then 0
      else C.toSingle (C.div ((min (linkedPairs adj i).card N : ℕ) : ℝ) ((neighbourPairs adj i).card : ℝ)) := by
  unfold clustCoeff32
  simp only [length_filter_finRange]
  change (if (neighbours adj i).card < 2 then (0 : ℝ) else _) = _
  split
  · rfl
  next h =>
  rw [count32_min hC, count_linked adj hd i]
  congr 2
  unfold neighbourPairs
  rw [Finset.offDiag_card, Nat.cast_sub (Nat.le_mul_self _)]
  change (((((neighbours adj i).card : Int) * (((neighbours adj i).card : Int) - 1) : Int)) : ℝ) = _
  push_cast; ring

/-- **C154** So it is accurate as long as there are no more than `N` such pairs. -/
theorem C154_accurate {n : Nat} (hu : 0 ≤ u) (hv : 0 ≤ v) (adj : Arr2 n n Bool) (hd : ∀ i, adj i i = false) (i : Fin n)
    (hN : (linkedPairs adj i).card ≤ N) :
    |clustCoeff32 C adj i - (clustCoeffs adj i : ℝ)| ≤ ((1 + u) * (1 + v) - 1) * (clustCoeffs adj i : ℝ) := by
  rw [C154_value hC adj hd i, C73_value adj hd i]
  split
  · simp
  next h =>
  rw [min_eq_left hN]
  have hne : ((neighbourPairs adj i).card : ℝ) ≠ 0 := by
    unfold neighbourPairs
    rw [Nat.cast_ne_zero, Finset.offDiag_card]
    have : 2 ≤ (neighbours adj i).card := by omega
    have : (neighbours adj i).card < (neighbours adj i).card * (neighbours adj i).card := by nlinarith
    omega
  push_cast
  set q : ℝ := ((linkedPairs adj i).card : ℝ) / ((neighbourPairs adj i).card : ℝ) with hq
  have q0 : 0 ≤ q := by positivity
  have d := hC.div ((linkedPairs adj i).card : ℝ) _ hne
  rw [← hq, abs_of_nonneg q0] at d
  set x := C.div ((linkedPairs adj i).card : ℝ) ((neighbourPairs adj i).card : ℝ) with hx
  have s := hC.single x
  have hxa : |x| ≤ (1 + u) * q := by
    have : |x| ≤ |x - q| + |q| := by simpa using abs_add_le (x - q) q
    rw [abs_of_nonneg q0] at this
    linarith
  calc |C.toSingle x - q| ≤ |C.toSingle x - x| + |x - q| := by simpa using abs_add_le (C.toSingle x - x) (x - q)
    _ ≤ v * ((1 + u) * q) + u * q := add_le_add (s.trans (mul_le_mul_of_nonneg_left hxa hv)) d
    _ = _ := by ring

/-- **C154** In any case it is in `[0, 1]`, and zero exactly if it should be: with fewer than two neighbours, or no two of
them linked. -/
theorem C154_range {n : Nat} (hu : u < 1) (hv : v < 1) (hN : 1 ≤ N) (adj : Arr2 n n Bool) (hd : ∀ i, adj i i = false)
    (i : Fin n) :
    0 ≤ clustCoeff32 C adj i ∧ clustCoeff32 C adj i ≤ 1 ∧ (clustCoeff32 C adj i = 0 ↔ clustCoeffs adj i = 0) := by
  rw [C154_value hC adj hd i, C73_value adj hd i]
  split
  · simp
  next h =>
  have hpos : (0 : ℝ) < (neighbourPairs adj i).card := by
    unfold neighbourPairs
    rw [Nat.cast_pos, Finset.offDiag_card]
    have : 2 ≤ (neighbours adj i).card := by omega
    have : (neighbours adj i).card < (neighbours adj i).card * (neighbours adj i).card := by nlinarith
    omega
  have hle : ((min (linkedPairs adj i).card N : ℕ) : ℝ) ≤ (neighbourPairs adj i).card :=
    Nat.cast_le.2 ((min_le_left _ _).trans (Finset.card_le_card (Finset.filter_subset _ _)))
  have sgn : ∀ x e : ℝ, e < 1 → 0 < x → ∀ y, |y - x| ≤ e * |x| → 0 < y := by
    intro x e he hx y hy
    rw [abs_of_pos hx, abs_le] at hy
    nlinarith [hy.1]
  have hs0 : C.toSingle 0 = 0 := by
    have := hC.single 0
    simpa using this
  have hd0 : C.div 0 ((neighbourPairs adj i).card : ℝ) = 0 := by
    have := hC.div 0 _ hpos.ne'
    simpa using this
  have e0 : ((linkedPairs adj i).card : ℚ) / ((neighbourPairs adj i).card : ℚ) = 0 ↔ (linkedPairs adj i).card = 0 := by
    have : ((neighbourPairs adj i).card : ℚ) ≠ 0 := by
      have := hpos.ne'
      exact_mod_cast this
    rw [div_eq_zero_iff, or_iff_left this, Nat.cast_eq_zero]
  by_cases hl : (linkedPairs adj i).card = 0
  · rw [e0, hl]
    simp [hd0, hs0]
  · have hm : (0 : ℝ) < ((min (linkedPairs adj i).card N : ℕ) : ℝ) := by
      rw [Nat.cast_pos]; omega
    have p1 := sgn _ u hu (div_pos hm hpos) _ (hC.div _ _ hpos.ne')
    have p2 := sgn _ v hv p1 _ (hC.single _)
    refine ⟨p2.le, ?_, iff_of_false p2.ne' (by rwa [e0])⟩
    have := hC.div_le _ _ _ hpos hle
    rw [hC.div_self _ hpos.ne'] at this
    have := hC.single_le _ _ this
    rwa [hC.single_one] at this

/-- **C154** A node whose neighbours, at least two, are all linked to each other has the coefficient one, exactly, if the
number of pairs is at most `N`. -/
theorem C154_clique {n : Nat} (adj : Arr2 n n Bool) (hd : ∀ i, adj i i = false) (i : Fin n)
    (h2 : 2 ≤ (neighbours adj i).card) (hl : ∀ a ∈ neighbours adj i, ∀ b ∈ neighbours adj i, a ≠ b → adj a b = true)
    (hN : (neighbours adj i).card * ((neighbours adj i).card - 1) ≤ N) : clustCoeff32 C adj i = 1 := by
  rw [C154_value hC adj hd i, if_neg (by omega)]
  have e : linkedPairs adj i = neighbourPairs adj i := by
    unfold linkedPairs
    rw [Finset.filter_eq_self]
    rintro ⟨a, b⟩ h
    rw [neighbourPairs, Finset.mem_offDiag] at h
    exact hl a h.1 b h.2.1 h.2.2
  have hc : (neighbourPairs adj i).card = (neighbours adj i).card * ((neighbours adj i).card - 1) := by
    rw [neighbourPairs, Finset.offDiag_card, Nat.mul_sub, mul_one]
  have hpos : 0 < (neighbourPairs adj i).card := by
    rw [hc]; exact Nat.mul_pos (by omega) (by omega)
  rw [e, min_eq_left (by rw [hc]; exact hN), hC.div_self _ (by exact_mod_cast hpos.ne'), hC.single_one]

/-- **C154** Beyond `N` it is false that it is one, or anywhere near: in a complete graph of `k + 1` nodes, where every
coefficient is one, the coefficients computed are at most `(1 + u) (1 + v) N / (k (k - 1))`, which tends to zero. -/
theorem C154_false (hu : 0 ≤ u) (hv : 0 ≤ v) (k : Nat) (h2 : 2 ≤ k) (hN : N ≤ k * (k - 1)) (i : Fin (k + 1)) :
    clustCoeffs (fun a b : Fin (k + 1) => decide (a ≠ b)) i = 1 ∧
    clustCoeff32 C (fun a b : Fin (k + 1) => decide (a ≠ b)) i ≤ (1 + u) * (1 + v) * (N / (k * (k - 1))) := by
  have hd : ∀ i : Fin (k + 1), decide (i ≠ i) = false := fun i => by simp
  refine ⟨C73_complete (by omega) _ (by simp) i, ?_⟩
  have hnb : neighbours (fun a b : Fin (k + 1) => decide (a ≠ b)) i = Finset.univ.erase i := by
    ext j
    simp only [neighbours, Finset.mem_filter, Finset.mem_univ, true_and, decide_eq_true_eq, Finset.mem_erase, and_true]
    exact ⟨Ne.symm, Ne.symm⟩
  have hcard : (neighbours (fun a b : Fin (k + 1) => decide (a ≠ b)) i).card = k := by
    rw [hnb, Finset.card_erase_of_mem (Finset.mem_univ i)]; simp
  have e : linkedPairs (fun a b : Fin (k + 1) => decide (a ≠ b)) i = neighbourPairs (fun a b : Fin (k + 1) => decide (a ≠ b)) i := by
    unfold linkedPairs
    rw [Finset.filter_eq_self]
    rintro ⟨a, b⟩ h
    rw [neighbourPairs, Finset.mem_offDiag] at h
    simpa using h.2.2
  have hc : (neighbourPairs (fun a b : Fin (k + 1) => decide (a ≠ b)) i).card = k * (k - 1) := by
    rw [neighbourPairs, Finset.offDiag_card, hcard, Nat.mul_sub, mul_one]
  rw [C154_value hC _ hd i, hcard, if_neg (by omega), e, hc, min_eq_right hN]
  have hk : ((k * (k - 1) : ℕ) : ℝ) = (k : ℝ) * ((k : ℝ) - 1) := by
    rw [Nat.cast_mul, Nat.cast_sub (by omega)]; simp
  have hk0 : (0 : ℝ) < (k : ℝ) * ((k : ℝ) - 1) := by
    rw [← hk, Nat.cast_pos]; exact Nat.mul_pos (by omega) (by omega)
  rw [hk]
  set q : ℝ := (N : ℝ) / ((k : ℝ) * ((k : ℝ) - 1)) with hq
  have q0 : 0 ≤ q := div_nonneg (Nat.cast_nonneg _) hk0.le
  have d := hC.div (N : ℝ) _ hk0.ne'
  rw [← hq, abs_of_nonneg q0, abs_le] at d
  set x := C.div (N : ℝ) ((k : ℝ) * ((k : ℝ) - 1)) with hx
  have s := hC.single x
  rw [abs_le] at s
  have hxa : |x| ≤ (1 + u) * q := by
    rw [abs_le]; constructor <;> nlinarith [d.1, d.2]
  have hxb : x ≤ (1 + u) * q := (le_abs_self x).trans hxa
  nlinarith [s.2, mul_le_mul_of_nonneg_left hxa hv]

/-- **C154** The same for `cluster_coeff_distbn`, under every schedule of the parallel distance kernel: with at most `N` linked
pairs of neighbours it is accurate, and it is in `[0, 1]` in any case. -/
theorem C154_distbn (hu : 0 ≤ u) (hu1 : u < 1) (hv : 0 ≤ v) (hv1 : v < 1) (hN : 1 ≤ N) (ps : List P4) (pseudo : Bool)
    (tol radius : ℝ) (init : Nat × Nat → Fl) (tr : List Write)
    (h : Interleave (deltaRLoop true (cloudOf pseudo tol ps) (cloudOf pseudo tol ps)) tr) :
    ∃ adj : Fin ps.length → Fin ps.length → Bool,
      (∀ i j, adj i j = true ↔ i ≠ j ∧ ∃ d, deltaRCell
          (if pseudo then ps[i].eta else ps[i].rapidity tol)
          (if pseudo then ps[j].eta else ps[j].rapidity tol) ps[i].xyPol ps[j].xyPol = .fin d ∧ d < radius) ∧
      ∀ i, 0 ≤ clusterCoeffDistbn32 C ps radius init tr i ∧ clusterCoeffDistbn32 C ps radius init tr i ≤ 1 ∧
        ((linkedPairs adj i).card ≤ N →
          |clusterCoeffDistbn32 C ps radius init tr i - (clusterCoeffDistbn ps radius init tr i : ℝ)| ≤
            ((1 + u) * (1 + v) - 1) * (clusterCoeffDistbn ps radius init tr i : ℝ)) := by
  have hdiag : ∀ i : Fin ps.length, radiusAdj ps.length (runWrites init tr) radius i i = false := by
    intro i; simp [radiusAdj, fillDiagonal]
  refine ⟨radiusAdj ps.length (runWrites init tr) radius, radiusAdj_iff ps pseudo tol radius init tr h, fun i => ?_⟩
  have r := C154_range hC hu1 hv1 hN _ hdiag i
  exact ⟨r.1, r.2.1, fun hc => C154_accurate hC hu hv _ hdiag i hc⟩

end

/-- **C154** With exact arithmetic these are the coefficients of C73. -/
theorem C154_exact {n : Nat} (adj : Arr2 n n Bool) (hd : ∀ i, adj i i = false) (i : Fin n) :
    clustCoeff32 .exact adj i = (clustCoeffs adj i : ℝ) := by
  have key : ∀ (bs : List Bool) (m : ℝ), bs.foldl (fun acc b => Arith32.exact.add acc (if b then 1 else 0)) m =
      m + (bs.count true : ℝ) := by
    intro bs
    induction bs with
    | nil => intro m; simp
    | cons b bs ih =>
      intro m
      rw [List.foldl_cons, ih]
      cases b
      · simp [Arith32.exact]
      · simp [Arith32.exact]; ring
  rw [C73_value adj hd i]
  unfold clustCoeff32
  simp only [length_filter_finRange]
  change (if (neighbours adj i).card < 2 then (0 : ℝ) else _) = _
  split
  · simp
  next h =>
  unfold count32
  rw [key, count_linked adj hd i]
  unfold neighbourPairs
  rw [Finset.offDiag_card]
  change (0 + ((linkedPairs adj i).card : ℝ)) /
    (((((neighbours adj i).card : Int) * (((neighbours adj i).card : Int) - 1) : Int)) : ℝ) = _
  push_cast [Nat.cast_sub (Nat.le_mul_self (neighbours adj i).card)]
  ring

/-- Exact up to `N` and stuck there: single precision with `N = 2 ^ 24` counts like this. -/
noncomputable def stuckAt (N : Nat) : Arith32 := ⟨fun x y => min (x + y) N, fun x y => x / y, fun x => x⟩

theorem stuckAt_counts (N : Nat) : CountsTo N 0 0 (stuckAt N) where
  add_zero m h := by simpa [stuckAt] using h
  add_one m h := by
    show min ((m : ℝ) + 1) N = _
    exact min_eq_left (by exact_mod_cast h)
  stuck := by simp [stuckAt]
  div x y _ := by simp [stuckAt]
  div_le x x' y hy h := div_le_div_of_nonneg_right h hy.le
  div_self y h := div_self h
  single x := by simp [stuckAt]
  single_le x x' h := h
  single_one := rfl

/-- Ten thousand particles close to each other: the coefficients computed are below 0.17. -/
example (i : Fin 10001) : clustCoeff32 (stuckAt (2 ^ 24)) (fun a b : Fin 10001 => decide (a ≠ b)) i ≤ 0.17 := by
  refine (C154_false (stuckAt_counts _) le_rfl le_rfl 10000 (by norm_num) (by norm_num) i).2.trans ?_
  norm_num

end Gcl
