import Verif.Spec.Assign
import Verif.Props.DeltaR
import Verif.Lemmas.Momentum
import Mathlib.Data.Set.Finite.List
/-!
# C57, C59: `arg_closest`
-/
namespace Gcl
set_option autoImplicit false
open Real Spec

/-! ## Variance and costs -/

theorem sum_sq_dev (l : List ℝ) (μ : ℝ) :
    (l.map (fun x => (x - μ) ^ 2)).sum = (l.map (fun x => x ^ 2)).sum - 2 * μ * l.sum + l.length * μ ^ 2 := by
  induction l with
  | nil => simp
  | cons x l ih =>
    simp only [List.map_cons, List.sum_cons, List.length_cons, ih]
    push_cast; ring

theorem variance_eq (l : List ℝ) : variance l = popVar l := by
  unfold variance popVar
  dsimp only
  rw [sum_sq_dev]
  by_cases h : (l.length : ℝ) = 0
  · simp [h]
  · field_simp
    ring

theorem popVar_nonneg (l : List ℝ) : 0 ≤ popVar l := by
  rw [← variance_eq]
  unfold variance
  apply div_nonneg _ (Nat.cast_nonneg _)
  apply List.sum_nonneg
  intro x hx
  obtain ⟨y, _, rfl⟩ := List.mem_map.1 hx
  positivity

theorem allFin_map {α : Type} (l : List α) (f : α → ℝ) :
    allFin (l.map (fun x => Fl.fin (f x))) = some (l.map f) := by
  induction l with
  | nil => rfl
  | cons x l ih => simp [allFin, ih]

theorem varRecip_fin {α : Type} (l : List α) (f : α → ℝ) (hv : popVar (l.map f) ≠ 0) :
    varRecip (l.map (fun x => Fl.fin (f x))) = .ok (.fin (1 / popVar (l.map f))) := by
  unfold varRecip
  rw [allFin_map]
  cases h : l.map f with
  | nil => rw [h] at hv; simp [popVar] at hv
  | cons y ys => rw [h] at hv; simp [variance_eq, hv]

theorem varRecip_zero {α : Type} (l : List α) (f : α → ℝ) (hne : l ≠ []) (hv : popVar (l.map f) = 0) :
    varRecip (l.map (fun x => Fl.fin (f x))) = .error .zeroDivisionError := by
  unfold varRecip
  rw [allFin_map]
  cases h : l.map f with
  | nil => simp at h; exact absurd h hne
  | cons y ys => rw [h] at hv; simp [variance_eq, hv]

theorem norm_xyPol (p : P4) : ‖p.xyPol‖ = p.pt := rfl

/-! ## The matrix -/

theorem cloud_zip (tol : ℝ) (ps : List P4) :
    (ps.map (P4.rapidity tol)).zip (ps.map P4.xyPol) = cloudOf false tol ps := by
  rw [List.zip_map', cloudOf]
  simp

/-- The distances before they are replaced by costs. -/
theorem dist_mem (tol : ℝ) (sched : List (List Write) → List Write) (hs : IsSchedule sched)
    (init : Nat × Nat → Fl) (ps qs : List P4) (i j : Nat) (p q : P4) (hp : ps[i]? = some p)
    (hq : qs[j]? = some q) :
    runWrites init (sched (deltaRLoop false (cloudOf false tol ps) (cloudOf false tol qs))) (i, j) =
      deltaRCell (p.rapidity tol) (q.rapidity tol) p.xyPol q.xyPol := by
  have := (C66_schedule false (cloudOf false tol ps) (cloudOf false tol qs) (by simp) _
    (hs _) init).2.2.1 i j (p.rapidity tol, p.xyPol) (q.rapidity tol, q.xyPol)
    (by simp [cloudOf, hp]) (by simp [cloudOf, hq])
  simpa using this

/-- The cells iteration `i` writes and their values. -/
theorem costIter_spec {mem : Nat × Nat → Fl} {pt2 : List Fl} {vr : Fl} {i : Nat} {pt1 : ℝ}
    {w : List Write} {vd : Fl} (hvd : varRecip (rowOf mem pt2.length i) = .ok vd)
    (h : costIter mem pt2 vr i pt1 = .ok w) :
    w.map Prod.fst = (List.range pt2.length).map (fun j => (i, j)) ∧
    ∀ (j : Nat) (x : Fl), pt2[j]? = some x →
      ((i, j), negSum (gaussCost vd (mem (i, j))) (gaussCost vr ((Fl.fin pt1).sub x))) ∈ w := by
  unfold costIter at h
  simp only [hvd] at h
  injection h with h
  subst h
  have hl : ((rowOf mem pt2.length i).zip pt2).length = pt2.length := by simp [rowOf]
  constructor
  · rw [List.map_map]
    apply List.ext_getElem
    · simp [rowOf]
    · intro k h1 h2
      simp
  · intro j x hx
    have hj := (List.getElem?_eq_some_iff.1 hx).1
    refine List.mem_map.2 ⟨((mem (i, j), x), j), ?_, rfl⟩
    rw [List.mem_iff_getElem?]
    refine ⟨j, ?_⟩
    rw [List.getElem?_zipIdx]
    have : ((rowOf mem pt2.length i).zip pt2)[j]? = some (mem (i, j), x) := by
      rw [List.getElem?_zip_eq_some]
      exact ⟨by simp [rowOf, hj], hx⟩
    simp [this]

theorem costIter_err {mem : Nat × Nat → Fl} {pt2 : List Fl} {vr : Fl} {i : Nat} {pt1 : ℝ} :
    (∃ w, costIter mem pt2 vr i pt1 = .ok w) ↔ ∃ vd, varRecip (rowOf mem pt2.length i) = .ok vd := by
  unfold costIter
  cases h : varRecip (rowOf mem pt2.length i) <;> simp [h]

/-- All iterations together: distinct cells, and the value of each. -/
theorem costIters_spec (mem : Nat × Nat → Fl) (pt2 : List Fl) (vr : Fl) (ps : List P4) (i0 : Nat)
    (vd : Nat → Fl)
    (hvd : ∀ k : Nat, k < ps.length → varRecip (rowOf mem pt2.length (i0 + k)) = .ok (vd (i0 + k))) :
    ∃ its, costIters mem pt2 vr i0 ps = .ok its ∧
      (its.flatten.map Prod.fst).Nodup ∧
      (∀ w ∈ its.flatten, i0 ≤ w.1.1) ∧
      ∀ (k j : Nat) (p : P4) (x : Fl), ps[k]? = some p → pt2[j]? = some x →
        ((i0 + k, j), negSum (gaussCost (vd (i0 + k)) (mem (i0 + k, j)))
          (gaussCost vr ((Fl.fin p.pt).sub x))) ∈ its.flatten := by
  induction ps generalizing i0 with
  | nil => exact ⟨[], rfl, by simp, by simp, by simp⟩
  | cons p ps ih =>
    have h0 : varRecip (rowOf mem pt2.length i0) = .ok (vd i0) := by simpa using hvd 0 (by simp)
    obtain ⟨w, hw⟩ := (costIter_err (mem := mem) (pt2 := pt2) (vr := vr) (i := i0) (pt1 := ‖p.xyPol‖)).2
      ⟨_, h0⟩
    obtain ⟨hw1, hw2⟩ := costIter_spec h0 hw
    obtain ⟨its, e, n1, n2, n3⟩ := ih (i0 + 1) (fun k hk => by
      have := hvd (k + 1) (by simp; omega)
      rwa [show i0 + (k + 1) = i0 + 1 + k by omega] at this)
    refine ⟨w :: its, by simp only [costIters, hw, e], ?_, ?_, ?_⟩
    · rw [List.flatten_cons, List.map_append, List.nodup_append]
      refine ⟨?_, n1, ?_⟩
      · rw [hw1]
        exact List.nodup_range.map (fun a b h => (Prod.mk.inj h).2)
      · intro a ha b hb hab
        subst hab
        rw [hw1] at ha
        obtain ⟨j, _, rfl⟩ := List.mem_map.1 ha
        obtain ⟨c, hc, hc'⟩ := List.mem_map.1 hb
        have := n2 c hc
        rw [hc'] at this
        simp at this
    · intro c hc
      rw [List.flatten_cons, List.mem_append] at hc
      rcases hc with hc | hc
      · have : c.1 ∈ w.map Prod.fst := List.mem_map.2 ⟨c, hc, rfl⟩
        rw [hw1] at this
        obtain ⟨j, _, hj⟩ := List.mem_map.1 this
        rw [← hj]
      · have := n2 c hc; omega
    · intro k j p' x hp hx
      rw [List.flatten_cons, List.mem_append]
      cases k with
      | zero =>
        left
        simp only [List.getElem?_cons_zero, Option.some.injEq] at hp
        subst hp
        have := hw2 j x hx
        rw [norm_xyPol] at this
        simpa using this
      | succ k =>
        right
        have := n3 k j p' x (by simpa using hp) hx
        rwa [show i0 + 1 + k = i0 + (k + 1) by omega] at this

theorem schedule_mem {sched : List (List Write) → List Write} (hs : IsSchedule sched)
    {its : List (List Write)} (hn : (its.flatten.map Prod.fst).Nodup) {mem : Nat × Nat → Fl}
    {c : Nat × Nat} {v : Fl} (h : (c, v) ∈ its.flatten) : runWrites mem (sched its) c = v := by
  have hp := interleave_perm (hs its)
  exact runWrites_mem mem c v ((hp.map _).nodup_iff.2 hn) (hp.mem_iff.2 h)

theorem gauss_eq (v x : ℝ) : Real.exp (-0.5 * (1 / v) * x * x) = Real.exp (-x ^ 2 / (2 * v)) := by
  congr 1
  by_cases hv : v = 0
  · simp [hv]
  · field_simp; ring

/-- The kernel, when all distances are finite and no variance vanishes. -/
theorem assignmentCost_spec (tol : ℝ) (sched : List (List Write) → List Write) (hs : IsSchedule sched)
    (init : Nat × Nat → Fl) (ps qs : List P4) (D : Nat → Nat → ℝ)
    (hD : ∀ (i j : Nat) (p q : P4), ps[i]? = some p → qs[j]? = some q →
      deltaRCell (p.rapidity tol) (q.rapidity tol) p.xyPol q.xyPol = .fin (D i j))
    (hpt : popVar (qs.map P4.pt) ≠ 0)
    (hrow : ∀ i : Nat, i < ps.length → popVar ((List.range qs.length).map (D i)) ≠ 0) :
    ∃ mem, assignmentCost sched init (ps.map (P4.rapidity tol)) (qs.map (P4.rapidity tol)) ps qs =
        (.ok mem, qs.map (fun q => .fin q.pt)) ∧
      (List.range ps.length).map (rowOf mem qs.length) =
        matrixOf ps.length qs.length
          (assignCost D (fun i => (ps.map P4.pt).getD i 0) (fun j => (qs.map P4.pt).getD j 0) qs.length) := by
  set mem0 := runWrites init (sched (deltaRLoop false (cloudOf false tol ps) (cloudOf false tol qs)))
    with hmem0
  have hd : ∀ i j : Nat, i < ps.length → j < qs.length → mem0 (i, j) = .fin (D i j) := by
    intro i j hi hj
    rw [hmem0, dist_mem tol sched hs init ps qs i j ps[i] qs[j] (by simp) (by simp)]
    exact hD i j _ _ (by simp) (by simp)
  have hrowOf : ∀ i : Nat, i < ps.length →
      rowOf mem0 qs.length i = (List.range qs.length).map (fun j => Fl.fin (D i j)) := by
    intro i hi
    unfold rowOf
    apply List.map_congr_left
    intro j hj
    exact hd i j hi (List.mem_range.1 hj)
  have hvp := varRecip_fin qs P4.pt hpt
  obtain ⟨its, e, n1, n2, n3⟩ := costIters_spec mem0 (qs.map (fun q => Fl.fin q.pt))
    (.fin (1 / popVar (qs.map P4.pt))) ps 0
    (fun i => .fin (1 / popVar ((List.range qs.length).map (D i)))) (by
      intro k hk
      rw [Nat.zero_add, List.length_map, hrowOf k hk]
      exact varRecip_fin _ (D k) (hrow k hk))
  refine ⟨runWrites mem0 (sched its), ?_, ?_⟩
  · unfold assignmentCost
    simp only [cloud_zip, norm_xyPol, ← hmem0, hvp, e]
  · unfold matrixOf
    apply List.map_congr_left
    intro i hi
    have hi := List.mem_range.1 hi
    unfold rowOf
    apply List.map_congr_left
    intro j hj
    have hj := List.mem_range.1 hj
    have := n3 i j ps[i] (.fin qs[j].pt) (by simp) (by simp [hj])
    rw [Nat.zero_add] at this
    rw [schedule_mem hs n1 this, hd i j hi hj]
    simp only [gaussCost, Fl.sub, negSum, gauss_eq, assignCost]
    congr 1
    have e1 : (ps.map P4.pt).getD i 0 = ps[i].pt := by simp [List.getD_eq_getElem?_getD, hi]
    have e2 : (qs.map P4.pt).getD j 0 = qs[j].pt := by simp [List.getD_eq_getElem?_getD, hj]
    have e3 : (List.range qs.length).map (fun j => (qs.map P4.pt).getD j 0) = qs.map P4.pt := by
      apply List.ext_getElem?
      intro k
      by_cases hk : k < qs.length
      · simp [List.getD_eq_getElem?_getD, hk]
      · rw [List.getElem?_eq_none (by simpa using hk), List.getElem?_eq_none (by simpa using hk)]
    rw [e1, e2, e3]
    ring

/-! ## The heap -/

theorem readRapidity_spec (tol : ℝ) (h : Heap) (o : Nat) (hc : Coherent tol (h o)) :
    (readRapidity tol h o).1 = (h o).data.map (P4.rapidity tol) ∧
    (∀ o', ((readRapidity tol h o).2 o').data = (h o').data) ∧
    (∀ o', o' ≠ o → (readRapidity tol h o).2 o' = h o') ∧
    (∀ o', Coherent tol (h o') → Coherent tol ((readRapidity tol h o).2 o')) := by
  unfold readRapidity
  rcases hc with hc | hc
  · simp only [hc]
    refine ⟨trivial, ?_, ?_, ?_⟩
    · intro o'; unfold Heap.put; split
      · next e => rw [e]
      · rfl
    · intro o' ho; simp [Heap.put, ho]
    · intro o' ho; unfold Heap.put; split
      · exact Or.inr rfl
      · exact ho
  · simp only [hc]
    exact ⟨trivial, fun _ => trivial, fun _ _ => trivial, fun _ h => h⟩

/-- Assignments of as many rows as there are use all rows in order. -/
theorem rows_eq_range {n m : Nat} {rows cols : List Nat} (h : Assignment n m rows cols) (hnm : n ≤ m) :
    rows = List.range n := by
  obtain ⟨h1, _, h3, h4, _⟩ := h
  rw [Nat.min_eq_left hnm] at h1
  have hs : rows.Sublist (List.range n) := by
    exact List.sublist_of_subperm_of_pairwise
      (List.subperm_of_subset (h3.imp (fun h => Nat.ne_of_lt h)) (fun i hi => List.mem_range.2 (h4 i hi)))
      h3 List.pairwise_lt_range
  exact hs.eq_of_length (by simp [h1])

/-- **C57** When no variance vanishes and the distances are finite (these are exactly the cases in which a
result is returned, see `C57_returns_iff`):
`arg_closest` gives the candidates of an assignment of distinct candidates to as many focus elements as
possible such that no other assignment costs less; with at least as many candidates as focus elements,
entry `i` belongs to focus `i` and there are as many entries as focus elements.  This holds for every
schedule of the parallel loops and also if both arguments are the same object. -/
theorem C57_assignment (limit : Int) (sched : List (List Write) → List Write)
    (hs : IsSchedule sched) (init : Nat × Nat → Fl) (lsa : List (List Fl) → Py (List Nat))
    (hlsa : IsLSA lsa) (tol : ℝ) (h : Heap) (focus candidate : Nat) (threads : Int)
    (hf : Coherent tol (h focus)) (hc : Coherent tol (h candidate))
    (ht : 1 ≤ threads ∧ threads ≤ limit) (ps qs : List P4) (hps : (h focus).data = ps)
    (hqs : (h candidate).data = qs) (D : Nat → Nat → ℝ)
    (hD : ∀ (i j : Nat) (p q : P4), ps[i]? = some p → qs[j]? = some q →
      deltaRCell (p.rapidity tol) (q.rapidity tol) p.xyPol q.xyPol = .fin (D i j))
    (hpt : popVar (qs.map P4.pt) ≠ 0)
    (hrow : ∀ i : Nat, i < ps.length → popVar ((List.range qs.length).map (D i)) ≠ 0) :
    ∃ rows cols,
      (argClosest limit sched init lsa tol h focus candidate threads).1 = .ok cols ∧
      Assignment ps.length qs.length rows cols ∧
      Optimal ps.length qs.length (assignCost D (fun i => (ps.map P4.pt).getD i 0)
        (fun j => (qs.map P4.pt).getD j 0) qs.length) rows cols ∧
      (ps.length ≤ qs.length → rows = List.range ps.length ∧ cols.length = ps.length) := by
  obtain ⟨r1, r2, r3, r4⟩ := readRapidity_spec tol h focus hf
  obtain ⟨s1, s2, s3, s4⟩ := readRapidity_spec tol (readRapidity tol h focus).2 candidate (r4 _ hc)
  obtain ⟨mem, k1, k2⟩ := assignmentCost_spec tol sched hs init ps qs D hD hpt hrow
  obtain ⟨rows, cols, l1, l2, l3⟩ := hlsa.1 ps.length qs.length (assignCost D
    (fun i => (ps.map P4.pt).getD i 0) (fun j => (qs.map P4.pt).getD j 0) qs.length)
  refine ⟨rows, cols, ?_, l2, l3, fun hnm => ⟨rows_eq_range l2 hnm, ?_⟩⟩
  · unfold argClosest
    simp only [setNumThreads, ht, and_self, if_true, r1, s1, s2, r2, hps, hqs, k1, k2, l1]
  · rw [l2.2.1, Nat.min_eq_left hnm]

/-- **C57** Costs lie in `[0, 2)`, and are zero exactly when candidate and focus agree in position and
transverse momentum. -/
theorem C57_cost (D : Nat → Nat → ℝ) (pt1 pt2 : Nat → ℝ) (m i j : Nat)
    (hpt : popVar ((List.range m).map pt2) ≠ 0) (hrow : popVar ((List.range m).map (D i)) ≠ 0) :
    0 ≤ assignCost D pt1 pt2 m i j ∧ assignCost D pt1 pt2 m i j < 2 ∧
    (assignCost D pt1 pt2 m i j = 0 ↔ D i j = 0 ∧ pt1 i = pt2 j) := by
  have h1 := lt_of_le_of_ne (popVar_nonneg _) hpt.symm
  have h2 := lt_of_le_of_ne (popVar_nonneg _) hrow.symm
  unfold assignCost
  set v1 := popVar ((List.range m).map pt2)
  set v2 := popVar ((List.range m).map (D i))
  have key : ∀ (x v : ℝ), 0 < v → 0 ≤ 1 - Real.exp (-x ^ 2 / (2 * v)) ∧ 1 - Real.exp (-x ^ 2 / (2 * v)) < 1 ∧
      (1 - Real.exp (-x ^ 2 / (2 * v)) = 0 ↔ x = 0) := by
    intro x v hv
    have hle : -x ^ 2 / (2 * v) ≤ 0 := div_nonpos_of_nonpos_of_nonneg (by nlinarith [sq_nonneg x]) (by linarith)
    refine ⟨by linarith [Real.exp_le_one_iff.2 hle], by linarith [Real.exp_pos (-x ^ 2 / (2 * v))], ?_⟩
    constructor
    · intro h
      have : Real.exp (-x ^ 2 / (2 * v)) = 1 := by linarith
      rw [Real.exp_eq_one_iff, div_eq_zero_iff] at this
      rcases this with h | h
      · have : x ^ 2 = 0 := by linarith
        exact pow_eq_zero_iff (two_ne_zero) |>.1 this
      · linarith
    · rintro rfl; simp
  obtain ⟨a1, a2, a3⟩ := key (D i j) v2 h2
  obtain ⟨b1, b2, b3⟩ := key (pt1 i - pt2 j) v1 h1
  refine ⟨by linarith, by linarith, ?_⟩
  rw [← sub_eq_zero (a := pt1 i), ← a3, ← b3]
  constructor
  · intro h; constructor <;> linarith
  · rintro ⟨h, h'⟩; linarith

/-- **C57** The costs grow with the distance and with the difference in transverse momentum. -/
theorem C57_cost_mono (D : Nat → Nat → ℝ) (pt1 pt2 : Nat → ℝ) (m i j j' : Nat)
    (hpt : popVar ((List.range m).map pt2) ≠ 0) (hrow : popVar ((List.range m).map (D i)) ≠ 0)
    (hd : |D i j| ≤ |D i j'|) (hp : |pt1 i - pt2 j| ≤ |pt1 i - pt2 j'|) :
    assignCost D pt1 pt2 m i j ≤ assignCost D pt1 pt2 m i j' := by
  have h1 := lt_of_le_of_ne (popVar_nonneg _) hpt.symm
  have h2 := lt_of_le_of_ne (popVar_nonneg _) hrow.symm
  unfold assignCost
  have e1 : -(D i j') ^ 2 / (2 * popVar ((List.range m).map (D i))) ≤
      -(D i j) ^ 2 / (2 * popVar ((List.range m).map (D i))) := by
    apply div_le_div_of_nonneg_right _ (by linarith)
    have := sq_le_sq.2 hd; linarith
  have e2 : -(pt1 i - pt2 j') ^ 2 / (2 * popVar ((List.range m).map pt2)) ≤
      -(pt1 i - pt2 j) ^ 2 / (2 * popVar ((List.range m).map pt2)) := by
    apply div_le_div_of_nonneg_right _ (by linarith)
    have := sq_le_sq.2 hp; linarith
  linarith [Real.exp_le_exp.2 e1, Real.exp_le_exp.2 e2]

/-- **C57** If the candidates all have the same transverse momentum, in particular for a single candidate:
`ZeroDivisionError`. -/
theorem C57_equal_pt (limit : Int) (sched : List (List Write) → List Write)
    (init : Nat × Nat → Fl) (lsa : List (List Fl) → Py (List Nat)) (tol : ℝ) (h : Heap)
    (focus candidate : Nat) (threads : Int) (ht : 1 ≤ threads ∧ threads ≤ limit)
    (hf : Coherent tol (h focus)) (hc : Coherent tol (h candidate))
    (hne : (h candidate).data ≠ []) (x : ℝ) (heq : ∀ q ∈ (h candidate).data, q.pt = x) :
    (argClosest limit sched init lsa tol h focus candidate threads).1 = .error .zeroDivisionError := by
  obtain ⟨r1, r2, r3, r4⟩ := readRapidity_spec tol h focus hf
  obtain ⟨s1, s2, s3, s4⟩ := readRapidity_spec tol (readRapidity tol h focus).2 candidate (r4 _ hc)
  have hv : popVar ((h candidate).data.map P4.pt) = 0 := by
    have : (h candidate).data.map P4.pt = List.replicate (h candidate).data.length x := by
      rw [List.eq_replicate_iff]
      exact ⟨by simp, fun b hb => by obtain ⟨q, hq, rfl⟩ := List.mem_map.1 hb; exact heq q hq⟩
    rw [this]
    have hl : ((h candidate).data.length : ℝ) ≠ 0 := by
      simpa using hne
    unfold popVar
    simp only [List.map_replicate, List.sum_replicate, List.length_replicate, nsmul_eq_mul]
    field_simp
    ring
  have hz := varRecip_zero _ _ hne hv
  unfold argClosest assignmentCost
  simp only [setNumThreads, ht, and_self, if_true, s2, r2, norm_xyPol, hz]

/-! ### Whenever it returns -/

theorem allFin_eq {l : List Fl} {xs : List ℝ} (h : allFin l = some xs) : l = xs.map Fl.fin := by
  induction l generalizing xs with
  | nil => simp [allFin] at h; simp [h]
  | cons a l ih =>
    cases a with
    | fin x =>
      simp only [allFin] at h
      cases hr : allFin l with
      | none => simp [hr] at h
      | some ys =>
        simp only [hr, Option.some.injEq] at h
        subst h
        simp [ih hr]
    | pinf => simp [allFin] at h
    | ninf => simp [allFin] at h
    | nan => simp [allFin] at h

theorem varRecip_ok {l : List Fl} {v : Fl} (h : varRecip l = .ok v) :
    v = .nan ∨ ∃ xs, l = xs.map Fl.fin ∧ popVar xs ≠ 0 := by
  unfold varRecip at h
  split at h
  · injection h with h; exact Or.inl h.symm
  · injection h with h; exact Or.inl h.symm
  · next xs _ hx =>
    split at h
    · cases h
    · next hv => exact Or.inr ⟨xs, allFin_eq hx, by rwa [← variance_eq]⟩

theorem costIters_rows {mem : Nat × Nat → Fl} {pt2 : List Fl} {vr : Fl} {ps : List P4} {i0 : Nat}
    {its : List (List Write)} (h : costIters mem pt2 vr i0 ps = .ok its) (k : Nat) (hk : k < ps.length) :
    ∃ vd, varRecip (rowOf mem pt2.length (i0 + k)) = .ok vd := by
  induction ps generalizing i0 its k with
  | nil => simp at hk
  | cons p ps ih =>
    unfold costIters at h
    cases hw : costIter mem pt2 vr i0 ‖p.xyPol‖ with
    | error e => simp [hw] at h
    | ok w =>
      simp only [hw] at h
      cases hr : costIters mem pt2 vr (i0 + 1) ps with
      | error e => simp [hr] at h
      | ok ws =>
        cases k with
        | zero => exact costIter_err.1 ⟨w, hw⟩
        | succ k =>
          have := ih hr k (by simpa using hk)
          rwa [show i0 + 1 + k = i0 + (k + 1) by omega] at this

/-- **C57** Whenever `arg_closest` returns (and there are candidates), all distances were finite, no
variance vanished, and the result is an optimal assignment; entry `i` belongs to focus `i` if there are at
least as many candidates as focus elements. -/
theorem C57_returns (limit : Int) (sched : List (List Write) → List Write)
    (hs : IsSchedule sched) (init : Nat × Nat → Fl) (lsa : List (List Fl) → Py (List Nat))
    (hlsa : IsLSA lsa) (tol : ℝ) (h : Heap) (focus candidate : Nat) (threads : Int)
    (hf : Coherent tol (h focus)) (hc : Coherent tol (h candidate))
    (ps qs : List P4) (hps : (h focus).data = ps) (hqs : (h candidate).data = qs) (hne : qs ≠ [])
    (cols : List Nat)
    (hres : (argClosest limit sched init lsa tol h focus candidate threads).1 = .ok cols) :
    ∃ (D : Nat → Nat → ℝ) (rows : List Nat),
      (∀ (i j : Nat) (p q : P4), ps[i]? = some p → qs[j]? = some q →
        deltaRCell (p.rapidity tol) (q.rapidity tol) p.xyPol q.xyPol = .fin (D i j)) ∧
      popVar (qs.map P4.pt) ≠ 0 ∧
      (∀ i : Nat, i < ps.length → popVar ((List.range qs.length).map (D i)) ≠ 0) ∧
      Assignment ps.length qs.length rows cols ∧
      Optimal ps.length qs.length (assignCost D (fun i => (ps.map P4.pt).getD i 0)
        (fun j => (qs.map P4.pt).getD j 0) qs.length) rows cols ∧
      (ps.length ≤ qs.length → rows = List.range ps.length ∧ cols.length = ps.length) := by
  have ht : 1 ≤ threads ∧ threads ≤ limit := by
    by_contra hth
    unfold argClosest at hres
    simp [setNumThreads, hth] at hres
  have hcond : ∃ D : Nat → Nat → ℝ, (∀ (i j : Nat) (p q : P4), ps[i]? = some p → qs[j]? = some q →
        deltaRCell (p.rapidity tol) (q.rapidity tol) p.xyPol q.xyPol = .fin (D i j)) ∧
      popVar (qs.map P4.pt) ≠ 0 ∧
      (∀ i : Nat, i < ps.length → popVar ((List.range qs.length).map (D i)) ≠ 0) := by
    obtain ⟨r1, r2, r3, r4⟩ := readRapidity_spec tol h focus hf
    obtain ⟨s1, s2, s3, s4⟩ := readRapidity_spec tol (readRapidity tol h focus).2 candidate (r4 _ hc)
    unfold argClosest at hres
    simp only [setNumThreads, ht, and_self, if_true, r1, s1, s2, r2, hps, hqs] at hres
    unfold assignmentCost at hres
    simp only [cloud_zip, norm_xyPol] at hres
    set mem0 := runWrites init (sched (deltaRLoop false (cloudOf false tol ps) (cloudOf false tol qs)))
      with hmem0
    have hpt : popVar (qs.map P4.pt) ≠ 0 := by
      intro hv
      rw [varRecip_zero qs P4.pt hne hv] at hres
      simp at hres
    simp only [varRecip_fin qs P4.pt hpt] at hres
    cases hits : costIters mem0 (qs.map (fun q => Fl.fin q.pt)) (.fin (1 / popVar (qs.map P4.pt))) 0 ps with
    | error e => simp only [hits] at hres; cases hres
    | ok its =>
      simp only [hits] at hres
      have hrows := costIters_rows hits
      have : Nonempty Fl := ⟨.nan⟩
      choose! vd hvd using hrows
      obtain ⟨its', e, n1, n2, n3⟩ := costIters_spec mem0 (qs.map (fun q => Fl.fin q.pt))
        (.fin (1 / popVar (qs.map P4.pt))) ps 0 vd (by simpa using hvd)
      rw [hits] at e
      injection e with e
      subst e
      have hrow : ∀ i : Nat, i < ps.length → ∃ xs, rowOf mem0 qs.length i = xs.map Fl.fin ∧ popVar xs ≠ 0 := by
        intro i hi
        have hv := hvd i hi
        rw [Nat.zero_add, List.length_map] at hv
        rcases varRecip_ok hv with hnan | hx
        · exfalso
          have h0 : 0 < qs.length := List.length_pos_of_ne_nil hne
          have hcell := n3 i 0 ps[i] (.fin qs[0].pt) (by simp) (by simp [h0])
          have hmem := schedule_mem hs n1 (mem := mem0) hcell
          rw [Nat.zero_add, hnan] at hmem
          rw [hlsa.2] at hres
          · cases hres
          · refine ⟨rowOf (runWrites mem0 (sched its)) qs.length i,
              List.mem_map.2 ⟨i, List.mem_range.2 hi, rfl⟩, ?_⟩
            exact List.mem_map.2 ⟨0, List.mem_range.2 h0, by rw [hmem]; rfl⟩
        · exact hx
      choose! X hX using hrow
      have hXl : ∀ i, i < ps.length → (X i).length = qs.length := by
        intro i hi
        have := congrArg List.length (hX i hi).1
        simpa [rowOf] using this.symm
      refine ⟨fun i j => (X i).getD j 0, ?_, hpt, ?_⟩
      · intro i j p q hp hq
        have hi := (List.getElem?_eq_some_iff.1 hp).1
        have hj := (List.getElem?_eq_some_iff.1 hq).1
        have hd := dist_mem tol sched hs init ps qs i j p q hp hq
        rw [← hd, ← hmem0]
        have := congrArg (fun l => l[j]?) (hX i hi).1
        have hjx : j < (X i).length := by rw [hXl i hi]; exact hj
        simpa [rowOf, hj, hjx, List.getD_eq_getElem?_getD] using this
      · intro i hi
        have : (List.range qs.length).map (fun j => (X i).getD j 0) = X i := by
          apply List.ext_getElem?
          intro k
          by_cases hk : k < qs.length
          · have hkx : k < (X i).length := by rw [hXl i hi]; exact hk
            simp [hk, hkx, List.getD_eq_getElem?_getD]
          · rw [List.getElem?_eq_none (by simpa using hk), List.getElem?_eq_none (by rw [hXl i hi]; omega)]
        show popVar ((List.range qs.length).map (fun j => (X i).getD j 0)) ≠ 0
        rw [this]
        exact (hX i hi).2
  obtain ⟨D, hD, hpt, hrow⟩ := hcond
  obtain ⟨rows, cols', e, a, o, l⟩ := C57_assignment limit sched hs init lsa hlsa tol h focus candidate
    threads hf hc ht ps qs hps hqs D hD hpt hrow
  rw [hres] at e
  injection e with e
  subst e
  exact ⟨D, rows, hD, hpt, hrow, a, o, l⟩

/-- **C57** Exactly when a result is returned, for a nonempty set of candidates: the number of threads is
admissible, all distances are finite, and neither the transverse momenta of the candidates nor the distances of
any focus element to them are all equal. -/
theorem C57_returns_iff (limit : Int) (sched : List (List Write) → List Write)
    (hs : IsSchedule sched) (init : Nat × Nat → Fl) (lsa : List (List Fl) → Py (List Nat))
    (hlsa : IsLSA lsa) (tol : ℝ) (h : Heap) (focus candidate : Nat) (threads : Int)
    (hf : Coherent tol (h focus)) (hc : Coherent tol (h candidate))
    (ps qs : List P4) (hps : (h focus).data = ps) (hqs : (h candidate).data = qs) (hne : qs ≠ []) :
    (∃ cols, (argClosest limit sched init lsa tol h focus candidate threads).1 = .ok cols) ↔
      (1 ≤ threads ∧ threads ≤ limit) ∧ ∃ D : Nat → Nat → ℝ,
        (∀ (i j : Nat) (p q : P4), ps[i]? = some p → qs[j]? = some q →
          deltaRCell (p.rapidity tol) (q.rapidity tol) p.xyPol q.xyPol = .fin (D i j)) ∧
        popVar (qs.map P4.pt) ≠ 0 ∧
        ∀ i : Nat, i < ps.length → popVar ((List.range qs.length).map (D i)) ≠ 0 := by
  constructor
  · rintro ⟨cols, hres⟩
    obtain ⟨D, rows, hD, hpt, hrow, -⟩ := C57_returns limit sched hs init lsa hlsa tol h focus candidate threads
      hf hc ps qs hps hqs hne cols hres
    refine ⟨?_, D, hD, hpt, hrow⟩
    by_contra hth
    unfold argClosest at hres
    simp [setNumThreads, hth] at hres
  · rintro ⟨ht, D, hD, hpt, hrow⟩
    obtain ⟨rows, cols, e, -⟩ := C57_assignment limit sched hs init lsa hlsa tol h focus candidate threads
      hf hc ht ps qs hps hqs D hD hpt hrow
    exact ⟨cols, e⟩

/-- **C57** A list of numbers has variance zero exactly when all are equal. -/
theorem C57_equal (l : List ℝ) : popVar l = 0 ↔ ∀ x ∈ l, ∀ y ∈ l, x = y := by
  rw [← variance_eq]
  unfold variance
  dsimp only
  set μ := l.sum / l.length with hμ
  constructor
  · intro h x hx y hy
    have hl : (l.length : ℝ) ≠ 0 := by
      have := List.length_pos_of_mem hx
      positivity
    have h0 : (l.map (fun x => (x - μ) ^ 2)).sum = 0 := by
      rcases div_eq_zero_iff.1 h with h | h
      · exact h
      · exact absurd h hl
    have hz : ∀ z ∈ l, z = μ := by
      intro z hz
      have hle := List.single_le_sum (l := l.map (fun x => (x - μ) ^ 2)) (by
        intro w hw
        obtain ⟨v, _, rfl⟩ := List.mem_map.1 hw
        positivity) ((z - μ) ^ 2) (List.mem_map.2 ⟨z, hz, rfl⟩)
      have this : (z - μ) ^ 2 = 0 := le_antisymm (by rw [← h0]; exact hle) (by positivity)
      have := pow_eq_zero_iff (two_ne_zero) |>.1 this
      linarith
    rw [hz x hx, hz y hy]
  · intro h
    cases l with
    | nil => simp
    | cons a l =>
      have hr : a :: l = List.replicate (a :: l).length a := by
        rw [List.eq_replicate_iff]
        exact ⟨rfl, fun b hb => h b hb a (by simp)⟩
      have hl : ((a :: l).length : ℝ) ≠ 0 := by
        have : 0 < (a :: l).length := by simp
        positivity
      have hμ' : μ = a := by
        rw [hμ]
        conv_lhs => rw [hr]
        rw [List.sum_replicate, List.length_replicate, nsmul_eq_mul]
        field_simp
      rw [hμ', hr]
      simp

/-! ## C59 -/

/-- What a later read of `rapidity` gives. -/
noncomputable def Spec.rapidityNow (tol : ℝ) (h : Heap) (o : Nat) : List Fl := (readRapidity tol h o).1

/-- **C59** Unless it raises `ZeroDivisionError` (see `C59_failure`), the rapidities of all
objects read afterwards as before, no record changes, and no other object changes at all. -/
theorem C59_rapidity (limit : Int) (sched : List (List Write) → List Write)
    (init : Nat × Nat → Fl) (lsa : List (List Fl) → Py (List Nat)) (tol : ℝ) (h : Heap)
    (focus candidate : Nat) (threads : Int)
    (hco : ∀ o, Coherent tol (h o))
    (hres : (argClosest limit sched init lsa tol h focus candidate threads).1 ≠ .error .zeroDivisionError) :
    let h' := (argClosest limit sched init lsa tol h focus candidate threads).2
    (∀ o, rapidityNow tol h' o = rapidityNow tol h o) ∧ (∀ o, (h' o).data = (h o).data) ∧
    (∀ o, Coherent tol (h' o)) ∧ ∀ o, o ≠ focus → o ≠ candidate → h' o = h o := by
  intro h'
  obtain ⟨r1, r2, r3, r4⟩ := readRapidity_spec tol h focus (hco _)
  obtain ⟨s1, s2, s3, s4⟩ := readRapidity_spec tol (readRapidity tol h focus).2 candidate (r4 _ (hco _))
  have main : (∀ o, (h' o).data = (h o).data) ∧ (∀ o, Coherent tol (h' o)) ∧
      ∀ o, o ≠ focus → o ≠ candidate → h' o = h o := by
    have hput : ∀ m2 : Heap, (∀ o, (m2 o).data = (h o).data) → (∀ o, Coherent tol (m2 o)) →
        (∀ o, o ≠ focus → o ≠ candidate → m2 o = h o) → ∀ b,
        let m4 := (m2.put candidate { m2 candidate with rapidity := some b })
        let m5 := (m4.put candidate { m4 candidate with rapidity := none })
        (∀ o, (m5 o).data = (h o).data) ∧ (∀ o, Coherent tol (m5 o)) ∧
        ∀ o, o ≠ focus → o ≠ candidate → m5 o = h o := by
      intro m2 g1 g2 g3 b m4 m5
      refine ⟨fun o => ?_, fun o => ?_, fun o ho1 ho2 => ?_⟩
      · by_cases ho : o = candidate
        · subst ho; simp [m5, m4, Heap.put, g1]
        · simp [m5, m4, Heap.put, ho, g1]
      · by_cases ho : o = candidate
        · subst ho; left; simp [m5, Heap.put]
        · simpa [m5, m4, Heap.put, ho] using g2 o
      · simpa [m5, m4, Heap.put, ho2] using g3 o ho1 ho2
    have hkern : ∀ e ps qs r1 r2, (assignmentCost sched init r1 r2 ps qs).1 = .error e →
        e = .zeroDivisionError := by
      have hvr : ∀ l e, varRecip l = .error e → e = .zeroDivisionError := by
        intro l e he
        unfold varRecip at he
        split at he
        · cases he
        · cases he
        · split at he
          · injection he with he; exact he.symm
          · cases he
      have hci : ∀ mem pt2 vr ps i e, costIters mem pt2 vr i ps = .error e → e = .zeroDivisionError := by
        intro mem pt2 vr ps
        induction ps with
        | nil => intro i e he; cases he
        | cons p ps ih =>
          intro i e he
          unfold costIters at he
          cases hw : costIter mem pt2 vr i ‖p.xyPol‖ with
          | error e' =>
            simp only [hw] at he
            injection he with he; subst he
            unfold costIter at hw
            cases hvv : varRecip (rowOf mem pt2.length i) with
            | error e'' => simp only [hvv] at hw; injection hw with hw; subst hw; exact hvr _ _ hvv
            | ok vd => simp only [hvv] at hw; cases hw
          | ok w =>
            simp only [hw] at he
            cases hrest : costIters mem pt2 vr (i + 1) ps with
            | error e' => simp only [hrest] at he; injection he with he; subst he; exact ih _ _ hrest
            | ok ws => simp only [hrest] at he; cases he
      intro e ps qs r1 r2 he
      unfold assignmentCost at he
      simp only at he
      split at he
      · next e' hv => injection he with he; subst he; exact hvr _ _ hv
      · split at he
        · next e' hv => injection he with he; subst he; exact hci _ _ _ _ _ _ hv
        · cases he
    have hh' : h' = (argClosest limit sched init lsa tol h focus candidate threads).2 := rfl
    clear_value h'
    subst hh'
    unfold argClosest at hres ⊢
    cases hth : setNumThreads limit threads with
    | error e => exact ⟨fun _ => rfl, hco, fun _ _ _ => rfl⟩
    | ok _ =>
      simp only [hth] at hres ⊢
      split at hres
      · next e he =>
        exfalso
        exact hres (by rw [hkern _ _ _ _ _ he])
      · next mem he =>
        exact hput _ (fun o => by rw [s2, r2]) (fun o => s4 o (r4 o (hco o)))
          (fun o ho1 ho2 => by rw [s3 o ho2, r3 o ho1]) _
  refine ⟨fun o => ?_, main⟩
  unfold rapidityNow
  rw [(readRapidity_spec tol h' o (main.2.1 o)).1, (readRapidity_spec tol h o (hco o)).1, main.1]

/-- **C59** After a `ZeroDivisionError` (which `linear_sum_assignment` does not raise): `candidate.rapidity` reads
the transverse momenta of the candidates from then on; no record changes, every other object's rapidities read as
before, and no object other than the two arguments changes at all. -/
theorem C59_failure (limit : Int) (sched : List (List Write) → List Write)
    (init : Nat × Nat → Fl) (lsa : List (List Fl) → Py (List Nat)) (tol : ℝ) (h : Heap)
    (focus candidate : Nat) (threads : Int)
    (hco : ∀ o, Coherent tol (h o)) (hlsa : ∀ M, lsa M ≠ .error .zeroDivisionError)
    (hres : (argClosest limit sched init lsa tol h focus candidate threads).1 = .error .zeroDivisionError) :
    let h' := (argClosest limit sched init lsa tol h focus candidate threads).2
    rapidityNow tol h' candidate = (h candidate).data.map (fun q => .fin q.pt) ∧
    (∀ o, o ≠ candidate → rapidityNow tol h' o = rapidityNow tol h o) ∧
    (∀ o, (h' o).data = (h o).data) ∧ ∀ o, o ≠ focus → o ≠ candidate → h' o = h o := by
  intro h'
  obtain ⟨r1, r2, r3, r4⟩ := readRapidity_spec tol h focus (hco _)
  obtain ⟨s1, s2, s3, s4⟩ := readRapidity_spec tol (readRapidity tol h focus).2 candidate (r4 _ (hco _))
  have hbuf : ∀ ps qs r1 r2, (assignmentCost sched init r1 r2 ps qs).2 = qs.map (fun q => Fl.fin q.pt) := by
    intro ps qs r1 r2
    unfold assignmentCost
    simp only [norm_xyPol]
    split
    · rfl
    · split <;> rfl
  have hcond : h' = (readRapidity tol (readRapidity tol h focus).2 candidate).2.put candidate
      { (readRapidity tol (readRapidity tol h focus).2 candidate).2 candidate with
        rapidity := some ((h candidate).data.map (fun q => Fl.fin q.pt)) } := by
    have hh' : h' = (argClosest limit sched init lsa tol h focus candidate threads).2 := rfl
    clear_value h'
    subst hh'
    unfold argClosest at hres ⊢
    cases hth : setNumThreads limit threads with
    | error e =>
      have he : e = .valueError := by
        unfold setNumThreads at hth
        split at hth
        · cases hth
        · injection hth with hth; exact hth.symm
      simp only [hth, he] at hres
      cases hres
    | ok _ =>
      simp only [hth] at hres ⊢
      split at hres
      · next e he =>
        rw [hbuf, s2, r2]
      · exact absurd hres (hlsa _)
  have hdata : ∀ o, (h' o).data = (h o).data := by
    intro o
    rw [hcond]
    by_cases ho : o = candidate
    · subst ho; simp [Heap.put, s2, r2]
    · simp [Heap.put, ho, s2, r2]
  have hother : ∀ o, o ≠ candidate → Coherent tol (h' o) := by
    intro o ho
    rw [hcond]
    simpa [Heap.put, ho] using s4 o (r4 o (hco o))
  refine ⟨?_, ?_, hdata, ?_⟩
  · rw [hcond]
    simp [rapidityNow, readRapidity, Heap.put]
  · intro o ho
    unfold rapidityNow
    rw [(readRapidity_spec tol h' o (hother o ho)).1, (readRapidity_spec tol h o (hco o)).1, hdata]
  · intro o ho1 ho2
    rw [hcond]
    simp [Heap.put, ho2, s3 o ho2, r3 o ho1]

/-- **C59** The expectation that nothing observable changes is refuted after a failure: with a single candidate (`x = 3, e = 5`), `candidate.rapidity` reads
`[0]` before the call, and the transverse momentum `[3]` after the `ZeroDivisionError`. -/
theorem C59_false : ∃ (h : Heap), (∀ o, Coherent 0 (h o)) ∧
    ∀ (limit : Int) (sched : List (List Write) → List Write) (init : Nat × Nat → Fl)
      (lsa : List (List Fl) → Py (List Nat)), 1 ≤ limit →
      rapidityNow 0 h 1 = [.fin 0] ∧
      (argClosest limit sched init lsa 0 h 0 1 1).1 = .error .zeroDivisionError ∧
      rapidityNow 0 (argClosest limit sched init lsa 0 h 0 1 1).2 1 = [.fin 3] := by
  have hpt : P4.pt ⟨3, 0, 0, 5⟩ = 3 := by
    rw [pt_eq]
    show sqrt (3 ^ 2 + 0 ^ 2) = 3
    rw [show ((3 : ℝ) ^ 2 + 0 ^ 2) = 3 ^ 2 by norm_num, sqrt_sq (by norm_num)]
  refine ⟨fun o => if o = 0 then ⟨[⟨1, 0, 0, 2⟩], none⟩ else ⟨[⟨3, 0, 0, 5⟩], none⟩,
    fun o => Or.inl (by dsimp only; split <;> rfl), ?_⟩
  intro limit sched init lsa hl
  have hz := varRecip_zero [(⟨3, 0, 0, 5⟩ : P4)] P4.pt (by simp) (by simp [popVar])
  simp only [List.map_cons, List.map_nil, hpt] at hz
  refine ⟨?_, ?_, ?_⟩
  · simp [rapidityNow, readRapidity, P4.rapidity, rapidityOf, copysign]
  · apply C57_equal_pt limit sched init lsa 0 _ 0 1 1 ⟨by norm_num, hl⟩ (Or.inl rfl) (Or.inl rfl)
      (by simp) 3
    intro q hq
    simp only [one_ne_zero, if_false, List.mem_singleton] at hq
    rw [hq, hpt]
  · unfold argClosest assignmentCost
    simp [setNumThreads, hl, readRapidity, Heap.put, norm_xyPol, hz, rapidityNow, hpt]

/-! ## The assumptions can be met -/

theorem finite_lists (k m : Nat) : {l : List Nat | l.length = k ∧ ∀ x ∈ l, x < m}.Finite := by
  refine ((List.finite_length_eq (Fin m) k).image (List.map Fin.val)).subset ?_
  rintro l ⟨h1, h2⟩
  refine ⟨l.pmap Fin.mk h2, by simp [h1], ?_⟩
  rw [List.map_pmap]
  simp

theorem exists_optimal (n m : Nat) (C : Nat → Nat → ℝ) :
    ∃ rows cols, Assignment n m rows cols ∧ Optimal n m C rows cols := by
  have hfin : {p : List Nat × List Nat | Assignment n m p.1 p.2}.Finite := by
    refine ((finite_lists (min n m) n).prod (finite_lists (min n m) m)).subset ?_
    rintro ⟨r, c⟩ ⟨h1, h2, h3, h4, h5, h6⟩
    exact ⟨⟨h1, h4⟩, ⟨h2, h6⟩⟩
  have hne : {p : List Nat × List Nat | Assignment n m p.1 p.2}.Nonempty := by
    refine ⟨(List.range (min n m), List.range (min n m)), by simp, by simp, List.pairwise_lt_range, ?_,
      List.nodup_range, ?_⟩
    · intro r hr; have := List.mem_range.1 hr; omega
    · intro r hr; have := List.mem_range.1 hr; omega
  obtain ⟨⟨r, c⟩, h1, h2⟩ := Set.exists_min_image _ (fun p : List Nat × List Nat => totalCost C p.1 p.2)
    hfin hne
  exact ⟨r, c, h1, fun r' c' h' => h2 (r', c') h'⟩

theorem totalCost_congr {C C' : Nat → Nat → ℝ} {n m : Nat} (h : ∀ i j, i < n → j < m → C i j = C' i j)
    {rows cols : List Nat} (ha : Assignment n m rows cols) :
    totalCost C rows cols = totalCost C' rows cols := by
  unfold totalCost
  congr 1
  apply List.map_congr_left
  rintro ⟨a, b⟩ hab
  exact h a b (ha.2.2.2.1 a (List.of_mem_zip hab).1) (ha.2.2.2.2.2 b (List.of_mem_zip hab).2)

/-- A function with the contract of `linear_sum_assignment` exists. -/
theorem exists_lsa : ∃ lsa, IsLSA lsa := by
  classical
  let P : List (List Fl) → List Nat → Prop := fun M cols => ∀ n m C, M = matrixOf n m C →
    ∃ rows, Assignment n m rows cols ∧ Optimal n m C rows cols
  have hP : ∀ n m C, ∃ cols, P (matrixOf n m C) cols := by
    intro n m C
    obtain ⟨rows, cols, h1, h2⟩ := exists_optimal n m C
    refine ⟨cols, fun n' m' C' hM => ⟨rows, ?_⟩⟩
    have hn : n = n' := by simpa [matrixOf] using congrArg List.length hM
    subst hn
    by_cases h0 : n = 0
    · subst h0
      have e1 : rows = [] := List.eq_nil_of_length_eq_zero (by simpa using h1.1)
      have e2 : cols = [] := List.eq_nil_of_length_eq_zero (by simpa using h1.2.1)
      subst e1 e2
      refine ⟨⟨by simp, by simp, by simp, by simp, by simp, by simp⟩, fun r c h => ?_⟩
      have : r = [] := List.eq_nil_of_length_eq_zero (by simpa using h.1)
      subst this
      simp [totalCost]
    · have hrow : ∀ i, i < n → (List.range m).map (fun j => Fl.fin (C i j)) =
          (List.range m').map (fun j => Fl.fin (C' i j)) := by
        intro i hi
        have := congrArg (fun l => l[i]?) hM
        simpa [matrixOf, hi] using this
      have hm : m = m' := by
        simpa using congrArg List.length (hrow 0 (by omega))
      subst hm
      have hC : ∀ i j, i < n → j < m → C i j = C' i j := by
        intro i j hi hj
        have := congrArg (fun l => l[j]?) (hrow i hi)
        simpa [hj] using this
      refine ⟨h1, fun r c h => ?_⟩
      rw [← totalCost_congr hC h1, ← totalCost_congr hC h]
      exact h2 r c h
  refine ⟨fun M => if (∃ r ∈ M, Fl.nan ∈ r) then .error .valueError
    else if h : ∃ cols, P M cols then .ok (Classical.choose h) else .ok [], ?_, ?_⟩
  · intro n m C
    have hex := hP n m C
    obtain ⟨rows, h1, h2⟩ := Classical.choose_spec hex n m C rfl
    refine ⟨rows, Classical.choose hex, ?_, h1, h2⟩
    have hno : ¬ ∃ r ∈ matrixOf n m C, Fl.nan ∈ r := by
      rintro ⟨r, hr, hnan⟩
      obtain ⟨i, _, rfl⟩ := List.mem_map.1 hr
      obtain ⟨j, _, hj⟩ := List.mem_map.1 hnan
      cases hj
    dsimp only
    rw [if_neg hno, dif_pos hex]
  · intro M hM
    dsimp only
    rw [if_pos hM]

/-- Serial execution is a schedule. -/
example : IsSchedule List.flatten := fun its => interleave_serial its

/-- Witness for the remaining assumptions of `C57_assignment`: one focus and two candidates. -/
theorem exAssign : ∃ (D : Nat → Nat → ℝ),
    (∀ (i j : Nat) (p q : P4), ([⟨1, 0, 0, 2⟩] : List P4)[i]? = some p →
      ([⟨3, 0, 0, 5⟩, ⟨0, 1, 0, 2⟩] : List P4)[j]? = some q →
      deltaRCell (p.rapidity 0) (q.rapidity 0) p.xyPol q.xyPol = .fin (D i j)) ∧
    popVar (([⟨3, 0, 0, 5⟩, ⟨0, 1, 0, 2⟩] : List P4).map P4.pt) ≠ 0 ∧
    ∀ i : Nat, i < 1 → popVar ((List.range 2).map (D i)) ≠ 0 := by
  have r0 : ∀ x y e : ℝ, 0 < e → P4.rapidity 0 ⟨x, y, 0, e⟩ = .fin 0 := by
    intro x y e he
    simp [P4.rapidity, rapidityOf, copysign, he.ne', he]
  have a0 : ((P4.xyPol ⟨1, 0, 0, 2⟩) * (starRingEnd ℂ) (P4.xyPol ⟨3, 0, 0, 5⟩)).arg = 0 := by
    have : (P4.xyPol ⟨1, 0, 0, 2⟩) * (starRingEnd ℂ) (P4.xyPol ⟨3, 0, 0, 5⟩) = ((3 : ℝ) : ℂ) := by
      apply Complex.ext <;> simp [P4.xyPol]
    rw [this, Complex.arg_ofReal_of_nonneg (by norm_num)]
  have a1 : ((P4.xyPol ⟨1, 0, 0, 2⟩) * (starRingEnd ℂ) (P4.xyPol ⟨0, 1, 0, 2⟩)).arg = -(π / 2) := by
    have : (P4.xyPol ⟨1, 0, 0, 2⟩) * (starRingEnd ℂ) (P4.xyPol ⟨0, 1, 0, 2⟩) = -Complex.I := by
      apply Complex.ext <;> simp [P4.xyPol]
    rw [this, Complex.arg_neg_I]
  have pt0 : P4.pt ⟨3, 0, 0, 5⟩ = 3 := by
    rw [pt_eq]
    show sqrt (3 ^ 2 + 0 ^ 2) = 3
    rw [show ((3 : ℝ) ^ 2 + 0 ^ 2) = 3 ^ 2 by norm_num, sqrt_sq (by norm_num)]
  have pt1 : P4.pt ⟨0, 1, 0, 2⟩ = 1 := by
    rw [pt_eq]
    show sqrt (0 ^ 2 + 1 ^ 2) = 1
    norm_num
  refine ⟨fun _ j => if j = 0 then 0 else π / 2, ?_, ?_, ?_⟩
  · intro i j p q hp hq
    match i, j with
    | 0, 0 =>
      simp only [List.getElem?_cons_zero, Option.some.injEq] at hp hq
      subst hp hq
      simp [deltaRCell, r0, a0, Fl.sub, hypotFl]
    | 0, 1 =>
      simp only [List.getElem?_cons_zero, List.getElem?_cons_succ, Option.some.injEq] at hp hq
      subst hp hq
      simp only [deltaRCell, r0 _ _ _ (by norm_num : (0 : ℝ) < 2), a1, Fl.sub, hypotFl]
      rw [show ((0 : ℝ) - 0) ^ 2 + (-(π / 2)) ^ 2 = (π / 2) ^ 2 by ring, sqrt_sq (by positivity)]
      simp
    | 0, j + 2 => simp at hq
    | i + 1, _ => simp at hp
  · simp only [List.map_cons, List.map_nil, pt0, pt1, popVar]
    norm_num
  · intro i _
    simp only [List.range_succ_eq_map, List.range_zero, List.map_cons, List.map_nil, popVar]
    have := Real.pi_pos
    simp
    intro h
    have : π ^ 2 = 0 := by linarith
    nlinarith

end Gcl
