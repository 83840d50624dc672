import Verif.Props.ArgClosest
import Mathlib.Analysis.Real.Pi.Bounds
/-!
# C148: `arg_closest` and its documentation

The documentation says that the costs are the distances in the rapidity-azimuth plane, and that a candidate nearest to
two focus elements goes to the nearer of the two.  What holds is that undisputed candidates are assigned; the two
documented rules fail.
-/
namespace Gcl
set_option autoImplicit false
open Real Spec

namespace Spec

/-- The separation of two momenta in the rapidity-azimuth plane. -/
noncomputable def separation (tol : ℝ) (p q : P4) : Fl :=
  deltaRCell (p.rapidity tol) (q.rapidity tol) p.xyPol q.xyPol

/-- Candidate `q` suits the focus `p` better than `q'` does: it is neither farther away nor worse in transverse momentum,
and better in one of the two. -/
def Suits (tol : ℝ) (p q q' : P4) : Prop :=
  ∃ d d' : ℝ, separation tol p q = .fin d ∧ separation tol p q' = .fin d' ∧
    d ≤ d' ∧ |p.pt - q.pt| ≤ |p.pt - q'.pt| ∧ (d < d' ∨ |p.pt - q.pt| < |p.pt - q'.pt|)

end Spec

/-! ## Undisputed candidates -/

theorem cost_strict (D : Nat → Nat → ℝ) (pt1 pt2 : Nat → ℝ) (m i j j' : Nat)
    (hpt : popVar ((List.range m).map pt2) ≠ 0) (hrow : popVar ((List.range m).map (D i)) ≠ 0)
    (hd : |D i j| ≤ |D i j'|) (hp : |pt1 i - pt2 j| ≤ |pt1 i - pt2 j'|)
    (hs : |D i j| < |D i j'| ∨ |pt1 i - pt2 j| < |pt1 i - pt2 j'|) :
    assignCost D pt1 pt2 m i j < assignCost D pt1 pt2 m i j' := by
  have h1 := lt_of_le_of_ne (popVar_nonneg _) hpt.symm
  have h2 := lt_of_le_of_ne (popVar_nonneg _) hrow.symm
  unfold assignCost
  have e1 : -(D i j') ^ 2 / (2 * popVar ((List.range m).map (D i))) ≤
      -(D i j) ^ 2 / (2 * popVar ((List.range m).map (D i))) := by
    apply div_le_div_of_nonneg_right _ (by linarith)
    have := sq_le_sq.2 hd; linarith
  have e2 : -(pt1 i - pt2 j') ^ 2 / (2 * popVar ((List.range m).map pt2)) ≤
      -(pt1 i - pt2 j) ^ 2 / (2 * popVar ((List.range m).map pt2)) := by
    apply div_le_div_of_nonneg_right _ (by linarith)
    have := sq_le_sq.2 hp; linarith
  rcases hs with hs | hs
  · have e1' : -(D i j') ^ 2 / (2 * popVar ((List.range m).map (D i))) <
        -(D i j) ^ 2 / (2 * popVar ((List.range m).map (D i))) := by
      apply div_lt_div_of_pos_right _ (by linarith)
      have := sq_lt_sq.2 hs; linarith
    linarith [Real.exp_lt_exp.2 e1', Real.exp_le_exp.2 e2]
  · have e2' : -(pt1 i - pt2 j') ^ 2 / (2 * popVar ((List.range m).map pt2)) <
        -(pt1 i - pt2 j) ^ 2 / (2 * popVar ((List.range m).map pt2)) := by
      apply div_lt_div_of_pos_right _ (by linarith)
      have := sq_lt_sq.2 hs; linarith
    linarith [Real.exp_le_exp.2 e1, Real.exp_lt_exp.2 e2']

theorem zip_sum_unique (C : Nat → Nat → ℝ) : ∀ (n k : Nat) (σ cols : List Nat),
    σ.length = n → cols.length = n →
    (∀ i s c, σ[i]? = some s → cols[i]? = some c → c ≠ s → C (k + i) s < C (k + i) c) →
    ((((List.range' k n).zip σ).map (fun p => C p.1 p.2)).sum ≤
      (((List.range' k n).zip cols).map (fun p => C p.1 p.2)).sum) ∧
    ((((List.range' k n).zip cols).map (fun p => C p.1 p.2)).sum ≤
      (((List.range' k n).zip σ).map (fun p => C p.1 p.2)).sum → cols = σ)
  | 0, k, σ, cols, h1, h2, _ => by
    rw [List.length_eq_zero_iff] at h1 h2
    subst h1 h2
    simp
  | n + 1, k, [], _, h1, _, _ => by simp at h1
  | n + 1, k, _, [], _, h2, _ => by simp at h2
  | n + 1, k, s :: σ, c :: cols, h1, h2, h => by
    have ih := zip_sum_unique C n (k + 1) σ cols (by simpa using h1) (by simpa using h2) (by
      intro i s' c' hs hc hne
      have := h (i + 1) s' c' (by simpa using hs) (by simpa using hc) hne
      rwa [show k + (i + 1) = k + 1 + i by omega] at this)
    have h0 := h 0 s c (by simp) (by simp)
    rw [Nat.add_zero] at h0
    rw [List.range'_succ]
    simp only [List.zip_cons_cons, List.map_cons, List.sum_cons]
    by_cases hcs : c = s
    · subst hcs
      refine ⟨by linarith [ih.1], fun hle => ?_⟩
      rw [ih.2 (by linarith)]
    · have := h0 hcs
      refine ⟨by linarith [ih.1], fun hle => ?_⟩
      linarith [ih.1]

/-- **C148** If every focus element has a candidate of its own that suits it better than every other candidate does, each
gets that candidate, whatever the schedule, the number of threads and the solver. -/
theorem C148_undisputed (limit : Int) (sched : List (List Write) → List Write)
    (hs : IsSchedule sched) (init : Nat × Nat → Fl) (lsa : List (List Fl) → Py (List Nat))
    (hlsa : IsLSA lsa) (tol : ℝ) (h : Heap) (focus candidate : Nat) (threads : Int)
    (hf : Coherent tol (h focus)) (hc : Coherent tol (h candidate))
    (hne : (h candidate).data ≠ []) (cols : List Nat)
    (hres : (argClosest limit sched init lsa tol h focus candidate threads).1 = .ok cols)
    (own : List Nat) (hlen : own.length = (h focus).data.length) (hnd : own.Nodup)
    (hown : ∀ (i c : Nat) (p : P4), own[i]? = some c → (h focus).data[i]? = some p →
      ∃ q, (h candidate).data[c]? = some q ∧
        ∀ (j : Nat) (q' : P4), j ≠ c → (h candidate).data[j]? = some q' → Suits tol p q q') :
    cols = own := by
  obtain ⟨D, rows, hD, hpt, hrow, hA, hO, hrg⟩ := C57_returns limit sched hs init lsa hlsa tol h focus candidate
    threads hf hc _ _ rfl rfl hne cols hres
  generalize hps : (h focus).data = ps at *
  generalize hqs : (h candidate).data = qs at *
  have hlt : ∀ c ∈ own, c < qs.length := by
    intro c hc'
    obtain ⟨i, hi, rfl⟩ := List.getElem_of_mem hc'
    obtain ⟨q, hq, _⟩ := hown i own[i] (ps[i]'(hlen ▸ hi)) (by simp) (by simp)
    exact (List.getElem?_eq_some_iff.1 hq).1
  have hle : ps.length ≤ qs.length := by
    rw [← hlen]
    have := (hnd.subperm (l₂ := List.range qs.length) (fun c hc' => List.mem_range.2 (hlt c hc'))).length_le
    simpa using this
  obtain ⟨hr, hcl⟩ := hrg hle
  subst hr
  have hopt := hO (List.range ps.length) own
    ⟨by simp [hle], by simp [hle, hlen], List.pairwise_lt_range, fun r hr => List.mem_range.1 hr, hnd, hlt⟩
  unfold totalCost at hopt
  rw [List.range_eq_range'] at hopt
  refine (zip_sum_unique _ ps.length 0 own cols hlen hcl ?_).2 hopt
  intro i s c hsi hci hcs
  have hi : i < ps.length := by rw [← hlen]; exact (List.getElem?_eq_some_iff.1 hsi).1
  have hcm : c < qs.length := hA.2.2.2.2.2 c (List.mem_of_getElem? hci)
  obtain ⟨q, hq, hall⟩ := hown i s ps[i] hsi (by simp [hi])
  obtain ⟨d, d', e1, e2, l1, l2, l3⟩ := hall c qs[c] hcs (by simp [hcm])
  have hdD : d = D i s := by
    have := hD i s ps[i] q (by simp [hi]) hq
    rw [separation, this] at e1
    exact (Fl.fin.inj e1).symm
  have hdD' : d' = D i c := by
    have := hD i c ps[i] qs[c] (by simp [hi]) (by simp [hcm])
    rw [separation, this] at e2
    exact (Fl.fin.inj e2).symm
  have hpos : 0 ≤ d := by
    have : ∀ r w x, hypotFl r w = .fin x → 0 ≤ x := by
      intro r w x hx
      cases r <;> simp only [hypotFl, Fl.fin.injEq, reduceCtorEq] at hx
      all_goals exact hx ▸ sqrt_nonneg _
    exact this _ _ _ e1
  have g1 : (ps.map P4.pt).getD i 0 = ps[i].pt := by simp [hi]
  have g2 : (qs.map P4.pt).getD s 0 = q.pt := by simp [hq]
  have g3 : (qs.map P4.pt).getD c 0 = qs[c].pt := by simp [hcm]
  have hmap : (List.range qs.length).map (fun j => (qs.map P4.pt).getD j 0) = qs.map P4.pt := by
    apply List.ext_getElem
    · simp
    · intro k h1 h2
      simp at h1 ⊢
      simp [h1]
  rw [Nat.zero_add]
  apply cost_strict
  · rw [hmap]; exact hpt
  · exact hrow i hi
  · rw [← hdD, ← hdD', abs_of_nonneg hpos, abs_of_nonneg (hpos.trans l1)]; exact l1
  · simp only [g1, g2, g3]; exact l2
  · rw [← hdD, ← hdD', abs_of_nonneg hpos, abs_of_nonneg (hpos.trans l1)]
    simp only [g1, g2, g3]; exact l3

theorem separation_self (tol : ℝ) (p : P4) : separation tol p p = .fin 0 := by
  have harg : (p.xyPol * (starRingEnd ℂ) p.xyPol).arg = 0 := by
    rw [Complex.mul_conj, Complex.arg_ofReal_of_nonneg (Complex.normSq_nonneg _)]
  unfold separation deltaRCell
  rw [harg]
  cases p.rapidity tol <;> simp [Fl.sub, hypotFl]

/-- **C148** Momenta assigned among themselves get themselves, provided no two coincide in direction and transverse
momentum.  Both arguments may be the same object. -/
theorem C148_self (limit : Int) (sched : List (List Write) → List Write)
    (hs : IsSchedule sched) (init : Nat × Nat → Fl) (lsa : List (List Fl) → Py (List Nat))
    (hlsa : IsLSA lsa) (tol : ℝ) (h : Heap) (focus candidate : Nat) (threads : Int)
    (hf : Coherent tol (h focus)) (hc : Coherent tol (h candidate))
    (hsame : (h focus).data = (h candidate).data) (hne : (h candidate).data ≠ []) (cols : List Nat)
    (hres : (argClosest limit sched init lsa tol h focus candidate threads).1 = .ok cols)
    (hdist : ∀ (i j : Nat) (p q : P4), i ≠ j → (h focus).data[i]? = some p → (h focus).data[j]? = some q →
      separation tol p q ≠ .fin 0 ∨ p.pt ≠ q.pt) :
    cols = List.range (h focus).data.length := by
  obtain ⟨D, _, hD, _⟩ := C57_returns limit sched hs init lsa hlsa tol h focus candidate
    threads hf hc _ _ rfl rfl hne cols hres
  refine C148_undisputed limit sched hs init lsa hlsa tol h focus candidate threads hf hc hne cols hres _ (by simp)
    List.nodup_range ?_
  intro i c p hi hp
  have hci : c = i := by
    obtain ⟨h1, h2⟩ := List.getElem?_eq_some_iff.1 hi
    simpa using h2.symm
  subst hci
  refine ⟨p, hsame ▸ hp, fun j q' hj hq' => ?_⟩
  have h2 := hD c j p q' hp hq'
  have hpos : 0 ≤ D c j := by
    have : ∀ r w x, hypotFl r w = .fin x → 0 ≤ x := by
      intro r w x hx
      cases r <;> simp only [hypotFl, Fl.fin.injEq, reduceCtorEq] at hx
      all_goals exact hx ▸ sqrt_nonneg _
    exact this _ _ _ h2
  refine ⟨0, D c j, separation_self tol p, h2, hpos, by simp, ?_⟩
  rcases hdist c j p q' (Ne.symm hj) hp (hsame ▸ hq') with hd | hd
  · refine .inl (lt_of_le_of_ne hpos ?_)
    intro h0
    exact hd (by rw [separation, h2, ← h0])
  · right
    simpa [sub_eq_zero] using hd

/-! ## The two documented rules -/

/-- A momentum in the transverse plane. -/
noncomputable def planeP4 (r θ : ℝ) : P4 := ⟨r * cos θ, r * sin θ, 0, 2 * r⟩

theorem planeP4_pt (r θ : ℝ) (hr : 0 < r) : (planeP4 r θ).pt = r := by
  rw [pt_eq]
  show sqrt ((r * cos θ) ^ 2 + (r * sin θ) ^ 2) = r
  rw [show (r * cos θ) ^ 2 + (r * sin θ) ^ 2 = r ^ 2 by nlinarith [sin_sq_add_cos_sq θ], sqrt_sq hr.le]

theorem planeP4_sep (r s θ φ : ℝ) (hr : 0 < r) (hs : 0 < s) (h : |θ - φ| < π) :
    separation 0 (planeP4 r θ) (planeP4 s φ) = .fin |θ - φ| := by
  have r0 : ∀ x y e : ℝ, 0 < e → P4.rapidity 0 ⟨x, y, 0, e⟩ = .fin 0 := by
    intro x y e he
    simp [P4.rapidity, rapidityOf, copysign, he.ne']
  have hw : (planeP4 r θ).xyPol * (starRingEnd ℂ) (planeP4 s φ).xyPol =
      ((r * s : ℝ) : ℂ) * (Complex.cos ((θ - φ : ℝ) : ℂ) + Complex.sin ((θ - φ : ℝ) : ℂ) * Complex.I) := by
    rw [← Complex.ofReal_cos, ← Complex.ofReal_sin, cos_sub, sin_sub]
    apply Complex.ext <;> simp [planeP4, P4.xyPol, -Complex.ofReal_cos, -Complex.ofReal_sin] <;> ring
  have harg : ((planeP4 r θ).xyPol * (starRingEnd ℂ) (planeP4 s φ).xyPol).arg = θ - φ := by
    rw [hw]
    exact Complex.arg_mul_cos_add_sin_mul_I (mul_pos hr hs) ⟨(abs_lt.1 h).1, (abs_lt.1 h).2.le⟩
  unfold separation deltaRCell
  rw [harg]
  unfold planeP4
  rw [r0 _ _ _ (by linarith), r0 _ _ _ (by linarith)]
  simp [Fl.sub, hypotFl, sqrt_sq_eq_abs]

theorem popVar_two (a b : ℝ) : popVar [a, b] = ((a - b) / 2) ^ 2 := by
  simp [popVar]
  ring

theorem cost_two (D : Nat → Nat → ℝ) (pt1 pt2 : Nat → ℝ) (i j : Nat) : assignCost D pt1 pt2 2 i j =
    (1 - Real.exp (-(D i j) ^ 2 / (2 * ((D i 0 - D i 1) / 2) ^ 2))) +
    (1 - Real.exp (-(pt1 i - pt2 j) ^ 2 / (2 * ((pt2 0 - pt2 1) / 2) ^ 2))) := by
  unfold assignCost
  rw [show List.range 2 = [0, 1] from rfl]
  simp only [List.map_cons, List.map_nil, popVar_two]

/-- **C148** The cost is not the distance: a candidate twice as far away as another one is chosen because its transverse
momentum is that of the focus element. -/
theorem C148_distance_false : ∃ p q0 q1 : P4,
    separation 0 p q0 = .fin (1 / 2) ∧ separation 0 p q1 = .fin 1 ∧
    ∀ (limit : Int) (sched : List (List Write) → List Write) (init : Nat × Nat → Fl)
      (lsa : List (List Fl) → Py (List Nat)) (h : Heap) (focus candidate : Nat) (threads : Int),
      IsSchedule sched → IsLSA lsa → Coherent 0 (h focus) → Coherent 0 (h candidate) →
      1 ≤ threads ∧ threads ≤ limit → (h focus).data = [p] → (h candidate).data = [q0, q1] →
      (argClosest limit sched init lsa 0 h focus candidate threads).1 = .ok [1] := by
  have hpi := pi_gt_three
  have s0 := planeP4_sep 1 3 0 (1 / 2) one_pos three_pos (by rw [abs_lt]; constructor <;> linarith)
  have s1 := planeP4_sep 1 1 0 1 one_pos one_pos (by rw [abs_lt]; constructor <;> linarith)
  rw [show |(0 : ℝ) - 1 / 2| = 1 / 2 by norm_num] at s0
  rw [show |(0 : ℝ) - 1| = 1 by norm_num] at s1
  refine ⟨planeP4 1 0, planeP4 3 (1 / 2), planeP4 1 1, s0, s1, ?_⟩
  intro limit sched init lsa h focus candidate threads hs hlsa hf hc ht hp hq
  obtain ⟨rows, cols, hr, hA, hO, hrg⟩ := C57_assignment limit sched hs init lsa hlsa 0 h focus candidate threads hf hc
    ht _ _ hp hq (fun _ j => if j = 0 then 1 / 2 else 1) (by
      intro i j p q hi hj
      match i, j with
      | 0, 0 => simp at hi hj; subst hi hj; simpa [separation] using s0
      | 0, 1 => simp at hi hj; subst hi hj; simpa [separation] using s1
      | 0, j + 2 => simp at hj
      | i + 1, _ => simp at hi)
    (by
      simp only [List.map_cons, List.map_nil, planeP4_pt _ _ three_pos, planeP4_pt _ _ one_pos, popVar_two]
      norm_num)
    (by
      intro i _
      rw [show (List.range [planeP4 3 (1 / 2), planeP4 1 1].length) = [0, 1] by rfl]
      simp only [List.map_cons, List.map_nil, popVar_two]
      norm_num)
  obtain ⟨hrows, hcl⟩ := hrg (by simp)
  rw [hr]
  subst hrows
  have hnd := hA.2.2.2.2
  simp only [List.length_cons, List.length_nil] at hcl hnd hO
  match cols, hcl with
  | [c], _ =>
    have hc2 := hnd.2 c (by simp)
    rcases (by omega : c = 0 ∨ c = 1) with rfl | rfl
    · exfalso
      have := hO [0] [1] ⟨by simp, by simp, by simp, by simp, by simp, by simp⟩
      simp only [totalCost, List.range_one, List.zip_cons_cons, List.zip_nil_right, List.map_cons, List.map_nil,
        List.sum_cons, List.sum_nil, add_zero, zero_add, Nat.reduceAdd, cost_two, planeP4_pt _ _ three_pos,
        planeP4_pt _ _ one_pos, List.getD_cons_zero, List.getD_cons_succ] at this
      norm_num at this
      have b1 : exp (-2 : ℝ) ≤ 1 / 3 := by
        rw [exp_neg, ← one_div]
        exact one_div_le_one_div_of_le three_pos (by linarith [add_one_le_exp (2 : ℝ)])
      have b2 := exp_pos (-8 : ℝ)
      linarith
    · rfl

/-- **C148** A candidate nearest to two focus elements need not go to the nearer one: here candidate 0 is nearest to both
(1/2 against 3/4, and 3/5 against 37/20) and is nearer to focus 0, but it is given to focus 1. -/
theorem C148_conflict_false : ∃ p0 p1 q0 q1 : P4,
    separation 0 p0 q0 = .fin (1 / 2) ∧ separation 0 p0 q1 = .fin (3 / 4) ∧
    separation 0 p1 q0 = .fin (3 / 5) ∧ separation 0 p1 q1 = .fin (37 / 20) ∧
    ∀ (limit : Int) (sched : List (List Write) → List Write) (init : Nat × Nat → Fl)
      (lsa : List (List Fl) → Py (List Nat)) (h : Heap) (focus candidate : Nat) (threads : Int),
      IsSchedule sched → IsLSA lsa → Coherent 0 (h focus) → Coherent 0 (h candidate) →
      1 ≤ threads ∧ threads ≤ limit → (h focus).data = [p0, p1] → (h candidate).data = [q0, q1] →
      (argClosest limit sched init lsa 0 h focus candidate threads).1 = .ok [1, 0] := by
  have hpi := pi_gt_three
  have s00 := planeP4_sep 1 1 0 (1 / 2) one_pos one_pos (by rw [abs_lt]; constructor <;> linarith)
  have s01 := planeP4_sep 1 3 0 (-3 / 4) one_pos three_pos (by rw [abs_lt]; constructor <;> linarith)
  have s10 := planeP4_sep 1 1 (11 / 10) (1 / 2) one_pos one_pos (by rw [abs_lt]; constructor <;> linarith)
  have s11 := planeP4_sep 1 3 (11 / 10) (-3 / 4) one_pos three_pos (by rw [abs_lt]; constructor <;> linarith)
  rw [show |(0 : ℝ) - 1 / 2| = 1 / 2 by norm_num] at s00
  rw [show |(0 : ℝ) - -3 / 4| = 3 / 4 by norm_num] at s01
  rw [show |(11 / 10 : ℝ) - 1 / 2| = 3 / 5 by norm_num] at s10
  rw [show |(11 / 10 : ℝ) - -3 / 4| = 37 / 20 by norm_num [abs_of_pos]] at s11
  refine ⟨planeP4 1 0, planeP4 1 (11 / 10), planeP4 1 (1 / 2), planeP4 3 (-3 / 4), s00, s01, s10, s11, ?_⟩
  intro limit sched init lsa h focus candidate threads hs hlsa hf hc ht hp hq
  obtain ⟨rows, cols, hr, hA, hO, hrg⟩ := C57_assignment limit sched hs init lsa hlsa 0 h focus candidate threads hf hc
    ht _ _ hp hq
    (fun i j => if i = 0 then if j = 0 then 1 / 2 else 3 / 4 else if j = 0 then 3 / 5 else 37 / 20) (by
      intro i j p q hi hj
      match i, j with
      | 0, 0 => simp at hi hj; subst hi hj; simpa [separation] using s00
      | 0, 1 => simp at hi hj; subst hi hj; simpa [separation] using s01
      | 1, 0 => simp at hi hj; subst hi hj; simpa [separation] using s10
      | 1, 1 => simp at hi hj; subst hi hj; simpa [separation] using s11
      | _, j + 2 => simp at hj
      | i + 2, _ => simp at hi)
    (by
      simp only [List.map_cons, List.map_nil, planeP4_pt _ _ three_pos, planeP4_pt _ _ one_pos, popVar_two]
      norm_num)
    (by
      intro i _
      rw [show (List.range [planeP4 1 (1 / 2), planeP4 3 (-3 / 4)].length) = [0, 1] by rfl]
      simp only [List.map_cons, List.map_nil, popVar_two]
      split <;> norm_num)
  obtain ⟨hrows, hcl⟩ := hrg (by simp)
  rw [hr]
  subst hrows
  have hnd := hA.2.2.2.2
  simp only [List.length_cons, List.length_nil] at hcl hnd hO
  match cols, hcl with
  | [c, d], _ =>
    have hc2 := hnd.2 c (by simp)
    have hd2 := hnd.2 d (by simp)
    have hcd : c ≠ d := by have := hnd.1; simpa using this
    rcases (by omega : (c = 0 ∧ d = 1) ∨ (c = 1 ∧ d = 0)) with ⟨rfl, rfl⟩ | ⟨rfl, rfl⟩
    · exfalso
      have := hO [0, 1] [1, 0] ⟨by simp, by simp, by simp, by simp, by simp, by simp⟩
      rw [show List.range (0 + 1 + 1) = [0, 1] from rfl] at this
      simp only [totalCost, List.zip_cons_cons, List.zip_nil_right, List.map_cons, List.map_nil,
        List.sum_cons, List.sum_nil, add_zero, zero_add, Nat.reduceAdd, cost_two, planeP4_pt _ _ three_pos,
        planeP4_pt _ _ one_pos, List.getD_cons_zero, List.getD_cons_succ] at this
      norm_num at this
      have b : ∀ x : ℝ, 0 ≤ x → exp (-x) ≤ 1 / (1 + x) := by
        intro x hx
        rw [exp_neg, ← one_div]
        exact one_div_le_one_div_of_le (by linarith) (by linarith [add_one_le_exp x])
      have b1 := b 8 (by norm_num)
      have b2 := b (2738 / 625) (by norm_num)
      have b3 := add_one_le_exp (-(288 / 625) : ℝ)
      have b4 := exp_pos (-18 : ℝ)
      norm_num at b1 b2 b3
      linarith
    · rfl

/-! ## Examples -/

/-- The assumptions of `C148_undisputed`: two focus elements with a candidate of their own each, among three. -/
example : ∀ (i c : Nat) (p : P4), ([2, 0] : List Nat)[i]? = some c → [planeP4 1 0, planeP4 2 1][i]? = some p →
    ∃ q, [planeP4 2 1, planeP4 5 2, planeP4 1 0][c]? = some q ∧
      ∀ (j : Nat) (q' : P4), j ≠ c → [planeP4 2 1, planeP4 5 2, planeP4 1 0][j]? = some q' → Suits 0 p q q' := by
  have hpi := pi_gt_three
  have key : ∀ r θ r' θ', 0 < r → 0 < r' → |θ - θ'| < π → θ ≠ θ' →
      Suits 0 (planeP4 r θ) (planeP4 r θ) (planeP4 r' θ') := by
    intro r θ r' θ' hr hr' ha hne
    refine ⟨0, |θ - θ'|, separation_self _ _, planeP4_sep _ _ _ _ hr hr' ha, abs_nonneg _, by simp, .inl ?_⟩
    exact abs_pos.2 (sub_ne_zero.2 hne)
  intro i c p hi hp
  match i with
  | 0 =>
    simp at hi hp; subst hi hp
    refine ⟨_, rfl, fun j q' hj hq => ?_⟩
    match j with
    | 0 => simp at hq; subst hq; exact key _ _ _ _ (by norm_num) (by norm_num) (by rw [abs_lt]; constructor <;> linarith) (by norm_num)
    | 1 => simp at hq; subst hq; exact key _ _ _ _ (by norm_num) (by norm_num) (by rw [abs_lt]; constructor <;> linarith) (by norm_num)
    | 2 => exact absurd rfl hj
    | j + 3 => simp at hq
  | 1 =>
    simp at hi hp; subst hi hp
    refine ⟨_, rfl, fun j q' hj hq => ?_⟩
    match j with
    | 0 => exact absurd rfl hj
    | 1 => simp at hq; subst hq; exact key _ _ _ _ (by norm_num) (by norm_num) (by rw [abs_lt]; constructor <;> linarith) (by norm_num)
    | 2 => simp at hq; subst hq; exact key _ _ _ _ (by norm_num) (by norm_num) (by rw [abs_lt]; constructor <;> linarith) (by norm_num)
    | j + 3 => simp at hq
  | i + 2 => simp at hi

end Gcl
