import Verif.Props.ArgClosest
import Verif.Props.Tag
import Verif.Props.OrderFree
/-! # C131: assignments do not depend on the order of partons and clusters -/
namespace Gcl
set_option autoImplicit false
open Real Spec

/-- There is only one assignment that no other beats. -/
def Spec.UniqueOptimum (n m : Nat) (C : Nat → Nat → ℝ) : Prop :=
  ∀ rows cols rows' cols', Assignment n m rows cols → Optimal n m C rows cols →
    Assignment n m rows' cols' → Optimal n m C rows' cols' → rows = rows' ∧ cols = cols'

/-- A function that permutes the numbers below `n`, with its inverse. -/
structure Permutes (n : Nat) (s t : Nat → Nat) : Prop where
  lt : ∀ i, i < n → s i < n
  lt' : ∀ i, i < n → t i < n
  left : ∀ i, i < n → t (s i) = i
  right : ∀ i, i < n → s (t i) = i

theorem Permutes.symm {n : Nat} {s t : Nat → Nat} (h : Permutes n s t) : Permutes n t s :=
  ⟨h.lt', h.lt, h.right, h.left⟩

theorem permutes_of_perm {idxs : List Nat} {n : Nat} (h : idxs.Perm (List.range n)) :
    Permutes n (fun k => idxs.getD k 0) (fun r => idxs.idxOf r) := by
  obtain ⟨h1, h2, h3, h4⟩ := perm_facts h
  refine ⟨fun i hi => ?_, fun i hi => ?_, fun i hi => ?_, fun i hi => ?_⟩
  · rw [List.getD_eq_getElem?_getD, List.getElem?_eq_getElem (by omega)]
    exact h1 _ (List.getElem_mem _)
  · rw [← h4]; exact List.idxOf_lt_length_iff.2 (h2 i hi)
  · rw [List.getD_eq_getElem?_getD, List.getElem?_eq_getElem (by omega)]
    exact h3.idxOf_getElem i _
  · have : List.idxOf i idxs < idxs.length := List.idxOf_lt_length_iff.2 (h2 i hi)
    rw [List.getD_eq_getElem?_getD, List.getElem?_eq_getElem this]
    simp

theorem gather_eq_map {idxs rows : List Nat} {n : Nat} (h : idxs.length = n) (hr : ∀ r ∈ rows, r < n) :
    gather idxs rows = rows.map (fun k => idxs.getD k 0) := by
  induction rows with
  | nil => rfl
  | cons r rows ih =>
    have h1 : r < idxs.length := by rw [h]; exact hr r (by simp)
    have h2 := ih (fun x hx => hr x (by simp [hx]))
    unfold gather at h2 ⊢
    rw [List.filterMap_cons, List.getElem?_eq_getElem h1]
    simp [h2, List.getElem?_eq_getElem h1]

theorem permutes_nodup {n : Nat} {s t : Nat → Nat} (h : Permutes n s t) {l : List Nat} (hl : ∀ x ∈ l, x < n)
    (hn : l.Nodup) : (l.map s).Nodup := by
  refine List.Nodup.map_on (fun x hx y hy e => ?_) hn
  rw [← h.left x (hl x hx), ← h.left y (hl y hy), e]

theorem transport {n m : Nat} {s t u v : Nat → Nat} (hs : Permutes n s t) (hu : Permutes m u v) {rows cols : List Nat}
    (ha : Assignment n m rows cols) : ∃ rows' cols', Assignment n m rows' cols' ∧
      (rows'.zip cols').Perm ((rows.map s).zip (cols.map u)) := by
  obtain ⟨a1, a2, a3, a4, a5, a6⟩ := ha
  let L := (rows.map s).zip (cols.map u)
  let S := L.mergeSort (fun a b => decide (a.1 ≤ b.1))
  have hp : S.Perm L := List.mergeSort_perm _ _
  have hlen : L.length = min n m := by simp [L, a1, a2]
  have hz : (S.map Prod.fst).zip (S.map Prod.snd) = S := by
    rw [List.zip_map']
    simp
  have hf : (S.map Prod.fst).Perm (rows.map s) := by
    refine (hp.map Prod.fst).trans ?_
    rw [List.map_fst_zip (by simp [a1, a2])]
  have hc : (S.map Prod.snd).Perm (cols.map u) := by
    refine (hp.map Prod.snd).trans ?_
    rw [List.map_snd_zip (by simp [a1, a2])]
  have hrn : (S.map Prod.fst).Nodup :=
    hf.nodup_iff.2 (permutes_nodup hs a4 (a3.imp (fun h => ne_of_lt h)))
  have hsorted : (S.map Prod.fst).Pairwise (· ≤ ·) := by
    rw [List.pairwise_map]
    have := List.pairwise_mergeSort (le := fun (a b : Nat × Nat) => decide (a.1 ≤ b.1))
      (fun a b c => by simp only [decide_eq_true_eq]; exact le_trans)
      (fun a b => by simp only [Bool.or_eq_true, decide_eq_true_eq]; exact le_total _ _) L
    exact this.imp (fun h => by simpa using h)
  refine ⟨S.map Prod.fst, S.map Prod.snd, ⟨by simp [hp.length_eq, hlen], by simp [hp.length_eq, hlen], ?_, ?_, ?_, ?_⟩, ?_⟩
  · have := List.Pairwise.and hsorted hrn
    exact this.imp (fun h => lt_of_le_of_ne h.1 h.2)
  · intro r hr
    obtain ⟨x, hx, rfl⟩ := List.mem_map.1 (hf.mem_iff.1 hr)
    exact hs.lt x (a4 x hx)
  · exact hc.nodup_iff.2 (permutes_nodup hu a6 a5)
  · intro c hcm
    obtain ⟨x, hx, rfl⟩ := List.mem_map.1 (hc.mem_iff.1 hcm)
    exact hu.lt x (a6 x hx)
  · rw [hz]; exact hp

theorem totalCost_perm (C : Nat → Nat → ℝ) {r c r' c' : List Nat} (h : (r.zip c).Perm (r'.zip c')) :
    totalCost C r c = totalCost C r' c' := (h.map _).sum_eq

theorem totalCost_map (C C' : Nat → Nat → ℝ) (s u : Nat → Nat) (n m : Nat)
    (hC : ∀ i j, i < n → j < m → C' i j = C (s i) (u j)) (r c : List Nat) (hr : ∀ x ∈ r, x < n) (hc : ∀ x ∈ c, x < m) :
    totalCost C (r.map s) (c.map u) = totalCost C' r c := by
  unfold totalCost
  rw [List.zip_map, List.map_map]
  congr 1
  apply List.map_congr_left
  intro p hp
  exact (hC p.1 p.2 (hr _ (List.of_mem_zip hp).1) (hc _ (List.of_mem_zip hp).2)).symm

/-- Optimal assignments of a problem and of the reordered problem. -/
theorem reorder_optimal {n m : Nat} {s t u v : Nat → Nat} (hs : Permutes n s t) (hu : Permutes m u v)
    (C C' : Nat → Nat → ℝ) (hC : ∀ i j, i < n → j < m → C' i j = C (s i) (u j)) {rows cols rows' cols' : List Nat}
    (ha : Assignment n m rows cols) (ho : Optimal n m C rows cols) (ha' : Assignment n m rows' cols')
    (ho' : Optimal n m C' rows' cols') :
    totalCost C rows cols = totalCost C (rows'.map s) (cols'.map u) ∧
    (UniqueOptimum n m C → (rows.zip cols).Perm ((rows'.map s).zip (cols'.map u))) := by
  obtain ⟨R, K, h1, h2⟩ := transport hs hu ha'
  obtain ⟨R', K', h3, h4⟩ := transport hs.symm hu.symm ha
  have e1 := totalCost_perm C h2
  have e2 := totalCost_map C C' s u n m hC rows' cols' ha'.2.2.2.1 ha'.2.2.2.2.2
  have e3 := totalCost_perm C' h4
  have e4 : totalCost C' (rows.map t) (cols.map v) = totalCost C rows cols := by
    refine totalCost_map C' C t v n m (fun i j hi hj => ?_) rows cols ha.2.2.2.1 ha.2.2.2.2.2
    rw [hC _ _ (hs.lt' i hi) (hu.lt' j hj), hs.right i hi, hu.right j hj]
  have l1 := ho R K h1
  have l2 := ho' R' K' h3
  have eq : totalCost C rows cols = totalCost C (rows'.map s) (cols'.map u) := by linarith
  refine ⟨eq, fun hq => ?_⟩
  have hopt : Optimal n m C R K := by
    intro r c hrc
    have := ho r c hrc
    linarith
  obtain ⟨rfl, rfl⟩ := hq _ _ _ _ ha ho h1 hopt
  exact h2

theorem popVar_perm {l l' : List ℝ} (h : l.Perm l') : popVar l = popVar l' := by
  simp only [popVar, h.sum_eq, (h.map (fun x => x ^ 2)).sum_eq, h.length_eq]

theorem map_getD_range (js : List Nat) (m : Nat) (h : js.length = m) :
    (List.range m).map (fun k => js.getD k 0) = js := by
  subst h
  apply List.ext_getElem?
  intro k
  by_cases hk : k < js.length
  · simp [hk]
  · simp [hk, List.getElem?_eq_none (by omega : js.length ≤ k)]

theorem range_perm_map {js : List Nat} {m : Nat} (h : js.Perm (List.range m)) :
    ((List.range m).map (fun k => js.getD k 0)).Perm (List.range m) := by
  rw [map_getD_range js m (perm_facts h).2.2.2]; exact h

theorem gather_getD_pt {js : List Nat} {qs : List P4} (h : js.Perm (List.range qs.length)) (j : Nat) (hj : j < qs.length) :
    ((gather qs js).map P4.pt).getD j 0 = (qs.map P4.pt).getD (js.getD j 0) 0 := by
  have hl := (perm_facts h).2.2.2
  have hjs : js[j]? = some (js.getD j 0) := by
    rw [List.getD_eq_getElem?_getD, List.getElem?_eq_getElem (by omega)]; rfl
  have := gather_at h (a := qs) rfl hjs
  simp only [List.getD_eq_getElem?_getD, List.getElem?_map] at this ⊢
  rw [this]

/-- **C131** `arg_closest` of reordered focus elements and candidates, with whatever schedules of the parallel loops,
threads, stored rapidities and solver of the assignment problem: it returns if and only if it does for the original
order, and then both assignments, put in terms of the original positions, have the same total cost.  If only one
assignment is optimal, they are the same. -/
theorem C131_arg_closest (limit : Int) (sched sched' : List (List Write) → List Write) (hs : IsSchedule sched)
    (hs' : IsSchedule sched') (init init' : Nat × Nat → Fl) (lsa lsa' : List (List Fl) → Py (List Nat))
    (hlsa : IsLSA lsa) (hlsa' : IsLSA lsa') (tol : ℝ) (h h' : Heap) (focus candidate focus' candidate' : Nat)
    (threads threads' : Int) (ht : 1 ≤ threads ∧ threads ≤ limit) (ht' : 1 ≤ threads' ∧ threads' ≤ limit)
    (hf : Coherent tol (h focus)) (hc : Coherent tol (h candidate)) (hf' : Coherent tol (h' focus'))
    (hc' : Coherent tol (h' candidate')) (ps qs : List P4) (hps : (h focus).data = ps) (hqs : (h candidate).data = qs)
    (hne : qs ≠ []) (is js : List Nat) (hi : is.Perm (List.range ps.length)) (hj : js.Perm (List.range qs.length))
    (hps' : (h' focus').data = gather ps is) (hqs' : (h' candidate').data = gather qs js) :
    ((∃ cols, (argClosest limit sched init lsa tol h focus candidate threads).1 = .ok cols) ↔
      ∃ cols, (argClosest limit sched' init' lsa' tol h' focus' candidate' threads').1 = .ok cols) ∧
    ∀ cols cols', (argClosest limit sched init lsa tol h focus candidate threads).1 = .ok cols →
      (argClosest limit sched' init' lsa' tol h' focus' candidate' threads').1 = .ok cols' →
      ∃ (D : Nat → Nat → ℝ) (C : Nat → Nat → ℝ) (rows rows' : List Nat),
        (∀ (i j : Nat) (p q : P4), ps[i]? = some p → qs[j]? = some q →
          deltaRCell (p.rapidity tol) (q.rapidity tol) p.xyPol q.xyPol = .fin (D i j)) ∧
        C = assignCost D (fun i => (ps.map P4.pt).getD i 0) (fun j => (qs.map P4.pt).getD j 0) qs.length ∧
        Assignment ps.length qs.length rows cols ∧ Assignment ps.length qs.length rows' cols' ∧
        (ps.length ≤ qs.length → rows = List.range ps.length ∧ rows' = List.range ps.length) ∧
        totalCost C rows cols = totalCost C (gather is rows') (gather js cols') ∧
        (UniqueOptimum ps.length qs.length C →
          (rows.zip cols).Perm ((gather is rows').zip (gather js cols'))) := by
  have li := (perm_facts hi).2.2.2
  have lj := (perm_facts hj).2.2.2
  have lp : (gather ps is).length = ps.length := gather_len hi rfl
  have lq : (gather qs js).length = qs.length := gather_len hj rfl
  have hne' : gather qs js ≠ [] := by
    intro e; rw [e] at lq; exact hne (List.length_eq_zero_iff.1 lq.symm)
  have Hi := permutes_of_perm hi
  have Hj := permutes_of_perm hj
  have geti : ∀ i, i < ps.length → is[i]? = some (is.getD i 0) := fun i h => by
    rw [List.getD_eq_getElem?_getD, List.getElem?_eq_getElem (by omega)]; rfl
  have getj : ∀ j, j < qs.length → js[j]? = some (js.getD j 0) := fun j h => by
    rw [List.getD_eq_getElem?_getD, List.getElem?_eq_getElem (by omega)]; rfl
  have hvar : popVar ((gather qs js).map P4.pt) = popVar (qs.map P4.pt) :=
    popVar_perm ((gather_reorder hj rfl).map _)
  refine ⟨?_, fun cols cols' hr hr' => ?_⟩
  · rw [C57_returns_iff limit sched hs init lsa hlsa tol h focus candidate threads hf hc ps qs hps hqs hne,
      C57_returns_iff limit sched' hs' init' lsa' hlsa' tol h' focus' candidate' threads' hf' hc' _ _ hps' hqs' hne']
    constructor
    · rintro ⟨_, D, h1, h2, h3⟩
      refine ⟨ht', fun i j => D (is.getD i 0) (js.getD j 0), fun i j p q hp hq => ?_, by rwa [hvar], fun i hil => ?_⟩
      · have hil : i < ps.length := lp ▸ (List.getElem?_eq_some_iff.1 hp).1
        have hjl : j < qs.length := lq ▸ (List.getElem?_eq_some_iff.1 hq).1
        rw [gather_at hi rfl (geti i hil)] at hp
        rw [gather_at hj rfl (getj j hjl)] at hq
        exact h1 _ _ p q hp hq
      · rw [lq]
        rw [lp] at hil
        have := h3 _ (Hi.lt i hil)
        rw [← popVar_perm ((range_perm_map hj).map (D (is.getD i 0))), List.map_map] at this
        exact this
    · rintro ⟨_, D, h1, h2, h3⟩
      refine ⟨ht, fun i j => D (is.idxOf i) (js.idxOf j), fun i j p q hp hq => ?_, by rwa [← hvar], fun i hil => ?_⟩
      · have hil : i < ps.length := (List.getElem?_eq_some_iff.1 hp).1
        have hjl : j < qs.length := (List.getElem?_eq_some_iff.1 hq).1
        refine h1 _ _ p q ?_ ?_
        · rw [gather_at hi rfl (geti _ (Hi.lt' i hil))]
          have := Hi.right i hil
          rw [this]; exact hp
        · rw [gather_at hj rfl (getj _ (Hj.lt' j hjl))]
          have := Hj.right j hjl
          rw [this]; exact hq
      · have h3' := h3 (is.idxOf i) (by rw [lp]; exact Hi.lt' i hil)
        rw [lq] at h3'
        rw [← popVar_perm ((range_perm_map hj).map (fun j => D (is.idxOf i) (js.idxOf j))), List.map_map]
        have : (List.range qs.length).map ((fun j => D (is.idxOf i) (js.idxOf j)) ∘ fun k => js.getD k 0) =
            (List.range qs.length).map (D (is.idxOf i)) := by
          apply List.map_congr_left
          intro k hk
          have := Hj.left k (List.mem_range.1 hk)
          simp only [Function.comp_apply, this]
        rw [this]
        exact h3'
  · obtain ⟨D, rows, d1, d2, d3, d4, d5, d6⟩ := C57_returns limit sched hs init lsa hlsa tol h focus candidate threads
      hf hc ps qs hps hqs hne cols hr
    obtain ⟨D', rows', f1, f2, f3, f4, f5, f6⟩ := C57_returns limit sched' hs' init' lsa' hlsa' tol h' focus' candidate'
      threads' hf' hc' _ _ hps' hqs' hne' cols' hr'
    rw [lp, lq] at f4 f5 f6
    have hD : ∀ i j, i < ps.length → j < qs.length → D' i j = D (is.getD i 0) (js.getD j 0) := by
      intro i j hil hjl
      have e1 := f1 i j _ _ (List.getElem?_eq_getElem (by omega)) (List.getElem?_eq_getElem (by omega))
      have g1 := gather_at hi (a := ps) rfl (geti i hil)
      have g2 := gather_at hj (a := qs) rfl (getj j hjl)
      rw [List.getElem?_eq_getElem (by omega)] at g1 g2
      have e2 := d1 _ _ _ _ g1.symm g2.symm
      rw [e2] at e1
      exact (Fl.fin.inj e1).symm
    have hC : ∀ i j, i < ps.length → j < qs.length →
        assignCost D' (fun i => ((gather ps is).map P4.pt).getD i 0) (fun j => ((gather qs js).map P4.pt).getD j 0)
          qs.length i j =
        assignCost D (fun i => (ps.map P4.pt).getD i 0) (fun j => (qs.map P4.pt).getD j 0) qs.length
          (is.getD i 0) (js.getD j 0) := by
      intro i j hil hjl
      unfold assignCost
      beta_reduce
      rw [hD i j hil hjl, gather_getD_pt hi i hil, gather_getD_pt hj j hjl]
      have e1 : popVar ((List.range qs.length).map (D' i)) = popVar ((List.range qs.length).map (D (is.getD i 0))) := by
        rw [← popVar_perm ((range_perm_map hj).map (D (is.getD i 0))), List.map_map]
        congr 1
        apply List.map_congr_left
        intro k hk
        exact hD i k hil (List.mem_range.1 hk)
      have e2 : popVar ((List.range qs.length).map (fun j => ((gather qs js).map P4.pt).getD j 0)) =
          popVar ((List.range qs.length).map (fun j => (qs.map P4.pt).getD j 0)) := by
        rw [← popVar_perm ((range_perm_map hj).map (fun j => (qs.map P4.pt).getD j 0)), List.map_map]
        congr 1
        apply List.map_congr_left
        intro k hk
        exact gather_getD_pt hj k (List.mem_range.1 hk)
      rw [e1, e2]
    obtain ⟨r1, r2⟩ := reorder_optimal Hi Hj _ _ hC d4 d5 f4 f5
    refine ⟨D, _, rows, rows', d1, rfl, d4, f4, fun hle => ⟨(d6 hle).1, (f6 hle).1⟩, ?_⟩
    rw [gather_eq_map li f4.2.2.2.1, gather_eq_map lj f4.2.2.2.2.2]
    exact ⟨r1, r2⟩

theorem zip_range_perm {n : Nat} {c c' : List Nat} (h1 : c.length = n) (h2 : c'.length = n)
    (h : ((List.range n).zip c).Perm ((List.range n).zip c')) : c = c' := by
  have key : ∀ k, k < n → c[k]? = c'[k]? := by
    intro k hk
    have hm : (k, c[k]'(by omega)) ∈ (List.range n).zip c := by
      rw [List.mem_iff_getElem?]
      exact ⟨k, by simp [List.getElem?_zip_eq_some, hk, h1]⟩
    have hm' := h.mem_iff.1 hm
    obtain ⟨i, hi⟩ := List.mem_iff_getElem?.1 hm'
    rw [List.getElem?_zip_eq_some] at hi
    obtain ⟨e1, e2⟩ := hi
    have hin : i < n := by simpa using (List.getElem?_eq_some_iff.1 e1).1
    rw [List.getElem?_range hin] at e1
    cases e1
    rw [e2]
    exact List.getElem?_eq_getElem _
  apply List.ext_getElem?
  intro k
  by_cases hk : k < n
  · exact key k hk
  · rw [List.getElem?_eq_none (by omega), List.getElem?_eq_none (by omega)]

/-- **C131** With as many candidates as focus elements or more and one optimal assignment, every focus element is given
the same candidate in every order of both. -/
theorem C131_arg_closest_unique (limit : Int) (sched sched' : List (List Write) → List Write) (hs : IsSchedule sched)
    (hs' : IsSchedule sched') (init init' : Nat × Nat → Fl) (lsa lsa' : List (List Fl) → Py (List Nat))
    (hlsa : IsLSA lsa) (hlsa' : IsLSA lsa') (tol : ℝ) (h h' : Heap) (focus candidate focus' candidate' : Nat)
    (threads threads' : Int) (ht : 1 ≤ threads ∧ threads ≤ limit) (ht' : 1 ≤ threads' ∧ threads' ≤ limit)
    (hf : Coherent tol (h focus)) (hc : Coherent tol (h candidate)) (hf' : Coherent tol (h' focus'))
    (hc' : Coherent tol (h' candidate')) (ps qs : List P4) (hps : (h focus).data = ps) (hqs : (h candidate).data = qs)
    (hne : qs ≠ []) (is js : List Nat) (hi : is.Perm (List.range ps.length)) (hj : js.Perm (List.range qs.length))
    (hps' : (h' focus').data = gather ps is) (hqs' : (h' candidate').data = gather qs js) (hle : ps.length ≤ qs.length)
    (hu : ∀ D : Nat → Nat → ℝ, (∀ (i j : Nat) (p q : P4), ps[i]? = some p → qs[j]? = some q →
        deltaRCell (p.rapidity tol) (q.rapidity tol) p.xyPol q.xyPol = .fin (D i j)) →
      UniqueOptimum ps.length qs.length
        (assignCost D (fun i => (ps.map P4.pt).getD i 0) (fun j => (qs.map P4.pt).getD j 0) qs.length))
    (cols cols' : List Nat) (hr : (argClosest limit sched init lsa tol h focus candidate threads).1 = .ok cols)
    (hr' : (argClosest limit sched' init' lsa' tol h' focus' candidate' threads').1 = .ok cols') (a i : Nat)
    (ha : is[a]? = some i) : ∃ b j, cols'[a]? = some b ∧ js[b]? = some j ∧ cols[i]? = some j := by
  obtain ⟨D, C, rows, rows', d1, rfl, a1, a2, a3, -, a5⟩ := (C131_arg_closest limit sched sched' hs hs' init init' lsa lsa'
    hlsa hlsa' tol h h' focus candidate focus' candidate' threads threads' ht ht' hf hc hf' hc' ps qs hps hqs hne is js hi hj
    hps' hqs').2 cols cols' hr hr'
  obtain ⟨rfl, rfl⟩ := a3 hle
  have hperm := a5 (hu D d1)
  have li := (perm_facts hi).2.2.2
  have lj := (perm_facts hj).2.2.2
  have lc := a1.2.1
  have lc' := a2.2.1
  rw [← li, gather_range] at hperm
  have hal : a < cols'.length := by
    have := (List.getElem?_eq_some_iff.1 ha).1
    omega
  have hbm : cols'[a] < qs.length := a2.2.2.2.2.2 _ (List.getElem_mem _)
  have hb : js[cols'[a]]? = some (js[cols'[a]]'(by omega)) := List.getElem?_eq_getElem _
  refine ⟨cols'[a], _, List.getElem?_eq_getElem _, hb, ?_⟩
  have hg : (gather js cols')[a]? = some (js[cols'[a]]'(by omega)) := by
    rw [gather_getElem? js cols' (fun x hx => by rw [lj]; exact a2.2.2.2.2.2 x hx), List.getElem?_eq_getElem hal]
    exact hb
  have hm : (i, js[cols'[a]]'(by omega)) ∈ is.zip (gather js cols') := by
    rw [List.mem_iff_getElem?]
    exact ⟨a, by rw [List.getElem?_zip_eq_some]; exact ⟨ha, hg⟩⟩
  obtain ⟨k, hk⟩ := List.mem_iff_getElem?.1 (hperm.mem_iff.2 hm)
  rw [List.getElem?_zip_eq_some] at hk
  obtain ⟨e1, e2⟩ := hk
  have hkn : k < is.length := by simpa using (List.getElem?_eq_some_iff.1 e1).1
  rw [List.getElem?_range hkn] at e1
  cases e1
  exact e2

/-- `monte_carlo_tag` returns exactly if its checks pass and the assignment returns. -/
theorem tag_opens (limit : Int) (sched : List (List Write) → List Write) (hs : IsSchedule sched)
    (init : Nat × Nat → Fl) (lsa : List (List Fl) → Py (List Nat)) (hlsa : IsLSA lsa) (tol : ℝ) (nm : Int → String)
    (p : TagParticles) (a : TagArgs) (hd : p.pdg.length = p.status.length)
    (hp : p.pmu.length = p.status.length) (hf : p.final.length = p.status.length) (hmin : minI32 ∉ p.pdg)
    (hq : ¬ (Given a.blacklist ∧ a.whitelist = some [])) (out : Dict (List Bool)) :
    monteCarloTag limit sched init lsa tol nm p a = .ok out ↔
      a.clusterMasks ≠ [] ∧ (a.outgoing = true ∨ a.intermediate = true) ∧ ¬ (Given a.blacklist ∧ Given a.whitelist) ∧
      tagPositions p.pdg p.status a ≠ [] ∧ (tagPositions p.pdg p.status a).length ≤ a.clusterMasks.length ∧
      (∀ m ∈ a.clusterMasks, m.length = (clusteredMomenta p a).length) ∧
      ∃ idxs, (argClosest limit sched init lsa tol
          (fun o => if o = 0 then ⟨gather p.pmu (tagPositions p.pdg p.status a), none⟩ else ⟨jetsOf p a, none⟩) 0 1 1).1 =
            .ok idxs ∧
        tagGroup nm (gather p.pdg (tagPositions p.pdg p.status a)) a.clusterMasks idxs = .ok out := by
  have key : ∀ (m0 : List Bool) (ms : List (List Bool)), a.clusterMasks = m0 :: ms →
      (a.outgoing = true ∨ a.intermediate = true) → ¬ (Given a.blacklist ∧ Given a.whitelist) →
      tagPositions p.pdg p.status a ≠ [] → (tagPositions p.pdg p.status a).length ≤ a.clusterMasks.length →
      (∀ m ∈ a.clusterMasks, m.length = (clusteredMomenta p a).length) →
      monteCarloTag limit sched init lsa tol nm p a =
        match (argClosest limit sched init lsa tol
          (fun o => if o = 0 then ⟨gather p.pmu (tagPositions p.pdg p.status a), none⟩ else ⟨jetsOf p a, none⟩) 0 1 1).1 with
        | .error e => .error e
        | .ok idxs => tagGroup nm (gather p.pdg (tagPositions p.pdg p.status a)) a.clusterMasks idxs := by
    intro m0 ms hm hoi hb hS hle hl
    rw [(tag_reduce limit sched init lsa tol nm p a hd hp hf hmin m0 ms hm hoi hb hq).2 (fun _ => hS), if_neg (by omega),
      if_neg (by rw [not_not]; exact (hl m0 (by simp [hm])).symm)]
    unfold tagRest
    rw [(C68_aggregate _ _).1 hl]
    rfl
  constructor
  · intro hout
    have herr := C58_errors limit sched init lsa tol nm p a hd hp hf hmin
    have hne : a.clusterMasks ≠ [] := by
      intro h; rw [herr.1 h] at hout; cases hout
    have hoi : a.outgoing = true ∨ a.intermediate = true := by
      by_contra h
      rw [herr.2.1 (by cases ho : a.outgoing <;> simp_all) (by cases ho : a.intermediate <;> simp_all)] at hout
      cases hout
    have hboth : ¬ (Given a.blacklist ∧ Given a.whitelist) := by
      rintro ⟨h1, h2⟩
      rw [herr.2.2.1 h1 h2] at hout
      cases hout
    obtain ⟨m0, ms, hm⟩ := List.exists_cons_of_ne_nil hne
    obtain ⟨r1, r2⟩ := tag_reduce limit sched init lsa tol nm p a hd hp hf hmin m0 ms hm hoi hboth hq
    have hS : Given a.blacklist ∨ Given a.whitelist → tagPositions p.pdg p.status a ≠ [] := by
      intro hg h
      rw [r1 hg h] at hout
      cases hout
    have h0 := hout
    rw [r2 hS] at hout
    split at hout
    · cases hout
    next hle =>
    split at hout
    · cases hout
    next hl0 =>
    have hlens : ∀ m ∈ a.clusterMasks, m.length = (clusteredMomenta p a).length := by
      by_contra h
      push Not at h
      unfold tagRest at hout
      rw [(C68_aggregate _ _).2 h] at hout
      cases hout
    unfold tagRest at hout
    rw [(C68_aggregate _ _).1 hlens] at hout
    simp only at hout
    split at hout
    · cases hout
    next idxs hidx =>
    have hSne : tagPositions p.pdg p.status a ≠ [] := by
      intro h
      have hjl : (jetsOf p a).length = a.clusterMasks.length := by simp [jetsOf]
      rw [h] at hidx
      obtain ⟨D, rows, d1, d2, d3, d4, d5, d6⟩ := C57_returns limit sched hs init lsa hlsa tol _ 0 1 1
        (Or.inl rfl) (Or.inl rfl) [] (jetsOf p a) rfl rfl
        (by intro h; rw [h] at hjl; exact hne (List.eq_nil_of_length_eq_zero hjl.symm)) idxs hidx
      have : idxs = [] := List.eq_nil_of_length_eq_zero (by simpa using d4.2.1)
      rw [this] at hout
      cases hout
    exact ⟨hne, hoi, hboth, hSne, by omega, hlens, idxs, hidx, hout⟩
  · rintro ⟨hne, hoi, hb, hS, hle, hl, idxs, h1, h2⟩
    obtain ⟨m0, ms, hm⟩ := List.exists_cons_of_ne_nil hne
    rw [key m0 ms hm hoi hb hS hle hl, h1]
    exact h2

theorem dict_set_map {α β : Type} (f : α → β) (d : Dict α) (k : String) (v : α) :
    Dict.set (d.map (fun e => (e.1, f e.2))) k (f v) = (Dict.set d k v).map (fun e => (e.1, f e.2)) := by
  induction d with
  | nil => rfl
  | cons e d ih =>
    obtain ⟨k0, v0⟩ := e
    simp only [List.map_cons, Dict.set]
    split
    · simp
    · simp [ih]

theorem ofPairs_map {α β : Type} (f : α → β) (l : List (String × α)) :
    Dict.ofPairs (l.map (fun e => (e.1, f e.2))) = (Dict.ofPairs l).map (fun e => (e.1, f e.2)) := by
  unfold Dict.ofPairs
  have : ∀ (d : Dict α), (l.map (fun e => (e.1, f e.2))).foldl (fun d p => Dict.set d p.1 p.2)
      (d.map (fun e => (e.1, f e.2))) = (l.foldl (fun d p => Dict.set d p.1 p.2) d).map (fun e => (e.1, f e.2)) := by
    induction l with
    | nil => intro d; rfl
    | cons e l ih => intro d; simp only [List.map_cons, List.foldl_cons]; rw [dict_set_map, ih]
  exact this []

/-- **C131** `monte_carlo_tag` with the cluster masks in another order `js`, and the clustered particles in another order
`ks` (the masks reordered alike), with whatever schedule and solver: it returns if and only if it does for the original
order, and if only one assignment is optimal, the groups have the same keys in the same order, each with the same cluster
(its mask reordered like the particles). -/
theorem C131_tag (limit : Int) (hlim : 1 ≤ limit) (sched sched' : List (List Write) → List Write) (hs : IsSchedule sched)
    (hs' : IsSchedule sched') (init init' : Nat × Nat → Fl) (lsa lsa' : List (List Fl) → Py (List Nat))
    (hlsa : IsLSA lsa) (hlsa' : IsLSA lsa') (tol : ℝ) (nm : Int → String) (p : TagParticles) (a a' : TagArgs)
    (hd : p.pdg.length = p.status.length) (hp : p.pmu.length = p.status.length) (hf : p.final.length = p.status.length)
    (hmin : minI32 ∉ p.pdg) (hq : ¬ (Given a.blacklist ∧ a.whitelist = some []))
    (hlens : ∀ m ∈ a.clusterMasks, m.length = (clusteredMomenta p a).length)
    (js ks : List Nat) (hj : js.Perm (List.range a.clusterMasks.length))
    (hk : ks.Perm (List.range (clusteredMomenta p a).length))
    (hcl : clusteredMomenta p a' = gather (clusteredMomenta p a) ks)
    (ha' : a' = { a with clusterMasks := (gather a.clusterMasks js).map (fun m => gather m ks),
                         clusteredPmu := a'.clusteredPmu }) :
    ((∃ out, monteCarloTag limit sched init lsa tol nm p a = .ok out) ↔
      ∃ out, monteCarloTag limit sched' init' lsa' tol nm p a' = .ok out) ∧
    ((∀ D : Nat → Nat → ℝ,
        (∀ (i j : Nat) (x q : P4), (gather p.pmu (tagPositions p.pdg p.status a))[i]? = some x →
          (jetsOf p a)[j]? = some q → deltaRCell (x.rapidity tol) (q.rapidity tol) x.xyPol q.xyPol = .fin (D i j)) →
        UniqueOptimum (tagPositions p.pdg p.status a).length a.clusterMasks.length
          (assignCost D (fun i => ((gather p.pmu (tagPositions p.pdg p.status a)).map P4.pt).getD i 0)
            (fun j => ((jetsOf p a).map P4.pt).getD j 0) a.clusterMasks.length)) →
      ∀ out out', monteCarloTag limit sched init lsa tol nm p a = .ok out →
        monteCarloTag limit sched' init' lsa' tol nm p a' = .ok out' →
        out' = out.map (fun e => (e.1, gather e.2 ks))) := by
  have hS : tagPositions p.pdg p.status a' = tagPositions p.pdg p.status a := by rw [ha']; rfl
  have hjl : (jetsOf p a).length = a.clusterMasks.length := by simp [jetsOf]
  have lj := (perm_facts hj).2.2.2
  have hjm : ∀ j ∈ js, j < a.clusterMasks.length := (perm_facts hj).1
  have hlg : (gather a.clusterMasks js).length = a.clusterMasks.length := gather_len hj rfl
  have hcm : a'.clusterMasks = (gather a.clusterMasks js).map (fun m => gather m ks) := by rw [ha']
  have hjets : jetsOf p a' = gather (jetsOf p a) js := by
    unfold jetsOf
    rw [hcm, hcl, gather_map, List.map_map]
    apply List.map_congr_left
    intro m hm
    exact total_perm (selected_perm hk rfl (hlens m (mem_of_mem_gather hm)))
  have hpl : (gather p.pmu (tagPositions p.pdg p.status a)).length = (tagPositions p.pdg p.status a).length :=
    gather_length _ _ (fun j hj => by rw [hp]; exact tagPositions_lt j hj)
  have hlens' : ∀ m ∈ a'.clusterMasks, m.length = (clusteredMomenta p a').length := by
    rw [hcm, hcl]
    intro m hm
    obtain ⟨m', hm', rfl⟩ := List.mem_map.1 hm
    rw [gather_len hk (hlens m' (mem_of_mem_gather hm')), gather_len hk rfl]
  have hb1 : a'.blacklist = a.blacklist := by rw [ha']
  have hb2 : a'.whitelist = a.whitelist := by rw [ha']
  have hb3 : a'.outgoing = a.outgoing := by rw [ha']
  have hb4 : a'.intermediate = a.intermediate := by rw [ha']
  have hq' : ¬ (Given a'.blacklist ∧ a'.whitelist = some []) := by rw [hb1, hb2]; exact hq
  have hcl' : a'.clusterMasks.length = a.clusterMasks.length := by rw [hcm, List.length_map, hlg]
  have O := tag_opens limit sched hs init lsa hlsa tol nm p a hd hp hf hmin hq
  have O' := tag_opens limit sched' hs' init' lsa' hlsa' tol nm p a' hd hp hf hmin hq'
  rw [hS, hb1, hb2, hb3, hb4, hcl', hjets] at O'
  have hmain : ∀ hcne : a.clusterMasks ≠ [], _ := fun hcne =>
    C131_arg_closest limit sched sched' hs hs' init init' lsa lsa' hlsa hlsa' tol
    (fun o => if o = 0 then ⟨gather p.pmu (tagPositions p.pdg p.status a), none⟩ else ⟨jetsOf p a, none⟩)
    (fun o => if o = 0 then ⟨gather p.pmu (tagPositions p.pdg p.status a), none⟩ else ⟨gather (jetsOf p a) js, none⟩)
    0 1 0 1 1 1 ⟨le_refl _, hlim⟩ ⟨le_refl _, hlim⟩ (Or.inl rfl) (Or.inl rfl) (Or.inl rfl) (Or.inl rfl)
    (gather p.pmu (tagPositions p.pdg p.status a)) (jetsOf p a) rfl rfl
    (by intro h; rw [h] at hjl; exact hcne (List.eq_nil_of_length_eq_zero hjl.symm))
    (List.range (gather p.pmu (tagPositions p.pdg p.status a)).length) js (List.Perm.refl _) (by rw [hjl]; exact hj)
    (by rw [gather_range]; rfl) rfl
  have group : ∀ (cols : List Nat) (pdg : List Int) (masks : List (List Bool)), cols ≠ [] → (∀ c ∈ cols, c < masks.length) →
      tagGroup nm pdg masks cols = .ok (Dict.ofPairs ((pdgsToKeys (pdg.map nm)).zip (gather masks cols))) := by
    intro cols pdg masks hne hc
    unfold tagGroup
    cases cols with
    | nil => exact absurd rfl hne
    | cons c cs =>
      simp only
      rw [if_pos (by rw [List.all_eq_true]; intro x hx; exact decide_eq_true (hc x hx))]
  have cols_ok : ∀ cols rows, Assignment (gather p.pmu (tagPositions p.pdg p.status a)).length (jetsOf p a).length rows cols →
      tagPositions p.pdg p.status a ≠ [] → a.clusterMasks ≠ [] → cols ≠ [] ∧ ∀ c ∈ cols, c < a.clusterMasks.length := by
    intro cols rows hA h1 h2
    refine ⟨?_, fun c hc => by rw [← hjl]; exact hA.2.2.2.2.2 c hc⟩
    intro e
    have := hA.2.1
    rw [e, hpl, hjl] at this
    have e1 : (tagPositions p.pdg p.status a).length ≠ 0 := fun h => h1 (List.eq_nil_of_length_eq_zero h)
    have e2 : a.clusterMasks.length ≠ 0 := fun h => h2 (List.eq_nil_of_length_eq_zero h)
    simp at this
    omega
  have hne_iff : a'.clusterMasks ≠ [] ↔ a.clusterMasks ≠ [] := by
    rw [← List.length_pos_iff, ← List.length_pos_iff, hcl']
  refine ⟨?_, fun hu out out' hout hout' => ?_⟩
  · constructor
    · rintro ⟨out, hout⟩
      obtain ⟨h1, h2, h3, h4, h5, h6, idxs, h7, h8⟩ := (O out).1 hout
      obtain ⟨m1, m2⟩ := hmain h1
      obtain ⟨cols', hc'⟩ := m1.1 ⟨idxs, h7⟩
      obtain ⟨-, -, -, rows', -, -, -, hA, -⟩ := m2 _ _ h7 hc'
      obtain ⟨w1, w2⟩ := cols_ok _ _ hA h4 h1
      exact ⟨_, (O' _).2 ⟨hne_iff.2 h1, h2, h3, h4, h5, hlens', cols', hc', group _ _ _ w1 (by rw [hcl']; exact w2)⟩⟩
    · rintro ⟨out, hout⟩
      obtain ⟨h1, h2, h3, h4, h5, h6, idxs, h7, h8⟩ := (O' out).1 hout
      have h1 := hne_iff.1 h1
      obtain ⟨m1, m2⟩ := hmain h1
      obtain ⟨cols', hc'⟩ := m1.2 ⟨idxs, h7⟩
      obtain ⟨-, -, rows', -, -, -, hA, -⟩ := m2 _ _ hc' h7
      obtain ⟨w1, w2⟩ := cols_ok _ _ hA h4 h1
      exact ⟨_, (O _).2 ⟨h1, h2, h3, h4, h5, hlens, cols', hc', group _ _ _ w1 w2⟩⟩
  · obtain ⟨h1, h2, h3, h4, h5, h6, idxs, h7, h8⟩ := (O out).1 hout
    obtain ⟨-, -, -, -, -, -, idxs', h7', h8'⟩ := (O' out').1 hout'
    obtain ⟨D, C, rows, rows', d1, rfl, hA, hA', hrows, -, huniq⟩ := (hmain h1).2 _ _ h7 h7'
    obtain ⟨w1, w2⟩ := cols_ok _ _ hA h4 h1
    obtain ⟨w1', w2'⟩ := cols_ok _ _ hA' h4 h1
    obtain ⟨rfl, rfl⟩ := hrows (by rw [hpl, hjl]; exact h5)
    have hun := hu D d1
    rw [← hpl, ← hjl] at hun
    have hp2 := huniq hun
    have hrr : gather (List.range (gather p.pmu (tagPositions p.pdg p.status a)).length)
        (List.range (gather p.pmu (tagPositions p.pdg p.status a)).length) =
        List.range (gather p.pmu (tagPositions p.pdg p.status a)).length := by
      have := gather_range (List.range (gather p.pmu (tagPositions p.pdg p.status a)).length)
      rwa [List.length_range] at this
    rw [hrr] at hp2
    have hlc : idxs.length = (gather p.pmu (tagPositions p.pdg p.status a)).length := by
      rw [hA.2.1, hpl, hjl]; omega
    have hlc' : idxs'.length = (gather p.pmu (tagPositions p.pdg p.status a)).length := by
      rw [hA'.2.1, hpl, hjl]; omega
    have heq := zip_range_perm hlc (by rw [gather_length _ _ (fun x hx => by rw [lj]; exact w2' x hx)]; exact hlc') hp2
    rw [group _ _ _ w1 w2] at h8
    rw [group _ _ _ w1' (by rw [hcl']; exact w2')] at h8'
    cases h8
    cases h8'
    rw [heq, hcm, gather_map, ← ofPairs_map (fun m => gather m ks), ← gather_gather _ _ _ hjm (fun x hx => by rw [lj]; exact w2' x hx)]
    congr 1
    rw [List.zip_map_right]
    rfl

theorem unique_of_two (C : Nat → Nat → ℝ) (h : C 0 0 ≠ C 0 1) : UniqueOptimum 1 2 C := by
  have form : ∀ rows cols, Assignment 1 2 rows cols → rows = [0] ∧ (cols = [0] ∨ cols = [1]) := by
    rintro rows cols ⟨h1, h2, -, h4, -, h6⟩
    obtain ⟨r, rfl⟩ := List.length_eq_one_iff.1 (show rows.length = 1 by simpa using h1)
    obtain ⟨c, rfl⟩ := List.length_eq_one_iff.1 (show cols.length = 1 by simpa using h2)
    have := h4 r (by simp)
    have := h6 c (by simp)
    exact ⟨by congr; omega, by rcases (by omega : c = 0 ∨ c = 1) with rfl | rfl <;> simp⟩
  have A : ∀ c, c < 2 → Assignment 1 2 [0] [c] := fun c hc => by simpa [Assignment] using hc
  have cost : ∀ c, totalCost C [0] [c] = C 0 c := fun c => by simp [totalCost]
  intro rows cols rows' cols' ha ho ha' ho'
  obtain ⟨rfl, hc⟩ := form _ _ ha
  obtain ⟨rfl, hc'⟩ := form _ _ ha'
  refine ⟨rfl, ?_⟩
  have l1 := ho [0] cols' ha'
  have l2 := ho' [0] cols ha
  rcases hc with rfl | rfl <;> rcases hc' with rfl | rfl <;> first
    | rfl
    | (rw [cost, cost] at l1 l2; exact absurd (le_antisymm l1 l2) (by first | exact h | exact h.symm))

/-- One focus element on top of the first of two candidates: the costs differ. -/
theorem exUnique (D : Nat → Nat → ℝ)
    (h : ∀ (i j : Nat) (p q : P4), ([⟨3, 0, 0, 5⟩] : List P4)[i]? = some p →
      ([⟨3, 0, 0, 5⟩, ⟨0, 1, 0, 2⟩] : List P4)[j]? = some q →
      deltaRCell (p.rapidity 0) (q.rapidity 0) p.xyPol q.xyPol = .fin (D i j)) :
    UniqueOptimum 1 2 (assignCost D (fun i => (([⟨3, 0, 0, 5⟩] : List P4).map P4.pt).getD i 0)
      (fun j => (([⟨3, 0, 0, 5⟩, ⟨0, 1, 0, 2⟩] : List P4).map P4.pt).getD j 0) 2) := by
  have h0 := h 0 0 _ _ rfl rfl
  have pt0 : P4.pt ⟨3, 0, 0, 5⟩ = 3 := by
    rw [pt_eq]
    show sqrt (3 ^ 2 + 0 ^ 2) = 3
    rw [show ((3 : ℝ) ^ 2 + 0 ^ 2) = 3 ^ 2 by norm_num, sqrt_sq (by norm_num)]
  have pt1 : P4.pt ⟨0, 1, 0, 2⟩ = 1 := by
    rw [pt_eq]
    show sqrt (0 ^ 2 + 1 ^ 2) = 1
    norm_num
  have r0 : P4.rapidity 0 ⟨3, 0, 0, 5⟩ = .fin 0 := by
    simp [P4.rapidity, rapidityOf, copysign]
  have a0 : ((P4.xyPol ⟨3, 0, 0, 5⟩) * (starRingEnd ℂ) (P4.xyPol ⟨3, 0, 0, 5⟩)).arg = 0 := by
    have : (P4.xyPol ⟨3, 0, 0, 5⟩) * (starRingEnd ℂ) (P4.xyPol ⟨3, 0, 0, 5⟩) = ((9 : ℝ) : ℂ) := by
      apply Complex.ext <;> simp [P4.xyPol]; norm_num
    rw [this, Complex.arg_ofReal_of_nonneg (by norm_num)]
  have d0 : D 0 0 = 0 := by
    simp [deltaRCell, r0, a0, Fl.sub, hypotFl] at h0
    exact h0.symm
  apply unique_of_two
  unfold assignCost
  simp only [d0, List.map_cons, List.map_nil, List.getD_cons_zero, List.getD_cons_succ, pt0, pt1,
    List.range_succ_eq_map, List.range_zero, popVar, List.sum_cons, List.sum_nil, List.length_cons, List.length_nil]
  have e1 : Real.exp (-(D 0 1) ^ 2 / (2 * ((0 ^ 2 + (D 0 1 ^ 2 + 0)) / ((0 + 1 + 1 : ℕ) : ℝ) -
      ((0 + (D 0 1 + 0)) / ((0 + 1 + 1 : ℕ) : ℝ)) ^ 2))) ≤ 1 := by
    rw [Real.exp_le_one_iff]
    apply div_nonpos_of_nonpos_of_nonneg
    · nlinarith [sq_nonneg (D 0 1)]
    · push_cast; nlinarith [sq_nonneg (D 0 1)]
  have e2 : Real.exp (-((3 : ℝ) - 1) ^ 2 / (2 * ((3 ^ 2 + (1 ^ 2 + 0)) / ((0 + 1 + 1 : ℕ) : ℝ) -
      ((3 + (1 + 0)) / ((0 + 1 + 1 : ℕ) : ℝ)) ^ 2))) < 1 := by
    rw [Real.exp_lt_one_iff]; norm_num
  have e3 : Real.exp (-(0 : ℝ) ^ 2 / (2 * ((0 ^ 2 + (D 0 1 ^ 2 + 0)) / ((0 + 1 + 1 : ℕ) : ℝ) -
      ((0 + (D 0 1 + 0)) / ((0 + 1 + 1 : ℕ) : ℝ)) ^ 2))) = 1 := by norm_num
  have e4 : Real.exp (-((3 : ℝ) - 3) ^ 2 / (2 * ((3 ^ 2 + (1 ^ 2 + 0)) / ((0 + 1 + 1 : ℕ) : ℝ) -
      ((3 + (1 + 0)) / ((0 + 1 + 1 : ℕ) : ℝ)) ^ 2))) = 1 := by norm_num
  intro hc
  nlinarith

/-- A parton on top of the first of two final particles. -/
noncomputable def exNear : TagParticles :=
  { pmu := [⟨3, 0, 0, 5⟩, ⟨3, 0, 0, 5⟩, ⟨0, 1, 0, 2⟩], pdg := [5, 211, 211], status := [-23, 1, 1],
    final := [false, true, true] }

/-- Witness for `C131_arg_closest`, `C131_arg_closest_unique` and `C131_tag`: both orders of two clusters and both orders
of the two clustered particles give the same group. -/
example (limit : Int) (hlim : 1 ≤ limit) (sched sched' : List (List Write) → List Write) (hs : IsSchedule sched)
    (hs' : IsSchedule sched') (init init' : Nat × Nat → Fl) (lsa lsa' : List (List Fl) → Py (List Nat))
    (hlsa : IsLSA lsa) (hlsa' : IsLSA lsa') (nm : Int → String) :
    ∃ k m, monteCarloTag limit sched init lsa 0 nm exNear { clusterMasks := [[true, false], [false, true]] } = .ok [(k, m)] ∧
      monteCarloTag limit sched' init' lsa' 0 nm exNear
        { clusterMasks := [[true, false], [false, true]],
          clusteredPmu := some [⟨0, 1, 0, 2⟩, ⟨3, 0, 0, 5⟩] } = .ok [(k, gather m [1, 0])] := by
  set a : TagArgs := { clusterMasks := [[true, false], [false, true]] } with ha
  set a' : TagArgs := { clusterMasks := [[true, false], [false, true]],
                        clusteredPmu := some [⟨0, 1, 0, 2⟩, ⟨3, 0, 0, 5⟩] } with ha'
  have hS : tagPositions exNear.pdg exNear.status a = [0] := by decide +kernel
  have hcl : clusteredMomenta exNear a = [⟨3, 0, 0, 5⟩, ⟨0, 1, 0, 2⟩] := by
    simp [clusteredMomenta, ha, exNear, selected]
  have hjets : jetsOf exNear a = [⟨3, 0, 0, 5⟩, ⟨0, 1, 0, 2⟩] := by
    unfold jetsOf
    rw [hcl]
    simp [ha, selected, total]
  have hps : gather exNear.pmu [0] = [⟨3, 0, 0, 5⟩] := by simp [gather, exNear]
  have nb : ¬ Given a.blacklist := by rintro ⟨_, _, h⟩; cases h
  have hlens : ∀ m ∈ a.clusterMasks, m.length = (clusteredMomenta exNear a).length := by
    rw [hcl]; simp [ha]
  have r0 : ∀ x y e : ℝ, 0 < e → P4.rapidity 0 ⟨x, y, 0, e⟩ = .fin 0 := by
    intro x y e he
    simp [P4.rapidity, rapidityOf, copysign, he.ne', he]
  have a0 : ((P4.xyPol ⟨3, 0, 0, 5⟩) * (starRingEnd ℂ) (P4.xyPol ⟨3, 0, 0, 5⟩)).arg = 0 := by
    have : (P4.xyPol ⟨3, 0, 0, 5⟩) * (starRingEnd ℂ) (P4.xyPol ⟨3, 0, 0, 5⟩) = ((9 : ℝ) : ℂ) := by
      apply Complex.ext <;> simp [P4.xyPol]; norm_num
    rw [this, Complex.arg_ofReal_of_nonneg (by norm_num)]
  have a1 : ((P4.xyPol ⟨3, 0, 0, 5⟩) * (starRingEnd ℂ) (P4.xyPol ⟨0, 1, 0, 2⟩)).arg = -(π / 2) := by
    have : (P4.xyPol ⟨3, 0, 0, 5⟩) * (starRingEnd ℂ) (P4.xyPol ⟨0, 1, 0, 2⟩) = ((3 : ℝ) : ℂ) * -Complex.I := by
      apply Complex.ext <;> simp [P4.xyPol]
    rw [this, Complex.arg_real_mul _ (by norm_num), Complex.arg_neg_I]
  have hR : ∃ out, monteCarloTag limit sched init lsa 0 nm exNear a = .ok out := by
    apply C58_returns limit hlim sched hs init lsa hlsa 0 nm exNear a rfl rfl rfl (by decide) (Or.inl rfl)
      (fun h => nb h.1) hlens (by rw [hS]; simp) (by rw [hS]; simp [ha]) (fun _ j => if j = 0 then 0 else π / 2)
    · rw [hS, hps, hjets]
      intro i j p q hp hq
      match i, j with
      | 0, 0 =>
        simp only [List.getElem?_cons_zero, Option.some.injEq] at hp hq
        subst hp hq
        simp [deltaRCell, r0, a0, Fl.sub, hypotFl]
      | 0, 1 =>
        simp only [List.getElem?_cons_zero, List.getElem?_cons_succ, Option.some.injEq] at hp hq
        subst hp hq
        simp only [deltaRCell, r0 _ _ _ (by norm_num : (0 : ℝ) < 2), r0 _ _ _ (by norm_num : (0 : ℝ) < 5), a1, Fl.sub,
          hypotFl]
        rw [show ((0 : ℝ) - 0) ^ 2 + (-(π / 2)) ^ 2 = (π / 2) ^ 2 by ring, sqrt_sq (by positivity)]
        simp
      | 0, j + 2 => simp at hq
      | i + 1, _ => simp at hp
    · rw [hjets]; exact exAssign.choose_spec.2.1
    · rw [hS]
      intro i _
      simp only [ha, List.length_cons, List.length_nil, List.range_succ_eq_map, List.range_zero, List.map_cons, List.map_nil,
        popVar]
      have := Real.pi_pos
      simp
      intro h
      have : π ^ 2 = 0 := by linarith
      nlinarith
  have h131 := C131_tag limit hlim sched sched' hs hs' init init' lsa lsa' hlsa hlsa' 0 nm exNear a a' rfl rfl rfl
    (by decide) (fun h => nb h.1) hlens [1, 0] [1, 0] (by simp only [ha]; decide) (by rw [hcl]; decide)
    (by rw [hcl]; simp [ha', clusteredMomenta, gather]) (by simp [ha, ha', gather])
  obtain ⟨out, hout⟩ := hR
  obtain ⟨out', hout'⟩ := h131.1.1 ⟨out, hout⟩
  have heq := h131.2 (by rw [hS, hps, hjets]; exact exUnique) out out' hout hout'
  obtain ⟨-, -, -, -, -, -, idxs, h7, h8⟩ := (tag_opens limit sched hs init lsa hlsa 0 nm exNear a rfl rfl rfl (by decide)
    (fun h => nb h.1) out).1 hout
  rw [hS, hps, hjets] at h7
  obtain ⟨D, rows, -, -, -, hA, -, -⟩ := C57_returns limit sched hs init lsa hlsa 0 _ 0 1 1 (Or.inl rfl) (Or.inl rfl)
    [⟨3, 0, 0, 5⟩] [⟨3, 0, 0, 5⟩, ⟨0, 1, 0, 2⟩] rfl rfl (by simp) idxs h7
  obtain ⟨c, rfl⟩ := List.length_eq_one_iff.1 (show idxs.length = 1 by simpa using hA.2.1)
  have hc : c < 2 := hA.2.2.2.2.2 c (by simp)
  have h1 : ∃ k m, out = [(k, m)] := by
    have hk : pdgsToKeys (((gather exNear.pdg [0])).map nm) = [nm 5] ∨ ∃ k, pdgsToKeys (((gather exNear.pdg [0])).map nm) = [k] := by
      right
      exact List.length_eq_one_iff.1 (by simp [pdgsToKeys, gather, exNear])
    rw [hS] at h8
    obtain ⟨k, hk⟩ : ∃ k, pdgsToKeys (((gather exNear.pdg [0])).map nm) = [k] := by
      rcases hk with hk | hk
      · exact ⟨_, hk⟩
      · exact hk
    simp only [tagGroup, hk] at h8
    rcases (by omega : c = 0 ∨ c = 1) with rfl | rfl <;>
      · simp [ha, gather, Dict.ofPairs, Dict.set] at h8
        exact ⟨_, _, h8.symm⟩
  obtain ⟨k, m, rfl⟩ := h1
  refine ⟨k, m, hout, ?_⟩
  rw [hout', heq]
  rfl

/-- A solver that prefers the first of two columns of equal cost. -/
theorem exists_lsa_first : ∃ lsa, IsLSA lsa ∧ ∀ C : Nat → Nat → ℝ, C 0 0 = C 0 1 → lsa (matrixOf 1 2 C) = .ok [0] := by
  classical
  obtain ⟨lsa, h1, h2⟩ := exists_lsa
  refine ⟨fun M => if ∃ x : ℝ, M = [[.fin x, .fin x]] then .ok [0] else lsa M, ⟨fun n m C => ?_, fun M hM => ?_⟩, fun C hC => ?_⟩
  · by_cases hx : ∃ x : ℝ, matrixOf n m C = [[.fin x, .fin x]]
    · obtain ⟨x, hx⟩ := hx
      have hn : n = 1 := by simpa [matrixOf] using congrArg List.length hx
      subst hn
      have hrow : (List.range m).map (fun j => Fl.fin (C 0 j)) = [.fin x, .fin x] := by simpa [matrixOf] using hx
      have hm : m = 2 := by simpa using congrArg List.length hrow
      subst hm
      have hc : C 0 0 = x ∧ C 0 1 = x := by simpa [List.range_succ_eq_map] using hrow
      refine ⟨[0], [0], ?_, by simp [Assignment], ?_⟩
      · dsimp only
        rw [if_pos ⟨x, hx⟩]
      · rintro rows cols ⟨a1, a2, -, a4, -, a6⟩
        obtain ⟨r, rfl⟩ := List.length_eq_one_iff.1 (show rows.length = 1 by simpa using a1)
        obtain ⟨c, rfl⟩ := List.length_eq_one_iff.1 (show cols.length = 1 by simpa using a2)
        have hr := a4 r (by simp)
        have hcl := a6 c (by simp)
        obtain rfl : r = 0 := by omega
        rcases (by omega : c = 0 ∨ c = 1) with rfl | rfl <;> simp [totalCost, hc]
    · obtain ⟨rows, cols, e1, e2⟩ := h1 n m C
      refine ⟨rows, cols, ?_, e2⟩
      dsimp only
      rw [if_neg hx]; exact e1
  · dsimp only
    rw [if_neg, h2 M hM]
    rintro ⟨x, rfl⟩
    obtain ⟨r, hr, hn⟩ := hM
    simp only [List.mem_singleton] at hr
    subst hr
    simp at hn
  · dsimp only
    rw [if_pos ⟨C 0 0, by simp [matrixOf, List.range_succ_eq_map, ← hC]⟩]

theorem argClosest_lsa (limit : Int) (sched : List (List Write) → List Write)
    (hs : IsSchedule sched) (init : Nat × Nat → Fl) (lsa : List (List Fl) → Py (List Nat)) (tol : ℝ) (h : Heap)
    (focus candidate : Nat) (threads : Int) (hf : Coherent tol (h focus)) (hc : Coherent tol (h candidate))
    (ht : 1 ≤ threads ∧ threads ≤ limit) (ps qs : List P4) (hps : (h focus).data = ps)
    (hqs : (h candidate).data = qs) (D : Nat → Nat → ℝ)
    (hD : ∀ (i j : Nat) (p q : P4), ps[i]? = some p → qs[j]? = some q →
      deltaRCell (p.rapidity tol) (q.rapidity tol) p.xyPol q.xyPol = .fin (D i j))
    (hpt : popVar (qs.map P4.pt) ≠ 0)
    (hrow : ∀ i : Nat, i < ps.length → popVar ((List.range qs.length).map (D i)) ≠ 0) (cols : List Nat)
    (hl : lsa (matrixOf ps.length qs.length (assignCost D (fun i => (ps.map P4.pt).getD i 0)
        (fun j => (qs.map P4.pt).getD j 0) qs.length)) = .ok cols) :
    (argClosest limit sched init lsa tol h focus candidate threads).1 = .ok cols := by
  obtain ⟨r1, r2, r3, r4⟩ := readRapidity_spec tol h focus hf
  obtain ⟨s1, s2, s3, s4⟩ := readRapidity_spec tol (readRapidity tol h focus).2 candidate (r4 _ hc)
  obtain ⟨mem, k1, k2⟩ := assignmentCost_spec tol sched hs init ps qs D hD hpt hrow
  unfold argClosest
  simp only [setNumThreads, ht, and_self, if_true, r1, s1, s2, r2, hps, hqs, k1, k2, hl]

/-- **C131** The order of the candidates matters if several assignments are optimal: for one focus element as far from
the first candidate in transverse momentum as from the second in azimuth (in units of the spread), a solver that prefers
the first column assigns whichever candidate comes first. -/
theorem C131_false : ∃ (lsa : List (List Fl) → Py (List Nat)) (p a b : P4), IsLSA lsa ∧ a ≠ b ∧
    ∀ (limit : Int) (sched : List (List Write) → List Write) (init : Nat × Nat → Fl), 1 ≤ limit → IsSchedule sched →
      (argClosest limit sched init lsa 0 (fun o => if o = 0 then ⟨[p], none⟩ else ⟨[a, b], none⟩) 0 1 1).1 = .ok [0] ∧
      (argClosest limit sched init lsa 0 (fun o => if o = 0 then ⟨[p], none⟩ else ⟨[b, a], none⟩) 0 1 1).1 = .ok [0] := by
  obtain ⟨lsa, h1, h2⟩ := exists_lsa_first
  refine ⟨lsa, ⟨1, 0, 0, 2⟩, ⟨3, 0, 0, 5⟩, ⟨0, 1, 0, 2⟩, h1, fun h => by simpa using congrArg P4.x h, fun limit sched init hlim hs => ?_⟩
  have r0 : ∀ x y e : ℝ, 0 < e → P4.rapidity 0 ⟨x, y, 0, e⟩ = .fin 0 := by
    intro x y e he
    simp [P4.rapidity, rapidityOf, copysign, he.ne', he]
  have a0 : ((P4.xyPol ⟨1, 0, 0, 2⟩) * (starRingEnd ℂ) (P4.xyPol ⟨3, 0, 0, 5⟩)).arg = 0 := by
    have : (P4.xyPol ⟨1, 0, 0, 2⟩) * (starRingEnd ℂ) (P4.xyPol ⟨3, 0, 0, 5⟩) = ((3 : ℝ) : ℂ) := by
      apply Complex.ext <;> simp [P4.xyPol]
    rw [this, Complex.arg_ofReal_of_nonneg (by norm_num)]
  have a1 : ((P4.xyPol ⟨1, 0, 0, 2⟩) * (starRingEnd ℂ) (P4.xyPol ⟨0, 1, 0, 2⟩)).arg = -(π / 2) := by
    have : (P4.xyPol ⟨1, 0, 0, 2⟩) * (starRingEnd ℂ) (P4.xyPol ⟨0, 1, 0, 2⟩) = -Complex.I := by
      apply Complex.ext <;> simp [P4.xyPol]
    rw [this, Complex.arg_neg_I]
  have q0 : P4.pt ⟨1, 0, 0, 2⟩ = 1 := by
    rw [pt_eq]
    show sqrt (1 ^ 2 + 0 ^ 2) = 1
    norm_num
  have q1 : P4.pt ⟨3, 0, 0, 5⟩ = 3 := by
    rw [pt_eq]
    show sqrt (3 ^ 2 + 0 ^ 2) = 3
    rw [show ((3 : ℝ) ^ 2 + 0 ^ 2) = 3 ^ 2 by norm_num, sqrt_sq (by norm_num)]
  have q2 : P4.pt ⟨0, 1, 0, 2⟩ = 1 := by
    rw [pt_eq]
    show sqrt (0 ^ 2 + 1 ^ 2) = 1
    norm_num
  have c0 : deltaRCell (P4.rapidity 0 ⟨1, 0, 0, 2⟩) (P4.rapidity 0 ⟨3, 0, 0, 5⟩) (P4.xyPol ⟨1, 0, 0, 2⟩)
      (P4.xyPol ⟨3, 0, 0, 5⟩) = .fin 0 := by
    simp [deltaRCell, r0, a0, Fl.sub, hypotFl]
  have c1 : deltaRCell (P4.rapidity 0 ⟨1, 0, 0, 2⟩) (P4.rapidity 0 ⟨0, 1, 0, 2⟩) (P4.xyPol ⟨1, 0, 0, 2⟩)
      (P4.xyPol ⟨0, 1, 0, 2⟩) = .fin (π / 2) := by
    simp only [deltaRCell, r0 _ _ _ (by norm_num : (0 : ℝ) < 2), a1, Fl.sub, hypotFl]
    rw [show ((0 : ℝ) - 0) ^ 2 + (-(π / 2)) ^ 2 = (π / 2) ^ 2 by ring, sqrt_sq (by positivity)]
  have hpi := Real.pi_pos
  have v : ∀ (D : Nat → Nat → ℝ) (x y : P4), D 0 0 = 0 ∧ D 0 1 = π / 2 ∧ x.pt = 3 ∧ y.pt = 1 ∨
      D 0 0 = π / 2 ∧ D 0 1 = 0 ∧ x.pt = 1 ∧ y.pt = 3 →
      (∀ (i j : Nat) (p q : P4), ([⟨1, 0, 0, 2⟩] : List P4)[i]? = some p → [x, y][j]? = some q →
        deltaRCell (p.rapidity 0) (q.rapidity 0) p.xyPol q.xyPol = .fin (D i j)) →
      (argClosest limit sched init lsa 0 (fun o => if o = 0 then ⟨[⟨1, 0, 0, 2⟩], none⟩ else ⟨[x, y], none⟩) 0 1 1).1 =
        .ok [0] := by
    intro D x y hD hcell
    apply argClosest_lsa limit sched hs init lsa 0 _ 0 1 1 (Or.inl rfl) (Or.inl rfl) ⟨le_refl _, hlim⟩ [⟨1, 0, 0, 2⟩] [x, y]
      rfl rfl D hcell
    · rcases hD with ⟨-, -, e3, e4⟩ | ⟨-, -, e3, e4⟩ <;>
      · simp only [List.map_cons, List.map_nil, e3, e4, popVar]
        norm_num
    · intro i hi
      obtain rfl : i = 0 := by simpa using hi
      rcases hD with ⟨e1, e2, -, -⟩ | ⟨e1, e2, -, -⟩ <;>
      · simp only [List.length_cons, List.length_nil, List.range_succ_eq_map, List.range_zero, List.map_cons, List.map_nil,
          e1, e2, popVar]
        simp
        intro h
        have : π ^ 2 = 0 := by linarith
        nlinarith
    · apply h2
      rcases hD with ⟨e1, e2, e3, e4⟩ | ⟨e1, e2, e3, e4⟩ <;>
      · simp only [assignCost, List.length_cons, List.length_nil, List.range_succ_eq_map, List.range_zero, List.map_cons,
          List.map_nil, List.getD_cons_zero, List.getD_cons_succ, e1, e2, e3, e4, q0, popVar]
        norm_num
        try field_simp
        try ring_nf
  constructor
  · refine v (fun _ j => if j = 0 then 0 else π / 2) _ _ (Or.inl ⟨by simp, by simp, q1, q2⟩) (fun i j p q hp hq => ?_)
    match i, j with
    | 0, 0 =>
      simp only [List.getElem?_cons_zero, Option.some.injEq] at hp hq
      subst hp hq
      simpa using c0
    | 0, 1 =>
      simp only [List.getElem?_cons_zero, List.getElem?_cons_succ, Option.some.injEq] at hp hq
      subst hp hq
      simpa using c1
    | 0, j + 2 => simp at hq
    | i + 1, _ => simp at hp
  · refine v (fun _ j => if j = 0 then π / 2 else 0) _ _ (Or.inr ⟨by simp, by simp, q2, q1⟩) (fun i j p q hp hq => ?_)
    match i, j with
    | 0, 0 =>
      simp only [List.getElem?_cons_zero, Option.some.injEq] at hp hq
      subst hp hq
      simpa using c1
    | 0, 1 =>
      simp only [List.getElem?_cons_zero, List.getElem?_cons_succ, Option.some.injEq] at hp hq
      subst hp hq
      simpa using c0
    | 0, j + 2 => simp at hq
    | i + 1, _ => simp at hp

end Gcl
