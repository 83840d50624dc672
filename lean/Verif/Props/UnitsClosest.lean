import Verif.Props.UnitsShapes
/-! # C160: `arg_closest` and `monte_carlo_tag` in another unit -/
namespace Gcl
set_option autoImplicit false
open Spec Real

theorem allFin_fin (l : List ℝ) : allFin (l.map Fl.fin) = some l := by
  induction l with
  | nil => rfl
  | cons a l ih => simp only [List.map_cons, allFin, ih]

theorem variance_units (c : ℝ) (l : List ℝ) : variance (l.map (c * ·)) = c ^ 2 * variance l := by
  unfold variance
  simp only [List.length_map, List.map_map]
  have h1 : (l.map (c * ·)).sum = c * l.sum := by rw [List.sum_map_mul_left]; simp
  have h2 : l.map ((fun x => (x - (l.map (c * ·)).sum / l.length) ^ 2) ∘ fun x => c * x) =
      l.map (fun x => c ^ 2 * (x - l.sum / l.length) ^ 2) := by
    apply List.map_congr_left
    intro x _
    simp only [Function.comp]
    rw [h1]; ring
  rw [h2, List.sum_map_mul_left]; ring

/-- How the reciprocal variance of the transverse momenta is converted. -/
noncomputable def Spec.recipUnits (c : ℝ) : Fl → Fl
  | .fin r => .fin (r / c ^ 2)
  | _ => .nan

theorem varRecip_units {c : ℝ} (hc : 0 < c) (l : List ℝ) :
    varRecip ((l.map (c * ·)).map Fl.fin) = (varRecip (l.map Fl.fin)).map (recipUnits c) := by
  unfold varRecip
  rw [allFin_fin, allFin_fin]
  cases l with
  | nil => rfl
  | cons a l =>
    simp only [List.map_cons]
    have h := variance_units c (a :: l)
    simp only [List.map_cons] at h
    rw [h]
    by_cases h0 : variance (a :: l) = 0
    · simp [h0, Except.map]
    · have : c ^ 2 * variance (a :: l) ≠ 0 := mul_ne_zero (by positivity) h0
      simp only [if_neg h0, if_neg this, Except.map, recipUnits]
      congr 2
      field_simp

theorem gaussCost_units {c : ℝ} (hc : 0 < c) (r : Fl) (p q : ℝ) :
    gaussCost (recipUnits c r) ((Fl.fin (c * p)).sub (.fin (c * q))) = gaussCost r ((Fl.fin p).sub (.fin q)) := by
  cases r with
  | fin r =>
    simp only [recipUnits, Fl.sub, gaussCost]
    congr 3
    field_simp
  | _ => rfl

theorem costIters_units {c : ℝ} (hc : 0 < c) {mem mem' : Nat × Nat → Fl} (pt2 : List ℝ) (vr : Fl) (ps : List P4) (i0 : Nat)
    (hm : ∀ k : Nat, k < ps.length → rowOf mem' pt2.length (i0 + k) = rowOf mem pt2.length (i0 + k)) :
    costIters mem' ((pt2.map (c * ·)).map Fl.fin) (recipUnits c vr) i0 (ps.map (scale c)) =
      costIters mem (pt2.map Fl.fin) vr i0 ps := by
  induction ps generalizing i0 with
  | nil => rfl
  | cons p ps ih =>
    have h0 := hm 0 (by simp)
    simp only [Nat.add_zero] at h0
    simp only [List.map_cons, costIters, norm_xyPol]
    rw [pt_scale hc]
    have e : costIter mem' ((pt2.map (c * ·)).map Fl.fin) (recipUnits c vr) i0 (c * p.pt) =
        costIter mem (pt2.map Fl.fin) vr i0 p.pt := by
      unfold costIter
      simp only [List.length_map, h0]
      cases varRecip (rowOf mem pt2.length i0) with
      | error e => rfl
      | ok v =>
        simp only
        congr 1
        rw [List.map_map, List.zip_map_right, List.zip_map_right, List.zipIdx_map, List.zipIdx_map, List.map_map, List.map_map]
        apply List.map_congr_left
        intro q _
        simp only [Function.comp, Prod.map, id]
        rw [gaussCost_units hc]
    rw [e, ih (i0 + 1) (fun k hk => by
      have := hm (k + 1) (by simpa using hk)
      rwa [show i0 + (k + 1) = i0 + 1 + k by omega] at this)]

/-- **C160** `arg_closest` gives the same result: the transverse momenta enter relative to their spread.  For all schedules,
numbers of threads and contents of uninitialised memory. -/
theorem C160_closest {c : ℝ} (hc : 0 < c) (limit : Int) (sched sched' : List (List Write) → List Write) (hs : IsSchedule sched)
    (hs' : IsSchedule sched') (init init' : Nat × Nat → Fl) (lsa : List (List Fl) → Py (List Nat)) (tol : ℝ)
    (h h' : Heap) (focus candidate focus' candidate' : Nat) (threads threads' : Int)
    (ht : 1 ≤ threads ∧ threads ≤ limit) (ht' : 1 ≤ threads' ∧ threads' ≤ limit)
    (hf : Coherent tol (h focus)) (hcd : Coherent tol (h candidate))
    (hf' : Coherent (c * tol) (h' focus')) (hcd' : Coherent (c * tol) (h' candidate'))
    (ef : (h' focus').data = (h focus).data.map (scale c))
    (ec : (h' candidate').data = (h candidate).data.map (scale c)) :
    (argClosest limit sched' init' lsa (c * tol) h' focus' candidate' threads').1 =
      (argClosest limit sched init lsa tol h focus candidate threads).1 := by
  obtain ⟨r1, r2, r3, r4⟩ := readRapidity_spec tol h focus hf
  obtain ⟨s1, s2, s3, s4⟩ := readRapidity_spec tol (readRapidity tol h focus).2 candidate (r4 _ hcd)
  obtain ⟨r1', r2', r3', r4'⟩ := readRapidity_spec (c * tol) h' focus' hf'
  obtain ⟨s1', s2', s3', s4'⟩ := readRapidity_spec (c * tol) (readRapidity (c * tol) h' focus').2 candidate' (r4' _ hcd')
  unfold argClosest
  simp only [setNumThreads, ht, ht', and_self, if_true, r1, s1, s2, r2, r1', s1', s2', r2', ef, ec]
  generalize (h focus).data = ps at *
  generalize (h candidate).data = qs at *
  unfold assignmentCost
  simp only [cloud_zip, norm_xyPol]
  set mem0 := runWrites init (sched (deltaRLoop false (cloudOf false tol ps) (cloudOf false tol qs))) with hmem0
  set mem0' := runWrites init' (sched' (deltaRLoop false (cloudOf false (c * tol) (ps.map (scale c)))
    (cloudOf false (c * tol) (qs.map (scale c))))) with hmem0'
  have hd : ∀ i j : Nat, i < ps.length → j < qs.length → mem0' (i, j) = mem0 (i, j) := by
    intro i j hi hj
    rw [hmem0, dist_mem tol sched hs init ps qs i j ps[i] qs[j] (by simp) (by simp), hmem0',
      dist_mem (c * tol) sched' hs' init' (ps.map (scale c)) (qs.map (scale c)) i j (scale c ps[i]) (scale c qs[j])
        (by simp [hi]) (by simp [hj])]
    exact (C160_distance hc tol _ _).2
  have hrow : ∀ i : Nat, i < ps.length → rowOf mem0' qs.length i = rowOf mem0 qs.length i := by
    intro i hi
    unfold rowOf
    exact List.map_congr_left (fun j hj => hd i j hi (List.mem_range.1 hj))
  have ept : (qs.map (scale c)).map (fun q => Fl.fin q.pt) = ((qs.map P4.pt).map (c * ·)).map Fl.fin := by
    simp only [List.map_map]
    exact List.map_congr_left (fun q hq => by simp [pt_scale hc])
  have ept0 : qs.map (fun q => Fl.fin q.pt) = (qs.map P4.pt).map Fl.fin := by
    simp only [List.map_map]; rfl
  rw [ept, ept0, varRecip_units hc]
  cases hv : varRecip ((qs.map P4.pt).map Fl.fin) with
  | error e => rfl
  | ok vr =>
    simp only [Except.map]
    rw [costIters_units hc (qs.map P4.pt) vr ps 0 (mem := mem0) (mem' := mem0') (by
      intro k hk
      rw [Nat.zero_add, List.length_map]
      exact hrow k hk)]
    cases hits : costIters mem0 ((qs.map P4.pt).map Fl.fin) vr 0 ps with
    | error e => rfl
    | ok its =>
      simp only [List.length_map]
      congr 1
      apply List.map_congr_left
      intro i hi
      have hi := List.mem_range.1 hi
      unfold rowOf
      apply List.map_congr_left
      intro j hj
      have hj := List.mem_range.1 hj
      choose vd hvd using fun k (hk : k < ps.length) => costIters_rows hits k hk
      obtain ⟨its', e1, n1, n2, n3⟩ := costIters_spec mem0 ((qs.map P4.pt).map Fl.fin) vr ps 0
        (fun k => if hk : k < ps.length then vd k hk else .nan) (by
          intro k hk
          have := hvd k hk
          simp only [Nat.zero_add] at this ⊢
          rw [dif_pos hk, this])
      rw [hits] at e1
      cases e1
      have := n3 i j ps[i] (.fin qs[j].pt) (by simp) (by simp [hj])
      rw [Nat.zero_add] at this
      rw [schedule_mem hs n1 this, schedule_mem hs' n1 this]

/-- **C160** `monte_carlo_tag` gives the same group. -/
theorem C160_tag {c : ℝ} (hc : 0 < c) (limit : Int) (hlim : 1 ≤ limit) (sched sched' : List (List Write) → List Write)
    (hs : IsSchedule sched) (hs' : IsSchedule sched') (init init' : Nat × Nat → Fl)
    (lsa : List (List Fl) → Py (List Nat)) (tol : ℝ) (nm : Int → String) (p : TagParticles) (a : TagArgs) :
    monteCarloTag limit sched' init' lsa (c * tol) nm { p with pmu := p.pmu.map (scale c) }
        { a with clusteredPmu := a.clusteredPmu.map (List.map (scale c)) } =
      monteCarloTag limit sched init lsa tol nm p a := by
  have hcl : ∀ a' : TagArgs, a'.clusteredPmu = a.clusteredPmu.map (List.map (scale c)) →
      clusteredOf a' { p with pmu := p.pmu.map (scale c) } = (clusteredOf a p).map (List.map (scale c)) := by
    intro a' ha'
    unfold clusteredOf
    rw [ha']
    cases a.clusteredPmu with
    | none => simp only [Option.map_none]; exact apply_map (scale c) _ _
    | some ps => rfl
  unfold monteCarloTag
  simp only
  cases hcm : a.clusterMasks with
  | nil => rfl
  | cons m0 ms =>
    simp only
    cases hpn : portionNames a.outgoing a.intermediate with
    | nil => rfl
    | cons n0 ns =>
      simp only
      cases portionMask p.status (n0 :: ns) with
      | error e => rfl
      | ok pm =>
        simp only
        rw [apply_map]
        cases hP : (Key.mask pm).apply p.pmu with
        | error e => rfl
        | ok hard0 =>
          simp only [Except.map]
          cases (Key.mask pm).apply p.pdg with
          | error e => rfl
          | ok pdg0 =>
            simp only
            have hT' := fun x y => tagFilter_map (scale c) a
              { a with clusterMasks := m0 :: ms, clusteredPmu := a.clusteredPmu.map (List.map (scale c)) } rfl rfl rfl x y
            rw [hcl _ rfl, hT']
            cases hT : tagFilter a hard0 pdg0 with
            | error e => rfl
            | ok r =>
              obtain ⟨hard, pdg⟩ := r
              simp only [Except.map]
              cases hC : clusteredOf a p with
              | error e => rfl
              | ok cl =>
                simp only [List.length_map]
                split
                · rfl
                · split
                  · rfl
                  · rw [aggregate_map (scale c) (total_units c)]
                    cases hA : aggregateMomenta cl (m0 :: ms) with
                    | error e => rfl
                    | ok jets =>
                      simp only [Except.map]
                      have key := C160_closest hc limit sched sched' hs hs' init init' lsa tol
                        (fun o => if o = 0 then ⟨hard, none⟩ else ⟨jets, none⟩)
                        (fun o => if o = 0 then ⟨hard.map (scale c), none⟩ else ⟨jets.map (scale c), none⟩) 0 1 0 1 1 1
                        ⟨le_refl _, hlim⟩ ⟨le_refl _, hlim⟩ (Or.inl rfl) (Or.inl rfl) (Or.inl rfl) (Or.inl rfl)
                        rfl rfl
                      rw [key]

end Gcl
