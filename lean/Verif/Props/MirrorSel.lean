import Verif.Props.Mirror
import Verif.Props.UnitsClosest
import Verif.Props.UnitsFastjet
/-! # C162: assignments, selections and event shapes in a mirror -/
namespace Gcl
set_option autoImplicit false
open Spec Real

/-! ## Assignments -/

/-- **C162** `arg_closest` gives the same result in a mirror along the beam, and in one across it if no record has vanishing `z` and
energy; for all schedules, numbers of threads and contents of uninitialised memory. -/
theorem C162_closest {f : P4 → P4} (hflip : f = flipY ∨ f = flipZ) (limit : Int) (sched sched' : List (List Write) → List Write)
    (hs : IsSchedule sched) (hs' : IsSchedule sched') (init init' : Nat × Nat → Fl) (lsa : List (List Fl) → Py (List Nat)) {tol : ℝ}
    (h0 : 0 ≤ tol) (h h' : Heap) (focus candidate focus' candidate' : Nat) (threads threads' : Int)
    (ht : 1 ≤ threads ∧ threads ≤ limit) (ht' : 1 ≤ threads' ∧ threads' ≤ limit)
    (hf : Coherent tol (h focus)) (hc : Coherent tol (h candidate))
    (hf' : Coherent tol (h' focus')) (hc' : Coherent tol (h' candidate'))
    (ef : (h' focus').data = (h focus).data.map f) (ec : (h' candidate').data = (h candidate).data.map f)
    (hF : f = flipZ → ∀ p ∈ (h focus).data, Lively tol p) (hC : f = flipZ → ∀ p ∈ (h candidate).data, Lively tol p) :
    (argClosest limit sched' init' lsa tol h' focus' candidate' threads').1 =
      (argClosest limit sched init lsa tol h focus candidate threads).1 := by
  refine argClosest_agree limit sched sched' hs hs' init init' lsa tol h h' focus candidate focus' candidate' threads threads'
    ht ht' hf hc hf' hc' f ef ec ?_ ?_ ?_
  · rcases hflip with rfl | rfl
    · exact fun p _ => flipY_pt p
    · exact fun p _ => flipZ_pt p
  · rcases hflip with rfl | rfl
    · exact fun p _ => flipY_pt p
    · exact fun p _ => flipZ_pt p
  · intro p hp q hq
    rcases hflip with rfl | rfl
    · rw [flipY_rapidity, flipY_rapidity, cell_conj]
    · exact cell_rap_flipZ h0 p q (hF rfl p hp) (hC rfl q hq)

/-- **C162** `monte_carlo_tag` gives the same group in a mirror along the beam. -/
theorem C162_tag (limit : Int) (hlim : 1 ≤ limit) (sched sched' : List (List Write) → List Write)
    (hs : IsSchedule sched) (hs' : IsSchedule sched') (init init' : Nat × Nat → Fl)
    (lsa : List (List Fl) → Py (List Nat)) (tol : ℝ) (nm : Int → String) (p : TagParticles) (a : TagArgs) :
    monteCarloTag limit sched' init' lsa tol nm { p with pmu := p.pmu.map flipY }
        { a with clusteredPmu := a.clusteredPmu.map (List.map flipY) } =
      monteCarloTag limit sched init lsa tol nm p a :=
  tag_agree limit hlim sched sched' hs hs' init init' lsa tol nm p a flipY total_flipY flipY_pt
    (fun _ _ q _ sel _ => by rw [flipY_rapidity, flipY_rapidity, cell_conj])

/-- **C162** And in one across the beam, if the records and the sums of clustered records have a `z` or an energy. -/
theorem C162_tag_across (limit : Int) (hlim : 1 ≤ limit) (sched sched' : List (List Write) → List Write)
    (hs : IsSchedule sched) (hs' : IsSchedule sched') (init init' : Nat × Nat → Fl)
    (lsa : List (List Fl) → Py (List Nat)) {tol : ℝ} (h0 : 0 ≤ tol) (nm : Int → String) (p : TagParticles) (a : TagArgs)
    (hp : ∀ q ∈ p.pmu, Lively tol q)
    (hcl : ∀ cl, clusteredOf a p = .ok cl → ∀ sel : List P4, (∀ r ∈ sel, r ∈ cl) → Lively tol (total sel)) :
    monteCarloTag limit sched' init' lsa tol nm { p with pmu := p.pmu.map flipZ }
        { a with clusteredPmu := a.clusteredPmu.map (List.map flipZ) } =
      monteCarloTag limit sched init lsa tol nm p a :=
  tag_agree limit hlim sched sched' hs hs' init init' lsa tol nm p a flipZ total_flipZ flipZ_pt
    (fun cl h q hq sel hsel => cell_rap_flipZ h0 q (total sel) (hp q hq) (hcl cl h sel hsel))

theorem weightedDist_flip {f : P4 → P4} (hflip : f = flipY ∨ f = flipZ) (e : ℝ) (p h : P4) :
    weightedDist e (f p) (f h) = weightedDist e p h := by
  unfold weightedDist
  rcases hflip with rfl | rfl
  · rw [flipY_pt, flipY_eta, flipY_eta, cell_conj]
  · rw [flipZ_pt, cell_flipZ]

/-- **C162** `partition_descendants` gives the same result in both mirrors. -/
theorem C162_partition {f : P4 → P4} (hflip : f = flipY ∨ f = flipZ) (ptExp : ℝ) (pmu : List P4) (final : List Bool)
    (status : List Int) (es : List (Int × Int)) (hier : Dict Mask) :
    partitionDescendants (weightedDist ptExp) (pmu.map f) final status es hier =
      partitionDescendants (weightedDist ptExp) pmu final status es hier := by
  apply partition_congr
  intro a _ b _ d _
  rw [weightedDist_flip hflip, weightedDist_flip hflip]

/-! ## Pruning -/

theorem npHypot_neg (a b : Fl) : npHypot (flNeg a) b = npHypot a b := by
  cases a <;> cases b <;> simp [npHypot, flNeg]

theorem npHypot_neg_right (a b : Fl) : npHypot a (flNeg b) = npHypot a b := by
  cases a <;> cases b <;> simp [npHypot, flNeg]

theorem npHypot_ang (a b : Fl) : npHypot a (angNeg b) = npHypot a b := by
  cases b with
  | fin x =>
    simp only [angNeg]
    split_ifs
    · rfl
    · exact npHypot_neg_right a (.fin x)
  | pinf => exact npHypot_neg_right a .pinf
  | ninf => exact npHypot_neg_right a .ninf
  | nan => exact npHypot_neg_right a .nan

theorem exp_angNeg (x : ℝ) : ∀ y, angNeg (.fin x) = .fin y →
    Complex.exp (y * Complex.I) = (starRingEnd ℂ) (Complex.exp (x * Complex.I)) := by
  intro y h
  simp only [angNeg] at h
  split_ifs at h with hx
  · cases h
    subst hx
    rw [← Complex.exp_conj]
    simp [Complex.exp_pi_mul_I, Complex.exp_neg]
  · cases h
    rw [← Complex.exp_conj]; simp

theorem within_flip (across : Bool) (radius : ℝ) (ctr : Fl × Fl) (p : P4) :
    withinCentre radius (flipCentre across ctr) (Spec.flip across p) = withinCentre radius ctr p := by
  unfold withinCentre
  cases across with
  | true =>
    simp only [flipCentre, Spec.flip, if_true]
    rw [flipZ_eta, sub_neg_neg, npHypot_neg]; rfl
  | false =>
    simp only [flipCentre, Spec.flip, Bool.false_eq_true, if_false]
    rw [flipY_eta]
    have : angleFrom (flipY p).xyPol (angNeg ctr.2) = angNeg (angleFrom p.xyPol ctr.2) := by
      cases h : ctr.2 with
      | fin x =>
        have : ∃ y, angNeg (.fin x) = .fin y := by
          simp only [angNeg]; split_ifs <;> exact ⟨_, rfl⟩
        obtain ⟨y, hy⟩ := this
        rw [hy]
        simp only [angleFrom]
        rw [exp_angNeg x y hy, flipY_xyPol, ← map_mul, arg_conj_eq]
      | _ => rfl
    rw [this, npHypot_ang]

theorem isWithin_flip (across : Bool) {tol : ℝ} (h0 : 0 ≤ tol) (ps : List P4) (radius : ℝ) (centre : Option (Fl × Fl)) :
    isWithin tol (ps.map (Spec.flip across)) radius (centre.map (flipCentre across)) = isWithin tol ps radius centre := by
  have hr : resultantCoords tol (ps.map (Spec.flip across)) true = flipCentre across (resultantCoords tol ps true) := by
    cases across with
    | true => exact (C162_sums h0 ps true).2.2.2.2.2.1 (Or.inl rfl)
    | false => exact (C162_sums h0 ps true).2.2.2.2.2.2.1
  unfold isWithin
  rw [List.map_map]
  cases centre with
  | none =>
    simp only [Option.map_none, hr]
    exact List.map_congr_left (fun p _ => within_flip across radius _ p)
  | some c =>
    simp only [Option.map_some]
    exact List.map_congr_left (fun p _ => within_flip across radius _ p)

/-- **C162** `centroid_prune` keeps the same particles, with the mirrored centre if one is given. -/
theorem C162_prune (across : Bool) {tol : ℝ} (h0 : 0 ≤ tol) (pmu : List P4) (radius : ℝ) (mask : Option (List Bool))
    (centre : Option (Fl × Fl)) :
    centroidPrune tol (pmu.map (Spec.flip across)) radius mask (centre.map (flipCentre across)) =
      centroidPrune tol pmu radius mask centre := by
  unfold centroidPrune
  cases mask with
  | none => simp only [isWithin_flip across h0]
  | some m =>
    simp only
    rw [apply_map]
    cases (Key.mask m).apply pmu with
    | error e => rfl
    | ok sel => simp only [Except.map, isWithin_flip across h0]

theorem pruneLoop_flip (across : Bool) {tol : ℝ} (h0 : 0 ≤ tol) (radius : ℝ) (pmu : List P4) (hard : List Bool)
    (leaves : Dict (List String)) : ∀ (ks : List String) (hier : Mask),
    pruneLoop tol (pmu.map (Spec.flip across)) radius hard leaves ks hier = pruneLoop tol pmu radius hard leaves ks hier
  | [], _ => rfl
  | k :: ks, hier => by
    unfold pruneLoop
    cases Dict.get? leaves k with
    | none => rfl
    | some path =>
      simp only
      cases hier.leafAt path with
      | none => rfl
      | some leaf =>
        simp only
        have hl : leafCentre tol (pmu.map (Spec.flip across)) hard leaf = (leafCentre tol pmu hard leaf).map (flipCentre across) := by
          unfold leafCentre
          cases bcast2 (· && ·) hard leaf with
          | error e => rfl
          | ok m =>
            simp only
            rw [apply_map]
            cases hm : (Key.mask m).apply pmu with
            | error e => rfl
            | ok sel =>
              simp only [Except.map]
              match sel with
              | [] => rfl
              | _ :: _ :: _ => rfl
              | [q] =>
                cases across with
                | true => simp [Spec.flip, flipCentre, flipZ_eta]; rfl
                | false => simp [Spec.flip, flipCentre, flipY_eta, flipY_phi]
        rw [hl]
        cases leafCentre tol pmu hard leaf with
        | error e => rfl
        | ok ctr =>
          simp only [Except.map]
          have := C162_prune across h0 pmu radius (some leaf) (some ctr)
          rw [Option.map_some] at this
          rw [this]
          cases centroidPrune tol pmu radius (some leaf) (some ctr) with
          | error e => rfl
          | ok d => exact pruneLoop_flip across h0 radius pmu hard leaves ks _

/-- **C162** `clusters` gives the same masks. -/
theorem C162_clusters (across : Bool) (ptExp : ℝ) (setIter : List String → List String) (nm : Int → String)
    {tol : ℝ} (h0 : 0 ≤ tol) (radius : ℝ) (g : ClusterGraph) :
    clusters (weightedDist ptExp) setIter nm tol radius { g with pmu := g.pmu.map (Spec.flip across) } =
      clusters (weightedDist ptExp) setIter nm tol radius g := by
  have hf : Spec.flip across = flipY ∨ Spec.flip across = flipZ := by cases across <;> simp [Spec.flip, funext_iff]
  unfold clusters
  simp only [C162_partition hf]
  cases hierarchy nm g.pdg g.status g.final g.edges none with
  | error e => rfl
  | ok hier0 =>
    simp only
    cases partitionDescendants (weightedDist ptExp) g.pmu g.final g.status g.edges hier0 with
    | error e => rfl
    | ok hier => simp only [clusterRest, pruneLoop_flip across h0]

end Gcl
