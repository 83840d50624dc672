import Verif.Props.PartitionSym
import Verif.Props.SymHard
import Verif.Props.Distance
import Verif.Props.Tag
import Mathlib.Analysis.SpecialFunctions.Arsinh
/-! # C129: results computed from angular distances, in rotated and boosted frames -/
namespace Gcl
set_option autoImplicit false
open Spec Real

/-! ## What only depends on comparisons of distances -/

theorem argminFrom_congr {α R R' : Type} [LT R] [DecidableLT R] [LT R'] [DecidableLT R'] (g : α → R) (g' : α → R')
    (S : List α) (h : ∀ a ∈ S, ∀ b ∈ S, (g' a < g' b ↔ g a < g b)) (xs : List α) (hxs : ∀ x ∈ xs, x ∈ S) :
    ∀ (b : α) (bi k : Nat), b ∈ S → argminFrom (g' b) bi k (xs.map g') = argminFrom (g b) bi k (xs.map g) := by
  induction xs with
  | nil => intro b bi k _; rfl
  | cons x xs ih =>
    intro b bi k hb
    have hx := hxs x (by simp)
    have ih' := ih (fun y hy => hxs y (by simp [hy]))
    simp only [List.map_cons, argminFrom]
    by_cases hlt : g x < g b
    · rw [if_pos hlt, if_pos ((h x hx b hb).2 hlt), ih' x _ _ hx]
    · rw [if_neg hlt, if_neg (fun c => hlt ((h x hx b hb).1 c)), ih' b _ _ hb]

theorem argmin_congr {α R R' : Type} [LT R] [DecidableLT R] [LT R'] [DecidableLT R'] (g : α → R) (g' : α → R')
    (xs : List α) (h : ∀ a ∈ xs, ∀ b ∈ xs, (g' a < g' b ↔ g a < g b)) :
    argmin (xs.map g') = argmin (xs.map g) := by
  cases xs with
  | nil => rfl
  | cons x xs =>
    simp only [List.map_cons, argmin]
    rw [argminFrom_congr g g' (x :: xs) h xs (fun y hy => by simp [hy]) x 0 1 (by simp)]

theorem allocate_congr {M M' R R' : Type} [LT R] [DecidableLT R] [LT R'] [DecidableLT R'] (dist : M → M → R)
    (dist' : M' → M' → R') (f : M → M') (ps : List M) (hs : List M)
    (h : ∀ a ∈ ps, ∀ b ∈ ps, ∀ c ∈ hs, (dist' (f a) (f c) < dist' (f b) (f c) ↔ dist a c < dist b c)) :
    allocate dist' (ps.map f) (hs.map f) = allocate dist ps hs := by
  induction hs with
  | nil => simp [allocate]
  | cons c hs ih =>
    simp only [List.map_cons, allocate, List.map_map]
    have e := argmin_congr (fun p => dist p c) ((fun p => dist' p (f c)) ∘ f) ps
      (fun a ha b hb => h a ha b hb c (by simp))
    rw [e, ih (fun a ha b hb c' hc' => h a ha b hb c' (by simp [hc']))]

theorem apply_mem {α : Type} {k : Key} {a b : List α} (h : k.apply a = .ok b) {x : α} (hx : x ∈ b) : x ∈ a := by
  unfold Key.apply at h
  cases hr : k.resolve a.length with
  | error e => rw [hr] at h; cases h
  | ok is =>
    rw [hr] at h
    cases h
    exact mem_of_mem_gather hx

/-- `partition_descendants` with momenta and a distance replaced by others that compare in the same way. -/
theorem partition_congr {M M' R R' : Type} [LT R] [DecidableLT R] [LT R'] [DecidableLT R'] (dist : M → M → R)
    (dist' : M' → M' → R') (f : M → M') (pmu : List M) (final : List Bool) (status : List Int)
    (es : List (Int × Int)) (hier : Dict Mask)
    (h : ∀ a ∈ pmu, ∀ b ∈ pmu, ∀ c ∈ pmu, (dist' (f a) (f c) < dist' (f b) (f c) ↔ dist a c < dist b c)) :
    partitionDescendants dist' (pmu.map f) final status es hier =
      partitionDescendants dist pmu final status es hier := by
  have hv : ∀ p v m, partitionVertex dist' (pmu.map f) final p v m = partitionVertex dist pmu final p v m := by
    intro p v m
    unfold partitionVertex
    rw [apply_map]
    cases hp : (Key.mask p).apply pmu with
    | error e => rfl
    | ok P =>
      simp only [Except.map]
      cases bcast2 (· && ·) v final with
      | error e => rfl
      | ok fv =>
        simp only
        rw [apply_map]
        cases hh : (Key.mask fv).apply pmu with
        | error e => rfl
        | ok H =>
          simp only [Except.map]
          rw [allocate_congr dist dist' f P H (fun a ha b hb c hc =>
            h a (apply_mem hp ha) b (apply_mem hp hb) c (apply_mem hh hc))]
  have hl : ∀ v p d, partitionLeaf dist' (pmu.map f) final es v p d = partitionLeaf dist pmu final es v p d := by
    intro v p d; funext m
    unfold partitionLeaf
    simp only [hv]
  have hloop : ∀ vps hier, partitionLoop dist' (pmu.map f) final es vps hier =
      partitionLoop dist pmu final es vps hier := by
    intro vps
    induction vps with
    | nil => intro _; rfl
    | cons vp vps ih =>
      intro hier
      obtain ⟨v, p⟩ := vp
      simp only [partitionLoop, hl, ih]
  unfold partitionDescendants
  simp only [hloop]

/-! ## `arg_closest` only depends on the distances and the transverse momenta -/

theorem costIters_congr {mem mem' : Nat × Nat → Fl} (pt2 : List Fl) (vr : Fl) (f : P4 → P4) (ps : List P4) (i0 : Nat)
    (hpt : ∀ p ∈ ps, (f p).pt = p.pt)
    (hm : ∀ k : Nat, k < ps.length → rowOf mem' pt2.length (i0 + k) = rowOf mem pt2.length (i0 + k)) :
    costIters mem' pt2 vr i0 (ps.map f) = costIters mem pt2 vr i0 ps := by
  induction ps generalizing i0 with
  | nil => rfl
  | cons p ps ih =>
    have h0 := hm 0 (by simp)
    simp only [Nat.add_zero] at h0
    simp only [List.map_cons, costIters, norm_xyPol]
    rw [hpt p (by simp)]
    have e : costIter mem' pt2 vr i0 p.pt = costIter mem pt2 vr i0 p.pt := by
      unfold costIter
      simp only [h0]
    rw [e, ih (i0 + 1) (fun q hq => hpt q (by simp [hq])) (fun k hk => by
      have := hm (k + 1) (by simpa using hk)
      rwa [show i0 + (k + 1) = i0 + 1 + k by omega] at this)]

/-- Momenta replaced by others with the same distances and transverse momenta: `arg_closest` gives the same result,
whatever the schedules, the uninitialised memory and the admissible numbers of threads. -/
theorem argClosest_agree (limit : Int) (sched sched' : List (List Write) → List Write) (hs : IsSchedule sched)
    (hs' : IsSchedule sched') (init init' : Nat × Nat → Fl) (lsa : List (List Fl) → Py (List Nat)) (tol : ℝ)
    (h h' : Heap) (focus candidate focus' candidate' : Nat) (threads threads' : Int)
    (ht : 1 ≤ threads ∧ threads ≤ limit) (ht' : 1 ≤ threads' ∧ threads' ≤ limit)
    (hf : Coherent tol (h focus)) (hc : Coherent tol (h candidate))
    (hf' : Coherent tol (h' focus')) (hc' : Coherent tol (h' candidate')) (f : P4 → P4)
    (ef : (h' focus').data = (h focus).data.map f) (ec : (h' candidate').data = (h candidate).data.map f)
    (hptf : ∀ p ∈ (h focus).data, (f p).pt = p.pt) (hptc : ∀ p ∈ (h candidate).data, (f p).pt = p.pt)
    (hcell : ∀ p ∈ (h focus).data, ∀ q ∈ (h candidate).data,
      deltaRCell ((f p).rapidity tol) ((f q).rapidity tol) (f p).xyPol (f q).xyPol =
        deltaRCell (p.rapidity tol) (q.rapidity tol) p.xyPol q.xyPol) :
    (argClosest limit sched' init' lsa tol h' focus' candidate' threads').1 =
      (argClosest limit sched init lsa tol h focus candidate threads).1 := by
  obtain ⟨r1, r2, r3, r4⟩ := readRapidity_spec tol h focus hf
  obtain ⟨s1, s2, s3, s4⟩ := readRapidity_spec tol (readRapidity tol h focus).2 candidate (r4 _ hc)
  obtain ⟨r1', r2', r3', r4'⟩ := readRapidity_spec tol h' focus' hf'
  obtain ⟨s1', s2', s3', s4'⟩ := readRapidity_spec tol (readRapidity tol h' focus').2 candidate' (r4' _ hc')
  unfold argClosest
  simp only [setNumThreads, ht, ht', and_self, if_true, r1, s1, s2, r2, r1', s1', s2', r2', ef, ec]
  generalize (h focus).data = ps at *
  generalize (h candidate).data = qs at *
  unfold assignmentCost
  simp only [cloud_zip, norm_xyPol]
  set mem0 := runWrites init (sched (deltaRLoop false (cloudOf false tol ps) (cloudOf false tol qs))) with hmem0
  set mem0' := runWrites init' (sched' (deltaRLoop false (cloudOf false tol (ps.map f)) (cloudOf false tol (qs.map f))))
    with hmem0'
  have hd : ∀ i j : Nat, i < ps.length → j < qs.length → mem0' (i, j) = mem0 (i, j) := by
    intro i j hi hj
    rw [hmem0, dist_mem tol sched hs init ps qs i j ps[i] qs[j] (by simp) (by simp), hmem0',
      dist_mem tol sched' hs' init' (ps.map f) (qs.map f) i j (f ps[i]) (f qs[j]) (by simp [hi]) (by simp [hj])]
    exact hcell _ (by simp) _ (by simp)
  have hrow : ∀ i : Nat, i < ps.length → rowOf mem0' qs.length i = rowOf mem0 qs.length i := by
    intro i hi
    unfold rowOf
    exact List.map_congr_left (fun j hj => hd i j hi (List.mem_range.1 hj))
  have ept : (qs.map f).map (fun q => Fl.fin q.pt) = qs.map (fun q => Fl.fin q.pt) := by
    rw [List.map_map]
    exact List.map_congr_left (fun q hq => by simp [hptc q hq])
  rw [ept]
  cases hv : varRecip (qs.map (fun q => Fl.fin q.pt)) with
  | error e => rfl
  | ok vr =>
    simp only
    rw [costIters_congr (qs.map (fun q => Fl.fin q.pt)) vr f ps 0 hptf (mem := mem0) (mem' := mem0') (by
      intro k hk
      rw [Nat.zero_add, List.length_map]
      exact hrow k hk)]
    cases hits : costIters mem0 (qs.map (fun q => Fl.fin q.pt)) vr 0 ps with
    | error e => rfl
    | ok its =>
      simp only [List.length_map]
      congr 1
      apply List.map_congr_left
      intro i hi
      have hi := List.mem_range.1 hi
      unfold rowOf
      apply List.map_congr_left
      intro j hj
      have hj := List.mem_range.1 hj
      choose vd hvd using fun k (hk : k < ps.length) => costIters_rows hits k hk
      obtain ⟨its', e1, n1, n2, n3⟩ := costIters_spec mem0 (qs.map (fun q => Fl.fin q.pt)) vr ps 0
        (fun k => if hk : k < ps.length then vd k hk else .nan) (by
          intro k hk
          have := hvd k hk
          simp only [Nat.zero_add] at this ⊢
          rw [dif_pos hk, this])
      rw [hits] at e1
      cases e1
      have := n3 i j ps[i] (.fin qs[j].pt) (by simp) (by simp [hj])
      rw [Nat.zero_add] at this
      rw [schedule_mem hs n1 this, schedule_mem hs' n1 this]

/-! ## Sums -/

theorem aggregate_map (f : P4 → P4) (hf : ∀ ps, total (ps.map f) = f (total ps)) (ps : List P4)
    (ms : List (List Bool)) : aggregateMomenta (ps.map f) ms = (aggregateMomenta ps ms).map (List.map f) := by
  induction ms with
  | nil => rfl
  | cons m ms ih =>
    simp only [aggregateMomenta, apply_map, ih]
    cases (Key.mask m).apply ps with
    | error e => rfl
    | ok sel =>
      simp only [Except.map]
      cases aggregateMomenta ps ms with
      | error e => rfl
      | ok rest => simp [hf]

theorem aggregate_totals {ps : List P4} {ms : List (List Bool)} {jets : List P4} (h : aggregateMomenta ps ms = .ok jets) :
    ∀ j ∈ jets, ∃ sel : List P4, (∀ q ∈ sel, q ∈ ps) ∧ j = total sel := by
  induction ms generalizing jets with
  | nil => cases h; simp
  | cons m ms ih =>
    simp only [aggregateMomenta] at h
    cases hs : (Key.mask m).apply ps with
    | error e => simp [hs] at h
    | ok sel =>
      simp only [hs] at h
      cases hr : aggregateMomenta ps ms with
      | error e => simp [hr] at h
      | ok rest =>
        simp only [hr, Except.ok.injEq] at h
        subst h
        intro j hj
        rcases List.mem_cons.1 hj with rfl | hj
        · exact ⟨sel, fun q hq => apply_mem hs hq, rfl⟩
        · exact ih hr j hj

theorem total_shiftPhi (s : ℝ) (ps : List P4) : total (ps.map (P4.shiftPhi s)) = (total ps).shiftPhi s := by
  induction ps with
  | nil =>
    ext <;> simp [total, shiftPhi_xy s ⟨0, 0, 0, 0⟩]
  | cons p ps ih =>
    rw [List.map_cons, total_cons, ih, total_cons]
    have h1 := shiftPhi_xy s p
    have h2 := shiftPhi_xy s (total ps)
    have h3 := shiftPhi_xy s (padd p (total ps))
    simp only [padd] at h3 ⊢
    ext <;> simp only [h1, h2, h3] <;> ring

/-! ## `monte_carlo_tag` -/

theorem tagFilter_map (f : P4 → P4) (a a' : TagArgs) (h1 : a'.blacklist = a.blacklist) (h2 : a'.whitelist = a.whitelist)
    (h3 : a'.signSensitive = a.signSensitive) (pmu : List P4) (pdg : List Int) :
    tagFilter a' (pmu.map f) pdg = (tagFilter a pmu pdg).map (fun r => (r.1.map f, r.2)) := by
  unfold tagFilter
  rw [h1, h2, h3]
  split
  · rfl
  · split
    · rfl
    · rfl
    · next c cs hc =>
      dsimp only
      generalize isin _ _ _ = hm
      split
      · rfl
      · rw [apply_map]
        cases (Key.mask hm).apply pmu with
        | error e => rfl
        | ok P =>
          simp only [Except.map]
          cases (Key.mask hm).apply pdg with
          | error e => rfl
          | ok d => rfl

theorem tagFilter_mem {a : TagArgs} {pmu : List P4} {pdg : List Int} {r : List P4 × List Int}
    (h : tagFilter a pmu pdg = .ok r) : ∀ p ∈ r.1, p ∈ pmu := by
  unfold tagFilter at h
  split at h
  · cases h
  · split at h
    · cases h; exact fun p hp => hp
    · cases h; exact fun p hp => hp
    · dsimp only at h
      generalize isin _ _ _ = hm at h
      split at h
      · cases h
      · split at h
        · cases h
        · next P hP =>
          split at h
          · cases h
          · cases h
            exact fun p hp => apply_mem hP hp

/-- `monte_carlo_tag` only depends on the distances and the transverse momenta. -/
theorem tag_agree (limit : Int) (hlim : 1 ≤ limit) (sched sched' : List (List Write) → List Write)
    (hs : IsSchedule sched) (hs' : IsSchedule sched') (init init' : Nat × Nat → Fl)
    (lsa : List (List Fl) → Py (List Nat)) (tol : ℝ) (nm : Int → String) (p : TagParticles) (a : TagArgs) (f : P4 → P4)
    (hf : ∀ ps, total (ps.map f) = f (total ps)) (hpt : ∀ q, (f q).pt = q.pt)
    (hcell : ∀ cl, clusteredOf a p = .ok cl → ∀ q ∈ p.pmu, ∀ sel : List P4, (∀ r ∈ sel, r ∈ cl) →
      deltaRCell ((f q).rapidity tol) ((f (total sel)).rapidity tol) (f q).xyPol (f (total sel)).xyPol =
        deltaRCell (q.rapidity tol) ((total sel).rapidity tol) q.xyPol (total sel).xyPol) :
    monteCarloTag limit sched' init' lsa tol nm { p with pmu := p.pmu.map f }
        { a with clusteredPmu := a.clusteredPmu.map (List.map f) } =
      monteCarloTag limit sched init lsa tol nm p a := by
  have hcl : ∀ a' : TagArgs, a'.clusteredPmu = a.clusteredPmu.map (List.map f) →
      clusteredOf a' { p with pmu := p.pmu.map f } = (clusteredOf a p).map (List.map f) := by
    intro a' ha'
    unfold clusteredOf
    rw [ha']
    cases a.clusteredPmu with
    | none => simp only [Option.map_none]; exact apply_map f _ _
    | some ps => rfl
  unfold monteCarloTag
  simp only
  cases hcm : a.clusterMasks with
  | nil => rfl
  | cons m0 ms =>
    simp only
    cases hpn : portionNames a.outgoing a.intermediate with
    | nil => rfl
    | cons n0 ns =>
      simp only
      cases portionMask p.status (n0 :: ns) with
      | error e => rfl
      | ok pm =>
        simp only
        rw [apply_map]
        cases hP : (Key.mask pm).apply p.pmu with
        | error e => rfl
        | ok hard0 =>
          simp only [Except.map]
          cases (Key.mask pm).apply p.pdg with
          | error e => rfl
          | ok pdg0 =>
            simp only
            have hT' := fun x y => tagFilter_map f a
              { a with clusterMasks := m0 :: ms, clusteredPmu := a.clusteredPmu.map (List.map f) } rfl rfl rfl x y
            rw [hcl _ rfl, hT']
            cases hT : tagFilter a hard0 pdg0 with
            | error e => rfl
            | ok r =>
              obtain ⟨hard, pdg⟩ := r
              simp only [Except.map]
              cases hC : clusteredOf a p with
              | error e => rfl
              | ok cl =>
                simp only [List.length_map]
                split
                · rfl
                · split
                  · rfl
                  · rw [aggregate_map f hf]
                    cases hA : aggregateMomenta cl (m0 :: ms) with
                    | error e => rfl
                    | ok jets =>
                      simp only [Except.map]
                      have key := argClosest_agree limit sched sched' hs hs' init init' lsa tol
                        (fun o => if o = 0 then ⟨hard, none⟩ else ⟨jets, none⟩)
                        (fun o => if o = 0 then ⟨hard.map f, none⟩ else ⟨jets.map f, none⟩) 0 1 0 1 1 1
                        ⟨le_refl _, hlim⟩ ⟨le_refl _, hlim⟩ (Or.inl rfl) (Or.inl rfl) (Or.inl rfl) (Or.inl rfl) f
                        rfl rfl (fun q _ => hpt q) (fun q _ => hpt q) (by
                          intro x hx y hy
                          have hx' : x ∈ p.pmu := apply_mem hP (tagFilter_mem hT x hx)
                          obtain ⟨sel, h1, rfl⟩ := aggregate_totals hA y hy
                          exact hcell cl hC x hx' sel h1)
                      rw [key]

/-! ## C129 -/

theorem eta_shiftPhi (s : ℝ) (p : P4) : (p.shiftPhi s).eta = p.eta := by
  unfold P4.eta
  obtain ⟨h1, h2, h3, h4⟩ := shiftPhi_xy s p
  have hm : (p.shiftPhi s).spatialMag = p.spatialMag := by
    rw [spatialMag_eq, spatialMag_eq]
    unfold p3sq
    rw [h1, h2, h3]
    congr 1
    linear_combination (p.x ^ 2 + p.y ^ 2) * sin_sq_add_cos_sq s
  rw [hm, h3]

/-- **C129** The partition of final particles among the partons does not change when all momenta are rotated about the
beam. -/
theorem C129_partition_rotated (ptExp s : ℝ) (pmu : List P4) (final : List Bool) (status : List Int)
    (es : List (Int × Int)) (hier : Dict Mask) :
    partitionDescendants (weightedDist ptExp) (pmu.map (P4.shiftPhi s)) final status es hier =
      partitionDescendants (weightedDist ptExp) pmu final status es hier := by
  apply partition_congr
  intro a _ b _ c _
  have e : ∀ p h : P4, weightedDist ptExp (p.shiftPhi s) (h.shiftPhi s) = weightedDist ptExp p h := by
    intro p h
    unfold weightedDist
    rw [(C62_invariants s p p).2.2.1, (C65_invariant (le_refl 0) s p h).1]
  rw [e, e]

/-- Without mass and not along the beam. -/
def Spec.Light (p : P4) : Prop := 0 < p.pt ∧ p.e = sqrt (p.x ^ 2 + p.y ^ 2 + p.z ^ 2)

/-- The pseudorapidity of a massless particle is its rapidity. -/
theorem light_eta (s : ℝ) (p : P4) (h : Light p) : ∃ y, p.eta = .fin y ∧ (p.shiftRapidity s).eta = .fin (y + s) := by
  obtain ⟨hpt, he⟩ := h
  obtain ⟨y, h1, h2, h3⟩ := (C89_eta p).1 hpt
  obtain ⟨y', h1', h2', h3'⟩ := (C89_eta (p.shiftRapidity s)).1 (by rw [(C61_invariants s p p).2.2.1]; exact hpt)
  rw [(C61_invariants s p p).2.2.1] at h2'
  refine ⟨y, h1, ?_⟩
  rw [h1']
  have he' : p.e = p.pt * cosh y := by rw [he, ← h3]; rfl
  have hz : (p.shiftRapidity s).z = p.pt * sinh (y + s) := by
    simp only [P4.shiftRapidity, cosh_neg, sinh_neg, sinh_add]
    rw [h2, he']; ring
  rw [hz] at h2'
  have := mul_left_cancel₀ hpt.ne' h2'
  rw [sinh_inj] at this
  rw [this]

/-- **C129** Nor does it change under a boost along the beam, if no momentum has a mass or is along the beam. -/
theorem C129_partition_boosted (ptExp s : ℝ) (pmu : List P4) (hl : ∀ p ∈ pmu, Light p) (final : List Bool)
    (status : List Int) (es : List (Int × Int)) (hier : Dict Mask) :
    partitionDescendants (weightedDist ptExp) (pmu.map (P4.shiftRapidity s)) final status es hier =
      partitionDescendants (weightedDist ptExp) pmu final status es hier := by
  apply partition_congr
  intro a ha b hb c hc
  have e : ∀ p ∈ pmu, ∀ h ∈ pmu,
      weightedDist ptExp (p.shiftRapidity s) (h.shiftRapidity s) = weightedDist ptExp p h := by
    intro p hp h hh
    obtain ⟨y, e1, e2⟩ := light_eta s p (hl p hp)
    obtain ⟨y', e1', e2'⟩ := light_eta s h (hl h hh)
    have hx : ∀ p : P4, (p.shiftRapidity s).xyPol = p.xyPol := fun p => rfl
    unfold weightedDist deltaRCell
    rw [(C61_invariants s p p).2.2.1, e1, e2, e1', e2', hx, hx]
    simp [Fl.sub]
  rw [e a ha c hc, e b hb c hc]

/-- **C129** `arg_closest` gives the same result when all momenta are rotated about the beam, for all schedules of its
parallel loops, numbers of threads and contents of uninitialised memory. -/
theorem C129_closest_rotated (limit : Int) (sched sched' : List (List Write) → List Write) (hs : IsSchedule sched)
    (hs' : IsSchedule sched') (init init' : Nat × Nat → Fl) (lsa : List (List Fl) → Py (List Nat)) {tol : ℝ}
    (h0 : 0 ≤ tol) (s : ℝ) (h h' : Heap) (focus candidate focus' candidate' : Nat) (threads threads' : Int)
    (ht : 1 ≤ threads ∧ threads ≤ limit) (ht' : 1 ≤ threads' ∧ threads' ≤ limit)
    (hf : Coherent tol (h focus)) (hc : Coherent tol (h candidate))
    (hf' : Coherent tol (h' focus')) (hc' : Coherent tol (h' candidate'))
    (ef : (h' focus').data = (h focus).data.map (P4.shiftPhi s))
    (ec : (h' candidate').data = (h candidate).data.map (P4.shiftPhi s)) :
    (argClosest limit sched' init' lsa tol h' focus' candidate' threads').1 =
      (argClosest limit sched init lsa tol h focus candidate threads).1 :=
  argClosest_agree limit sched sched' hs hs' init init' lsa tol h h' focus candidate focus' candidate' threads threads'
    ht ht' hf hc hf' hc' (P4.shiftPhi s) ef ec (fun p _ => (C62_invariants s p p).2.2.1)
    (fun p _ => (C62_invariants s p p).2.2.1) (fun p _ q _ => (C65_invariant h0 s p q).2.1)

/-- **C129** In particular its result does not depend on schedules, threads, uninitialised memory or which objects hold
the momenta. -/
theorem C129_closest_schedule (limit : Int) (sched sched' : List (List Write) → List Write) (hs : IsSchedule sched)
    (hs' : IsSchedule sched') (init init' : Nat × Nat → Fl) (lsa : List (List Fl) → Py (List Nat)) (tol : ℝ)
    (h h' : Heap) (focus candidate focus' candidate' : Nat) (threads threads' : Int)
    (ht : 1 ≤ threads ∧ threads ≤ limit) (ht' : 1 ≤ threads' ∧ threads' ≤ limit)
    (hf : Coherent tol (h focus)) (hc : Coherent tol (h candidate))
    (hf' : Coherent tol (h' focus')) (hc' : Coherent tol (h' candidate'))
    (ef : (h' focus').data = (h focus).data) (ec : (h' candidate').data = (h candidate).data) :
    (argClosest limit sched' init' lsa tol h' focus' candidate' threads').1 =
      (argClosest limit sched init lsa tol h focus candidate threads).1 :=
  argClosest_agree limit sched sched' hs hs' init init' lsa tol h h' focus candidate focus' candidate' threads threads'
    ht ht' hf hc hf' hc' id (by simpa using ef) (by simpa using ec) (fun _ _ => rfl) (fun _ _ => rfl)
    (fun _ _ _ _ => rfl)

/-- **C129** The distance matrices `delta_R_aff` and `parton_hadron_distance` work with are filled with the same values
when all momenta are rotated about the beam. -/
theorem C129_matrix_rotated (s : ℝ) (ps qs : List P4) :
    deltaRAffLoop (ps.map (P4.shiftPhi s)) = deltaRAffLoop ps ∧
    partonHadronLoop (ps.map (P4.shiftPhi s)) (qs.map (P4.shiftPhi s)) = partonHadronLoop ps qs := by
  have hcl : ∀ l : List P4, cloudOf true 0 (l.map (P4.shiftPhi s)) =
      (cloudOf true 0 l).map (fun c => (c.1, Complex.exp (s * Complex.I) * c.2)) := by
    intro l
    simp only [cloudOf, List.map_map, if_true]
    apply List.map_congr_left
    intro p _
    simp only [Function.comp]
    rw [shiftPhi_xyPol, eta_shiftPhi]
  have hcell : ∀ (r1 r2 : Fl) (w1 w2 : ℂ), deltaRCell r1 r2 (Complex.exp (s * Complex.I) * w1)
      (Complex.exp (s * Complex.I) * w2) = deltaRCell r1 r2 w1 w2 := by
    intro r1 r2 w1 w2
    unfold deltaRCell
    congr 2
    have h1 : Complex.exp (s * Complex.I) * (starRingEnd ℂ) (Complex.exp (s * Complex.I)) = 1 := by
      rw [Complex.mul_conj, Complex.normSq_eq_norm_sq, Complex.norm_exp_ofReal_mul_I]; simp
    rw [map_mul]
    linear_combination w1 * (starRingEnd ℂ) w2 * h1
  constructor
  · unfold deltaRAffLoop deltaRLoop
    rw [hcl]
    simp only [if_true, List.length_map]
    apply List.map_congr_left
    intro i _
    unfold symmetricIter
    rw [List.getElem?_map]
    cases (cloudOf true 0 ps)[i]? with
    | none => rfl
    | some c =>
      simp only [Option.map_some, List.zipIdx_map, ← List.map_drop, List.flatMap_map, Prod.map, hcell, id]
  · unfold partonHadronLoop deltaRLoop
    rw [hcl, hcl]
    simp only [Bool.false_eq_true, if_false, List.length_map]
    apply List.map_congr_left
    intro i _
    unfold generalIter
    rw [List.getElem?_map]
    cases (cloudOf true 0 ps)[i]? with
    | none => rfl
    | some c =>
      simp only [Option.map_some, List.zipIdx_map, List.map_map]
      apply List.map_congr_left
      intro q _
      simp only [Function.comp, Prod.map, hcell, id]

/-- Slower than light by more than the tolerance along the beam, before and after a boost. -/
def Spec.Slow (tol s : ℝ) (p : P4) : Prop :=
  tol < p.e - |p.z| ∧ tol < (p.shiftRapidity s).e - |(p.shiftRapidity s).z|

/-- Or along the beam at the speed of light; zero momentum counts as this. -/
def Spec.SlowOrBeam (tol s : ℝ) (p : P4) : Prop := Slow tol s p ∨ p.e = |p.z|

theorem beam_boost (tol s : ℝ) (h0 : 0 ≤ tol) (p : P4) (h : p.e = |p.z|) :
    (p.shiftRapidity s).rapidity tol = p.rapidity tol ∧
      (p.rapidity tol = .pinf ∨ p.rapidity tol = .ninf) := by
  obtain ⟨h1, h2⟩ := boost_pm s p
  have key : ∀ e z : ℝ, e = |z| → rapidityOf tol e z = copysignInf z := by
    intro e z hz
    unfold rapidityOf
    simp only [hz, sub_self, abs_zero]
    rw [if_neg (not_lt.2 h0)]
  have hp := exp_pos s
  have hn := exp_pos (-s)
  have hb : (p.shiftRapidity s).e = |(p.shiftRapidity s).z| ∧ ((p.shiftRapidity s).z < 0 ↔ p.z < 0) := by
    rcases le_or_gt 0 p.z with hz | hz
    · rw [abs_of_nonneg hz] at h
      rw [h, sub_self, mul_zero] at h2
      rw [h] at h1
      have e1 : (p.shiftRapidity s).e = (p.shiftRapidity s).z := by linarith
      have e2 : 0 ≤ (p.shiftRapidity s).z := by
        have : 0 ≤ exp s * (p.z + p.z) := by positivity
        linarith
      refine ⟨by rw [abs_of_nonneg e2]; exact e1, fun h => by linarith, fun h => by linarith⟩
    · rw [abs_of_neg hz] at h
      rw [h] at h1 h2
      have e1 : (p.shiftRapidity s).e = -(p.shiftRapidity s).z := by
        have : exp s * (-p.z + p.z) = 0 := by ring
        linarith
      have e2 : (p.shiftRapidity s).z < 0 := by
        have : 0 < exp (-s) * (-p.z - p.z) := mul_pos hn (by linarith)
        linarith
      exact ⟨by rw [abs_of_neg e2]; exact e1, fun _ => hz, fun _ => e2⟩
  unfold P4.rapidity
  rw [key _ _ h, key _ _ hb.1]
  unfold copysignInf
  constructor
  · by_cases hz : p.z < 0
    · rw [if_pos hz, if_pos (hb.2.2 hz)]
    · rw [if_neg hz, if_neg (fun c => hz (hb.2.1 c))]
  · by_cases hz : p.z < 0
    · exact Or.inr (if_pos hz)
    · exact Or.inl (if_neg hz)

theorem cell_boost {tol : ℝ} (h0 : 0 ≤ tol) (s : ℝ) (p q : P4) (hp : SlowOrBeam tol s p) (hq : SlowOrBeam tol s q) :
    deltaRCell ((p.shiftRapidity s).rapidity tol) ((q.shiftRapidity s).rapidity tol) (p.shiftRapidity s).xyPol
        (q.shiftRapidity s).xyPol = deltaRCell (p.rapidity tol) (q.rapidity tol) p.xyPol q.xyPol := by
  have hx : ∀ p : P4, (p.shiftRapidity s).xyPol = p.xyPol := fun p => rfl
  have key : ∀ p, SlowOrBeam tol s p → (∃ y, p.rapidity tol = .fin y ∧ (p.shiftRapidity s).rapidity tol = .fin (y + s)) ∨
      ((p.shiftRapidity s).rapidity tol = p.rapidity tol ∧ (p.rapidity tol = .pinf ∨ p.rapidity tol = .ninf)) := by
    intro p hp
    rcases hp with ⟨h1, h2⟩ | hp
    · exact Or.inl (C61_rapidity h0 s p h1 h2)
    · exact Or.inr (beam_boost tol s h0 p hp)
  unfold deltaRCell
  rw [hx, hx]
  rcases key p hp with ⟨y, e1, e2⟩ | ⟨e1, e2⟩ <;> rcases key q hq with ⟨y', e1', e2'⟩ | ⟨e1', e2'⟩
  · rw [e1, e2, e1', e2']; simp [Fl.sub]
  · rw [e1, e2, e1']; rcases e2' with e | e <;> rw [e] <;> simp [Fl.sub]
  · rw [e1, e1', e2']; rcases e2 with e | e <;> rw [e] <;> simp [Fl.sub]
  · rw [e1, e1']

/-- **C129** `arg_closest` gives the same result under a common boost along the beam, if every momentum is either slower
than light along the beam (by more than the tolerance, before and after) or exactly along the beam at the speed of
light. -/
theorem C129_closest_boosted (limit : Int) (sched sched' : List (List Write) → List Write) (hs : IsSchedule sched)
    (hs' : IsSchedule sched') (init init' : Nat × Nat → Fl) (lsa : List (List Fl) → Py (List Nat)) {tol : ℝ}
    (h0 : 0 ≤ tol) (s : ℝ) (h h' : Heap) (focus candidate focus' candidate' : Nat) (threads threads' : Int)
    (ht : 1 ≤ threads ∧ threads ≤ limit) (ht' : 1 ≤ threads' ∧ threads' ≤ limit)
    (hf : Coherent tol (h focus)) (hc : Coherent tol (h candidate))
    (hf' : Coherent tol (h' focus')) (hc' : Coherent tol (h' candidate'))
    (ef : (h' focus').data = (h focus).data.map (P4.shiftRapidity s))
    (ec : (h' candidate').data = (h candidate).data.map (P4.shiftRapidity s))
    (hF : ∀ p ∈ (h focus).data, SlowOrBeam tol s p) (hC : ∀ p ∈ (h candidate).data, SlowOrBeam tol s p) :
    (argClosest limit sched' init' lsa tol h' focus' candidate' threads').1 =
      (argClosest limit sched init lsa tol h focus candidate threads).1 :=
  argClosest_agree limit sched sched' hs hs' init init' lsa tol h h' focus candidate focus' candidate' threads threads'
    ht ht' hf hc hf' hc' (P4.shiftRapidity s) ef ec (fun p _ => (C61_invariants s p p).2.2.1)
    (fun p _ => (C61_invariants s p p).2.2.1) (fun p hp q hq => cell_boost h0 s p q (hF p hp) (hC q hq))

/-- **C129** `monte_carlo_tag` gives the same group when all momenta are rotated about the beam. -/
theorem C129_tag_rotated (limit : Int) (hlim : 1 ≤ limit) (sched sched' : List (List Write) → List Write)
    (hs : IsSchedule sched) (hs' : IsSchedule sched') (init init' : Nat × Nat → Fl)
    (lsa : List (List Fl) → Py (List Nat)) {tol : ℝ} (h0 : 0 ≤ tol) (nm : Int → String) (p : TagParticles) (a : TagArgs)
    (s : ℝ) :
    monteCarloTag limit sched' init' lsa tol nm { p with pmu := p.pmu.map (P4.shiftPhi s) }
        { a with clusteredPmu := a.clusteredPmu.map (List.map (P4.shiftPhi s)) } =
      monteCarloTag limit sched init lsa tol nm p a :=
  tag_agree limit hlim sched sched' hs hs' init init' lsa tol nm p a (P4.shiftPhi s) (total_shiftPhi s)
    (fun q => (C62_invariants s q q).2.2.1) (fun _ _ q _ sel _ => (C65_invariant h0 s q (total sel)).2.1)

theorem total_slow {tol : ℝ} (h0 : 0 ≤ tol) (ps : List P4) (hne : ps ≠ []) (h : ∀ p ∈ ps, tol < p.e - |p.z|) :
    tol < (total ps).e - |(total ps).z| := by
  induction ps with
  | nil => exact absurd rfl hne
  | cons p ps ih =>
    have hp := h p (by simp)
    by_cases hps : ps = []
    · subst hps
      rw [total_cons]
      simpa [padd, total] using hp
    · have := ih hps (fun q hq => h q (by simp [hq]))
      rw [total_cons]
      simp only [padd]
      have := abs_add_le p.z (total ps).z
      linarith

/-- **C129** `monte_carlo_tag` gives the same group under a common boost along the beam, if every particle is slower
than light along the beam or exactly along it at the speed of light, and every clustered particle is of the first
kind.  -/
theorem C129_tag_boosted (limit : Int) (hlim : 1 ≤ limit) (sched sched' : List (List Write) → List Write)
    (hs : IsSchedule sched) (hs' : IsSchedule sched') (init init' : Nat × Nat → Fl)
    (lsa : List (List Fl) → Py (List Nat)) {tol : ℝ} (h0 : 0 ≤ tol) (nm : Int → String) (p : TagParticles) (a : TagArgs)
    (s : ℝ) (hp : ∀ q ∈ p.pmu, SlowOrBeam tol s q)
    (hgiven : ∀ ps, a.clusteredPmu = some ps → ∀ q ∈ ps, Slow tol s q)
    (hfinal : a.clusteredPmu = none → ∀ (i : Nat) (q : P4), p.final[i]? = some true → p.pmu[i]? = some q → Slow tol s q) :
    monteCarloTag limit sched' init' lsa tol nm { p with pmu := p.pmu.map (P4.shiftRapidity s) }
        { a with clusteredPmu := a.clusteredPmu.map (List.map (P4.shiftRapidity s)) } =
      monteCarloTag limit sched init lsa tol nm p a := by
  refine tag_agree limit hlim sched sched' hs hs' init init' lsa tol nm p a (P4.shiftRapidity s) (C61_sum s)
    (fun q => (C61_invariants s q q).2.2.1) ?_
  intro cl hcl q hq sel hsel
  have hslow : ∀ r ∈ cl, Slow tol s r := by
    intro r hr
    unfold clusteredOf at hcl
    cases hc : a.clusteredPmu with
    | some ps =>
      simp only [hc, Except.ok.injEq] at hcl
      subst hcl
      exact hgiven _ hc r hr
    | none =>
      simp only [hc] at hcl
      unfold Key.apply at hcl
      cases hres : (Key.mask p.final).resolve p.pmu.length with
      | error e => rw [hres] at hcl; cases hcl
      | ok is =>
        rw [hres] at hcl
        simp only [Key.resolve] at hres
        split at hres
        · cases hres
          cases hcl
          obtain ⟨i, hi, hri⟩ := List.mem_filterMap.1 hr
          exact hfinal hc i r ((mem_trueIdxs _ _).1 hi) hri
        · cases hres
  apply cell_boost h0 s q (total sel) (hp q hq)
  by_cases hne : sel = []
  · right; subst hne; simp [total]
  · left
    refine ⟨total_slow h0 sel hne (fun r hr => (hslow r (hsel r hr)).1), ?_⟩
    rw [← C61_sum]
    refine total_slow h0 _ (by simpa using hne) ?_
    intro r hr
    obtain ⟨r', hr', rfl⟩ := List.mem_map.1 hr
    exact (hslow r' (hsel r' hr')).2


/-! ## With a massive parton -/

theorem eta_unit (z e : ℝ) : (⟨1, 0, z, e⟩ : P4).eta = .fin (arsinh z) := by
  have hpt : (⟨1, 0, z, e⟩ : P4).pt = 1 := by rw [pt_eq]; simp
  obtain ⟨y, h1, h2, -⟩ := (C89_eta ⟨1, 0, z, e⟩).1 (by rw [hpt]; exact one_pos)
  rw [hpt, one_mul] at h2
  simp only at h2
  rw [h1, h2, arsinh_sinh]

theorem dist_unit (ptExp z e z' e' : ℝ) :
    weightedDist ptExp ⟨1, 0, z, e⟩ ⟨1, 0, z', e'⟩ = .fin |arsinh z - arsinh z'| := by
  have hpt : (⟨1, 0, z, e⟩ : P4).pt = 1 := by rw [pt_eq]; simp
  have ha : ((⟨1, 0⟩ : ℂ) * (starRingEnd ℂ) ⟨1, 0⟩).arg = 0 := by
    have : (⟨1, 0⟩ : ℂ) = 1 := rfl
    rw [this]; simp
  unfold weightedDist deltaRCell
  rw [hpt, eta_unit, eta_unit]
  simp only [P4.xyPol, ha, Fl.sub, hypotFl, ptWeight, one_ne_zero, false_and, if_false, Fl.mul, Real.one_rpow, one_mul]
  congr 1
  rw [zero_pow (by norm_num), add_zero, sqrt_sq_eq_abs]

/-- Two partons, one of them massive, and the hadron they form. -/
def exBoostPmu : List P4 := [⟨1, 0, 0.225, 1.025⟩, ⟨1, 0, 0, 2⟩, ⟨1, 0, 0, 1⟩]

theorem arsinh_log {t : ℝ} (ht : 0 < t) : arsinh ((t - t⁻¹) / 2) = log t := by
  rw [← sinh_log ht, arsinh_sinh]

theorem fin_lt_iff (x y : ℝ) : (Fl.fin x < Fl.fin y) ↔ x < y := by
  rw [lt_iff_flLt _ _ (by simp)]
  simp [Fl.lt]

/-- **C129** With a massive parton the partition depends on the frame: `partition_descendants` works with
pseudorapidities.  The hadron goes to the second parton, in the frame boosted by `log 2` to the first. -/
theorem C129_partition_boost_false (ptExp : ℝ) :
    partitionDescendants (weightedDist ptExp) exBoostPmu [false, false, true] [23, 23, 83] [(1, 3), (2, 3), (3, 4)]
        (exQR [true, false, true] [false, true, true]) =
      .ok (exQR [true, false, false] [false, true, true]) ∧
    partitionDescendants (weightedDist ptExp) (exBoostPmu.map (P4.shiftRapidity (log 2))) [false, false, true] [23, 23, 83]
        [(1, 3), (2, 3), (3, 4)] (exQR [true, false, true] [false, true, true]) =
      .ok (exQR [true, false, true] [false, true, false]) := by
  have hA : (0 : ℝ) < arsinh 0.225 := arsinh_pos_iff.2 (by norm_num)
  have main : ∀ (y z e : Nat → ℝ) (d : Nat → Nat → Nat) (ns : List Nat), (∀ n ∈ ns, y n = arsinh (z n)) →
      (∀ a ∈ ns, ∀ b ∈ ns, ∀ c ∈ ns, (|y a - y c| < |y b - y c| ↔ d a c < d b c)) → ∀ hier,
      partitionDescendants (weightedDist ptExp) (ns.map (fun n => ⟨1, 0, z n, e n⟩)) [false, false, true] [23, 23, 83]
        [(1, 3), (2, 3), (3, 4)] hier =
      partitionDescendants d ns [false, false, true] [23, 23, 83] [(1, 3), (2, 3), (3, 4)] hier := by
    intro y z e d ns hy hd hier
    apply partition_congr
    intro a ha b hb c hc
    rw [dist_unit, dist_unit, fin_lt_iff, ← hy a ha, ← hy b hb, ← hy c hc]
    exact hd a ha b hb c hc
  constructor
  · have := main (fun n => if n = 0 then arsinh 0.225 else 0) (fun n => if n = 0 then 0.225 else 0)
      (fun n => if n = 0 then 1.025 else if n = 1 then 2 else 1)
      (fun a b => exPDist (if a = 0 then 1 else 0) (if b = 0 then 1 else 0)) [0, 1, 2] (by
        intro n _; by_cases h : n = 0 <;> simp [h]) (by
        intro a _ b _ c _
        by_cases ha : a = 0 <;> by_cases hb : b = 0 <;> by_cases hc : c = 0 <;>
          simp only [ha, hb, hc, if_true, if_false, sub_self, sub_zero, zero_sub, abs_neg, abs_zero, abs_of_pos hA, lt_irrefl,
            exPDist, hA, hA.not_gt] <;> decide)
    have e : exBoostPmu = [0, 1, 2].map (fun n => (⟨1, 0, if n = 0 then 0.225 else 0,
        if n = 0 then 1.025 else if n = 1 then 2 else 1⟩ : P4)) := by simp [exBoostPmu]
    rw [e, this]
    rfl
  · have hc2 : cosh (-log 2) = 5 / 4 := by rw [cosh_neg, cosh_log (by norm_num)]; norm_num
    have hs2 : sinh (-log 2) = -(3 / 4) := by rw [sinh_neg, sinh_log (by norm_num)]; norm_num
    have eH : arsinh 0.75 = log 2 := by rw [← arsinh_log (by norm_num)]; norm_num
    have eA : arsinh 1.05 = log 2.5 := by rw [← arsinh_log (by norm_num)]; norm_num
    have l1 : log 2 < log 2.5 := log_lt_log (by norm_num) (by norm_num)
    have l3 : log 3.125 + log 2 = log 2.5 + log 2.5 := by
      rw [← log_mul (by norm_num) (by norm_num), ← log_mul (by norm_num) (by norm_num)]; norm_num
    have l4 : log 3.125 < arsinh 1.5 := by
      rw [← arsinh_log (by norm_num : (0 : ℝ) < 3.125), arsinh_lt_arsinh]; norm_num
    have := main (fun n => if n = 0 then log 2.5 else if n = 1 then arsinh 1.5 else log 2)
      (fun n => if n = 0 then 1.05 else if n = 1 then 1.5 else 0.75)
      (fun n => if n = 0 then 1.45 else if n = 1 then 2.5 else 1.25)
      (fun a b => exPDist (if a = 0 then 1 else if a = 1 then 3 else 0) (if b = 0 then 1 else if b = 1 then 3 else 0))
      [0, 1, 2] (by
        intro n _
        by_cases h : n = 0
        · simp only [h, if_true, eA]
        · by_cases h1 : n = 1
          · simp only [h1, one_ne_zero, if_true, if_false]
          · simp only [h, h1, if_false, eH]) (by
        revert l1 l3 l4
        generalize log 2 = H
        generalize log 2.5 = A
        generalize arsinh 1.5 = B
        generalize log 3.125 = C
        intro l1 l3 l4
        have a1 : |A - H| = A - H := abs_of_pos (by linarith)
        have a2 : |H - A| = A - H := by rw [abs_sub_comm]; exact a1
        have a3 : |B - H| = B - H := abs_of_pos (by linarith)
        have a4 : |H - B| = B - H := by rw [abs_sub_comm]; exact a3
        have a5 : |B - A| = B - A := abs_of_pos (by linarith)
        have a6 : |A - B| = B - A := by rw [abs_sub_comm]; exact a5
        intro a ha b hb c hc
        simp only [List.mem_cons, List.not_mem_nil, or_false] at ha hb hc
        rcases ha with rfl | rfl | rfl <;> rcases hb with rfl | rfl | rfl <;> rcases hc with rfl | rfl | rfl <;>
          simp only [if_true, if_false, one_ne_zero, OfNat.ofNat_ne_zero, OfNat.ofNat_ne_one, sub_self, abs_zero, a1, a2, a3,
            a4, a5, a6, exPDist, lt_irrefl] <;>
          first
            | decide
            | exact iff_of_true (by linarith) (by decide)
            | exact iff_of_false (by linarith) (by decide))
    have e : exBoostPmu.map (P4.shiftRapidity (log 2)) = [0, 1, 2].map (fun n =>
        (⟨1, 0, if n = 0 then 1.05 else if n = 1 then 1.5 else 0.75,
          if n = 0 then 1.45 else if n = 1 then 2.5 else 1.25⟩ : P4)) := by
      simp [exBoostPmu, P4.shiftRapidity, hc2, hs2]
      norm_num
    rw [e, this]
    rfl

/-! ## Non-vacuity -/

-- a rotation and a boost that change momenta
example : ((⟨1, 0, 0, 1⟩ : P4).shiftPhi π).x = -1 := by rw [(shiftPhi_xy _ _).1]; simp
example (s : ℝ) (hs : s ≠ 0) : ((⟨1, 0, 0, 1⟩ : P4).shiftRapidity s).z ≠ 0 := by
  simpa [P4.shiftRapidity] using hs

-- massless momenta with transverse components; the second parton of `exBoostPmu` is not one
example : Light ⟨1, 0, 0.75, 1.25⟩ := by
  constructor
  · rw [pt_eq]; simp
  · rw [show (1 : ℝ) ^ 2 + 0 ^ 2 + 0.75 ^ 2 = 1.25 ^ 2 by norm_num, sqrt_sq (by norm_num)]
example : ¬ Light ⟨1, 0, 0, 2⟩ := by
  rintro ⟨-, h⟩
  norm_num at h

-- slow momenta and beams
example (s : ℝ) : Slow 0 s ⟨1, 2, 1, 5⟩ := by
  have h : |(⟨1, 2, 1, 5⟩ : P4).z| < (⟨1, 2, 1, 5⟩ : P4).e := by norm_num
  have := (C61_timelike s ⟨1, 2, 1, 5⟩ h).1
  exact ⟨by linarith, by linarith⟩
example (s : ℝ) : SlowOrBeam 0 s ⟨0, 0, -6500, 6500⟩ := Or.inr (by norm_num)

-- `C129_tag_boosted` for an event with clusters over its final particles, which returns a group
example (limit : Int) (hlim : 1 ≤ limit) (sched sched' : List (List Write) → List Write)
    (hs : IsSchedule sched) (hs' : IsSchedule sched') (init init' : Nat × Nat → Fl) (lsa : List (List Fl) → Py (List Nat))
    (hlsa : IsLSA lsa) (nm : Int → String) (s : ℝ) :
    ∃ out, monteCarloTag limit sched init lsa 0 nm exTag
        { clusterMasks := [[true, false], [false, true]], blacklist := some [-6] } = .ok out ∧
      monteCarloTag limit sched' init' lsa 0 nm { exTag with pmu := exTag.pmu.map (P4.shiftRapidity s) }
        { clusterMasks := [[true, false], [false, true]], blacklist := some [-6] } = .ok out := by
  obtain ⟨out, h⟩ := exTag_returns limit hlim sched hs init lsa hlsa nm
    { clusterMasks := [[true, false], [false, true]], blacklist := some [-6] } rfl rfl rfl rfl (fun h => h.2 rfl)
    (by decide +kernel)
  have hall : ∀ q ∈ exTag.pmu, Slow 0 s q := by
    intro q hq
    have h : |q.z| < q.e := by
      simp only [exTag, List.mem_cons, List.not_mem_nil, or_false] at hq
      rcases hq with rfl | rfl | rfl | rfl <;> norm_num
    have := (C61_timelike s q h).1
    exact ⟨by linarith, by linarith⟩
  refine ⟨out, h, ?_⟩
  rw [← h]
  exact C129_tag_boosted limit hlim sched sched' hs hs' init init' lsa (le_refl 0) nm exTag
    { clusterMasks := [[true, false], [false, true]], blacklist := some [-6] } s
    (fun q hq => Or.inl (hall q hq)) (fun _ h => by cases h) (fun _ i q _ hq => hall q (List.mem_of_getElem? hq))
end Gcl
