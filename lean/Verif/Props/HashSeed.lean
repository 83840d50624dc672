import Verif.Props.Clusters
/-!
# C155: results do not depend on the order in which Python iterates over a set
-/
namespace Gcl
set_option autoImplicit false
open Spec

/-! ## Pruning leaves in another order -/

theorem setLeaf_comm (d d' : List Bool) (p p' : List String) (h : p ≠ p') (m : Mask) :
    (m.setLeaf d p).setLeaf d' p' = (m.setLeaf d' p').setLeaf d p := by
  induction p generalizing p' m with
  | nil =>
    cases p' with
    | nil => exact absurd rfl h
    | cons k' p' => cases m <;> simp [Mask.setLeaf]
  | cons k p ih =>
    cases p' with
    | nil => cases m <;> simp [Mask.setLeaf]
    | cons k' p' =>
      cases m with
      | arr _ => simp [Mask.setLeaf]
      | grp op ks =>
        simp only [Mask.setLeaf, List.map_map, Mask.grp.injEq, true_and]
        apply List.map_congr_left
        rintro ⟨a, x⟩ -
        by_cases h1 : a = k
        · subst h1
          by_cases h2 : a = k'
          · subst h2
            simp [ih p' (fun e => h (by rw [e]))]
          · simp [h2]
        · by_cases h2 : a = k'
          · subst h2; simp [h1]
          · simp [h1, h2]

theorem leafAt_setLeaf_ne (d : List Bool) (p p' : List String) (h : p' ≠ p) (m : Mask) :
    (m.setLeaf d p).leafAt p' = m.leafAt p' := by
  induction p generalizing p' m with
  | nil =>
    cases p' with
    | nil => exact absurd rfl h
    | cons k' p' => cases m <;> simp [Mask.setLeaf, Mask.leafAt]
  | cons k p ih =>
    cases p' with
    | nil => cases m <;> simp [Mask.setLeaf, Mask.leafAt]
    | cons k' p' =>
      cases m with
      | arr _ => simp [Mask.setLeaf]
      | grp op ks =>
        simp only [Mask.setLeaf, Mask.leafAt, get?_map_at]
        by_cases h1 : k' = k
        · subst h1
          cases Dict.get? ks k' with
          | none => simp
          | some x => simpa using ih p' (fun e => h (by rw [e])) x
        · simp [h1]

/-- One pass of the loop that succeeds. -/
theorem pruneLoop_cons_ok {tol : ℝ} {pmu : List P4} {radius : ℝ} {hard : List Bool} {refs : Dict (List String)}
    {k : String} {ks : List String} {hier out : Mask} :
    pruneLoop tol pmu radius hard refs (k :: ks) hier = .ok out ↔
      ∃ path leaf centre d, Dict.get? refs k = some path ∧ hier.leafAt path = some leaf ∧
        leafCentre tol pmu hard leaf = .ok centre ∧
        centroidPrune tol pmu radius (some leaf) (some centre) = .ok d ∧
        pruneLoop tol pmu radius hard refs ks (hier.setLeaf d path) = .ok out := by
  constructor
  · intro h
    rw [pruneLoop] at h
    split at h
    · cases h
    · rename_i path e1
      split at h
      · cases h
      · rename_i leaf e2
        split at h
        · cases h
        · rename_i centre e3
          split at h
          · cases h
          · rename_i d e4
            exact ⟨path, leaf, centre, d, e1, e2, e3, e4, h⟩
  · rintro ⟨path, leaf, centre, d, e1, e2, e3, e4, h⟩
    simp only [pruneLoop, e1, e2, e3, e4, h]

theorem pruneLoop_perm (tol : ℝ) (pmu : List P4) (radius : ℝ) (hard : List Bool) (refs : Dict (List String))
    (hinj : ∀ k k' path, Dict.get? refs k = some path → Dict.get? refs k' = some path → k = k')
    {ks ks' : List String} (hp : ks.Perm ks') : ks.Nodup → ∀ (hier out : Mask),
    pruneLoop tol pmu radius hard refs ks hier = .ok out → pruneLoop tol pmu radius hard refs ks' hier = .ok out := by
  induction hp with
  | nil => exact fun _ _ _ h => h
  | cons k _ ih =>
    intro hn hier out h
    obtain ⟨path, leaf, centre, d, e1, e2, e3, e4, h⟩ := pruneLoop_cons_ok.1 h
    exact pruneLoop_cons_ok.2 ⟨path, leaf, centre, d, e1, e2, e3, e4, ih (List.nodup_cons.1 hn).2 _ _ h⟩
  | swap k k' l =>
    intro hn hier out h
    obtain ⟨p', l', c', d', e1', e2', e3', e4', h⟩ := pruneLoop_cons_ok.1 h
    obtain ⟨p, l, c, d, e1, e2, e3, e4, h⟩ := pruneLoop_cons_ok.1 h
    have hne : p ≠ p' := by
      rintro rfl
      have := hinj _ _ _ e1' e1
      simp [this] at hn
    rw [leafAt_setLeaf_ne d' p' p hne] at e2
    refine pruneLoop_cons_ok.2 ⟨p, l, c, d, e1, e2, e3, e4, pruneLoop_cons_ok.2 ⟨p', l', c', d', e1', ?_, e3', e4', ?_⟩⟩
    · rw [leafAt_setLeaf_ne d p p' hne.symm]; exact e2'
    · rw [setLeaf_comm d d' p p' hne]; exact h
  | trans h1 _ ih1 ih2 =>
    intro hn hier out h
    exact ih2 (h1.nodup_iff.1 hn) _ _ (ih1 hn _ _ h)

/-! ## C155 -/

/-- **C155** Without `invert`, `color_singlets` is the same list for all iteration orders of sets. -/
theorem C155_singlets (setIter setIter' : List String → List String) (leaves : Dict (List Bool)) (status : List Int)
    (color : List (Int × Int)) :
    colorSinglets setIter leaves status color false = colorSinglets setIter' leaves status color false := by
  unfold colorSinglets
  cases singletParts leaves status color <;> rfl

/-- **C155** With `invert=True` it is the same error, or the same tuples, each as often, in some order. -/
theorem C155_outcasts (setIter setIter' : List String → List String)
    (h : ∀ l : List String, l.Nodup → (setIter l).Perm l) (h' : ∀ l : List String, l.Nodup → (setIter' l).Perm l)
    (leaves : Dict (List Bool)) (status : List Int) (color : List (Int × Int)) :
    (∃ e, colorSinglets setIter leaves status color true = .error e ∧
      colorSinglets setIter' leaves status color true = .error e) ∨
    ∃ l l', colorSinglets setIter leaves status color true = .ok l ∧
      colorSinglets setIter' leaves status color true = .ok l' ∧ l.Perm l' := by
  unfold colorSinglets
  cases singletParts leaves status color with
  | error e => exact .inl ⟨e, rfl, rfl⟩
  | ok r =>
    refine .inr ⟨_, _, rfl, rfl, ?_⟩
    exact ((h _ (List.nodup_dedup _)).trans (h' _ (List.nodup_dedup _)).symm).map _

section
variable {R : Type} [LinearOrder R]

/-- **C155** `clusters` gives the same group, with its names in the same order, or the same error, whatever the order in
which Python iterates over the set of the outcasts (and so for all hash seeds). -/
theorem C155_clusters (dist : P4 → P4 → R) (setIter setIter' : List String → List String)
    (h : ∀ l : List String, l.Nodup → (setIter l).Perm l) (h' : ∀ l : List String, l.Nodup → (setIter' l).Perm l)
    (nm : Int → String) (tol radius : ℝ) (g : ClusterGraph) (hg : GoodEvent nm g) :
    clusters dist setIter nm tol radius g = clusters dist setIter' nm tol radius g := by
  cases h0 : hierarchy nm g.pdg g.status g.final g.edges none with
  | error e => unfold clusters; rw [h0]
  | ok hier0 =>
    by_cases hne : hier0 = []
    · subst hne; rw [C60_empty _ _ _ _ _ _ h0, C60_empty _ _ _ _ _ _ h0]
    cases h1 : partitionDescendants dist g.pmu g.final g.status g.edges hier0 with
    | error e => unfold clusters; simp only [h0, h1]
    | ok hier =>
      have hN := partition_nice hg h0 hne h1
      have hlo := topLeaves_model hier
      rcases C155_outcasts setIter setIter' h h' (leafList hier) g.status g.color with ⟨e, a1, a2⟩ | ⟨l, l', a1, a2, a3⟩
      · unfold clusters
        simp only [h0, h1]
        unfold clusterRest
        rw [C10_leaf_masks .or hier _ hlo (leaves_nodup hN hlo).1]
        have a1' := a1
        have a2' := a2
        simp only [leafList] at a1' a2'
        simp only [flatEntries_arr, a1', a2']
      · obtain ⟨keys, rfl, hn, hm⟩ := colorKeys_facts setIter h _ _ _ _ a1
        obtain ⟨keys', rfl, hn', hm'⟩ := colorKeys_facts setIter' h' _ _ _ _ a2
        have hperm : keys.Perm keys' := by
          have := a3.map (fun l => l.headD "")
          simpa [List.map_map, Function.comp_def] using this
        by_cases hbad : ∃ k ∈ keys, ∃ p d, LeafPath (p ++ [k]) ∧ look (.grp .or hier) (p ++ [k]) = some (.leaf d) ∧
            ¬ ∃ j, TheParton g.status d j
        · rw [C60_no_parton h hg tol radius h0 hne h1 _ hlo keys a1 hbad]
          rw [C60_no_parton h' hg tol radius h0 hne h1 _ hlo keys' a2]
          obtain ⟨k, hk, r⟩ := hbad
          exact ⟨k, hperm.mem_iff.1 hk, r⟩
        · have hps : g.pmu.length = g.status.length := by rw [hg.pmu, hg.status]
          obtain ⟨out, o1, -⟩ := pruneLoop_ok tol radius hps (allRefs hier) (refs_inj hN) keys hn (.grp .or hier) (by
            intro k hk
            obtain ⟨p, d, e1, e2, e3, -⟩ := key_refs hN hlo (hm k hk)
            by_cases hj : ∃ j, TheParton g.status d j
            · obtain ⟨j, hj⟩ := hj
              exact ⟨p ++ [k], d, j, e1, e3, by rw [hN.leaf _ d e3, hg.status], hj⟩
            · exact absurd ⟨k, hk, p, d, e2, e3, hj⟩ hbad)
          rw [clusterRest_prefix hg tol radius h0 hN h1 hlo a1, clusterRest_prefix hg tol radius h0 hN h1 hlo a2, o1,
            pruneLoop_perm tol g.pmu radius _ (allRefs hier) (refs_inj hN) hperm hn _ _ o1]

end

/-- **C155** The expectation that `color_singlets(..., invert=True)` is the same list in every run is refuted: with two
quarks of unmatched colours the two legal orders of the set give different lists. -/
theorem C155_false : ∃ (setIter setIter' : List String → List String) (leaves : Dict (List Bool)) (status : List Int)
    (color : List (Int × Int)) (l l' : List (List String)),
    (∀ l : List String, l.Nodup → (setIter l).Perm l) ∧ (∀ l : List String, l.Nodup → (setIter' l).Perm l) ∧
    colorSinglets setIter leaves status color true = .ok l ∧
    colorSinglets setIter' leaves status color true = .ok l' ∧ l ≠ l' := by
  refine ⟨id, List.reverse, [("u", [true, false]), ("d", [false, true])], [23, 23], [(101, 0), (102, 0)],
    [["u"], ["d"]], [["d"], ["u"]], fun l _ => List.Perm.refl l, fun l _ => List.reverse_perm l, ?_, ?_, by decide⟩
  · decide
  · decide

/-- The event of `exCG` in which no two partons are connected by colour. -/
def exHG : ClusterGraph := { exCG with color := [(101, 0), (101, 0), (0, 0), (102, 0), (0, 103), (0, 0), (0, 0), (0, 0), (0, 0)] }

/-- The hypotheses are met: the event `t -> b W`, `W -> u d~`, where all three leaves are pruned, in the order of the set or
the reverse of it. -/
example (tol radius : ℝ) : colorSinglets id exCLo exHG.status exHG.color true = .ok [["b"], ["u"], ["d~"]] ∧
    colorSinglets List.reverse exCLo exHG.status exHG.color true = .ok [["d~"], ["u"], ["b"]] ∧
    clusters (fun _ _ => (0 : Nat)) id exNames tol radius exHG =
      clusters (fun _ _ => (0 : Nat)) List.reverse exNames tol radius exHG :=
  ⟨by decide +kernel, by decide +kernel, C155_clusters _ _ _ (fun l _ => List.Perm.refl l) (fun l _ => List.reverse_perm l) _ _ _ _
    ⟨exCG_good.pdg, exCG_good.status, exCG_good.final, exCG_good.pmu, exCG_good.colon, exCG_good.latent, exCG_good.hadrons⟩⟩

end Gcl
