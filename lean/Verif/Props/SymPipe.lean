import Verif.Props.SymHier
import Verif.Props.Pipeline
/-! # C112: `hierarchy` and `partition_descendants` together, under reordered records and renamed vertices -/
namespace Gcl
set_option autoImplicit false
open Spec

/-- **C112** The hierarchy of an event with its hadrons shared out does not depend on the order of the records, if the
hard partons stay in order, the first record of every parton's descendants still leaves the same vertex, and no particle
is equally far from two partons entering its hadronisation vertex: the two calls on the reordered event give the same
tree of keys with every leaf mask reordered. -/
theorem C112_pipeline {R : Type} [LinearOrder R] (dist : P4 → P4 → R) (nm : Int → String) (g : ClusterGraph)
    (hg : GoodEvent nm g) (idxs : List Nat) (hperm : idxs.Perm (List.range g.edges.length))
    (hk : KeepsPartons g.status idxs) (desc : List (String × List Bool))
    (hd : hardDescendants nm g.pdg g.status g.edges none false true = .ok desc)
    (hfirst : ∀ p ∈ desc, KeepsFirst g.edges idxs p.2)
    (hties : ∀ (v : Int) (i p q : Nat) (mi mp mq : P4), HadronVertex g.edges g.status v →
      HadronOf g.edges g.final v i → Enters g.edges v p → Enters g.edges v q → g.pmu[i]? = some mi →
      g.pmu[p]? = some mp → g.pmu[q]? = some mq → dist mp mi = dist mq mi → p = q)
    (hier : Dict Mask) (hh : hierarchy nm g.pdg g.status g.final g.edges none = .ok hier) (hne : hier ≠ []) :
    ∃ hier' out out', hierarchy nm (gather g.pdg idxs) (gather g.status idxs) (gather g.final idxs)
        (gather g.edges idxs) none = .ok hier' ∧
      partitionDescendants dist g.pmu g.final g.status g.edges hier = .ok out ∧
      partitionDescendants dist (gather g.pmu idxs) (gather g.final idxs) (gather g.status idxs)
        (gather g.edges idxs) hier' = .ok out' ∧
      MapsIf (fun _ => True) (fun d d' => d' = gather d idxs) (.grp .or out) (.grp .or out') := by
  obtain ⟨hier0, q1, q2⟩ := C104_hierarchy nm g.pdg g.status g.final g.edges idxs hperm hg.pdg hg.status hg.final
    hg.colon hg.latent hk desc hd hfirst
  rw [hh] at q1; cases q1
  have hN := hierarchy_nice hg.pdg hg.status hg.final hg.colon hg.latent hh hne
  have hl : ∀ {α : Type} {a : List α}, a.length = g.edges.length → (gather a idxs).length = (gather g.edges idxs).length :=
    fun h => by rw [gather_len hperm h, gather_len hperm rfl]
  have hN' := hierarchy_nice (hl hg.pdg) (hl hg.status) (hl hg.final)
    (fun c hc => hg.colon c (mem_of_mem_gather hc)) (fun c hc => hg.latent c (mem_of_mem_gather hc)) q2
    (by simpa using hne)
  rw [gather_len hperm rfl] at hN'
  have hm := mapsIf_mapLeaves (fun d => gather d idxs) (.grp .or hier)
  rw [mapLeaves, mapLeaves_kids] at hm
  obtain ⟨out, out', o1, o2, o3⟩ := C112_order dist g.pmu g.final g.status g.edges hier _ idxs hperm hg.pmu hg.final
    hg.status hg.hadrons hN.aggregable hN.allOr hN'.aggregable hN'.allOr hm hties
  exact ⟨_, out, out', q2, o1, o2, o3⟩

/-- **C112** Nor on the ids of the vertices, if renaming keeps different ones different and the hadronisation vertices in
order. -/
theorem C112_pipeline_ids {R : Type} [LinearOrder R] (dist : P4 → P4 → R) (nm : Int → String) (g : ClusterGraph)
    (hg : GoodEvent nm g) (f : Int → Int) (hinj : Set.InjOn f {w | IsVertex g.edges w})
    (hmono : MonotoneOn f {v | HadronVertex g.edges g.status v})
    (hier : Dict Mask) (hh : hierarchy nm g.pdg g.status g.final g.edges none = .ok hier) (hne : hier ≠ []) :
    hierarchy nm g.pdg g.status g.final (rename f g.edges) none = .ok hier ∧
    ∃ out out', partitionDescendants dist g.pmu g.final g.status g.edges hier = .ok out ∧
      partitionDescendants dist g.pmu g.final g.status (rename f g.edges) hier = .ok out' ∧
      ∀ path, look (.grp .or out') path = look (.grp .or out) path := by
  have hN := hierarchy_nice hg.pdg hg.status hg.final hg.colon hg.latent hh hne
  exact ⟨(C105_hierarchy f nm g.pdg g.status g.final g.edges hinj none).trans hh,
    C112_ids dist g.pmu g.final g.status g.edges hier f hinj hmono hg.pmu hg.final hg.status hg.hadrons
      hN.aggregable hN.allOr⟩

/-! The event `exPG` with different momenta of `u` and `d~`, the records of the photon and the `b` quark that emitted it
and those of the last two hadrons swapped. -/
section Example
/-- The event. -/
noncomputable def exPGM : ClusterGraph :=
  { exPG with pmu := [⟨5, 0, 0, 5⟩, ⟨5, 0, 0, 5⟩, ⟨5, 0, 0, 5⟩, ⟨1, 0, 0, 5⟩, ⟨2, 0, 0, 5⟩, ⟨5, 0, 0, 5⟩,
      ⟨-5, 0, 0, 5⟩, ⟨5, 0, 0, 5⟩, ⟨-5, 0, 0, 5⟩, ⟨0, 1, 0, 1⟩] }
/-- The new order. -/
def exPGI : List Nat := [0, 1, 2, 3, 4, 6, 5, 7, 9, 8]
/-- Its descendant masks. -/
def exPGD : Dict (List Bool) :=
  [("t", [true, true, true, true, true, true, true, true, true, true]),
   ("b", [false, true, false, false, false, true, true, true, false, false]),
   ("W+", [false, false, true, true, true, false, false, false, true, true]),
   ("u", [false, false, false, true, false, false, false, false, true, true]),
   ("d~", [false, false, false, false, true, false, false, false, true, true])]

/-- The hypotheses of the theorems hold of it. -/
theorem exPGM_hyps : GoodEvent exNames exPGM ∧ exPGI.Perm (List.range exPGM.edges.length) ∧ KeepsPartons exPGM.status exPGI ∧
    hardDescendants exNames exPGM.pdg exPGM.status exPGM.edges none false true = .ok exPGD ∧
    (∀ p ∈ exPGD, KeepsFirst exPGM.edges exPGI p.2) ∧
    (∀ (v : Int) (i p q : Nat) (mi mp mq : P4), HadronVertex exPGM.edges exPGM.status v →
      HadronOf exPGM.edges exPGM.final v i → Enters exPGM.edges v p → Enters exPGM.edges v q →
      exPGM.pmu[i]? = some mi → exPGM.pmu[p]? = some mp → exPGM.pmu[q]? = some mq →
      (fun a _ : P4 => a.x) mp mi = (fun a _ : P4 => a.x) mq mi → p = q) ∧
    hierarchy exNames exPGM.pdg exPGM.status exPGM.final exPGM.edges none = .ok exPGH := by
  have kf : ∀ (d : List Bool) (f k : Nat) (e e' : Int × Int), d[f]? = some true ∧ (∀ j ∈ List.range f, d[j]? ≠ some true) →
      (gather d exPGI)[k]? = some true ∧ (∀ j ∈ List.range k, (gather d exPGI)[j]? ≠ some true) →
      exPG.edges[f]? = some e → (gather exPG.edges exPGI)[k]? = some e' → e'.1 = e.1 →
      KeepsFirst exPG.edges exPGI d := by
    have ex : ∀ {d : List Bool} {f g : Nat}, FirstTrue d f → d[g]? = some true ∧ (∀ j ∈ List.range g, d[j]? ≠ some true) →
        f = g := by
      intro d f g h h'
      rcases Nat.lt_trichotomy f g with hl | hl | hl
      · exact absurd h.1 (h'.2 f (List.mem_range.2 hl))
      · exact hl
      · exact absurd h'.1 (h.2 g hl)
    intro d f k e e' h1 h2 h3 h4 h5 f' k' a a' g1 g2 g3 g4
    rw [ex g1 h1, h3] at g3
    rw [ex g2 h2, h4] at g4
    cases g3; cases g4
    exact h5
  refine ⟨?_, by decide, ?_, by decide, ?_, ?_, exPG_hier⟩
  · exact ⟨rfl, rfl, rfl, rfl, exPG_good.colon, exPG_good.latent, exPG_good.hadrons⟩
  · intro a b i j ha hb hi hj hab
    have e : partons exPG.status = [0, 1, 2, 3, 4] := by decide
    rw [show exPGM.status = exPG.status from rfl, e] at hi hj
    have hbl := (List.getElem?_eq_some_iff.1 hb).1
    simp only [exPGI, List.length_cons, List.length_nil] at hbl
    interval_cases b <;> interval_cases a <;> simp [exPGI] at ha hb <;> subst ha <;> subst hb <;> simp at hi hj ⊢
  · simp only [exPGD, List.forall_mem_cons]
    exact ⟨kf _ 0 0 _ _ (by decide) (by decide) rfl rfl rfl, kf _ 1 1 _ _ (by decide) (by decide) rfl rfl rfl,
      kf _ 2 2 _ _ (by decide) (by decide) rfl rfl rfl, kf _ 3 3 _ _ (by decide) (by decide) rfl rfl rfl,
      kf _ 4 4 _ _ (by decide) (by decide) rfl rfl rfl, fun p hp => absurd hp (by simp)⟩
  · intro v i p q mi mp mq hv _ hp hq _ h2 h3 h4
    rcases (exPG_vertex v).1 hv with rfl | rfl
    · rw [((exPG_enters 11 p).1).1 hp, ((exPG_enters 11 q).1).1 hq]
    · rcases ((exPG_enters 5 p).2).1 hp with rfl | rfl <;> rcases ((exPG_enters 5 q).2).1 hq with rfl | rfl
      · rfl
      · simp [exPGM] at h2 h3; subst h2; subst h3; norm_num at h4
      · simp [exPGM] at h2 h3; subst h2; subst h3; norm_num at h4
      · rfl
end Example
end Gcl
