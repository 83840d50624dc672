import Mathlib.Data.Set.Finite.List
import Mathlib.Order.Preorder.Finite
import Verif.Props.Partition
/-! # C110: partitioning the descendants twice changes nothing -/
namespace Gcl
set_option autoImplicit false
open Spec

/-- **C110** `partition_descendants` of its own result, with the same event and distance, is that result: at every path
the same groups and the same masks. -/
theorem C110_idempotent {M R : Type} [LinearOrder R] (dist : M → M → R) (pmu : List M) (final : List Bool)
    (status : List Int) (es : List (Int × Int)) (hier : Dict Mask) (hp : pmu.length = es.length)
    (hf : final.length = es.length) (hs : status.length = es.length)
    (hfin : ∀ (v : Int) (p : Nat), HadronVertex es status v → Enters es v p → final[p]? ≠ some true)
    (hagg : Aggregable es.length (.grp .or hier)) (hor : AllAgg .or (.grp .or hier)) :
    ∃ out out2, partitionDescendants dist pmu final status es hier = .ok out ∧
      partitionDescendants dist pmu final status es out = .ok out2 ∧
      ∀ path, look (.grp .or out2) path = look (.grp .or out) path := by
  obtain ⟨out, o1, o2, o3⟩ := partition_assign dist pmu final status es hier hp hf hs hfin hagg hor
  have hor' : AllAgg .or (.grp .or out) := by
    intro path op ks hl
    obtain ⟨a1, a2, a3⟩ := o3 path
    rcases hx : look (.grp .or hier) path with _ | ⟨d⟩ | ⟨op', ks'⟩
    · rw [a1 hx] at hl; cases hl
    · obtain ⟨d', e1, -⟩ := a3 d hx
      rw [e1] at hl; cases hl
    · rw [a2 op' ks' hx] at hl
      cases hl
      exact hor path op ks hx
  obtain ⟨out2, q1, -, q3⟩ := partition_assign dist pmu final status es out hp hf hs hfin o2 hor'
  refine ⟨out, out2, o1, q1, fun path => ?_⟩
  obtain ⟨b1, b2, b3⟩ := q3 path
  rcases hx : look (.grp .or out) path with _ | ⟨d'⟩ | ⟨op', ks'⟩
  · exact b1 hx
  · obtain ⟨d, -, e2, -⟩ := mapsIf_leaf_back o3 hx
    obtain ⟨d'', f1, f2, f3⟩ := b3 d' hx
    rw [f1]
    by_cases hE : LeafPath path
    · obtain ⟨l1, s1⟩ := e2 hE
      obtain ⟨l2, s2⟩ := f2 hE
      -- particles entering a hadronisation vertex keep their entry
      have hkeep : ∀ v p, HadronVertex es status v → Enters es v p → d'[p]? = d[p]? := by
        intro v p hv hpv
        apply (s1 p).1
        rintro ⟨w, -, ⟨hfp, -⟩, -⟩
        exact hfin v p hv hpv hfp
      have hinc : ∀ v, HadronVertex es status v → (Incident es v d' ↔ Incident es v d) := by
        intro v hv
        constructor
        · rintro ⟨p, h1, h2⟩; exact ⟨p, by rw [← hkeep v p hv h2]; exact h1, h2⟩
        · rintro ⟨p, h1, h2⟩; exact ⟨p, by rw [hkeep v p hv h2]; exact h1, h2⟩
      congr 2
      apply List.ext_getElem?
      intro i
      by_cases hi : i < d'.length
      · by_cases hno : ∃ v, HadronVertex es status v ∧ HadronOf es final v i ∧ Incident es v d
        · -- the greatest such vertex
          obtain ⟨v, hv, hmax⟩ : ∃ v, (HadronVertex es status v ∧ HadronOf es final v i ∧ Incident es v d) ∧
              ∀ w, HadronVertex es status w → HadronOf es final w i → Incident es w d → w ≤ v := by
            obtain ⟨v0, h0⟩ := hno
            by_contra hc
            push Not at hc
            have hfinset : {v : Int | HadronVertex es status v}.Finite := by
              apply Set.Finite.subset (List.finite_toSet (es.map Prod.fst))
              rintro v ⟨k, e, s, he, -, rfl, -⟩
              exact List.mem_map.2 ⟨e, List.mem_of_getElem? he, rfl⟩
            obtain ⟨m, hm, hmm⟩ := (hfinset.subset (t := {v | HadronVertex es status v ∧ HadronOf es final v i ∧
              Incident es v d}) (fun v h => h.1)).exists_maximal ⟨v0, h0⟩
            obtain ⟨w, w1, w2, w3, w4⟩ := hc m hm
            have := hmm ⟨w1, w2, w3⟩ (le_of_lt w4)
            omega
          obtain ⟨p, np, ip⟩ := (s1 i).2 v hv.1 hv.2.1 hv.2.2 hmax
          obtain ⟨p', np', ip'⟩ := (s2 i).2 v hv.1 hv.2.1 ((hinc v hv.1).2 hv.2.2)
            (fun w w1 w2 w3 => hmax w w1 w2 ((hinc w w1).1 w3))
          have hpp := nearest_unique np np'
          subst hpp
          rw [hkeep v p hv.1 np.1, ← ip] at ip'
          rw [List.getElem?_eq_getElem hi, List.getElem?_eq_getElem (by omega)] at ip' ⊢
          simp only [Option.some.injEq] at ip' ⊢
          exact Bool.eq_iff_iff.2 ip'
        · apply (s2 i).1
          rintro ⟨v, h1, h2, h3⟩
          exact hno ⟨v, h1, h2, (hinc v h1).1 h3⟩
      · rw [List.getElem?_eq_none (by omega), List.getElem?_eq_none (by omega)]
    · rw [f3 hE]
  · exact b2 op' ks' hx

-- non-vacuity: the event of `Props/Partition.lean`, where all hypotheses are checked; the first run changes masks, the
-- second does not
example : ∃ out, partitionDescendants exPDist exPmu exPFinal exPStatus exPEdges exPHier = .ok out ∧
    partitionDescendants exPDist exPmu exPFinal exPStatus exPEdges out = .ok out ∧
    look (.grp .or out) ["q"] ≠ look (.grp .or exPHier) ["q"] := by
  refine ⟨_, rfl, rfl, by decide⟩

end Gcl
