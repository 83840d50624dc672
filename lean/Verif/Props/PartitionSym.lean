import Verif.Props.PartitionIdem
import Verif.Props.Symmetry
/-! # C112: `partition_descendants` and the order of records and vertices -/
namespace Gcl
set_option autoImplicit false
open Spec

/-- What `C51_assign` says of a mask before and after. -/
def Assigned {M R : Type} [LinearOrder R] (dist : M → M → R) (pmu : List M) (final : List Bool)
    (status : List Int) (es : List (Int × Int)) (d d' : List Bool) : Prop :=
  d'.length = d.length ∧ ∀ i : Nat,
    ((¬ ∃ v, HadronVertex es status v ∧ HadronOf es final v i ∧ Incident es v d) → d'[i]? = d[i]?) ∧
    (∀ v, HadronVertex es status v → HadronOf es final v i → Incident es v d →
      (∀ w, HadronVertex es status w → HadronOf es final w i → Incident es w d → w ≤ v) →
      ∃ p, Nearest dist pmu es v i p ∧ (d'[i]? = some true ↔ d[p]? = some true))

/-- The last of the hadronisation vertices with a property. -/
theorem last_vertex (es : List (Int × Int)) (status : List Int) (P : Int → Prop)
    (h : ∃ v, HadronVertex es status v ∧ P v) :
    ∃ v, (HadronVertex es status v ∧ P v) ∧ ∀ w, HadronVertex es status w → P w → w ≤ v := by
  obtain ⟨v0, h0⟩ := h
  have hfinset : {v : Int | HadronVertex es status v}.Finite := by
    apply Set.Finite.subset (List.finite_toSet (es.map Prod.fst))
    rintro v ⟨k, e, s, he, -, rfl, -⟩
    exact List.mem_map.2 ⟨e, List.mem_of_getElem? he, rfl⟩
  obtain ⟨m, hm, hmm⟩ := (hfinset.subset (t := {v | HadronVertex es status v ∧ P v})
    (fun v h => h.1)).exists_maximal ⟨v0, h0⟩
  refine ⟨m, hm, fun w w1 w2 => ?_⟩
  by_contra hlt
  have := hmm (show w ∈ {v | HadronVertex es status v ∧ P v} from ⟨w1, w2⟩) (by omega)
  omega

/-- Two events whose records and hadronisation vertices correspond assign alike. -/
theorem assigned_transport {M R : Type} [LinearOrder R] {dist : M → M → R} {pmu pmu' : List M}
    {final final' : List Bool} {status status' : List Int} {es es' : List (Int × Int)} (f : Int → Int)
    (idxs : List Nat) (hperm : idxs.Perm (List.range es.length))
    (hmono : ∀ v w, HadronVertex es status v → HadronVertex es status w → v ≤ w → f v ≤ f w)
    (hv1 : ∀ v, HadronVertex es status v → HadronVertex es' status' (f v))
    (hv2 : ∀ v', HadronVertex es' status' v' → ∃ v, HadronVertex es status v ∧ v' = f v)
    (hen : ∀ v k i, HadronVertex es status v → idxs[k]? = some i → (Enters es' (f v) k ↔ Enters es v i))
    (hho : ∀ v k i, HadronVertex es status v → idxs[k]? = some i →
      (HadronOf es' final' (f v) k ↔ HadronOf es final v i))
    (hnear : ∀ v k i q p p', HadronVertex es status v → idxs[k]? = some i → idxs[q]? = some p →
      HadronOf es final v i → Nearest dist pmu' es' (f v) k q → Nearest dist pmu es v i p' → p = p')
    (hlen : es'.length = es.length) {d d1 d2 : List Bool} (hd : d.length = es.length)
    (h1 : Assigned dist pmu final status es d d1)
    (h2 : Assigned dist pmu' final' status' es' (gather d idxs) d2) : d2 = gather d1 idxs := by
  have hb : ∀ j ∈ idxs, j < es.length := fun j hj => List.mem_range.1 (hperm.mem_iff.1 hj)
  have hil : idxs.length = es.length := by rw [hperm.length_eq, List.length_range]
  obtain ⟨l1, s1⟩ := h1
  obtain ⟨l2, s2⟩ := h2
  have hbd : ∀ j ∈ idxs, j < d.length := fun j hj => by rw [hd]; exact hb j hj
  have hbd1 : ∀ j ∈ idxs, j < d1.length := fun j hj => by rw [l1, hd]; exact hb j hj
  have hget : ∀ (k i : Nat), idxs[k]? = some i → (gather d idxs)[k]? = d[i]? := by
    intro k i hk; rw [gather_getElem? d idxs hbd, hk]; rfl
  have hget1 : ∀ (k i : Nat), idxs[k]? = some i → (gather d1 idxs)[k]? = d1[i]? := by
    intro k i hk; rw [gather_getElem? d1 idxs hbd1, hk]; rfl
  have hinv : ∀ i : Nat, i < es.length → ∃ k : Nat, idxs[k]? = some i := by
    intro i hi
    obtain ⟨k, hk, e⟩ := List.getElem_of_mem (hperm.mem_iff.2 (List.mem_range.2 hi))
    exact ⟨k, by rw [List.getElem?_eq_getElem hk, e]⟩
  have hinc : ∀ v, HadronVertex es status v → (Incident es' (f v) (gather d idxs) ↔ Incident es v d) := by
    intro v hv
    constructor
    · rintro ⟨k, g1, g2⟩
      have hk : k < idxs.length := by
        have := (List.getElem?_eq_some_iff.1 g1).1
        rwa [gather_length d idxs hbd] at this
      have hki : idxs[k]? = some idxs[k] := List.getElem?_eq_getElem hk
      exact ⟨idxs[k], by rw [← hget k _ hki]; exact g1, (hen v k _ hv hki).1 g2⟩
    · rintro ⟨i, g1, g2⟩
      obtain ⟨k, hk⟩ := hinv i (by rw [← hd]; exact (List.getElem?_eq_some_iff.1 g1).1)
      exact ⟨k, by rw [hget k i hk]; exact g1, (hen v k i hv hk).2 g2⟩
  apply List.ext_getElem?
  intro k
  by_cases hk : k < idxs.length
  · have hki : idxs[k]? = some idxs[k] := List.getElem?_eq_getElem hk
    generalize idxs[k] = i at hki
    rw [hget1 k i hki]
    by_cases hex : ∃ v, HadronVertex es status v ∧ HadronOf es final v i ∧ Incident es v d
    · obtain ⟨v, ⟨g1, g2, g3⟩, hmax⟩ := last_vertex es status (fun v => HadronOf es final v i ∧ Incident es v d) hex
      obtain ⟨p', np', ip'⟩ := (s1 i).2 v g1 g2 g3 (fun w w1 w2 w3 => hmax w w1 ⟨w2, w3⟩)
      obtain ⟨q, nq, iq⟩ := (s2 k).2 (f v) (hv1 v g1) ((hho v k i g1 hki).2 g2) ((hinc v g1).2 g3) (by
        intro w' w1 w2 w3
        obtain ⟨w, hw, rfl⟩ := hv2 w' w1
        exact hmono w v hw g1 (hmax w hw ⟨(hho w k i hw hki).1 w2, (hinc w hw).1 w3⟩))
      have hq : q < idxs.length := by
        obtain ⟨e, he, -⟩ := nq.1
        have := (List.getElem?_eq_some_iff.1 he).1
        omega
      have hqi : idxs[q]? = some idxs[q] := List.getElem?_eq_getElem hq
      have hpp := hnear v k i q _ p' g1 hki hqi g2 nq np'
      rw [hget q _ hqi, hpp, ← ip'] at iq
      have hi : i < d1.length := hbd1 i (List.mem_of_getElem? hki)
      have hk2 : k < d2.length := by rw [l2, gather_length d idxs hbd]; exact hk
      rw [List.getElem?_eq_getElem hi, List.getElem?_eq_getElem hk2] at iq ⊢
      simp only [Option.some.injEq] at iq ⊢
      exact Bool.eq_iff_iff.2 iq
    · rw [(s1 i).1 hex, (s2 k).1, hget k i hki]
      rintro ⟨v', w1, w2, w3⟩
      obtain ⟨v, hv, rfl⟩ := hv2 v' w1
      exact hex ⟨v, hv, (hho v k i hv hki).1 w2, (hinc v hv).1 w3⟩
  · rw [List.getElem?_eq_none (by rw [l2, gather_length d idxs hbd]; omega),
      List.getElem?_eq_none (by rw [gather_length d1 idxs hbd1]; omega)]

/-- The same for whole trees. -/
theorem partition_transport {M R : Type} [LinearOrder R] (dist : M → M → R) {pmu pmu' : List M}
    {final final' : List Bool} {status status' : List Int} {es es' : List (Int × Int)} {hier hier' : Dict Mask}
    (idxs : List Nat) (hp : pmu.length = es.length)
    (hf : final.length = es.length) (hs : status.length = es.length)
    (hp' : pmu'.length = es'.length) (hf' : final'.length = es'.length) (hs' : status'.length = es'.length)
    (hfin : ∀ (v : Int) (p : Nat), HadronVertex es status v → Enters es v p → final[p]? ≠ some true)
    (hfin' : ∀ (v : Int) (p : Nat), HadronVertex es' status' v → Enters es' v p → final'[p]? ≠ some true)
    (hagg : Aggregable es.length (.grp .or hier)) (hor : AllAgg .or (.grp .or hier))
    (hagg' : Aggregable es'.length (.grp .or hier')) (hor' : AllAgg .or (.grp .or hier'))
    (hh : MapsIf (fun _ => True) (fun d d' => d' = gather d idxs) (.grp .or hier) (.grp .or hier'))
    (hlens : ∀ path d, look (.grp .or hier) path = some (.leaf d) → d.length = es.length)
    (key : ∀ d d1 d2, d.length = es.length → Assigned dist pmu final status es d d1 →
      Assigned dist pmu' final' status' es' (gather d idxs) d2 → d2 = gather d1 idxs) :
    ∃ out out', partitionDescendants dist pmu final status es hier = .ok out ∧
      partitionDescendants dist pmu' final' status' es' hier' = .ok out' ∧
      MapsIf (fun _ => True) (fun d d' => d' = gather d idxs) (.grp .or out) (.grp .or out') := by
  obtain ⟨out, o1, -, o3⟩ := partition_assign dist pmu final status es hier hp hf hs hfin hagg hor
  obtain ⟨out', q1, -, q3⟩ := partition_assign dist pmu' final' status' es' hier' hp' hf' hs' hfin' hagg' hor'
  refine ⟨out, out', o1, q1, fun path => ?_⟩
  obtain ⟨a1, a2, a3⟩ := o3 path
  obtain ⟨b1, b2, b3⟩ := q3 path
  obtain ⟨c1, c2, c3⟩ := hh path
  rcases hx : look (.grp .or hier) path with _ | ⟨d⟩ | ⟨op, ks⟩
  · rw [a1 hx, b1 (c1 hx)]
    refine ⟨fun _ => rfl, ?_, ?_⟩
    · intro _ _ h; cases h
    · intro _ h; cases h
  · obtain ⟨d1, e1, e2, e3⟩ := a3 d hx
    obtain ⟨dd, f1, f2, -⟩ := c3 d hx
    rw [f2 trivial] at f1
    obtain ⟨d2, g1, g2, g3⟩ := b3 _ f1
    rw [e1, g1]
    refine ⟨?_, ?_, ?_⟩
    · intro h; cases h
    · intro _ _ h; cases h
    · intro d1' h
      cases h
      refine ⟨d2, rfl, fun _ => ?_, fun h => absurd trivial h⟩
      by_cases hE : LeafPath path
      · exact key d d1 d2 (hlens path d hx) (e2 hE) (g2 hE)
      · rw [e3 hE, g3 hE]
  · rw [a2 op ks hx, b2 op ks (c2 op ks hx)]
    refine ⟨?_, ?_, ?_⟩
    · intro h; cases h
    · intro op' ks' h; cases h; rfl
    · intro _ h; cases h

/-- The leaves of a tree that can be aggregated have the length of the records. -/
theorem aggregable_leaf_length {n : Nat} {m : Mask} (h : Aggregable n m) :
    ∀ path d, look m path = some (.leaf d) → d.length = n := by
  induction h with
  | leaf hd =>
    intro path d hl
    cases path with
    | nil => cases hl; exact hd
    | cons k path => exact absurd hl (by rw [look_cons]; exact fun h => by cases h)
  | @group op ks _ _ _ ih =>
    intro path d hl
    cases path with
    | nil => cases hl
    | cons k path =>
      rw [look_cons, child_grp] at hl
      cases hk : Dict.get? ks k with
      | none => simp [hk] at hl
      | some m => rw [hk] at hl; exact ih k m (Dict.mem_of_get? hk) path d hl

/-- Reordered edges have the same descendants. -/
theorem descends_gather (es : List (Int × Int)) (idxs : List Nat) (h2 : ∀ j, j < es.length → j ∈ idxs)
    (v : Int) (e : Int × Int) : Descends (gather es idxs) v e ↔ Descends es v e := by
  have hm := gather_mem_iff es idxs h2
  unfold Descends
  simp only [hm, reach_of_mem_iff hm]

/-- **C112** `partition_descendants` does not depend on the order of the records, if no particle is equally far from
two partons entering the hadronisation vertex it descends from: reordering the event, and the masks of the hierarchy,
by `idxs` reorders all masks of the result by `idxs`. -/
theorem C112_order {M R : Type} [LinearOrder R] (dist : M → M → R) (pmu : List M) (final : List Bool)
    (status : List Int) (es : List (Int × Int)) (hier hier' : Dict Mask) (idxs : List Nat)
    (hperm : idxs.Perm (List.range es.length)) (hp : pmu.length = es.length)
    (hf : final.length = es.length) (hs : status.length = es.length)
    (hfin : ∀ (v : Int) (p : Nat), HadronVertex es status v → Enters es v p → final[p]? ≠ some true)
    (hagg : Aggregable es.length (.grp .or hier)) (hor : AllAgg .or (.grp .or hier))
    (hagg' : Aggregable es.length (.grp .or hier')) (hor' : AllAgg .or (.grp .or hier'))
    (hh : MapsIf (fun _ => True) (fun d d' => d' = gather d idxs) (.grp .or hier) (.grp .or hier'))
    (hties : ∀ (v : Int) (i p q : Nat) (mi mp mq : M), HadronVertex es status v → HadronOf es final v i →
      Enters es v p → Enters es v q → pmu[i]? = some mi → pmu[p]? = some mp → pmu[q]? = some mq →
      dist mp mi = dist mq mi → p = q) :
    ∃ out out', partitionDescendants dist pmu final status es hier = .ok out ∧
      partitionDescendants dist (gather pmu idxs) (gather final idxs) (gather status idxs) (gather es idxs) hier' =
        .ok out' ∧
      MapsIf (fun _ => True) (fun d d' => d' = gather d idxs) (.grp .or out) (.grp .or out') := by
  have hb : ∀ j ∈ idxs, j < es.length := fun j hj => List.mem_range.1 (hperm.mem_iff.1 hj)
  have h2 : ∀ j, j < es.length → j ∈ idxs := fun j hj => hperm.mem_iff.2 (List.mem_range.2 hj)
  have hil : idxs.length = es.length := by rw [hperm.length_eq, List.length_range]
  have hle := gather_length es idxs hb
  have hbp : ∀ j ∈ idxs, j < pmu.length := fun j hj => by rw [hp]; exact hb j hj
  have hbf : ∀ j ∈ idxs, j < final.length := fun j hj => by rw [hf]; exact hb j hj
  have hbs : ∀ j ∈ idxs, j < status.length := fun j hj => by rw [hs]; exact hb j hj
  have ge : ∀ (k i : Nat), idxs[k]? = some i → (gather es idxs)[k]? = es[i]? := fun k i hk => by
    rw [gather_getElem? es idxs hb, hk]; rfl
  have gp : ∀ (k i : Nat), idxs[k]? = some i → (gather pmu idxs)[k]? = pmu[i]? := fun k i hk => by
    rw [gather_getElem? pmu idxs hbp, hk]; rfl
  have gf : ∀ (k i : Nat), idxs[k]? = some i → (gather final idxs)[k]? = final[i]? := fun k i hk => by
    rw [gather_getElem? final idxs hbf, hk]; rfl
  have hinv : ∀ i : Nat, i < es.length → ∃ k : Nat, idxs[k]? = some i := by
    intro i hi
    obtain ⟨k, hk, e⟩ := List.getElem_of_mem (h2 i hi)
    exact ⟨k, by rw [List.getElem?_eq_getElem hk, e]⟩
  have hfwd : ∀ k : Nat, k < idxs.length → idxs[k]? = some (idxs.getD k 0) := by
    intro k hk; rw [List.getD_eq_getElem?_getD, List.getElem?_eq_getElem hk]; rfl
  have hv : ∀ v, HadronVertex (gather es idxs) (gather status idxs) v ↔ HadronVertex es status v := by
    intro v
    constructor
    · rintro ⟨i, e, s, g1, g2, g3⟩
      obtain ⟨i', k1, k2⟩ := (gather_pair es status hs idxs hb h2 e s).1 ⟨i, g1, g2⟩
      exact ⟨i', e, s, k1, k2, g3⟩
    · rintro ⟨i, e, s, g1, g2, g3⟩
      obtain ⟨i', k1, k2⟩ := (gather_pair es status hs idxs hb h2 e s).2 ⟨i, g1, g2⟩
      exact ⟨i', e, s, k1, k2, g3⟩
  have hen : ∀ (v : Int) (k i : Nat), idxs[k]? = some i → (Enters (gather es idxs) v k ↔ Enters es v i) := by
    intro v k i hk; unfold Enters; rw [ge k i hk]
  have hho : ∀ (v : Int) (k i : Nat), idxs[k]? = some i →
      (HadronOf (gather es idxs) (gather final idxs) v k ↔ HadronOf es final v i) := by
    intro v k i hk
    unfold HadronOf
    rw [ge k i hk, gf k i hk]
    simp only [descends_gather es idxs h2]
  have henl : ∀ v q, Enters (gather es idxs) v q → q < idxs.length := by
    rintro v q ⟨e, he, -⟩
    have := (List.getElem?_eq_some_iff.1 he).1
    omega
  refine partition_transport dist idxs hp hf hs (by rw [gather_length pmu idxs hbp, hle])
    (by rw [gather_length final idxs hbf, hle]) (by rw [gather_length status idxs hbs, hle]) hfin ?_ hagg hor
    (by rw [hle, hil]; exact hagg') hor' hh (aggregable_leaf_length hagg) ?_
  · intro v q g1 g2
    have hq := hfwd q (henl v q g2)
    rw [gf q _ hq]
    exact hfin v _ ((hv v).1 g1) ((hen v q _ hq).1 g2)
  · intro d d1 d2 hd
    refine assigned_transport id idxs hperm (fun v w _ _ h => h) (fun v h => (hv v).2 h)
      (fun v h => ⟨v, (hv v).1 h, rfl⟩) (fun v k i _ hk => hen v k i hk) (fun v k i _ hk => hho v k i hk) ?_
      (by rw [hle, hil]) hd
    intro v k i q p p' g1 hk hq gh hn hn'
    obtain ⟨n1, mi, mq, n2, n3, n4⟩ := hn
    obtain ⟨n1', mi', mp', n2', n3', n4'⟩ := hn'
    rw [gp k i hk] at n2
    rw [n2] at n2'
    cases n2'
    rw [gp q p hq] at n3
    have ep := (hen v q p hq).1 n1
    -- each is at most as far as the other
    have n1c := n1'
    obtain ⟨e', he', -⟩ := n1c
    obtain ⟨q', hq'⟩ := hinv p' (List.getElem?_eq_some_iff.1 he').1
    have hle1 := (n4 q' mp' ((hen v q' p' hq').2 n1') (by rw [gp q' p' hq']; exact n3')).1
    have hle2 := (n4' p mq ep n3).1
    exact hties v i p p' mi mq mp' g1 gh ep n1' n2 n3 n3' (le_antisymm hle1 hle2)

/-- **C112** `partition_descendants` does not depend on the ids of the vertices, if renaming keeps different ones different
and the hadronisation vertices in order. -/
theorem C112_ids {M R : Type} [LinearOrder R] (dist : M → M → R) (pmu : List M) (final : List Bool)
    (status : List Int) (es : List (Int × Int)) (hier : Dict Mask) (f : Int → Int)
    (hinj : Set.InjOn f {w | IsVertex es w}) (hmono : MonotoneOn f {v | HadronVertex es status v})
    (hp : pmu.length = es.length) (hf : final.length = es.length) (hs : status.length = es.length)
    (hfin : ∀ (v : Int) (p : Nat), HadronVertex es status v → Enters es v p → final[p]? ≠ some true)
    (hagg : Aggregable es.length (.grp .or hier)) (hor : AllAgg .or (.grp .or hier)) :
    ∃ out out', partitionDescendants dist pmu final status es hier = .ok out ∧
      partitionDescendants dist pmu final status (rename f es) hier = .ok out' ∧
      ∀ path, look (.grp .or out') path = look (.grp .or out) path := by
  have hlen : (rename f es).length = es.length := by simp [rename]
  have hisV : ∀ v, HadronVertex es status v → IsVertex es v := by
    rintro v ⟨i, e, s, h1, -, h3, -⟩
    exact ⟨e, List.mem_of_getElem? h1, Or.inl h3⟩
  have ge : ∀ (k : Nat), (rename f es)[k]? = es[k]?.map (fun e => (f e.1, f e.2)) := by
    intro k; simp [rename]
  have hv1 : ∀ v, HadronVertex es status v → HadronVertex (rename f es) status (f v) := by
    rintro v ⟨i, e, s, h1, h2, rfl, h4⟩
    exact ⟨i, (f e.1, f e.2), s, by rw [ge, h1]; rfl, h2, rfl, h4⟩
  have hv2 : ∀ v', HadronVertex (rename f es) status v' → ∃ v, HadronVertex es status v ∧ v' = f v := by
    rintro v' ⟨i, e', s, h1, h2, rfl, h4⟩
    rw [ge] at h1
    obtain ⟨e, he, rfl⟩ := Option.map_eq_some_iff.1 h1
    exact ⟨e.1, ⟨i, e, s, he, h2, rfl, h4⟩, rfl⟩
  have hen : ∀ v k, IsVertex es v → (Enters (rename f es) (f v) k ↔ Enters es v k) := by
    intro v k hv
    unfold Enters
    rw [ge]
    constructor
    · rintro ⟨e', h1, h2⟩
      obtain ⟨e, he, rfl⟩ := Option.map_eq_some_iff.1 h1
      exact ⟨e, he, hinj ⟨e, List.mem_of_getElem? he, Or.inr rfl⟩ hv h2⟩
    · rintro ⟨e, he, rfl⟩
      exact ⟨_, by rw [he]; rfl, rfl⟩
  have hinj' : ∀ v, IsVertex es v → Set.InjOn f {w | IsVertex es w ∨ w = v} := by
    intro v hv a ha b hb h
    refine hinj ?_ ?_ h
    · rcases ha with ha | rfl
      · exact ha
      · exact hv
    · rcases hb with hb | rfl
      · exact hb
      · exact hv
  have hde : ∀ v e, IsVertex es v → e ∈ es → (Descends (rename f es) (f v) (f e.1, f e.2) ↔ Descends es v e) := by
    intro v e hv he
    unfold Descends
    rw [out_rename (hinj' v hv), reach_rename (hinj' v hv) e.1 (Or.inl ⟨e, he, Or.inl rfl⟩)]
    simp only
    have : f e.2 = f v ↔ e.2 = v := ⟨fun h => hinj ⟨e, he, Or.inr rfl⟩ hv h, fun h => by rw [h]⟩
    rw [this]
  have hho : ∀ v k, IsVertex es v → (HadronOf (rename f es) final (f v) k ↔ HadronOf es final v k) := by
    intro v k hv
    unfold HadronOf
    rw [ge]
    constructor
    · rintro ⟨h0, e', h1, h2⟩
      obtain ⟨e, he, rfl⟩ := Option.map_eq_some_iff.1 h1
      exact ⟨h0, e, he, (hde v e hv (List.mem_of_getElem? he)).1 h2⟩
    · rintro ⟨h0, e, he, h2⟩
      exact ⟨h0, _, by rw [he]; rfl, (hde v e hv (List.mem_of_getElem? he)).2 h2⟩
  have hgr : ∀ d : List Bool, d.length = es.length → gather d (List.range es.length) = d := by
    intro d hd
    have hb : ∀ j ∈ List.range es.length, j < d.length := by intro j hj; rw [hd]; exact List.mem_range.1 hj
    apply List.ext_getElem?
    intro k
    rw [gather_getElem? d _ hb]
    by_cases hk : k < es.length
    · rw [List.getElem?_range hk]; rfl
    · rw [List.getElem?_eq_none (by simpa using hk), List.getElem?_eq_none (by omega)]; rfl
  have hll := aggregable_leaf_length hagg
  have hh : MapsIf (fun _ => True) (fun d d' => d' = gather d (List.range es.length)) (.grp .or hier)
      (.grp .or hier) := by
    intro path
    refine ⟨fun h => h, fun _ _ h => h, fun d h => ⟨d, h, fun _ => (hgr d (hll path d h)).symm, fun _ => rfl⟩⟩
  obtain ⟨out, out', o1, o2, o3⟩ := partition_transport dist (es' := rename f es) (pmu' := pmu) (final' := final)
    (status' := status) (List.range es.length) hp hf hs (by rw [hlen]; exact hp) (by rw [hlen]; exact hf)
    (by rw [hlen]; exact hs) hfin (by
      intro v' p g1 g2
      obtain ⟨v, hv, rfl⟩ := hv2 v' g1
      exact hfin v p hv ((hen v p (hisV v hv)).1 g2)) hagg hor (by rw [hlen]; exact hagg) hor hh hll (by
      intro d d1 d2 hd
      have hid : ∀ (k i : Nat), (List.range es.length)[k]? = some i → k = i := by
        intro k i hk
        have := (List.getElem?_eq_some_iff.1 hk).2
        simpa using this
      refine assigned_transport f (List.range es.length) (List.Perm.refl _) (fun v w hv hw h => hmono hv hw h) hv1 hv2
        (fun v k i hv hk => by rw [← hid k i hk]; exact hen v k (hisV v hv))
        (fun v k i hv hk => by rw [← hid k i hk]; exact hho v k (hisV v hv)) ?_ hlen hd
      intro v k i q p p' hv hk hq _ hn hn'
      have e1 := hid k i hk
      have e2 := hid q p hq
      subst e1 e2
      refine nearest_unique ?_ hn'
      obtain ⟨n1, mi, mp, n2, n3, n4⟩ := hn
      exact ⟨(hen v q (hisV v hv)).1 n1, mi, mp, n2, n3, fun r mr hr hmr =>
        n4 r mr ((hen v r (hisV v hv)).2 hr) hmr⟩)
  refine ⟨out, out', o1, o2, fun path => ?_⟩
  obtain ⟨c1, c2, c3⟩ := o3 path
  obtain ⟨outA, a1, a2, a3⟩ := partition_assign dist pmu final status es hier hp hf hs hfin hagg hor
  rw [o1] at a1
  cases a1
  rcases hx : look (.grp .or out) path with _ | ⟨d⟩ | ⟨op, ks⟩
  · exact c1 hx
  · obtain ⟨d', e1, e2, -⟩ := c3 d hx
    rw [e1, e2 trivial, hgr d (aggregable_leaf_length a2 path d hx)]
  · exact c2 op ks hx

section Example

/-- A flat tree of two masks. -/
def exQR (a b : List Bool) : Dict Mask := [("q", .arr a), ("r", .arr b)]

theorem exQR_agg {n : Nat} {a b : List Bool} (ha : a.length = n) (hb : b.length = n) :
    Aggregable n (.grp .or (exQR a b)) := by
  refine .group (by decide) (by simp [exQR]) ?_
  intro k m hm
  simp only [exQR, List.mem_cons, Prod.mk.injEq, List.not_mem_nil, or_false] at hm
  rcases hm with ⟨-, rfl⟩ | ⟨-, rfl⟩
  · exact .leaf ha
  · exact .leaf hb

theorem exQR_or (a b : List Bool) : AllAgg .or (.grp .or (exQR a b)) := by
  refine allAgg_grp ?_
  intro k m hm
  simp only [exQR, List.mem_cons, Prod.mk.injEq, List.not_mem_nil, or_false] at hm
  rcases hm with ⟨-, rfl⟩ | ⟨-, rfl⟩ <;> exact allAgg_arr _

theorem exQR_maps (a b : List Bool) (idxs : List Nat) :
    MapsIf (fun _ => True) (fun d d' => d' = gather d idxs) (.grp .or (exQR a b))
      (.grp .or (exQR (gather a idxs) (gather b idxs))) := by
  have leaf : ∀ (c : List Bool) (path : List String),
      (look (.arr c) path = none → look (.arr (gather c idxs)) path = none) ∧
      (∀ op ks, look (.arr c) path = some (.group op ks) → look (.arr (gather c idxs)) path = some (.group op ks)) ∧
      (∀ d, look (.arr c) path = some (.leaf d) → ∃ d', look (.arr (gather c idxs)) path = some (.leaf d') ∧
        (True → d' = gather d idxs) ∧ (¬ True → d' = d)) := by
    intro c path
    cases path with
    | nil =>
      refine ⟨fun h => by (cases h), fun _ _ h => by (cases h), ?_⟩
      intro d h; cases h
      exact ⟨_, rfl, fun _ => rfl, fun h => absurd trivial h⟩
    | cons k path => exact ⟨fun _ => rfl, fun _ _ h => by (cases h), fun _ h => by (cases h)⟩
  intro path
  cases path with
  | nil =>
    refine ⟨fun h => by (cases h), ?_, fun _ h => by (cases h)⟩
    intro op ks h; cases h; rfl
  | cons k path =>
    rw [look_cons, look_cons, child_grp, child_grp]
    by_cases h1 : k = "q"
    · subst h1; exact leaf a path
    · by_cases h2 : k = "r"
      · subst h2; exact leaf b path
      · have h3 : ∀ a b, Dict.get? (exQR a b) k = none := by
          intro a b
          simp only [exQR, Dict.get?]
          simp [Ne.symm h1, Ne.symm h2]
        rw [h3, h3]
        exact ⟨fun _ => rfl, fun _ _ h => by (cases h), fun _ h => by (cases h)⟩

/-- The hypothesis on hadronisation vertices, checked by running through the records. -/
theorem entersFinal_check (es : List (Int × Int)) (status : List Int) (final : List Bool)
    (hall : ∀ i ∈ List.range es.length, ∀ p ∈ List.range es.length, (80 ≤ (status[i]?.getD 0).natAbs) →
      (es[p]?.map Prod.snd = es[i]?.map Prod.fst) → final[p]? ≠ some true) :
    ∀ (v : Int) (p : Nat), HadronVertex es status v → Enters es v p → final[p]? ≠ some true := by
  rintro v p ⟨i, e, s, h1, h2, h3, h4, h5⟩ ⟨e', h6, h7⟩
  refine hall i (List.mem_range.2 (List.getElem?_eq_some_iff.1 h1).1) p
    (List.mem_range.2 (List.getElem?_eq_some_iff.1 h6).1) (by rw [h2]; exact h4) ?_
  rw [h1, h6]; simp [h3, h7]

/-- Masks of `exPEdges` for the examples. -/
def exQ : List Bool := [true, false, false, true, true, true]
def exR : List Bool := [false, true, false, true, true, true]
/-- Momenta without ties. -/
def exPmu2 : List Nat := [10, 20, 30, 11, 29, 14]

-- non-vacuity of `C112_order`: all hypotheses hold of this event, whose records are reversed; the masks change
example : ∃ out out',
    partitionDescendants exPDist exPmu2 exPFinal exPStatus exPEdges (exQR exQ exR) = .ok out ∧
    partitionDescendants exPDist (gather exPmu2 [5, 4, 3, 2, 1, 0]) (gather exPFinal [5, 4, 3, 2, 1, 0])
      (gather exPStatus [5, 4, 3, 2, 1, 0]) (gather exPEdges [5, 4, 3, 2, 1, 0])
      (exQR (gather exQ [5, 4, 3, 2, 1, 0]) (gather exR [5, 4, 3, 2, 1, 0])) = .ok out' ∧
    MapsIf (fun _ => True) (fun d d' => d' = gather d [5, 4, 3, 2, 1, 0]) (.grp .or out) (.grp .or out') := by
  refine C112_order exPDist exPmu2 exPFinal exPStatus exPEdges _ _ _ (by decide) rfl rfl rfl
    (entersFinal_check _ _ _ (by decide)) (exQR_agg rfl rfl) (exQR_or _ _) (exQR_agg rfl rfl) (exQR_or _ _)
    (exQR_maps _ _ _) ?_
  rintro v i p q mi mp mq ⟨j, e0, s, j1, j2, j3, j4, -⟩ ⟨hi, ei, he, -⟩ ⟨e1, h1, h1'⟩ ⟨e2, h2, h2'⟩ h3 h4 h5 h6
  have hall : ∀ j ∈ List.range 6, ∀ i ∈ List.range 6, ∀ p ∈ List.range 6, ∀ q ∈ List.range 6,
      80 ≤ (exPStatus[j]?.getD 0).natAbs → exPFinal[i]? = some true →
      exPEdges[p]?.map Prod.snd = exPEdges[j]?.map Prod.fst → exPEdges[q]?.map Prod.snd = exPEdges[j]?.map Prod.fst →
      exPDist (exPmu2[p]?.getD 0) (exPmu2[i]?.getD 0) = exPDist (exPmu2[q]?.getD 0) (exPmu2[i]?.getD 0) → p = q := by
    decide
  have lt : ∀ {k : Nat} {e : Int × Int}, exPEdges[k]? = some e → k ∈ List.range 6 := fun h =>
    List.mem_range.2 (List.getElem?_eq_some_iff.1 h).1
  refine hall j (lt j1) i (lt he) p (lt h1) q (lt h2) (by rw [j2]; exact j4) hi ?_ ?_ ?_
  · rw [h1, j1]; simp [h1', j3]
  · rw [h2, j1]; simp [h2', j3]
  · rw [h3, h4, h5]; exact h6
-- and the result differs from the input
example : partitionDescendants exPDist exPmu2 exPFinal exPStatus exPEdges (exQR exQ exR) = .ok
    (exQR [true, false, false, true, false, true] [false, true, false, false, false, false]) := rfl

/-- **C112** Without the hypothesis on ties the order of the records matters: of two partons equally near to a hadron the
first gets it. -/
theorem C112_false_ties : ¬ ∀ (dist : Nat → Nat → Nat) (pmu : List Nat) (final : List Bool) (status : List Int)
    (es : List (Int × Int)) (hier hier' : Dict Mask) (idxs : List Nat), idxs.Perm (List.range es.length) →
    pmu.length = es.length → final.length = es.length → status.length = es.length →
    (∀ (v : Int) (p : Nat), HadronVertex es status v → Enters es v p → final[p]? ≠ some true) →
    Aggregable es.length (.grp .or hier) → AllAgg .or (.grp .or hier) →
    Aggregable es.length (.grp .or hier') → AllAgg .or (.grp .or hier') →
    MapsIf (fun _ => True) (fun d d' => d' = gather d idxs) (.grp .or hier) (.grp .or hier') →
    ∃ out out', partitionDescendants dist pmu final status es hier = .ok out ∧
      partitionDescendants dist (gather pmu idxs) (gather final idxs) (gather status idxs) (gather es idxs) hier' =
        .ok out' ∧
      MapsIf (fun _ => True) (fun d d' => d' = gather d idxs) (.grp .or out) (.grp .or out') := by
  intro h
  obtain ⟨out, out', h1, h2, h3⟩ := h exPDist exPmu exPFinal exPStatus exPEdges (exQR exQ exR)
    (exQR (gather exQ [1, 0, 2, 3, 4, 5]) (gather exR [1, 0, 2, 3, 4, 5])) [1, 0, 2, 3, 4, 5] (by decide) rfl rfl rfl
    (entersFinal_check _ _ _ (by decide)) (exQR_agg rfl rfl) (exQR_or _ _) (exQR_agg rfl rfl) (exQR_or _ _)
    (exQR_maps _ _ _)
  have e1 : out = exQR [true, false, false, true, false, true] [false, true, false, false, false, false] := by
    have : Except.ok (ε := PyErr) out = .ok _ := h1.symm.trans rfl
    exact Except.ok.inj this
  have e2 : out' = exQR [false, true, false, true, false, false] [true, false, false, false, false, true] := by
    have : Except.ok (ε := PyErr) out' = .ok _ := h2.symm.trans rfl
    exact Except.ok.inj this
  subst e1 e2
  obtain ⟨d', g1, g2, -⟩ := (h3 ["q"]).2.2 _ rfl
  have g3 := g2 trivial
  subst g3
  exact absurd g1 (by decide)

/-- Hadronisation of hadronisation: vertex 4 is behind vertex 3. -/
def exNEdges : List (Int × Int) := [(1, 3), (2, 3), (3, 4), (8, 4), (4, 5)]
def exNStatus : List Int := [23, 23, 83, 23, 84]
def exNFinal : List Bool := [false, false, false, false, true]
def exNmu : List Nat := [10, 50, 30, 12, 11]
def exNQ : List Bool := [true, false, true, false, true]
def exNR : List Bool := [false, true, true, false, true]

-- non-vacuity of `C112_ids`: all ids raised by 10
example : ∃ out out',
    partitionDescendants exPDist exNmu exNFinal exNStatus exNEdges (exQR exNQ exNR) = .ok out ∧
    partitionDescendants exPDist exNmu exNFinal exNStatus (rename (· + 10) exNEdges) (exQR exNQ exNR) = .ok out' ∧
    ∀ path, look (.grp .or out') path = look (.grp .or out) path :=
  C112_ids exPDist exNmu exNFinal exNStatus exNEdges _ (· + 10) (fun a _ b _ h => by simpa using h)
    (fun a _ b _ h => by simpa using h) rfl rfl rfl (entersFinal_check _ _ _ (by decide)) (exQR_agg rfl rfl)
    (exQR_or _ _)

/-- Exchanges the ids 3 and 4. -/
def exSwap (v : Int) : Int := if v = 3 then 4 else if v = 4 then 3 else v

/-- **C112** Without the hypothesis that hadronisation vertices stay in order the ids matter: a hadron behind two
hadronisation vertices is assigned by the one with the greater id, not by the nearer one. -/
theorem C112_false_ids : ¬ ∀ (dist : Nat → Nat → Nat) (pmu : List Nat) (final : List Bool) (status : List Int)
    (es : List (Int × Int)) (hier : Dict Mask) (f : Int → Int), Set.InjOn f {w | IsVertex es w} →
    pmu.length = es.length → final.length = es.length → status.length = es.length →
    (∀ (v : Int) (p : Nat), HadronVertex es status v → Enters es v p → final[p]? ≠ some true) →
    Aggregable es.length (.grp .or hier) → AllAgg .or (.grp .or hier) →
    ∃ out out', partitionDescendants dist pmu final status es hier = .ok out ∧
      partitionDescendants dist pmu final status (rename f es) hier = .ok out' ∧
      ∀ path, look (.grp .or out') path = look (.grp .or out) path := by
  intro h
  obtain ⟨out, out', h1, h2, h3⟩ := h exPDist exNmu exNFinal exNStatus exNEdges (exQR exNQ exNR) exSwap
    (fun a _ b _ hab => by simp only [exSwap] at hab; split_ifs at hab <;> omega) rfl rfl rfl
    (entersFinal_check _ _ _ (by decide)) (exQR_agg rfl rfl) (exQR_or _ _)
  have e1 : out = exQR [true, false, true, false, false] [false, true, true, false, false] := by
    have : Except.ok (ε := PyErr) out = .ok _ := h1.symm.trans rfl
    exact Except.ok.inj this
  have e2 : out' = exQR [true, false, true, false, true] [false, true, true, false, false] := by
    have : Except.ok (ε := PyErr) out' = .ok _ := h2.symm.trans rfl
    exact Except.ok.inj this
  subst e1 e2
  exact absurd (h3 ["q"]) (by decide)

end Example

end Gcl
