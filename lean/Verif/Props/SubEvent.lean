import Verif.Spec.Flow
import Verif.Props.HardDesc
import Verif.Props.Symmetry
/-! # C138: events cut out of events -/
namespace Gcl
set_option autoImplicit false
open Spec

namespace Spec
/-- With a particle the mask selects everything that leaves its end vertex. -/
def DownwardClosed (es : List (Int × Int)) (m : List Bool) : Prop :=
  ∀ (i j : Nat) (e f : Int × Int), es[i]? = some e → es[j]? = some f → m[i]? = some true → f.1 = e.2 → m[j]? = some true
end Spec

open Classical in
theorem mask_eq_map_decide {es : List (Int × Int)} {m : List Bool} {P : Int × Int → Prop} (hm : m.length = es.length)
    (h : ∀ (i : Nat) e, es[i]? = some e → (m[i]? = some true ↔ P e)) : m = es.map (fun e => decide (P e)) := by
  apply List.ext_getElem?
  intro i
  by_cases hi : i < es.length
  · have := h i es[i] (List.getElem?_eq_getElem hi)
    rw [List.getElem?_map, List.getElem?_eq_getElem hi, List.getElem?_eq_getElem (by omega)] at *
    simp only [Option.map_some, Option.some.injEq] at this ⊢
    by_cases hp : P es[i]
    · rw [this.2 hp, decide_eq_true hp]
    · rw [decide_eq_false hp]
      cases hb : m[i] with
      | false => rfl
      | true => exact absurd (this.1 hb) hp
  · rw [List.getElem?_eq_none (by omega), List.getElem?_eq_none (by simp; omega)]

theorem map_selected {α β : Type} (f : α → β) (a : List α) (m : List Bool) :
    selected (a.map f) m = (selected a m).map f := by
  induction a generalizing m with
  | nil => rfl
  | cons x a ih =>
    cases m with
    | nil => rfl
    | cons b m => rw [List.map_cons, selected_cons, selected_cons, ih]; cases b <;> rfl

theorem selected_sub {α : Type} (a : List α) (m d : List Bool) (hm : m.length = a.length) (hd : d.length = a.length)
    (h : ∀ i : Nat, d[i]? = some true → m[i]? = some true) : selected (selected a m) (selected d m) = selected a d := by
  induction a generalizing m d with
  | nil => rfl
  | cons x a ih =>
    obtain ⟨b, m, rfl⟩ := List.exists_cons_of_length_eq_add_one hm
    obtain ⟨c, d, rfl⟩ := List.exists_cons_of_length_eq_add_one hd
    have hr := ih m d (by simpa using hm) (by simpa using hd) (fun i hi => by simpa using h (i + 1) (by simpa using hi))
    have h0 := h 0
    simp only [List.getElem?_cons_zero, Option.some.injEq] at h0
    cases b <;> cases c <;> simp_all [selected_cons]

theorem selected_length_eq {α β : Type} (a : List α) (b : List β) (m : List Bool) (h : a.length = b.length) :
    (selected a m).length = (selected b m).length := by
  induction a generalizing b m with
  | nil => rw [List.length_nil] at h; rw [List.length_eq_zero_iff.1 h.symm]; rfl
  | cons x a ih =>
    obtain ⟨y, b, rfl⟩ := List.exists_cons_of_length_eq_add_one h.symm
    cases m with
    | nil => rfl
    | cons c m =>
      have := ih b m (by simpa using h)
      cases c <;> simp [selected_cons, this]

/-- The masks of two edge lists given by one predicate. -/
theorem selected_same {es : List (Int × Int)} {m d d' : List Bool} {P P' : Int × Int → Prop}
    (hm : m.length = es.length) (hd : d.length = es.length) (hd' : d'.length = (selected es m).length)
    (h : ∀ (i : Nat) e, es[i]? = some e → (d[i]? = some true ↔ P e))
    (h' : ∀ (i : Nat) e, (selected es m)[i]? = some e → (d'[i]? = some true ↔ P' e))
    (hpp : ∀ (i : Nat) e, es[i]? = some e → m[i]? = some true → (P e ↔ P' e)) : (Key.mask m).apply d = .ok d' := by
  classical
  rw [(C20_mask d m).1 (by omega), mask_eq_map_decide hd h, mask_eq_map_decide hd' h', map_selected]
  congr 1
  apply List.map_congr_left
  intro e he
  obtain ⟨i, hi, hmi⟩ := (mem_selected e es m).1 he
  simp [hpp i e hi hmi]

section
variable {es es' : List (Int × Int)} {m : List Bool}

theorem sub_mem (he : (Key.mask m).apply es = .ok es') (hm : m.length = es.length) :
    es' = selected es m ∧ ∀ e, e ∈ es' ↔ ∃ i : Nat, es[i]? = some e ∧ m[i]? = some true := by
  rw [(C20_mask es m).1 hm] at he
  cases he
  exact ⟨rfl, fun e => mem_selected e es m⟩

/-- **C138** Final-state particles of a cut-out event: if the mask selects, with a particle, everything leaving its end
vertex, then the leaves of `adj[mask]` are the leaves of `adj`, restricted to the mask. -/
theorem C138_leaves (hm : m.length = es.length) (hc : DownwardClosed es m) (he : (Key.mask m).apply es = .ok es')
    (hne : es' ≠ []) :
    ∃ leaf leaf', leaves es = .ok leaf ∧ leaves es' = .ok leaf' ∧ (Key.mask m).apply leaf = .ok leaf' := by
  obtain ⟨e1, e2⟩ := sub_mem he hm
  have hne0 : es ≠ [] := by
    rintro rfl
    exact hne e1
  obtain ⟨leaf, l1, l2, l3⟩ := C34_leaves es hne0
  obtain ⟨leaf', l1', l2', l3'⟩ := C34_leaves es' hne
  refine ⟨leaf, leaf', l1, l1', selected_same (P := fun e => ∀ e' ∈ es, e'.1 ≠ e.2) (P' := fun e => ∀ e' ∈ es', e'.1 ≠ e.2)
    hm l2 (by rw [← e1]; exact l2') l3 (by rw [← e1]; exact l3') ?_⟩
  intro i e hi hmi
  constructor
  · intro h f hf
    obtain ⟨j, hj, -⟩ := (e2 f).1 hf
    exact h f (List.mem_of_getElem? hj)
  · intro h f hf hfe
    obtain ⟨j, hj⟩ := List.mem_iff_getElem?.1 hf
    exact h f ((e2 f).2 ⟨j, hj, hc i j e f hi hj hmi hfe⟩) hfe

theorem sub_reach {u x : Int} (hc : DownwardClosed es m)
    (hmem : ∀ e, e ∈ es' ↔ ∃ i : Nat, es[i]? = some e ∧ m[i]? = some true)
    (hu : ∀ (j : Nat) f, es[j]? = some f → f.1 = u → m[j]? = some true) :
    (Reach es' u x ↔ Reach es u x) ∧
    (Reach es u x → ∀ (j : Nat) f, es[j]? = some f → f.1 = x → m[j]? = some true) := by
  have key : Reach es u x → Reach es' u x ∧ ∀ (j : Nat) f, es[j]? = some f → f.1 = x → m[j]? = some true := by
    intro h
    induction h with
    | refl => exact ⟨.refl, hu⟩
    | @tail a b _ hs ih =>
      obtain ⟨j, hj⟩ := List.mem_iff_getElem?.1 (show (a, b) ∈ es from hs)
      have hmj := ih.2 j (a, b) hj rfl
      exact ⟨ih.1.tail ((hmem _).2 ⟨j, hj, hmj⟩), fun k f hk hf => hc j k (a, b) f hj hk hmj hf⟩
  refine ⟨⟨fun h => ?_, fun h => (key h).1⟩, fun h => (key h).2⟩
  refine Relation.ReflTransGen.mono (fun a b hab => ?_) _ _ h
  obtain ⟨j, hj, -⟩ := (hmem (a, b)).1 hab
  exact List.mem_of_getElem? hj

/-- **C138** Descendants in a cut-out event: for a vertex all of whose outgoing edges are selected by such a mask,
`vertex_descendants` in `adj[mask]` is `vertex_descendants` in `adj`, restricted to the mask. If the vertex has outgoing
edges nothing is lost: subscripting any column of the event with the mask and then with the descendants found there is
subscripting it with the descendants. -/
theorem C138_descendants (u : Int) (hm : m.length = es.length) (hc : DownwardClosed es m)
    (he : (Key.mask m).apply es = .ok es')
    (hu : ∀ (j : Nat) f, es[j]? = some f → f.1 = u → m[j]? = some true) :
    ∃ d d', vertexDescendants es u = .ok d ∧ vertexDescendants es' u = .ok d' ∧ (Key.mask m).apply d = .ok d' ∧
      (HasOut es u → (∀ i : Nat, d[i]? = some true → m[i]? = some true) ∧
        ∀ {α : Type} (col : List α), col.length = es.length →
          ∃ sub r, (Key.mask m).apply col = .ok sub ∧ (Key.mask d').apply sub = .ok r ∧ (Key.mask d).apply col = .ok r) := by
  obtain ⟨e1, e2⟩ := sub_mem he hm
  obtain ⟨d, d1, d2, d3⟩ := C39_descendants es u
  obtain ⟨d', d1', d2', d3'⟩ := C39_descendants es' u
  have hout : HasOut es u ↔ HasOut es' u := by
    constructor
    · rintro ⟨w, hw⟩
      obtain ⟨j, hj⟩ := List.mem_iff_getElem?.1 hw
      exact ⟨w, (e2 _).2 ⟨j, hj, hu j _ hj rfl⟩⟩
    · rintro ⟨w, hw⟩
      obtain ⟨j, hj, -⟩ := (e2 _).1 hw
      exact ⟨w, List.mem_of_getElem? hj⟩
  have hsel : (Key.mask m).apply d = .ok d' := by
    by_cases ho : HasOut es u
    · exact selected_same (P := fun e => Reach es u e.1) (P' := fun e => Reach es' u e.1) hm d2 (by rw [← e1]; exact d2')
        (fun i e hi => (d3 i e hi).1 ho) (by rw [← e1]; exact fun i e hi => (d3' i e hi).1 (hout.1 ho))
        (fun i e _ _ => (sub_reach hc e2 hu).1.symm)
    · exact selected_same (P := fun e => e.2 = u) (P' := fun e => e.2 = u) hm d2 (by rw [← e1]; exact d2')
        (fun i e hi => (d3 i e hi).2 ho) (by rw [← e1]; exact fun i e hi => (d3' i e hi).2 (fun h => ho (hout.2 h)))
        (fun _ _ _ _ => Iff.rfl)
  refine ⟨d, d', d1, d1', hsel, fun ho => ?_⟩
  have hsub : ∀ i : Nat, d[i]? = some true → m[i]? = some true := by
    intro i hi
    have hl : i < es.length := by rw [← d2]; exact (List.getElem?_eq_some_iff.1 hi).1
    have hr := ((d3 i es[i] (List.getElem?_eq_getElem hl)).1 ho).1 hi
    exact (sub_reach (x := es[i].1) hc e2 hu).2 hr i es[i] (List.getElem?_eq_getElem hl) rfl
  refine ⟨hsub, fun col hcol => ?_⟩
  rw [(C20_mask d m).1 (by omega)] at hsel
  cases hsel
  refine ⟨_, _, (C20_mask col m).1 (by omega), (C20_mask _ _).1 (selected_length_eq d col m (by omega)), ?_⟩
  rw [(C20_mask col d).1 (by omega), selected_sub col m d (by omega) (by omega) hsub]
end

/-- **C138** The masks of `vertex_descendants`, `edge_descendants` and (without target) `hard_descendants` are of that
kind, for every graph, and so are their unions and intersections. -/
theorem C138_closed (es : List (Int × Int)) :
    (∀ v m, vertexDescendants es v = .ok m → DownwardClosed es m) ∧
    (∀ u v m, edgeDescendants es (u, v) = .ok m → DownwardClosed es m) ∧
    (∀ (nm : Int → String) (pdg status : List Int) (ss strict : Bool) (out : Dict (List Bool)), pdg.length = es.length →
      status.length = es.length → (∀ c ∈ pdg, ':' ∉ (nm c).toList) →
      hardDescendants nm pdg status es none ss strict = .ok out → ∀ q ∈ out, DownwardClosed es q.2) ∧
    (∀ a b : List Bool, a.length = b.length → DownwardClosed es a → DownwardClosed es b →
      DownwardClosed es (List.zipWith (· || ·) a b) ∧ DownwardClosed es (List.zipWith (· && ·) a b)) := by
  have hreach : ∀ (v : Int) (e f : Int × Int), e ∈ es → f ∈ es → f.1 = e.2 → Descends es v e → Descends es v f := by
    rintro v e f he hf hfe (⟨h1, h2⟩ | ⟨h1, h2⟩)
    · exact Or.inl ⟨h1, by rw [hfe]; exact h2.tail he⟩
    · exact absurd ⟨f.2, by rw [← h2, ← hfe]; exact hf⟩ h1
  refine ⟨?_, ?_, ?_, ?_⟩
  · intro v m hv i j e f hi hj hmi hfe
    obtain ⟨d, d1, -, d3⟩ := C39_descendants es v
    rw [hv] at d1
    cases d1
    have hd : ∀ (k : Nat) (g : Int × Int), es[k]? = some g → (m[k]? = some true ↔ Descends es v g) := by
      intro k g hk
      unfold Descends
      by_cases ho : ∃ w, (v, w) ∈ es
      · rw [(d3 k g hk).1 ho]; simp [ho]
      · rw [(d3 k g hk).2 ho]; simp [ho]
    exact (hd j f hj).2 (hreach v e f (List.mem_of_getElem? hi) (List.mem_of_getElem? hj) hfe ((hd i e hi).1 hmi))
  · intro u v m hv i j e f hi hj hmi hfe
    obtain ⟨d, d1, -, d3⟩ := C40_reach es u v
    rw [hv] at d1
    cases d1
    have hei := List.mem_of_getElem? hi
    have hfj := List.mem_of_getElem? hj
    by_cases ho : ∃ w, (v, w) ∈ es
    · rw [(d3 i e hi).1 ho] at hmi
      rw [(d3 j f hj).1 ho]
      rcases hmi with h | rfl
      · exact Or.inl (by rw [hfe]; exact h.tail hei)
      · exact Or.inl (by rw [hfe]; exact .refl)
    · rw [(d3 i e hi).2 ho] at hmi
      exact absurd ⟨f.2, by rw [← hmi, ← hfe]; exact hfj⟩ ho
  · intro nm pdg status ss strict out h1 h2 hcol hout q hq i j e f hi hj hmi hfe
    obtain ⟨out', o1, o2, o3⟩ := C44_all nm pdg status es h1 h2 hcol ss strict
    rw [hout] at o1
    cases o1
    obtain ⟨k, hk⟩ := List.mem_iff_getElem?.1 hq
    have hkl : k < (partons status).length := by rw [← o2]; exact (List.getElem?_eq_some_iff.1 hk).1
    have hpk := List.getElem?_eq_getElem hkl
    obtain ⟨key, d, k1, -, k3, k4⟩ := o3 k _ hpk
    rw [hk] at k1
    cases k1
    have hpl : (partons status)[k] < es.length := by
      have := List.getElem_mem hkl
      have h3 := (List.mem_range.1 (List.mem_filter.1 this).1)
      omega
    have hp := List.getElem?_eq_getElem hpl
    rw [k4 j f _ hj hp]
    rcases (k4 i e _ hi hp).1 hmi with rfl | h
    · rw [hp] at hi
      cases hi
      refine Or.inr (Or.inl ⟨⟨f.2, ?_⟩, by rw [hfe]; exact .refl⟩)
      rw [← hfe]; exact List.mem_of_getElem? hj
    · exact Or.inr (hreach _ e f (List.mem_of_getElem? hi) (List.mem_of_getElem? hj) hfe h)
  · intro a b hab ha hb
    have hz : ∀ (g : Bool → Bool → Bool) (k : Nat), (List.zipWith g a b)[k]? = some true ↔
        ∃ x y, a[k]? = some x ∧ b[k]? = some y ∧ g x y = true := by
      intro g k
      rw [List.getElem?_zipWith]
      rcases a[k]? with _ | x <;> rcases b[k]? with _ | y <;> simp
    constructor
    · intro i j e f hi hj hmi hfe
      obtain ⟨x, y, hx, hy, hxy⟩ := (hz _ i).1 hmi
      rw [hz]
      rcases (Bool.or_eq_true _ _).mp hxy with rfl | rfl
      · have hj' := ha i j e f hi hj hx hfe
        have hl : j < b.length := by rw [← hab]; exact (List.getElem?_eq_some_iff.1 hj').1
        exact ⟨true, b[j], hj', List.getElem?_eq_getElem hl, by simp⟩
      · have hj' := hb i j e f hi hj hy hfe
        have hl : j < a.length := by rw [hab]; exact (List.getElem?_eq_some_iff.1 hj').1
        exact ⟨a[j], true, List.getElem?_eq_getElem hl, hj', by simp⟩
    · intro i j e f hi hj hmi hfe
      obtain ⟨x, y, hx, hy, hxy⟩ := (hz _ i).1 hmi
      rw [Bool.and_eq_true] at hxy
      rw [hz]
      obtain ⟨rfl, rfl⟩ := hxy
      exact ⟨true, true, ha i j e f hi hj hx hfe, hb i j e f hi hj hy hfe, rfl⟩

/-- **C138** In an acyclic graph the roots of the event cut out by `vertex_descendants(adj, v)` are the particles leaving
`v`. -/
theorem C138_roots (es es' : List (Int × Int)) (v : Int) (m : List Bool) (hac : Acyclic es) (hv : HasOut es v)
    (hd : vertexDescendants es v = .ok m) (he : (Key.mask m).apply es = .ok es') :
    roots es' = .ok (es'.map (fun e => decide (e.1 = v))) := by
  obtain ⟨d, d1, d2, d3⟩ := C39_descendants es v
  rw [hd] at d1
  cases d1
  obtain ⟨e1, e2⟩ := sub_mem he d2
  have hmem : ∀ e, e ∈ es' ↔ e ∈ es ∧ Reach es v e.1 := by
    intro e
    rw [e2]
    constructor
    · rintro ⟨i, hi, hmi⟩; exact ⟨List.mem_of_getElem? hi, ((d3 i e hi).1 hv).1 hmi⟩
    · rintro ⟨h1, h2⟩
      obtain ⟨i, hi⟩ := List.mem_iff_getElem?.1 h1
      exact ⟨i, hi, ((d3 i e hi).1 hv).2 h2⟩
  have hne : es' ≠ [] := by
    obtain ⟨w, hw⟩ := hv
    exact List.ne_nil_of_mem ((hmem (v, w)).2 ⟨hw, .refl⟩)
  obtain ⟨r, r1, r2, r3⟩ := C34_roots es' hne
  rw [r1]
  congr 1
  have := mask_eq_map_decide (P := fun e => ∀ e' ∈ es', e'.2 ≠ e.1) r2 r3
  rw [this]
  apply List.map_congr_left
  intro e hee
  congr 1
  rw [eq_iff_iff]
  have hr := ((hmem e).1 hee).2
  constructor
  · intro h
    by_contra hne'
    rcases Relation.ReflTransGen.cases_tail hr with h' | ⟨x, hx, hxe⟩
    · exact hne' h'
    · exact h (x, e.1) ((hmem _).2 ⟨hxe, hx⟩) rfl
  · intro h f hf hfe
    have hf' := (hmem f).1 hf
    refine hac v (Relation.TransGen.tail' hf'.2 ?_)
    show (f.1, v) ∈ es
    rw [← h, ← hfe]; exact hf'.1

/-- **C138** For other masks this is false: cutting the final particle off makes its parent one. -/
theorem C138_false : leaves [(1, 2), (2, 3)] = .ok [false, true] ∧
    (Key.mask [true, false]).apply [((1 : Int), (2 : Int)), (2, 3)] = .ok [(1, 2)] ∧ leaves [(1, 2)] = .ok [true] ∧
    (Key.mask [true, false]).apply [false, true] = .ok [false] := ⟨rfl, rfl, rfl, rfl⟩

-- a decay chain with a spectator: the event cut out below vertex 2 and the descendants of vertex 3 there
example : vertexDescendants [(1, 2), (2, 3), (2, 4), (3, 5), (7, 8)] 2 = .ok [false, true, true, true, false] ∧
    (Key.mask [false, true, true, true, false]).apply [((1 : Int), (2 : Int)), (2, 3), (2, 4), (3, 5), (7, 8)] =
      .ok [(2, 3), (2, 4), (3, 5)] ∧
    leaves [(2, 3), (2, 4), (3, 5)] = .ok [false, true, true] ∧
    vertexDescendants [(2, 3), (2, 4), (3, 5)] 3 = .ok [false, false, true] := by decide +kernel

end Gcl
