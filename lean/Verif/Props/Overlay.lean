import Verif.Props.SubEvent
/-! # C139: events laid over each other -/
namespace Gcl
set_option autoImplicit false
open Spec

namespace Spec
/-- No vertex id occurs in both events. -/
def NoCommonVertex (es1 es2 : List (Int × Int)) : Prop := ∀ v, IsVertex es1 v → ¬ IsVertex es2 v
end Spec

theorem noCommon_symm {es1 es2 : List (Int × Int)} (h : NoCommonVertex es1 es2) : NoCommonVertex es2 es1 :=
  fun v h2 h1 => h v h1 h2

theorem isVertex_src {es : List (Int × Int)} {e : Int × Int} (h : e ∈ es) : IsVertex es e.1 := ⟨e, h, Or.inl rfl⟩
theorem isVertex_dst {es : List (Int × Int)} {e : Int × Int} (h : e ∈ es) : IsVertex es e.2 := ⟨e, h, Or.inr rfl⟩

/-- What can be reached in one of two separate events is reached without the other. -/
theorem reach_overlay {A B es : List (Int × Int)} (hd : NoCommonVertex A B) (hes : ∀ e, e ∈ es ↔ e ∈ A ∨ e ∈ B)
    {v x : Int} (hv : ¬ IsVertex B v) : (Reach es v x ↔ Reach A v x) ∧ (Reach es v x → ¬ IsVertex B x) := by
  have key : Reach es v x → Reach A v x ∧ ¬ IsVertex B x := by
    intro h
    induction h with
    | refl => exact ⟨.refl, hv⟩
    | @tail a b _ hs ih =>
      rcases (hes _).1 (show (a, b) ∈ es from hs) with h | h
      · exact ⟨ih.1.tail h, hd b (isVertex_dst h)⟩
      · exact absurd (isVertex_src h) ih.2
  refine ⟨⟨fun h => (key h).1, fun h => ?_⟩, fun h => (key h).2⟩
  exact Relation.ReflTransGen.mono (fun a b hab => (hes _).2 (Or.inl hab)) _ _ h

theorem descends_overlay {A B es : List (Int × Int)} (hd : NoCommonVertex A B) (hes : ∀ e, e ∈ es ↔ e ∈ A ∨ e ∈ B)
    {v : Int} (hv : ¬ IsVertex B v) :
    (∀ e ∈ A, (Descends es v e ↔ Descends A v e)) ∧ (∀ e ∈ B, ¬ Descends es v e) := by
  have hout : (∃ w, (v, w) ∈ es) ↔ ∃ w, (v, w) ∈ A := by
    constructor
    · rintro ⟨w, hw⟩
      rcases (hes _).1 hw with h | h
      · exact ⟨w, h⟩
      · exact absurd (isVertex_src h) hv
    · rintro ⟨w, hw⟩; exact ⟨w, (hes _).2 (Or.inl hw)⟩
  unfold Descends
  constructor
  · intro e he
    rw [hout, (reach_overlay hd hes hv).1]
  · rintro e he (⟨-, h⟩ | ⟨-, h⟩)
    · exact (reach_overlay hd hes hv).2 h (isVertex_src he)
    · exact hv (h ▸ isVertex_dst he)

theorem vertexDescendants_descends (es : List (Int × Int)) (v : Int) :
    ∃ m, vertexDescendants es v = .ok m ∧ m.length = es.length ∧
      ∀ (i : Nat) (e : Int × Int), es[i]? = some e → (m[i]? = some true ↔ Descends es v e) := by
  obtain ⟨m, m1, m2, m3⟩ := C39_descendants es v
  refine ⟨m, m1, m2, fun i e he => ?_⟩
  unfold Descends
  by_cases ho : ∃ w, (v, w) ∈ es
  · rw [(m3 i e he).1 ho]; simp [ho]
  · rw [(m3 i e he).2 ho]; simp [ho]

/-- Masks over the records of both events, given by predicates. -/
theorem mask_append {A B : List (Int × Int)} {m a : List Bool} {P Q : Int × Int → Prop}
    (hm : m.length = (A ++ B).length) (ha : a.length = A.length)
    (h : ∀ (i : Nat) e, (A ++ B)[i]? = some e → (m[i]? = some true ↔ P e))
    (h' : ∀ (i : Nat) e, A[i]? = some e → (a[i]? = some true ↔ Q e))
    (hpq : ∀ e ∈ A, (P e ↔ Q e)) (hB : ∀ e ∈ B, ¬ P e) : m = a ++ List.replicate B.length false := by
  classical
  rw [mask_eq_map_decide hm h, mask_eq_map_decide ha h', List.map_append]
  congr 1
  · exact List.map_congr_left (fun e he => by simp [hpq e he])
  · rw [List.eq_replicate_iff]
    refine ⟨by simp, fun b hb => ?_⟩
    obtain ⟨e, he, rfl⟩ := List.mem_map.1 hb
    exact decide_eq_false (hB e he)

theorem mask_append_right {A B : List (Int × Int)} {m b : List Bool} {P Q : Int × Int → Prop}
    (hm : m.length = (A ++ B).length) (hb : b.length = B.length)
    (h : ∀ (i : Nat) e, (A ++ B)[i]? = some e → (m[i]? = some true ↔ P e))
    (h' : ∀ (i : Nat) e, B[i]? = some e → (b[i]? = some true ↔ Q e))
    (hpq : ∀ e ∈ B, (P e ↔ Q e)) (hA : ∀ e ∈ A, ¬ P e) : m = List.replicate A.length false ++ b := by
  classical
  rw [mask_eq_map_decide hm h, mask_eq_map_decide hb h', List.map_append]
  congr 1
  · rw [List.eq_replicate_iff]
    refine ⟨by simp, fun b hb => ?_⟩
    obtain ⟨e, he, rfl⟩ := List.mem_map.1 hb
    exact decide_eq_false (hA e he)
  · exact List.map_congr_left (fun e he => by simp [hpq e he])

theorem mask_append_both {A B : List (Int × Int)} {m a b : List Bool} {P Q R : Int × Int → Prop}
    (hm : m.length = (A ++ B).length) (ha : a.length = A.length) (hb : b.length = B.length)
    (h : ∀ (i : Nat) e, (A ++ B)[i]? = some e → (m[i]? = some true ↔ P e))
    (h' : ∀ (i : Nat) e, A[i]? = some e → (a[i]? = some true ↔ Q e))
    (h'' : ∀ (i : Nat) e, B[i]? = some e → (b[i]? = some true ↔ R e))
    (hpq : ∀ e ∈ A, (P e ↔ Q e)) (hpr : ∀ e ∈ B, (P e ↔ R e)) : m = a ++ b := by
  classical
  rw [mask_eq_map_decide hm h, mask_eq_map_decide ha h', mask_eq_map_decide hb h'', List.map_append]
  congr 1
  · exact List.map_congr_left (fun e he => by simp [hpq e he])
  · exact List.map_congr_left (fun e he => by simp [hpr e he])

section
variable {es1 es2 : List (Int × Int)}

/-- **C139** Laying one event over another with other vertex ids changes no descendants: `vertex_descendants` of a vertex
of the first event are those found there, followed by `False` for the records of the second, and the other way round. -/
theorem C139_descendants (hd : NoCommonVertex es1 es2) (v : Int) :
    (¬ IsVertex es2 v → ∃ m, vertexDescendants es1 v = .ok m ∧
      vertexDescendants (es1 ++ es2) v = .ok (m ++ List.replicate es2.length false)) ∧
    (¬ IsVertex es1 v → ∃ m, vertexDescendants es2 v = .ok m ∧
      vertexDescendants (es1 ++ es2) v = .ok (List.replicate es1.length false ++ m)) := by
  obtain ⟨m, m1, m2, m3⟩ := vertexDescendants_descends (es1 ++ es2) v
  constructor
  · intro hv
    obtain ⟨a, a1, a2, a3⟩ := vertexDescendants_descends es1 v
    have hD := descends_overlay (es := es1 ++ es2) hd (by simp) hv
    exact ⟨a, a1, by rw [m1, mask_append m2 a2 m3 a3 hD.1 hD.2]⟩
  · intro hv
    obtain ⟨a, a1, a2, a3⟩ := vertexDescendants_descends es2 v
    have hD := descends_overlay (es := es1 ++ es2) (noCommon_symm hd) (by simp [or_comm]) hv
    exact ⟨a, a1, by rw [m1, mask_append_right m2 a2 m3 a3 hD.1 hD.2]⟩

/-- **C139** The roots and leaves of the events together are those of the one followed by those of the other. -/
theorem C139_ends (hd : NoCommonVertex es1 es2) (h1 : es1 ≠ []) (h2 : es2 ≠ []) :
    (∃ a b, roots es1 = .ok a ∧ roots es2 = .ok b ∧ roots (es1 ++ es2) = .ok (a ++ b)) ∧
    (∃ a b, leaves es1 = .ok a ∧ leaves es2 = .ok b ∧ leaves (es1 ++ es2) = .ok (a ++ b)) := by
  have h12 : es1 ++ es2 ≠ [] := by simp [h1]
  constructor
  · obtain ⟨a, a1, a2, a3⟩ := C34_roots es1 h1
    obtain ⟨b, b1, b2, b3⟩ := C34_roots es2 h2
    obtain ⟨m, m1, m2, m3⟩ := C34_roots (es1 ++ es2) h12
    refine ⟨a, b, a1, b1, ?_⟩
    rw [m1, mask_append_both m2 a2 b2 m3 a3 b3]
    · intro e he
      refine ⟨fun h f hf => h f (List.mem_append_left _ hf), fun h f hf => ?_⟩
      rcases List.mem_append.1 hf with hf | hf
      · exact h f hf
      · intro hc; exact hd e.1 (isVertex_src he) (hc ▸ isVertex_dst hf)
    · intro e he
      refine ⟨fun h f hf => h f (List.mem_append_right _ hf), fun h f hf => ?_⟩
      rcases List.mem_append.1 hf with hf | hf
      · intro hc; exact hd e.1 (hc ▸ isVertex_dst hf) (isVertex_src he)
      · exact h f hf
  · obtain ⟨a, a1, a2, a3⟩ := C34_leaves es1 h1
    obtain ⟨b, b1, b2, b3⟩ := C34_leaves es2 h2
    obtain ⟨m, m1, m2, m3⟩ := C34_leaves (es1 ++ es2) h12
    refine ⟨a, b, a1, b1, ?_⟩
    rw [m1, mask_append_both m2 a2 b2 m3 a3 b3]
    · intro e he
      refine ⟨fun h f hf => h f (List.mem_append_left _ hf), fun h f hf => ?_⟩
      rcases List.mem_append.1 hf with hf | hf
      · exact h f hf
      · intro hc; exact hd e.2 (isVertex_dst he) (hc ▸ isVertex_src hf)
    · intro e he
      refine ⟨fun h f hf => h f (List.mem_append_right _ hf), fun h f hf => ?_⟩
      rcases List.mem_append.1 hf with hf | hf
      · intro hc; exact hd e.2 (hc ▸ isVertex_src hf) (isVertex_dst he)
      · exact h f hf

theorem get_append {α β : Type} {a1 a2 : List α} {b1 b2 : List β} (h : b1.length = a1.length) (P : α → β → Prop) :
    (∃ (i : Nat) (x : α) (y : β), (a1 ++ a2)[i]? = some x ∧ (b1 ++ b2)[i]? = some y ∧ P x y) ↔
      (∃ (i : Nat) (x : α) (y : β), a1[i]? = some x ∧ b1[i]? = some y ∧ P x y) ∨
      (∃ (i : Nat) (x : α) (y : β), a2[i]? = some x ∧ b2[i]? = some y ∧ P x y) := by
  constructor
  · rintro ⟨i, x, y, hx, hy, hp⟩
    by_cases hi : i < a1.length
    · rw [List.getElem?_append_left hi] at hx
      rw [List.getElem?_append_left (by omega)] at hy
      exact Or.inl ⟨i, x, y, hx, hy, hp⟩
    · rw [List.getElem?_append_right (by omega)] at hx
      rw [List.getElem?_append_right (by omega), h] at hy
      exact Or.inr ⟨_, x, y, hx, hy, hp⟩
  · rintro (⟨i, x, y, hx, hy, hp⟩ | ⟨i, x, y, hx, hy, hp⟩)
    · have hi := (List.getElem?_eq_some_iff.1 hx).1
      exact ⟨i, x, y, by rw [List.getElem?_append_left hi]; exact hx,
        by rw [List.getElem?_append_left (by omega)]; exact hy, hp⟩
    · exact ⟨a1.length + i, x, y, by rw [List.getElem?_append_right (by omega)]; simpa using hx,
        by rw [List.getElem?_append_right (by omega), h]; simpa using hy, hp⟩

/-- **C139** The hadronisation vertices are those of the one and those of the other. -/
theorem C139_hadron (st1 st2 : List Int) (h1 : st1.length = es1.length) (h2 : st2.length = es2.length) :
    ∃ a b c, hadronVertices es1 st1 = .ok a ∧ hadronVertices es2 st2 = .ok b ∧
      hadronVertices (es1 ++ es2) (st1 ++ st2) = .ok c ∧ c.Nodup ∧ ∀ v, v ∈ c ↔ v ∈ a ∨ v ∈ b := by
  obtain ⟨a, a1, -, a3⟩ := C41_hadron es1 st1 h1
  obtain ⟨b, b1, -, b3⟩ := C41_hadron es2 st2 h2
  obtain ⟨c, c1, c2, c3⟩ := C41_hadron (es1 ++ es2) (st1 ++ st2) (by simp [h1, h2])
  refine ⟨a, b, c, a1, b1, c1, c2, fun v => ?_⟩
  rw [c3, a3, b3]
  exact get_append h1 (fun e s => e.1 = v ∧ 80 ≤ |s| ∧ |s| ≤ 90)

/-- **C139** So are the vertices `find_vertex` finds. -/
theorem C139_find (hd : NoCommonVertex es1 es2) (pdg1 pdg2 : List Int) (h1 : pdg1.length = es1.length)
    (h2 : pdg2.length = es2.length) (pin pout : Option (List Int)) (hp : pin ≠ none ∨ pout ≠ none) :
    ∃ a b c, findVertex es1 pdg1 pin pout = .ok a ∧ findVertex es2 pdg2 pin pout = .ok b ∧
      findVertex (es1 ++ es2) (pdg1 ++ pdg2) pin pout = .ok c ∧ c.Pairwise (· < ·) ∧ ∀ v, v ∈ c ↔ v ∈ a ∨ v ∈ b := by
  obtain ⟨a, a1, -, a3⟩ := (C42_find es1 pdg1 h1 pin pout).2 hp
  obtain ⟨b, b1, -, b3⟩ := (C42_find es2 pdg2 h2 pin pout).2 hp
  obtain ⟨c, c1, c2, c3⟩ := (C42_find (es1 ++ es2) (pdg1 ++ pdg2) (by simp [h1, h2]) pin pout).2 hp
  refine ⟨a, b, c, a1, b1, c1, c2, fun v => ?_⟩
  rw [c3, a3, b3]
  have hv : IsVertex (es1 ++ es2) v ↔ IsVertex es1 v ∨ IsVertex es2 v := by
    unfold IsVertex
    simp only [List.mem_append, or_and_right, exists_or]
  have hrec : ∀ (g : Int × Int → Int) (hg : ∀ (es : List (Int × Int)) e, e ∈ es → IsVertex es (g e)) (x : Int),
      ((IsVertex es1 v → ((∃ (i : Nat) (e : Int × Int), (es1 ++ es2)[i]? = some e ∧ (pdg1 ++ pdg2)[i]? = some x ∧ g e = v) ↔
        (∃ (i : Nat) (e : Int × Int), es1[i]? = some e ∧ pdg1[i]? = some x ∧ g e = v))) ∧
      (IsVertex es2 v → ((∃ (i : Nat) (e : Int × Int), (es1 ++ es2)[i]? = some e ∧ (pdg1 ++ pdg2)[i]? = some x ∧ g e = v) ↔
        (∃ (i : Nat) (e : Int × Int), es2[i]? = some e ∧ pdg2[i]? = some x ∧ g e = v)))) := by
    intro g hg x
    have hga := get_append (a2 := es2) (b2 := pdg2) h1 (fun e y => y = x ∧ g e = v)
    have conv : ∀ (es : List (Int × Int)) (pdg : List Int),
        (∃ (i : Nat) (e : Int × Int), es[i]? = some e ∧ pdg[i]? = some x ∧ g e = v) ↔
        (∃ (i : Nat) (e : Int × Int) (y : Int), es[i]? = some e ∧ pdg[i]? = some y ∧ y = x ∧ g e = v) := by
      intro es pdg
      constructor
      · rintro ⟨i, e, q1, q2, q3⟩; exact ⟨i, e, x, q1, q2, rfl, q3⟩
      · rintro ⟨i, e, y, q1, q2, rfl, q3⟩; exact ⟨i, e, q1, q2, q3⟩
    rw [conv, conv, conv, hga]
    constructor
    · intro hv1
      refine ⟨fun h => ?_, Or.inl⟩
      rcases h with h | ⟨i, e, y, q1, -, -, q3⟩
      · exact h
      · exact absurd (q3 ▸ hg es2 e (List.mem_of_getElem? q1)) (hd v hv1)
    · intro hv2
      refine ⟨fun h => ?_, Or.inr⟩
      rcases h with ⟨i, e, y, q1, -, -, q3⟩ | h
      · exact absurd hv2 (hd v (q3 ▸ hg es1 e (List.mem_of_getElem? q1)))
      · exact h
  have hdst := hrec Prod.snd (fun es e he => isVertex_dst he)
  have hsrc := hrec Prod.fst (fun es e he => isVertex_src he)
  rw [hv]
  constructor
  · rintro ⟨h | h, q1, q2⟩
    · exact Or.inl ⟨h, fun s hs x hx => ((hdst x).1 h).1 (q1 s hs x hx), fun s hs x hx => ((hsrc x).1 h).1 (q2 s hs x hx)⟩
    · exact Or.inr ⟨h, fun s hs x hx => ((hdst x).2 h).1 (q1 s hs x hx), fun s hs x hx => ((hsrc x).2 h).1 (q2 s hs x hx)⟩
  · rintro (⟨h, q1, q2⟩ | ⟨h, q1, q2⟩)
    · exact ⟨Or.inl h, fun s hs x hx => ((hdst x).1 h).2 (q1 s hs x hx), fun s hs x hx => ((hsrc x).1 h).2 (q2 s hs x hx)⟩
    · exact ⟨Or.inr h, fun s hs x hx => ((hdst x).2 h).2 (q1 s hs x hx), fun s hs x hx => ((hsrc x).2 h).2 (q2 s hs x hx)⟩

theorem partons_append (st1 st2 : List Int) :
    partons (st1 ++ st2) = partons st1 ++ (partons st2).map (fun i => st1.length + i) := by
  unfold partons
  rw [List.length_append, List.range_add, List.filter_append, List.filter_map]
  congr 1
  · apply List.filter_congr
    intro i hi
    rw [List.getElem?_append_left (List.mem_range.1 hi)]
  · congr 1
    apply List.filter_congr
    intro i _
    simp only [Function.comp]
    rw [List.getElem?_append_right (by omega), Nat.add_sub_cancel_left]

/-- **C139** `hard_descendants` of the events together has the masks of the one, each followed by `False`, and then those of
the other, each preceded by `False`; only keys may get numbers, where both events have a parton of the same name. -/
theorem C139_hard (hd : NoCommonVertex es1 es2) (nm : Int → String) (pdg1 pdg2 st1 st2 : List Int)
    (p1 : pdg1.length = es1.length) (p2 : pdg2.length = es2.length) (s1 : st1.length = es1.length)
    (s2 : st2.length = es2.length) (hcol : ∀ c ∈ pdg1 ++ pdg2, ':' ∉ (nm c).toList) (ss strict : Bool) :
    ∃ a b c, hardDescendants nm pdg1 st1 es1 none ss strict = .ok a ∧ hardDescendants nm pdg2 st2 es2 none ss strict = .ok b ∧
      hardDescendants nm (pdg1 ++ pdg2) (st1 ++ st2) (es1 ++ es2) none ss strict = .ok c ∧
      c.map Prod.snd = a.map (fun q => q.2 ++ List.replicate es2.length false) ++
        b.map (fun q => List.replicate es1.length false ++ q.2) := by
  obtain ⟨a, a1, a2, a3⟩ := C44_all nm pdg1 st1 es1 p1 s1 (fun c hc => hcol c (List.mem_append_left _ hc)) ss strict
  obtain ⟨b, b1, b2, b3⟩ := C44_all nm pdg2 st2 es2 p2 s2 (fun c hc => hcol c (List.mem_append_right _ hc)) ss strict
  obtain ⟨c, c1, c2, c3⟩ := C44_all nm (pdg1 ++ pdg2) (st1 ++ st2) (es1 ++ es2) (by simp [p1, p2]) (by simp [s1, s2]) hcol
    ss strict
  refine ⟨a, b, c, a1, b1, c1, ?_⟩
  rw [partons_append] at c2 c3
  have hlt : ∀ (st : List Int) (i : Nat), i ∈ partons st → i < st.length := by
    intro st i hi
    exact List.mem_range.1 (List.mem_filter.1 hi).1
  apply List.ext_getElem?
  intro k
  by_cases hk : k < a.length
  · have hka : k < (partons st1).length := by omega
    have hpk := List.getElem?_eq_getElem hka
    have hlt1 : (partons st1)[k] < es1.length := s1 ▸ hlt st1 _ (List.getElem_mem hka)
    obtain ⟨ka, da, x1, -, x3, x4⟩ := a3 k _ hpk
    obtain ⟨kc, dc, y1, -, y3, y4⟩ := c3 k (partons st1)[k] (by rw [List.getElem?_append_left hka]; exact hpk)
    rw [List.getElem?_append_left (by simpa using hk), List.getElem?_map, List.getElem?_map, y1, x1]
    simp only [Option.map_some, Option.some.injEq]
    have hep := List.getElem?_eq_getElem hlt1
    have hep' : (es1 ++ es2)[(partons st1)[k]]? = some es1[(partons st1)[k]] := by
      rw [List.getElem?_append_left hlt1]; exact hep
    have hD := descends_overlay (es := es1 ++ es2) hd (by simp)
      (hd _ (isVertex_dst (List.getElem_mem hlt1)) : ¬ IsVertex es2 es1[(partons st1)[k]].2)
    apply List.ext_getElem?
    intro i
    have bool_ext : ∀ {x y : List Bool} (h1 : i < x.length) (h2 : i < y.length),
        (x[i]? = some true ↔ y[i]? = some true) → x[i]? = y[i]? := by
      intro x y h1 h2 h
      rw [List.getElem?_eq_getElem h1, List.getElem?_eq_getElem h2] at h ⊢
      simp only [Option.some.injEq] at h ⊢
      exact Bool.eq_iff_iff.2 h
    by_cases hi : i < (es1 ++ es2).length
    · refine bool_ext (by omega) (by rw [List.length_append, List.length_replicate, x3]; rw [List.length_append] at hi; exact hi) ?_
      have hgi := List.getElem?_eq_getElem hi
      rw [y4 i _ _ hgi hep']
      by_cases hi1 : i < es1.length
      · rw [List.getElem?_append_left (by omega)]
        have hge : (es1 ++ es2)[i] = es1[i] := List.getElem_append_left hi1
        rw [hge, x4 i _ _ (List.getElem?_eq_getElem hi1) hep, hD.1 _ (List.getElem_mem hi1)]
      · rw [List.getElem?_append_right (by omega)]
        have hge : (es1 ++ es2)[i] ∈ es2 := by
          rw [List.getElem_append_right (by omega)]; exact List.getElem_mem _
        constructor
        · rintro (h | h)
          · omega
          · exact absurd h (hD.2 _ hge)
        · intro h
          rw [List.getElem?_replicate] at h
          split at h <;> simp at h
    · rw [List.getElem?_eq_none (by omega), List.getElem?_eq_none (by simp at hi ⊢; omega)]
  · by_cases hk2 : k - a.length < b.length
    · have hkb : k - a.length < (partons st2).length := by omega
      have hpk := List.getElem?_eq_getElem hkb
      have hlt2 : (partons st2)[k - a.length] < es2.length := s2 ▸ hlt st2 _ (List.getElem_mem hkb)
      obtain ⟨kb, db, x1, -, x3, x4⟩ := b3 _ _ hpk
      obtain ⟨kc, dc, y1, -, y3, y4⟩ := c3 k (st1.length + (partons st2)[k - a.length]) (by
        rw [List.getElem?_append_right (by omega), List.getElem?_map, ← a2, hpk]; rfl)
      rw [List.getElem?_append_right (by simp; omega), List.getElem?_map, List.getElem?_map, List.length_map, y1, x1]
      simp only [Option.map_some, Option.some.injEq]
      have hep := List.getElem?_eq_getElem hlt2
      have hep' : (es1 ++ es2)[st1.length + (partons st2)[k - a.length]]? = some es2[(partons st2)[k - a.length]] := by
        rw [List.getElem?_append_right (by omega), s1, Nat.add_sub_cancel_left]; exact hep
      have hD := descends_overlay (es := es1 ++ es2) (noCommon_symm hd) (by simp [or_comm])
        (noCommon_symm hd _ (isVertex_dst (List.getElem_mem hlt2)) : ¬ IsVertex es1 es2[(partons st2)[k - a.length]].2)
      apply List.ext_getElem?
      intro i
      have bool_ext : ∀ {x y : List Bool} (h1 : i < x.length) (h2 : i < y.length),
          (x[i]? = some true ↔ y[i]? = some true) → x[i]? = y[i]? := by
        intro x y h1 h2 h
        rw [List.getElem?_eq_getElem h1, List.getElem?_eq_getElem h2] at h ⊢
        simp only [Option.some.injEq] at h ⊢
        exact Bool.eq_iff_iff.2 h
      by_cases hi : i < (es1 ++ es2).length
      · refine bool_ext (by omega) (by rw [List.length_append, List.length_replicate, x3]; rw [List.length_append] at hi; exact hi) ?_
        have hgi := List.getElem?_eq_getElem hi
        rw [y4 i _ _ hgi hep']
        by_cases hi1 : i < es1.length
        · rw [List.getElem?_append_left (by simpa using hi1)]
          have hge : (es1 ++ es2)[i] ∈ es1 := by
            rw [List.getElem_append_left hi1]; exact List.getElem_mem _
          constructor
          · rintro (h | h)
            · omega
            · exact absurd h (hD.2 _ hge)
          · intro h
            rw [List.getElem?_replicate] at h
            split at h <;> simp at h
        · rw [List.getElem?_append_right (by simp; omega), List.length_replicate]
          have hil : i - es1.length < es2.length := by rw [List.length_append] at hi; omega
          have hge : (es1 ++ es2)[i] = es2[i - es1.length] := List.getElem_append_right (by omega)
          rw [hge, x4 _ _ _ (List.getElem?_eq_getElem hil) hep, hD.1 _ (List.getElem_mem hil)]
          constructor
          · rintro (h | h)
            · exact Or.inl (by omega)
            · exact Or.inr h
          · rintro (h | h)
            · exact Or.inl (by omega)
            · exact Or.inr h
      · rw [List.getElem?_eq_none (by omega), List.getElem?_eq_none (by simp at hi ⊢; omega)]
    · rw [List.getElem?_eq_none (by simp at c2 ⊢; omega), List.getElem?_eq_none (by simp; omega)]

theorem vertexList_append {ns1 ns2 : List Int} (h1 : VertexList es1 ns1) (h2 : VertexList es2 ns2)
    (hlt : ∀ u ∈ ns1, ∀ v ∈ ns2, u < v) : VertexList (es1 ++ es2) (ns1 ++ ns2) := by
  refine ⟨List.pairwise_append.2 ⟨h1.1, h2.1, hlt⟩, fun v => ?_⟩
  rw [List.mem_append, h1.2, h2.2]
  unfold IsVertex
  simp only [List.mem_append, or_and_right, exists_or]

/-- **C139** If the ids of the second event are greater, the matrix of the events together has the two matrices on its
diagonal and zeros elsewhere. -/
theorem C139_matrix (h1 : es1 ≠ []) (h2 : es2 ≠ []) (ns1 ns2 : List Int) (v1 : VertexList es1 ns1)
    (v2 : VertexList es2 ns2) (hlt : ∀ u ∈ ns1, ∀ v ∈ ns2, u < v) :
    ∃ A B C, matrixUnweighted es1 = .ok A ∧ matrixUnweighted es2 = .ok B ∧ matrixUnweighted (es1 ++ es2) = .ok C ∧
      Square (ns1.length + ns2.length) C ∧
      (∀ i j, i < ns1.length → j < ns1.length → entry C i j = entry A i j) ∧
      (∀ i j, i < ns2.length → j < ns2.length → entry C (ns1.length + i) (ns1.length + j) = entry B i j) ∧
      (∀ i j, i < ns1.length → j < ns2.length → entry C i (ns1.length + j) = some 0 ∧ entry C (ns1.length + j) i = some 0) := by
  have hd : NoCommonVertex es1 es2 := fun v q1 q2 => lt_irrefl v (hlt v ((v1.2 v).2 q1) v ((v2.2 v).2 q2))
  obtain ⟨A, a1, -, a3⟩ := C35_matrix es1 h1 ns1 v1
  obtain ⟨B, b1, -, b3⟩ := C35_matrix es2 h2 ns2 v2
  obtain ⟨C, c1, c2, c3⟩ := C35_matrix (es1 ++ es2) (by simp [h1]) (ns1 ++ ns2) (vertexList_append v1 v2 hlt)
  have hn1 : ∀ i (hi : i < ns1.length), (ns1 ++ ns2)[i]? = some ns1[i] ∧ IsVertex es1 ns1[i] := fun i hi =>
    ⟨by rw [List.getElem?_append_left hi]; exact List.getElem?_eq_getElem hi, (v1.2 _).1 (List.getElem_mem hi)⟩
  have hn2 : ∀ i (hi : i < ns2.length), (ns1 ++ ns2)[ns1.length + i]? = some ns2[i] ∧ IsVertex es2 ns2[i] := fun i hi =>
    ⟨by rw [List.getElem?_append_right (by omega), Nat.add_sub_cancel_left]; exact List.getElem?_eq_getElem hi,
      (v2.2 _).1 (List.getElem_mem hi)⟩
  refine ⟨A, B, C, a1, b1, c1, by simpa using c2, ?_, ?_, ?_⟩
  · intro i j hi hj
    rw [c3 i j _ _ (hn1 i hi).1 (hn1 j hj).1, a3 i j _ _ (List.getElem?_eq_getElem hi) (List.getElem?_eq_getElem hj),
      List.count_append, show List.count (ns1[i], ns1[j]) es2 = 0 from List.count_eq_zero.2 (fun hc => hd _ (hn1 i hi).2 (isVertex_src hc))]
    simp
  · intro i j hi hj
    rw [c3 _ _ _ _ (hn2 i hi).1 (hn2 j hj).1, b3 i j _ _ (List.getElem?_eq_getElem hi) (List.getElem?_eq_getElem hj),
      List.count_append, show List.count (ns2[i], ns2[j]) es1 = 0 from List.count_eq_zero.2 (fun hc => hd _ (isVertex_src hc) (hn2 i hi).2)]
    simp
  · intro i j hi hj
    rw [c3 _ _ _ _ (hn1 i hi).1 (hn2 j hj).1, c3 _ _ _ _ (hn2 j hj).1 (hn1 i hi).1, List.count_append, List.count_append,
      show List.count (ns1[i], ns2[j]) es1 = 0 from List.count_eq_zero.2 (fun hc => hd _ (isVertex_dst hc) (hn2 j hj).2),
      show List.count (ns1[i], ns2[j]) es2 = 0 from List.count_eq_zero.2 (fun hc => hd _ (hn1 i hi).2 (isVertex_src hc)),
      show List.count (ns2[j], ns1[i]) es1 = 0 from List.count_eq_zero.2 (fun hc => hd _ (isVertex_src hc) (hn2 j hj).2),
      show List.count (ns2[j], ns1[i]) es2 = 0 from List.count_eq_zero.2 (fun hc => hd _ (hn1 i hi).2 (isVertex_dst hc))]
    simp
end

-- two events whose ids are apart
example : NoCommonVertex [(1, 2), (2, 3)] [(11, 12), (12, 13)] := by
  rintro v ⟨e, he, h⟩ ⟨f, hf, h'⟩
  simp only [List.mem_cons, List.not_mem_nil, or_false] at he hf
  rcases he with rfl | rfl <;> rcases hf with rfl | rfl <;> simp only at h h' <;> omega
example : vertexDescendants ([(1, 2), (2, 3)] ++ [(11, 12), (12, 13)]) 2 = .ok ([false, true] ++ [false, false]) := by
  decide +kernel
-- a shared vertex mixes them
example : vertexDescendants ([(1, 2)] ++ [(2, 3)]) 1 = .ok [true, true] := by decide +kernel

end Gcl
