import Verif.Lemmas.Hard
import Verif.Props.Adj
import Verif.Spec.Symmetry
import Verif.Props.Descend
import Mathlib.Data.Set.Function
import Mathlib.Order.Monotone.Basic
import Mathlib.Order.Monotone.Defs
/-!
# C104-C106: selections do not depend on record order or vertex ids; descendants are nested
-/
namespace Gcl
set_option autoImplicit false
open Spec

theorem bools_ext {m m' : List Bool} (hl : m.length = m'.length)
    (h : ∀ i : Nat, i < m.length → (m[i]? = some true ↔ m'[i]? = some true)) : m = m' := by
  apply List.ext_getElem hl
  intro i h1 h2
  have := h i h1
  rw [List.getElem?_eq_getElem h1, List.getElem?_eq_getElem h2, Option.some.injEq, Option.some.injEq] at this
  cases hb : m[i] <;> cases hb' : m'[i] <;> simp_all

/-- A selection of edges given, for each edge list, by a property of the edge. -/
def Pointwise (f : List (Int × Int) → Py (List Bool)) (P : List (Int × Int) → Int × Int → Prop)
    (es : List (Int × Int)) : Prop :=
  ∃ m, f es = .ok m ∧ m.length = es.length ∧
    ∀ (i : Nat) (e : Int × Int), es[i]? = some e → (m[i]? = some true ↔ P es e)

theorem pointwise_vertex (es : List (Int × Int)) (v : Int) : Pointwise (fun es => vertexDescendants es v)
    (fun es e => ((∃ w, (v, w) ∈ es) ∧ Reach es v e.1) ∨ ((¬ ∃ w, (v, w) ∈ es) ∧ e.2 = v)) es := by
  obtain ⟨m, h1, h2, h3⟩ := C39_descendants es v
  refine ⟨m, h1, h2, fun i e he => ?_⟩
  have := h3 i e he
  by_cases hw : ∃ w, (v, w) ∈ es
  · rw [this.1 hw]; simp only [hw, true_and, not_true, false_and, or_false]
  · rw [this.2 hw]; simp only [hw, false_and, not_false_iff, true_and, false_or]

theorem pointwise_edge (es : List (Int × Int)) (u v : Int) : Pointwise (fun es => edgeDescendants es (u, v))
    (fun es e => ((∃ w, (v, w) ∈ es) ∧ (Reach es v e.1 ∨ e = (u, v))) ∨ ((¬ ∃ w, (v, w) ∈ es) ∧ e.2 = v)) es := by
  obtain ⟨m, h1, h2, h3⟩ := C40_reach es u v
  refine ⟨m, h1, h2, fun i e he => ?_⟩
  have := h3 i e he
  by_cases hw : ∃ w, (v, w) ∈ es
  · rw [this.1 hw]; simp only [hw, true_and, not_true, false_and, or_false]
  · rw [this.2 hw]; simp only [hw, false_and, not_false_iff, true_and, false_or]

theorem pointwise_gather {f : List (Int × Int) → Py (List Bool)} {P : List (Int × Int) → Int × Int → Prop}
    (es : List (Int × Int)) (idxs : List Nat) (h1 : ∀ j ∈ idxs, j < es.length)
    (hf : Pointwise f P es) (hg : Pointwise f P (gather es idxs))
    (hP : ∀ e, P (gather es idxs) e ↔ P es e) :
    f (gather es idxs) = (f es).map (fun m => gather m idxs) := by
  obtain ⟨m, e1, l1, s1⟩ := hf
  obtain ⟨m', e2, l2, s2⟩ := hg
  rw [e1, e2]
  simp only [Except.map, Except.ok.injEq]
  have h1' : ∀ j ∈ idxs, j < m.length := fun j hj => by rw [l1]; exact h1 j hj
  apply bools_ext
  · rw [l2, gather_length es idxs h1, gather_length m idxs h1']
  · intro i hi
    have hi' : i < (gather es idxs).length := by omega
    have hi2 : i < idxs.length := by rw [gather_length es idxs h1] at hi'; exact hi'
    have hlt := h1 idxs[i] (List.getElem_mem hi2)
    have hg : (gather es idxs)[i]? = some es[idxs[i]] := by
      rw [gather_getElem? es idxs h1, List.getElem?_eq_getElem hi2]
      simp [hlt]
    have hm : (gather m idxs)[i]? = m[idxs[i]]? := by
      rw [gather_getElem? m idxs h1', List.getElem?_eq_getElem hi2]; rfl
    rw [s2 i _ hg, hm, s1 idxs[i] _ (List.getElem?_eq_getElem hlt), hP]

theorem gather_mem_iff (es : List (Int × Int)) (idxs : List Nat) (h2 : ∀ j, j < es.length → j ∈ idxs)
    (e : Int × Int) : e ∈ gather es idxs ↔ e ∈ es := by
  unfold gather
  rw [List.mem_filterMap]
  constructor
  · rintro ⟨j, _, hj⟩; exact List.mem_of_getElem? hj
  · intro h
    obtain ⟨j, hj, rfl⟩ := List.getElem_of_mem h
    exact ⟨j, h2 j hj, List.getElem?_eq_getElem hj⟩

theorem reach_of_mem_iff {es es' : List (Int × Int)} (h : ∀ e, e ∈ es' ↔ e ∈ es) (v w : Int) :
    Reach es' v w ↔ Reach es v w := by
  have : Step es' = Step es := by funext a b; exact propext (h (a, b))
  unfold Reach; rw [this]

theorem gather_nil_iff (es : List (Int × Int)) (idxs : List Nat) (h2 : ∀ j, j < es.length → j ∈ idxs) :
    gather es idxs = [] ↔ es = [] := by
  have := gather_mem_iff es idxs h2
  constructor
  · intro h; rw [h] at this
    exact List.eq_nil_iff_forall_not_mem.2 (fun e he => by have := (this e).2 he; cases this)
  · intro h; subst h; simp [gather]

/-- **C104** The selections of a graph do not depend on the order of its records: reordering (or repeating) the records
by `idxs` reorders every mask over them by `idxs`. -/
theorem C104_masks (es : List (Int × Int)) (idxs : List Nat) (h1 : ∀ j ∈ idxs, j < es.length)
    (h2 : ∀ j, j < es.length → j ∈ idxs) (u v : Int) :
    vertexDescendants (gather es idxs) v = (vertexDescendants es v).map (fun m => gather m idxs) ∧
    edgeDescendants (gather es idxs) (u, v) = (edgeDescendants es (u, v)).map (fun m => gather m idxs) ∧
    roots (gather es idxs) = (roots es).map (fun m => gather m idxs) ∧
    leaves (gather es idxs) = (leaves es).map (fun m => gather m idxs) := by
  have hm := gather_mem_iff es idxs h2
  have hr := reach_of_mem_iff hm
  refine ⟨?_, ?_, ?_, ?_⟩
  · exact pointwise_gather es idxs h1 (pointwise_vertex es v) (pointwise_vertex _ v)
      (fun e => by simp only [hm, hr])
  · exact pointwise_gather es idxs h1 (pointwise_edge es u v) (pointwise_edge _ u v)
      (fun e => by simp only [hm, hr])
  · by_cases hne : es = []
    · rw [(gather_nil_iff es idxs h2).2 hne, hne]; rfl
    · exact pointwise_gather es idxs h1 (P := fun es e => ∀ e' ∈ es, e'.2 ≠ e.1) (C34_roots es hne)
        (C34_roots _ (fun h => hne ((gather_nil_iff es idxs h2).1 h))) (fun e => by simp only [hm])
  · by_cases hne : es = []
    · rw [(gather_nil_iff es idxs h2).2 hne, hne]; rfl
    · exact pointwise_gather es idxs h1 (P := fun es e => ∀ e' ∈ es, e'.1 ≠ e.2) (C34_leaves es hne)
        (C34_leaves _ (fun h => hne ((gather_nil_iff es idxs h2).1 h))) (fun e => by simp only [hm])

theorem gather_pair {α : Type} (es : List (Int × Int)) (xs : List α) (hl : xs.length = es.length) (idxs : List Nat)
    (h1 : ∀ j ∈ idxs, j < es.length) (h2 : ∀ j, j < es.length → j ∈ idxs) (e : Int × Int) (x : α) :
    (∃ i : Nat, (gather es idxs)[i]? = some e ∧ (gather xs idxs)[i]? = some x) ↔
      ∃ i : Nat, es[i]? = some e ∧ xs[i]? = some x := by
  have h1' : ∀ j ∈ idxs, j < xs.length := fun j hj => by rw [hl]; exact h1 j hj
  constructor
  · rintro ⟨i, hi, hx⟩
    rw [gather_getElem? es idxs h1] at hi
    rw [gather_getElem? xs idxs h1'] at hx
    cases hj : idxs[i]? with
    | none => rw [hj] at hi; cases hi
    | some j => rw [hj] at hi hx; exact ⟨j, hi, hx⟩
  · rintro ⟨j, hj, hx⟩
    have hlt : j < es.length := (List.getElem?_eq_some_iff.1 hj).1
    obtain ⟨i, hi, e'⟩ := List.getElem_of_mem (h2 j hlt)
    refine ⟨i, ?_, ?_⟩
    · rw [gather_getElem? es idxs h1, List.getElem?_eq_getElem hi, e']; exact hj
    · rw [gather_getElem? xs idxs h1', List.getElem?_eq_getElem hi, e']; exact hx

theorem isVertex_of_mem_iff {es es' : List (Int × Int)} (h : ∀ e, e ∈ es' ↔ e ∈ es) (v : Int) :
    IsVertex es' v ↔ IsVertex es v := by
  simp only [IsVertex, h]

/-- Two ascending lists with the same members are equal. -/
theorem ascending_ext {xs ys : List Int} (hx : xs.Pairwise (· < ·)) (hy : ys.Pairwise (· < ·))
    (h : ∀ v, v ∈ xs ↔ v ∈ ys) : xs = ys := by
  induction xs generalizing ys with
  | nil =>
    cases ys with
    | nil => rfl
    | cons y ys => exact absurd ((h y).2 List.mem_cons_self) List.not_mem_nil
  | cons x xs ih =>
    cases ys with
    | nil => exact absurd ((h x).1 List.mem_cons_self) List.not_mem_nil
    | cons y ys =>
      rw [List.pairwise_cons] at hx hy
      have hxy : x = y := by
        rcases List.mem_cons.1 ((h x).1 List.mem_cons_self) with e | h1
        · exact e
        · rcases List.mem_cons.1 ((h y).2 List.mem_cons_self) with e | h2
          · exact e.symm
          · have a := hx.1 y h2
            have b := hy.1 x h1
            omega
      subst hxy
      rw [ih hx.2 hy.2 (fun v => ?_)]
      have hv := h v
      simp only [List.mem_cons] at hv
      constructor
      · intro h1
        rcases hv.1 (.inr h1) with e | h2
        · subst e; have := hx.1 v h1; omega
        · exact h2
      · intro h1
        rcases hv.2 (.inr h1) with e | h2
        · subst e; have := hy.1 v h1; omega
        · exact h2

theorem square_ext {W : Type} {n : Nat} {A B : List (List W)} (hA : Square n A) (hB : Square n B)
    (h : ∀ i j : Nat, i < n → j < n → entry A i j = entry B i j) : A = B := by
  apply List.ext_getElem (by rw [hA.1, hB.1])
  intro i h1 h2
  have la := hA.2 _ (List.getElem_mem h1)
  have lb := hB.2 _ (List.getElem_mem h2)
  apply List.ext_getElem (by rw [la, lb])
  intro j h3 h4
  have := h i j (by rw [← hA.1]; exact h1) (by rw [← la]; exact h3)
  simp only [entry, List.getElem?_eq_getElem h1, List.getElem?_eq_getElem h2, Option.bind_some,
    List.getElem?_eq_getElem h3, List.getElem?_eq_getElem h4, Option.some.injEq] at this
  exact this

theorem gather_range {α : Type} (xs : List α) : gather xs (List.range xs.length) = xs := by
  apply List.ext_getElem?
  intro k
  rw [gather_getElem? _ _ (fun j hj => List.mem_range.1 hj)]
  by_cases hk : k < xs.length
  · rw [List.getElem?_range hk]; rfl
  · rw [List.getElem?_eq_none (by simpa using hk), List.getElem?_eq_none (by omega)]; rfl

theorem gather_perm {α : Type} (xs : List α) (idxs : List Nat) (hnd : idxs.Nodup)
    (h1 : ∀ j ∈ idxs, j < xs.length) (h2 : ∀ j, j < xs.length → j ∈ idxs) : (gather xs idxs).Perm xs := by
  have hp : idxs.Perm (List.range xs.length) :=
    (List.perm_ext_iff_of_nodup hnd List.nodup_range).2
      (fun j => ⟨fun h => List.mem_range.2 (h1 j h), fun h => h2 j (List.mem_range.1 h)⟩)
  have := hp.filterMap (fun i => xs[i]?)
  rw [show List.filterMap (fun i => xs[i]?) (List.range xs.length) = xs from gather_range xs] at this
  exact this

/-- **C104** The vertices found by code or as hadronisation vertices, and the matrix of the graph if no record is
repeated, are the same for reordered records. -/
theorem C104_vertices (es : List (Int × Int)) (idxs : List Nat) (h1 : ∀ j ∈ idxs, j < es.length)
    (h2 : ∀ j, j < es.length → j ∈ idxs) (status pdg : List Int) (hs : status.length = es.length)
    (hp : pdg.length = es.length) (pin pout : Option (List Int)) :
    findVertex (gather es idxs) (gather pdg idxs) pin pout = findVertex es pdg pin pout ∧
    (∃ a b, hadronVertices es status = .ok a ∧ hadronVertices (gather es idxs) (gather status idxs) = .ok b ∧
      b.Perm a) ∧
    (idxs.Nodup → matrixUnweighted (gather es idxs) = matrixUnweighted es) := by
  have hm := gather_mem_iff es idxs h2
  have hgl := gather_length es idxs h1
  have hpl : (gather pdg idxs).length = (gather es idxs).length := by
    rw [hgl, gather_length pdg idxs (fun j hj => by rw [hp]; exact h1 j hj)]
  have hsl : (gather status idxs).length = (gather es idxs).length := by
    rw [hgl, gather_length status idxs (fun j hj => by rw [hs]; exact h1 j hj)]
  refine ⟨?_, ?_, ?_⟩
  · have f1 := C42_find es pdg hp pin pout
    have f2 := C42_find _ _ hpl pin pout
    by_cases hn : pin = none ∧ pout = none
    · rw [f1.1 hn.1 hn.2, f2.1 hn.1 hn.2]
    · have hn' : pin ≠ none ∨ pout ≠ none := by
        by_cases hh : pin = none
        · exact .inr (fun h => hn ⟨hh, h⟩)
        · exact .inl hh
      obtain ⟨a, ea, oa, ma⟩ := f1.2 hn'
      obtain ⟨b, eb, ob, mb⟩ := f2.2 hn'
      rw [ea, eb]
      congr 1
      refine ascending_ext ob oa (fun v => ?_)
      rw [mb, ma, isVertex_of_mem_iff hm]
      have key : ∀ (c : Int) (Q : Int × Int → Prop),
          (∃ (i : Nat) (e : Int × Int), (gather es idxs)[i]? = some e ∧ (gather pdg idxs)[i]? = some c ∧ Q e) ↔
          ∃ (i : Nat) (e : Int × Int), es[i]? = some e ∧ pdg[i]? = some c ∧ Q e := by
        intro c Q
        constructor
        · rintro ⟨i, e, g1, g2, g3⟩
          obtain ⟨i', k1, k2⟩ := (gather_pair es pdg hp idxs h1 h2 e c).1 ⟨i, g1, g2⟩
          exact ⟨i', e, k1, k2, g3⟩
        · rintro ⟨i, e, g1, g2, g3⟩
          obtain ⟨i', k1, k2⟩ := (gather_pair es pdg hp idxs h1 h2 e c).2 ⟨i, g1, g2⟩
          exact ⟨i', e, k1, k2, g3⟩
      simp only [key _ (fun e => e.2 = v), key _ (fun e => e.1 = v)]
  · obtain ⟨a, ea, na, ma⟩ := C41_hadron es status hs
    obtain ⟨b, eb, nb, mb⟩ := C41_hadron _ _ hsl
    refine ⟨a, b, ea, eb, (List.perm_ext_iff_of_nodup nb na).2 (fun v => ?_)⟩
    rw [mb, ma]
    constructor
    · rintro ⟨i, e, s, g1, g2, g3⟩
      obtain ⟨i', k1, k2⟩ := (gather_pair es status hs idxs h1 h2 e s).1 ⟨i, g1, g2⟩
      exact ⟨i', e, s, k1, k2, g3⟩
    · rintro ⟨i, e, s, g1, g2, g3⟩
      obtain ⟨i', k1, k2⟩ := (gather_pair es status hs idxs h1 h2 e s).2 ⟨i, g1, g2⟩
      exact ⟨i', e, s, k1, k2, g3⟩
  · intro hnd
    by_cases hne : es = []
    · rw [(gather_nil_iff es idxs h2).2 hne, hne]
    · have hv : VertexList (gather es idxs) (vs es) :=
        ⟨(vs_vertexList es).1, fun v => by rw [isVertex_of_mem_iff hm]; exact (vs_vertexList es).2 v⟩
      obtain ⟨A, eA, sA, cA⟩ := C35_matrix es hne _ (vs_vertexList es)
      obtain ⟨B, eB, sB, cB⟩ := C35_matrix _ (fun h => hne ((gather_nil_iff es idxs h2).1 h)) _ hv
      rw [eA, eB]
      congr 1
      refine square_ext sB sA (fun i j hi hj => ?_)
      rw [cA i j _ _ (List.getElem?_eq_getElem hi) (List.getElem?_eq_getElem hj),
        cB i j _ _ (List.getElem?_eq_getElem hi) (List.getElem?_eq_getElem hj),
        (gather_perm es idxs hnd h1 h2).count_eq]

/-! ## Vertex ids -/

theorem mem_rename {f : Int → Int} {es : List (Int × Int)} {v : Int}
    (hf : Set.InjOn f {w | IsVertex es w ∨ w = v}) (w : Int) (hw : IsVertex es w) :
    (f v, f w) ∈ rename f es ↔ (v, w) ∈ es := by
  unfold rename
  rw [List.mem_map]
  constructor
  · rintro ⟨e, he, e'⟩
    obtain ⟨e1, e2⟩ := Prod.mk.inj e'
    have a := hf (.inl ⟨e, he, .inl rfl⟩) (.inr rfl) e1
    have b := hf (.inl ⟨e, he, .inr rfl⟩) (.inl hw) e2
    rw [← a, ← b]; exact he
  · intro h; exact ⟨_, h, rfl⟩

theorem out_rename {f : Int → Int} {es : List (Int × Int)} {v : Int}
    (hf : Set.InjOn f {w | IsVertex es w ∨ w = v}) :
    (∃ w, (f v, w) ∈ rename f es) ↔ ∃ w, (v, w) ∈ es := by
  constructor
  · rintro ⟨w, hw⟩
    obtain ⟨e, he, e'⟩ := List.mem_map.1 hw
    obtain ⟨e1, e2⟩ := Prod.mk.inj e'
    have a := hf (.inl ⟨e, he, .inl rfl⟩) (.inr rfl) e1
    exact ⟨e.2, by rw [← a]; exact he⟩
  · rintro ⟨w, hw⟩; exact ⟨f w, List.mem_map.2 ⟨_, hw, rfl⟩⟩

theorem reach_rename {f : Int → Int} {es : List (Int × Int)} {v : Int}
    (hf : Set.InjOn f {w | IsVertex es w ∨ w = v}) (w : Int) (hw : IsVertex es w ∨ w = v) :
    Reach (rename f es) (f v) (f w) ↔ Reach es v w := by
  constructor
  · intro h
    have key : ∀ y, Reach (rename f es) (f v) y → ∃ x, (IsVertex es x ∨ x = v) ∧ y = f x ∧ Reach es v x := by
      intro y hy
      induction hy with
      | refl => exact ⟨v, .inr rfl, rfl, .refl⟩
      | tail _ hs ih =>
        obtain ⟨x, hx, rfl, hr⟩ := ih
        obtain ⟨e, he, e'⟩ := List.mem_map.1 (show _ ∈ rename f es from hs)
        obtain ⟨e1, e2⟩ := Prod.mk.inj e'
        have a := hf (.inl ⟨e, he, .inl rfl⟩) hx e1
        refine ⟨e.2, .inl ⟨e, he, .inr rfl⟩, e2.symm, hr.tail ?_⟩
        rw [← a]; exact he
    obtain ⟨x, hx, e, hr⟩ := key _ h
    rw [hf hw hx e]; exact hr
  · intro h
    exact h.lift f (fun a b hab => List.mem_map.2 ⟨(a, b), hab, rfl⟩)

theorem pointwise_rename {f : Int → Int} {g : List (Int × Int) → Py (List Bool)}
    {g' : List (Int × Int) → Py (List Bool)}
    {P P' : List (Int × Int) → Int × Int → Prop} (es : List (Int × Int))
    (h : Pointwise g P es) (h' : Pointwise g' P' (rename f es))
    (hP : ∀ e ∈ es, P' (rename f es) (f e.1, f e.2) ↔ P es e) : g' (rename f es) = g es := by
  obtain ⟨m, e1, l1, s1⟩ := h
  obtain ⟨m', e2, l2, s2⟩ := h'
  rw [e1, e2]
  congr 1
  have hl : (rename f es).length = es.length := by simp [rename]
  refine bools_ext (by omega) (fun i hi => ?_)
  have hi' : i < es.length := by omega
  have he := List.getElem?_eq_getElem hi'
  have he' : (rename f es)[i]? = some (f es[i].1, f es[i].2) := by simp [rename, he]
  rw [s2 i _ he', s1 i _ he, hP _ (List.getElem_mem hi')]

/-- **C105** The selections of a graph do not depend on the ids of its vertices: renaming the vertices, different ones
differently, changes no mask (the ids may be of either sign). -/
theorem C105_masks (f : Int → Int) (es : List (Int × Int)) (u v : Int)
    (hf : Set.InjOn f {w | IsVertex es w ∨ w = u ∨ w = v}) :
    vertexDescendants (rename f es) (f v) = vertexDescendants es v ∧
    edgeDescendants (rename f es) (f u, f v) = edgeDescendants es (u, v) ∧
    roots (rename f es) = roots es ∧ leaves (rename f es) = leaves es := by
  have hv : Set.InjOn f {w | IsVertex es w ∨ w = v} := hf.mono (fun w hw => by
    rcases hw with h | h
    · exact .inl h
    · exact .inr (.inr h))
  have hin : ∀ e ∈ es, ∀ w, (w = u ∨ w = v) → (f e.2 = f w ↔ e.2 = w) := fun e he w hw =>
    ⟨fun h => hf (.inl ⟨e, he, .inr rfl⟩) (.inr hw) h, fun h => by rw [h]⟩
  have hin1 : ∀ e ∈ es, ∀ w, (w = u ∨ w = v) → (f e.1 = f w ↔ e.1 = w) := fun e he w hw =>
    ⟨fun h => hf (.inl ⟨e, he, .inl rfl⟩) (.inr hw) h, fun h => by rw [h]⟩
  refine ⟨?_, ?_, ?_, ?_⟩
  · refine pointwise_rename es (pointwise_vertex es v) (pointwise_vertex _ (f v)) (fun e he => ?_)
    simp only [out_rename hv, reach_rename hv e.1 (.inl ⟨e, he, .inl rfl⟩), hin e he v (.inr rfl)]
  · refine pointwise_rename es (pointwise_edge es u v) (pointwise_edge _ (f u) (f v)) (fun e he => ?_)
    have : ((f e.1, f e.2) = (f u, f v)) ↔ e = (u, v) := by
      rw [Prod.mk.injEq, hin1 e he u (.inl rfl), hin e he v (.inr rfl), Prod.ext_iff]
    simp only [out_rename hv, reach_rename hv e.1 (.inl ⟨e, he, .inl rfl⟩), hin e he v (.inr rfl), this]
  · by_cases hne : es = []
    · subst hne; rfl
    · have hne' : rename f es ≠ [] := by simpa [rename] using hne
      refine pointwise_rename es (P := fun es e => ∀ e' ∈ es, e'.2 ≠ e.1)
        (P' := fun es e => ∀ e' ∈ es, e'.2 ≠ e.1) (C34_roots es hne) (C34_roots _ hne') (fun e he => ?_)
      simp only [rename, List.forall_mem_map, ne_eq]
      refine forall₂_congr (fun e' he' => not_congr ⟨fun h => ?_, fun h => by rw [h]⟩)
      exact hf (.inl ⟨e', he', .inr rfl⟩) (.inl ⟨e, he, .inl rfl⟩) h
  · by_cases hne : es = []
    · subst hne; rfl
    · have hne' : rename f es ≠ [] := by simpa [rename] using hne
      refine pointwise_rename es (P := fun es e => ∀ e' ∈ es, e'.1 ≠ e.2)
        (P' := fun es e => ∀ e' ∈ es, e'.1 ≠ e.2) (C34_leaves es hne) (C34_leaves _ hne') (fun e he => ?_)
      simp only [rename, List.forall_mem_map, ne_eq]
      refine forall₂_congr (fun e' he' => not_congr ⟨fun h => ?_, fun h => by rw [h]⟩)
      exact hf (.inl ⟨e', he', .inl rfl⟩) (.inl ⟨e, he, .inr rfl⟩) h

theorem count_rename {f : Int → Int} {es : List (Int × Int)} (hf : Set.InjOn f {w | IsVertex es w}) (u v : Int)
    (hu : IsVertex es u) (hv : IsVertex es v) : (rename f es).count (f u, f v) = es.count (u, v) := by
  unfold rename
  rw [List.count_eq_countP, List.countP_map, List.count_eq_countP]
  refine List.countP_congr (fun e he => ?_)
  simp only [Function.comp, beq_iff_eq, Prod.mk.injEq, Prod.ext_iff]
  constructor
  · rintro ⟨a, b⟩
    exact ⟨hf (show IsVertex es e.1 from ⟨e, he, .inl rfl⟩) hu a, hf (show IsVertex es e.2 from ⟨e, he, .inr rfl⟩) hv b⟩
  · rintro ⟨a, b⟩; rw [a, b]; exact ⟨rfl, rfl⟩

/-- **C105** The matrix does not change if the renaming keeps the order of the ids. -/
theorem C105_matrix (f : Int → Int) (es : List (Int × Int)) (hf : StrictMonoOn f {w | IsVertex es w}) :
    matrixUnweighted (rename f es) = matrixUnweighted es := by
  by_cases hne : es = []
  · subst hne; rfl
  · have hne' : rename f es ≠ [] := by simpa [rename] using hne
    have hns := vs_vertexList es
    have hv : VertexList (rename f es) ((vs es).map f) := by
      refine ⟨?_, fun v => ?_⟩
      · rw [List.pairwise_map]
        exact hns.1.imp_of_mem (fun {a b} ha hb hab => hf ((hns.2 a).1 ha) ((hns.2 b).1 hb) hab)
      · rw [List.mem_map]
        constructor
        · rintro ⟨w, hw, rfl⟩
          obtain ⟨e, he, h⟩ := (hns.2 w).1 hw
          refine ⟨_, List.mem_map.2 ⟨e, he, rfl⟩, ?_⟩
          rcases h with h | h
          · exact .inl (by rw [h])
          · exact .inr (by rw [h])
        · rintro ⟨e', he', h⟩
          obtain ⟨e, he, rfl⟩ := List.mem_map.1 he'
          rcases h with h | h
          · exact ⟨e.1, (hns.2 _).2 ⟨e, he, .inl rfl⟩, h⟩
          · exact ⟨e.2, (hns.2 _).2 ⟨e, he, .inr rfl⟩, h⟩
    obtain ⟨A, eA, sA, cA⟩ := C35_matrix es hne _ hns
    obtain ⟨B, eB, sB, cB⟩ := C35_matrix _ hne' _ hv
    rw [eA, eB]
    congr 1
    rw [List.length_map] at sB
    refine square_ext sB sA (fun i j hi hj => ?_)
    have ei := List.getElem?_eq_getElem hi
    have ej := List.getElem?_eq_getElem hj
    rw [cA i j _ _ ei ej, cB i j (f (vs es)[i]) (f (vs es)[j]) (by simp [ei]) (by simp [ej]),
      count_rename hf.injOn _ _ ((hns.2 _).1 (List.getElem_mem hi)) ((hns.2 _).1 (List.getElem_mem hj))]

/-- **C105** Hadronisation vertices are renamed along. -/
theorem C105_hadrons (f : Int → Int) (es : List (Int × Int)) (status : List Int) (hl : status.length = es.length) :
    ∃ a b, hadronVertices es status = .ok a ∧ hadronVertices (rename f es) status = .ok b ∧
      ∀ w, w ∈ b ↔ ∃ v ∈ a, w = f v := by
  obtain ⟨a, ea, na, ma⟩ := C41_hadron es status hl
  obtain ⟨b, eb, nb, mb⟩ := C41_hadron (rename f es) status (by simpa [rename] using hl)
  refine ⟨a, b, ea, eb, fun w => ?_⟩
  rw [mb]
  constructor
  · rintro ⟨i, e', s, g1, g2, g3, g4⟩
    simp only [rename, List.getElem?_map, Option.map_eq_some_iff] at g1
    obtain ⟨e, he, rfl⟩ := g1
    exact ⟨e.1, (ma _).2 ⟨i, e, s, he, g2, rfl, g4⟩, g3.symm⟩
  · rintro ⟨v, hv, rfl⟩
    obtain ⟨i, e, s, g1, g2, g3, g4⟩ := (ma v).1 hv
    exact ⟨i, (f e.1, f e.2), s, by simp only [rename, List.getElem?_map, g1, Option.map_some], g2, by rw [← g3], g4⟩

/-! ## Nesting -/

theorem selects_edge {es : List (Int × Int)} {m : List Bool} (hl : m.length = es.length) {i : Nat}
    (h : m[i]? = some true) : ∃ e, es[i]? = some e := by
  have : i < m.length := (List.getElem?_eq_some_iff.1 h).1
  exact ⟨es[i], List.getElem?_eq_getElem (by omega)⟩

/-- **C106** Descendants are nested: what descends from a vertex with outgoing edges that can be reached from `v`,
descends from `v`; in particular the descendants of the end of an edge (with outgoing edges) are within those of
its start. -/
theorem C106_nested (es : List (Int × Int)) (v w x : Int) (hr : Reach es v w) (hw : (w, x) ∈ es) :
    ∃ a b, vertexDescendants es w = .ok a ∧ vertexDescendants es v = .ok b ∧ Within a b := by
  have hv : ∃ y, (v, y) ∈ es := by
    rcases Relation.ReflTransGen.cases_head hr with rfl | ⟨c, hc, _⟩
    · exact ⟨x, hw⟩
    · exact ⟨c, hc⟩
  obtain ⟨a, e1, l1, s1⟩ := C39_descendants es w
  obtain ⟨b, e2, l2, s2⟩ := C39_descendants es v
  refine ⟨a, b, e1, e2, by omega, fun i hi => ?_⟩
  obtain ⟨e, he⟩ := selects_edge l1 hi
  rw [((s2 i e he).1 hv)]
  exact hr.trans (((s1 i e he).1 ⟨x, hw⟩).1 hi)

/-- **C106** In an acyclic graph no particle is among the descendants of its own end vertex (if anything starts there),
while it is among its `edge_descendants`; and the masks of two vertices with outgoing edges that have the same
descendants are the masks of one vertex. -/
theorem C106_strict (es : List (Int × Int)) (hac : Acyclic es) (i : Nat) (u v w x : Int) (hi : es[i]? = some (u, v))
    (hv : (v, x) ∈ es) :
    (∃ m, vertexDescendants es v = .ok m ∧ m[i]? = some false) ∧
    (∃ m, edgeDescendants es (u, v) = .ok m ∧ m[i]? = some true) ∧
    (∀ y, (w, y) ∈ es → vertexDescendants es v = vertexDescendants es w → v = w) := by
  have hmem : (u, v) ∈ es := List.mem_of_getElem? hi
  have hlt : i < es.length := (List.getElem?_eq_some_iff.1 hi).1
  refine ⟨?_, ?_, ?_⟩
  · obtain ⟨m, e1, l1, s1⟩ := C39_descendants es v
    refine ⟨m, e1, ?_⟩
    have := ((s1 i _ hi).1 ⟨x, hv⟩)
    rw [List.getElem?_eq_getElem (by omega)] at this ⊢
    cases hb : m[i]'(by omega) with
    | false => rfl
    | true =>
      rw [hb] at this
      exact absurd (Relation.TransGen.tail' (this.1 rfl) hmem) (hac v)
  · obtain ⟨m, e1, l1, s1⟩ := C40_reach es u v
    exact ⟨m, e1, ((s1 i _ hi).1 ⟨x, hv⟩).2 (.inr rfl)⟩
  · intro y hy heq
    obtain ⟨a, e1, l1, s1⟩ := C39_descendants es v
    obtain ⟨b, e2, l2, s2⟩ := C39_descendants es w
    rw [e1, e2] at heq
    cases heq
    obtain ⟨p, hp, ep⟩ := List.getElem_of_mem hv
    obtain ⟨q, hq, eq⟩ := List.getElem_of_mem hy
    have gp := List.getElem?_eq_getElem hp
    have gq := List.getElem?_eq_getElem hq
    rw [ep] at gp
    rw [eq] at gq
    have h1 : Reach es w v := ((s2 p _ gp).1 ⟨y, hy⟩).1 (((s1 p _ gp).1 ⟨x, hv⟩).2 .refl)
    have h2 : Reach es v w := ((s1 q _ gq).1 ⟨x, hv⟩).1 (((s2 q _ gq).1 ⟨y, hy⟩).2 .refl)
    rcases Relation.reflTransGen_iff_eq_or_transGen.1 h1 with e | t
    · exact e
    · exact absurd (Relation.TransGen.trans_left t h2) (hac w)

/-- **C106** Adding edges loses no descendant of a vertex that has an outgoing edge already. -/
theorem C106_more_edges (es new : List (Int × Int)) (v w : Int) (hv : (v, w) ∈ es) :
    ∃ a b, vertexDescendants es v = .ok a ∧ vertexDescendants (es ++ new) v = .ok b ∧ Within a (b.take es.length) := by
  obtain ⟨a, e1, l1, s1⟩ := C39_descendants es v
  obtain ⟨b, e2, l2, s2⟩ := C39_descendants (es ++ new) v
  refine ⟨a, b, e1, e2, by rw [List.length_take, l2, l1, List.length_append]; omega, fun i hi => ?_⟩
  obtain ⟨e, he⟩ := selects_edge l1 hi
  have hlt : i < es.length := (List.getElem?_eq_some_iff.1 he).1
  rw [List.getElem?_take_of_lt hlt]
  have he' : (es ++ new)[i]? = some e := by rw [List.getElem?_append_left hlt]; exact he
  refine ((s2 i e he').1 ⟨w, List.mem_append_left _ hv⟩).2 ?_
  exact (((s1 i e he).1 ⟨w, hv⟩).1 hi).lift id (fun a b h => List.mem_append_left new h)

/-- **C106** What a user may expect, and is false: that this holds for all vertices.  Two particles end in vertex 3, where
nothing starts: `vertex_descendants(adj, 3)` selects both, though one does not descend from vertex 1, and giving
vertex 3 an outgoing edge unselects both. -/
theorem C106_false : ∃ es new : List (Int × Int),
    Reach es 1 3 ∧ vertexDescendants es 1 = .ok [true, false] ∧ vertexDescendants es 3 = .ok [true, true] ∧
    vertexDescendants (es ++ new) 3 = .ok [false, false, true] :=
  ⟨[(1, 3), (2, 3)], [(3, 4)], .single (by simp [Step]), by decide +kernel, by decide +kernel, by decide +kernel⟩

/-! ## Non-vacuity -/

-- reordering three records
example : let es : List (Int × Int) := [(1, 2), (2, 3), (2, -4)]
    (∀ j ∈ [2, 0, 1], j < es.length) ∧ (∀ j ∈ List.range es.length, j ∈ [2, 0, 1]) ∧
    vertexDescendants (gather es [2, 0, 1]) 2 = .ok [true, false, true] ∧
    vertexDescendants es 2 = .ok [false, true, true] := by
  refine ⟨by decide, by decide, by decide +kernel, by decide +kernel⟩

-- renaming with a change of sign
example : Set.InjOn (fun x : Int => -x) {w | IsVertex [(1, 2), (2, 3)] w ∨ w = 1 ∨ w = 2} ∧
    vertexDescendants (rename (fun x => -x) [(1, 2), (2, 3)]) (-2) = .ok [false, true] :=
  ⟨fun a _ b _ h => by simpa using h, by decide +kernel⟩

-- an order-preserving renaming
example : StrictMonoOn (fun x : Int => 2 * x - 7) {w | IsVertex [(1, 2), (2, 3)] w} :=
  fun a _ b _ h => by simp only []; omega

-- an acyclic graph with the hypotheses of `C106_strict`
example : ([(1, 2), (2, 3)] : List (Int × Int))[0]? = some (1, 2) ∧ (2, 3) ∈ ([(1, 2), (2, 3)] : List (Int × Int)) ∧
    Acyclic [(1, 2), (2, 3)] := by
  refine ⟨rfl, by simp, fun v h => ?_⟩
  have key : ∀ a b, Relation.TransGen (Step [(1, 2), (2, 3)]) a b → a < b := by
    intro a b hab
    induction hab with
    | single h => simp [Step] at h; omega
    | tail _ h ih => simp [Step] at h; omega
  exact absurd (key v v h) (by omega)

end Gcl
