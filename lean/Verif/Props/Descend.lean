import Mathlib.Data.List.Forall2
import Verif.Lemmas.Adj
import Verif.Lemmas.Bfs
import Verif.Props.Pdg
import Verif.Props.Index
/-!
# C39-C42: descendants, hadronisation vertices, vertex search
-/
namespace Gcl
set_option autoImplicit false
open Spec

theorem mem_csrRow (es : List (Int × Int)) (a b : Nat) :
    b ∈ csrRow (vs es).length
        (es.map (fun e => ((vs es).idxOf e.1, (vs es).idxOf e.2, decide (0 < e.2)))) a ↔
      ∃ e ∈ es, (vs es).idxOf e.1 = a ∧ (vs es).idxOf e.2 = b := by
  simp only [csrRow, List.mem_filter, List.mem_range, List.any_eq_true, List.mem_map,
    Bool.and_eq_true, beq_iff_eq]
  constructor
  · rintro ⟨_, t, ⟨e, he, rfl⟩, h1, h2⟩
    exact ⟨e, he, h1, h2⟩
  · rintro ⟨e, he, h1, h2⟩
    refine ⟨?_, _, ⟨e, he, rfl⟩, h1, h2⟩
    rw [← h2]
    exact idxOf_vs_lt es ⟨e, he, Or.inr rfl⟩

theorem isVertex_of_reach {es : List (Int × Int)} {v w : Int} (hv : IsVertex es v)
    (h : Reach es v w) : IsVertex es w := by
  induction h with
  | refl => exact hv
  | tail _ h _ => exact ⟨_, h, Or.inr rfl⟩

theorem reach_relabel (es : List (Int × Int)) (v : Int) (hv : IsVertex es v) (x : Nat) :
    Relation.ReflTransGen (fun a b => b ∈ csrRow (vs es).length
        (es.map (fun e => ((vs es).idxOf e.1, (vs es).idxOf e.2, decide (0 < e.2)))) a)
      ((vs es).idxOf v) x ↔ ∃ w, Reach es v w ∧ (vs es).idxOf w = x := by
  constructor
  · intro h
    induction h with
    | refl => exact ⟨v, .refl, rfl⟩
    | tail _ hbc ih =>
      obtain ⟨w, hw, rfl⟩ := ih
      obtain ⟨e, he, h1, rfl⟩ := (mem_csrRow es _ _).1 hbc
      have : e.1 = w := idxOf_vs_inj es ⟨e, he, Or.inl rfl⟩ h1
      exact ⟨e.2, hw.tail (by subst this; exact he), rfl⟩
  · rintro ⟨w, hw, rfl⟩
    induction hw with
    | refl => exact .refl
    | tail _ hbc ih => exact ih.tail ((mem_csrRow es _ _).2 ⟨_, hbc, rfl, rfl⟩)

theorem first_row (es : List (Int × Int)) (f : Int → Nat) (v : Int) :
    (∀ w, (v, w) ∉ es) ∨
    ∃ rest, gather (es.map (fun e => f e.1)) (trueIdxs (es.map (fun e => e.1 == v))) = f v :: rest := by
  have key := C20_mask (es.map (fun e => f e.1)) (es.map (fun e => e.1 == v))
  replace key := key.1 (by simp)
  simp only [Key.apply, Key.resolve, List.length_map, if_true, Except.ok.injEq] at key
  rw [key]
  clear key
  induction es with
  | nil => left; simp
  | cons e es ih =>
    simp only [List.map_cons]
    rw [selected_cons]
    by_cases h : e.1 = v
    · right; subst h; exact ⟨_, by simp; rfl⟩
    · rcases ih with ih | ⟨rest, ih⟩
      · left
        intro w hw
        rcases List.mem_cons.1 hw with hw | hw
        · exact h (by rw [← hw])
        · exact ih w hw
      · right; exact ⟨rest, by simp [h, ih]⟩

theorem any_src (es : List (Int × Int)) (v : Int) :
    ((es.map (fun e => e.1 == v)).any id = true) ↔ ∃ w, (v, w) ∈ es := by
  simp only [List.any_map, List.any_eq_true, Function.comp_def, id, beq_iff_eq]
  constructor
  · rintro ⟨⟨a, b⟩, he, rfl⟩; exact ⟨b, he⟩
  · rintro ⟨w, hw⟩; exact ⟨_, hw, rfl⟩

/-- C39.  `vertex_descendants(adj, v)` returns one boolean per edge.  If some edge starts from `v`,
an edge is selected exactly when its source can be reached from `v` along edges (`v` itself
included); otherwise exactly the edges ending in `v` are selected.  For every edge list, with cycles,
self-loops, repeated edges and negative ids. -/
theorem C39_descendants (es : List (Int × Int)) (v : Int) :
    ∃ m, vertexDescendants es v = .ok m ∧ m.length = es.length ∧
      ∀ (i : Nat) (e : Int × Int), es[i]? = some e →
        ((∃ w, (v, w) ∈ es) → (m[i]? = some true ↔ Reach es v e.1)) ∧
        ((¬ ∃ w, (v, w) ∈ es) → (m[i]? = some true ↔ e.2 = v)) := by
  unfold vertexDescendants
  by_cases hex : ∃ w, (v, w) ∈ es
  · have hany := (any_src es v).2 hex
    simp only [hany, Bool.not_true, Bool.false_eq_true, if_false]
    obtain ⟨w0, hw0⟩ := hex
    have hne : es ≠ [] := by rintro rfl; simp at hw0
    rw [toSparse_ok es hne]
    simp only [List.map_map, Function.comp_def]
    have hv : IsVertex es v := ⟨_, hw0, Or.inl rfl⟩
    rcases first_row es (fun x => (vs es).idxOf x) v with h | ⟨rest, h⟩
    · exact absurd hw0 (h w0)
    · rw [h]
      simp only
      have hb := bfs_correct (succ := csrRow (vs es).length
        (es.map (fun e => ((vs es).idxOf e.1, (vs es).idxOf e.2, decide (0 < e.2)))))
        (idxOf_vs_lt es hv) (fun x c hc => by
          rw [csrRow, List.mem_filter, List.mem_range] at hc; exact hc.1)
      simp only [setMask, List.length_map, if_true]
      refine ⟨_, rfl, by simp, ?_⟩
      intro i e he
      refine ⟨fun _ => ?_, fun hn => absurd ⟨w0, hw0⟩ hn⟩
      have hmem : e ∈ es := List.mem_of_getElem? he
      have hkey := (hb.2 ((vs es).idxOf e.1)).trans (reach_relabel es v hv _)
      have hinj : (∃ w, Reach es v w ∧ (vs es).idxOf w = (vs es).idxOf e.1) ↔ Reach es v e.1 := by
        constructor
        · rintro ⟨w, hw, hidx⟩
          have := idxOf_vs_inj es (isVertex_of_reach hv hw) hidx
          exact this ▸ hw
        · intro h; exact ⟨_, h, rfl⟩
      rw [← hinj, ← hkey]
      simp only [List.getElem?_zipWith, List.getElem?_map, he, Option.map_some, bfsTree]
      by_cases h1 : (vs es).idxOf e.1 = (vs es).idxOf v
      · simp [h1]
      · simp only [beq_iff_eq, h1, if_false, false_or]
        simp [List.contains_iff_mem]
  · have hany : (es.map (fun e => e.1 == v)).any id = false := by
      rw [Bool.eq_false_iff]; intro h; exact hex ((any_src es v).1 h)
    simp only [hany, Bool.not_false, if_true]
    refine ⟨_, rfl, by simp, ?_⟩
    intro i e he
    refine ⟨fun h => absurd h hex, fun _ => ?_⟩
    simp [List.getElem?_map, he]

/-- C39, termination: on every graph (also cyclic) and from every start node, the queue of the
breadth-first search is empty after at most as many iterations as there are vertices. -/
theorem C39_terminates (es : List (Int × Int)) (n : Nat) (entries : List (Nat × Nat × Bool))
    (h : toSparse es = .ok (n, entries)) (head : Nat) (hh : head < n) :
    (bfsTree n entries head).1 = [] := by
  exact (bfs_correct (succ := csrRow n entries) hh (fun x c hc => by
    rw [csrRow, List.mem_filter, List.mem_range] at hc; exact hc.1)).1

/-- C39, uniqueness of the value: the mask is determined by the two clauses. -/
theorem vertexDescendants_eq {es : List (Int × Int)} {v : Int} {m m' : List Bool}
    (h : vertexDescendants es v = .ok m) (hl : m'.length = es.length)
    (h' : ∀ (i : Nat) (e : Int × Int), es[i]? = some e →
        ((∃ w, (v, w) ∈ es) → (m'[i]? = some true ↔ Reach es v e.1)) ∧
        ((¬ ∃ w, (v, w) ∈ es) → (m'[i]? = some true ↔ e.2 = v))) : m = m' := by
  obtain ⟨m0, h0, hl0, hs0⟩ := C39_descendants es v
  rw [h] at h0
  cases h0
  apply List.ext_getElem (by omega)
  intro i hi hi'
  have hie : es[i]? = some es[i] := List.getElem?_eq_getElem (by omega)
  have a := hs0 i _ hie
  have b := h' i _ hie
  simp only [List.getElem?_eq_getElem hi, List.getElem?_eq_getElem hi', Option.some.injEq] at a b
  rw [Bool.eq_iff_iff]
  by_cases hex : ∃ w, (v, w) ∈ es
  · rw [a.1 hex, b.1 hex]
  · rw [a.2 hex, b.2 hex]

-- a graph with a cycle and a vertex from which nothing leaves
example : vertexDescendants [(0, 1), (1, 2), (2, 1), (5, 0), (2, -3)] 1 =
    .ok [false, true, true, false, true] := by decide
example : vertexDescendants [(0, 1), (1, 2), (2, 1), (5, 0), (2, -3)] (-3) =
    .ok [false, false, false, false, true] := by decide

/-- C40.  `edge_descendants(adj, (u, v))` is `vertex_descendants(adj, v)` with, in addition, exactly
the edges equal to `(u, v)` selected. -/
theorem C40_edge (es : List (Int × Int)) (u v : Int) :
    ∃ m m', vertexDescendants es v = .ok m ∧ edgeDescendants es (u, v) = .ok m' ∧
      m'.length = es.length ∧
      ∀ (i : Nat) (e : Int × Int), es[i]? = some e → (m'[i]? = some true ↔ m[i]? = some true ∨ e = (u, v)) := by
  obtain ⟨m, h, hl, _⟩ := C39_descendants es v
  refine ⟨m, List.zipWith (fun x b => if b then true else x) m
      (es.map (fun e => e.1 == u && e.2 == v)), h, ?_, by simp [hl], ?_⟩
  · simp only [edgeDescendants, h, setMask, List.length_map, hl, if_true]
  · intro i e he
    obtain ⟨b, hb⟩ : ∃ b, m[i]? = some b :=
      ⟨m[i]'(by have := (List.getElem?_eq_some_iff.1 he).1; omega), List.getElem?_eq_getElem _⟩
    simp only [List.getElem?_zipWith, List.getElem?_map, he, hb, Option.map_some]
    by_cases h1 : e = (u, v)
    · simp [h1]
    · have : ¬ (e.1 = u ∧ e.2 = v) := by rintro ⟨rfl, rfl⟩; exact h1 rfl
      simp [h1, this]

/-- C40, in full: an edge is selected exactly when it is the given edge, or descends from its end. -/
theorem C40_reach (es : List (Int × Int)) (u v : Int) :
    ∃ m', edgeDescendants es (u, v) = .ok m' ∧ m'.length = es.length ∧
      ∀ (i : Nat) (e : Int × Int), es[i]? = some e →
        ((∃ w, (v, w) ∈ es) → (m'[i]? = some true ↔ Reach es v e.1 ∨ e = (u, v))) ∧
        ((¬ ∃ w, (v, w) ∈ es) → (m'[i]? = some true ↔ e.2 = v)) := by
  obtain ⟨m, m', h, h', hl, hs⟩ := C40_edge es u v
  obtain ⟨m0, h0, _, hs0⟩ := C39_descendants es v
  rw [h] at h0; cases h0
  refine ⟨m', h', hl, fun i e he => ⟨fun hex => ?_, fun hex => ?_⟩⟩
  · rw [hs i e he, (hs0 i e he).1 hex]
  · rw [hs i e he, (hs0 i e he).2 hex]
    constructor
    · rintro (h | rfl)
      · exact h
      · rfl
    · exact Or.inl

example : edgeDescendants [(0, 1), (3, 1), (1, 2)] (3, 1) = .ok [false, true, true] := by decide

theorem mem_selected {α : Type} (x : α) (a : List α) (m : List Bool) : x ∈ selected a m ↔
    ∃ i : Nat, a[i]? = some x ∧ m[i]? = some true := by
  induction a generalizing m with
  | nil => simp [selected]
  | cons y a ih =>
    cases m with
    | nil => simp [selected]
    | cons b m =>
      rw [selected_cons]
      constructor
      · intro h
        have h' : (b = true ∧ x = y) ∨ x ∈ selected a m := by
          cases b <;> simp_all
        rcases h' with ⟨rfl, rfl⟩ | h'
        · exact ⟨0, by simp⟩
        · obtain ⟨i, h1, h2⟩ := (ih m).1 h'
          exact ⟨i + 1, by simpa using h1, by simpa using h2⟩
      · rintro ⟨i, h1, h2⟩
        cases i with
        | zero =>
          simp only [List.getElem?_cons_zero, Option.some.injEq] at h1 h2
          subst h1 h2; simp
        | succ i =>
          have := (ih m).2 ⟨i, by simpa using h1, by simpa using h2⟩
          cases b <;> simp [this]

/-- C41.  `hadron_vertices(adj, status)`: no repetitions, and exactly the sources of the edges whose
status has absolute value between 80 and 90 inclusive.  (Statuses are 16-bit integers, so the bound
on `-32768` excludes a single value; its wrapped absolute value is not in the range either, so it is
not needed.) -/
theorem C41_hadron (es : List (Int × Int)) (status : List Int) (hl : status.length = es.length) :
    ∃ vtxs, hadronVertices es status = .ok vtxs ∧ vtxs.Nodup ∧
      ∀ v, v ∈ vtxs ↔ ∃ (i : Nat) (e : Int × Int) (s : Int), es[i]? = some e ∧ status[i]? = some s ∧ e.1 = v ∧
        80 ≤ |s| ∧ |s| ≤ 90 := by
  have hlen : (inRange status 80 (some 90) false).length = es.length := by
    simp [inRange, hl]
  have hkey := C20_mask es (inRange status 80 (some 90) false)
  replace hkey := hkey.1 hlen
  have hval : hadronVertices es status = .ok (npUnique
      ((selected es (inRange status 80 (some 90) false)).map (fun e => e.1))) := by
    simp only [hadronVertices, hkey]
  refine ⟨_, hval, npUnique_nodup _, ?_⟩
  intro v
  rw [mem_npUnique]
  have hget : ∀ i : Nat, (inRange status 80 (some 90) false)[i]? =
      status[i]?.map (fun s => decide (80 ≤ |s| ∧ |s| ≤ 90)) := by
    intro i
    simp only [inRange, List.map_map, Function.comp_def, Bool.false_eq_true, if_false,
      List.getElem?_zipWith, List.getElem?_map]
    rcases h : status[i]? with _ | s
    · simp
    · simp only [Option.map_some, Option.some.injEq]
      have : ∀ s : Int, (80 ≤ absWrap 16 s ∧ absWrap 16 s ≤ 90) ↔ (80 ≤ |s| ∧ |s| ≤ 90) := by
        intro s
        by_cases hs : s = minI16
        · subst hs; decide
        · rw [absWrap16 s hs]
      rw [← Bool.decide_and, decide_eq_decide]
      exact this s
  have hsel : ∀ x, x ∈ selected es (inRange status 80 (some 90) false) ↔
      ∃ i : Nat, es[i]? = some x ∧ (inRange status 80 (some 90) false)[i]? = some true := by
    intro x
    exact mem_selected _ _ _
  simp only [List.mem_map, hsel, hget]
  constructor
  · rintro ⟨e, ⟨i, h1, h2⟩, rfl⟩
    obtain ⟨s, hs, h3⟩ := Option.map_eq_some_iff.1 h2
    rw [decide_eq_true_iff] at h3
    exact ⟨i, e, s, h1, hs, rfl, h3⟩
  · rintro ⟨i, e, s, h1, hs, rfl, h3⟩
    exact ⟨e, ⟨i, h1, by rw [hs]; simp [h3]⟩, rfl⟩

example : hadronVertices [(1, 2), (3, 4), (1, 5), (6, 7)] [80, -90, -85, 91] = .ok [1, 3] := by decide

/-! ## find_vertex -/

theorem mem_pivotTuples (rows : List (Int × Int)) (v : Int) (l : List Int) :
    (v, l) ∈ pivotTuples rows ↔
      (∃ c, (v, c) ∈ rows) ∧ l = (rows.filter (fun r => r.1 == v)).map (fun r => r.2) := by
  simp only [pivotTuples, List.mem_map, mem_npUnique, Prod.mk.injEq]
  constructor
  · rintro ⟨w, ⟨r, hr, rfl⟩, rfl, rfl⟩
    exact ⟨⟨r.2, hr⟩, rfl⟩
  · rintro ⟨⟨c, hc⟩, rfl⟩
    exact ⟨v, ⟨(v, c), hc, rfl⟩, rfl, rfl⟩

open scoped Classical in
theorem find_pivotTuples (rows : List (Int × Int)) (v : Int) :
    (pivotTuples rows).find? (fun r => r.1 == v) =
      if (∃ c, (v, c) ∈ rows) then some (v, (rows.filter (fun r => r.1 == v)).map (fun r => r.2))
      else none := by
  by_cases hex : ∃ c, (v, c) ∈ rows
  · rw [if_pos hex]
    have hmem := (mem_pivotTuples rows v _).2 ⟨hex, rfl⟩
    rcases h : (pivotTuples rows).find? (fun r => r.1 == v) with _ | r
    · rw [List.find?_eq_none] at h
      exact absurd (by simp) (h _ hmem)
    · have h1 : r.1 = v := by simpa using List.find?_some h
      have h2 := List.mem_of_find?_eq_some h
      obtain ⟨a, b⟩ := r
      simp only at h1
      subst h1
      rw [h, ((mem_pivotTuples rows a b).1 h2).2]
  · rw [if_neg hex, List.find?_eq_none]
    rintro ⟨a, b⟩ hr h
    simp only [beq_iff_eq] at h
    subst h
    exact hex ((mem_pivotTuples rows a b).1 hr).1

theorem mem_pivot_fst (rows : List (Int × Int)) (v : Int) :
    v ∈ (pivotTuples rows).map (fun r => r.1) ↔ ∃ c, (v, c) ∈ rows := by
  rw [List.mem_map]
  constructor
  · rintro ⟨⟨a, b⟩, h, rfl⟩; exact ((mem_pivotTuples rows a b).1 h).1
  · intro h; exact ⟨(v, _), (mem_pivotTuples rows v _).2 ⟨h, rfl⟩, rfl⟩

/-- the cell of one direction -/
def cellOf (rows : List (Int × Int)) (v : Int) : Option (List Int) :=
  ((pivotTuples rows).find? (fun r => r.1 == v)).map Prod.snd

theorem mem_explode_cell (rows : List (Int × Int)) (v c : Int) :
    some c ∈ explodeCell (cellOf rows v) ↔ (v, c) ∈ rows := by
  unfold cellOf
  rw [find_pivotTuples]
  by_cases hex : ∃ c, (v, c) ∈ rows
  · rw [if_pos hex]
    simp only [Option.map_some, explodeCell, List.map_map, List.mem_map, List.mem_filter,
      Function.comp_def, Option.some.injEq, beq_iff_eq]
    constructor
    · rintro ⟨⟨a, b⟩, ⟨h, rfl⟩, rfl⟩; exact h
    · intro h; exact ⟨(v, c), ⟨h, rfl⟩, rfl⟩
  · rw [if_neg hex]
    simp only [Option.map_none, explodeCell, List.mem_singleton]
    constructor
    · intro h; cases h
    · intro h; exact absurd ⟨c, h⟩ hex

theorem explode_cell_ne (rows : List (Int × Int)) (v : Int) : explodeCell (cellOf rows v) ≠ [] := by
  unfold cellOf
  rw [find_pivotTuples]
  by_cases hex : ∃ c, (v, c) ∈ rows
  · rw [if_pos hex]
    simp only [Option.map_some, explodeCell]
    intro h
    simp only [List.map_eq_nil_iff, List.filter_eq_nil_iff] at h
    obtain ⟨c, hc⟩ := hex
    exact h _ hc (by simp)
  · rw [if_neg hex]; simp [explodeCell]

/-- rows of the exploded table -/
theorem mem_vtxPdgs (es : List (Int × Int)) (pdg : List Int) (v : Int) (i o : Option Int) :
    (v, i, o) ∈ vtxPdgs es pdg ↔
      ((∃ c, (v, c) ∈ List.zipWith (fun (e : Int × Int) (c : Int) => (e.2, c)) es pdg) ∨
       (∃ c, (v, c) ∈ List.zipWith (fun (e : Int × Int) (c : Int) => (e.1, c)) es pdg)) ∧
      i ∈ explodeCell (cellOf (List.zipWith (fun (e : Int × Int) (c : Int) => (e.2, c)) es pdg) v) ∧
      o ∈ explodeCell (cellOf (List.zipWith (fun (e : Int × Int) (c : Int) => (e.1, c)) es pdg) v) := by
  simp only [vtxPdgs, List.mem_flatMap, List.mem_reverse, List.mem_map, mem_npUnique,
    List.mem_append, Prod.mk.injEq]
  constructor
  · rintro ⟨r, ⟨w, hw, rfl⟩, i', hi', o', ho', h1, h2, h3⟩
    simp only at h1 hi' ho'
    subst h1 h2 h3
    refine ⟨?_, hi', ho'⟩
    rcases hw with hw | hw
    · left; exact (mem_pivot_fst _ _).1 (List.mem_map.2 hw)
    · right; exact (mem_pivot_fst _ _).1 (List.mem_map.2 hw)
  · rintro ⟨hv, hi, ho⟩
    refine ⟨_, ⟨v, ?_, rfl⟩, i, hi, o, ho, rfl, rfl, rfl⟩
    rcases hv with hv | hv
    · left; exact List.mem_map.1 ((mem_pivot_fst _ _).2 hv)
    · right; exact List.mem_map.1 ((mem_pivot_fst _ _).2 hv)

theorem mem_zipWith_dir {f : (Int × Int) → Int} (es : List (Int × Int)) (pdg : List Int) (v c : Int) :
    (v, c) ∈ List.zipWith (fun e c => (f e, c)) es pdg ↔
      ∃ (i : Nat) (e : Int × Int), es[i]? = some e ∧ pdg[i]? = some c ∧ f e = v := by
  rw [List.mem_iff_getElem?]
  constructor
  · rintro ⟨i, h⟩
    rw [List.getElem?_zipWith] at h
    rcases h1 : es[i]? with _ | e
    · simp [h1] at h
    · rcases h2 : pdg[i]? with _ | d
      · simp [h1, h2] at h
      · simp only [h1, h2, Option.some.injEq, Prod.mk.injEq] at h
        exact ⟨i, e, h1, by rw [h2, h.2], h.1⟩
  · rintro ⟨i, e, h1, h2, h3⟩
    exact ⟨i, by simp [List.getElem?_zipWith, h1, h2, h3]⟩

/-- C42.  `find_vertex(graph, pdgs_in, pdgs_out)` raises `ValueError` when both arguments are
missing; otherwise it lists in ascending order, each once, exactly the vertices of the graph at
which every code of `pdgs_in` ends and from which every code of `pdgs_out` starts. -/
theorem C42_find (es : List (Int × Int)) (pdg : List Int) (hl : pdg.length = es.length)
    (pin pout : Option (List Int)) :
    (pin = none → pout = none → findVertex es pdg pin pout = .error .valueError) ∧
    (pin ≠ none ∨ pout ≠ none → ∃ vtxs, findVertex es pdg pin pout = .ok vtxs ∧
      vtxs.Pairwise (· < ·) ∧
      ∀ v, v ∈ vtxs ↔ IsVertex es v ∧
        (∀ s, pin = some s → ∀ c ∈ s, ∃ (i : Nat) (e : Int × Int), es[i]? = some e ∧
          pdg[i]? = some c ∧ e.2 = v) ∧
        (∀ s, pout = some s → ∀ c ∈ s, ∃ (i : Nat) (e : Int × Int), es[i]? = some e ∧
          pdg[i]? = some c ∧ e.1 = v)) := by
  constructor
  · rintro rfl rfl; rfl
  · intro hsome
    have hform : findVertex es pdg pin pout =
        .ok ((npUnique ((vtxPdgs es pdg).map (fun r => r.1))).filter (fun v =>
          (pin.getD []).all (fun c => (((vtxPdgs es pdg).filter (fun r => r.1 == v)).map
              (fun r => r.2.1)).contains (some c)) &&
          (pout.getD []).all (fun c => (((vtxPdgs es pdg).filter (fun r => r.1 == v)).map
              (fun r => r.2.2)).contains (some c)))) := by
      unfold findVertex
      rcases pin with _ | pin <;> rcases pout with _ | pout
      · simp at hsome
      all_goals simp [hl]
    rw [hform]
    refine ⟨_, rfl, (npUnique_sorted _).filter _, ?_⟩
    intro v
    -- the vertices of the table are those of the graph
    have hvert : v ∈ (vtxPdgs es pdg).map (fun r => r.1) ↔ IsVertex es v := by
      rw [List.mem_map]
      constructor
      · rintro ⟨⟨a, i, o⟩, h, rfl⟩
        rcases ((mem_vtxPdgs es pdg a i o).1 h).1 with ⟨c, hc⟩ | ⟨c, hc⟩
        · obtain ⟨i, e, he, _, h⟩ := (mem_zipWith_dir (f := Prod.snd) es pdg a c).1 hc
          exact ⟨e, List.mem_of_getElem? he, Or.inr h⟩
        · obtain ⟨i, e, he, _, h⟩ := (mem_zipWith_dir (f := Prod.fst) es pdg a c).1 hc
          exact ⟨e, List.mem_of_getElem? he, Or.inl h⟩
      · rintro ⟨e, he, h⟩
        obtain ⟨k, hk, hke⟩ := List.mem_iff_getElem.1 he
        have hc : pdg[k]? = some (pdg[k]'(by omega)) := List.getElem?_eq_getElem _
        have hek : es[k]? = some e := by rw [List.getElem?_eq_getElem hk, hke]
        obtain ⟨i, hi⟩ := List.exists_mem_of_ne_nil _
          (explode_cell_ne (List.zipWith (fun (e : Int × Int) (c : Int) => (e.2, c)) es pdg) v)
        obtain ⟨o, ho⟩ := List.exists_mem_of_ne_nil _
          (explode_cell_ne (List.zipWith (fun (e : Int × Int) (c : Int) => (e.1, c)) es pdg) v)
        refine ⟨(v, i, o), (mem_vtxPdgs es pdg v i o).2 ⟨?_, hi, ho⟩, rfl⟩
        rcases h with h | h
        · right; exact ⟨_, (mem_zipWith_dir (f := Prod.fst) es pdg v _).2 ⟨k, e, hek, hc, h⟩⟩
        · left; exact ⟨_, (mem_zipWith_dir (f := Prod.snd) es pdg v _).2 ⟨k, e, hek, hc, h⟩⟩
    have hin : IsVertex es v → ∀ c, ((((vtxPdgs es pdg).filter (fun r => r.1 == v)).map
              (fun r => r.2.1)).contains (some c) = true ↔
          ∃ (i : Nat) (e : Int × Int), es[i]? = some e ∧ pdg[i]? = some c ∧ e.2 = v) := by
      intro hv c
      rw [List.contains_iff_mem, ← mem_zipWith_dir (f := Prod.snd), ← mem_explode_cell]
      simp only [List.mem_map, List.mem_filter, beq_iff_eq]
      constructor
      · rintro ⟨⟨a, i, o⟩, ⟨h, rfl⟩, rfl⟩
        exact ((mem_vtxPdgs es pdg a _ o).1 h).2.1
      · intro h
        obtain ⟨⟨a, i, o⟩, h', rfl⟩ := List.mem_map.1 (hvert.2 hv)
        obtain ⟨h1, h2, h3⟩ := (mem_vtxPdgs es pdg a i o).1 h'
        exact ⟨(a, some c, o), ⟨(mem_vtxPdgs es pdg a _ o).2 ⟨h1, h, h3⟩, rfl⟩, rfl⟩
    have hout : IsVertex es v → ∀ c, ((((vtxPdgs es pdg).filter (fun r => r.1 == v)).map
              (fun r => r.2.2)).contains (some c) = true ↔
          ∃ (i : Nat) (e : Int × Int), es[i]? = some e ∧ pdg[i]? = some c ∧ e.1 = v) := by
      intro hv c
      rw [List.contains_iff_mem, ← mem_zipWith_dir (f := Prod.fst), ← mem_explode_cell]
      simp only [List.mem_map, List.mem_filter, beq_iff_eq]
      constructor
      · rintro ⟨⟨a, i, o⟩, ⟨h, rfl⟩, rfl⟩
        exact ((mem_vtxPdgs es pdg a i _).1 h).2.2
      · intro h
        obtain ⟨⟨a, i, o⟩, h', rfl⟩ := List.mem_map.1 (hvert.2 hv)
        obtain ⟨h1, h2, h3⟩ := (mem_vtxPdgs es pdg a i o).1 h'
        exact ⟨(a, i, some c), ⟨(mem_vtxPdgs es pdg a i _).2 ⟨h1, h2, h⟩, rfl⟩, rfl⟩
    rw [List.mem_filter, mem_npUnique, hvert]
    simp only [Bool.and_eq_true, List.all_eq_true]
    constructor
    · rintro ⟨hv, h1, h2⟩
      refine ⟨hv, ?_, ?_⟩
      · rintro s rfl c hc; exact (hin hv c).1 (h1 c hc)
      · rintro s rfl c hc; exact (hout hv c).1 (h2 c hc)
    · rintro ⟨hv, h1, h2⟩
      refine ⟨hv, ?_, ?_⟩
      · intro c hc
        rcases pin with _ | s
        · simp at hc
        · exact (hin hv c).2 (h1 s rfl c hc)
      · intro c hc
        rcases pout with _ | s
        · simp at hc
        · exact (hout hv c).2 (h2 s rfl c hc)

example : findVertex [(1, 2), (3, 2), (2, 4), (2, 5), (7, 4)] [21, 21, 6, -6, 1]
    (some [21]) (some [6, -6]) = .ok [2] := by decide
example : findVertex [(1, 2), (3, 2), (2, 4), (2, 5), (7, 4)] [21, 21, 6, -6, 1]
    none (some [21]) = .ok [1, 3] := by decide

/-- C42.  When the list of PDG codes has not one entry for every edge of a graph with edges, pandas refuses to attach
it as a column: `ValueError`, whatever is searched for. -/
theorem C42_mismatch (es : List (Int × Int)) (_hne : es ≠ []) (pdg : List Int) (hl : pdg.length ≠ es.length)
    (pin pout : Option (List Int)) : findVertex es pdg pin pout = .error .valueError := by
  unfold findVertex
  rcases pin with _ | pin <;> rcases pout with _ | pout <;> simp [hl]
example : [((1 : Int), (2 : Int)), (2, 3)] ≠ [] ∧ ([21] : List Int).length ≠ [((1 : Int), (2 : Int)), (2, 3)].length := by
  decide

end Gcl
