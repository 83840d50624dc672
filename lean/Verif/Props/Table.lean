import Verif.Spec.Table
import Verif.Props.Composite
import Mathlib.Tactic.Push
/-! # Property C86: printed tables show head and tail -/
namespace Gcl
set_option autoImplicit false
open Spec

/-! ## `mit.tail` -/

theorem dequePush_eq {α : Type} (n : Nat) (l : List α) (x : α) :
    dequePush n (l.drop (l.length - n)) x = (l ++ [x]).drop ((l ++ [x]).length - n) := by
  unfold dequePush
  have h1 : l.drop (l.length - n) ++ [x] = (l ++ [x]).drop (l.length - n) := by
    rw [List.drop_append_of_le_length (by omega)]
  simp only [h1, List.length_drop, List.length_append, List.length_singleton, List.drop_drop]
  split
  · congr 1; omega
  · congr 1; omega

theorem itTail_eq {α : Type} (n : Nat) (l : List α) : itTail n l = l.drop (l.length - n) := by
  have key : ∀ (l pre : List α), l.foldl (dequePush n) (pre.drop (pre.length - n)) =
      (pre ++ l).drop ((pre ++ l).length - n) := by
    intro l
    induction l with
    | nil => intro pre; simp
    | cons x l ih =>
      intro pre
      rw [List.foldl_cons, dequePush_eq, ih]
      simp
  have := key l []
  simpa [itTail] using this

/-! ## Columns -/

theorem range_map_ext {α : Type} (l : List α) (n : Nat) (f : Nat → α) (hl : l.length = n)
    (h : ∀ i, i < n → l[i]? = some (f i)) : l = (List.range n).map f := by
  apply List.ext_getElem?
  intro i
  by_cases hi : i < n
  · rw [h i hi, List.getElem?_map, List.getElem?_range hi]; rfl
  · rw [List.getElem?_eq_none (by omega), List.getElem?_eq_none (by simp; omega)]

theorem zipColumns_eq {α : Type} (n : Nat) (cs : List (List (List α))) (hne : cs ≠ [])
    (hl : ∀ c ∈ cs, c.length = n) :
    zipColumns cs = (List.range n).map (fun i => cs.flatMap (fun c => (c[i]?).getD [])) := by
  induction cs with
  | nil => exact absurd rfl hne
  | cons c cs ih =>
    have hc : c.length = n := hl c (by simp)
    cases cs with
    | nil =>
      rw [zipColumns]
      refine range_map_ext _ _ _ hc (fun i hi => ?_)
      simp [List.getElem?_eq_getElem (by omega : i < c.length)]
    | cons c' cs =>
      rw [zipColumns, ih (by simp) (fun d hd => hl d (by simp [hd]))]
      · refine range_map_ext _ _ _ (by simp [hc]) (fun i hi => ?_)
        rw [List.getElem?_zipWith, List.getElem?_map, List.getElem?_range hi,
          List.getElem?_eq_getElem (by omega : i < c.length)]
        simp [List.getElem?_eq_getElem (by omega : i < c.length)]
      · simp

theorem tableColumns_eq {α : Type} (n : Nat) (all : List (List String × List (List (Cell α))))
    (hl : ∀ c ∈ all, c.2 = [] ∨ c.2.length = n) (hne : ∃ c ∈ all, c.2 ≠ []) :
    zipColumns ((all.flatMap (fun c => tableColumn c.1 c.2)).map Prod.snd) =
      (List.range n).map (fun i => all.flatMap (fun c => (c.2[i]?).getD [])) := by
  rw [zipColumns_eq n]
  · apply List.map_congr_left
    intro i _
    clear hl hne
    induction all with
    | nil => rfl
    | cons c all ih =>
      rw [List.flatMap_cons, List.map_append, List.flatMap_append, ih, List.flatMap_cons]
      congr 1
      obtain ⟨h, c⟩ := c
      cases c with
      | nil => rfl
      | cons x c => simp [tableColumn, listTruthy]
  · obtain ⟨c, hc, hn⟩ := hne
    intro h0
    have : (c.1, c.2) ∈ all.flatMap (fun c => tableColumn c.1 c.2) := by
      refine List.mem_flatMap.2 ⟨c, hc, ?_⟩
      obtain ⟨h, c⟩ := c
      cases c with
      | nil => exact absurd rfl hn
      | cons x c => simp [tableColumn, listTruthy]
    rw [List.map_eq_nil_iff] at h0
    rw [h0] at this
    cases this
  · intro c hc
    obtain ⟨p, hp, rfl⟩ := List.mem_map.1 hc
    obtain ⟨q, hq, hpq⟩ := List.mem_flatMap.1 hp
    unfold tableColumn at hpq
    split at hpq
    · next ht =>
      rw [List.mem_singleton] at hpq
      subst hpq
      rcases hl q hq with h0 | h0
      · rw [h0] at ht; simp [listTruthy] at ht
      · exact h0
    · cases hpq

theorem map_getElem?_getD {β γ : Type} (l : List β) (f : β → List γ) (i : Nat) :
    ((l.map f)[i]?).getD [] = match l[i]? with | some c => f c | none => [] := by
  rw [List.getElem?_map]
  cases l[i]? <;> rfl

/-- The attributes with their titles and cells. -/
def tableCols {α : Type} (name : Int → String) (p : PSet (α × α × α × α)) :
    List (List String × List (List (Cell α))) :=
  [(["name"], p.pdg.map (fun c => [Cell.text (name c)])),
   (["px", "py", "pz", "energy"],
      p.pmu.map (fun m => [Cell.num m.1, Cell.num m.2.1, Cell.num m.2.2.1, Cell.num m.2.2.2])),
   (["color", "anticolor"], p.color.map (fun c => [Cell.int c.1, Cell.int c.2])),
   (["helicity"], p.helicity.map (fun c => [Cell.int c])),
   (["status"], p.status.map (fun c => [Cell.int c])),
   (["final"], p.final.map (fun c => [Cell.bool c]))]

theorem tableList_cols {α : Type} (name : Int → String) (p : PSet (α × α × α × α)) :
    p.tableList name = (((tableCols name p).flatMap (fun c => tableColumn c.1 c.2)).flatMap Prod.fst,
      zipColumns (((tableCols name p).flatMap (fun c => tableColumn c.1 c.2)).map Prod.snd)) := by
  simp only [PSet.tableList, tableCols, List.flatMap_cons, List.flatMap_nil, List.append_nil, List.append_assoc]

theorem tableCols_cells {α : Type} (name : Int → String) (p : PSet (α × α × α × α)) (i : Nat) :
    (tableCols name p).flatMap (fun c => (c.2[i]?).getD []) = particleCells name p i := by
  simp only [tableCols, List.flatMap_cons, List.flatMap_nil, List.append_nil, map_getElem?_getD, particleCells,
    List.append_assoc]
  rcases p.pmu[i]? with _ | ⟨x, y, z, e⟩ <;> rcases p.color[i]? with _ | ⟨c, d⟩ <;>
    cases p.pdg[i]? <;> cases p.helicity[i]? <;> cases p.status[i]? <;> cases p.final[i]? <;> rfl

theorem tableColumn_titles {α β : Type} (hs : List String) (l : List β) (f : β → List (Cell α)) :
    (tableColumn hs (l.map f)).flatMap Prod.fst = if l = [] then [] else hs := by
  cases l <;> simp [tableColumn, listTruthy]

theorem tableList_titles {α : Type} (name : Int → String) (p : PSet (α × α × α × α)) :
    (p.tableList name).1 = titles (⟨p, {}⟩ : Graph (α × α × α × α) Nat) := by
  simp only [PSet.tableList, titles, List.flatMap_append, tableColumn_titles, if_true, List.append_nil]

theorem tableList_rows {α : Type} (name : Int → String) (p : PSet (α × α × α × α)) (n : Nat)
    (ha : Aligned n (⟨p, {}⟩ : Graph (α × α × α × α) Nat)) (hp : p.truthy = true) :
    (p.tableList name).2 = (List.range n).map (particleCells name p) := by
  rw [tableList_cols]
  dsimp only
  rw [tableColumns_eq n]
  · exact List.map_congr_left (fun i _ => tableCols_cells name p i)
  · obtain ⟨h1, h2, h3, h4, h5, h6, -⟩ := ha
    intro c hc
    simp only [tableCols, List.mem_cons, List.not_mem_nil, or_false] at hc
    rcases hc with rfl | rfl | rfl | rfl | rfl | rfl <;> simpa
  · simp only [PSet.truthy, List.any_cons, id_eq, List.any_nil, Bool.or_false, Bool.or_eq_true, listTruthy,
      Bool.not_eq_eq_eq_not, Bool.not_true, beq_eq_false_iff_ne, ne_eq, List.length_eq_zero_iff] at hp
    simp only [tableCols, List.exists_mem_cons_iff, ne_eq, List.map_eq_nil_iff, List.not_mem_nil, false_and,
      exists_false, or_false]
    simpa only [or_assoc] using hp

/-! ## The table -/

theorem tableRepr_shows {α : Type} (hs : List String) (n : Nat) (cell : Nat → List (Cell α)) (html : Bool) :
    ShowsRecords (tableRepr hs ((List.range n).map cell) n html) hs n cell html := by
  refine ⟨rfl, rfl, fun hn => ?_, fun hn => ?_, ?_⟩
  · simp only [tableRepr, if_neg (by omega : ¬ n > 60)]
  · simp only [tableRepr, if_pos (by omega : n > 60), itTail_eq]
    obtain ⟨k, rfl⟩ : ∃ k, n = 10 + k := ⟨n - 10, by omega⟩
    have h1 : ((List.range (10 + k)).map cell).take 5 = (List.range 5).map cell := by
      rw [← List.map_take, List.take_range]
      congr 2; omega
    have h2 : ((((List.range (10 + k)).map cell).drop 5).drop ((((List.range (10 + k)).map cell).drop 5).length - 5))
        = [cell (10 + k - 5), cell (10 + k - 4), cell (10 + k - 3), cell (10 + k - 2), cell (10 + k - 1)] := by
      rw [List.drop_drop]
      apply List.ext_getElem?
      intro i
      rw [List.getElem?_drop]
      simp only [List.length_drop, List.length_map, List.length_range]
      by_cases hi : i < 5
      · rw [List.getElem?_map, List.getElem?_range (by omega)]
        have : i = 0 ∨ i = 1 ∨ i = 2 ∨ i = 3 ∨ i = 4 := by omega
        rcases this with rfl | rfl | rfl | rfl | rfl <;>
          simp only [Option.map_some, List.getElem?_cons_zero, List.getElem?_cons_succ] <;> congr 2 <;> omega
      · rw [List.getElem?_eq_none (by simp; omega), List.getElem?_eq_none (by simp; omega)]
    rw [h1, h2]
    rfl
  · unfold tableRepr
    cases html <;> simp [String.append_assoc]

/-- C86: the table of an event whose attributes present have one record per particle. -/
theorem C86_table {α W : Type} (name : Int → String) (g : Graph (α × α × α × α) W) (n : Nat)
    (ha : Aligned n g) (hp : g.particles.truthy = true) (html : Bool) :
    ShowsRecords (g.table name html) (titles g) n (recordCells name g) html := by
  have hp' : Aligned n (⟨g.particles, {}⟩ : Graph (α × α × α × α) Nat) := by
    obtain ⟨h1, h2, h3, h4, h5, h6, -⟩ := ha
    exact ⟨h1, h2, h3, h4, h5, h6, Or.inl rfl⟩
  have hlen : g.len = n := C26_aligned g n ha (by simp [Graph.truthy, hp])
  have hrows := tableList_rows name g.particles n hp' hp
  have htit := tableList_titles name g.particles
  unfold Graph.table
  dsimp only
  rw [hlen, hrows, htit]
  split
  · next ht =>
    have hne : g.adj.edges ≠ [] := by
      intro h0
      simp [Adj.truthy, h0, listTruthy] at ht
    have hl : g.adj.edges.length = n := by
      rcases ha.2.2.2.2.2.2 with h | h
      · exact absurd h hne
      · exact h
    have e1 : titles (⟨g.particles, {}⟩ : Graph (α × α × α × α) Nat) ++ ["src", "dst"] = titles g := by
      simp [titles, hne]
    have e2 : List.zipWith (fun row (e : Int × Int) => row ++ [Cell.int e.1, Cell.int e.2])
        ((List.range n).map (particleCells name g.particles)) g.adj.edges =
        (List.range n).map (recordCells name g) := by
      refine range_map_ext _ _ _ (by simp [hl]) (fun i hi => ?_)
      rw [List.getElem?_zipWith, List.getElem?_map, List.getElem?_range hi,
        List.getElem?_eq_getElem (by omega : i < g.adj.edges.length)]
      simp [recordCells, List.getElem?_eq_getElem (by omega : i < g.adj.edges.length)]
    rw [e1, e2]
    exact tableRepr_shows _ _ _ _
  · next ht =>
    have hne : g.adj.edges = [] := by
      simpa [Adj.truthy, listTruthy] using ht
    have e1 : titles (⟨g.particles, {}⟩ : Graph (α × α × α × α) Nat) = titles g := by
      simp [titles, hne]
    have e2 : particleCells name g.particles = recordCells name g := by
      funext i
      simp [recordCells, hne]
    rw [e1, e2]
    exact tableRepr_shows _ _ _ _

/-- C86 for a particle set on its own. -/
theorem C86_particles {α : Type} (name : Int → String) (p : PSet (α × α × α × α)) (n : Nat)
    (ha : Aligned n (⟨p, {}⟩ : Graph (α × α × α × α) Nat)) (hp : p.truthy = true) (html : Bool) :
    ShowsRecords (p.table name html) (titles (⟨p, {}⟩ : Graph (α × α × α × α) Nat)) n (particleCells name p)
      html := by
  have hlen : (⟨p, {}⟩ : Graph (α × α × α × α) Nat).len = n := C26_aligned _ n ha (by simp [Graph.truthy, hp])
  have hlen' : p.len = n := by
    rw [← hlen]
    unfold Graph.len firstPositive
    by_cases h0 : 0 < p.len
    · simp [h0]
    · have : p.len = 0 := by omega
      simp [this]
  unfold PSet.table
  rw [hlen', tableList_rows name p n ha hp, tableList_titles]
  exact tableRepr_shows _ _ _ _

/-- The empty event: no rows, no columns, "0 particles". -/
theorem C86_empty {α W : Type} (name : Int → String) (html : Bool) :
    ShowsRecords (({} : Graph (α × α × α × α) W).table name html) [] 0 (fun _ => []) html :=
  tableRepr_shows [] 0 _ html

/-- C86: the expectation that records are shown is refuted for every event that has edges but no particle data: no
record is shown at all (only the row of ellipses when there are more than sixty), although the line below states
the number of records. -/
theorem C86_false {α W : Type} (name : Int → String) (g : Graph (α × α × α × α) W)
    (hp : g.particles.truthy = false) (hadj : g.adj.edges ≠ []) (html : Bool) :
    (g.table name html).rows = (if 60 < g.adj.edges.length then [[.missing, .missing]] else []) ∧
    (g.table name html).headers = ["src", "dst"] ∧
    (g.table name html).footer = (if html then "" else "[") ++ toString g.adj.edges.length ++
      " particles × 2 attributes" ++ (if html then "" else "]") := by
  have h0 : g.particles.pdg = [] ∧ g.particles.pmu = [] ∧ g.particles.color = [] ∧ g.particles.helicity = [] ∧
      g.particles.status = [] ∧ g.particles.final = [] := by
    simpa [PSet.truthy, listTruthy] using hp
  obtain ⟨h1, h2, h3, h4, h5, h6⟩ := h0
  have hpos : 0 < g.adj.edges.length := List.length_pos_iff.2 hadj
  have hl : g.len = g.adj.edges.length := by
    simp [Graph.len, PSet.len, firstPositive, h1, h2, h3, h4, h5, h6, hpos]
  have ht : g.adj.truthy = true := by simp [Adj.truthy, listTruthy, hadj]
  refine ⟨?_, ?_, ?_⟩
  · simp only [Graph.table, ht, if_true, tableRepr, hl]
    simp [PSet.tableList, tableColumn, listTruthy, h1, h2, h3, h4, h5, h6, zipColumns, itTail]
  · simp only [Graph.table, ht, if_true, tableRepr]
    simp [PSet.tableList, tableColumn, listTruthy, h1, h2, h3, h4, h5, h6]
  · simp only [Graph.table, ht, if_true, tableRepr, hl]
    cases html <;>
      simp [PSet.tableList, tableColumn, listTruthy, h1, h2, h3, h4, h5, h6, String.append_assoc] <;> rfl

/-! ## Concrete cases -/

/-- An event with two particles, edges, and no helicities. -/
def exTable : Graph (Int × Int × Int × Int) Nat :=
  ⟨{ pdg := [21, -11], pmu := [(1, 2, 3, 4), (5, 6, 7, 8)], color := [(501, 502), (0, 0)],
     final := [false, true] }, { edges := [(0, 1), (1, 2)] }⟩

example : Aligned 2 exTable ∧ exTable.particles.truthy = true := by
  refine ⟨⟨?_, ?_, ?_, ?_, ?_, ?_, ?_⟩, ?_⟩ <;> simp [exTable, PSet.truthy, listTruthy]

example : (exTable.table toString true).rows =
    [[.text "21", .num 1, .num 2, .num 3, .num 4, .int 501, .int 502, .bool false, .int 0, .int 1],
     [.text "-11", .num 5, .num 6, .num 7, .num 8, .int 0, .int 0, .bool true, .int 1, .int 2]] := by rfl

/-- A hundred particles. -/
example : (({ status := (List.range 100).map Int.ofNat } : PSet (Int × Int × Int × Int)).table toString false).rows
    = [[.int 0], [.int 1], [.int 2], [.int 3], [.int 4], [.missing], [.int 95], [.int 96], [.int 97], [.int 98],
      [.int 99]] := by decide +kernel

end Gcl
