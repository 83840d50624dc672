import Verif.Spec.AdjCache
import Verif.Lemmas.Adj
import Verif.Lemmas.Basic
/-! # Property C98: what an `AdjacencyList` answers after its edges were written to -/
namespace Gcl
set_option autoImplicit false
open Spec

/-- The coordinates of sparse entries. -/
def coordsOf (b : List (Nat × Nat × Bool)) : List (Nat × Nat) := b.map (fun t => (t.1, t.2.1))

/-- What is stored belongs to the edges `snap`. -/
structure AInv {W : Type} (o : AdjObj W) (snap : Option (List (Int × Int))) : Prop where
  relab : o.relab = snap.map relabel
  len : ∀ s, snap = some s → s.length = o.edges.length
  signed : ∀ x, o.signed = some x → ∃ s, snap = some s ∧ s ≠ [] ∧ x.1 = (vs s).length ∧ coordsOf x.2 = relabel s
  unsigned : ∀ x, o.unsigned = some x → ∃ s, snap = some s ∧ s ≠ [] ∧ x = ((vs s).length, relabel s)
  csr : ∀ x, o.csr = some x → ∃ s, snap = some s ∧ s ≠ [] ∧ x.1 = (vs s).length ∧ coordsOf x.2 = relabel s

theorem AInv.getD_len {W : Type} {o : AdjObj W} {snap : Option (List (Int × Int))} (h : AInv o snap) :
    (snap.getD o.edges).length = o.edges.length := by
  cases snap with
  | none => rfl
  | some s => exact h.len s rfl

theorem readRelab_spec {W : Type} {o : AdjObj W} {snap : Option (List (Int × Int))} (h : AInv o snap) :
    o.readRelab = ({ o with relab := some (relabel (snap.getD o.edges)) }, relabel (snap.getD o.edges)) := by
  have hr := h.relab
  cases snap with
  | none => simp [AdjObj.readRelab, hr]
  | some s =>
    cases o
    simp only [Option.map_some] at hr
    simp [AdjObj.readRelab, hr]

theorem AInv.some {W : Type} {o : AdjObj W} {snap : Option (List (Int × Int))} (h : AInv o snap) :
    AInv { o with relab := some (relabel (snap.getD o.edges)) } (some (snap.getD o.edges)) := by
  refine ⟨rfl, ?_, ?_, ?_, ?_⟩
  · intro s hs; cases hs; exact h.getD_len
  · intro x hx; obtain ⟨s, rfl, r⟩ := h.signed x hx; exact ⟨s, rfl, r⟩
  · intro x hx; obtain ⟨s, rfl, r⟩ := h.unsigned x hx; exact ⟨s, rfl, r⟩
  · intro x hx; obtain ⟨s, rfl, r⟩ := h.csr x hx; exact ⟨s, rfl, r⟩

theorem sparseSize_nil : sparseSize (relabel []) = .error .valueError := rfl

theorem toSparseWith_spec {W D : Type} {o : AdjObj W} {snap : Option (List (Int × Int))} (h : AInv o snap)
    (data : List D) :
    (o.toSparseWith data).1 = { o with relab := some (relabel (snap.getD o.edges)) } ∧
    (o.edges = [] → (o.toSparseWith data).2 = .error .valueError) ∧
    (o.edges ≠ [] → (o.toSparseWith data).2 =
      if data.length = o.edges.length then
        .ok ((vs (snap.getD o.edges)).length,
          List.zipWith (fun c d => (c.1, c.2, d)) (relabel (snap.getD o.edges)) data)
      else .error .valueError) := by
  have hl := h.getD_len
  unfold AdjObj.toSparseWith
  rw [readRelab_spec h]
  generalize snap.getD o.edges = S at *
  by_cases hS : S = []
  · subst hS
    have : o.edges = [] := by simpa using hl.symm
    simp [sparseSize_nil, this]
  · have hE : o.edges ≠ [] := by
      intro hc; rw [hc] at hl; exact hS (by simpa using hl)
    simp only [sparseSize_relabel S hS, relabel_length, hl]
    refine ⟨?_, fun hc => absurd hc hE, fun _ => ?_⟩
    · split <;> rfl
    · split <;> rfl

theorem coordsOf_zip (r : List (Nat × Nat)) (d : List Bool) (h : d.length = r.length) :
    coordsOf (List.zipWith (fun c d => (c.1, c.2, d)) r d) = r := by
  induction r generalizing d with
  | nil => simp [coordsOf]
  | cons c r ih =>
    cases d with
    | nil => simp at h
    | cons b d =>
      have := ih d (by simpa using h)
      simp only [coordsOf] at this
      simp [coordsOf, this]

/-- What a read of the structure leaves and gives. -/
structure ReadInv {W : Type} (o o' : AdjObj W) (snap : Option (List (Int × Int))) : Prop where
  inv : AInv o' (some (snap.getD o.edges))
  edges : o'.edges = o.edges
  weights : o'.weights = o.weights

theorem readSigned_spec {W : Type} {o : AdjObj W} {snap : Option (List (Int × Int))} (h : AInv o snap) :
    ReadInv o o.readSigned.1 snap ∧
    (o.edges = [] → o.readSigned.2 = .error .valueError) ∧
    (o.edges ≠ [] → ∃ b, o.readSigned.2 = .ok ((vs (snap.getD o.edges)).length, b) ∧
      coordsOf b = relabel (snap.getD o.edges)) := by
  unfold AdjObj.readSigned
  cases hs : o.signed with
  | some x =>
    obtain ⟨s, rfl, hne, h1, h2⟩ := h.signed x hs
    have hl := h.len s rfl
    simp only [Option.getD_some]
    refine ⟨⟨h, rfl, rfl⟩, ?_, ?_⟩
    · intro hc; rw [hc] at hl; exact absurd (by simpa using hl) hne
    · intro _; exact ⟨x.2, by rw [← h1], h2⟩
  | none =>
    obtain ⟨t1, t2, t3⟩ := toSparseWith_spec h (o.edges.map (fun e : Int × Int => decide (0 < e.2)))
    have hl := h.getD_len
    change o.toSparse.1 = _ at t1
    change _ → o.toSparse.2 = _ at t2
    change _ → o.toSparse.2 = _ at t3
    simp only [List.length_map, if_true] at t3
    have hinv := h.some
    generalize hS : snap.getD o.edges = S at *
    rcases hp : o.toSparse with ⟨o', r⟩
    rw [hp] at t1 t2 t3
    simp only at t1 t2 t3
    subst t1
    by_cases hE : o.edges = []
    · rw [t2 hE]
      simp only
      exact ⟨⟨by rw [hS]; exact hinv, rfl, rfl⟩, fun _ => trivial, fun hc => absurd hE hc⟩
    · rw [t3 hE]
      simp only
      have hc := coordsOf_zip (relabel S) (o.edges.map (fun e => decide (0 < e.2)))
        (by rw [relabel_length, List.length_map, hl])
      have hne : S ≠ [] := by intro hc; rw [hc] at hl; exact hE (by simpa using hl.symm)
      refine ⟨⟨?_, rfl, rfl⟩, fun hc => absurd hc hE, fun _ => ⟨_, rfl, hc⟩⟩
      rw [hS]
      refine ⟨hinv.relab, hinv.len, ?_, hinv.unsigned, hinv.csr⟩
      intro x hx
      simp only [Option.some.injEq] at hx
      subst hx
      exact ⟨S, rfl, hne, rfl, hc⟩

theorem readUnsigned_spec {W : Type} {o : AdjObj W} {snap : Option (List (Int × Int))} (h : AInv o snap) :
    ReadInv o o.readUnsigned.1 snap ∧
    (o.edges = [] → o.readUnsigned.2 = .error .valueError) ∧
    (o.edges ≠ [] → o.readUnsigned.2 = .ok ((vs (snap.getD o.edges)).length, relabel (snap.getD o.edges))) := by
  unfold AdjObj.readUnsigned
  cases hs : o.unsigned with
  | some x =>
    obtain ⟨s, rfl, hne, h1⟩ := h.unsigned x hs
    have hl := h.len s rfl
    simp only [Option.getD_some]
    refine ⟨⟨h, rfl, rfl⟩, ?_, ?_⟩
    · intro hc; rw [hc] at hl; exact absurd (by simpa using hl) hne
    · intro _; rw [h1]
  | none =>
    obtain ⟨t1, t2, t3⟩ := readSigned_spec h
    have hl := h.getD_len
    rcases hp : o.readSigned with ⟨o', r⟩
    rw [hp] at t1 t2 t3
    simp only at t1 t2 t3
    by_cases hE : o.edges = []
    · rw [t2 hE]
      exact ⟨t1, fun _ => rfl, fun hc => absurd hE hc⟩
    · obtain ⟨b, hb, hc⟩ := t3 hE
      rw [hb]
      have hne : snap.getD o.edges ≠ [] := by intro hc; rw [hc] at hl; exact hE (by simpa using hl.symm)
      simp only
      refine ⟨⟨⟨t1.inv.relab, t1.inv.len, t1.inv.signed, ?_, t1.inv.csr⟩, t1.edges, t1.weights⟩,
        fun hc => absurd hc hE, fun _ => ?_⟩
      · intro x hx
        simp only [Option.some.injEq] at hx
        subst hx
        exact ⟨_, rfl, hne, by rw [← hc]; rfl⟩
      · rw [← hc]; rfl

theorem readCsr_spec {W : Type} {o : AdjObj W} {snap : Option (List (Int × Int))} (h : AInv o snap) :
    ReadInv o o.readCsr.1 snap ∧
    (o.edges = [] → o.readCsr.2 = .error .valueError) ∧
    (o.edges ≠ [] → ∃ b, o.readCsr.2 = .ok ((vs (snap.getD o.edges)).length, b) ∧
      coordsOf b = relabel (snap.getD o.edges)) := by
  unfold AdjObj.readCsr
  cases hs : o.csr with
  | some x =>
    obtain ⟨s, rfl, hne, h1, h2⟩ := h.csr x hs
    have hl := h.len s rfl
    simp only [Option.getD_some]
    refine ⟨⟨h, rfl, rfl⟩, ?_, ?_⟩
    · intro hc; rw [hc] at hl; exact absurd (by simpa using hl) hne
    · intro _; exact ⟨x.2, by rw [← h1], h2⟩
  | none =>
    obtain ⟨t1, t2, t3⟩ := readSigned_spec h
    have hl := h.getD_len
    rcases hp : o.readSigned with ⟨o', r⟩
    rw [hp] at t1 t2 t3
    simp only at t1 t2 t3
    by_cases hE : o.edges = []
    · rw [t2 hE]
      exact ⟨t1, fun _ => rfl, fun hc => absurd hE hc⟩
    · obtain ⟨b, hb, hc⟩ := t3 hE
      rw [hb]
      have hne : snap.getD o.edges ≠ [] := by intro hc; rw [hc] at hl; exact hE (by simpa using hl.symm)
      simp only
      refine ⟨⟨⟨t1.inv.relab, t1.inv.len, t1.inv.signed, t1.inv.unsigned, ?_⟩, t1.edges, t1.weights⟩,
        fun hc => absurd hc hE, fun _ => ⟨b, rfl, hc⟩⟩
      intro x hx
      simp only [Option.some.injEq] at hx
      subst hx
      exact ⟨_, rfl, hne, rfl, hc⟩

theorem coordsOf_toSparse (S : List (Int × Int)) :
    coordsOf (S.map (fun e => ((vs S).idxOf e.1, (vs S).idxOf e.2, decide (0 < e.2)))) = relabel S := by
  simp [coordsOf, relabel, vs, List.map_map, Function.comp_def]

theorem roots_coords (S : List (Int × Int)) (hne : S ≠ []) :
    roots S = .ok ((relabel S).map (fun t => ((List.range (vs S).length).filter (fun j =>
      ((List.range (vs S).length).map (fun j => (relabel S).countP (fun t => t.2 == j)))[j]? == some 0)).contains
        t.1)) := by
  unfold roots
  rw [toSparse_ok S hne, ← coordsOf_toSparse S]
  simp [coordsOf, List.countP_map, Function.comp_def]

theorem leaves_coords (S : List (Int × Int)) (hne : S ≠ []) :
    leaves S = .ok ((relabel S).map (fun t => ((List.range (vs S).length).filter (fun j =>
      ((List.range (vs S).length).map (fun j => (relabel S).countP (fun t => t.1 == j)))[j]? == some 0)).contains
        t.2)) := by
  unfold leaves
  rw [toSparse_ok S hne, ← coordsOf_toSparse S]
  simp [coordsOf, List.countP_map, Function.comp_def]

theorem AdjObj.roots_spec {W : Type} {o : AdjObj W} {snap : Option (List (Int × Int))} (h : AInv o snap) :
    ReadInv o o.roots.1 snap ∧ o.roots.2 = Gcl.roots (snap.getD o.edges) := by
  obtain ⟨t1, t2, t3⟩ := readUnsigned_spec h
  have hl := h.getD_len
  unfold AdjObj.roots
  rcases hp : o.readUnsigned with ⟨o', r⟩
  rw [hp] at t1 t2 t3
  simp only at t1 t2 t3
  by_cases hE : o.edges = []
  · rw [t2 hE]
    have : snap.getD o.edges = [] := by rw [hE] at hl ⊢; simpa using hl
    rw [this]
    exact ⟨t1, rfl⟩
  · rw [t3 hE]
    have hne : snap.getD o.edges ≠ [] := by intro hc; rw [hc] at hl; exact hE (by simpa using hl.symm)
    exact ⟨t1, by rw [roots_coords _ hne]⟩

theorem AdjObj.leaves_spec {W : Type} {o : AdjObj W} {snap : Option (List (Int × Int))} (h : AInv o snap) :
    ReadInv o o.leaves.1 snap ∧ o.leaves.2 = Gcl.leaves (snap.getD o.edges) := by
  obtain ⟨t1, t2, t3⟩ := readUnsigned_spec h
  have hl := h.getD_len
  unfold AdjObj.leaves
  rcases hp : o.readUnsigned with ⟨o', r⟩
  rw [hp] at t1 t2 t3
  simp only at t1 t2 t3
  by_cases hE : o.edges = []
  · rw [t2 hE]
    have : snap.getD o.edges = [] := by rw [hE] at hl ⊢; simpa using hl
    rw [this]
    exact ⟨t1, rfl⟩
  · rw [t3 hE]
    have hne : snap.getD o.edges ≠ [] := by intro hc; rw [hc] at hl; exact hE (by simpa using hl.symm)
    exact ⟨t1, by rw [leaves_coords _ hne]⟩

/-- The matrix of edges and weights (meaning: `C98_matrix_meaning`). -/
def matrixOf {W : Type} [Add W] [Zero W] [One W] (S : List (Int × Int)) (ws : List W) : Py (List (List W)) :=
  if S = [] then .error .valueError
  else if ws = [] then .ok (todense (vs S).length ((relabel S).map (fun t => (t.1, t.2, (1 : W)))))
  else if ws.length < S.length then .error .indexError
  else .ok (todense (vs S).length (List.zipWith (fun t w => (t.1, t.2, w)) (relabel S) ws))

theorem AdjObj.matrix_spec {W : Type} [Add W] [Zero W] [One W] {o : AdjObj W} {snap : Option (List (Int × Int))}
    (h : AInv o snap) :
    ReadInv o o.matrix.1 snap ∧ o.matrix.2 = matrixOf (snap.getD o.edges) o.weights := by
  have hl := h.getD_len
  have hSE : snap.getD o.edges = [] ↔ o.edges = [] := by
    rw [← List.length_eq_zero_iff, hl, List.length_eq_zero_iff]
  unfold AdjObj.matrix matrixOf
  by_cases hw : o.weights.length > 0
  · obtain ⟨t1, t2, t3⟩ := readSigned_spec h
    rw [if_pos hw]
    have hw' : o.weights ≠ [] := by intro hc; rw [hc] at hw; simp at hw
    rcases hp : o.readSigned with ⟨o', r⟩
    rw [hp] at t1 t2 t3
    simp only at t1 t2 t3
    by_cases hE : o.edges = []
    · rw [t2 hE, if_pos (hSE.2 hE)]
      exact ⟨t1, rfl⟩
    · obtain ⟨b, hb, hc⟩ := t3 hE
      rw [hb, if_neg (fun hc => hE (hSE.1 hc)), if_neg hw']
      have hbl : b.length = (snap.getD o.edges).length := by
        rw [← relabel_length, ← hc, coordsOf, List.length_map]
      simp only [hbl]
      by_cases hlt : o.weights.length < (snap.getD o.edges).length
      · rw [if_pos hlt, if_pos hlt]
        exact ⟨t1, rfl⟩
      · rw [if_neg hlt, if_neg hlt]
        refine ⟨t1, ?_⟩
        rw [← hc, coordsOf, List.zipWith_map_left]
  · obtain ⟨t1, t2, t3⟩ := readUnsigned_spec h
    rw [if_neg hw]
    have hw' : o.weights = [] := by
      rw [← List.length_eq_zero_iff]; omega
    rcases hp : o.readUnsigned with ⟨o', r⟩
    rw [hp] at t1 t2 t3
    simp only at t1 t2 t3
    by_cases hE : o.edges = []
    · rw [t2 hE, if_pos (hSE.2 hE)]
      exact ⟨t1, rfl⟩
    · rw [t3 hE, if_neg (fun hc => hE (hSE.1 hc)), if_pos hw']
      exact ⟨t1, rfl⟩

theorem csrRow_coords (n : Nat) (b b' : List (Nat × Nat × Bool)) (h : coordsOf b = coordsOf b') :
    csrRow n b = csrRow n b' := by
  funext p
  unfold csrRow
  congr 1
  funext j
  have : ∀ c : List (Nat × Nat × Bool), c.any (fun t => t.1 == p && t.2.1 == j) =
      (coordsOf c).any (fun t => t.1 == p && t.2 == j) := by
    intro c; simp [coordsOf, List.any_map, Function.comp_def]
  rw [this, this, h]

theorem bfsTree_coords (n : Nat) (b b' : List (Nat × Nat × Bool)) (h : coordsOf b = coordsOf b') (v : Nat) :
    bfsTree n b v = bfsTree n b' v := by
  unfold bfsTree
  rw [csrRow_coords n b b' h]

theorem gather_trueIdxs_first {α : Type} (l : List α) (m : List Bool) (i : Nat) (x : α)
    (hm : m[i]? = some true) (hf : ∀ j, j < i → m[j]? ≠ some true) (hx : l[i]? = some x) :
    ∃ rest, gather l (trueIdxs m) = x :: rest := by
  have key : ∀ (m : List Bool) (off i : Nat), m[i]? = some true → (∀ j, j < i → m[j]? ≠ some true) →
      ∃ rest, trueIdxs m off = (off + i) :: rest := by
    intro m
    induction m with
    | nil => intro off i h; simp at h
    | cons b m ih =>
      intro off i hi hf
      cases i with
      | zero =>
        simp only [List.getElem?_cons_zero, Option.some.injEq] at hi
        subst hi
        exact ⟨trueIdxs m (off + 1), by simp [trueIdxs]⟩
      | succ i =>
        have hb : b = false := by
          cases b with
          | false => rfl
          | true => exact absurd (by simp) (hf 0 (by omega))
        subst hb
        obtain ⟨rest, hr⟩ := ih (off + 1) i (by simpa using hi) (fun j hj => by
          have := hf (j + 1) (by omega); simpa using this)
        exact ⟨rest, by simp only [trueIdxs]; rw [hr]; congr 1; omega⟩
  obtain ⟨rest, hr⟩ := key m 0 i hm hf
  refine ⟨gather l rest, ?_⟩
  rw [hr]
  simp [gather, hx]

/-- The first position satisfying a predicate. -/
theorem first_index {α : Type} (l : List α) (p : α → Bool) (h : ∃ x ∈ l, p x = true) :
    ∃ (i : Nat) (x : α), l[i]? = some x ∧ p x = true ∧
      ∀ (j : Nat) (y : α), j < i → l[j]? = some y → p y = false := by
  induction l with
  | nil => obtain ⟨x, hx, _⟩ := h; cases hx
  | cons a l ih =>
    cases ha : p a with
    | true => exact ⟨0, a, rfl, ha, fun j y hj => absurd hj (by omega)⟩
    | false =>
      obtain ⟨x, hx, hp⟩ := h
      have hx' : x ∈ l := by
        rcases List.mem_cons.1 hx with rfl | h'
        · rw [ha] at hp; cases hp
        · exact h'
      obtain ⟨i, y, h1, h2, h3⟩ := ih ⟨x, hx', hp⟩
      refine ⟨i + 1, y, by simpa using h1, h2, ?_⟩
      intro j z hj hz
      cases j with
      | zero => simp at hz; rw [← hz]; exact ha
      | succ j => exact h3 j z (by omega) (by simpa using hz)

/-- The search from the row `c` in the relabelled edges of `S`. -/
theorem vertexDescendants_coords (S : List (Int × Int)) (u : Int) (hu : ∃ e ∈ S, e.1 = u)
    (b b' : List (Nat × Nat × Bool)) (hb : coordsOf b = relabel S) (hb' : coordsOf b' = relabel S) :
    vertexDescendants S u =
      setMask (b.map (fun t => (bfsTree (vs S).length b' ((vs S).idxOf u)).2.contains t.1))
        (b.map (fun t => t.1 == (vs S).idxOf u)) true := by
  have hne : S ≠ [] := by rintro rfl; obtain ⟨e, he, _⟩ := hu; cases he
  obtain ⟨i, x, h1, h2, h3⟩ := first_index S (fun e => e.1 == u) (by
    obtain ⟨e, he, h⟩ := hu; exact ⟨e, he, by simp [h]⟩)
  have hany : (S.map (fun e => e.1 == u)).any id = true := by
    obtain ⟨e, he, h⟩ := hu
    rw [List.any_eq_true]; exact ⟨true, List.mem_map.2 ⟨e, he, by simp [h]⟩, rfl⟩
  unfold vertexDescendants
  simp only [hany, toSparse_ok S hne, Bool.not_true, Bool.false_eq_true, if_false]
  obtain ⟨rest, hr⟩ := gather_trueIdxs_first
    ((S.map (fun e : Int × Int => ((vs S).idxOf e.1, (vs S).idxOf e.2, decide (0 < e.2)))).map (fun t => t.1))
    (S.map (fun e : Int × Int => e.1 == u)) i ((vs S).idxOf u)
    (by rw [List.getElem?_map, h1]; simpa using h2)
    (fun j hj => by
      rw [List.getElem?_map]
      cases hy : S[j]? with
      | none => simp
      | some y => simp [h3 j y hj hy])
    (by simp only [List.getElem?_map, h1, Option.map_some, Option.some.injEq]
        rw [show x.1 = u by simpa using h2])
  rw [hr]
  simp only
  rw [bfsTree_coords _ _ b' (by rw [hb', coordsOf_toSparse])]
  have e1 : ∀ (f : Nat → Bool) (c c' : List (Nat × Nat × Bool)), coordsOf c = coordsOf c' →
      c.map (fun t => f t.1) = c'.map (fun t => f t.1) := by
    intro f c c' h
    have := congrArg (List.map (fun t : Nat × Nat => f t.1)) h
    simpa [coordsOf, List.map_map, Function.comp_def] using this
  have hc := (coordsOf_toSparse S).trans hb.symm
  rw [e1 (fun n => (bfsTree (vs S).length b' ((vs S).idxOf u)).2.contains n) _ b hc,
    e1 (fun n => n == (vs S).idxOf u) _ b hc]

theorem AdjObj.descendants_spec {W : Type} {o : AdjObj W} {snap : Option (List (Int × Int))} (h : AInv o snap)
    (v : Int) :
    ((¬ ∃ e ∈ o.edges, e.1 = v) → o.descendants v = (o, .ok (o.edges.map (fun e => e.2 == v)))) ∧
    ((∃ e ∈ o.edges, e.1 = v) → ReadInv o (o.descendants v).1 snap ∧
      ∀ (i : Nat) (e s : Int × Int), o.edges[i]? = some e → e.1 = v →
        (∀ (j : Nat) (e' : Int × Int), j < i → o.edges[j]? = some e' → e'.1 ≠ v) →
        (snap.getD o.edges)[i]? = some s →
        (o.descendants v).2 = vertexDescendants (snap.getD o.edges) s.1) := by
  have hl := h.getD_len
  constructor
  · intro hno
    have hany : (o.edges.map (fun e => e.1 == v)).any id = false := by
      rw [Bool.eq_false_iff]
      intro hc
      rw [List.any_eq_true] at hc
      obtain ⟨b, hb, hb'⟩ := hc
      obtain ⟨e, he, rfl⟩ := List.mem_map.1 hb
      exact hno ⟨e, he, by simpa using hb'⟩
    simp [AdjObj.descendants, hany]
  · intro hex
    have hany : (o.edges.map (fun e => e.1 == v)).any id = true := by
      obtain ⟨e, he, h'⟩ := hex
      rw [List.any_eq_true]; exact ⟨true, List.mem_map.2 ⟨e, he, by simp [h']⟩, rfl⟩
    have hE : o.edges ≠ [] := by rintro hc; obtain ⟨e, he, _⟩ := hex; rw [hc] at he; cases he
    obtain ⟨t1, -, t3⟩ := readSigned_spec h
    obtain ⟨b, hb, hc⟩ := t3 hE
    obtain ⟨u1, -, u3⟩ := readCsr_spec t1.inv
    obtain ⟨b', hb', hc'⟩ := u3 (by rw [t1.edges]; exact hE)
    simp only [Option.getD_some] at u1 hb' hc'
    obtain ⟨i, e, h1, h2, h3⟩ := first_index o.edges (fun e => e.1 == v) (by
      obtain ⟨e, he, h'⟩ := hex; exact ⟨e, he, by simp [h']⟩)
    have hi : i < o.edges.length := (List.getElem?_eq_some_iff.1 h1).1
    have hS : ∃ s, (snap.getD o.edges)[i]? = some s := ⟨_, List.getElem?_eq_getElem (by rw [hl]; exact hi)⟩
    obtain ⟨s, hs⟩ := hS
    obtain ⟨rest, hr⟩ := gather_trueIdxs_first (b.map (fun t => t.1)) (o.edges.map (fun e : Int × Int => e.1 == v)) i
      ((vs (snap.getD o.edges)).idxOf s.1)
      (by rw [List.getElem?_map, h1]; simpa using h2)
      (fun j hj => by
        rw [List.getElem?_map]
        cases hy : o.edges[j]? with
        | none => simp
        | some y => simp [h3 j y hj hy])
      (by
        have := congrArg (fun l : List (Nat × Nat) => (l[i]?).map Prod.fst) hc
        simpa [coordsOf, relabel, List.getElem?_map, hs, vs] using this)
    have hval : o.descendants v = (o.readSigned.1.readCsr.1,
        vertexDescendants (snap.getD o.edges) s.1) := by
      rw [vertexDescendants_coords (snap.getD o.edges) s.1 ⟨s, List.mem_of_getElem? hs, rfl⟩ b b' hc hc']
      unfold AdjObj.descendants
      simp only [hany, Bool.not_true, Bool.false_eq_true, if_false]
      rcases hp : o.readSigned with ⟨o1, r⟩
      rw [hp] at hb hb'
      simp only at hb hb'
      subst hb
      simp only [hr]
      rcases hq : o1.readCsr with ⟨o2, r2⟩
      rw [hq] at hb'
      simp only at hb'
      subst hb'
      simp only
    rw [hval]
    refine ⟨⟨by simpa using u1.inv, by rw [u1.edges, t1.edges], by rw [u1.weights, t1.weights]⟩, ?_⟩
    intro i' e' s' h1' h2' h3' hs'
    have : i' = i := by
      rcases Nat.lt_trichotomy i' i with hlt | heq | hgt
      · have := h3 i' e' hlt h1'; rw [h2'] at this; simp at this
      · exact heq
      · exact absurd (by simpa using h2) (h3' i e hgt h1)
    subst this
    rw [hs] at hs'
    cases hs'
    rfl

/-- What is kept after one operation. -/
def snapAfter {W : Type} (E : List (Int × Int)) (snap : Option (List (Int × Int))) (op : AOp W) :
    Option (List (Int × Int)) :=
  if needsStructure E op then some (snap.getD E) else snap

theorem aop_inv {W : Type} [Add W] [Zero W] [One W] {o : AdjObj W} {snap : Option (List (Int × Int))}
    (h : AInv o snap) (op : AOp W) :
    AInv (op.run o) (snapAfter o.edges snap op) ∧ (op.run o).edges = edgesStep o.edges op ∧
    (op.run o).weights = weightsNow o.weights [op] := by
  cases op with
  | roots =>
    obtain ⟨r, -⟩ := AdjObj.roots_spec h
    exact ⟨r.inv, r.edges, r.weights⟩
  | leaves =>
    obtain ⟨r, -⟩ := AdjObj.leaves_spec h
    exact ⟨r.inv, r.edges, r.weights⟩
  | matrix =>
    obtain ⟨r, -⟩ := AdjObj.matrix_spec h
    exact ⟨r.inv, r.edges, r.weights⟩
  | sparse =>
    obtain ⟨r, -⟩ := toSparseWith_spec h (o.edges.map (fun e : Int × Int => decide (0 < e.2)))
    change AInv o.toSparse.1 _ ∧ o.toSparse.1.edges = _ ∧ o.toSparse.1.weights = _
    change o.toSparse.1 = _ at r
    rw [r]
    exact ⟨h.some, rfl, rfl⟩
  | descendants v =>
    obtain ⟨d1, d2⟩ := AdjObj.descendants_spec h v
    by_cases hex : ∃ e ∈ o.edges, e.1 = v
    · obtain ⟨r, -⟩ := d2 hex
      have : needsStructure o.edges (AOp.descendants (W := W) v) = true := by
        obtain ⟨e, he, hv⟩ := hex
        simp only [needsStructure, List.any_eq_true]
        exact ⟨e, he, by simp [hv]⟩
      refine ⟨?_, r.edges, r.weights⟩
      rw [snapAfter, if_pos this]
      exact r.inv
    · have hr := d1 hex
      have : needsStructure o.edges (AOp.descendants (W := W) v) = false := by
        rw [Bool.eq_false_iff]
        simp only [needsStructure, ne_eq, List.any_eq_true, not_exists, not_and]
        intro e he hv
        exact hex ⟨e, he, by simpa using hv⟩
      rw [snapAfter, this]
      simp only [AOp.run, hr]
      exact ⟨h, rfl, rfl⟩
  | write es =>
    simp only [AOp.run, snapAfter, needsStructure, edgesStep, weightsNow]
    by_cases hlen : es.length = o.edges.length
    · rw [if_pos hlen, if_pos hlen]
      exact ⟨⟨h.relab, fun s hs => (h.len s hs).trans hlen.symm, h.signed, h.unsigned, h.csr⟩, rfl, rfl⟩
    · rw [if_neg hlen, if_neg hlen]
      exact ⟨h, rfl, rfl⟩
  | setWeights ws => exact ⟨⟨h.relab, h.len, h.signed, h.unsigned, h.csr⟩, rfl, rfl⟩

theorem weightsNow_cons {W : Type} (ws : List W) (op : AOp W) (rest : List (AOp W)) :
    weightsNow ws (op :: rest) = weightsNow (weightsNow ws [op]) rest := by
  cases op <;> rfl

theorem adj_history_inv {W : Type} [Add W] [Zero W] [One W] (hist : List (AOp W)) (o : AdjObj W)
    (snap : Option (List (Int × Int))) (h : AInv o snap) :
    ∃ snap', AInv (runAdj o hist) snap' ∧ (runAdj o hist).edges = edgesNow o.edges hist ∧
      (runAdj o hist).weights = weightsNow o.weights hist ∧
      snap'.getD (edgesNow o.edges hist) = snap.getD (edgesSeen o.edges hist) := by
  induction hist generalizing o snap with
  | nil => exact ⟨snap, h, rfl, rfl, rfl⟩
  | cons op hist ih =>
    obtain ⟨a1, a2, a3⟩ := aop_inv h op
    obtain ⟨snap', i1, i2, i3, i4⟩ := ih (op.run o) _ a1
    rw [a2] at i2 i4
    rw [a3] at i3
    refine ⟨snap', i1, i2, by rw [weightsNow_cons]; exact i3, ?_⟩
    simp only [edgesNow, edgesSeen]
    rw [i4, snapAfter]
    cases hn : needsStructure o.edges op with
    | true => simp
    | false => simp

theorem adj_fresh_inv {W : Type} (es : List (Int × Int)) (ws : List W) :
    AInv ({ edges := es, weights := ws } : AdjObj W) none :=
  ⟨rfl, fun _ h => by simp at h, fun _ h => by simp at h, fun _ h => by simp at h, fun _ h => by simp at h⟩

/-- **C98** Complete account.  After any history of reads, in-place writes and changes of weights on a new
`AdjacencyList`, let `E` be its present edges and `S` the edges it had when the structure was first needed
(`S = E` if it never was).  Then `edges` shows `E`; `roots`, `leaves` and `matrix` (with the present weights) answer
for `S`; `to_sparse(data)` puts the data of each edge at the places its ends in `S` have among the ascending vertex ids of
`S`, and by default the data are the signs of `E`. -/
theorem C98_history {W : Type} [Add W] [Zero W] [One W] (es : List (Int × Int)) (ws : List W)
    (hist : List (AOp W)) (o : AdjObj W) (E S : List (Int × Int))
    (ho : o = runAdj { edges := es, weights := ws } hist) (hE : E = edgesNow es hist) (hS : S = edgesSeen es hist) :
    o.edges = E ∧ o.weights = weightsNow ws hist ∧ S.length = E.length ∧
    o.roots.2 = roots S ∧ o.leaves.2 = leaves S ∧ o.matrix.2 = matrixOf S (weightsNow ws hist) ∧
    (∀ (D : Type) (data : List D) (ns : List Int), VertexList S ns → E ≠ [] → data.length = E.length →
      (o.toSparseWith data).2 =
        .ok (ns.length, List.zipWith (fun s d => (ns.idxOf s.1, ns.idxOf s.2, d)) S data)) ∧
    (∀ (D : Type) (data : List D), E = [] ∨ data.length ≠ E.length →
      (o.toSparseWith data).2 = .error .valueError) ∧
    o.toSparse = o.toSparseWith (E.map (fun e => decide (0 < e.2))) := by
  obtain ⟨snap', i1, i2, i3, i4⟩ := adj_history_inv hist { edges := es, weights := ws } none (adj_fresh_inv es ws)
  rw [← ho] at i1 i2 i3
  change o.edges = edgesNow es hist at i2
  rw [← hE] at i2
  have hS' : snap'.getD o.edges = S := by
    rw [i2, hE, hS]; exact i4
  have hl := i1.getD_len
  rw [hS', i2] at hl
  refine ⟨i2, i3, hl, ?_, ?_, ?_, ?_, ?_, ?_⟩
  · rw [(AdjObj.roots_spec i1).2, hS']
  · rw [(AdjObj.leaves_spec i1).2, hS']
  · rw [(AdjObj.matrix_spec i1).2, hS', i3]
  · intro D data ns hns hne hd
    obtain ⟨-, -, t⟩ := toSparseWith_spec i1 data
    rw [t (by rw [i2]; exact hne), i2, if_pos hd, ← i2, hS', vertexList_unique hns (vs_vertexList S), relabel,
      List.zipWith_map_left]
  · intro D data hcase
    obtain ⟨-, t1, t2⟩ := toSparseWith_spec i1 data
    by_cases hne : E = []
    · exact t1 (by rw [i2]; exact hne)
    · have hd := hcase.resolve_left hne
      rw [t2 (by rw [i2]; exact hne), i2, if_neg hd]
  · rw [AdjObj.toSparse, i2]

/-- **C98** `vertex_descendants(adj, v)` after any history: a vertex without outgoing edge now gives the edges now
ending in it; otherwise the answer is for the source, in `S`, of the first edge that now starts from `v`. -/
theorem C98_descendants {W : Type} [Add W] [Zero W] [One W] (es : List (Int × Int)) (ws : List W)
    (hist : List (AOp W)) (v : Int) (o : AdjObj W) (E S : List (Int × Int))
    (ho : o = runAdj { edges := es, weights := ws } hist) (hE : E = edgesNow es hist) (hS : S = edgesSeen es hist) :
    ((¬ ∃ e ∈ E, e.1 = v) → (o.descendants v).2 = .ok (E.map (fun e => e.2 == v))) ∧
    (∀ (i : Nat) (e s : Int × Int), E[i]? = some e → e.1 = v →
      (∀ (j : Nat) (e' : Int × Int), j < i → E[j]? = some e' → e'.1 ≠ v) → S[i]? = some s →
      (o.descendants v).2 = vertexDescendants S s.1) := by
  obtain ⟨snap', i1, i2, -, i4⟩ := adj_history_inv hist { edges := es, weights := ws } none (adj_fresh_inv es ws)
  rw [← ho] at i1 i2
  change o.edges = edgesNow es hist at i2
  rw [← hE] at i2
  have hS' : snap'.getD o.edges = S := by
    rw [i2, hE, hS]; exact i4
  obtain ⟨d1, d2⟩ := AdjObj.descendants_spec i1 v
  rw [i2] at d1 d2
  constructor
  · intro hno; rw [d1 hno]
  · intro i e s h1 h2 h3 hs
    rw [i2] at hS'
    rw [hS'] at d2
    exact (d2 ⟨e, List.mem_of_getElem? h1, h2⟩).2 i e s h1 h2 h3 hs

theorem edgesSeen_append {W : Type} (E : List (Int × Int)) (a b : List (AOp W))
    (h : ∀ (E' : List (Int × Int)), ∀ op ∈ a, needsStructure E' op = false) :
    edgesSeen E (a ++ b) = edgesSeen (edgesNow E a) b := by
  induction a generalizing E with
  | nil => rfl
  | cons op a ih =>
    simp only [List.cons_append, edgesSeen, edgesNow]
    rw [h E op (by simp)]
    simp only [Bool.false_eq_true, if_false]
    exact ih _ (fun E' op' h' => h E' op' (by simp [h']))

theorem edgesNow_append {W : Type} (E : List (Int × Int)) (a b : List (AOp W)) :
    edgesNow E (a ++ b) = edgesNow (edgesNow E a) b := by
  induction a generalizing E with
  | nil => rfl
  | cons op a ih => exact ih _

theorem edges_nowrite {W : Type} (E : List (Int × Int)) (b : List (AOp W)) (h : ∀ d, AOp.write d ∉ b) :
    edgesNow E b = E ∧ edgesSeen E b = E := by
  induction b generalizing E with
  | nil => exact ⟨rfl, rfl⟩
  | cons op b ih =>
    have hs : edgesStep E op = E := by
      cases op with
      | write d => exact absurd (by simp) (h d)
      | _ => rfl
    have := ih E (fun d hd => h d (by simp [hd]))
    simp only [edgesNow, edgesSeen, hs]
    refine ⟨this.1, ?_⟩
    split
    · rfl
    · exact this.2

/-- **C98** When everything is up to date: if the edges are only written to before the structure is first needed
(writes and weights first, reads afterwards), all answers are for the present edges. -/
theorem C98_follows {W : Type} [Add W] [Zero W] [One W] (es : List (Int × Int)) (ws : List W)
    (pre post : List (AOp W)) (v : Int)
    (hpre : ∀ op ∈ pre, (∃ d, op = .write d) ∨ (∃ w, op = .setWeights w))
    (hpost : ∀ d, AOp.write d ∉ post) (o : AdjObj W) (E : List (Int × Int))
    (ho : o = runAdj { edges := es, weights := ws } (pre ++ post)) (hE : E = edgesNow es (pre ++ post)) :
    o.edges = E ∧ o.roots.2 = roots E ∧ o.leaves.2 = leaves E ∧ o.toSparse.2 = toSparse E ∧
    o.matrix.2 = matrixOf E (weightsNow ws (pre ++ post)) ∧ (o.descendants v).2 = vertexDescendants E v := by
  have hn : ∀ (E' : List (Int × Int)), ∀ op ∈ pre, needsStructure E' op = false := by
    intro E' op hop
    rcases hpre op hop with ⟨d, rfl⟩ | ⟨w, rfl⟩ <;> rfl
  have hEq : E = edgesNow es pre := by rw [hE, edgesNow_append, (edges_nowrite _ post hpost).1]
  have hSE : E = edgesSeen es (pre ++ post) := by
    rw [edgesSeen_append es pre post hn, (edges_nowrite _ post hpost).2, ← hEq]
  obtain ⟨h1, h2, h3, h4, h5, h6, h7, h8, h9⟩ := C98_history es ws (pre ++ post) o E E ho hE hSE
  obtain ⟨d1, d2⟩ := C98_descendants es ws (pre ++ post) v o E E ho hE hSE
  refine ⟨h1, h4, h5, ?_, h6, ?_⟩
  · rw [h9]
    by_cases hne : E = []
    · rw [h8 Bool _ (Or.inl hne), hne]; rfl
    · rw [h7 Bool _ _ (vs_vertexList E) hne (by simp), toSparse, sparseSize_relabel E hne, relabel,
        List.zipWith_map_left]
      simp only [List.zipWith_map_right]
  · by_cases hex : ∃ e ∈ E, e.1 = v
    · obtain ⟨i, e, g1, g2, g3⟩ := first_index E (fun e => e.1 == v) (by
        obtain ⟨e, he, h'⟩ := hex; exact ⟨e, he, by simp [h']⟩)
      have g2' : e.1 = v := by simpa using g2
      rw [d2 i e e g1 g2' (fun j e' hj he' => by simpa using g3 j e' hj he') g1, g2']
    · rw [d1 hex]
      have hany : (E.map (fun e => e.1 == v)).any id = false := by
        rw [Bool.eq_false_iff]
        intro hc
        rw [List.any_eq_true] at hc
        obtain ⟨b, hb, hb'⟩ := hc
        obtain ⟨e, he, rfl⟩ := List.mem_map.1 hb
        exact hex ⟨e, he, by simpa using hb'⟩
      simp [vertexDescendants, hany]

theorem zipWith_take_right {α β γ : Type} (f : α → β → γ) (l : List α) (ws : List β) :
    List.zipWith f l (ws.take l.length) = List.zipWith f l ws := by
  induction l generalizing ws with
  | nil => simp
  | cons a l ih => cases ws with
    | nil => simp
    | cons w ws => simp [ih]

/-- **C98** What `matrix` answers for edges and weights: the counts if there are no weights, the summed weights if
there is one per edge, `IndexError` if there are fewer, and surplus weights are not looked at. -/
theorem C98_matrix_meaning {W : Type} [Add W] [Zero W] [One W] (S : List (Int × Int)) (ws : List W) :
    matrixOf S ([] : List Int) = matrixUnweighted S ∧
    (ws ≠ [] → ws.length = S.length → matrixOf S ws = matrixWeighted S ws) ∧
    (ws ≠ [] → S ≠ [] → ws.length < S.length → matrixOf S ws = .error .indexError) ∧
    (S ≠ [] → S.length ≤ ws.length → matrixOf S ws = matrixOf S (ws.take S.length)) := by
  have hz : ∀ (ws : List W), List.zipWith (fun (t : Nat × Nat × Bool) w => (t.1, t.2.1, w))
      (S.map (fun e => ((vs S).idxOf e.1, (vs S).idxOf e.2, decide (0 < e.2)))) ws =
      List.zipWith (fun t w => (t.1, t.2, w)) (relabel S) ws := by
    intro ws
    rw [← coordsOf_toSparse S, coordsOf]
    generalize S.map (fun e => ((vs S).idxOf e.1, (vs S).idxOf e.2, decide (0 < e.2))) = l
    rw [List.zipWith_map_left]
  refine ⟨?_, ?_, ?_, ?_⟩
  · by_cases hne : S = []
    · subst hne; rfl
    · rw [matrixOf, if_neg hne, if_pos rfl, matrixUnweighted, toSparse_ok S hne, ← coordsOf_toSparse S]
      simp [coordsOf, List.map_map, Function.comp_def]
  · intro hw hl
    have hne : S ≠ [] := by rintro rfl; exact hw (by simpa using hl)
    rw [matrixOf, if_neg hne, if_neg hw, if_neg (by omega), matrixWeighted, toSparse_ok S hne]
    simp only [hz]
  · intro hw hne hl
    rw [matrixOf, if_neg hne, if_neg hw, if_pos hl]
  · intro hne hl
    have hpos : 0 < S.length := List.length_pos_of_ne_nil hne
    have hw : ws ≠ [] := by rintro rfl; simp at hl; exact hne hl
    have hw' : ws.take S.length ≠ [] := by
      intro hc
      simp [hne, hw] at hc
    rw [matrixOf, if_neg hne, if_neg hw, if_neg (by omega), matrixOf, if_neg hne, if_neg hw',
      if_neg (by simp; omega)]
    congr 2
    rw [← relabel_length S, zipWith_take_right]

/-- **C98** Copies and subscripts answer for their own edges, whatever was stored in the original (and have no
weights). -/
theorem C98_copy {W : Type} [Add W] [Zero W] [One W] (o : AdjObj W) (k : Key) (p : AdjObj W) (v : Int)
    (hp : p = o.copy ∨ o.getitem k = .ok p) :
    (p = o.copy → p.edges = o.edges) ∧ (o.getitem k = .ok p → k.apply o.edges = .ok p.edges) ∧
    p.weights = [] ∧ p.roots.2 = roots p.edges ∧ p.leaves.2 = leaves p.edges ∧
    p.matrix.2 = matrixOf p.edges [] ∧ (p.descendants v).2 = vertexDescendants p.edges v := by
  have hform : p = { edges := p.edges, weights := [] } := by
    rcases hp with rfl | hk
    · rfl
    · unfold AdjObj.getitem at hk
      split at hk
      · cases hk
      · cases hk; rfl
  obtain ⟨-, h2, h3, -, h5, h6⟩ := C98_follows p.edges ([] : List W) [] [] v (by simp) (by simp) p p.edges hform rfl
  refine ⟨by rintro rfl; rfl, ?_, by rw [hform], h2, h3, h5, h6⟩
  intro hk
  unfold AdjObj.getitem at hk
  split at hk
  · cases hk
  · next d hd => cases hk; exact hd

/-- **C98** What a user may expect, and is false: after a write, `roots`, `leaves` and `matrix` answer for the edges
the list shows.  The chain 1 → 2 → 3 is read, then rewritten as 2 → 1, 2 → 3: the second edge is now a root, and
is not marked; `vertex_descendants(adj, 2)` answers for what used to be vertex 1. -/
theorem C98_false : ∃ (es : List (Int × Int)) (hist : List (AOp Int)) (o : AdjObj Int),
    o = runAdj { edges := es } hist ∧ o.edges = [(2, 1), (2, 3)] ∧
    o.roots.2 = .ok [true, false] ∧ roots o.edges = .ok [true, true] ∧
    o.matrix.2 = .ok [[0, 1, 0], [0, 0, 1], [0, 0, 0]] ∧
    matrixUnweighted o.edges = .ok [[0, 0, 0], [1, 0, 1], [0, 0, 0]] ∧
    (o.descendants 3).2 = .ok [false, true] :=
  ⟨[(1, 2), (2, 3)], [.roots, .write [(2, 1), (2, 3)]], _, rfl, by decide +kernel, by decide +kernel,
    by decide +kernel, by decide +kernel, by decide +kernel, by decide +kernel⟩

-- the hypotheses of the theorems on this history
example : edgesNow [(1, 2), (2, 3)] [AOp.roots, .write [(2, 1), (2, 3)], (.setWeights [1, 2] : AOp Int)] =
      [(2, 1), (2, 3)] ∧
    edgesSeen [(1, 2), (2, 3)] [AOp.roots, .write [(2, 1), (2, 3)], (.setWeights [1, 2] : AOp Int)] =
      [(1, 2), (2, 3)] := by decide
example : edgesNow [(1, 2), (2, 3)] ([.write [(2, 1), (2, 3)]] ++ [AOp.roots, (.matrix : AOp Int)]) =
      [(2, 1), (2, 3)] ∧
    (∀ d, (AOp.write d : AOp Int) ∉ [AOp.roots, (.matrix : AOp Int)]) := by
  refine ⟨by decide, ?_⟩
  intro d h
  simp at h
example : matrixOf [(1, 2), (2, 3)] [5] = .error .indexError ∧
    matrixOf [(1, 2), (2, 3)] [5, 6, 7] = .ok [[0, 5, 0], [0, 0, 6], [0, 0, 0]] := by decide +kernel

end Gcl
