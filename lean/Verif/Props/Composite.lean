import Verif.Spec.Composite
import Verif.Props.Index
import Verif.Props.Convert
import Verif.Lemmas.Mask
/-! # C25–C32: particle sets and events -/
namespace Gcl
set_option autoImplicit false
open Spec

theorem listTruthy_iff {α : Type} (a : List α) : listTruthy a = true ↔ a ≠ [] := by
  cases a <;> simp [listTruthy]

theorem listTruthy_false {α : Type} (a : List α) : listTruthy a = false ↔ a = [] := by
  cases a <;> simp [listTruthy]

theorem getCol_ok {α : Type} (k : Key) (a b : List α) : getCol k a = .ok b ↔ SubCol k a b := by
  unfold getCol SubCol
  by_cases h : a = []
  · subst h; simp [listTruthy, eq_comm]
  · rw [if_pos ((listTruthy_iff a).2 h)]; simp [h]

theorem bind_ok_iff {α β : Type} (x : Py α) (f : α → Py β) (b : β) :
    (x >>= f) = .ok b ↔ ∃ a, x = .ok a ∧ f a = .ok b := by
  cases x <;> simp [bind, Except.bind]

theorem pset_get_ok {M : Type} (p q : PSet M) (k : Key) :
    p.get k = .ok q ↔ SubCol k p.pdg q.pdg ∧ SubCol k p.pmu q.pmu ∧ SubCol k p.color q.color ∧
      SubCol k p.helicity q.helicity ∧ SubCol k p.status q.status ∧ SubCol k p.final q.final := by
  unfold PSet.get
  simp only [bind_ok_iff, getCol_ok]
  constructor
  · rintro ⟨a, h1, b, h2, c, h3, d, h4, e, h5, f, h6, h7⟩
    injection h7 with h7
    subst h7
    exact ⟨h1, h2, h3, h4, h5, h6⟩
  · rintro ⟨h1, h2, h3, h4, h5, h6⟩
    exact ⟨_, h1, _, h2, _, h3, _, h4, _, h5, _, h6, rfl⟩

theorem pset_falsy {M : Type} (p : PSet M) (h : p.truthy = false) : p = {} := by
  cases p with
  | mk a b c d e f =>
    simp only [PSet.truthy, List.any_cons, List.any_nil, Bool.or_false, id_eq, Bool.or_eq_false_iff,
      listTruthy_false] at h
    obtain ⟨rfl, rfl, rfl, rfl, rfl, rfl⟩ := h
    rfl

theorem adj_falsy {W : Type} (a : Adj W) (h : a.truthy = false) : a.edges = [] :=
  (listTruthy_false _).1 h

theorem subCol_nil {α : Type} (k : Key) (b : List α) : SubCol k ([] : List α) b ↔ b = [] := by
  simp [SubCol]

/-- **C25** Subscripting an event: it succeeds with `h` exactly when every attribute of `h` is the
subscripted attribute (an empty one staying empty); edge weights are dropped. -/
theorem C25_getitem {M W : Type} (g h : Graph M W) (k : Key) :
    g.get k = .ok h ↔ EachCol2 (SubCol k) g h ∧ h.adj.weights = [] := by
  unfold Graph.get EachCol2 keepIf
  simp only [bind_ok_iff]
  cases hp : g.particles.truthy with
  | false =>
    have hpe := pset_falsy _ hp
    cases ha : g.adj.truthy with
    | false =>
      have hae := adj_falsy _ ha
      rw [hpe, hae]
      simp only [subCol_nil, Bool.false_eq_true, if_false]
      constructor
      · rintro ⟨a, h1, b, h2, h3⟩
        cases h1; cases h2; cases h3; simp
      · intro hh
        refine ⟨_, rfl, _, rfl, ?_⟩
        obtain ⟨⟨a, b, c, d, e, f⟩, ⟨es, ws⟩⟩ := h
        simp only at hh
        obtain ⟨⟨rfl, rfl, rfl, rfl, rfl, rfl, rfl⟩, rfl⟩ := hh
        rfl
    | true =>
      have hne : g.adj.edges ≠ [] := (listTruthy_iff _).1 ha
      rw [hpe]
      simp only [subCol_nil, Bool.false_eq_true, if_false, if_true, Adj.get, bind_ok_iff]
      constructor
      · rintro ⟨a, h1, b, ⟨c, h2, h4⟩, h3⟩
        cases h1; cases h4; cases h3
        exact ⟨⟨rfl, rfl, rfl, rfl, rfl, rfl, Or.inr ⟨hne, h2⟩⟩, rfl⟩
      · intro hh
        obtain ⟨⟨a, b, c, d, e, f⟩, ⟨es, ws⟩⟩ := h
        simp only at hh
        obtain ⟨⟨rfl, rfl, rfl, rfl, rfl, rfl, hs⟩, rfl⟩ := hh
        refine ⟨_, rfl, _, ⟨es, ?_, rfl⟩, rfl⟩
        rcases hs with ⟨h0, -⟩ | ⟨-, hs⟩
        · exact absurd h0 hne
        · exact hs
  | true =>
    cases ha : g.adj.truthy with
    | false =>
      have hae := adj_falsy _ ha
      rw [hae]
      simp only [subCol_nil, Bool.false_eq_true, if_false, if_true, pset_get_ok]
      constructor
      · rintro ⟨a, h1, b, h2, h3⟩
        cases h2; cases h3; simpa using h1
      · intro hh
        obtain ⟨p, ⟨es, ws⟩⟩ := h
        simp only at hh
        obtain ⟨⟨a, b, c, d, e, f, rfl⟩, rfl⟩ := hh
        exact ⟨p, ⟨a, b, c, d, e, f⟩, _, rfl, rfl⟩
    | true =>
      have hne : g.adj.edges ≠ [] := (listTruthy_iff _).1 ha
      simp only [if_true, pset_get_ok, Adj.get, bind_ok_iff]
      constructor
      · rintro ⟨a, ⟨h1, h2, h3, h4, h5, h6⟩, b, ⟨c, h7, h8⟩, h9⟩
        cases h8; cases h9
        exact ⟨⟨h1, h2, h3, h4, h5, h6, Or.inr ⟨hne, h7⟩⟩, rfl⟩
      · rintro ⟨⟨h1, h2, h3, h4, h5, h6, hs⟩, hw⟩
        refine ⟨h.particles, ⟨h1, h2, h3, h4, h5, h6⟩, h.adj, ⟨h.adj.edges, ?_, ?_⟩, rfl⟩
        · rcases hs with ⟨h0, -⟩ | ⟨-, hs⟩
          · exact absurd h0 hne
          · exact hs
        · rw [← hw]; rfl

theorem getCol_mask_error {α : Type} (m : List Bool) (a : List α) (e : PyErr)
    (h : getCol (.mask m) a = .error e) : e = .indexError := by
  unfold getCol at h
  split at h
  · unfold Key.apply Key.resolve at h
    by_cases hl : m.length = a.length <;> simp [hl] at h
    exact h.symm
  · cases h

/-- The exceptions of a chain of steps each of which can only raise `e0`. -/
def OnlyRaises {α : Type} (e0 : PyErr) (x : Py α) : Prop := ∀ e, x = .error e → e = e0

theorem onlyRaises_bind {α β : Type} {e0 : PyErr} {x : Py α} {f : α → Py β}
    (hx : OnlyRaises e0 x) (hf : ∀ a, OnlyRaises e0 (f a)) : OnlyRaises e0 (x >>= f) := by
  intro e he
  cases x with
  | error e' => exact hx e (by simpa [bind, Except.bind] using he)
  | ok a => exact hf a e (by simpa [bind, Except.bind] using he)

theorem onlyRaises_ok {α : Type} (e0 : PyErr) (a : α) : OnlyRaises e0 (.ok a : Py α) := by
  intro e h; cases h

/-- **C25** A mask whose length differs from that of some non-empty attribute raises `IndexError`;
if it fits every non-empty attribute the subscript succeeds. -/
theorem C25_mask_error {M W : Type} (g : Graph M W) (m : List Bool) :
    (¬ Aligned m.length g → g.get (.mask m) = .error .indexError) ∧
    (Aligned m.length g → ∃ h, g.get (.mask m) = .ok h) := by
  constructor
  · intro hna
    have honly : OnlyRaises .indexError (g.get (.mask m)) := by
      have hk : ∀ {α : Type} (a : List α), OnlyRaises .indexError (getCol (.mask m) a) :=
        fun a e h => getCol_mask_error m a e h
      unfold Graph.get keepIf
      apply onlyRaises_bind
      · split
        · unfold PSet.get
          exact onlyRaises_bind (hk _) fun _ => onlyRaises_bind (hk _) fun _ =>
            onlyRaises_bind (hk _) fun _ => onlyRaises_bind (hk _) fun _ =>
            onlyRaises_bind (hk _) fun _ => onlyRaises_bind (hk _) fun _ => onlyRaises_ok _ _
        · exact onlyRaises_ok _ _
      · intro a
        apply onlyRaises_bind
        · split
          · next ht =>
            unfold Adj.get
            refine onlyRaises_bind ?_ fun _ => onlyRaises_ok _ _
            intro e he
            apply getCol_mask_error m g.adj.edges e
            have ht' : listTruthy g.adj.edges = true := ht
            rw [getCol, if_pos ht']; exact he
          · exact onlyRaises_ok _ _
        · intro b; exact onlyRaises_ok _ _
    cases hg : g.get (.mask m) with
    | error e => rw [honly e hg]
    | ok h =>
      exfalso
      apply hna
      have := ((C25_getitem g h _).1 hg).1
      have hcol : ∀ {α : Type} (a b : List α), SubCol (.mask m) a b → a = [] ∨ a.length = m.length := by
        rintro α a b (⟨h0, -⟩ | ⟨-, h1⟩)
        · exact Or.inl h0
        · right
          by_contra hc
          rw [(C20_mask a m).2 (fun e => hc e.symm)] at h1
          cases h1
      obtain ⟨h1, h2, h3, h4, h5, h6, h7⟩ := this
      exact ⟨hcol _ _ h1, hcol _ _ h2, hcol _ _ h3, hcol _ _ h4, hcol _ _ h5, hcol _ _ h6, hcol _ _ h7⟩
  · intro ha
    have hcol : ∀ {α : Type} (a : List α), (a = [] ∨ a.length = m.length) →
        ∃ b, SubCol (.mask m) a b := by
      intro α a h
      by_cases h0 : a = []
      · exact ⟨[], Or.inl ⟨h0, rfl⟩⟩
      · exact ⟨_, Or.inr ⟨h0, (C20_mask a m).1 ((h.resolve_left h0).symm)⟩⟩
    obtain ⟨h1, h2, h3, h4, h5, h6, h7⟩ := ha
    obtain ⟨c1, h1⟩ := hcol _ h1
    obtain ⟨c2, h2⟩ := hcol _ h2
    obtain ⟨c3, h3⟩ := hcol _ h3
    obtain ⟨c4, h4⟩ := hcol _ h4
    obtain ⟨c5, h5⟩ := hcol _ h5
    obtain ⟨c6, h6⟩ := hcol _ h6
    obtain ⟨c7, h7⟩ := hcol _ h7
    exact ⟨⟨⟨c1, c2, c3, c4, c5, c6⟩, ⟨c7, []⟩⟩,
      (C25_getitem _ _ _).2 ⟨⟨h1, h2, h3, h4, h5, h6, h7⟩, rfl⟩⟩

theorem trueIdxs_lt (m : List Bool) (off : Nat) : ∀ j ∈ trueIdxs m off, j < off + m.length := by
  induction m generalizing off with
  | nil => simp [trueIdxs]
  | cons b m ih =>
    intro j hj
    have : j = off ∨ j ∈ trueIdxs m (off + 1) := by
      cases b <;> simp [trueIdxs] at hj <;> tauto
    rcases this with rfl | h
    · simp
    · have := ih (off + 1) j h
      simp only [List.length_cons]; omega

theorem resolve_lt (k : Key) (n : Nat) (js : List Nat) (h : k.resolve n = .ok js) :
    ∀ j ∈ js, j < n := by
  cases k with
  | mask m =>
    unfold Key.resolve at h
    by_cases hl : m.length = n
    · simp only [hl, if_true, Except.ok.injEq] at h
      subst h
      intro j hj
      have := trueIdxs_lt m 0 j hj
      omega
    · simp [hl] at h
  | ints is =>
    simp only [Key.resolve] at h
    obtain ⟨h1, h2⟩ := normIdxs_spec n is
    by_cases hc : ∀ i ∈ is, -(n : Int) ≤ i ∧ i < n
    · obtain ⟨js', h3, h4⟩ := h1 hc
      rw [h] at h3
      cases h3
      intro j hj
      obtain ⟨i, -, hd⟩ := forall₂_mem_right h4 hj
      exact hd.1
    · rw [h2 hc] at h; cases h
  | slice a b c =>
    simp only [Key.resolve] at h
    by_cases h0 : c.getD 1 = 0
    · simp [sliceIdxs, h0] at h
    · rcases lt_or_gt_of_ne h0 with hn | hp
      · rw [sliceIdxs_neg n a b c hn] at h
        injection h with h
        subst h
        intro j hj
        simp only [List.mem_map, List.mem_range, sliceLen_neg _ _ _ hn] at hj
        obtain ⟨q, hq, rfl⟩ := hj
        have h2 : (q : Int) * c.getD 1 ≤ 0 := Int.mul_nonpos_of_nonneg_of_nonpos (by omega) (by omega)
        have hA : (a.map (bound n (-1) (n - 1))).getD (n - 1) ≤ (n : Int) - 1 := by
          cases a with
          | none => simp
          | some b => simp only [Option.map_some, Option.getD_some, bound]; omega
        have hZ : -1 ≤ (b.map (bound n (-1) (n - 1))).getD (-1) := by
          cases b with
          | none => simp
          | some b => simp [bound]
        omega
      · rw [sliceIdxs_pos n a b c hp] at h
        injection h with h
        subst h
        intro j hj
        simp only [List.mem_map, List.mem_range, sliceLen_pos _ _ _ hp] at hj
        obtain ⟨q, hq, rfl⟩ := hj
        have h2 : 0 ≤ (q : Int) * c.getD 1 := Int.mul_nonneg (by omega) (by omega)
        have hA : 0 ≤ (a.map (bound n 0 n)).getD 0 := by
          cases a with
          | none => simp
          | some b => simp [bound]
        have hZ : (b.map (bound n 0 n)).getD n ≤ (n : Int) := by
          cases b with
          | none => simp
          | some b => simp only [Option.map_some, Option.getD_some, bound]; omega
        omega

theorem gather_map_some {α : Type} (a : List α) (js : List Nat) (h : ∀ j ∈ js, j < a.length) :
    (gather a js).map some = js.map (fun j => a[j]?) := by
  induction js with
  | nil => rfl
  | cons j js ih =>
    have hj := h j (by simp)
    unfold gather at *
    rw [List.filterMap_cons, List.getElem?_eq_getElem hj]
    simp [ih (fun j' hj' => h j' (by simp [hj'])), List.getElem?_eq_getElem hj]

/-- **C25** Record `k` of the result is one and the same record of the original in every attribute:
one list of positions serves all non-empty attributes. -/
theorem C25_aligned {M W : Type} (n : Nat) (g h : Graph M W) (k : Key) (ha : Aligned n g)
    (hg : g.get k = .ok h) (hne : g.truthy = true) :
    ∃ js : List Nat, (∀ j ∈ js, j < n) ∧ EachCol2 (Picked js) g h := by
  have hsub := ((C25_getitem g h k).1 hg).1
  -- the positions resolved for length `n`
  have hex : ∃ js, k.resolve n = .ok js := by
    have hcol : ∀ {α : Type} (a b : List α), (a = [] ∨ a.length = n) → SubCol k a b → a ≠ [] →
        ∃ js, k.resolve n = .ok js := by
      intro α a b h1 h2 h3
      have hl := h1.resolve_left h3
      rcases h2 with ⟨h0, -⟩ | ⟨-, h4⟩
      · exact absurd h0 h3
      · unfold Key.apply at h4
        rw [hl] at h4
        cases hr : k.resolve n with
        | ok js => exact ⟨js, rfl⟩
        | error e => rw [hr] at h4; cases h4
    have hor : g.particles.pdg ≠ [] ∨ g.particles.pmu ≠ [] ∨ g.particles.color ≠ [] ∨
        g.particles.helicity ≠ [] ∨ g.particles.status ≠ [] ∨ g.particles.final ≠ [] ∨
        g.adj.edges ≠ [] := by
      by_contra hc
      simp only [not_or, not_not] at hc
      obtain ⟨c1, c2, c3, c4, c5, c6, c7⟩ := hc
      simp [Graph.truthy, PSet.truthy, Adj.truthy, listTruthy, c1, c2, c3, c4, c5, c6, c7] at hne
    obtain ⟨a1, a2, a3, a4, a5, a6, a7⟩ := ha
    obtain ⟨s1, s2, s3, s4, s5, s6, s7⟩ := hsub
    rcases hor with c | c | c | c | c | c | c
    · exact hcol _ _ a1 s1 c
    · exact hcol _ _ a2 s2 c
    · exact hcol _ _ a3 s3 c
    · exact hcol _ _ a4 s4 c
    · exact hcol _ _ a5 s5 c
    · exact hcol _ _ a6 s6 c
    · exact hcol _ _ a7 s7 c
  obtain ⟨js, hjs⟩ := hex
  have hlt := resolve_lt k n js hjs
  refine ⟨js, hlt, ?_⟩
  have hcol : ∀ {α : Type} (a b : List α), (a = [] ∨ a.length = n) → SubCol k a b → Picked js a b := by
    intro α a b h1 h2
    rcases h2 with ⟨h0, h3⟩ | ⟨h0, h4⟩
    · exact ⟨fun _ => h3, fun h => absurd h0 h⟩
    · refine ⟨fun h => absurd h h0, fun _ => ?_⟩
      have hl := h1.resolve_left h0
      unfold Key.apply at h4
      rw [hl, hjs] at h4
      injection h4 with h4
      rw [← h4]
      exact gather_map_some a js (by rw [hl]; exact hlt)
  obtain ⟨a1, a2, a3, a4, a5, a6, a7⟩ := ha
  obtain ⟨s1, s2, s3, s4, s5, s6, s7⟩ := hsub
  exact ⟨hcol _ _ a1 s1, hcol _ _ a2 s2, hcol _ _ a3 s3, hcol _ _ a4 s4, hcol _ _ a5 s5,
    hcol _ _ a6 s6, hcol _ _ a7 s7⟩

/-- A small event used to show that hypotheses can be met: pdg, final and edges are given. -/
def exGraph : Graph Nat Nat :=
  { particles := { pdg := [21, 1, -1], final := [false, true, true] }
    adj := { edges := [(1, 2), (2, 3), (2, 4)], weights := [7, 8, 9] } }

example : Aligned 3 exGraph := by simp [Aligned, EachCol, exGraph]
example : exGraph.truthy = true := by decide
example : (exGraph.get (.mask [true, false, true])).toOption.map
    (fun h => (h.particles.pdg, h.particles.pmu, h.particles.final, h.adj.edges)) =
    some ([21, -1], [], [false, true], [(1, 2), (2, 4)]) := by decide
example : ¬ Aligned 2 exGraph := by simp [Aligned, EachCol, exGraph]

/-! ## C26 -/

theorem firstPositive_spec (lens : List Nat) (n : Nat) (hn : 0 < n) :
    firstPositive lens = n ↔ ∃ pre suf, lens = pre ++ n :: suf ∧ ∀ x ∈ pre, x = 0 := by
  induction lens with
  | nil => simp [firstPositive]; omega
  | cons l ls ih =>
    by_cases hl : 0 < l
    · have : firstPositive (l :: ls) = l := by simp [firstPositive, hl]
      rw [this]
      constructor
      · rintro rfl; exact ⟨[], ls, rfl, by simp⟩
      · rintro ⟨pre, suf, h1, h2⟩
        cases pre with
        | nil => simp at h1; exact h1.1
        | cons p pre =>
          simp only [List.cons_append, List.cons.injEq] at h1
          have := h2 p (by simp); omega
    · have : firstPositive (l :: ls) = firstPositive ls := by simp [firstPositive, hl]
      rw [this, ih]
      constructor
      · rintro ⟨pre, suf, rfl, h2⟩
        refine ⟨l :: pre, suf, rfl, ?_⟩
        intro x hx
        rcases List.mem_cons.1 hx with rfl | hx
        · omega
        · exact h2 x hx
      · rintro ⟨pre, suf, h1, h2⟩
        cases pre with
        | nil => simp at h1; omega
        | cons p pre =>
          simp only [List.cons_append, List.cons.injEq] at h1
          exact ⟨pre, suf, h1.2, fun x hx => h2 x (by simp [hx])⟩

theorem firstPositive_zero (lens : List Nat) : firstPositive lens = 0 ↔ ∀ x ∈ lens, x = 0 := by
  induction lens with
  | nil => simp [firstPositive]
  | cons l ls ih =>
    by_cases hl : 0 < l
    · have : firstPositive (l :: ls) = l := by simp [firstPositive, hl]
      rw [this]; simp; omega
    · have : firstPositive (l :: ls) = firstPositive ls := by simp [firstPositive, hl]
      rw [this, ih]; simp; omega

theorem firstPositive_append (a b : List Nat) :
    firstPositive (a ++ b) = firstPositive (firstPositive a :: b) := by
  induction a with
  | nil => simp [firstPositive]
  | cons x a ih =>
    by_cases hx : 0 < x
    · simp [firstPositive, hx]
    · have : ∀ l, firstPositive (x :: l) = firstPositive l := by
        intro l; simp [firstPositive, hx]
      rw [List.cons_append, this, this, ih]

theorem graph_len_eq {M W : Type} (g : Graph M W) : g.len = firstPositive (colLengths g) := by
  unfold Graph.len PSet.len
  rw [← firstPositive_append]; rfl

/-- **C26** `len(graph)` is the length of its first non-empty attribute. -/
theorem C26_len_first {M W : Type} (g : Graph M W) (n : Nat) (hn : 0 < n) :
    g.len = n ↔ ∃ pre suf, colLengths g = pre ++ n :: suf ∧ ∀ x ∈ pre, x = 0 := by
  rw [graph_len_eq]; exact firstPositive_spec _ _ hn

/-- **C26** `len(graph)` is zero exactly when every attribute is empty, which is exactly when the
graph is falsy. -/
theorem C26_empty {M W : Type} (g : Graph M W) :
    (g.len = 0 ↔ EachCol (fun a => a = []) g) ∧ (g.truthy = false ↔ EachCol (fun a => a = []) g) := by
  constructor
  · rw [graph_len_eq, firstPositive_zero]
    simp [colLengths, EachCol]
  · simp only [Graph.truthy, PSet.truthy, Adj.truthy, List.any_cons, List.any_nil, Bool.or_false,
      id_eq, Bool.or_eq_false_iff, listTruthy_false, EachCol]
    tauto

/-- **C26** With all non-empty attributes of `n` records, the length of a non-empty event is `n`. -/
theorem C26_aligned {M W : Type} (g : Graph M W) (n : Nat) (ha : Aligned n g)
    (hne : g.truthy = true) : g.len = n := by
  have hl : ∀ x ∈ colLengths g, x = 0 ∨ x = n := by
    obtain ⟨a1, a2, a3, a4, a5, a6, a7⟩ := ha
    intro x hx
    simp only [colLengths, List.mem_cons, List.not_mem_nil, or_false] at hx
    have hc : ∀ {α : Type} (a : List α), (a = [] ∨ a.length = n) → a.length = 0 ∨ a.length = n := by
      rintro α a (rfl | h)
      · simp
      · exact Or.inr h
    rcases hx with rfl | rfl | rfl | rfl | rfl | rfl | rfl
    · exact hc _ a1
    · exact hc _ a2
    · exact hc _ a3
    · exact hc _ a4
    · exact hc _ a5
    · exact hc _ a6
    · exact hc _ a7
  rcases Nat.eq_zero_or_pos g.len with h0 | hp
  · have := ((C26_empty g).1.1 h0)
    rw [(C26_empty g).2.2 this] at hne; cases hne
  · obtain ⟨pre, suf, h1, -⟩ := (C26_len_first g g.len hp).1 rfl
    have := hl g.len (by rw [h1]; simp)
    omega

/-- **C26** Subscripting with a mask leaves as many records as the mask has `True` values. -/
theorem C26_masked_len {M W : Type} (g h : Graph M W) (m : List Bool) (hne : g.truthy = true)
    (hg : g.get (.mask m) = .ok h) : h.len = m.count true := by
  have ha : Aligned m.length g := by
    by_contra hc
    rw [(C25_mask_error g m).1 hc] at hg; cases hg
  have hsub := ((C25_getitem g h _).1 hg).1
  set c := m.count true
  have hcol : ∀ {α : Type} (a b : List α), SubCol (.mask m) a b →
      (a = [] ∨ a.length = m.length) → (b = [] ∨ b.length = c) ∧ (a ≠ [] → b.length = c) := by
    intro α a b hs hal
    rcases hs with ⟨h0, h1⟩ | ⟨h0, h1⟩
    · exact ⟨Or.inl h1, fun h => absurd h0 h⟩
    · have hl := hal.resolve_left h0
      rw [(C20_mask a m).1 hl.symm] at h1
      injection h1 with h1
      have := C20_mask_length a m hl.symm
      rw [h1] at this
      exact ⟨Or.inr this, fun _ => this⟩
  have hah : Aligned c h := by
    obtain ⟨a1, a2, a3, a4, a5, a6, a7⟩ := ha
    obtain ⟨s1, s2, s3, s4, s5, s6, s7⟩ := hsub
    exact ⟨(hcol _ _ s1 a1).1, (hcol _ _ s2 a2).1, (hcol _ _ s3 a3).1, (hcol _ _ s4 a4).1,
      (hcol _ _ s5 a5).1, (hcol _ _ s6 a6).1, (hcol _ _ s7 a7).1⟩
  cases ht : h.truthy with
  | true => exact C26_aligned h c hah ht
  | false =>
    have hz := (C26_empty h).2.1 ht
    rw [(C26_empty h).1.2 hz]
    by_contra hc
    have hcn : c ≠ 0 := fun e => hc e.symm
    have : g.truthy = false := by
      rw [(C26_empty g).2]
      obtain ⟨a1, a2, a3, a4, a5, a6, a7⟩ := ha
      obtain ⟨s1, s2, s3, s4, s5, s6, s7⟩ := hsub
      obtain ⟨z1, z2, z3, z4, z5, z6, z7⟩ := hz
      have hk : ∀ {α : Type} (a b : List α), SubCol (.mask m) a b →
          (a = [] ∨ a.length = m.length) → b = [] → a = [] := by
        intro α a b hs hal hb
        by_contra h0
        have := (hcol a b hs hal).2 h0
        rw [hb] at this
        exact hcn this.symm
      exact ⟨hk _ _ s1 a1 z1, hk _ _ s2 a2 z2, hk _ _ s3 a3 z3, hk _ _ s4 a4 z4, hk _ _ s5 a5 z5,
        hk _ _ s6 a6 z6, hk _ _ s7 a7 z7⟩
    rw [this] at hne; cases hne

/-! ## C27 -/

theorem copyCol_eq {α : Type} (a : List α) : copyCol a = a := by
  cases a <;> rfl

/-- **C27** A copied event has the same particles and edges, and no edge weights. -/
theorem C27_copy {M W : Type} (g : Graph M W) :
    EachCol2 (fun a b => b = a) g g.copy ∧ g.copy.adj.weights = [] := by
  have hp : (if g.particles.truthy then g.particles.copy else {}) = g.particles := by
    cases h : g.particles.truthy with
    | true => simp [PSet.copy, copyCol_eq]
    | false => simp [pset_falsy _ h]
  have ha : (if g.adj.truthy then g.adj.copy else {}) = { edges := g.adj.edges } := by
    cases h : g.adj.truthy with
    | true => simp [Adj.copy]
    | false => simp [adj_falsy _ h]
  unfold Graph.copy
  rw [hp, ha]
  exact ⟨⟨rfl, rfl, rfl, rfl, rfl, rfl, rfl⟩, rfl⟩

/-- **C27** Copying a particle set keeps every attribute, copying an adjacency list the edges but not the weights. -/
theorem C27_parts {M W : Type} (p : PSet M) (a : Adj W) :
    p.copy = p ∧ a.copy.edges = a.edges ∧ a.copy.weights = [] := by
  simp [PSet.copy, copyCol_eq, Adj.copy]

/-- **C27** The expectation that a copy keeps the weights is refuted: `copy()` and subscripts lose them. -/
theorem C27_false : ∃ (g : Graph Nat Nat), g.adj.weights ≠ [] ∧ g.copy.adj.weights = [] ∧
    g.adj.copy.weights = [] ∧
    ∀ h, g.get (.mask [true, true, true]) = .ok h → h.adj.weights = [] :=
  ⟨exGraph, by decide, by decide, by decide, fun h hh => ((C25_getitem _ _ _).1 hh).2⟩

/-! ## C28 -/

/-- **C28** The expectation that `==` compares contents is refuted: two different particle sets compare equal, and a particle set with
an empty attribute compares unequal to an equal one. -/
theorem C28_false : (∃ p q : PSet Nat, p ≠ q ∧ p.eqTruth q = .ok true) ∧
    (∃ p : PSet Nat, p.eqTruth p.copy = .ok false ∧ p.copy = p) := by
  constructor
  · exact ⟨⟨[1], [1], [(0, 0)], [0], [1], [true]⟩, ⟨[2], [9], [(5, 0)], [1], [3], [false]⟩,
      by simp, by decide⟩
  · exact ⟨{ pdg := [1, 2] }, by decide, rfl⟩

theorem pyAnd_true (a b : Py Bool) : pyAnd a b = .ok true ↔ a = .ok true ∧ b = .ok true := by
  unfold pyAnd
  split
  · simp
  · next h => constructor
              · intro e; exact absurd e h
              · intro e; exact absurd e.1 h

theorem pyAnd_cases {P : Type} (outcome : P → Py Bool) (bad good : P → Prop)
    (hg : ∀ x, outcome x = .ok true ↔ good x) (hb : ∀ x e, outcome x = .error e ↔ e = .valueError ∧ bad x)
    (l : List P) :
    (l.foldr (fun x r => pyAnd (outcome x) r) (.ok true) = .ok true ↔ ∀ x ∈ l, good x) ∧
    ∀ e, l.foldr (fun x r => pyAnd (outcome x) r) (.ok true) = .error e ↔
      e = .valueError ∧ ∃ (k : Nat) (x : P), l[k]? = some x ∧ bad x ∧ ∀ (j : Nat) (y : P), j < k → l[j]? = some y → good y := by
  induction l with
  | nil => simp
  | cons x l ih =>
    simp only [List.foldr_cons]
    refine ⟨by rw [pyAnd_true, hg, ih.1, List.forall_mem_cons], fun e => ?_⟩
    have hgb : good x → ¬ bad x := fun h1 h2 => by
      have h3 := (hg x).2 h1
      rw [(hb x _).2 ⟨rfl, h2⟩] at h3
      cases h3
    by_cases hx : good x
    · have : pyAnd (outcome x) (l.foldr (fun x r => pyAnd (outcome x) r) (.ok true)) =
          l.foldr (fun x r => pyAnd (outcome x) r) (.ok true) := by rw [(hg x).2 hx]; rfl
      rw [this, ih.2 e]
      refine and_congr_right fun _ => ⟨?_, ?_⟩
      · rintro ⟨k, y, h1, h2, h3⟩
        refine ⟨k + 1, y, by simpa using h1, h2, fun j z hj hz => ?_⟩
        cases j with
        | zero => simp only [List.getElem?_cons_zero, Option.some.injEq] at hz; rwa [← hz]
        | succ j => exact h3 j z (by omega) (by simpa using hz)
      · rintro ⟨k, y, h1, h2, h3⟩
        cases k with
        | zero =>
          simp only [List.getElem?_cons_zero, Option.some.injEq] at h1
          exact absurd (h1 ▸ h2) (hgb hx)
        | succ k => exact ⟨k, y, by simpa using h1, h2, fun j z hj hz => h3 (j + 1) z (by omega) (by simpa using hz)⟩
    · have : pyAnd (outcome x) (l.foldr (fun x r => pyAnd (outcome x) r) (.ok true)) = outcome x := by
        unfold pyAnd
        split
        · next h => exact absurd ((hg x).1 h) hx
        · rfl
      rw [this, hb x e]
      refine and_congr_right fun _ => ⟨?_, ?_⟩
      · intro h; exact ⟨0, x, rfl, h, fun j _ hj => absurd hj (by omega)⟩
      · rintro ⟨k, y, h1, h2, h3⟩
        cases k with
        | zero => simp only [List.getElem?_cons_zero, Option.some.injEq] at h1; exact h1 ▸ h2
        | succ k => exact absurd (h3 0 x (by omega) rfl) hx

/-- **C28** What `==` on two particle sets decides, for all sets: it is truthy exactly when all attributes of both are
filled and have comparable numbers of records; it raises `ValueError` exactly when an attribute with a mismatch is met
before one that is empty; and it is falsy otherwise. -/
theorem C28_decides {M : Type} (p q : PSet M) :
    (p.eqTruth q = .ok true ↔ ∀ s ∈ sizes p q, BothFilled s) ∧
    (∀ e, p.eqTruth q = .error e ↔ e = .valueError ∧ ∃ (k : Nat) (s : Bool × Nat × Nat),
      (sizes p q)[k]? = some s ∧ Mismatch s ∧
        ∀ (j : Nat) (t : Bool × Nat × Nat), j < k → (sizes p q)[j]? = some t → BothFilled t) := by
  let outcome : Bool × Nat × Nat → Py Bool := fun s =>
    if s.1 then attrEqTruth (List.replicate s.2.1 ()) (List.replicate s.2.2 ())
    else maskEqTruth (List.replicate s.2.1 true) (List.replicate s.2.2 true)
  have hrepl : ∀ {α : Type} (x y : List α),
      attrEqTruth x y = outcome (true, x.length, y.length) := by
    intro α x y; simp [outcome, attrEqTruth]
  have hmask : ∀ (x y : List Bool), maskEqTruth x y = outcome (false, x.length, y.length) := by
    intro x y; simp [outcome, maskEqTruth]
  have heq : p.eqTruth q = (sizes p q).foldr (fun x r => pyAnd (outcome x) r) (.ok true) := by
    have : ∀ a : Py Bool, pyAnd a (.ok true) = a := by
      intro a; unfold pyAnd; split <;> simp_all
    simp only [PSet.eqTruth, hrepl, hmask, sizes, List.foldr_cons, List.foldr_nil, this]
  rw [heq]
  refine pyAnd_cases outcome Mismatch BothFilled ?_ ?_ _
  · rintro ⟨b, m, n⟩
    cases b
    · simp only [outcome, maskEqTruth, BothFilled, Mismatch, List.length_replicate, Bool.false_eq_true, if_false]
      split
      · next h => subst h; simp
      · next h => simp [h]
    · simp only [outcome, attrEqTruth, BothFilled, Mismatch, List.length_replicate, if_true]
      split_ifs <;> simp <;> omega
  · rintro ⟨b, m, n⟩ e
    cases b
    · simp only [outcome, maskEqTruth, Mismatch, List.length_replicate, Bool.false_eq_true, if_false]
      split
      · next h => subst h; simp
      · next h => simp [h, eq_comm]
    · simp only [outcome, attrEqTruth, Mismatch, List.length_replicate, if_true]
      split_ifs with h1 h2 h3
      · simp [h1]
      · simp [h2]
      · simp [h3]
      · simp [h1, h2, h3, eq_comm]

/-- **C28** In particular the result never depends on what the attributes contain, and a set all of whose attributes are
filled compares equal to any other of the same sizes. -/
theorem C28_contents {M : Type} (p q : PSet M) :
    (∀ p' q' : PSet M, sizes p' q' = sizes p q → p'.eqTruth q' = p.eqTruth q) ∧
    (∀ s ∈ sizes p p, s.2.1 = s.2.2) ∧
    (sizes p q = sizes p p → (p.eqTruth q = .ok true ↔ ∀ s ∈ sizes p p, s.2.1 ≠ 0)) := by
  refine ⟨fun p' q' h => ?_, by simp [sizes], fun h => ?_⟩
  · have a := C28_decides p q
    have b := C28_decides p' q'
    rw [h] at b
    cases h1 : p'.eqTruth q' with
    | error e => rw [eq_comm, a.2 e, ← b.2 e, h1]
    | ok t =>
      cases h2 : p.eqTruth q with
      | error e => rw [(b.2 e).2 ((a.2 e).1 h2)] at h1; cases h1
      | ok u =>
        cases t <;> cases u <;> try rfl
        · rw [b.1.2 (a.1.1 h2)] at h1; cases h1
        · rw [a.1.2 (b.1.1 h1)] at h2; cases h2
  · rw [(C28_decides p q).1, h]
    simp [sizes, BothFilled, Mismatch]

/-! ## C29, C30 -/

theorem rewriteStatus_map (st : List Int) : rewriteStatus lheStatusMap st = st.map lheStatus := by
  simp only [rewriteStatus, lheStatusMap, List.foldl_cons, List.foldl_nil, List.map_map]
  apply List.map_congr_left
  intro x _
  simp only [Function.comp, lheStatus]
  split_ifs <;> simp_all

/-- **C29** Each status is translated by the documented table, independently of the others; `final`
is all `False` with one entry per particle; the other attributes are taken over. -/
theorem C29_translate {M : Type} (e : LheEvent M) (n : Nat)
    (hn : e.pdg.length = n) (hm : e.pmu.length = n) (hc : e.color.length = n)
    (hh : e.helicity.length = n) (hs : e.status.length = n) :
    (fromLhe e).status = e.status.map lheStatus ∧
    (fromLhe e).final = List.replicate n false ∧
    (fromLhe e).pdg = e.pdg ∧ (fromLhe e).pmu = e.pmu ∧ (fromLhe e).color = e.color ∧
    (fromLhe e).helicity = e.helicity := by
  refine ⟨rewriteStatus_map _, ?_, rfl, rfl, rfl, rfl⟩
  show List.replicate _ false = _
  congr 1
  simp only [PSet.len, hn, hm, hc, hh, hs]
  unfold firstPositive
  by_cases h : 0 < n
  · simp [h]
  · have : n = 0 := by omega
    subst this; simp

/-- **C29** The order of the rewrites is irrelevant: any permutation of the table gives the same
statuses (no rewritten code is itself a key). -/
theorem C29_order_irrelevant (m : List (Int × Int)) (hm : m.Perm lheStatusMap) (st : List Int) :
    rewriteStatus m st = st.map lheStatus := by
  rw [← rewriteStatus_map]
  -- rewriting is a function of single entries and the single rewrites commute
  have hgen : ∀ (m : List (Int × Int)), rewriteStatus m st =
      st.map (fun x => m.foldl (fun y p => if y = p.1 then p.2 else y) x) := by
    intro m
    unfold rewriteStatus
    induction m generalizing st with
    | nil => simp
    | cons p m ih => simp [ih, Function.comp_def]
  rw [hgen, hgen]
  apply List.map_congr_left
  intro x _
  apply hm.foldl_eq'
  intro a ha b hb z
  have ha := hm.mem_iff.1 ha
  have hb := hm.mem_iff.1 hb
  simp only [lheStatusMap, List.mem_cons, List.not_mem_nil, or_false] at ha hb
  rcases ha with rfl | rfl | rfl | rfl | rfl | rfl <;>
  rcases hb with rfl | rfl | rfl | rfl | rfl | rfl <;>
  simp only [] <;> split_ifs <;> simp_all

example : (fromLhe (⟨[21, 6, 1], [0, 0, 0], [(1, 2), (1, 0), (0, 0)], [1, 1, 9], [-1, 2, 1]⟩ :
    LheEvent Nat)).status = [-21, -22, -23] := by decide

/-- **C30** The expectation that the event is left alone is refuted: an int16 status array is rewritten in place. -/
theorem C30_false : ∃ (mem : List LheBuf) (sid : Nat), sid < mem.length ∧
    (fromLheMem mem sid).1[sid]? ≠ mem[sid]? :=
  ⟨[⟨false, [21, 6]⟩, ⟨true, [-1, 1]⟩], 1, by decide, by decide⟩

/-- **C30** The complete effect on the caller's arrays: a status array of another dtype than int16, and every other
array in all cases, is left alone; an int16 status array is overwritten with the translated statuses (so it keeps its
values exactly when no status is translated) and shared with the new particle set; the new particle set shows the
translated statuses. -/
theorem C30_frame (mem : List LheBuf) (sid : Nat) (b : LheBuf) (hb : mem[sid]? = some b) :
    (b.isI2 = false → (∀ i, i < mem.length → (fromLheMem mem sid).1[i]? = mem[i]?) ∧
      mem.length ≤ (fromLheMem mem sid).2) ∧
    (b.isI2 = true → (fromLheMem mem sid).1[sid]? = some ⟨true, b.vals.map lheStatus⟩ ∧
      (fromLheMem mem sid).2 = sid) ∧
    (∀ i, i < mem.length → i ≠ sid → (fromLheMem mem sid).1[i]? = mem[i]?) ∧
    ((fromLheMem mem sid).1[(fromLheMem mem sid).2]?).map (·.vals) = some (b.vals.map lheStatus) := by
  have hlt : sid < mem.length := by
    by_contra h
    rw [List.getElem?_eq_none (by omega)] at hb; cases hb
  unfold fromLheMem
  rw [hb]
  cases hd : b.isI2 with
  | false =>
    simp only [Option.getD_some, hd, Bool.false_eq_true, if_false]
    refine ⟨?_, fun h => absurd h (by simp), ?_, ?_⟩
    · refine fun _ => ⟨fun i hi => ?_, le_refl _⟩
      rw [List.getElem?_set_ne (by omega), List.getElem?_append_left hi]
    · intro i hi _
      rw [List.getElem?_set_ne (by omega), List.getElem?_append_left hi]
    · simp [rewriteStatus_map]
  | true =>
    simp only [Option.getD_some, hd, if_true]
    have : mem[sid] = b := by rw [List.getElem?_eq_getElem hlt] at hb; exact Option.some.inj hb
    refine ⟨fun h => absurd h (by simp), fun _ => ?_, ?_, ?_⟩
    · simp [hlt, rewriteStatus_map, this]
    · intro i hi hne
      rw [List.getElem?_set_ne (Ne.symm hne)]
    · simp [hlt, rewriteStatus_map, this]

/-! ## C31 -/

/-- **C31** `from_numpy` puts each array into the attribute of the same name; arrays not given are
empty; weights are kept when edges are given. -/
theorem C31_from_numpy {M W : Type} (a : NumpyArgs M W) :
    (graphFromNumpy a).particles = ⟨a.pdg.getD [], a.pmu.getD [], a.color.getD [],
      a.helicity.getD [], a.status.getD [], a.final.getD []⟩ ∧
    (graphFromNumpy a).adj.edges = a.edges.getD [] ∧
    (a.edges.isSome → (graphFromNumpy a).adj.weights = a.weights.getD []) := by
  refine ⟨rfl, ?_, ?_⟩
  · cases h : a.edges <;> simp [graphFromNumpy, h]
  · cases h : a.edges <;> simp [graphFromNumpy, h]

/-- **C31** `from_event` takes every attribute the event offers and leaves the rest empty; `final`
falls back to `masks["final"]`, and only a `masks` lacking it (with no `final`) raises `KeyError`. -/
theorem C31_from_event {M W : Type} (e : EventObj M) :
    ((e.final = none ∧ e.masks = some none) → (fromEvent e : Py (Graph M W)) = .error .keyError) ∧
    (¬ (e.final = none ∧ e.masks = some none) →
      ∃ g : Graph M W, fromEvent e = .ok g ∧
        g.particles.pdg = e.pdg.getD [] ∧ g.particles.pmu = e.pmu.getD [] ∧
        g.particles.color = e.color.getD [] ∧ g.particles.helicity = e.helicity.getD [] ∧
        g.particles.status = e.status.getD [] ∧ g.adj.edges = e.edges.getD [] ∧
        g.adj.weights = [] ∧
        (∀ f, e.final = some f → g.particles.final = f) ∧
        (∀ f, e.final = none → e.masks = some (some f) → g.particles.final = f) ∧
        (e.final = none → e.masks = none → g.particles.final = [])) := by
  constructor
  · rintro ⟨h1, h2⟩; simp [fromEvent, h1, h2]
  · intro h
    have hw : ∀ a : NumpyArgs M W, a.weights = none →
        (graphFromNumpy a).adj.edges = a.edges.getD [] ∧ (graphFromNumpy a).adj.weights = [] := by
      intro a ha
      cases h : a.edges <;> simp [graphFromNumpy, h, ha]
    cases hf : e.final with
    | some f =>
      refine ⟨_, by simp [fromEvent, hf]; rfl, rfl, rfl, rfl, rfl, rfl, (hw _ rfl).1, (hw _ rfl).2, ?_⟩
      simp [graphFromNumpy, psetFromNumpy]
    | none =>
      cases hm : e.masks with
      | none =>
        refine ⟨_, by simp [fromEvent, hf, hm]; rfl, rfl, rfl, rfl, rfl, rfl, (hw _ rfl).1, (hw _ rfl).2, ?_⟩
        simp [graphFromNumpy, psetFromNumpy]
      | some o =>
        cases o with
        | none => exact absurd ⟨hf, hm⟩ h
        | some f =>
          refine ⟨_, by simp [fromEvent, hf, hm]; rfl, rfl, rfl, rfl, rfl, rfl, (hw _ rfl).1, (hw _ rfl).2, ?_⟩
          simp [graphFromNumpy, psetFromNumpy]

/-! ## C32 -/

/-- **C32** Restoring a serialized event gives back every attribute (weights excepted). -/
theorem C32_graph {M W : Type} (g : Graph M W) :
    EachCol2 (fun a b => b = a) g (graphFromNumpy (W := W)
      { pdg := some g.serialize.pdg, pmu := some g.serialize.pmu, color := some g.serialize.color,
        helicity := some g.serialize.helicity, status := some g.serialize.status,
        final := some g.serialize.final, edges := some g.serialize.adj }) :=
  ⟨rfl, rfl, rfl, rfl, rfl, rfl, rfl⟩

/-- **C32** For each array class, constructing an array from the tuple of its records gives an array
with the same records. -/
theorem C32_arrays {α : Type} (k : Kind) (n : Nat) (a : Nd α) (h : Stored k n a) :
    ∃ b, construct k (asarrayTuples k.cols (records k a)) = .ok b ∧ records k b = records k a := by
  have hrec : IsRows k.cols n a.flat (records k a) := by
    have : a.flat.length / k.cols = n := by rw [h.2]; cases k <;> simp [Kind.cols]
    unfold records
    rw [this]
    exact chunks_spec _ _ _ h.2
  have hall : ∀ r ∈ records k a, r.length = k.cols := by
    intro r hr
    obtain ⟨i, hi, rfl⟩ := List.getElem_of_mem hr
    obtain ⟨h1, h2⟩ := hrec.2 i (by rw [← hrec.1]; exact hi)
    rw [List.getElem?_eq_getElem hi] at h1
    injection h1 with h1
    rw [h1]; exact h2
  generalize records k a = rs at hall
  unfold asarrayTuples
  cases rs with
  | nil =>
    rw [if_pos (by simp)]
    cases k with
    | scalar => exact ⟨⟨[0], []⟩, rfl, by simp [records, chunks]⟩
    | momentum => exact ⟨⟨[0, 4], []⟩, by simp [construct, convertNd, isFlat, Kind.cols], by simp [records, chunks]⟩
    | color => exact ⟨⟨[0], []⟩, rfl, by simp [records, chunks]⟩
    | edges => exact ⟨⟨[0], []⟩, rfl, by simp [records, chunks]⟩
  | cons r rs =>
    obtain ⟨hc, hl⟩ := chunks_flatten k.cols (r :: rs) hall
    have hr : ∀ s : List Nat, records k (⟨s, (r :: rs).flatten⟩ : Nd α) = r :: rs := by
      intro s
      unfold records
      simp only [hl]
      have : (r :: rs).length * k.cols / k.cols = (r :: rs).length := by cases k <;> simp [Kind.cols]
      rw [this]; exact hc
    rw [if_neg (by simp)]
    cases k with
    | scalar => exact ⟨⟨[(r :: rs).flatten.length], _⟩, by simp [construct, convertNd, isFlat, Kind.cols], hr _⟩
    | momentum => exact ⟨⟨[(r :: rs).flatten.length / 4, 4], _⟩, by simp [construct, convertNd, isFlat, Kind.cols], hr _⟩
    | color => exact ⟨⟨[(r :: rs).length, 2], _⟩, by simp [construct, convertNd, isFlat, Kind.cols], hr _⟩
    | edges => exact ⟨⟨[(r :: rs).length, 2], _⟩, by simp [construct, convertNd, isFlat, Kind.cols], hr _⟩

end Gcl
