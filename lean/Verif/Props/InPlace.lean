import Verif.Spec.InPlace
import Verif.Props.Buffer
/-! # Property C130: operators in place -/
namespace Gcl
set_option autoImplicit false
open Spec

variable {α : Type}

/-! ## Cells -/

theorem placed_read {m : List (List α)} {a : ArrRef} (h : Placed m a) (k : Nat) :
    (readArr m a)[k]? = a.pos[k]?.bind (cell m a.buf) := by
  obtain ⟨⟨xs, h1, h2⟩, _⟩ := h
  have : m.getD a.buf [] = xs := by simp [List.getD_eq_getElem?_getD, h1]
  rw [readArr, this, gather_getElem?_buf xs _ h2]
  congr 1
  funext q
  simp [cell, h1]

theorem placed_length {m : List (List α)} {a : ArrRef} (h : Placed m a) : (readArr m a).length = a.pos.length := by
  obtain ⟨⟨xs, h1, h2⟩, _⟩ := h
  have : m.getD a.buf [] = xs := by simp [List.getD_eq_getElem?_getD, h1]
  rw [readArr, this, gather_length_buf xs a.pos h2]

theorem writeEach_length (xs : List α) (ps : List (Nat × α)) : (writeEach xs ps).length = xs.length := by
  induction ps generalizing xs with
  | nil => rfl
  | cons p ps ih => simp [writeEach, ih]

theorem writeEach_other (xs : List α) (ps : List (Nat × α)) (q : Nat) (h : ∀ v, (q, v) ∉ ps) :
    (writeEach xs ps)[q]? = xs[q]? := by
  induction ps generalizing xs with
  | nil => rfl
  | cons p ps ih =>
    obtain ⟨p, v⟩ := p
    rw [writeEach, ih _ (fun w hw => h w (by simp [hw]))]
    have : p ≠ q := fun e => h v (by simp [e])
    simp [this]

theorem writeEach_get (xs : List α) (ps : List Nat) (vs : List α) (hn : ps.Nodup) (hp : ∀ p ∈ ps, p < xs.length)
    (j p : Nat) (hj : ps[j]? = some p) (hl : vs.length = ps.length) : (writeEach xs (ps.zip vs))[p]? = vs[j]? := by
  induction ps generalizing xs vs j with
  | nil => simp at hj
  | cons q ps ih =>
    cases vs with
    | nil => simp at hl
    | cons v vs =>
      rw [List.zip_cons_cons, writeEach]
      have hq : q ∉ ps := (List.nodup_cons.1 hn).1
      cases j with
      | zero =>
        simp only [List.getElem?_cons_zero, Option.some.injEq] at hj ⊢
        subst hj
        rw [writeEach_other _ _ _ (fun w hw => hq (List.of_mem_zip hw).1)]
        simp [hp q (by simp)]
      | succ j =>
        simp only [List.getElem?_cons_succ] at hj ⊢
        exact ih _ vs (List.nodup_cons.1 hn).2 (fun r hr => by simpa using hp r (by simp [hr])) j hj (by simpa using hl)

theorem contiguous_nodup {l : List Nat} (h : contiguous l = true) : l.Nodup := by
  rw [List.nodup_iff_injective_getElem]
  intro i j hij
  have hi := contiguous_get h i i.2
  have hj := contiguous_get h j j.2
  rw [List.getElem?_eq_getElem i.2] at hi
  rw [List.getElem?_eq_getElem j.2] at hj
  cases h0 : l[0]? with
  | none => rw [h0] at hi; simp at hi
  | some b =>
    rw [h0] at hi hj
    simp only [Option.map_some, Option.some.injEq] at hi hj
    have hij' : l[(i : Nat)] = l[(j : Nat)] := hij
    exact Fin.ext (by omega)

theorem cell_set (m : List (List α)) (b : Nat) (xs : List α) (hb : b < m.length) (c q : Nat) :
    cell (m.set b xs) c q = if c = b then xs[q]? else cell m c q := by
  unfold cell
  by_cases h : c = b
  · subst h; simp [hb]
  · simp [h, Ne.symm h]

theorem fits_iff (n : Nat) (vs ws : List α) : bcastTo n vs = .ok ws ↔ Fits n vs ws := by
  unfold bcastTo Fits
  split
  · next h =>
    constructor
    · intro e; injection e with e; exact .inl ⟨h, e.symm⟩
    · rintro (⟨_, rfl⟩ | ⟨x, rfl, rfl⟩)
      · rfl
      · simp at h; subst h; rfl
  · next h =>
    split
    · next x =>
      constructor
      · intro e; injection e with e; exact .inr ⟨x, rfl, e.symm⟩
      · rintro (⟨h', _⟩ | ⟨y, hy, rfl⟩)
        · exact absurd h' h
        · simp at hy; subst hy; rfl
    · next hx =>
      constructor
      · intro e; cases e
      · rintro (⟨h', _⟩ | ⟨y, hy, rfl⟩)
        · exact absurd h' h
        · exact absurd hy (hx y)

theorem fits_length {n : Nat} {vs ws : List α} (h : Fits n vs ws) : ws.length = n := by
  obtain ⟨h, rfl⟩ | ⟨x, _, rfl⟩ := h
  · exact h
  · simp

theorem fits_not {n : Nat} {vs : List α} (h : ∀ ws, ¬ Fits n vs ws) : bcastTo n vs = .error .valueError := by
  cases hb : bcastTo n vs with
  | ok ws => exact absurd ((fits_iff _ _ _).1 hb) (h ws)
  | error e =>
    unfold bcastTo at hb
    split at hb
    · cases hb
    · split at hb
      · cases hb
      · exact hb.symm

theorem into_ok {f : α → α → α} {m : List (List α)} {a : ArrRef} {vs ws : List α} (ha : Placed m a)
    (hf : Fits a.pos.length vs ws) : ∃ m', ufuncInto f m a vs = .ok m' ∧
      Overwritten m m' a (List.zipWith f (readArr m a) ws) ∧ m'.length = m.length ∧
      ∀ c : Nat, (m'[c]?).map List.length = (m[c]?).map List.length := by
  have hl := placed_length ha
  have hw := fits_length hf
  obtain ⟨⟨xs, h1, h2⟩, hc⟩ := ha
  have hx : m.getD a.buf [] = xs := by simp [List.getD_eq_getElem?_getD, h1]
  have hb : a.buf < m.length := (List.getElem?_eq_some_iff.1 h1).1
  have hz : (List.zipWith f (readArr m a) ws).length = a.pos.length := by simp [hl, hw]
  refine ⟨_, by rw [ufuncInto, (fits_iff _ _ _).2 hf], ⟨hz, fun j p hj => ?_, fun c q hq => ?_⟩, by simp, fun c => ?_⟩
  · rw [cell_set _ _ _ hb, if_pos rfl, hx]
    exact writeEach_get xs a.pos _ (contiguous_nodup hc) h2 j p hj hz
  · rw [cell_set _ _ _ hb]
    split
    · next e =>
      subst e
      rw [hx, writeEach_other _ _ _ (fun v hv => hq ⟨rfl, (List.of_mem_zip hv).1⟩)]
      simp [cell, h1]
    · rfl
  · rw [List.getElem?_set]
    by_cases e : a.buf = c
    · subst e
      simp [hb, hx, h1, writeEach_length]
    · simp [e]

theorem placed_same {m m' : List (List α)} (h : ∀ c : Nat, (m'[c]?).map List.length = (m[c]?).map List.length)
    {b : ArrRef} (hb : Placed m b) : Placed m' b := by
  obtain ⟨⟨xs, h1, h2⟩, hc⟩ := hb
  have := h b.buf
  rw [h1] at this
  cases hm : m'[b.buf]? with
  | none => rw [hm] at this; simp at this
  | some ys =>
    rw [hm] at this
    simp only [Option.map_some, Option.some.injEq] at this
    exact ⟨⟨ys, hm, fun p hp => this ▸ h2 p hp⟩, hc⟩

theorem wrap_placed {m : List (List α)} {a : ArrRef} (h : Placed m a) : wrapArr m a none = (m, a) := by
  simp [wrapArr, h.2]

/-- What another array shows after an array was overwritten. -/
theorem overwritten_read {m m' : List (List α)} {a b : ArrRef} {vals : List α} (h : Overwritten m m' a vals)
    (hb : Placed m b) (hb' : Placed m' b) (k q : Nat) (hk : b.pos[k]? = some q) :
    (∀ j : Nat, b.buf = a.buf → a.pos[j]? = some q → (readArr m' b)[k]? = vals[j]?) ∧
    (¬ (b.buf = a.buf ∧ q ∈ a.pos) → (readArr m' b)[k]? = (readArr m b)[k]?) := by
  refine ⟨fun j e hj => ?_, fun hn => ?_⟩
  · rw [placed_read hb', hk]
    simpa [e] using h.2.1 j q hj
  · rw [placed_read hb', placed_read hb, hk]
    exact h.2.2 _ _ hn

theorem overwritten_self {m m' : List (List α)} {a : ArrRef} {vals : List α} (h : Overwritten m m' a vals)
    (hb' : Placed m' a) : readArr m' a = vals := by
  apply List.ext_getElem?
  intro k
  rw [placed_read hb']
  cases hk : a.pos[k]? with
  | none =>
    have := List.getElem?_eq_none_iff.1 hk
    rw [List.getElem?_eq_none (by rw [h.1]; exact this)]
    rfl
  | some q => exact h.2.1 k q hk

theorem bcast2_one (f : α → α → α) (l : List α) (x : α) : bcast2 f l [x] = .ok (l.map (fun v => f v x)) := by
  match l with
  | [] => simp [bcast2]
  | [a] => simp [bcast2]
  | a :: b :: l => simp [bcast2]

theorem zipWith_replicate_right (f : α → α → α) (l : List α) (x : α) :
    List.zipWith f l (List.replicate l.length x) = l.map (fun v => f v x) := by
  induction l with
  | nil => rfl
  | cons a l ih => simp [List.replicate_succ, ih]

/-! ## One operation -/

theorem lookup_facts {s : PState α} {i o : Nat} {p : PObj α} (h : s.lookup i = some (o, p)) :
    s.names[i]? = some o ∧ s.objs[o]? = some p := by
  unfold PState.lookup at h
  split at h
  · cases h
  · next o' ho =>
    split at h
    · cases h
    · next p' hp =>
      simp only [Option.some.injEq, Prod.mk.injEq] at h
      obtain ⟨rfl, rfl⟩ := h
      exact ⟨ho, hp⟩

theorem lookup_of {s : PState α} {i o : Nat} {p : PObj α} (h : s.names[i]? = some o) (hp : s.objs[o]? = some p) :
    s.lookup i = some (o, p) := by
  simp [PState.lookup, h, hp]

theorem bound_lookup {s : PState α} (h : Bound s) {i : Nat} (hi : i < s.names.length) :
    ∃ o p, s.lookup i = some (o, p) ∧ Placed s.mem p.arr := by
  have h1 := h.1 s.names[i] (List.getElem_mem hi)
  exact ⟨s.names[i], s.objs[s.names[i]], lookup_of (List.getElem?_eq_getElem hi) (List.getElem?_eq_getElem h1),
    h.2 _ (List.getElem_mem h1)⟩

theorem augment_supplied {f : α → α → α} {m : List (List α)} {a : ArrRef} {ws : List α} {y : Arg α}
    (ha : Placed m a) (hy : Supplies m a.pos.length ws y) : ∃ m', augment (some f) m a y = (m', .ok a) ∧
      Overwritten m m' a (List.zipWith f (readArr m a) ws) ∧ m'.length = m.length ∧
      ∀ c : Nat, (m'[c]?).map List.length = (m[c]?).map List.length := by
  have key : ∀ vs, Fits a.pos.length vs ws → ∃ m', finishInto a (ufuncInto f m a vs) m = (m', .ok a) ∧
      Overwritten m m' a (List.zipWith f (readArr m a) ws) ∧ m'.length = m.length ∧
      ∀ c : Nat, (m'[c]?).map List.length = (m[c]?).map List.length := by
    intro vs hv
    obtain ⟨m', h1, h2, h3, h4⟩ := into_ok (f := f) ha hv
    refine ⟨m', ?_, h2, h3, h4⟩
    rw [h1, finishInto, wrap_placed (placed_same h4 ha)]
  cases y with
  | same b => exact key _ hy
  | ndarray b => exact key _ hy
  | sequence l => exact key _ hy
  | number x => exact key [x] (.inr ⟨x, rfl, hy⟩)
  | foreign b => exact hy.elim
  | other => exact hy.elim

/-- **C130** `x op= y` for an array `x` and an array of its class, an `ndarray`, a sequence or a number `y` (with as many
records as `x`, or one): it succeeds, the memory of `x` is overwritten with the results and nothing else is, and `x` is
bound to a new object holding the same memory, without stored attributes; the old object and all other names and
objects are as they were. -/
theorem C130_augment (s : PState α) (h : Bound s) (i o : Nat) (p : PObj α) (hi : s.lookup i = some (o, p))
    (f : α → α → α) (y : Arg α) (ws : List α) (hy : Supplies s.mem p.arr.pos.length ws y) :
    ∃ s', (POp.augment i (some f) y).run s = (s', none) ∧
      Overwritten s.mem s'.mem p.arr (List.zipWith f (readArr s.mem p.arr) ws) ∧
      s'.shows i = some (List.zipWith f (readArr s.mem p.arr) ws) ∧
      s'.lookup i = some (s.objs.length, { arr := p.arr }) ∧
      ∀ j, j ≠ i → s'.lookup j = s.lookup j := by
  obtain ⟨h1, h2⟩ := lookup_facts hi
  have hp := h.2 p (List.mem_of_getElem? h2)
  obtain ⟨m', e1, e2, e3, e4⟩ := augment_supplied (f := f) hp hy
  have hl : i < s.names.length := (List.getElem?_eq_some_iff.1 h1).1
  have hlook : (PState.mk m' (s.objs ++ [{ arr := p.arr }]) (s.names.set i s.objs.length)).lookup i =
      some (s.objs.length, { arr := p.arr }) :=
    lookup_of (by simp [hl]) (by simp)
  refine ⟨⟨m', s.objs ++ [{ arr := p.arr }], s.names.set i s.objs.length⟩, ?_, e2, ?_, hlook, fun j hj => ?_⟩
  · simp only [POp.run, hi, e1, PState.bind]
  · rw [PState.shows, hlook]
    simp only [Option.some.injEq]
    exact overwritten_self e2 (placed_same e4 hp)
  · unfold PState.lookup
    simp only [List.getElem?_set, Ne.symm hj, if_false]
    cases hn : s.names[j]? with
    | none => rfl
    | some oj =>
      have := h.1 oj (List.mem_of_getElem? hn)
      simp [List.getElem?_append_left this]

/-- **C130** Consequently every other name sees `x op= y`: a record of an array in the memory of `x` becomes the record `x`
shows there, all other records stay. -/
theorem C130_seen (s : PState α) (h : Bound s) (i o : Nat) (p : PObj α) (hi : s.lookup i = some (o, p))
    (f : α → α → α) (y : Arg α) (ws : List α) (hy : Supplies s.mem p.arr.pos.length ws y) (s' : PState α)
    (hs : (POp.augment i (some f) y).run s = (s', none)) (j oj : Nat) (q : PObj α) (hj : s.lookup j = some (oj, q))
    (hji : j ≠ i) (k c : Nat) (hk : q.arr.pos[k]? = some c) :
    ∃ u v x, s.shows j = some u ∧ s'.shows j = some v ∧ s'.shows i = some x ∧
      (∀ l : Nat, q.arr.buf = p.arr.buf → p.arr.pos[l]? = some c → v[k]? = x[l]?) ∧
      (¬ (q.arr.buf = p.arr.buf ∧ c ∈ p.arr.pos) → v[k]? = u[k]?) := by
  obtain ⟨h1, h2⟩ := lookup_facts hi
  have hp := h.2 p (List.mem_of_getElem? h2)
  have hq := h.2 q (List.mem_of_getElem? (lookup_facts hj).2)
  obtain ⟨m', e1, e2, e3, e4⟩ := augment_supplied (f := f) hp hy
  obtain ⟨s1, t1, t2, t3, t4, t5⟩ := C130_augment s h i o p hi f y ws hy
  rw [t1] at hs
  simp only [Prod.mk.injEq, and_true] at hs
  subst hs
  have hm : s1.mem = m' := by
    simp only [POp.run, hi, e1, PState.bind, Prod.mk.injEq, and_true] at t1
    rw [← t1]
  have hv : s1.shows j = some (readArr m' q.arr) := by rw [PState.shows, t5 j hji, hj, hm]
  refine ⟨readArr s.mem q.arr, _, _, by rw [PState.shows, hj], hv, t3, ?_⟩
  exact overwritten_read e2 hq (placed_same e4 hq) k c hk

/-- **C130** In contrast `x = x op y` with the same operands binds `x` to a new array with the same results, and whatever
the other names show stays. -/
theorem C130_binary (s : PState α) (h : Bound s) (i o : Nat) (p : PObj α) (hi : s.lookup i = some (o, p))
    (f : α → α → α) (y : Arg α) (ws : List α) (hy : Supplies s.mem p.arr.pos.length ws y) :
    ∃ s', (POp.binary i f y).run s = (s', none) ∧
      s'.shows i = some (List.zipWith f (readArr s.mem p.arr) ws) ∧
      (∀ b c, b < s.mem.length → cell s'.mem b c = cell s.mem b c) ∧
      ∀ j, j ≠ i → s'.lookup j = s.lookup j ∧ s'.shows j = s.shows j := by
  obtain ⟨h1, h2⟩ := lookup_facts hi
  have hp := h.2 p (List.mem_of_getElem? h2)
  have hl : i < s.names.length := (List.getElem?_eq_some_iff.1 h1).1
  have hlen := placed_length hp
  have hcast : ∀ vs, Fits p.arr.pos.length vs ws →
      bcast2 f (readArr s.mem p.arr) vs = .ok (List.zipWith f (readArr s.mem p.arr) ws) := by
    rintro vs (⟨hv, rfl⟩ | ⟨x, rfl, rfl⟩)
    · simp [bcast2, hlen, hv]
    · have hz : List.zipWith f (readArr s.mem p.arr) (List.replicate p.arr.pos.length x) =
          (readArr s.mem p.arr).map (fun v => f v x) := by
        rw [← hlen, zipWith_replicate_right]
      rw [hz]
      exact bcast2_one f _ x
  have hres : binary f s.mem p.arr y = ((allocArr s.mem (List.zipWith f (readArr s.mem p.arr) ws)).1,
      .ok (allocArr s.mem (List.zipWith f (readArr s.mem p.arr) ws)).2) := by
    cases y with
    | same b => simp only [binary, hcast _ hy, freshArr]
    | ndarray b => simp only [binary, hcast _ hy, freshArr]
    | sequence l => simp only [binary, hcast _ hy, freshArr]
    | number x =>
      have := hcast [x] (.inr ⟨x, rfl, hy⟩)
      simp only [binary, freshArr]
      have hz : (readArr s.mem p.arr).map (fun v => f v x) = List.zipWith f (readArr s.mem p.arr) ws := by
        have hy' : ws = List.replicate p.arr.pos.length x := hy
        rw [hy', ← hlen, zipWith_replicate_right]
      rw [hz]
    | foreign b => exact hy.elim
    | other => exact hy.elim
  have hother : ∀ j, j ≠ i → (PState.mk (allocArr s.mem (List.zipWith f (readArr s.mem p.arr) ws)).1
      (s.objs ++ [{ arr := (allocArr s.mem (List.zipWith f (readArr s.mem p.arr) ws)).2 }])
      (s.names.set i s.objs.length)).lookup j = s.lookup j := by
    intro j hj
    unfold PState.lookup
    simp only [List.getElem?_set, Ne.symm hj, if_false]
    cases hn : s.names[j]? with
    | none => rfl
    | some oj =>
      have := h.1 oj (List.mem_of_getElem? hn)
      simp [List.getElem?_append_left this]
  refine ⟨⟨_, s.objs ++ [{ arr := (allocArr s.mem _).2 }], s.names.set i s.objs.length⟩,
    by simp only [POp.run, hi, hres, PState.bind], ?_, fun b c hb => ?_, fun j hj => ⟨hother j hj, ?_⟩⟩
  · rw [PState.shows, lookup_of (o := s.objs.length) (by simp [hl]) (by simp; rfl)]
    simp only [Option.some.injEq]
    exact readArr_alloc _ _
  · simp [cell, allocArr, List.getElem?_append_left hb]
  · rw [PState.shows, hother j hj, PState.shows]
    cases hq : s.lookup j with
    | none => rfl
    | some w =>
      obtain ⟨oj, q⟩ := w
      obtain ⟨⟨xs, e1, _⟩, _⟩ := h.2 q (List.mem_of_getElem? (lookup_facts hq).2)
      have hb : q.arr.buf < s.mem.length := (List.getElem?_eq_some_iff.1 e1).1
      simp only [allocArr, readArr_ext _ _ _ hb]

/-- An array of three records, two names for one object holding it, and a name for the part without the first. -/
def exNames3 : PState Int :=
  ⟨[[1, 2, 3]], [{ arr := ⟨0, [0, 1, 2]⟩ }, { arr := ⟨0, [1, 2]⟩ }], [0, 0, 1]⟩

theorem exNames3_bound : Bound exNames3 := by
  constructor
  · decide
  · intro p hp
    simp only [exNames3, List.mem_cons, List.not_mem_nil, or_false] at hp
    obtain rfl | rfl := hp <;> exact ⟨⟨[1, 2, 3], rfl, by decide⟩, by decide⟩

example : ((POp.augment 0 (some (· + ·)) (.sequence [10, 20, 30])).run exNames3).1.shows 0 = some [11, 22, 33] ∧
    ((POp.augment 0 (some (· + ·)) (.sequence [10, 20, 30])).run exNames3).1.shows 1 = some [11, 22, 33] ∧
    ((POp.augment 0 (some (· + ·)) (.sequence [10, 20, 30])).run exNames3).1.shows 2 = some [22, 33] ∧
    ((POp.binary 0 (· + ·) (.sequence [10, 20, 30])).run exNames3).1.shows 0 = some [11, 22, 33] ∧
    ((POp.binary 0 (· + ·) (.sequence [10, 20, 30])).run exNames3).1.shows 1 = some [1, 2, 3] := by decide

example : Supplies exNames3.mem 3 [5, 5, 5] (.number (5 : Int)) := rfl

/-- **C130** With two names for one object: after `x op= y` both show the results; after `x = x op y` the other name shows
what it showed. -/
theorem C130_alias (s : PState α) (h : Bound s) (i j o : Nat) (p : PObj α) (hi : s.lookup i = some (o, p))
    (hj : s.lookup j = some (o, p)) (hij : j ≠ i) (f : α → α → α) (y : Arg α) (ws : List α)
    (hy : Supplies s.mem p.arr.pos.length ws y) :
    ((POp.augment i (some f) y).run s).1.shows j = ((POp.augment i (some f) y).run s).1.shows i ∧
    ((POp.augment i (some f) y).run s).1.shows i = ((POp.binary i f y).run s).1.shows i ∧
    ((POp.binary i f y).run s).1.shows j = s.shows j := by
  obtain ⟨s1, t1, t2, t3, t4, t5⟩ := C130_augment s h i o p hi f y ws hy
  obtain ⟨s2, u1, u2, u3, u4⟩ := C130_binary s h i o p hi f y ws hy
  rw [t1, u1]
  refine ⟨?_, t3.trans u2.symm, (u4 j hij).2⟩
  rw [PState.shows, PState.shows, t5 j hij, hj, t4]

/-- **C130** A stored attribute is that of the object: if it has been read through another name `j` of the object, then
after `x op= y` it is still, through `j`, that of the records before, though `j` shows the new ones; through `x` it is
that of the new ones. -/
theorem C130_stale (s : PState α) (h : Bound s) (i j o : Nat) (p : PObj α) (hi : s.lookup i = some (o, p))
    (hj : s.lookup j = some (o, p)) (hij : j ≠ i) (f : α → α → α) (y : Arg α) (ws : List α)
    (hy : Supplies s.mem p.arr.pos.length ws y) (s' : PState α)
    (hs : (POp.augment i (some f) y).run s = (s', none)) :
    s'.attrOf i = s'.shows i ∧
    (p.cache = none → s'.attrOf j = s'.shows j) ∧
    ∀ old, p.cache = some old → s.attrOf j = some old ∧ s'.attrOf j = some old := by
  obtain ⟨s1, t1, t2, t3, t4, t5⟩ := C130_augment s h i o p hi f y ws hy
  rw [t1] at hs
  simp only [Prod.mk.injEq, and_true] at hs
  subst hs
  refine ⟨?_, fun hc => ?_, fun old hc => ⟨?_, ?_⟩⟩
  · rw [PState.attrOf, PState.shows, t4]
  · rw [PState.attrOf, PState.shows, t5 j hij, hj]
    simp only [hc]
  · rw [PState.attrOf, hj]
    simp only [hc]
  · rw [PState.attrOf, t5 j hij, hj]
    simp only [hc]

/-- Refuted: a cached attribute is that of the records shown. -/
theorem C130_stale_false : ∃ (s : PState Int) (hist : List (POp Int)), Bound s ∧
    (∀ i, s.attrOf i = s.shows i) ∧ (runNames s hist).attrOf 1 = some [1, 2, 3] ∧
    (runNames s hist).shows 1 = some [2, 4, 6] := by
  refine ⟨exNames3, [.attr 1, .augment 0 (some (· * ·)) (.number 2)], exNames3_bound, fun i => ?_, by decide, by decide⟩
  match i with
  | 0 => decide
  | 1 => decide
  | 2 => decide
  | i + 3 => rfl

/-- **C130** `x op= y` that cannot be done changes nothing: operands of another length (also if `x` has one record, which is
stretched in `x op y`) are `ValueError`; operands that are neither arrays, numbers nor sequences, and results that do not
fit the dtype of `x`, are `TypeError`. -/
theorem C130_errors (s : PState α) (h : Bound s) (i o : Nat) (p : PObj α) (hi : s.lookup i = some (o, p)) :
    (∀ f, (POp.augment i f .other).run s = (s, some .typeError)) ∧
    (∀ y, (POp.augment i none y).run s = (s, some .typeError)) ∧
    (∀ f b, (∀ ws, ¬ Fits p.arr.pos.length (readArr s.mem b) ws) →
      (POp.augment i (some f) (.same b)).run s = (s, some .valueError) ∧
      (POp.augment i (some f) (.ndarray b)).run s = (s, some .valueError) ∧
      (POp.augment i (some f) (.foreign b)).run s = (s, some .valueError)) ∧
    (∀ f l, (∀ ws, ¬ Fits p.arr.pos.length l ws) →
      (POp.augment i (some f) (.sequence l)).run s = (s, some .valueError)) := by
  refine ⟨fun f => ?_, fun y => ?_, fun f b hb => ⟨?_, ?_, ?_⟩, fun f l hl => ?_⟩
  · cases f <;> simp only [POp.run, hi, augment, PState.bind]
  · cases y <;> simp only [POp.run, hi, augment, PState.bind]
  · simp only [POp.run, hi, augment, PState.bind, ufuncInto, fits_not hb, finishInto]
  · simp only [POp.run, hi, augment, PState.bind, ufuncInto, fits_not hb, finishInto]
  · simp only [POp.run, hi, augment, PState.bind, ufuncInto, fits_not hb]
  · simp only [POp.run, hi, augment, PState.bind, ufuncInto, fits_not hl, finishInto]

theorem fits_one {vs ws : List α} (h : Fits 1 vs ws) : vs.length = 1 := by
  obtain ⟨h, _⟩ | ⟨x, rfl, _⟩ := h
  · exact h
  · rfl

/-- **C130** An array of one record is stretched by `x op y` but not by `x op= y`. -/
theorem C130_stretch (s : PState α) (h : Bound s) (i o : Nat) (p : PObj α) (hi : s.lookup i = some (o, p)) (x : α)
    (hx : readArr s.mem p.arr = [x]) (f : α → α → α) (l : List α) (hl : l.length ≠ 1) :
    (POp.augment i (some f) (.sequence l)).run s = (s, some .valueError) ∧
    ∃ s', (POp.binary i f (.sequence l)).run s = (s', none) ∧ s'.shows i = some (l.map (f x)) := by
  have hp := h.2 p (List.mem_of_getElem? (lookup_facts hi).2)
  have hn : p.arr.pos.length = 1 := by rw [← placed_length hp, hx]; rfl
  refine ⟨(C130_errors s h i o p hi).2.2.2 f l (fun ws hw => hl (fits_one (hn ▸ hw))), ?_⟩
  have hb : bcast2 f [x] l = .ok (l.map (f x)) := by
    unfold bcast2
    rw [if_neg (by simpa using Ne.symm hl)]
  have h1 := (lookup_facts hi).1
  refine ⟨⟨(allocArr s.mem (l.map (f x))).1, s.objs ++ [{ arr := (allocArr s.mem (l.map (f x))).2 }],
      s.names.set i s.objs.length⟩,
    by simp only [POp.run, hi, binary, hx, hb, freshArr, PState.bind], ?_⟩
  rw [PState.shows, lookup_of (o := s.objs.length) (by simp [(List.getElem?_eq_some_iff.1 h1).1]) (by simp; rfl)]
  simp only [Option.some.injEq]
  exact readArr_alloc _ _

/-- **C130** `x op= y` with an array `y` of another class raises `AttributeError`, but only after it has overwritten `x`
with the results: all names see them. -/
theorem C130_foreign (s : PState α) (h : Bound s) (i o : Nat) (p : PObj α) (hi : s.lookup i = some (o, p))
    (f : α → α → α) (b : ArrRef) (ws : List α) (hy : Fits p.arr.pos.length (readArr s.mem b) ws) :
    ∃ s', (POp.augment i (some f) (.foreign b)).run s = (s', some .attributeError) ∧
      Overwritten s.mem s'.mem p.arr (List.zipWith f (readArr s.mem p.arr) ws) ∧
      s'.names = s.names ∧ s'.objs = s.objs ∧
      s'.shows i = some (List.zipWith f (readArr s.mem p.arr) ws) := by
  have hp := h.2 p (List.mem_of_getElem? (lookup_facts hi).2)
  obtain ⟨m', e1, e2, e3, e4⟩ := into_ok (f := f) hp hy
  refine ⟨{ s with mem := m' }, by simp only [POp.run, hi, augment, e1, PState.bind], e2, rfl, rfl, ?_⟩
  have hl : (PState.mk m' s.objs s.names).lookup i = some (o, p) := hi
  rw [PState.shows, hl]
  simp only [Option.some.injEq]
  exact overwritten_self e2 (placed_same e4 hp)

/-- **C130** `x op y` with an array of another class raises `AttributeError` too, and changes nothing. -/
theorem C130_foreign_binary (s : PState α) (h : Bound s) (i o : Nat) (p : PObj α) (hi : s.lookup i = some (o, p))
    (f : α → α → α) (b : ArrRef) (hy : (readArr s.mem b).length = p.arr.pos.length) :
    (POp.binary i f (.foreign b)).run s = (s, some .attributeError) := by
  have hp := h.2 p (List.mem_of_getElem? (lookup_facts hi).2)
  have : bcast2 f (readArr s.mem p.arr) (readArr s.mem b) = .ok (List.zipWith f (readArr s.mem p.arr) (readArr s.mem b)) := by
    simp [bcast2, placed_length hp, hy]
  simp only [POp.run, hi, binary, this, PState.bind]

/-- Refuted: an operation that raises has no effect. -/
theorem C130_foreign_false : ∃ (s s' : PState Int) (op : POp Int) (e : PyErr), Bound s ∧ op.run s = (s', some e) ∧
    s'.shows 0 ≠ s.shows 0 :=
  ⟨exNames3, _, .augment 0 (some (· + ·)) (.foreign ⟨0, [0, 1, 2]⟩), .attributeError, exNames3_bound, rfl, by decide⟩

/-! ## Histories -/

/-- Memory may grow and be overwritten, arrays stay in it. -/
def Grows (m m' : List (List α)) : Prop :=
  ∀ (c : Nat) (xs : List α), m[c]? = some xs → ∃ ys, m'[c]? = some ys ∧ ys.length = xs.length

theorem Grows.placed {m m' : List (List α)} (h : Grows m m') {b : ArrRef} (hb : Placed m b) : Placed m' b := by
  obtain ⟨⟨xs, h1, h2⟩, hc⟩ := hb
  obtain ⟨ys, h3, h4⟩ := h _ _ h1
  exact ⟨⟨ys, h3, fun p hp => h4 ▸ h2 p hp⟩, hc⟩

theorem grows_refl (m : List (List α)) : Grows m m := fun _ xs h => ⟨xs, h, rfl⟩

theorem grows_alloc (m : List (List α)) (xs : List α) : Grows m (allocArr m xs).1 := by
  intro c ys h
  exact ⟨ys, by simp [allocArr, List.getElem?_append_left (List.getElem?_eq_some_iff.1 h).1, h], rfl⟩

theorem placed_alloc (m : List (List α)) (xs : List α) : Placed (allocArr m xs).1 (allocArr m xs).2 :=
  ⟨⟨xs, by simp [allocArr], by simp [allocArr]⟩, by simp [allocArr, contiguous_range]⟩

/-- The effect of an operator on memory: it fails without or with writing to `a`, or gives `a` overwritten, or gives
a new buffer. -/
structure OpEffect (m : List (List α)) (a : ArrRef) (r : List (List α) × Py ArrRef) : Prop where
  grows : Grows m r.1
  frame : ∀ c q, c < m.length → ¬ (c = a.buf ∧ q ∈ a.pos) → cell r.1 c q = cell m c q
  arr : ∀ b, r.2 = .ok b → Placed r.1 b ∧ (b = a ∨ b.buf = m.length)

theorem effect_same (m : List (List α)) (a : ArrRef) (e : PyErr) : OpEffect m a (m, .error e) :=
  ⟨grows_refl m, fun _ _ _ _ => rfl, fun _ h => by cases h⟩

theorem effect_into (f : α → α → α) (m : List (List α)) (a : ArrRef) (ha : Placed m a) (vs : List α) :
    OpEffect m a (finishInto a (ufuncInto f m a vs) m) ∧
    ∀ m', ufuncInto f m a vs = .ok m' → OpEffect m a (m', .error .attributeError) := by
  cases hb : bcastTo a.pos.length vs with
  | error e =>
    have : ufuncInto f m a vs = .error e := by rw [ufuncInto, hb]
    rw [this]
    exact ⟨effect_same _ _ _, fun _ h => by cases h⟩
  | ok ws =>
    obtain ⟨m', h1, h2, h3, h4⟩ := into_ok (f := f) ha ((fits_iff _ _ _).1 hb)
    have hg : Grows m m' := by
      intro c xs hc
      have := h4 c
      rw [hc] at this
      cases hm : m'[c]? with
      | none => rw [hm] at this; simp at this
      | some ys => rw [hm] at this; simp at this; exact ⟨ys, rfl, this⟩
    rw [h1, finishInto, wrap_placed (hg.placed ha)]
    refine ⟨⟨hg, fun c q _ hq => h2.2.2 c q hq, fun b hb => ?_⟩, fun m'' he => ?_⟩
    · injection hb with hb; subst hb; exact ⟨hg.placed ha, .inl rfl⟩
    · injection he with he; subst he
      exact ⟨hg, fun c q _ hq => h2.2.2 c q hq, fun _ h => by cases h⟩

theorem effect_augment (f : Option (α → α → α)) (m : List (List α)) (a : ArrRef) (ha : Placed m a) (y : Arg α) :
    OpEffect m a (augment f m a y) := by
  cases f with
  | none => cases y <;> exact effect_same _ _ _
  | some f =>
    cases y with
    | other => exact effect_same _ _ _
    | same b => exact (effect_into f m a ha _).1
    | ndarray b => exact (effect_into f m a ha _).1
    | sequence l => exact (effect_into f m a ha _).1
    | number x => exact (effect_into f m a ha _).1
    | foreign b =>
      simp only [augment]
      cases hu : ufuncInto f m a (readArr m b) with
      | error e => exact effect_same _ _ _
      | ok m' => exact (effect_into f m a ha _).2 m' hu

/-- An operator that does not write. -/
structure PureEffect (m : List (List α)) (r : List (List α) × Py ArrRef) : Prop where
  grows : Grows m r.1
  frame : ∀ c q, c < m.length → cell r.1 c q = cell m c q
  arr : ∀ b, r.2 = .ok b → Placed r.1 b ∧ b.buf = m.length

theorem pure_same (m : List (List α)) (e : PyErr) : PureEffect m (m, .error e) :=
  ⟨grows_refl m, fun _ _ _ => rfl, fun _ h => by cases h⟩

theorem pure_fresh (m : List (List α)) (x : Py (List α)) : PureEffect m (freshArr m x) := by
  cases x with
  | error e => exact pure_same m e
  | ok xs =>
    refine ⟨grows_alloc m xs, fun c q hc => by simp [freshArr, cell, allocArr, List.getElem?_append_left hc],
      fun b hb => ?_⟩
    simp only [freshArr, Except.ok.injEq] at hb
    subst hb
    exact ⟨placed_alloc m xs, rfl⟩

theorem pure_binary (f : α → α → α) (m : List (List α)) (a : ArrRef) (y : Arg α) : PureEffect m (binary f m a y) := by
  cases y with
  | other => exact pure_same _ _
  | foreign b =>
    simp only [binary]
    split <;> exact pure_same _ _
  | same b => exact pure_fresh _ _
  | ndarray b => exact pure_fresh _ _
  | sequence l => exact pure_fresh _ _
  | number x => exact pure_fresh m (.ok _)

/-- The array of the object of a name. -/
def arrOf (s : PState α) (i : Nat) : Option ArrRef := (s.lookup i).map (fun w => w.2.arr)

theorem arrOf_eq {s : PState α} {i o : Nat} {p : PObj α} (h : s.lookup i = some (o, p)) : arrOf s i = some p.arr := by
  rw [arrOf, h]; rfl

theorem shows_arr (s : PState α) (i : Nat) : s.shows i = (arrOf s i).map (readArr s.mem) := by
  unfold PState.shows arrOf
  cases s.lookup i with
  | none => rfl
  | some w => rfl

/-- What one operation does to names and memory. -/
structure StepFacts (s s' : PState α) (op : POp α) : Prop where
  bound : Bound s'
  grows : Grows s.mem s'.mem
  keep : ∀ i, ¬ Rebinds i op → i < s.names.length → arrOf s' i = arrOf s i
  origin : ∀ i b, arrOf s' i = some b → s.mem.length ≤ b.buf ∨
    ∃ j, arrOf s j = some b ∧ (j = i ∨ (i = s.names.length ∧ Renames j op))
  frame : ∀ c q, c < s.mem.length → cell s'.mem c q ≠ cell s.mem c q →
    ∃ i a, Rebinds i op ∧ InPlace op ∧ arrOf s i = some a ∧ c = a.buf
  more : s.names.length ≤ s'.names.length

theorem facts_refl (s : PState α) (h : Bound s) (op : POp α) : StepFacts s s op :=
  ⟨h, grows_refl _, fun _ _ _ => rfl, fun i b hb => .inr ⟨i, hb, .inl rfl⟩, fun _ _ _ hc => absurd rfl hc, le_refl _⟩

theorem lookup_lt {s : PState α} {i o : Nat} {p : PObj α} (h : s.lookup i = some (o, p)) : i < s.names.length :=
  (List.getElem?_eq_some_iff.1 (lookup_facts h).1).1

theorem facts_bind (s : PState α) (h : Bound s) (op : POp α) (i o : Nat) (p : PObj α) (hi : s.lookup i = some (o, p))
    (hr : ∀ j, Rebinds j op ↔ j = i) (r : List (List α) × Py ArrRef) (hg : Grows s.mem r.1)
    (hf : ∀ c q, c < s.mem.length → cell r.1 c q ≠ cell s.mem c q → InPlace op ∧ c = p.arr.buf)
    (ha : ∀ b, r.2 = .ok b → Placed r.1 b ∧ (b = p.arr ∨ s.mem.length ≤ b.buf)) :
    StepFacts s (s.bind i r).1 op := by
  have hfr : ∀ c q, c < s.mem.length → cell r.1 c q ≠ cell s.mem c q →
      ∃ i a, Rebinds i op ∧ InPlace op ∧ arrOf s i = some a ∧ c = a.buf := by
    intro c q hc hq
    obtain ⟨h1, h2⟩ := hf c q hc hq
    exact ⟨i, p.arr, (hr i).2 rfl, h1, arrOf_eq hi, h2⟩
  cases hb : r.2 with
  | error e =>
    have hs : (s.bind i r).1 = { s with mem := r.1 } := by simp only [PState.bind, hb]
    rw [hs]
    exact ⟨⟨h.1, fun q hq => hg.placed (h.2 q hq)⟩, hg, fun _ _ _ => rfl, fun i b hb => .inr ⟨i, hb, .inl rfl⟩, hfr,
      le_refl _⟩
  | ok b =>
    have hs : (s.bind i r).1 = ⟨r.1, s.objs ++ [{ arr := b }], s.names.set i s.objs.length⟩ := by
      simp only [PState.bind, hb]
    rw [hs]
    obtain ⟨hb1, hb2⟩ := ha b hb
    have hl := lookup_lt hi
    have hnew : arrOf (PState.mk r.1 (s.objs ++ [{ arr := b }]) (s.names.set i s.objs.length)) i = some b :=
      arrOf_eq (o := s.objs.length) (p := { arr := b }) (lookup_of (by simp [hl]) (by simp))
    have hold : ∀ j, j ≠ i →
        arrOf (PState.mk r.1 (s.objs ++ [{ arr := b }]) (s.names.set i s.objs.length)) j = arrOf s j := by
      intro j hj
      unfold arrOf PState.lookup
      simp only [List.getElem?_set, Ne.symm hj, if_false]
      cases hn : s.names[j]? with
      | none => rfl
      | some oj =>
        have := h.1 oj (List.mem_of_getElem? hn)
        simp [List.getElem?_append_left this]
    refine ⟨⟨fun o ho => ?_, fun q hq => ?_⟩, hg, fun j hj _ => hold j (fun e => hj ((hr j).2 e)), fun j c hc => ?_, hfr,
      by simp⟩
    · simp only [List.length_append, List.length_singleton]
      rcases List.mem_or_eq_of_mem_set ho with ho | ho
      · have := h.1 o ho; omega
      · omega
    · simp only [List.mem_append, List.mem_singleton] at hq
      rcases hq with hq | hq
      · exact hg.placed (h.2 q hq)
      · subst hq; exact hb1
    · by_cases hj : j = i
      · subst hj
        rw [hnew] at hc
        simp only [Option.some.injEq] at hc
        subst hc
        rcases hb2 with e | e
        · exact .inr ⟨j, by rw [arrOf_eq hi, e], .inl rfl⟩
        · exact .inl e
      · rw [hold j hj] at hc
        exact .inr ⟨j, hc, .inl rfl⟩

theorem facts_step (s : PState α) (h : Bound s) (op : POp α) : StepFacts s (op.run s).1 op := by
  cases op with
  | rename i =>
    simp only [POp.run]
    cases hn : s.names[i]? with
    | none => exact facts_refl s h _
    | some o =>
      have ho := h.1 o (List.mem_of_getElem? hn)
      have hold : ∀ j, j < s.names.length → arrOf { s with names := s.names ++ [o] } j = arrOf s j := by
        intro j hj
        unfold arrOf PState.lookup
        simp only [List.getElem?_append_left hj]
      refine ⟨⟨fun x hx => ?_, h.2⟩, grows_refl _, fun j _ hj => hold j hj, fun j b hb => ?_, fun c q _ hc => absurd rfl hc,
        by simp⟩
      · simp only [List.mem_append, List.mem_singleton] at hx
        rcases hx with hx | rfl
        · exact h.1 x hx
        · exact ho
      · by_cases hj : j < s.names.length
        · rw [hold j hj] at hb
          exact .inr ⟨j, hb, .inl rfl⟩
        · by_cases hj2 : j = s.names.length
          · subst hj2
            refine .inr ⟨i, ?_, .inr ⟨rfl, rfl⟩⟩
            unfold arrOf PState.lookup at hb ⊢
            rw [hn]
            simpa using hb
          · unfold arrOf PState.lookup at hb
            rw [List.getElem?_eq_none (by simp; omega)] at hb
            simp at hb
  | copy i =>
    simp only [POp.run]
    cases hi : s.lookup i with
    | none => exact facts_refl s h _
    | some w =>
      obtain ⟨o, p⟩ := w
      have hg := grows_alloc s.mem (readArr s.mem p.arr)
      have hold : ∀ j, j < s.names.length → arrOf (PState.mk (allocArr s.mem (readArr s.mem p.arr)).1
          (s.objs ++ [{ arr := (allocArr s.mem (readArr s.mem p.arr)).2 }]) (s.names ++ [s.objs.length])) j =
          arrOf s j := by
        intro j hj
        unfold arrOf PState.lookup
        simp only [List.getElem?_append_left hj]
        have := h.1 _ (List.getElem_mem hj)
        rw [List.getElem?_eq_getElem hj]
        simp [List.getElem?_append_left this]
      refine ⟨⟨fun x hx => ?_, fun q hq => ?_⟩, hg, fun j _ hj => hold j hj, fun j b hb => ?_, fun c q hcl hc => ?_, by simp⟩
      · simp only [List.mem_append, List.mem_singleton, List.length_append, List.length_singleton] at hx ⊢
        rcases hx with hx | rfl
        · have := h.1 x hx; omega
        · omega
      · simp only [List.mem_append, List.mem_singleton] at hq
        rcases hq with hq | hq
        · exact hg.placed (h.2 q hq)
        · subst hq; exact placed_alloc _ _
      · by_cases hj : j < s.names.length
        · rw [hold j hj] at hb
          exact .inr ⟨j, hb, .inl rfl⟩
        · left
          by_cases hj2 : j = s.names.length
          · subst hj2
            unfold arrOf PState.lookup at hb
            simp [allocArr] at hb
            rw [← hb]
          · unfold arrOf PState.lookup at hb
            rw [List.getElem?_eq_none (by simp; omega)] at hb
            simp at hb
      · exact absurd (by simp [cell, allocArr, List.getElem?_append_left hcl]) hc
  | augment i f y =>
    simp only [POp.run]
    cases hi : s.lookup i with
    | none => exact facts_refl s h _
    | some w =>
      obtain ⟨o, p⟩ := w
      have he := effect_augment f s.mem p.arr (h.2 p (List.mem_of_getElem? (lookup_facts hi).2)) y
      refine facts_bind s h (.augment i f y) i o p hi (fun j => ⟨Eq.symm, Eq.symm⟩) _ he.grows (fun c q hc hq => ?_)
        (fun b hb => ?_)
      · by_contra hn
        exact hq (he.frame c q hc (fun e => hn ⟨trivial, e.1⟩))
      · obtain ⟨h1, h2 | h2⟩ := he.arr b hb
        · exact ⟨h1, .inl h2⟩
        · exact ⟨h1, .inr (le_of_eq h2.symm)⟩
  | binary i f y =>
    simp only [POp.run]
    cases hi : s.lookup i with
    | none => exact facts_refl s h _
    | some w =>
      obtain ⟨o, p⟩ := w
      have he := pure_binary f s.mem p.arr y
      refine facts_bind s h (.binary i f y) i o p hi (fun j => ⟨Eq.symm, Eq.symm⟩) _ he.grows
        (fun c q hc hq => absurd (he.frame c q hc) hq) (fun b hb => ?_)
      obtain ⟨h1, h2⟩ := he.arr b hb
      exact ⟨h1, .inr (le_of_eq h2.symm)⟩
  | attr i =>
    simp only [POp.run]
    cases hi : s.lookup i with
    | none => exact facts_refl s h _
    | some w =>
      obtain ⟨o, p⟩ := w
      cases hc : p.cache with
      | some v => simp only [hc]; exact facts_refl s h _
      | none =>
        simp only [hc]
        have ho := (lookup_facts hi).2
        have hol := (List.getElem?_eq_some_iff.1 ho).1
        have hold : ∀ j, arrOf { s with objs := s.objs.set o { p with cache := some (readArr s.mem p.arr) } } j =
            arrOf s j := by
          intro j
          unfold arrOf PState.lookup
          cases hn : s.names[j]? with
          | none => rfl
          | some oj =>
            by_cases e : o = oj
            · subst e; simp [hol, (List.getElem?_eq_some_iff.1 ho).2]
            · simp [e]
        refine ⟨⟨fun x hx => by simpa using h.1 x hx, fun q hq => ?_⟩, grows_refl _, fun j _ _ => hold j,
          fun j b hb => .inr ⟨j, by rw [← hold j]; exact hb, .inl rfl⟩, fun c q _ hc => absurd rfl hc, le_refl _⟩
        rcases List.mem_or_eq_of_mem_set hq with hq | hq
        · exact h.2 q hq
        · subst hq; exact h.2 p (List.mem_of_getElem? ho)

theorem bound_run (s : PState α) (h : Bound s) (hist : List (POp α)) : Bound (runNames s hist) := by
  induction hist generalizing s with
  | nil => exact h
  | cons op hist ih => exact ih _ (facts_step s h op).bound

theorem read_kept {m m' : List (List α)} (hg : Grows m m') {b : ArrRef} (hb : Placed m b)
    (hc : ∀ q, cell m' b.buf q = cell m b.buf q) : readArr m' b = readArr m b := by
  apply List.ext_getElem?
  intro k
  rw [placed_read hb, placed_read (hg.placed hb)]
  congr 1
  funext q
  exact hc q

theorem arrOf_placed {s : PState α} (h : Bound s) {i : Nat} {b : ArrRef} (hb : arrOf s i = some b) : Placed s.mem b := by
  unfold arrOf at hb
  cases hl : s.lookup i with
  | none => rw [hl] at hb; cases hb
  | some w =>
    obtain ⟨o, p⟩ := w
    rw [hl] at hb
    simp only [Option.map_some, Option.some.injEq] at hb
    subst hb
    exact h.2 p (List.mem_of_getElem? (lookup_facts hl).2)

theorem placed_lt {m : List (List α)} {b : ArrRef} (h : Placed m b) : b.buf < m.length := by
  obtain ⟨⟨xs, e, _⟩, _⟩ := h
  exact (List.getElem?_eq_some_iff.1 e).1

/-- **C130** In any history without operators in place, a name shows the same records as long as it is not bound anew. -/
theorem C130_pure_history (s : PState α) (h : Bound s) (hist : List (POp α)) (hp : ∀ op ∈ hist, ¬ InPlace op) (i : Nat)
    (hi : i < s.names.length) (hr : ∀ op ∈ hist, ¬ Rebinds i op) : (runNames s hist).shows i = s.shows i := by
  induction hist generalizing s with
  | nil => rfl
  | cons op hist ih =>
    have hf := facts_step s h op
    rw [runNames, ih _ hf.bound (fun o ho => hp o (by simp [ho])) (by have := hf.more; omega)
      (fun o ho => hr o (by simp [ho])), shows_arr, shows_arr, hf.keep i (hr op (by simp)) hi]
    cases ha : arrOf s i with
    | none => rfl
    | some b =>
      have hb := arrOf_placed h ha
      simp only [Option.map_some, Option.some.injEq]
      refine read_kept hf.grows hb (fun q => ?_)
      by_contra hne
      obtain ⟨_, _, _, h2, _⟩ := hf.frame _ q (placed_lt hb) hne
      exact hp op (by simp) h2

/-- Name `j` alone reaches the buffer of its array. -/
def Own (s : PState α) (j : Nat) (b : ArrRef) : Prop :=
  arrOf s j = some b ∧ ∀ i a, arrOf s i = some a → a.buf = b.buf → i = j

theorem own_run (s : PState α) (h : Bound s) (j : Nat) (b : ArrRef) (ho : Own s j b) (hist : List (POp α))
    (hr : ∀ op ∈ hist, ¬ Rebinds j op ∧ ¬ Renames j op) : (runNames s hist).shows j = s.shows j := by
  induction hist generalizing s with
  | nil => rfl
  | cons op hist ih =>
    have hf := facts_step s h op
    obtain ⟨hr1, hr2⟩ := hr op (by simp)
    have hb := arrOf_placed h ho.1
    have hj : j < s.names.length := by
      have ho1 := ho.1
      unfold arrOf PState.lookup at ho1
      by_contra hn
      rw [List.getElem?_eq_none (by omega)] at ho1
      simp at ho1
    have hk : arrOf (op.run s).1 j = some b := (hf.keep j hr1 hj).trans ho.1
    have hown : Own (op.run s).1 j b := by
      refine ⟨hk, fun i a ha hab => ?_⟩
      rcases hf.origin i a ha with hge | ⟨k, hk1, hk2⟩
      · have := placed_lt hb; omega
      · have hkj := ho.2 k a hk1 hab
        subst hkj
        rcases hk2 with e | ⟨_, e⟩
        · exact e.symm
        · exact absurd e hr2
    rw [runNames, ih _ hf.bound hown (fun o ho' => hr o (by simp [ho'])), shows_arr, shows_arr, hk, ho.1]
    simp only [Option.map_some, Option.some.injEq]
    refine read_kept hf.grows hb (fun q => ?_)
    by_contra hne
    obtain ⟨i, a, h1, _, h3, h4⟩ := hf.frame _ q (placed_lt hb) hne
    have := ho.2 i a h3 h4.symm
    subst this
    exact hr1 h1

/-- **C130** `y = x.copy()` is safe: in any history, operators in place included, `y` goes on showing what `x` showed, as
long as `y` itself is not bound anew (`y op= ...`, `y = y op ...`) nor given another name. -/
theorem C130_copy (s : PState α) (h : Bound s) (i : Nat) (hi : i < s.names.length) (hist : List (POp α))
    (hr : ∀ op ∈ hist, ¬ Rebinds s.names.length op ∧ ¬ Renames s.names.length op) :
    (runNames s (.copy i :: hist)).shows s.names.length = s.shows i := by
  obtain ⟨o, p, hl, hp⟩ := bound_lookup h hi
  have hf := facts_step s h (.copy i)
  have hrun : ((POp.copy i).run s).1 = ⟨(allocArr s.mem (readArr s.mem p.arr)).1,
      s.objs ++ [{ arr := (allocArr s.mem (readArr s.mem p.arr)).2 }], s.names ++ [s.objs.length]⟩ := by
    simp only [POp.run, hl]
  have hnew : arrOf ((POp.copy i).run s).1 s.names.length = some (allocArr s.mem (readArr s.mem p.arr)).2 := by
    rw [hrun]
    exact arrOf_eq (o := s.objs.length) (p := { arr := (allocArr s.mem (readArr s.mem p.arr)).2 })
      (lookup_of (by simp) (by simp))
  have hown : Own ((POp.copy i).run s).1 s.names.length (allocArr s.mem (readArr s.mem p.arr)).2 := by
    refine ⟨hnew, fun j a ha hab => ?_⟩
    by_contra hne
    by_cases hj : j < s.names.length
    · rw [hf.keep j (fun e => e) hj] at ha
      have := placed_lt (arrOf_placed h ha)
      rw [hab] at this
      simp [allocArr] at this
    · have : ((POp.copy i).run s).1.names[j]? = none := by
        rw [hrun]; exact List.getElem?_eq_none (by simp; omega)
      unfold arrOf PState.lookup at ha
      rw [this] at ha
      simp at ha
  rw [runNames, own_run _ hf.bound _ _ hown hist hr, shows_arr, hnew, PState.shows, hl, hrun]
  simp only [Option.map_some, Option.some.injEq]
  exact readArr_alloc _ _

example : (runNames exNames3 [.copy 0, .augment 0 (some (· + ·)) (.number 7), .augment 2 (some (· * ·)) (.number 0)]).shows 3
    = some [1, 2, 3] ∧
    (runNames exNames3 [.copy 0, .augment 0 (some (· + ·)) (.number 7), .augment 2 (some (· * ·)) (.number 0)]).shows 1
    = some [8, 0, 0] := by decide

/-! ## The operators of masks -/

theorem mask_refl_fits {n : Nat} (l : List Bool) (h : l.length = n) : Fits n l l := .inl ⟨h, rfl⟩

/-- The operand gives the entry `ws[k]` for the position `k`. -/
def MaskSupplies (m : List (List Bool)) (n : Nat) (ws : List Bool) : MaskOperand → Prop
  | .mask b => Fits n (readArr m b) ws
  | .ndarray b => Fits n (readArr m b) ws
  | .list l => Fits n l ws
  | .bool x => ws = List.replicate n x
  | _ => False

/-- **C130** The results meant below: an entry of `&` is true if both entries are, of `|` if one is, of `^` if they differ. -/
theorem C130_entries (x y : Bool) : (BitOp.and.fn x y = true ↔ x = true ∧ y = true) ∧
    (BitOp.or.fn x y = true ↔ x = true ∨ y = true) ∧ (BitOp.xor.fn x y = true ↔ x ≠ y) := by
  cases x <;> cases y <;> simp [BitOp.fn]

/-- **C130** `mask &= y`, `mask |= y`, `mask ^= y`: with a `MaskArray`, a boolean array, a list of `bool` or a `bool` the
mask is overwritten with the results (and its memory kept); with a `MaskGroup`, an array of codes or anything else it is
`TypeError`. -/
theorem C130_mask_augment (op : BitOp) (m : List (List Bool)) (a : ArrRef) (ha : Placed m a) :
    (∀ y ws, MaskSupplies m a.pos.length ws y → ∃ m', maskAug op m a y = (m', .ok a) ∧
      Overwritten m m' a (List.zipWith op.fn (readArr m a) ws)) ∧
    (∀ g kids, maskAug op m a (.group g kids) = (m, .error .typeError)) ∧
    (∀ n, maskAug op m a (.codes n) = (m, .error .typeError)) ∧
    maskAug op m a .other = (m, .error .typeError) := by
  refine ⟨fun y ws hy => ?_, fun g kids => rfl, fun n => rfl, rfl⟩
  have hs : Supplies m a.pos.length ws y.toArg := by cases y <;> first | exact hy | exact hy.elim
  obtain ⟨m', h1, h2, _, _⟩ := augment_supplied (f := op.fn) ha hs
  exact ⟨m', h1, h2⟩

/-- A new array in new memory showing `xs`, all else as it was. -/
def NewArray (m : List (List Bool)) (r : List (List Bool) × Py ArrRef) (xs : List Bool) : Prop :=
  ∃ m' b, r = (m', .ok b) ∧ readArr m' b = xs ∧ b.buf = m.length ∧ ∀ c q, c < m.length → cell m' c q = cell m c q

theorem newArray_fresh (m : List (List Bool)) (xs : List Bool) : NewArray m (freshArr m (.ok xs)) xs :=
  ⟨_, _, rfl, readArr_alloc m xs, rfl, fun c q hc => by simp [cell, allocArr, List.getElem?_append_left hc]⟩

theorem bcast2_fits {f : Bool → Bool → Bool} {x vs ws : List Bool} (h : Fits x.length vs ws) :
    bcast2 f x vs = .ok (List.zipWith f x ws) := by
  obtain ⟨h, rfl⟩ | ⟨v, rfl, rfl⟩ := h
  · simp [bcast2, h]
  · rw [bcast2_one, zipWith_replicate_right]

/-- **C130** `mask & y` and `mask | y`: with a `MaskArray`, a boolean array or a `MaskGroup` that has data, a new mask with
the results, and nothing is overwritten; with a list, a `bool`, an array of codes or anything else it is `ValueError`. -/
theorem C130_mask_binary (op : BitOp) (hop : op ≠ .xor) (m : List (List Bool)) (a : ArrRef) (ha : Placed m a) :
    (∀ b ws, Fits a.pos.length (readArr m b) ws →
      NewArray m (maskBin op m a (.mask b)) (List.zipWith op.fn (readArr m a) ws) ∧
      NewArray m (maskBin op m a (.ndarray b)) (List.zipWith op.fn (readArr m a) ws)) ∧
    (∀ g kids d ws, (Mask.grp g (kids.map (fun k => (k.1, .arr (readArr m k.2))))).data = .ok d →
      Fits a.pos.length d ws → NewArray m (maskBin op m a (.group g kids)) (List.zipWith op.fn (readArr m a) ws)) ∧
    (∀ l, maskBin op m a (.list l) = (m, .error .valueError)) ∧
    (∀ x, maskBin op m a (.bool x) = (m, .error .valueError)) ∧
    (∀ n, maskBin op m a (.codes n) = (m, .error .valueError)) ∧
    maskBin op m a .other = (m, .error .valueError) := by
  have hl := placed_length ha
  cases op with
  | xor => exact absurd rfl hop
  | and =>
    refine ⟨fun b ws hf => ?_, fun g kids d ws hd hf => ?_, fun _ => rfl, fun _ => rfl, fun _ => rfl, rfl⟩
    · simp only [maskBin, bcast2_fits (f := BitOp.and.fn) (hl ▸ hf)]
      exact ⟨newArray_fresh _ _, newArray_fresh _ _⟩
    · simp only [maskBin, groupData, hd, bcast2_fits (f := BitOp.and.fn) (hl ▸ hf)]
      exact newArray_fresh _ _
  | or =>
    refine ⟨fun b ws hf => ?_, fun g kids d ws hd hf => ?_, fun _ => rfl, fun _ => rfl, fun _ => rfl, rfl⟩
    · simp only [maskBin, bcast2_fits (f := BitOp.or.fn) (hl ▸ hf)]
      exact ⟨newArray_fresh _ _, newArray_fresh _ _⟩
    · simp only [maskBin, groupData, hd, bcast2_fits (f := BitOp.or.fn) (hl ▸ hf)]
      exact newArray_fresh _ _

/-- **C130** `mask ^ y`, and the reflected `y & mask`, `y | mask`, `y ^ mask` for arrays, lists and `bool`s `y`, are the
universal functions: a list or a `bool` is accepted; and `mask ^ group` is `TypeError`. -/
theorem C130_mask_ufunc (op : BitOp) (m : List (List Bool)) (a : ArrRef) (ha : Placed m a) :
    (∀ y ws, MaskSupplies m a.pos.length ws y →
      NewArray m (maskBin .xor m a y) (List.zipWith Bool.xor (readArr m a) ws) ∧
      NewArray m (maskRefl op m y a) (List.zipWith op.fn (readArr m a) ws)) ∧
    (∀ g kids, maskBin .xor m a (.group g kids) = (m, .error .typeError)) ∧
    maskBin .xor m a .other = (m, .error .typeError) ∧
    (∀ n, n = a.pos.length → maskBin .xor m a (.codes n) = (m, .error .attributeError)) ∧
    (∀ n, a.pos.length ≠ 1 → n ≠ 1 → n ≠ a.pos.length → maskBin .xor m a (.codes n) = (m, .error .valueError)) := by
  have hl := placed_length ha
  have key : ∀ (op : BitOp) (y : MaskOperand) ws, MaskSupplies m a.pos.length ws y →
      NewArray m (maskCall op m a y) (List.zipWith op.fn (readArr m a) ws) := by
    intro op y ws hy
    cases y with
    | mask b =>
      have hy' : Fits a.pos.length (readArr m b) ws := hy
      simp only [maskCall, MaskOperand.toArg, binary, bcast2_fits (f := op.fn) (hl ▸ hy')]
      exact newArray_fresh _ _
    | ndarray b =>
      have hy' : Fits a.pos.length (readArr m b) ws := hy
      simp only [maskCall, MaskOperand.toArg, binary, bcast2_fits (f := op.fn) (hl ▸ hy')]
      exact newArray_fresh _ _
    | list l =>
      have hy' : Fits a.pos.length l ws := hy
      simp only [maskCall, MaskOperand.toArg, binary, bcast2_fits (f := op.fn) (hl ▸ hy')]
      exact newArray_fresh _ _
    | bool x =>
      have hy' : ws = List.replicate a.pos.length x := hy
      have hz : List.zipWith op.fn (readArr m a) ws = (readArr m a).map (fun v => op.fn v x) := by
        rw [hy', ← hl, zipWith_replicate_right]
      rw [hz]
      exact newArray_fresh _ _
    | group g kids => exact hy.elim
    | codes n => exact hy.elim
    | other => exact hy.elim
  refine ⟨fun y ws hy => ⟨key .xor y ws hy, key op y ws hy⟩, fun g kids => rfl, rfl, fun n hn => ?_, fun n h1 h2 h3 => ?_⟩
  · simp [maskBin, maskCall, bcast2, hl, hn]
  · have hb : bcast2 (fun (_ : Bool) (_ : Unit) => ()) (readArr m a) (List.replicate n ()) = .error .valueError := by
      unfold bcast2
      rw [if_neg (by simp [hl]; exact fun e => h3 e.symm)]
      split
      · next x ys e => rw [e] at hl; simp at hl; exact absurd hl.symm h1
      · rename_i e _
        have := congrArg List.length e
        simp at this
        exact absurd this h2
      · rfl
    simp only [maskBin, maskCall, hb]

/-- **C130** A `MaskGroup` has no operators in place: `group &= y` is `group = group & y`, which binds the name to a new
`MaskArray`, and no mask of the group changes. -/
theorem C130_group (op : BitOp) (m : List (List Bool)) (g : Agg) (kids : List (String × ArrRef)) (y : MaskOperand) :
    groupAug op m g kids y = groupBin op m g kids y ∧
    (∀ c q, c < m.length → cell (groupAug op m g kids y).1 c q = cell m c q) ∧
    (∀ b d ws, op ≠ .xor → (Mask.grp g (kids.map (fun k => (k.1, .arr (readArr m k.2))))).data = .ok d →
      Fits d.length (readArr m b) ws → NewArray m (groupAug op m g kids (.mask b)) (List.zipWith op.fn d ws) ∧
        NewArray m (groupAug op m g kids (.ndarray b)) (List.zipWith op.fn d ws)) ∧
    (∀ l, op ≠ .xor → groupAug op m g kids (.list l) = (m, .error .valueError)) ∧
    groupAug .xor m g kids y = (m, .error .typeError) := by
  refine ⟨rfl, fun c q hc => ?_, fun b d ws hop hd hf => ?_, fun l hop => ?_, rfl⟩
  · have hp : PureEffect m (groupAug op m g kids y) := by
      unfold groupAug groupBin
      split
      · exact pure_same _ _
      · split
        · split
          · exact pure_same _ _
          · exact pure_fresh _ _
        · split
          · exact pure_same _ _
          · split
            · exact pure_same _ _
            · exact pure_fresh _ _
        · split
          · exact pure_same _ _
          · exact pure_fresh _ _
        · exact pure_same _ _
    exact hp.frame c q hc
  · cases op with
    | xor => exact absurd rfl hop
    | and =>
      simp only [groupAug, groupBin, groupData, hd, bcast2_fits (f := BitOp.and.fn) hf]
      exact ⟨newArray_fresh _ _, newArray_fresh _ _⟩
    | or =>
      simp only [groupAug, groupBin, groupData, hd, bcast2_fits (f := BitOp.or.fn) hf]
      exact ⟨newArray_fresh _ _, newArray_fresh _ _⟩
  · cases op with
    | xor => exact absurd rfl hop
    | and => rfl
    | or => rfl

/-- Refuted: `mask &= y` works exactly if `mask & y` works, and `y & mask` exactly if `mask & y`.  With a group only
`mask & group` works, with a list only the other two. -/
theorem C130_mask_false : ∃ (m : List (List Bool)) (a : ArrRef) (g l : MaskOperand), Placed m a ∧
    maskAug .and m a g = (m, .error .typeError) ∧ NewArray m (maskBin .and m a g) [true, false] ∧
    maskBin .and m a l = (m, .error .valueError) ∧ NewArray m (maskRefl .and m l a) [true, false] ∧
    ∃ m', maskAug .and m a l = (m', .ok a) ∧ readArr m' a = [true, false] := by
  have ha : Placed [[true, true], [true, false]] ⟨0, [0, 1]⟩ := ⟨⟨[true, true], rfl, by decide⟩, by decide⟩
  have hs : MaskSupplies [[true, true], [true, false]] 2 [true, false] (.list [true, false]) := .inl ⟨rfl, rfl⟩
  refine ⟨[[true, true], [true, false]], ⟨0, [0, 1]⟩, .group .or [("a", ⟨1, [0, 1]⟩), ("b", ⟨1, [0, 1]⟩)],
    .list [true, false], ha, rfl, ?_, rfl, ?_, ⟨_, rfl, by decide⟩⟩
  · exact (C130_mask_binary .and (by decide) _ _ ha).2.1 _ _ [true, false] [true, false] (by decide) (.inl ⟨rfl, rfl⟩)
  · exact ((C130_mask_ufunc .and _ _ ha).1 _ _ hs).2

end Gcl
