import Verif.Spec.EventObj
import Verif.Props.InPlace
/-! # Lemmas about events as objects -/
namespace Gcl
set_option autoImplicit false
open Spec

variable {α : Type}

/-- The objects an object refers to. -/
def EObj.refs : EObj → List Nat
  | .arr _ => []
  | .set parts => particleAttrs.map parts
  | .graph p d => [p, d]

/-- `s'` has grown from `s`; the new objects refer only to new objects and to those in `P`, and share memory only with
those in `P`. -/
structure Grown (P : Nat → Prop) (s s' : EState α) : Prop where
  mem : ∃ e, s'.mem = s.mem ++ e
  objs : ∃ os, s'.objs = s.objs ++ os
  refs : ∀ i o, s.objs.length ≤ i → s'.objs[i]? = some o → ∀ r ∈ o.refs, P r ∨ s.objs.length ≤ r
  bufs : ∀ i r, s.objs.length ≤ i → s'.objs[i]? = some (.arr r) →
    s.mem.length ≤ r.buf ∨ ∃ j r', P j ∧ s.objs[j]? = some (.arr r') ∧ r'.buf = r.buf

theorem Grown.refl (P : Nat → Prop) (s : EState α) : Grown P s s :=
  ⟨⟨[], by simp⟩, ⟨[], by simp⟩, fun i o hi ho => by
    have := (List.getElem?_eq_some_iff.1 ho).1; omega, fun i r hi ho => by
    have := (List.getElem?_eq_some_iff.1 ho).1; omega⟩

theorem Grown.old {P : Nat → Prop} {s s' : EState α} (h : Grown P s s') {i : Nat} (hi : i < s.objs.length) :
    s'.objs[i]? = s.objs[i]? := by
  obtain ⟨os, ho⟩ := h.objs
  rw [ho, List.getElem?_append_left hi]

theorem Grown.old' {P : Nat → Prop} {s s' : EState α} (h : Grown P s s') {i : Nat} {o : EObj}
    (hi : s.objs[i]? = some o) : s'.objs[i]? = some o := by
  rw [h.old (List.getElem?_eq_some_iff.1 hi).1, hi]

theorem Grown.le {P : Nat → Prop} {s s' : EState α} (h : Grown P s s') : s.objs.length ≤ s'.objs.length := by
  obtain ⟨os, ho⟩ := h.objs; simp [ho]

theorem Grown.mle {P : Nat → Prop} {s s' : EState α} (h : Grown P s s') : s.mem.length ≤ s'.mem.length := by
  obtain ⟨os, ho⟩ := h.mem; simp [ho]

theorem Grown.trans {P : Nat → Prop} {s s' s'' : EState α} (h : Grown P s s')
    (h' : Grown (fun i => P i ∨ s.objs.length ≤ i) s' s'') : Grown P s s'' := by
  have hl := h.le
  have hm := h.mle
  refine ⟨?_, ?_, ?_, ?_⟩
  · obtain ⟨e, he⟩ := h.mem
    obtain ⟨e', he'⟩ := h'.mem
    exact ⟨e ++ e', by rw [he', he]; simp⟩
  · obtain ⟨e, he⟩ := h.objs
    obtain ⟨e', he'⟩ := h'.objs
    exact ⟨e ++ e', by rw [he', he]; simp⟩
  · intro i o hi ho r hr
    by_cases hi' : i < s'.objs.length
    · rw [h'.old hi'] at ho
      exact h.refs i o hi ho r hr
    · rcases h'.refs i o (by omega) ho r hr with hp | hp
      · exact hp
      · right; omega
  · intro i r hi ho
    by_cases hi' : i < s'.objs.length
    · rw [h'.old hi'] at ho
      exact h.bufs i r hi ho
    · rcases h'.bufs i r (by omega) ho with hp | ⟨j, r', hj, hjo, hjb⟩
      · left; omega
      · rcases hj with hj | hj
        · by_cases hlt : j < s.objs.length
          · rw [h.old hlt] at hjo
            exact Or.inr ⟨j, r', hj, hjo, hjb⟩
          · rcases h.bufs j r' (by omega) hjo with hq | ⟨k, r'', hk, hko, hkb⟩
            · left; omega
            · exact Or.inr ⟨k, r'', hk, hko, by omega⟩
        · rcases h.bufs j r' hj hjo with hq | ⟨k, r'', hk, hko, hkb⟩
          · left; omega
          · exact Or.inr ⟨k, r'', hk, hko, by omega⟩

theorem Grown.weaken {P Q : Nat → Prop} {s s' : EState α} (h : Grown P s s') (hpq : ∀ i, P i → Q i) : Grown Q s s' :=
  ⟨h.mem, h.objs, fun i o hi ho r hr => (h.refs i o hi ho r hr).imp (hpq r) id,
    fun i r hi ho => (h.bufs i r hi ho).imp id fun ⟨j, r', a, b, c⟩ => ⟨j, r', hpq j a, b, c⟩⟩

theorem Grown.records {P : Nat → Prop} {s s' : EState α} (h : Grown P s s') (hs : EventsSound s) {i : Nat}
    (hi : i < s.objs.length) : s'.records i = s.records i := by
  obtain ⟨e, he⟩ := h.mem
  unfold EState.records
  rw [h.old hi]
  split
  · next r hr =>
    obtain ⟨⟨xs, h1, _⟩, _⟩ := hs i _ hr
    rw [he, readArr_ext _ _ _ (List.getElem?_eq_some_iff.1 h1).1]
  · rfl

theorem Grown.isArr {P : Nat → Prop} {s s' : EState α} (h : Grown P s s') {i : Nat} (hi : s.isArr i = true) :
    s'.isArr i = true := by
  unfold EState.isArr at *
  split at hi
  · next r hr => rw [h.old' hr]
  · cases hi

theorem Grown.isSet {P : Nat → Prop} {s s' : EState α} (h : Grown P s s') {i : Nat} (hi : s.isSet i = true) :
    s'.isSet i = true := by
  unfold EState.isSet at *
  split at hi
  · next r hr => rw [h.old' hr]
  · cases hi

theorem isArr_iff {s : EState α} {i : Nat} : s.isArr i = true ↔ ∃ r, s.objs[i]? = some (.arr r) := by
  unfold EState.isArr
  split <;> simp_all

theorem isSet_iff {s : EState α} {i : Nat} : s.isSet i = true ↔ ∃ r, s.objs[i]? = some (.set r) := by
  unfold EState.isSet
  split <;> simp_all

/-- An object added at the end. -/
theorem grown_add {P : Nat → Prop} {s : EState α} (hs : EventsSound s) (e : List (List α)) (o : EObj)
    (href : ∀ r ∈ o.refs, P r)
    (hbuf : ∀ r, o = .arr r → s.mem.length ≤ r.buf ∨ ∃ j r', P j ∧ s.objs[j]? = some (.arr r') ∧ r'.buf = r.buf)
    (hok : match o with
      | .arr r => Placed (s.mem ++ e) r
      | .set parts => ∀ a, a ≠ Attr.adj → s.isArr (parts a) = true
      | .graph p d => s.isSet p = true ∧ s.isArr d = true) :
    Grown P s ⟨s.mem ++ e, s.objs ++ [o]⟩ ∧ EventsSound (⟨s.mem ++ e, s.objs ++ [o]⟩ : EState α) := by
  have hg : Grown P s ⟨s.mem ++ e, s.objs ++ [o]⟩ := by
    refine ⟨⟨e, rfl⟩, ⟨[o], rfl⟩, ?_, ?_⟩
    · intro i o' hi ho r hr
      simp only [List.getElem?_append_right hi] at ho
      rw [List.getElem?_singleton] at ho
      split at ho
      · cases ho; exact Or.inl (href r hr)
      · cases ho
    · intro i r hi ho
      simp only [List.getElem?_append_right hi] at ho
      rw [List.getElem?_singleton] at ho
      split at ho
      · cases ho; exact hbuf r rfl
      · cases ho
  refine ⟨hg, ?_⟩
  intro i o' ho
  by_cases hi : i < s.objs.length
  · rw [hg.old hi] at ho
    have := hs i o' ho
    cases o' with
    | arr r =>
      obtain ⟨⟨xs, h1, h2⟩, h3⟩ := this
      refine ⟨⟨xs, ?_, h2⟩, h3⟩
      change (s.mem ++ e)[r.buf]? = _
      rw [List.getElem?_append_left (List.getElem?_eq_some_iff.1 h1).1, h1]
    | set parts => exact fun a ha => hg.isArr (this a ha)
    | graph p d => exact ⟨hg.isSet this.1, hg.isArr this.2⟩
  · simp only at ho
    rw [List.getElem?_append_right (by omega), List.getElem?_singleton] at ho
    split at ho
    · cases ho
      cases o with
      | arr r => exact hok
      | set parts => exact fun a ha => hg.isArr (hok a ha)
      | graph p d => exact ⟨hg.isSet hok.1, hg.isArr hok.2⟩
    · cases ho

/-- The outcome `m` of making an object from `s` is what `v` says: the exception, or a new array object showing the
records. -/
def Gives (P : Nat → Prop) (Q : ArrRef → Prop) (s : EState α) (m : Py (EState α × Nat)) : Py (List α) → Prop
  | .error e => m = .error e
  | .ok x => ∃ s' i, m = .ok (s', i) ∧ EventsSound s' ∧ Grown P s s' ∧ s'.records i = some x ∧ s.objs.length ≤ i ∧
    ∀ r, s'.objs[i]? = some (.arr r) → Q r

theorem gives_addArr {P : Nat → Prop} {Q : ArrRef → Prop} {s : EState α} (hs : EventsSound s) (e : List (List α)) (r : ArrRef)
    (hp : Placed (s.mem ++ e) r)
    (hbuf : s.mem.length ≤ r.buf ∨ ∃ j r', P j ∧ s.objs[j]? = some (.arr r') ∧ r'.buf = r.buf) (hQ : Q r) :
    Gives P Q s (.ok (s.addArr (s.mem ++ e, r))) (.ok (readArr (s.mem ++ e) r)) := by
  obtain ⟨h1, h2⟩ := grown_add (P := P) hs e (.arr r) (by simp [EObj.refs]) (fun r' h => by cases h; exact hbuf) hp
  exact ⟨_, _, rfl, h2, h1, by simp [EState.records], Nat.le_refl _, by
    intro r' hr'
    simp only [List.getElem?_append_right (Nat.le_refl _), Nat.sub_self, List.getElem?_cons_zero, Option.some.injEq,
      EObj.arr.injEq] at hr'
    rw [← hr']; exact hQ⟩

theorem gives_alloc (P : Nat → Prop) (Q : ArrRef → Prop) {s : EState α} (hs : EventsSound s) (xs : List α)
    (hQ : Q (allocArr s.mem xs).2) : Gives P Q s (.ok (s.addArr (allocArr s.mem xs))) (.ok xs) := by
  have := gives_addArr (P := P) hs [xs] (allocArr s.mem xs).2 (placed_alloc s.mem xs) (Or.inl (Nat.le_refl _)) hQ
  rw [show readArr (s.mem ++ [xs]) (allocArr s.mem xs).2 = xs from readArr_alloc s.mem xs] at this
  exact this

theorem gives_copy (P : Nat → Prop) {s : EState α} (hs : EventsSound s) {i : Nat} {x : List α}
    (hi : s.records i = some x) : Gives P (fun _ => True) s (s.copyPart i) (.ok x) := by
  unfold EState.records at hi
  split at hi
  · next r hr =>
    cases hi
    unfold EState.copyPart
    simp only [hr]
    split
    · rw [wrap_alloc]; exact gives_alloc P _ hs _ trivial
    · next h =>
      rw [listTruthy_iff, not_not] at h
      rw [h]; exact gives_alloc P _ hs [] trivial
  · cases hi

theorem read_view_placed {m : List (List α)} {r : ArrRef} (h : Placed m r) (is : List Nat)
    (hi : ∀ i ∈ is, i < r.pos.length) : readArr m ⟨r.buf, gather r.pos is⟩ = gather (readArr m r) is := by
  obtain ⟨⟨xs, h1, h2⟩, _⟩ := h
  have : m.getD r.buf [] = xs := by simp [List.getD_eq_getElem?_getD, h1]
  simp only [readArr, this]
  exact gather_gather_buf xs r.pos is h2 hi

/-- A subscript that gives new memory for `n` records. -/
def NewMemory (k : Key) (n : Nat) : Prop :=
  match k with
  | .slice _ _ step => step.getD 1 ≠ 1 ∧ ∀ idxs, k.resolve n = .ok idxs → 2 ≤ idxs.length
  | _ => True

/-- How the array made by a subscript of the array `r0` refers to memory. -/
def ViewOf (k : Key) (r0 r : ArrRef) : Prop :=
  match k with
  | .slice _ _ step => step.getD 1 = 1 → (r0.pos = [] ∧ r.pos = []) ∨
      ∃ idxs, k.resolve r0.pos.length = .ok idxs ∧ r = ⟨r0.buf, gather r0.pos idxs⟩
  | _ => True

theorem viewOf_empty (k : Key) (r0 r : ArrRef) (h0 : r0.pos = []) (h : r.pos = []) : ViewOf k r0 r := by
  cases k with
  | slice b e st => exact fun _ => Or.inl ⟨h0, h⟩
  | _ => trivial

theorem gives_get {P : Nat → Prop} {s : EState α} (hs : EventsSound s) {i : Nat} {x : List α} (k : Key)
    (hi : s.records i = some x) (hP : P i ∨ x = [] ∨ NewMemory k x.length) :
    Gives P (fun r => ∀ r0, s.objs[i]? = some (.arr r0) → ViewOf k r0 r) s (s.getPart k i) (picked k x) := by
  unfold EState.records at hi
  split at hi
  case h_2 => cases hi
  next r hr =>
  cases hi
  have hpl : Placed s.mem r := hs i _ hr
  have hlen := placed_length hpl
  unfold EState.getPart
  simp only [hr]
  unfold picked
  by_cases hx : readArr s.mem r = []
  · rw [if_pos hx, if_neg (by rw [listTruthy_iff, not_not]; exact hx)]
    refine gives_alloc P _ hs [] ?_
    intro r0 hr0
    cases hr0
    rw [hx] at hlen
    exact viewOf_empty k _ _ (List.eq_nil_of_length_eq_zero hlen.symm) rfl
  rw [if_neg hx, if_pos (by rw [listTruthy_iff]; exact hx)]
  rw [Key.apply, hlen, npGet]
  rw [hlen] at hP
  cases hres : k.resolve r.pos.length with
  | error e => simp [Gives]
  | ok idxs =>
    have hb := resolve_bound _ _ _ hres
    simp only
    have hfresh : ∀ k', k' = k → (∀ b e st, k' ≠ .slice b e st) →
        Gives P (fun q => ∀ r0, some (EObj.arr r) = some (.arr r0) → ViewOf k' r0 q) s (.ok (s.addArr (wrapArr (allocArr s.mem (gather (readArr s.mem r) idxs)).1
          (allocArr s.mem (gather (readArr s.mem r) idxs)).2 none))) (.ok (gather (readArr s.mem r) idxs)) := by
      intro k' _ hk'
      rw [wrap_alloc]
      refine gives_alloc P _ hs _ ?_
      intro r0 _
      cases k' with
      | slice b e st => exact absurd rfl (hk' b e st)
      | _ => trivial
    cases k with
    | mask m => exact hfresh _ rfl (by simp)
    | ints is => exact hfresh _ rfl (by simp)
    | slice b e st =>
      simp only
      have hcon := slice_contiguous r.pos.length b e st idxs hres r.pos hpl.2 rfl
      have hview := read_view_placed hpl idxs hb
      by_cases hcc : contiguous (gather r.pos idxs) = true
      · rw [show wrapArr s.mem ⟨r.buf, gather r.pos idxs⟩ none = (s.mem, ⟨r.buf, gather r.pos idxs⟩) by
          simp [wrapArr, hcc]]
        have hPi : P i := by
          rcases hP with h | h | h
          · exact h
          · exact absurd h hx
          · rcases hcon.1 hcc with h' | h'
            · exact absurd h' h.1
            · have := h.2 idxs hres; omega
        have hpl' : Placed s.mem ⟨r.buf, gather r.pos idxs⟩ := by
          obtain ⟨⟨xs, h1, h2⟩, _⟩ := hpl
          exact ⟨⟨xs, h1, fun p hp => h2 p (mem_gather hp)⟩, hcc⟩
        have := gives_addArr (P := P) hs [] ⟨r.buf, gather r.pos idxs⟩ (by simpa using hpl')
          (Or.inr ⟨i, r, hPi, hr, rfl⟩)
          (Q := fun r' => ∀ r0, some (EObj.arr r) = some (.arr r0) → ViewOf (.slice b e st) r0 r') (by
            intro r0 hr0
            cases hr0
            exact fun _ => Or.inr ⟨idxs, hres, rfl⟩)
        rw [List.append_nil] at this
        rw [← hview]
        exact this
      · rw [show wrapArr s.mem ⟨r.buf, gather r.pos idxs⟩ none =
          allocArr s.mem (readArr s.mem ⟨r.buf, gather r.pos idxs⟩) by simp [wrapArr, hcc], hview]
        refine gives_alloc P _ hs _ ?_
        intro r0 hr0
        cases hr0
        exact fun h1 => absurd (hcon.2 (Or.inl h1)) hcc

/-! ## Making particle sets and events -/

theorem records_lt {s : EState α} {i : Nat} {x : List α} (h : s.records i = some x) : i < s.objs.length := by
  unfold EState.records at h
  split at h
  · next r hr => exact (List.getElem?_eq_some_iff.1 hr).1
  · cases h

theorem records_isArr {s : EState α} {i : Nat} {x : List α} (h : s.records i = some x) : s.isArr i = true := by
  unfold EState.records at h
  split at h
  · next r hr => exact isArr_iff.2 ⟨r, hr⟩
  · cases h

theorem isArr_records {s : EState α} {i : Nat} (h : s.isArr i = true) : ∃ x, s.records i = some x := by
  obtain ⟨r, hr⟩ := isArr_iff.1 h
  exact ⟨_, by simp [EState.records, hr]; rfl⟩

theorem build_ok (P : Nat → Prop) (Q : Attr → ArrRef → Prop) (make : EState α → Attr → Py (EState α × Nat)) (want : Attr → List α) (as : List Attr)
    (hnd : as.Nodup) (s : EState α) (hs : EventsSound s)
    (hmake : ∀ a ∈ as, ∀ s', EventsSound s' → Grown P s s' →
      Gives (fun i => P i ∨ s.objs.length ≤ i) (Q a) s' (make s' a) (.ok (want a))) (f : Attr → Nat) :
    ∃ s' f', buildParts make as s f = .ok (s', f') ∧ EventsSound s' ∧ Grown P s s' ∧ (∀ a, a ∉ as → f' a = f a) ∧
      (∀ a ∈ as, s'.records (f' a) = some (want a) ∧ s.objs.length ≤ f' a ∧
        ∀ r, s'.objs[f' a]? = some (.arr r) → Q a r) ∧
      ∀ a ∈ as, ∀ b ∈ as, a ≠ b → f' a ≠ f' b := by
  induction as generalizing s f P with
  | nil => exact ⟨s, f, rfl, hs, Grown.refl P s, fun _ _ => rfl, by simp, by simp⟩
  | cons a as ih =>
    obtain ⟨s1, i, hm, hs1, hg1, hr, hi, hq⟩ := hmake a (by simp) s hs (Grown.refl P s)
    have hg1' : Grown P s s1 := (Grown.refl P s).trans hg1
    have hnd' := List.nodup_cons.1 hnd
    obtain ⟨s', f', hb, hs', hg, hout, hin, hdist⟩ := ih (fun i => P i ∨ s.objs.length ≤ i) hnd'.2 s1 hs1 (by
      intro b hb s2 hs2 hg2
      have hg3 := hg1'.trans hg2
      have := hmake b (by simp [hb]) s2 hs2 hg3
      obtain ⟨s3, j, h1, h2, h3, h4, h5, h6⟩ := this
      refine ⟨s3, j, h1, h2, h3.weaken (fun i hi => ?_), h4, h5, h6⟩
      exact Or.inl hi) (fun x => if x = a then i else f x)
    have hi1 := records_lt hr
    refine ⟨s', f', ?_, hs', hg1'.trans hg, ?_, ?_, ?_⟩
    · simp only [buildParts, hm]; exact hb
    · intro b hb'
      simp only [List.mem_cons, not_or] at hb'
      rw [hout b hb'.2, if_neg hb'.1]
    · intro b hb'
      rcases List.mem_cons.1 hb' with rfl | hb'
      · rw [hout b hnd'.1, if_pos rfl, hg.records hs1 hi1]
        exact ⟨hr, hi, fun r hr' => hq r (by rw [← hg.old hi1]; exact hr')⟩
      · have := hin b hb'
        exact ⟨this.1, Nat.le_trans hg1'.le this.2.1, this.2.2⟩
    · intro b hb c hc hbc
      have hfa : f' a = i := by rw [hout a hnd'.1, if_pos rfl]
      rcases List.mem_cons.1 hb with rfl | hb' <;> rcases List.mem_cons.1 hc with rfl | hc'
      · exact absurd rfl hbc
      · have := (hin c hc').2.1; omega
      · have := (hin b hb').2.1; omega
      · exact hdist b hb' c hc' hbc

theorem build_err (P : Nat → Prop) (Q : Attr → ArrRef → Prop) (make : EState α → Attr → Py (EState α × Nat)) (want : Attr → Py (List α))
    (as : List Attr) (s : EState α) (hs : EventsSound s)
    (hmake : ∀ a ∈ as, ∀ s', EventsSound s' → Grown P s s' →
      Gives (fun i => P i ∨ s.objs.length ≤ i) (Q a) s' (make s' a) (want a)) (f : Attr → Nat)
    (he : ∃ a ∈ as, ∃ e, want a = .error e) :
    ∃ a ∈ as, ∃ e, want a = .error e ∧ buildParts make as s f = .error e := by
  induction as generalizing s f P with
  | nil => simp at he
  | cons a as ih =>
    have h := hmake a (by simp) s hs (Grown.refl P s)
    cases hw : want a with
    | error e =>
      rw [hw] at h
      exact ⟨a, by simp, e, hw, by simp only [buildParts, show make s a = .error e from h]⟩
    | ok x =>
      rw [hw] at h
      obtain ⟨s1, i, hm, hs1, hg1, hr, hi, _⟩ := h
      have hg1' : Grown P s s1 := (Grown.refl P s).trans hg1
      obtain ⟨b, hb, e, h1, h2⟩ := ih (fun i => P i ∨ s.objs.length ≤ i) s1 hs1 (by
        intro b hb s2 hs2 hg2
        have := hmake b (by simp [hb]) s2 hs2 (hg1'.trans hg2)
        cases hw : want b with
        | error e => rw [hw] at this; exact this
        | ok x =>
          rw [hw] at this
          obtain ⟨s3, j, h1, h2, h3, h4, h5, h6⟩ := this
          exact ⟨s3, j, h1, h2, h3.weaken (fun i hi => Or.inl hi), h4, h5, h6⟩) (fun x => if x = a then i else f x) (by
        obtain ⟨c, hc, e, hce⟩ := he
        rcases List.mem_cons.1 hc with rfl | hc
        · rw [hw] at hce; cases hce
        · exact ⟨c, hc, e, hce⟩)
      exact ⟨b, by simp [hb], e, h1, by simp only [buildParts, hm]; exact h2⟩

theorem mem_particleAttrs (a : Attr) : a ∈ particleAttrs ↔ a ≠ .adj := by cases a <;> simp [particleAttrs]

theorem nodup_particleAttrs : particleAttrs.Nodup := by decide

/-- The outcome is a new particle set with new attributes showing `want`. -/
def MadeSet (P : Nat → Prop) (Q : Attr → ArrRef → Prop) (s : EState α) (m : Py (EState α × Nat)) (want : Attr → List α) : Prop :=
  ∃ s' i parts, m = .ok (s', i) ∧ EventsSound s' ∧ Grown P s s' ∧ s'.objs[i]? = some (.set parts) ∧
    s.objs.length ≤ i ∧ i + 1 = s'.objs.length ∧
    (∀ a, a ≠ .adj → s'.records (parts a) = some (want a) ∧ s.objs.length ≤ parts a ∧
      ∀ r, s'.objs[parts a]? = some (.arr r) → Q a r) ∧
    ∀ a b, a ≠ .adj → b ≠ .adj → a ≠ b → parts a ≠ parts b

theorem addSet_ok (P : Nat → Prop) (Q : Attr → ArrRef → Prop) (make : EState α → Attr → Py (EState α × Nat)) (want : Attr → List α)
    (s : EState α) (hs : EventsSound s)
    (hmake : ∀ a, a ≠ .adj → ∀ s', EventsSound s' → Grown P s s' →
      Gives (fun i => P i ∨ s.objs.length ≤ i) (Q a) s' (make s' a) (.ok (want a))) :
    MadeSet P Q s (s.addSet make) want := by
  obtain ⟨s', f', hb, hs', hg, _, hin, hd⟩ := build_ok P Q make want particleAttrs nodup_particleAttrs s hs
    (fun a ha => hmake a ((mem_particleAttrs a).1 ha)) (fun _ => 0)
  obtain ⟨h1, h2⟩ := grown_add (P := fun i => P i ∨ s.objs.length ≤ i) hs' [] (.set f') (by
    intro r hr
    simp only [EObj.refs, List.mem_map] at hr
    obtain ⟨a, ha, rfl⟩ := hr
    exact Or.inr (hin a ha).2.1) (by simp) (by
    intro a ha
    exact records_isArr (hin a ((mem_particleAttrs a).2 ha)).1)
  rw [List.append_nil] at h1 h2
  refine ⟨_, s'.objs.length, f', by simp only [EState.addSet, hb], h2, hg.trans h1, by simp, hg.le, by simp, ?_, ?_⟩
  · intro a ha
    have := hin a ((mem_particleAttrs a).2 ha)
    exact ⟨by rw [h1.records hs' (records_lt this.1)]; exact this.1, this.2.1,
      fun r hr => this.2.2 r (by rw [← h1.old (records_lt this.1)]; exact hr)⟩
  · intro a b ha hb
    exact hd a ((mem_particleAttrs a).2 ha) b ((mem_particleAttrs b).2 hb)

theorem emptySet_ok (P : Nat → Prop) (s : EState α) (hs : EventsSound s) :
    MadeSet P (fun _ r => r.pos = []) s s.emptySet (fun _ => []) :=
  addSet_ok P _ _ _ s hs fun a _ s' hs' _ => by
    simp only [EState.givenPart]
    exact gives_alloc _ _ hs' [] rfl

theorem addSet_err (P : Nat → Prop) (Q : Attr → ArrRef → Prop) (make : EState α → Attr → Py (EState α × Nat)) (want : Attr → Py (List α))
    (s : EState α) (hs : EventsSound s)
    (hmake : ∀ a, a ≠ .adj → ∀ s', EventsSound s' → Grown P s s' →
      Gives (fun i => P i ∨ s.objs.length ≤ i) (Q a) s' (make s' a) (want a))
    (he : ∃ a, a ≠ .adj ∧ ∃ e, want a = .error e) :
    ∃ a, a ≠ .adj ∧ ∃ e, want a = .error e ∧ s.addSet make = .error e := by
  obtain ⟨a, ha, e, h1, h2⟩ := build_err P Q make want particleAttrs s hs
    (fun a ha => hmake a ((mem_particleAttrs a).1 ha)) (fun _ => 0)
    (he.imp fun a h => ⟨(mem_particleAttrs a).2 h.1, h.2⟩)
  exact ⟨a, (mem_particleAttrs a).1 ha, e, h1, by simp only [EState.addSet, h2]⟩

/-- How `part` makes one attribute from an array in `D` showing the records `x`: as `w x` says. -/
def Maker (P D : Nat → Prop) (Q : Nat → ArrRef → Prop) (s : EState α) (part : EState α → Nat → Py (EState α × Nat)) (w : List α → Py (List α)) : Prop :=
  w [] = .ok [] ∧ (∀ i r, s.records i = some [] → r.pos = [] → Q i r) ∧ ∀ i x, D i → s.records i = some x → (∀ s', EventsSound s' → Grown P s s' →
    Gives (fun i => P i ∨ s.objs.length ≤ i) (Q i) s' (part s' i) (w x))

theorem setTruthy_false {s : EState α} {parts : Attr → Nat} {x : Attr → List α}
    (hx : ∀ a, a ≠ .adj → s.records (parts a) = some (x a)) (h : s.setTruthy parts = false) (a : Attr) (ha : a ≠ .adj) :
    x a = [] := by
  rw [EState.setTruthy, List.any_eq_false] at h
  have := h a ((mem_particleAttrs a).2 ha)
  rw [hx a ha, Option.any_some, listTruthy_iff, not_not] at this
  exact this

theorem setFrom_ok {P D : Nat → Prop} {Q : Nat → ArrRef → Prop} {s : EState α} (hs : EventsSound s) {part : EState α → Nat → Py (EState α × Nat)}
    {w : List α → Py (List α)} (hw : Maker P D Q s part w) {p : Nat} {parts : Attr → Nat} (hp : s.objs[p]? = some (.set parts))
    (hD : ∀ a, a ≠ .adj → D (parts a)) (x y : Attr → List α) (hx : ∀ a, a ≠ .adj → s.records (parts a) = some (x a))
    (hy : ∀ a, a ≠ .adj → w (x a) = .ok (y a)) : MadeSet P (fun a => Q (parts a)) s (s.setFrom part p) y := by
  simp only [EState.setFrom, hp]
  split
  · apply addSet_ok P _ _ _ s hs
    intro a ha s' hs' hg
    rw [← hy a ha]
    exact hw.2.2 _ _ (hD a ha) (hx a ha) s' hs' hg
  · next h =>
    obtain ⟨s', i, ps, h1, h2, h3, h4, h5, h6, h7, h8⟩ := emptySet_ok P s hs
    refine ⟨s', i, ps, h1, h2, h3, h4, h5, h6, fun a ha => ?_, h8⟩
    have := hy a ha
    rw [setTruthy_false hx (by simpa using h) a ha, hw.1] at this
    rw [← Except.ok.inj this]
    obtain ⟨j1, j2, j3⟩ := h7 a ha
    refine ⟨j1, j2, fun r hr => hw.2.1 _ r ?_ (j3 r hr)⟩
    rw [hx a ha, setTruthy_false hx (by simpa using h) a ha]

theorem setFrom_err {P D : Nat → Prop} {Q : Nat → ArrRef → Prop} {s : EState α} (hs : EventsSound s) {part : EState α → Nat → Py (EState α × Nat)}
    {w : List α → Py (List α)} (hw : Maker P D Q s part w) {p : Nat} {parts : Attr → Nat} (hp : s.objs[p]? = some (.set parts))
    (hD : ∀ a, a ≠ .adj → D (parts a)) (x : Attr → List α) (hx : ∀ a, a ≠ .adj → s.records (parts a) = some (x a))
    (he : ∃ a, a ≠ .adj ∧ ∃ e, w (x a) = .error e) :
    ∃ a, a ≠ .adj ∧ ∃ e, w (x a) = .error e ∧ s.setFrom part p = .error e := by
  simp only [EState.setFrom, hp]
  split
  · exact addSet_err P (fun a => Q (parts a)) _ (fun a => w (x a)) s hs
      (fun a ha s' hs' hg => hw.2.2 _ _ (hD a ha) (hx a ha) s' hs' hg) he
  · next h =>
    obtain ⟨a, ha, e, hae⟩ := he
    rw [setTruthy_false hx (by simpa using h) a ha, hw.1] at hae
    cases hae

/-- The outcome is a new event with new attributes showing `want`. -/
def MadeGraph (P : Nat → Prop) (Q : Attr → ArrRef → Prop) (s : EState α) (m : Py (EState α × Nat)) (want : Attr → List α) : Prop :=
  ∃ s' i parts p d, m = .ok (s', i) ∧ EventsSound s' ∧ Grown P s s' ∧ s'.objs[i]? = some (.graph p d) ∧
    s'.objs[p]? = some (.set parts) ∧ i + 1 = s'.objs.length ∧ s.objs.length ≤ p ∧ s.objs.length ≤ d ∧
    (∀ a, a ≠ .adj → s'.records (parts a) = some (want a)) ∧ s'.records d = some (want .adj) ∧
    (∀ a r, a ≠ .adj → s'.objs[parts a]? = some (.arr r) → Q a r) ∧ ∀ r, s'.objs[d]? = some (.arr r) → Q .adj r

theorem graphFrom_ok {P D : Nat → Prop} {Q : Nat → ArrRef → Prop} {s : EState α} (hs : EventsSound s) {part : EState α → Nat → Py (EState α × Nat)}
    {w : List α → Py (List α)} (hw : Maker P D Q s part w) {g p d : Nat} {parts : Attr → Nat}
    (hg : s.objs[g]? = some (.graph p d)) (hp : s.objs[p]? = some (.set parts))
    (hD : ∀ a, a ≠ .adj → D (parts a)) (hDd : D d) (x y : Attr → List α) (hx : ∀ a, a ≠ .adj → s.records (parts a) = some (x a)) (hd : s.records d = some (x .adj))
    (hy : ∀ a, w (x a) = .ok (y a)) : MadeGraph P (fun a => Q (if a = .adj then d else parts a)) s (s.graphFrom part g) y := by
  obtain ⟨s1, i1, ps, h1, h2, h3, h4, h5, h6, h7, h8⟩ := setFrom_ok hs hw hp hD x y hx (fun a _ => hy a)
  have := hw.2.2 _ _ hDd hd _ h2 h3
  rw [hy] at this
  obtain ⟨s2, i2, k1, k2, k3, k4, k5, k6⟩ := this
  have hg2 := h3.trans k3
  obtain ⟨l1, l2⟩ := grown_add (P := fun i => P i ∨ s.objs.length ≤ i) k2 [] (.graph i1 i2) (by
    intro r hr
    simp only [EObj.refs, List.mem_cons, List.not_mem_nil, or_false] at hr
    rcases hr with rfl | rfl
    · exact Or.inr h5
    · right; have := h3.le; omega) (by simp)
    ⟨k3.isSet (isSet_iff.2 ⟨_, h4⟩), records_isArr k4⟩
  rw [List.append_nil] at l1 l2
  refine ⟨_, s2.objs.length, ps, i1, i2, by simp only [EState.graphFrom, hg, h1, k1], l2, hg2.trans l1, by simp,
    l1.old' (k3.old' h4), by simp, h5, by have := h3.le; omega, fun a ha => ?_, ?_, ?_, ?_⟩
  · rw [l1.records k2 (Nat.lt_of_lt_of_le (records_lt (h7 a ha).1) k3.le), k3.records h2 (records_lt (h7 a ha).1)]
    exact (h7 a ha).1
  · rw [l1.records k2 (records_lt k4)]; exact k4
  · intro a r ha hr
    have hlt := records_lt (h7 a ha).1
    rw [l1.old (Nat.lt_of_lt_of_le hlt k3.le), k3.old hlt] at hr
    simp only [if_neg ha]
    exact (h7 a ha).2.2 r hr
  · intro r hr
    rw [l1.old (records_lt k4)] at hr
    simp only [if_true]
    exact k6 r hr

theorem graphFrom_err {P D : Nat → Prop} {Q : Nat → ArrRef → Prop} {s : EState α} (hs : EventsSound s) {part : EState α → Nat → Py (EState α × Nat)}
    {w : List α → Py (List α)} (hw : Maker P D Q s part w) {g p d : Nat} {parts : Attr → Nat}
    (hg : s.objs[g]? = some (.graph p d)) (hp : s.objs[p]? = some (.set parts))
    (hD : ∀ a, a ≠ .adj → D (parts a)) (hDd : D d) (x : Attr → List α) (hx : ∀ a, a ≠ .adj → s.records (parts a) = some (x a)) (hd : s.records d = some (x .adj))
    (he : ∃ a e, w (x a) = .error e) : ∃ a e, w (x a) = .error e ∧ s.graphFrom part g = .error e := by
  by_cases h : ∃ a, a ≠ .adj ∧ ∃ e, w (x a) = .error e
  · obtain ⟨a, _, e, h1, h2⟩ := setFrom_err hs hw hp hD x hx h
    exact ⟨a, e, h1, by simp only [EState.graphFrom, hg, h2]⟩
  · have hall : ∀ a, a ≠ .adj → ∃ y, w (x a) = .ok y := by
      intro a ha
      cases hwa : w (x a) with
      | error e => exact absurd ⟨a, ha, e, hwa⟩ h
      | ok y => exact ⟨y, rfl⟩
    obtain ⟨b, e, hb⟩ := he
    have hbadj : b = .adj := by
      by_contra hne
      exact h ⟨b, hne, e, hb⟩
    subst hbadj
    choose! y hy using hall
    obtain ⟨s1, i1, ps, h1, h2, h3, h4, h5, h6, h7, h8⟩ := setFrom_ok hs hw hp hD x y hx hy
    have := hw.2.2 _ _ hDd hd _ h2 h3
    rw [hb] at this
    exact ⟨.adj, e, hb, by simp only [EState.graphFrom, hg, h1, show part s1 d = .error e from this]⟩

theorem maker_copy (P D : Nat → Prop) {s : EState α} (hs : EventsSound s) : Maker P D (fun _ _ => True) s EState.copyPart .ok :=
  ⟨rfl, fun _ _ _ _ => trivial, fun i x _ hx s' hs' hg => gives_copy _ hs' (by rw [hg.records hs (records_lt hx)]; exact hx)⟩

theorem maker_get {P D : Nat → Prop} {s : EState α} (hs : EventsSound s) (k : Key)
    (hP : ∀ i x, D i → s.records i = some x → P i ∨ x = [] ∨ NewMemory k x.length) :
    Maker P D (fun i r => ∀ r0, s.objs[i]? = some (.arr r0) → ViewOf k r0 r) s (EState.getPart k) (picked k) := by
  refine ⟨by simp [picked], ?_, fun i x hi hx s' hs' hg => ?_⟩
  · intro i r hi hr r0 hr0
    have hl := placed_length (hs i _ hr0)
    simp only [EState.records, hr0, Option.some.injEq] at hi
    rw [hi] at hl
    exact viewOf_empty k _ _ (List.eq_nil_of_length_eq_zero hl.symm) hr
  · have := gives_get (P := fun i => P i ∨ s.objs.length ≤ i) hs' k (by rw [hg.records hs (records_lt hx)]; exact hx)
      ((hP i x hi hx).imp Or.inl id)
    rw [hg.old (records_lt hx)] at this
    exact this

theorem build_given (P : Nat → Prop) (given : Attr → Option Nat) (as : List Attr) (hnd : as.Nodup) (s : EState α)
    (hs : EventsSound s) (hP : ∀ a ∈ as, ∀ i, given a = some i → P i ∧ s.isArr i = true) (f : Attr → Nat) :
    ∃ s' f', buildParts (EState.givenPart given) as s f = .ok (s', f') ∧ EventsSound s' ∧ Grown P s s' ∧
      (∀ a, a ∉ as → f' a = f a) ∧
      (∀ a ∈ as, s'.isArr (f' a) = true ∧ (∀ i, given a = some i → f' a = i) ∧
        (given a = none → s.objs.length ≤ f' a ∧ s'.records (f' a) = some [])) ∧
      ∀ a ∈ as, ∀ b ∈ as, a ≠ b → given a = none → given b = none → f' a ≠ f' b := by
  induction as generalizing s f P with
  | nil => exact ⟨s, f, rfl, hs, Grown.refl P s, fun _ _ => rfl, by simp, by simp⟩
  | cons a as ih =>
    have hnd' := List.nodup_cons.1 hnd
    cases hga : given a with
    | some i =>
      obtain ⟨s', f', h1, h2, h3, h4, h5, h6⟩ := ih P hnd'.2 s hs (fun b hb => hP b (by simp [hb]))
        (fun x => if x = a then i else f x)
      have hfa : f' a = i := by rw [h4 a hnd'.1, if_pos rfl]
      refine ⟨s', f', by simp only [buildParts, EState.givenPart, hga]; exact h1, h2, h3, ?_, ?_, ?_⟩
      · intro b hb
        simp only [List.mem_cons, not_or] at hb
        rw [h4 b hb.2, if_neg hb.1]
      · intro b hb
        rcases List.mem_cons.1 hb with rfl | hb
        · refine ⟨?_, ?_, ?_⟩
          · rw [hfa]; exact h3.isArr (hP b (by simp) i hga).2
          · intro j hj; rw [hga] at hj; cases hj; exact hfa
          · intro hn; rw [hga] at hn; cases hn
        · exact h5 b hb
      · intro b hb c hc hbc hnb hnc
        rcases List.mem_cons.1 hb with rfl | hb
        · rw [hga] at hnb; cases hnb
        · rcases List.mem_cons.1 hc with rfl | hc
          · rw [hga] at hnc; cases hnc
          · exact h6 b hb c hc hbc hnb hnc
    | none =>
      obtain ⟨s1, i, k1, k2, k3, k4, k5, _⟩ := gives_alloc P (fun _ => True) hs [] trivial
      have hi1 := records_lt k4
      obtain ⟨s', f', h1, h2, h3, h4, h5, h6⟩ := ih (fun i => P i ∨ s.objs.length ≤ i) hnd'.2 s1 k2
        (fun b hb j hj => ⟨Or.inl (hP b (by simp [hb]) j hj).1, k3.isArr (hP b (by simp [hb]) j hj).2⟩)
        (fun x => if x = a then i else f x)
      have hfa : f' a = i := by rw [h4 a hnd'.1, if_pos rfl]
      have he : EState.givenPart given s a = .ok (s1, i) := by
        simp only [EState.givenPart, hga]; exact k1
      refine ⟨s', f', by simp only [buildParts, he]; exact h1, h2, k3.trans h3, ?_, ?_, ?_⟩
      · intro b hb
        simp only [List.mem_cons, not_or] at hb
        rw [h4 b hb.2, if_neg hb.1]
      · intro b hb
        rcases List.mem_cons.1 hb with rfl | hb
        · refine ⟨?_, ?_, ?_⟩
          · rw [hfa]; exact h3.isArr (records_isArr k4)
          · intro j hj; rw [hga] at hj; cases hj
          · intro _; rw [hfa, h3.records k2 hi1]; exact ⟨k5, k4⟩
        · obtain ⟨j1, j2, j3⟩ := h5 b hb
          exact ⟨j1, j2, fun hn => ⟨Nat.le_trans k3.le (j3 hn).1, (j3 hn).2⟩⟩
      · intro b hb c hc hbc hnb hnc
        rcases List.mem_cons.1 hb with rfl | hb' <;> rcases List.mem_cons.1 hc with rfl | hc'
        · exact absurd rfl hbc
        · have := ((h5 c hc').2.2 hnc).1; omega
        · have := ((h5 b hb').2.2 hnb).1; omega
        · exact h6 b hb' c hc' hbc hnb hnc

/-- `ParticleSet(**given)`. -/
theorem newSet_ok (P : Nat → Prop) (given : Attr → Option Nat) (s : EState α) (hs : EventsSound s)
    (hP : ∀ a, a ≠ .adj → ∀ i, given a = some i → P i ∧ s.isArr i = true) :
    ∃ s' i parts, s.addSet (EState.givenPart given) = .ok (s', i) ∧ EventsSound s' ∧ Grown P s s' ∧
      s'.objs[i]? = some (.set parts) ∧ s.objs.length ≤ i ∧ i + 1 = s'.objs.length ∧
      (∀ a, a ≠ .adj → (∀ j, given a = some j → parts a = j) ∧
        (given a = none → s.objs.length ≤ parts a ∧ s'.records (parts a) = some [])) ∧
      ∀ a b, a ≠ .adj → b ≠ .adj → a ≠ b → given a = none → given b = none → parts a ≠ parts b := by
  obtain ⟨s', f', hb, hs', hg, _, hin, hd⟩ := build_given P given particleAttrs nodup_particleAttrs s hs
    (fun a ha => hP a ((mem_particleAttrs a).1 ha)) (fun _ => 0)
  obtain ⟨h1, h2⟩ := grown_add (P := fun i => P i ∨ s.objs.length ≤ i) hs' [] (.set f') (by
    intro r hr
    simp only [EObj.refs, List.mem_map] at hr
    obtain ⟨a, ha, rfl⟩ := hr
    obtain ⟨_, j2, j3⟩ := hin a ha
    cases hga : given a with
    | none => exact Or.inr (j3 hga).1
    | some i => rw [j2 i hga]; exact Or.inl (hP a ((mem_particleAttrs a).1 ha) i hga).1) (by simp) (by
    intro a ha
    exact (hin a ((mem_particleAttrs a).2 ha)).1)
  rw [List.append_nil] at h1 h2
  refine ⟨_, s'.objs.length, f', by simp only [EState.addSet, hb], h2, hg.trans h1, by simp, hg.le, by simp, ?_, ?_⟩
  · intro a ha
    obtain ⟨_, j2, j3⟩ := hin a ((mem_particleAttrs a).2 ha)
    exact ⟨j2, fun hn => ⟨(j3 hn).1, by rw [h1.records hs' (records_lt (j3 hn).2)]; exact (j3 hn).2⟩⟩
  · intro a b ha hb
    exact hd a ((mem_particleAttrs a).2 ha) b ((mem_particleAttrs b).2 hb)

/-! ## The effect of an operation -/

/-- The possible effects of an operation on objects in `own`, of which it can replace those in `rep`. -/
inductive EEffect (own rep : Nat → Prop) (s : EState α) : EState α → Prop
  | none : EEffect own rep s s
  | grown (s' : EState α) (h : Grown own s s') : EEffect own rep s s'
  | write (x : Nat) (r : ArrRef) (ps : List Nat) (v : α) (hx : own x) (ho : s.objs[x]? = some (.arr r)) :
      EEffect own rep s ⟨s.mem.set r.buf (writeCells (s.mem.getD r.buf []) ps v), s.objs⟩
  | replace (x : Nat) (e : List (List α)) (o : EObj) (hx : own x) (hrep : rep x) (href : ∀ r ∈ o.refs, own r)
      (hbuf : ∀ r, o = .arr r → s.mem.length ≤ r.buf ∨ ∃ j r', own j ∧ s.objs[j]? = some (.arr r') ∧ r'.buf = r.buf) :
      EEffect own rep s ⟨s.mem ++ e, s.objs.set x o⟩

/-- Attributes of a sound particle set. -/
theorem set_records {s : EState α} (hs : EventsSound s) {x : Nat} {parts : Attr → Nat}
    (hx : s.objs[x]? = some (.set parts)) : ∃ xs : Attr → List α, ∀ a, a ≠ .adj → s.records (parts a) = some (xs a) := by
  have h : ∀ a, ∃ x : List α, a ≠ .adj → s.records (parts a) = some x := by
    intro a
    by_cases ha : a = .adj
    · exact ⟨[], fun h => absurd ha h⟩
    · obtain ⟨x, hx⟩ := isArr_records (hs x _ hx a ha)
      exact ⟨x, fun _ => hx⟩
  choose xs hxs using h
  exact ⟨xs, hxs⟩

/-- Attributes of a sound event. -/
theorem graph_records {s : EState α} (hs : EventsSound s) {g p d : Nat} (hg : s.objs[g]? = some (.graph p d)) :
    ∃ (parts : Attr → Nat) (xs : Attr → List α), s.objs[p]? = some (.set parts) ∧
      (∀ a, a ≠ .adj → s.records (parts a) = some (xs a)) ∧ s.records d = some (xs .adj) := by
  obtain ⟨h1, h2⟩ := hs g _ hg
  obtain ⟨parts, hp⟩ := isSet_iff.1 h1
  obtain ⟨xs, hxs⟩ := set_records hs hp
  obtain ⟨y, hy⟩ := isArr_records h2
  refine ⟨parts, fun a => if a = .adj then y else xs a, hp, fun a ha => ?_, ?_⟩
  · simp only [if_neg ha]; exact hxs a ha
  · simp only [if_true]; exact hy

/-- Either all attributes can be made or not. -/
theorem all_or_error {β : Type} (w : List α → Py (List β)) (x : Attr → List α) (q : Attr → Prop) :
    (∃ y : Attr → List β, ∀ a, q a → w (x a) = .ok (y a)) ∨ ∃ a, q a ∧ ∃ e, w (x a) = .error e := by
  by_cases h : ∃ a, q a ∧ ∃ e, w (x a) = .error e
  · exact Or.inr h
  · left
    have : ∀ a, ∃ y, q a → w (x a) = .ok y := by
      intro a
      cases hw : w (x a) with
      | ok y => exact ⟨y, fun _ => rfl⟩
      | error e => exact ⟨[], fun hq => absurd ⟨a, hq, e, hw⟩ h⟩
    choose y hy using this
    exact ⟨y, hy⟩

theorem made_effect {own rep : Nat → Prop} {s : EState α} (hs : EventsSound s) (m : Py (EState α × Nat))
    (h : (∃ e, m = .error e) ∨ ∃ s' i, m = .ok (s', i) ∧ EventsSound s' ∧ Grown own s s') :
    EEffect own rep s (s.made m).1 ∧ EventsSound (s.made m).1 := by
  rcases h with ⟨e, rfl⟩ | ⟨s', i, rfl, h1, h2⟩
  · exact ⟨.none, hs⟩
  · exact ⟨.grown s' h2, h1⟩

theorem addSet_effect {own rep D : Nat → Prop} {Q : Nat → ArrRef → Prop} {s : EState α} (hs : EventsSound s)
    {part : EState α → Nat → Py (EState α × Nat)} {w : List α → Py (List α)} (hw : Maker own D Q s part w)
    {x : Nat} {parts : Attr → Nat} (hx : s.objs[x]? = some (.set parts)) (hD : ∀ a, a ≠ .adj → D (parts a)) :
    EEffect own rep s (s.made (s.addSet (fun s a => part s (parts a)))).1 ∧
      EventsSound (s.made (s.addSet (fun s a => part s (parts a)))).1 := by
  apply made_effect hs
  obtain ⟨xs, hxs⟩ := set_records hs hx
  rcases all_or_error w xs (· ≠ .adj) with ⟨y, hy⟩ | he
  · obtain ⟨s', i, ps, h1, h2, h3, _⟩ := addSet_ok own (fun a => Q (parts a)) (fun s a => part s (parts a)) y s hs
      (fun a ha s' hs' hg => by rw [← hy a ha]; exact hw.2.2 _ _ (hD a ha) (hxs a ha) s' hs' hg)
    exact Or.inr ⟨s', i, h1, h2, h3⟩
  · obtain ⟨a, _, e, _, h⟩ := addSet_err own (fun a => Q (parts a)) (fun s a => part s (parts a)) (fun a => w (xs a)) s hs
      (fun a ha s' hs' hg => hw.2.2 _ _ (hD a ha) (hxs a ha) s' hs' hg) he
    exact Or.inl ⟨e, h⟩

theorem graphFrom_effect {own rep D : Nat → Prop} {Q : Nat → ArrRef → Prop} {s : EState α} (hs : EventsSound s)
    {part : EState α → Nat → Py (EState α × Nat)} {w : List α → Py (List α)} (hw : Maker own D Q s part w)
    {g p d : Nat} (hg : s.objs[g]? = some (.graph p d)) (hDd : D d)
    (hD : ∀ parts, s.objs[p]? = some (.set parts) → ∀ a, a ≠ .adj → D (parts a)) :
    EEffect own rep s (s.made (s.graphFrom part g)).1 ∧ EventsSound (s.made (s.graphFrom part g)).1 := by
  apply made_effect hs
  obtain ⟨parts, xs, hp, hxs, hxd⟩ := graph_records hs hg
  rcases all_or_error w xs (fun _ => True) with ⟨y, hy⟩ | ⟨a, _, e, he⟩
  · obtain ⟨s', i, ps, p', d', h1, h2, h3, _⟩ := graphFrom_ok hs hw hg hp (hD parts hp) hDd xs y hxs hxd
      (fun a => hy a trivial)
    exact Or.inr ⟨s', i, h1, h2, h3⟩
  · obtain ⟨_, e, _, h⟩ := graphFrom_err hs hw hg hp (hD parts hp) hDd xs hxs hxd ⟨a, e, he⟩
    exact Or.inl ⟨e, h⟩

/-- Replacing an object by one of the same kind keeps everything sound. -/
theorem replace_sound {s : EState α} (hs : EventsSound s) (e : List (List α)) (x : Nat) (o o' : EObj)
    (hx : s.objs[x]? = some o')
    (hkind : match o', o with
      | .arr _, .arr r => Placed (s.mem ++ e) r
      | .set _, .set parts => ∀ a, a ≠ Attr.adj → s.isArr (parts a) = true
      | .graph _ _, .graph p d => s.isSet p = true ∧ s.isArr d = true
      | _, _ => False) : EventsSound (⟨s.mem ++ e, s.objs.set x o⟩ : EState α) := by
  have hlt := (List.getElem?_eq_some_iff.1 hx).1
  have hA : ∀ i, s.isArr i = true → EState.isArr (⟨s.mem ++ e, s.objs.set x o⟩ : EState α) i = true := by
    intro i hi
    obtain ⟨r, hr⟩ := isArr_iff.1 hi
    apply isArr_iff.2
    by_cases hix : x = i
    · subst hix
      rw [hr] at hx; cases hx
      cases o with
      | arr r' => exact ⟨r', by simp [hlt]⟩
      | set _ => exact hkind.elim
      | graph _ _ => exact hkind.elim
    · exact ⟨r, by simp only [List.getElem?_set_ne hix]; exact hr⟩
  have hS : ∀ i, s.isSet i = true → EState.isSet (⟨s.mem ++ e, s.objs.set x o⟩ : EState α) i = true := by
    intro i hi
    obtain ⟨r, hr⟩ := isSet_iff.1 hi
    apply isSet_iff.2
    by_cases hix : x = i
    · subst hix
      rw [hr] at hx; cases hx
      cases o with
      | set r' => exact ⟨r', by simp [hlt]⟩
      | arr _ => exact hkind.elim
      | graph _ _ => exact hkind.elim
    · exact ⟨r, by simp only [List.getElem?_set_ne hix]; exact hr⟩
  intro i oi hi
  by_cases hix : x = i
  · subst hix
    simp only [List.getElem?_set_self hlt, Option.some.injEq] at hi
    subst hi
    cases o' <;> cases o <;> first | exact hkind.elim | skip
    · exact hkind
    · exact fun a ha => hA _ (hkind a ha)
    · exact ⟨hS _ hkind.1, hA _ hkind.2⟩
  · simp only [List.getElem?_set_ne hix] at hi
    have := hs i oi hi
    cases oi with
    | arr r =>
      obtain ⟨⟨xs, h1, h2⟩, h3⟩ := this
      refine ⟨⟨xs, ?_, h2⟩, h3⟩
      change (s.mem ++ e)[r.buf]? = _
      rw [List.getElem?_append_left (List.getElem?_eq_some_iff.1 h1).1, h1]
    | set parts => exact fun a ha => hA _ (this a ha)
    | graph p d => exact ⟨hS _ this.1, hA _ this.2⟩

theorem write_sound {s : EState α} (hs : EventsSound s) (b : Nat) (ps : List Nat) (v : α) :
    EventsSound (⟨s.mem.set b (writeCells (s.mem.getD b []) ps v), s.objs⟩ : EState α) := by
  intro i o hi
  have := hs i o hi
  cases o with
  | arr r =>
    obtain ⟨⟨xs, h1, h2⟩, h3⟩ := this
    refine ⟨?_, h3⟩
    by_cases hab : b = r.buf
    · subst hab
      refine ⟨writeCells xs ps v, ?_, by rw [writeCells_length]; exact h2⟩
      simp only
      rw [List.getElem?_set_self (List.getElem?_eq_some_iff.1 h1).1]
      simp [List.getD_eq_getElem?_getD, h1]
    · exact ⟨xs, by simp only; rw [List.getElem?_set_ne hab]; exact h1, h2⟩
  | set parts => exact this
  | graph p d => exact this

theorem eeffect_run (own : Nat → Prop) (s : EState α) (hs : EventsSound s)
    (hclosed : ∀ i o, own i → s.objs[i]? = some o → ∀ r ∈ o.refs, own r) (op : EOp α) (hown : ∀ i ∈ names op, own i) :
    EEffect own (fun x => replaces x op) s (op.run s).1 ∧ EventsSound (op.run s).1 := by
  have hparts : ∀ x parts, own x → s.objs[x]? = some (.set parts) → ∀ a, a ≠ .adj → own (parts a) := by
    intro x parts hx ho a ha
    exact hclosed x _ hx ho _ (by simp only [EObj.refs, List.mem_map]; exact ⟨a, (mem_particleAttrs a).2 ha, rfl⟩)
  cases op with
  | array xs =>
    obtain ⟨s', i, h1, h2, h3, _⟩ := gives_alloc own (fun _ => True) hs xs trivial
    have : (EOp.run s (.array xs)).1 = s' := by
      simp only [EOp.run]; rw [Except.ok.inj h1]
    rw [this]; exact ⟨.grown s' h3, h2⟩
  | write x k v =>
    simp only [EOp.run]
    split
    · next r hr =>
      unfold writeArr
      cases hk : k.resolve r.pos.length with
      | error e => exact ⟨.none, hs⟩
      | ok idxs => exact ⟨.write x r _ v (hown x (by simp [names])) hr, write_sound hs _ _ _⟩
    · exact ⟨.none, hs⟩
  | assign x y =>
    simp only [EOp.run]
    split
    · next r b hx hy =>
      have hm := made_wrap s.mem b none
      obtain ⟨e, he⟩ := hm.ext
      have hpl : Placed s.mem b := hs y _ hy
      rw [he]
      refine ⟨.replace x e _ (hown x (by simp [names])) rfl (by simp [EObj.refs]) ?_, ?_⟩
      · intro r' hr'
        cases hr'
        rcases hm.buf with h | h
        · exact Or.inr ⟨y, b, hown y (by simp [names]), hy, h.symm⟩
        · exact Or.inl h.1
      · apply replace_sound hs e x _ _ hx
        refine ⟨?_, C99_contiguous _ _ _⟩
        rw [← he]; exact hm.ok hpl.1
    · exact ⟨.none, hs⟩
  | newSet given =>
    simp only [EOp.run]
    split
    · next hall =>
      obtain ⟨s', i, ps, h1, h2, h3, _⟩ := newSet_ok own given s hs (by
        intro a ha i hi
        have hmem := (mem_particleAttrs a).2 ha
        refine ⟨hown i (by simp only [names, List.mem_filterMap]; exact ⟨a, hmem, hi⟩), ?_⟩
        have := List.all_eq_true.1 hall a hmem
        rwa [hi, Option.all_some] at this)
      exact made_effect hs _ (Or.inr ⟨s', i, h1, h2, h3⟩)
    · exact ⟨.none, hs⟩
  | newGraph p d =>
    simp only [EOp.run]
    split
    case isFalse => exact ⟨.none, hs⟩
    next hall =>
    rw [Bool.and_eq_true] at hall
    have hset : ∃ s1 i1, s.givenSet p = .ok (s1, i1) ∧ EventsSound s1 ∧ Grown own s s1 ∧ s1.isSet i1 = true ∧
        (own i1 ∨ s.objs.length ≤ i1) := by
      cases p with
      | some i =>
        exact ⟨s, i, rfl, hs, Grown.refl _ _, by simpa using hall.1, Or.inl (hown i (by simp [names]))⟩
      | none =>
        obtain ⟨s', i, ps, h1, h2, h3, h4, h5, _⟩ := emptySet_ok own s hs
        exact ⟨s', i, h1, h2, h3, isSet_iff.2 ⟨_, h4⟩, Or.inr h5⟩
    obtain ⟨s1, i1, h1, h2, h3, h4, h5⟩ := hset
    have hadj : ∃ s2 i2, s1.givenAdj d = (s2, i2) ∧ EventsSound s2 ∧ Grown (fun i => own i ∨ s.objs.length ≤ i) s1 s2 ∧
        s2.isArr i2 = true ∧ (own i2 ∨ s.objs.length ≤ i2) := by
      cases d with
      | some i =>
        exact ⟨s1, i, rfl, h2, Grown.refl _ _, h3.isArr (by simpa using hall.2), Or.inl (hown i (by simp [names]))⟩
      | none =>
        obtain ⟨s', i, k1, k2, k3, k4, k5, _⟩ := gives_alloc (fun i => own i ∨ s.objs.length ≤ i) (fun _ => True) h2 [] trivial
        exact ⟨s', i, Except.ok.inj k1, k2, k3, records_isArr k4, Or.inr (Nat.le_trans h3.le k5)⟩
    obtain ⟨s2, i2, k1, k2, k3, k4, k5⟩ := hadj
    have hg2 := h3.trans k3
    obtain ⟨l1, l2⟩ := grown_add (P := fun i => own i ∨ s.objs.length ≤ i) k2 [] (.graph i1 i2) (by
      intro r hr
      simp only [EObj.refs, List.mem_cons, List.not_mem_nil, or_false] at hr
      rcases hr with rfl | rfl
      · exact h5
      · exact k5) (by simp) ⟨k3.isSet h4, k4⟩
    rw [List.append_nil] at l1 l2
    simp only [h1, k1]
    exact ⟨.grown _ (hg2.trans l1), l2⟩
  | setAttr x a y =>
    simp only [EOp.run]
    split
    · next parts hx =>
      split
      · next h =>
        simp only [Bool.and_eq_true, decide_eq_true_eq] at h
        have hxo := hown x (by simp [names])
        have hyo := hown y (by simp [names])
        have he := EEffect.replace (s := s) x [] (.set (fun b => if b = a then y else parts b)) hxo (rep := fun z => replaces z (EOp.setAttr x a y : EOp α)) rfl (by
          intro r hr
          simp only [EObj.refs, List.mem_map] at hr
          obtain ⟨b, hb, rfl⟩ := hr
          split
          · exact hyo
          · exact hparts x parts hxo hx b ((mem_particleAttrs b).1 hb)) (by simp)
        have hsd := replace_sound hs [] x (.set (fun b => if b = a then y else parts b)) _ hx (by
          intro b hb
          simp only
          split
          · exact h.2
          · exact hs x _ hx b hb)
        rw [List.append_nil] at he hsd
        exact ⟨he, hsd⟩
      · exact ⟨.none, hs⟩
    · exact ⟨.none, hs⟩
  | setParticles g p =>
    simp only [EOp.run]
    split
    · next p' d hg =>
      split
      · next h =>
        have hgo := hown g (by simp [names])
        have he := EEffect.replace (s := s) g [] (.graph p d) hgo (rep := fun z => replaces z (EOp.setParticles g p : EOp α)) rfl (by
          intro r hr
          simp only [EObj.refs, List.mem_cons, List.not_mem_nil, or_false] at hr
          rcases hr with rfl | rfl
          · exact hown r (by simp [names])
          · exact hclosed g _ hgo hg r (by simp [EObj.refs])) (by simp)
        have hsd := replace_sound hs [] g (.graph p d) _ hg ⟨h, (hs g _ hg).2⟩
        rw [List.append_nil] at he hsd
        exact ⟨he, hsd⟩
      · exact ⟨.none, hs⟩
    · exact ⟨.none, hs⟩
  | setAdj g d =>
    simp only [EOp.run]
    split
    · next p d' hg =>
      split
      · next h =>
        have hgo := hown g (by simp [names])
        have he := EEffect.replace (s := s) g [] (.graph p d) hgo (rep := fun z => replaces z (EOp.setAdj g d : EOp α)) rfl (by
          intro r hr
          simp only [EObj.refs, List.mem_cons, List.not_mem_nil, or_false] at hr
          rcases hr with rfl | rfl
          · exact hclosed g _ hgo hg r (by simp [EObj.refs])
          · exact hown r (by simp [names])) (by simp)
        have hsd := replace_sound hs [] g (.graph p d) _ hg ⟨(hs g _ hg).1, h⟩
        rw [List.append_nil] at he hsd
        exact ⟨he, hsd⟩
      · exact ⟨.none, hs⟩
    · exact ⟨.none, hs⟩
  | setProperty g a y => exact ⟨.none, hs⟩
  | copySet x =>
    simp only [EOp.run]
    split
    · next parts hx => exact addSet_effect hs (maker_copy own (fun _ => True) hs) hx (fun _ _ => trivial)
    · exact ⟨.none, hs⟩
  | copyGraph g =>
    simp only [EOp.run]
    split
    · next p d hg => exact graphFrom_effect hs (maker_copy own (fun _ => True) hs) hg trivial (fun _ _ _ _ => trivial)
    · exact ⟨.none, hs⟩
  | getSet x k =>
    simp only [EOp.run]
    split
    · next parts hx =>
      exact addSet_effect hs (maker_get (D := own) hs k fun i x hi _ => Or.inl hi) hx
        (hparts x parts (hown x (by simp [names])) hx)
    · exact ⟨.none, hs⟩
  | getGraph g k =>
    simp only [EOp.run]
    split
    · next p d hg =>
      have hgo := hown g (by simp [names])
      exact graphFrom_effect hs (maker_get (D := own) hs k fun i x hi _ => Or.inl hi) hg
        (hclosed g _ hgo hg d (by simp [EObj.refs]))
        (fun parts hp => hparts p parts (hclosed g _ hgo hg p (by simp [EObj.refs])) hp)
    · exact ⟨.none, hs⟩

/-! ## Two users -/

theorem refs_lt {s : EState α} (hs : EventsSound s) {i : Nat} {o : EObj} (hi : s.objs[i]? = some o) :
    ∀ r ∈ o.refs, r < s.objs.length := by
  intro r hr
  have h := hs i o hi
  cases o with
  | arr _ => simp [EObj.refs] at hr
  | set parts =>
    simp only [EObj.refs, List.mem_map] at hr
    obtain ⟨a, ha, rfl⟩ := hr
    obtain ⟨q, hq⟩ := isArr_iff.1 (h a ((mem_particleAttrs a).1 ha))
    exact (List.getElem?_eq_some_iff.1 hq).1
  | graph p d =>
    simp only [EObj.refs, List.mem_cons, List.not_mem_nil, or_false] at hr
    rcases hr with rfl | rfl
    · obtain ⟨q, hq⟩ := isSet_iff.1 h.1
      exact (List.getElem?_eq_some_iff.1 hq).1
    · obtain ⟨q, hq⟩ := isArr_iff.1 h.2
      exact (List.getElem?_eq_some_iff.1 hq).1

/-- Objects of different owners have no memory and no attribute in common. -/
structure UsersApart (t : Users α) : Prop where
  sound : EventsSound t.s
  len : t.owner.length = t.s.objs.length
  closed : ∀ (b : Bool) (i : Nat) (o : EObj), t.owner[i]? = some b → t.s.objs[i]? = some o → ∀ r ∈ o.refs, t.owner[r]? = some b
  bufs : ∀ (i j : Nat) (r r' : ArrRef), t.s.objs[i]? = some (.arr r) → t.s.objs[j]? = some (.arr r') → t.owner[i]? ≠ t.owner[j]? →
    r.buf ≠ r'.buf

theorem arr_buf_lt {s : EState α} (hs : EventsSound s) {i : Nat} {r : ArrRef} (hi : s.objs[i]? = some (.arr r)) :
    r.buf < s.mem.length := by
  obtain ⟨⟨xs, h1, _⟩, _⟩ := hs i _ hi
  exact (List.getElem?_eq_some_iff.1 h1).1

theorem usersApart_step (t : Users α) (h : UsersApart t) (side : Bool) (op : EOp α) :
    UsersApart (userStep t side op) ∧ ∀ j, t.owner[j]? = some (!side) →
      (userStep t side op).s.objs[j]? = t.s.objs[j]? ∧ (userStep t side op).s.records j = t.s.records j := by
  unfold userStep
  split
  case isFalse => exact ⟨h, fun _ _ => ⟨rfl, rfl⟩⟩
  case isTrue hown =>
  have hside : ∀ i ∈ names op, t.owner[i]? = some side := by
    intro i hi
    simpa using List.all_eq_true.1 hown i hi
  obtain ⟨he, hs'⟩ := eeffect_run (fun i => t.owner[i]? = some side) t.s h.sound
    (fun i o hi ho => h.closed side i o hi ho) op hside
  generalize (op.run t.s).1 = s' at he hs'
  have hlt : ∀ {j : Nat} {b : Bool}, t.owner[j]? = some b → j < t.s.objs.length := by
    intro j b hj
    rw [← h.len]; exact (List.getElem?_eq_some_iff.1 hj).1
  cases he with
  | none =>
    simp only [Nat.sub_self, List.replicate_zero, List.append_nil]
    exact ⟨h, fun _ _ => ⟨trivial, trivial⟩⟩
  | grown _ hg =>
    have hle := hg.le
    have hown' : ∀ (i : Nat), (t.owner ++ List.replicate (s'.objs.length - t.s.objs.length) side)[i]? =
        if i < t.s.objs.length then t.owner[i]? else if i < s'.objs.length then some side else none := by
      intro i
      by_cases hi : i < t.s.objs.length
      · rw [if_pos hi, List.getElem?_append_left (by rw [h.len]; exact hi)]
      · rw [if_neg hi, List.getElem?_append_right (by rw [h.len]; omega), List.getElem?_replicate, h.len]
        by_cases hi' : i < s'.objs.length
        · rw [if_pos hi', if_pos (by omega)]
        · rw [if_neg hi', if_neg (by omega)]
    refine ⟨⟨hs', ?_, ?_, ?_⟩, ?_⟩
    · simp only [List.length_append, List.length_replicate, h.len]; omega
    · intro b i o hb ho r hr
      simp only at hb ho ⊢
      rw [hown'] at hb ⊢
      have hrl := refs_lt hs' ho r hr
      by_cases hi : i < t.s.objs.length
      · rw [if_pos hi] at hb
        rw [hg.old hi] at ho
        have := h.closed b i o hb ho r hr
        rw [if_pos (hlt this)]; exact this
      · rw [if_neg hi] at hb
        split at hb
        case isFalse => cases hb
        cases hb
        rcases hg.refs i o (by omega) ho r hr with hp | hp
        · rw [if_pos (hlt hp)]; exact hp
        · rw [if_neg (by omega), if_pos hrl]
    · have key : ∀ i j r r', s'.objs[i]? = some (.arr r) → s'.objs[j]? = some (.arr r') → ¬ i < t.s.objs.length →
          j < t.s.objs.length → t.owner[j]? ≠ some side → r.buf ≠ r'.buf := by
        intro i j r r' hi hj hil hjl hne
        rw [hg.old hjl] at hj
        have := arr_buf_lt h.sound hj
        rcases hg.bufs i r (by omega) hi with hb | ⟨k, r'', hk, hko, hkb⟩
        · omega
        · rw [← hkb]
          exact h.bufs k j r'' r' hko hj (by rw [hk]; exact Ne.symm hne)
      intro i j r r' hi hj hne
      simp only at hi hj hne
      rw [hown', hown'] at hne
      have hi' := (List.getElem?_eq_some_iff.1 hi).1
      have hj' := (List.getElem?_eq_some_iff.1 hj).1
      by_cases hil : i < t.s.objs.length <;> by_cases hjl : j < t.s.objs.length
      · rw [if_pos hil, if_pos hjl] at hne
        rw [hg.old hil] at hi
        rw [hg.old hjl] at hj
        exact h.bufs i j r r' hi hj hne
      · rw [if_pos hil, if_neg hjl, if_pos hj'] at hne
        exact (key j i r' r hj hi hjl hil hne).symm
      · rw [if_neg hil, if_pos hjl, if_pos hi'] at hne
        exact key i j r r' hi hj hil hjl (Ne.symm hne)
      · rw [if_neg hil, if_neg hjl, if_pos hi', if_pos hj'] at hne
        exact absurd rfl hne
    · intro j hj
      exact ⟨hg.old (hlt hj), hg.records h.sound (hlt hj)⟩
  | write x r ps v hx ho =>
    simp only [Nat.sub_self, List.replicate_zero, List.append_nil]
    refine ⟨⟨hs', h.len, h.closed, h.bufs⟩, fun j hj => ⟨trivial, ?_⟩⟩
    unfold EState.records
    simp only
    split
    · next r' hr' =>
      have hne : r.buf ≠ r'.buf := h.bufs x j r r' ho hr' (by rw [hx, hj]; cases side <;> simp)
      simp only [readArr, List.getD_eq_getElem?_getD, List.getElem?_set_ne hne]
    · rfl
  | replace x e o hx _ href hbuf =>
    simp only [List.length_set, Nat.sub_self, List.replicate_zero, List.append_nil]
    have hxl := hlt hx
    have key : ∀ j r r', j ≠ x → o = .arr r → t.s.objs[j]? = some (.arr r') → t.owner[j]? ≠ some side → r.buf ≠ r'.buf := by
      intro j r r' hjx hor hj hne
      have := arr_buf_lt h.sound hj
      rcases hbuf r hor with hb | ⟨k, r'', hk, hko, hkb⟩
      · omega
      · rw [← hkb]
        exact h.bufs k j r'' r' hko hj (by rw [hk]; exact Ne.symm hne)
    refine ⟨⟨hs', by simpa using h.len, ?_, ?_⟩, ?_⟩
    · intro b i oi hb hoi r hr
      simp only at hb hoi ⊢
      by_cases hxi : x = i
      · subst hxi
        rw [List.getElem?_set_self hxl] at hoi
        cases hoi
        rw [hx] at hb; cases hb
        exact href r hr
      · rw [List.getElem?_set_ne hxi] at hoi
        exact h.closed b i oi hb hoi r hr
    · intro i j r r' hi hj hne
      simp only at hi hj hne
      by_cases hxi : x = i <;> by_cases hxj : x = j
      · subst hxi; subst hxj; exact absurd rfl hne
      · subst hxi
        rw [List.getElem?_set_self hxl] at hi
        rw [List.getElem?_set_ne hxj] at hj
        cases hi
        exact key j r r' (Ne.symm hxj) rfl hj (by rw [hx] at hne; exact Ne.symm hne)
      · subst hxj
        rw [List.getElem?_set_self hxl] at hj
        rw [List.getElem?_set_ne hxi] at hi
        cases hj
        exact (key i r' r (Ne.symm hxi) rfl hi (by rw [hx] at hne; exact hne)).symm
      · rw [List.getElem?_set_ne hxi] at hi
        rw [List.getElem?_set_ne hxj] at hj
        exact h.bufs i j r r' hi hj hne
    · intro j hj
      have hxj : x ≠ j := by
        rintro rfl
        rw [hx] at hj
        cases side <;> simp at hj
      have ho : (t.s.objs.set x o)[j]? = t.s.objs[j]? := List.getElem?_set_ne hxj
      refine ⟨ho, ?_⟩
      unfold EState.records
      simp only [ho]
      split
      · next r' hr' => rw [readArr_ext _ _ _ (arr_buf_lt h.sound hr')]
      · rfl

theorem usersApart_run (t : Users α) (h : UsersApart t) (hist : List (Bool × EOp α)) : UsersApart (runUsers t hist) := by
  induction hist generalizing t with
  | nil => exact h
  | cons p hist ih => exact ih _ (usersApart_step t h p.1 p.2).1

/-- An attribute is an object of the same owner. -/
theorem attr_owner {t : Users α} (h : UsersApart t) {b : Bool} {x i : Nat} {a : Attr} (hx : t.owner[x]? = some b)
    (ha : t.s.attr x a = some i) : t.owner[i]? = some b := by
  unfold EState.attr at ha
  split at ha
  · next parts ho =>
    split at ha
    · cases ha
    · next hne =>
      cases ha
      exact h.closed b x _ hx ho _ (by simp only [EObj.refs, List.mem_map]; exact ⟨a, (mem_particleAttrs a).2 hne, rfl⟩)
  · next p d ho =>
    split at ha
    · cases ha; exact h.closed b x _ hx ho _ (by simp [EObj.refs])
    · next hne =>
      split at ha
      · next parts hp =>
        cases ha
        have hpo := h.closed b x _ hx ho p (by simp [EObj.refs])
        exact h.closed b p _ hpo hp _ (by
          simp only [EObj.refs, List.mem_map]; exact ⟨a, (mem_particleAttrs a).2 hne, rfl⟩)
      · cases ha
  · cases ha

theorem separate_of_apart (s : EState α) (n : Nat)
    (h : UsersApart (⟨s, (List.range s.objs.length).map (fun i => decide (n ≤ i))⟩ : Users α)) : Separate s n := by
  intro hist side op t ht j hj
  have hap : UsersApart t := by rw [ht]; exact usersApart_run _ h hist
  obtain ⟨_, hstep⟩ := usersApart_step t hap side op
  have hattr : ∀ a, (userStep t side op).s.attr j a = t.s.attr j a := by
    intro a
    have hj' := (hstep j hj).1
    unfold EState.attr
    rw [hj']
    split
    · rfl
    · next p d ho =>
      have hpo := hap.closed _ j _ hj ho p (by simp [EObj.refs])
      rw [(hstep p hpo).1]
    · rfl
  refine ⟨(hstep j hj).2, fun a => ⟨hattr a, ?_⟩⟩
  unfold shown
  rw [hattr a]
  cases ha : t.s.attr j a with
  | none => rfl
  | some i => exact (hstep i (attr_owner hap hj ha)).2

/-- What has grown without using anything is independent. -/
theorem separate_grown {s s' : EState α} (hs : EventsSound s) (hs' : EventsSound s') (hg : Grown (fun _ => False) s s') :
    Separate s' s.objs.length := by
  apply separate_of_apart
  have hle := hg.le
  have how : ∀ i, ((List.range s'.objs.length).map (fun i => decide (s.objs.length ≤ i)))[i]? =
      if i < s'.objs.length then some (decide (s.objs.length ≤ i)) else none := by
    intro i
    by_cases hi : i < s'.objs.length
    · simp [hi]
    · simp [hi]
  refine ⟨hs', by simp, ?_, ?_⟩
  · intro b i o hb ho r hr
    simp only at hb ho ⊢
    have hrl := refs_lt hs' ho r hr
    have hil := (List.getElem?_eq_some_iff.1 ho).1
    rw [how, if_pos hil] at hb
    rw [how, if_pos hrl]
    cases hb
    by_cases hi : i < s.objs.length
    · rw [hg.old hi] at ho
      have := refs_lt hs ho r hr
      simp; omega
    · rcases hg.refs i o (by omega) ho r hr with hf | hf
      · exact hf.elim
      · simp; omega
  · have key : ∀ i j r r', s'.objs[i]? = some (.arr r) → s'.objs[j]? = some (.arr r') → ¬ i < s.objs.length →
        j < s.objs.length → r.buf ≠ r'.buf := by
      intro i j r r' hi hj hil hjl
      rw [hg.old hjl] at hj
      have := arr_buf_lt hs hj
      rcases hg.bufs i r (by omega) hi with hb | ⟨k, _, hk, _⟩
      · omega
      · exact hk.elim
    intro i j r r' hi hj hne
    simp only at hi hj hne
    rw [how, how, if_pos (List.getElem?_eq_some_iff.1 hi).1, if_pos (List.getElem?_eq_some_iff.1 hj).1] at hne
    by_cases hil : i < s.objs.length <;> by_cases hjl : j < s.objs.length
    · exact absurd (by simp; omega) hne
    · exact (key j i r' r hj hi hjl hil).symm
    · exact key i j r r' hi hj hil hjl
    · exact absurd (by simp; omega) hne

theorem run_sound (s : EState α) (hs : EventsSound s) (op : EOp α) : EventsSound (op.run s).1 :=
  (eeffect_run (fun _ => True) s hs (fun _ _ _ _ _ _ => trivial) op (fun _ _ => trivial)).2

theorem runEvents_sound (s : EState α) (hs : EventsSound s) (hist : List (EOp α)) : EventsSound (runEvents s hist) := by
  induction hist generalizing s with
  | nil => exact hs
  | cons op hist ih => exact ih _ (run_sound s hs op)

end Gcl
