import Verif.Spec.Buffer
import Verif.Lemmas.Basic
import Verif.Props.Composite
/-! # Property C99: which arrays share memory -/
namespace Gcl
set_option autoImplicit false
open Spec

variable {α : Type}

/-! ## Memory only grows, writes keep lengths -/

theorem getD_append_left (m ext : List (List α)) (b : Nat) (h : b < m.length) :
    (m ++ ext).getD b [] = m.getD b [] := by
  simp [List.getD_eq_getElem?_getD, List.getElem?_append_left h]

theorem readArr_ext (m ext : List (List α)) (a : ArrRef) (h : a.buf < m.length) :
    readArr (m ++ ext) a = readArr m a := by
  rw [readArr, readArr, getD_append_left m ext _ h]

theorem writeCells_length (xs : List α) (ps : List Nat) (v : α) : (writeCells xs ps v).length = xs.length := by
  unfold writeCells
  induction ps generalizing xs with
  | nil => rfl
  | cons p ps ih => simp [ih]

theorem writeCells_get (xs : List α) (ps : List Nat) (v : α) (q : Nat) :
    (writeCells xs ps v)[q]? = if q ∈ ps ∧ q < xs.length then some v else xs[q]? := by
  unfold writeCells
  induction ps generalizing xs with
  | nil => simp
  | cons p ps ih =>
    rw [List.foldl_cons, ih]
    simp only [List.length_set, List.mem_cons]
    by_cases hq : q < xs.length
    · by_cases h1 : q ∈ ps
      · simp [h1, hq]
      · by_cases h2 : q = p
        · subst h2; simp [h1, hq]
        · simp [h1, h2, List.getElem?_set, Ne.symm h2]
    · simp [hq, List.getElem?_set]

/-- `r` (in the memory `m'`) was made from `a` (in `m`). -/
structure Made (m m' : List (List α)) (a r : ArrRef) : Prop where
  ext : ∃ e, m' = m ++ e
  buf : r.buf = a.buf ∨ (m.length ≤ r.buf ∧ r.buf < m'.length)
  ok : (∃ xs, m[a.buf]? = some xs ∧ ∀ p ∈ a.pos, p < xs.length) →
    ∃ xs, m'[r.buf]? = some xs ∧ ∀ p ∈ r.pos, p < xs.length

theorem made_refl (m : List (List α)) (a : ArrRef) : Made m m a a := ⟨⟨[], by simp⟩, Or.inl rfl, id⟩

theorem made_alloc (m : List (List α)) (a : ArrRef) (xs : List α) :
    Made m (allocArr m xs).1 a (allocArr m xs).2 :=
  ⟨⟨[xs], rfl⟩, Or.inr ⟨Nat.le_refl _, by simp [allocArr]⟩, fun _ => ⟨xs, by simp [allocArr], by simp [allocArr]⟩⟩

theorem mem_gather {β : Type} {l : List β} {is : List Nat} {x : β} (h : x ∈ gather l is) : x ∈ l := by
  simp only [gather, List.mem_filterMap] at h
  obtain ⟨i, _, hi⟩ := h
  exact List.mem_of_getElem? hi

theorem made_view (m : List (List α)) (a : ArrRef) (is : List Nat) : Made m m a ⟨a.buf, gather a.pos is⟩ :=
  ⟨⟨[], by simp⟩, Or.inl rfl, fun ⟨xs, h1, h2⟩ => ⟨xs, h1, fun p hp => h2 p (mem_gather hp)⟩⟩

theorem Made.trans {m m' m'' : List (List α)} {a b c : ArrRef} (h : Made m m' a b) (h' : Made m' m'' b c) :
    Made m m'' a c := by
  obtain ⟨e, rfl⟩ := h.ext
  obtain ⟨e', rfl⟩ := h'.ext
  refine ⟨⟨e ++ e', by simp⟩, ?_, fun hok => h'.ok (h.ok hok)⟩
  have h1 := h.buf
  have h2 := h'.buf
  simp only [List.length_append] at *
  omega

theorem made_wrap (m : List (List α)) (a : ArrRef) (c : Option (α → α)) :
    Made m (wrapArr m a c).1 a (wrapArr m a c).2 := by
  unfold wrapArr
  cases c with
  | some f => exact made_alloc _ _ _
  | none =>
    simp only
    split
    · exact made_refl m a
    · exact made_alloc _ _ _

theorem made_npGet (m : List (List α)) (a : ArrRef) (k : Key) (r : List (List α) × ArrRef)
    (h : npGet m a k = .ok r) : Made m r.1 a r.2 := by
  unfold npGet at h
  split at h
  · cases h
  · split at h
    · cases h; exact made_view _ _ _
    · cases h; exact made_alloc _ _ _

theorem made_item (m : List (List α)) (a : ArrRef) (j : Int) (multi : Bool) (r : List (List α) × ArrRef)
    (h : itemArr m a j multi = .ok r) : Made m r.1 a r.2 := by
  unfold itemArr at h
  split at h
  · cases h
  · split at h
    · cases h; exact made_view _ _ _
    · cases h; exact made_alloc _ _ _

/-- The possible effects of one operation. -/
inductive Effect (s : BState α) (op : BOp α) : BState α → Prop
  | none : Effect s op s
  | push (i : Nat) (a : ArrRef) (r : List (List α) × ArrRef) (hi : i ∈ mentions op) (ha : s.vars[i]? = some a)
      (hm : Made s.mem r.1 a r.2) : Effect s op (s.push r)
  | write (i : Nat) (a : ArrRef) (ps : List Nat) (v : α) (hi : i ∈ mentions op) (ha : s.vars[i]? = some a)
      (hps : ∀ p ∈ ps, p ∈ a.pos) :
      Effect s op ⟨s.mem.set a.buf (writeCells (s.mem.getD a.buf []) ps v), s.vars⟩
  | assign (i j : Nat) (b : ArrRef) (r : List (List α) × ArrRef) (hi : i ∈ mentions op) (hj : j ∈ mentions op)
      (hr : rebinds i op) (hb : s.vars[j]? = some b) (hm : Made s.mem r.1 b r.2) :
      Effect s op ⟨r.1, s.vars.set i r.2⟩

theorem effect_run (s : BState α) (op : BOp α) : Effect s op (op.run s) := by
  cases op with
  | wrap i c =>
    simp only [BOp.run]
    split
    · exact .none
    · next a ha => exact .push i a _ (by simp [mentions]) ha (made_wrap _ _ _)
  | npSlice i b e st =>
    simp only [BOp.run]
    split
    · exact .none
    · next a ha =>
      split
      · exact .none
      · next r hr => exact .push i a r (by simp [mentions]) ha (made_npGet _ _ _ _ hr)
  | getitem i k =>
    simp only [BOp.run]
    split
    · exact .none
    · next a ha =>
      split
      · exact .none
      · next r hr => exact .push i a _ (by simp [mentions]) ha ((made_npGet _ _ _ _ hr).trans (made_wrap _ _ _))
  | item i j multi =>
    simp only [BOp.run]
    split
    · exact .none
    · next a ha =>
      split
      · exact .none
      · next r hr => exact .push i a _ (by simp [mentions]) ha ((made_item _ _ _ _ _ hr).trans (made_wrap _ _ _))
  | copy i =>
    simp only [BOp.run]
    split
    · exact .none
    · next a ha => exact .push i a _ (by simp [mentions]) ha ((made_alloc _ _ _).trans (made_wrap _ _ _))
  | write i k v =>
    simp only [BOp.run]
    split
    · exact .none
    · next a ha =>
      unfold writeArr
      split
      · exact .none
      · next m hm =>
        split at hm
        · cases hm
        · cases hm
          exact .write i a _ v (by simp [mentions]) ha (fun p hp => mem_gather hp)
  | assign i j c =>
    simp only [BOp.run]
    split
    · next _ b _ hb =>
      exact .assign i j b _ (by simp [mentions]) (by simp [mentions]) rfl hb (made_wrap _ _ _)
    · exact .none

theorem sound_step (s : BState α) (h : Sound s) (op : BOp α) : Sound (op.run s) := by
  have he := effect_run s op
  generalize op.run s = s' at he
  have hold : ∀ (e : List (List α)) (b : ArrRef), b ∈ s.vars →
      ∃ xs, (s.mem ++ e)[b.buf]? = some xs ∧ ∀ p ∈ b.pos, p < xs.length := by
    intro e b hb
    obtain ⟨xs, h1, h2⟩ := h b hb
    exact ⟨xs, by rw [List.getElem?_append_left (List.getElem?_eq_some_iff.1 h1).1]; exact h1, h2⟩
  cases he with
  | none => exact h
  | push i a r hi ha hm =>
    obtain ⟨e, he⟩ := hm.ext
    intro b hb
    simp only [BState.push, List.mem_append, List.mem_singleton] at hb
    rcases hb with hb | rfl
    · change ∃ xs, r.1[b.buf]? = _ ∧ _
      rw [he]; exact hold e b hb
    · exact hm.ok (h a (List.mem_of_getElem? ha))
  | write i a ps v hi ha hps =>
    intro b hb
    obtain ⟨xs, h1, h2⟩ := h b hb
    by_cases hab : b.buf = a.buf
    · refine ⟨writeCells xs ps v, ?_, ?_⟩
      · simp only [hab]
        rw [hab] at h1
        rw [List.getElem?_set_self (List.getElem?_eq_some_iff.1 h1).1]
        simp [List.getD_eq_getElem?_getD, h1]
      · rw [writeCells_length]; exact h2
    · exact ⟨xs, by simp only; rw [List.getElem?_set_ne (Ne.symm hab)]; exact h1, h2⟩
  | assign i j b r hi hj hr hb hm =>
    obtain ⟨e, he⟩ := hm.ext
    intro c hc
    rcases List.mem_or_eq_of_mem_set hc with hc | rfl
    · change ∃ xs, r.1[c.buf]? = _ ∧ _
      rw [he]; exact hold e c hc
    · exact hm.ok (h b (List.mem_of_getElem? hb))

theorem buf_lt {s : BState α} (h : Sound s) {i : Nat} {a : ArrRef} (ha : s.vars[i]? = some a) :
    a.buf < s.mem.length := by
  obtain ⟨xs, h1, _⟩ := h a (List.mem_of_getElem? ha)
  exact (List.getElem?_eq_some_iff.1 h1).1

/-- A step that does not rebind `i` leaves the array of the variable `i`. -/
theorem var_kept (s : BState α) (op : BOp α) (i : Nat) (a : ArrRef) (ha : s.vars[i]? = some a)
    (hr : ¬ rebinds i op) : (op.run s).vars[i]? = some a := by
  have he := effect_run s op
  generalize op.run s = s' at he
  cases he with
  | none => exact ha
  | push i' a' r hi ha' hm =>
    simp only [BState.push]
    rw [List.getElem?_append_left (List.getElem?_eq_some_iff.1 ha).1]
    exact ha
  | write => exact ha
  | assign i' j b r hi hj hr' hb hm =>
    have : i' ≠ i := by
      rintro rfl; exact hr hr'
    simp only
    rw [List.getElem?_set_ne this]
    exact ha

/-! ## Sharing -/

theorem gather_length_buf {β : Type} (l : List β) (is : List Nat) (h : ∀ i ∈ is, i < l.length) :
    (gather l is).length = is.length := by
  induction is with
  | nil => rfl
  | cons i is ih =>
    have hi := h i (by simp)
    simp only [gather, List.filterMap_cons, List.getElem?_eq_getElem hi] at ih ⊢
    simp only [List.length_cons]
    rw [ih (fun j hj => h j (by simp [hj]))]

theorem gather_getElem?_buf {β : Type} (l : List β) (is : List Nat) (h : ∀ i ∈ is, i < l.length) (k : Nat) :
    (gather l is)[k]? = (is[k]?).bind (fun i => l[i]?) := by
  induction is generalizing k with
  | nil => simp [gather]
  | cons i is ih =>
    have hi := h i (by simp)
    have hg : gather l (i :: is) = l[i] :: gather l is := by
      simp [gather, List.getElem?_eq_getElem hi]
    rw [hg]
    cases k with
    | zero => simp [List.getElem?_eq_getElem hi]
    | succ k => simpa using ih (fun j hj => h j (by simp [hj])) k

/-- Selecting from a selection. -/
theorem gather_gather_buf {β : Type} (l : List β) (ps is : List Nat) (hp : ∀ p ∈ ps, p < l.length)
    (hi : ∀ i ∈ is, i < ps.length) : gather l (gather ps is) = gather (gather l ps) is := by
  apply List.ext_getElem?
  intro k
  rw [gather_getElem?_buf l _ (fun p hp' => hp p (mem_gather hp')), gather_getElem?_buf ps is hi,
    gather_getElem?_buf _ is (fun i h => by rw [gather_length_buf l ps hp]; exact hi i h)]
  cases hk : is[k]? with
  | none => rfl
  | some i =>
    simp only [Option.bind_some]
    rw [gather_getElem?_buf l ps hp]

theorem read_view {s : BState α} (h : Sound s) {i : Nat} {a : ArrRef} (ha : s.vars[i]? = some a)
    (is : List Nat) (hi : ∀ i ∈ is, i < a.pos.length) :
    readArr s.mem ⟨a.buf, gather a.pos is⟩ = gather (readArr s.mem a) is := by
  obtain ⟨xs, h1, h2⟩ := h a (List.mem_of_getElem? ha)
  have : s.mem.getD a.buf [] = xs := by simp [List.getD_eq_getElem?_getD, h1]
  simp only [readArr, this]
  exact gather_gather_buf xs a.pos is h2 hi

theorem sound_run (s : BState α) (h : Sound s) (hist : List (BOp α)) : Sound (runBufs s hist) := by
  induction hist generalizing s with
  | nil => exact h
  | cons op hist ih => exact ih _ (sound_step s h op)

theorem vars_kept (s : BState α) (hist : List (BOp α)) (i : Nat) (a : ArrRef) (ha : s.vars[i]? = some a)
    (hr : ∀ op ∈ hist, ¬ rebinds i op) : (runBufs s hist).vars[i]? = some a := by
  induction hist generalizing s with
  | nil => exact ha
  | cons op hist ih =>
    exact ih _ (var_kept s op i a ha (hr op (by simp))) (fun o ho => hr o (by simp [ho]))

/-- A view tracks its base. -/
theorem tracks_view (s : BState α) (h : Sound s) (n i : Nat) (a : ArrRef) (is : List Nat)
    (ha : s.vars[i]? = some a) (hn : s.vars[n]? = some ⟨a.buf, gather a.pos is⟩)
    (hi : ∀ i ∈ is, i < a.pos.length) : Tracks s n i is := by
  intro hist hh
  have ha' := vars_kept s hist i a ha (fun op ho => (hh op ho).1)
  have hn' := vars_kept s hist n _ hn (fun op ho => (hh op ho).2)
  refine ⟨readArr (runBufs s hist).mem a, by simp [shows, ha'], ?_⟩
  simp only [shows, hn', Option.map_some]
  rw [read_view (sound_run s h hist) ha' is hi]

/-! ## Independence -/

/-- Variables of different owners have different buffers. -/
structure BufApart (t : Shared α) : Prop where
  sound : Sound t.s
  len : t.owner.length = t.s.vars.length
  apart : ∀ (i j : Nat) (a b : ArrRef), t.s.vars[i]? = some a → t.s.vars[j]? = some b →
    t.owner[i]? ≠ t.owner[j]? → a.buf ≠ b.buf

theorem bufApart_step (t : Shared α) (h : BufApart t) (side : Bool) (op : BOp α) :
    BufApart (sideStep t side op) ∧
    ∀ j, t.owner[j]? = some (!side) → shows (sideStep t side op).s j = shows t.s j := by
  unfold sideStep
  split
  case isFalse => exact ⟨h, fun _ _ => rfl⟩
  case isTrue hown =>
  have hside : ∀ i ∈ mentions op, t.owner[i]? = some side := by
    intro i hi
    simpa using List.all_eq_true.1 hown i hi
  have hs' := sound_step t.s h.sound op
  have he := effect_run t.s op
  generalize op.run t.s = s' at he hs'
  cases he with
  | none =>
    simp only [Nat.sub_self, List.replicate_zero, List.append_nil]
    exact ⟨h, fun _ _ => trivial⟩
  | push i a r hi ha hm =>
    have hlen : (t.s.push r).vars.length - t.s.vars.length = 1 := by simp [BState.push]
    rw [hlen]
    obtain ⟨e, hext⟩ := hm.ext
    -- the new variable shares its buffer with nobody of the other side
    have hnew : ∀ (j : Nat) (b : ArrRef), t.s.vars[j]? = some b → t.owner[j]? ≠ some side → r.2.buf ≠ b.buf := by
      intro j b hb ho
      have hbl := buf_lt h.sound hb
      rcases hm.buf with hbuf | hbuf
      · rw [hbuf]
        exact h.apart i j a b ha hb (by rw [hside i hi]; exact Ne.symm ho)
      · omega
    constructor
    · refine ⟨hs', by simp [BState.push, h.len], ?_⟩
      intro j k b c hb hc ho
      simp only [BState.push, List.replicate_one] at hb hc ho
      by_cases hj : j < t.s.vars.length
      · rw [List.getElem?_append_left hj] at hb
        rw [List.getElem?_append_left (by rw [h.len]; exact hj)] at ho
        by_cases hk : k < t.s.vars.length
        · rw [List.getElem?_append_left hk] at hc
          rw [List.getElem?_append_left (by rw [h.len]; exact hk)] at ho
          exact h.apart j k b c hb hc ho
        · have hk' : k = t.s.vars.length := by
            have := (List.getElem?_eq_some_iff.1 hc).1
            simp at this; omega
          subst hk'
          rw [← h.len] at ho
          simp at hc
          subst hc
          exact Ne.symm (hnew j b hb (by simpa using ho))
      · have hj' : j = t.s.vars.length := by
          have := (List.getElem?_eq_some_iff.1 hb).1
          simp at this; omega
        subst hj'
        simp at hb
        subst hb
        by_cases hk : k < t.s.vars.length
        · rw [List.getElem?_append_left hk] at hc
          have e1 : (t.owner ++ [side])[k]? = t.owner[k]? :=
            List.getElem?_append_left (by rw [h.len]; exact hk)
          have e2 : (t.owner ++ [side])[t.s.vars.length]? = some side := by rw [← h.len]; simp
          rw [e1, e2] at ho
          exact hnew k c hc (Ne.symm ho)
        · have hk' : k = t.s.vars.length := by
            have := (List.getElem?_eq_some_iff.1 hc).1
            simp at this; omega
          subst hk'
          exact absurd rfl ho
    · intro j hj
      have hjl : j < t.s.vars.length := by
        rw [← h.len]; exact (List.getElem?_eq_some_iff.1 hj).1
      simp only [shows, BState.push, List.getElem?_append_left hjl]
      cases hb : t.s.vars[j]? with
      | none => rfl
      | some b =>
        simp only [Option.map_some, Option.some.injEq]
        rw [hext, readArr_ext _ _ _ (buf_lt h.sound hb)]
  | write i a ps v hi ha hps =>
    simp only [Nat.sub_self, List.replicate_zero, List.append_nil]
    refine ⟨⟨hs', h.len, h.apart⟩, ?_⟩
    intro j hj
    simp only [shows]
    cases hb : t.s.vars[j]? with
    | none => rfl
    | some b =>
      have hne : a.buf ≠ b.buf := h.apart i j a b ha hb (by
        rw [hside i hi, hj]; cases side <;> simp)
      simp only [Option.map_some, Option.some.injEq, readArr, List.getD_eq_getElem?_getD,
        List.getElem?_set_ne hne]
  | assign i j b r hi hj hr hb hm =>
    simp only [List.length_set, Nat.sub_self, List.replicate_zero, List.append_nil]
    obtain ⟨e, hext⟩ := hm.ext
    have hnew : ∀ (k : Nat) (c : ArrRef), t.s.vars[k]? = some c → t.owner[k]? ≠ some side → r.2.buf ≠ c.buf := by
      intro k c hc ho
      have hcl := buf_lt h.sound hc
      rcases hm.buf with hbuf | hbuf
      · rw [hbuf]
        exact h.apart j k b c hb hc (by rw [hside j hj]; exact Ne.symm ho)
      · omega
    constructor
    · refine ⟨hs', by simp [h.len], ?_⟩
      intro k l c d hc hd ho
      simp only [List.getElem?_set] at hc hd
      by_cases hk : i = k
      · subst hk
        simp only [if_true] at hc
        split at hc
        · next hlt =>
          simp only [Option.some.injEq] at hc
          subst hc
          by_cases hl : i = l
          · subst hl; exact absurd rfl ho
          · rw [if_neg hl] at hd
            exact hnew l d hd (by rw [← hside i hi]; exact Ne.symm ho)
        · cases hc
      · rw [if_neg hk] at hc
        by_cases hl : i = l
        · subst hl
          simp only [if_true] at hd
          split at hd
          · simp only [Option.some.injEq] at hd
            subst hd
            exact Ne.symm (hnew k c hc (by rw [← hside i hi]; exact ho))
          · cases hd
        · rw [if_neg hl] at hd
          exact h.apart k l c d hc hd ho
    · intro k hk
      have hik : i ≠ k := by
        rintro rfl
        rw [hside i hi] at hk
        cases side <;> simp at hk
      simp only [shows, List.getElem?_set_ne hik]
      cases hc : t.s.vars[k]? with
      | none => rfl
      | some c =>
        simp only [Option.map_some, Option.some.injEq]
        rw [hext, readArr_ext _ _ _ (buf_lt h.sound hc)]

theorem apart_run (t : Shared α) (h : BufApart t) (hist : List (Bool × BOp α)) : BufApart (runSides t hist) := by
  induction hist generalizing t with
  | nil => exact h
  | cons x hist ih => exact ih _ (bufApart_step t h x.1 x.2).1

theorem independent_of_fresh (s' : BState α) (n : Nat) (hs : Sound s')
    (hf : ∀ (i : Nat) (a b : ArrRef), i ≠ n → s'.vars[i]? = some a → s'.vars[n]? = some b → a.buf ≠ b.buf) :
    Independent s' n := by
  have h0 : BufApart (split s' n) := by
    refine ⟨hs, by simp [split], ?_⟩
    intro i j a b ha hb ho
    change s'.vars[i]? = some a at ha
    change s'.vars[j]? = some b at hb
    have hi := (List.getElem?_eq_some_iff.1 ha).1
    have hj := (List.getElem?_eq_some_iff.1 hb).1
    change ((List.range s'.vars.length).map (fun i => i == n))[i]? ≠
      ((List.range s'.vars.length).map (fun i => i == n))[j]? at ho
    rw [List.getElem?_map, List.getElem?_map, List.getElem?_range hi, List.getElem?_range hj] at ho
    simp only [Option.map_some, ne_eq, Option.some.injEq] at ho
    by_cases h1 : i = n
    · subst h1
      exact Ne.symm (hf j b a (fun hc => ho (by rw [hc])) hb ha)
    · by_cases h2 : j = n
      · subst h2; exact hf i a b h1 ha hb
      · exact absurd (by simp [h1, h2]) ho
  intro hist side op t ht j hj
  have ha := apart_run _ h0 hist
  rw [← ht] at ha
  refine ⟨(bufApart_step t ha side op).2 j hj, ?_⟩
  have : j < t.s.vars.length := by rw [← ha.len]; exact (List.getElem?_eq_some_iff.1 hj).1
  simp [shows, List.getElem?_eq_getElem this]

/-! ## The claims -/

theorem contiguous_range' (b n : Nat) : contiguous (List.range' b n) = true := by
  induction n generalizing b with
  | zero => rfl
  | succ n ih =>
    cases n with
    | zero => rfl
    | succ n =>
      rw [List.range'_succ, List.range'_succ, contiguous]
      have := ih (b + 1)
      rw [List.range'_succ] at this
      simp [this]

theorem contiguous_range (n : Nat) : contiguous (List.range n) = true := by
  rw [List.range_eq_range']; exact contiguous_range' 0 n

theorem contiguous_get {l : List Nat} (h : contiguous l = true) (k : Nat) (hk : k < l.length) :
    l[k]? = (l[0]?).map (· + k) := by
  induction l generalizing k with
  | nil => simp at hk
  | cons i l ih =>
    cases k with
    | zero => simp
    | succ k =>
      cases l with
      | nil => simp at hk
      | cons j l =>
        simp only [contiguous, Bool.and_eq_true, decide_eq_true_eq] at h
        have := ih h.2 k (by simpa using hk)
        rw [List.getElem?_cons_succ, this]
        simp only [List.getElem?_cons_zero, Option.map_some, h.1, Option.some.injEq]
        omega

theorem contiguous_of_get {l : List Nat} (h : ∀ k, k + 1 < l.length → ∀ x y, l[k]? = some x → l[k + 1]? = some y →
    y = x + 1) : contiguous l = true := by
  induction l with
  | nil => rfl
  | cons i l ih =>
    cases l with
    | nil => rfl
    | cons j l =>
      have h0 := h 0 (by simp) i j (by simp) (by simp)
      simp only [contiguous, h0, decide_true, Bool.true_and]
      rw [← h0]
      exact ih (fun k hk x y hx hy => h (k + 1) (by simp at hk ⊢; omega) x y (by simpa using hx) (by simpa using hy))

theorem resolve_bound (k : Key) (n : Nat) (idxs : List Nat) (h : k.resolve n = .ok idxs) : ∀ i ∈ idxs, i < n := by
  exact resolve_lt k n idxs h

/-- The result of a slice is contiguous exactly if the step is one or at most one record is selected. -/
theorem slice_contiguous (n : Nat) (start stop step : Option Int) (idxs : List Nat)
    (h : sliceIdxs n start stop step = .ok idxs) (ps : List Nat) (hp : contiguous ps = true) (hn : ps.length = n) :
    contiguous (gather ps idxs) = true ↔ step.getD 1 = 1 ∨ idxs.length ≤ 1 := by
  have hb : ∀ i ∈ idxs, i < ps.length := by
    rw [hn]; exact resolve_bound (.slice start stop step) n idxs h
  have hget : ∀ k : Nat, (gather ps idxs)[k]? = (idxs[k]?).bind (fun i => (ps[0]?).map (· + i)) := by
    intro k
    rw [gather_getElem?_buf ps idxs hb]
    cases hk : idxs[k]? with
    | none => rfl
    | some i =>
      simp only [Option.bind_some]
      exact contiguous_get hp i (hb i (List.mem_of_getElem? hk))
  have hlen := gather_length_buf ps idxs hb
  -- neighbours differ by the step
  have hstep : ∀ (k x y : Nat), idxs[k]? = some x → idxs[k + 1]? = some y → (y : Int) = x + step.getD 1 := by
    intro k x y hx hy
    have key : ∀ (A : Int) (L : Nat), idxs = (List.range L).map (fun (k : Nat) => (A + (k : Int) * step.getD 1).toNat) →
        (∀ j : Nat, j < L → (0 : Int) ≤ A + j * step.getD 1) → (y : Int) = x + step.getD 1 := by
      intro A L hidx hall
      subst hidx
      simp only [List.getElem?_map] at hx hy
      have hL : k + 1 < L := by
        by_contra hc
        rw [List.getElem?_eq_none (by simp; omega)] at hy
        simp at hy
      rw [List.getElem?_range (by omega)] at hx
      rw [List.getElem?_range hL] at hy
      simp only [Option.map_some, Option.some.injEq] at hx hy
      have h1 := hall k (by omega)
      have h2 := hall (k + 1) hL
      rw [← hx, ← hy, Int.toNat_of_nonneg h1, Int.toNat_of_nonneg h2]
      push_cast
      ring
    rcases Int.lt_trichotomy (step.getD 1) 0 with hneg | hz | hpos
    · rw [sliceIdxs_neg n start stop step hneg] at h
      refine key _ _ (Except.ok.inj h).symm ?_
      intro j hj
      rw [sliceLen_neg _ _ _ hneg] at hj
      have : (-1 : Int) ≤ (stop.map (bound n (-1) (n - 1))).getD (-1) := by
        cases stop with
        | none => simp
        | some b => simp only [Option.map_some, Option.getD_some, bound]; omega
      omega
    · simp [sliceIdxs, hz] at h
    · rw [sliceIdxs_pos n start stop step hpos] at h
      refine key _ _ (Except.ok.inj h).symm ?_
      intro j hj
      have : (0 : Int) ≤ (start.map (bound n 0 n)).getD 0 := by
        cases start with
        | none => simp
        | some b => simp only [Option.map_some, Option.getD_some, bound]; omega
      have : (0 : Int) ≤ j * step.getD 1 := Int.mul_nonneg (by omega) (by omega)
      omega
  constructor
  · intro hc
    by_contra hno
    push_neg at hno
    obtain ⟨h1, h2⟩ := hno
    obtain ⟨x, hx⟩ : ∃ x, idxs[0]? = some x := ⟨_, List.getElem?_eq_getElem (by omega)⟩
    obtain ⟨y, hy⟩ : ∃ y, idxs[1]? = some y := ⟨_, List.getElem?_eq_getElem (by omega)⟩
    have h3 := hstep 0 x y hx hy
    have h4 := contiguous_get hc 1 (by rw [hlen]; omega)
    rw [hget, hget, hx, hy] at h4
    have hps : 0 < ps.length := by
      have := hb x (List.mem_of_getElem? hx); omega
    rw [List.getElem?_eq_getElem hps] at h4
    simp at h4
    omega
  · rintro (h1 | h1)
    · apply contiguous_of_get
      intro k hk x y hx hy
      rw [hget] at hx hy
      obtain ⟨u, hu⟩ : ∃ x, idxs[k]? = some x := ⟨_, List.getElem?_eq_getElem (by omega)⟩
      obtain ⟨v, hv⟩ : ∃ y, idxs[k + 1]? = some y := ⟨_, List.getElem?_eq_getElem (by omega)⟩
      have h3 := hstep k u v hu hv
      rw [hu] at hx
      rw [hv] at hy
      cases hp0 : ps[0]? with
      | none => rw [hp0] at hx; simp at hx
      | some p =>
        rw [hp0] at hx hy
        simp at hx hy
        omega
    · have : (gather ps idxs).length ≤ 1 := by rw [hlen]; exact h1
      generalize gather ps idxs = l at *
      match l, this with
      | [], _ => rfl
      | [_], _ => rfl

theorem push_new (s : BState α) (r : List (List α) × ArrRef) : (s.push r).vars[s.vars.length]? = some r.2 := by
  simp [BState.push]

theorem push_old (s : BState α) (r : List (List α) × ArrRef) {i : Nat} {a : ArrRef} (ha : s.vars[i]? = some a) :
    (s.push r).vars[i]? = some a := by
  simp only [BState.push]
  rw [List.getElem?_append_left (List.getElem?_eq_some_iff.1 ha).1]
  exact ha

theorem independent_push (s : BState α) (h : Sound s) (r : List (List α) × ArrRef) (hs : Sound (s.push r))
    (hr : s.mem.length ≤ r.2.buf) : Independent (s.push r) s.vars.length := by
  apply independent_of_fresh _ _ hs
  intro i a b hi ha hb
  rw [push_new] at hb
  cases hb
  have hlt : i < s.vars.length := by
    have := (List.getElem?_eq_some_iff.1 ha).1
    simp [BState.push] at this
    omega
  simp only [BState.push, List.getElem?_append_left hlt] at ha
  have := buf_lt h ha
  omega

theorem readArr_alloc (m : List (List α)) (xs : List α) : readArr (allocArr m xs).1 (allocArr m xs).2 = xs := by
  have hg : gather xs (List.range xs.length) = xs := by
    apply List.ext_getElem?
    intro k
    rw [gather_getElem?_buf xs _ (by simp)]
    by_cases hk : k < xs.length
    · rw [List.getElem?_range hk]; rfl
    · rw [List.getElem?_eq_none (by simpa using hk), List.getElem?_eq_none (by omega)]; rfl
  simpa [readArr, allocArr, List.getD_eq_getElem?_getD] using hg

theorem wrap_alloc (m : List (List α)) (xs : List α) :
    wrapArr (allocArr m xs).1 (allocArr m xs).2 none = allocArr m xs := by
  simp [wrapArr, allocArr, contiguous_range]

theorem readArr_length {s : BState α} (h : Sound s) {i : Nat} {a : ArrRef} (ha : s.vars[i]? = some a) :
    (readArr s.mem a).length = a.pos.length := by
  obtain ⟨xs, h1, h2⟩ := h a (List.mem_of_getElem? ha)
  have : s.mem.getD a.buf [] = xs := by simp [List.getD_eq_getElem?_getD, h1]
  rw [readArr, this, gather_length_buf xs a.pos h2]

/-- **C99** `b = a[start:stop:step]` for a graphicle array `a`: `b` shows the selected records of `a`.  If the step
is one, or at most one record is selected, `b` goes on showing the selected records of `a` whatever is written
through any variable; otherwise the two are independent. -/
theorem C99_slice (s : BState α) (h : Sound s) (i : Nat) (a : ArrRef) (ha : s.vars[i]? = some a)
    (hc : contiguous a.pos = true) (start stop step : Option Int) (idxs : List Nat)
    (hk : (Key.slice start stop step).resolve a.pos.length = .ok idxs) (s' : BState α)
    (hs' : s' = (BOp.getitem i (.slice start stop step)).run s) :
    shows s' s.vars.length = (shows s i).map (fun x => gather x idxs) ∧
    (step.getD 1 = 1 ∨ idxs.length ≤ 1 → Tracks s' s.vars.length i idxs) ∧
    (¬ (step.getD 1 = 1 ∨ idxs.length ≤ 1) → Independent s' s.vars.length) := by
  have hb := resolve_bound _ _ _ hk
  have hcon := slice_contiguous a.pos.length start stop step idxs hk a.pos hc rfl
  have hs : Sound s' := by rw [hs']; exact sound_step s h _
  have hrun : s' = s.push (wrapArr s.mem ⟨a.buf, gather a.pos idxs⟩ none) := by
    rw [hs']
    simp only [BOp.run, ha, npGet, hk]
  have hview := read_view h ha idxs hb
  by_cases hcc : contiguous (gather a.pos idxs) = true
  · have hw : wrapArr s.mem ⟨a.buf, gather a.pos idxs⟩ none = (s.mem, ⟨a.buf, gather a.pos idxs⟩) := by
      simp [wrapArr, hcc]
    rw [hw] at hrun
    have hnew : s'.vars[s.vars.length]? = some ⟨a.buf, gather a.pos idxs⟩ := by rw [hrun]; exact push_new s _
    have hmem : s'.mem = s.mem := by rw [hrun]; rfl
    refine ⟨?_, ?_, ?_⟩
    · simp only [shows, hnew, ha, Option.map_some, hmem, hview]
    · intro _
      exact tracks_view s' hs _ i a idxs (by rw [hrun]; exact push_old s _ ha) hnew hb
    · intro hno; exact absurd (hcon.1 hcc) hno
  · have hw : wrapArr s.mem ⟨a.buf, gather a.pos idxs⟩ none =
        allocArr s.mem (readArr s.mem ⟨a.buf, gather a.pos idxs⟩) := by
      simp [wrapArr, hcc]
    rw [hw] at hrun
    refine ⟨?_, ?_, ?_⟩
    · rw [hrun]
      simp only [shows, push_new, ha, Option.map_some]
      rw [show (s.push (allocArr s.mem (readArr s.mem ⟨a.buf, gather a.pos idxs⟩))).mem =
        (allocArr s.mem (readArr s.mem ⟨a.buf, gather a.pos idxs⟩)).1 from rfl, readArr_alloc, hview]
    · intro hyes; exact absurd (hcon.2 hyes) hcc
    · intro _
      rw [hrun]
      exact independent_push s h _ (by rw [← hrun]; exact hs) (Nat.le_refl _)

/-- **C99** Subscripting with a mask or with a list of integers gives new memory, even if everything is selected:
`b = a[key]` shows what the subscript selects and is independent of everything else. -/
theorem C99_fancy (s : BState α) (h : Sound s) (i : Nat) (a : ArrRef) (ha : s.vars[i]? = some a) (k : Key)
    (hk : ∀ start stop step, k ≠ .slice start stop step) (x : List α)
    (hx : k.apply (readArr s.mem a) = .ok x) (s' : BState α) (hs' : s' = (BOp.getitem i k).run s) :
    shows s' s.vars.length = some x ∧ Independent s' s.vars.length := by
  have hs : Sound s' := by rw [hs']; exact sound_step s h _
  rw [Key.apply, readArr_length h ha] at hx
  cases hr : k.resolve a.pos.length with
  | error e => rw [hr] at hx; cases hx
  | ok idxs =>
    rw [hr] at hx
    cases hx
    have hrun : s' = s.push (allocArr s.mem (gather (readArr s.mem a) idxs)) := by
      rw [hs']
      cases k with
      | slice b e st => exact absurd rfl (hk b e st)
      | mask m => simp only [BOp.run, ha, npGet, hr, wrap_alloc]
      | ints is => simp only [BOp.run, ha, npGet, hr, wrap_alloc]
    constructor
    · rw [hrun]
      simp only [shows, push_new, Option.map_some]
      rw [show (s.push (allocArr s.mem (gather (readArr s.mem a) idxs))).mem =
        (allocArr s.mem (gather (readArr s.mem a) idxs)).1 from rfl, readArr_alloc]
    · rw [hrun]
      exact independent_push s h _ (by rw [← hrun]; exact hs) (Nat.le_refl _)

/-- **C99** `a.copy()` shows what `a` shows and is independent of everything else. -/
theorem C99_copy (s : BState α) (h : Sound s) (i : Nat) (hi : i < s.vars.length) (s' : BState α)
    (hs' : s' = (BOp.copy i).run s) :
    shows s' s.vars.length = shows s i ∧ Independent s' s.vars.length := by
  have hs : Sound s' := by rw [hs']; exact sound_step s h _
  have ha : s.vars[i]? = some s.vars[i] := List.getElem?_eq_getElem hi
  have hrun : s' = s.push (allocArr s.mem (readArr s.mem s.vars[i])) := by
    rw [hs']
    simp only [BOp.run, ha, wrap_alloc]
  constructor
  · rw [hrun]
    simp only [shows, push_new, ha, Option.map_some]
    rw [show (s.push (allocArr s.mem (readArr s.mem s.vars[i]))).mem =
      (allocArr s.mem (readArr s.mem s.vars[i])).1 from rfl, readArr_alloc]
  · rw [hrun]
    exact independent_push s h _ (by rw [← hrun]; exact hs) (Nat.le_refl _)

/-- **C99** `Class(a)` shows the records of `a` (converted if the dtype differs).  It shares the memory of `a` for
ever if the dtype is right and `a` is contiguous, and is independent of everything otherwise. -/
theorem C99_construct (s : BState α) (h : Sound s) (i : Nat) (a : ArrRef) (ha : s.vars[i]? = some a)
    (cast : Option (α → α)) (s' : BState α) (hs' : s' = (BOp.wrap i cast).run s) :
    shows s' s.vars.length = (shows s i).map (fun x => x.map (cast.getD id)) ∧
    (cast = none → contiguous a.pos = true → Tracks s' s.vars.length i (List.range a.pos.length)) ∧
    (cast.isSome ∨ contiguous a.pos = false → Independent s' s.vars.length) := by
  have hs : Sound s' := by rw [hs']; exact sound_step s h _
  have hfresh : ∀ xs, s' = s.push (allocArr s.mem xs) →
      shows s' s.vars.length = some xs ∧ Independent s' s.vars.length := by
    intro xs hrun
    constructor
    · rw [hrun]
      simp only [shows, push_new, Option.map_some]
      rw [show (s.push (allocArr s.mem xs)).mem = (allocArr s.mem xs).1 from rfl, readArr_alloc]
    · rw [hrun]
      exact independent_push s h _ (by rw [← hrun]; exact hs) (Nat.le_refl _)
  cases cast with
  | some f =>
    have := hfresh ((readArr s.mem a).map f) (by rw [hs']; simp only [BOp.run, ha, wrapArr])
    refine ⟨by rw [this.1]; simp [shows, ha], fun hc => by simp at hc, fun _ => this.2⟩
  | none =>
    by_cases hcc : contiguous a.pos = true
    · have hrun : s' = s.push (s.mem, a) := by rw [hs']; simp [BOp.run, ha, wrapArr, hcc]
      have hg : gather a.pos (List.range a.pos.length) = a.pos := by
        have := readArr_alloc ([] : List (List Nat)) a.pos
        simpa [readArr, allocArr] using this
      have hnew : s'.vars[s.vars.length]? = some ⟨a.buf, gather a.pos (List.range a.pos.length)⟩ := by
        rw [hrun, push_new, hg]
      refine ⟨?_, fun _ _ => ?_, fun hc => ?_⟩
      · rw [hrun]
        simp [shows, push_new, ha, BState.push]
      · exact tracks_view s' hs _ i a _ (by rw [hrun]; exact push_old s _ ha) hnew (by simp)
      · rw [hcc] at hc; simp at hc
    · have := hfresh (readArr s.mem a) (by rw [hs']; simp [BOp.run, ha, wrapArr, hcc])
      refine ⟨by rw [this.1]; simp [shows, ha], fun _ hc => absurd hc hcc, fun _ => this.2⟩

/-- **C99** `a[j]` for an integer `j`: for arrays of numbers a new array of one record, independent of everything;
for momenta, colours and edges an array that goes on showing the record `j` of `a`. -/
theorem C99_item (s : BState α) (h : Sound s) (i : Nat) (a : ArrRef) (ha : s.vars[i]? = some a) (j : Int) (p : Nat)
    (hp : normIdx a.pos.length j = .ok p) (multi : Bool) (s' : BState α)
    (hs' : s' = (BOp.item i j multi).run s) :
    shows s' s.vars.length = (shows s i).map (fun x => gather x [p]) ∧
    (multi = true → Tracks s' s.vars.length i [p]) ∧
    (multi = false → Independent s' s.vars.length) := by
  have hs : Sound s' := by rw [hs']; exact sound_step s h _
  have hb : ∀ q ∈ [p], q < a.pos.length := by
    have := resolve_bound (.ints [j]) a.pos.length [p] (by simp [Key.resolve, normIdxs, hp])
    exact this
  cases multi with
  | true =>
    have hcc : contiguous (gather a.pos [p]) = true := by
      have := gather_length_buf a.pos [p] hb
      generalize gather a.pos [p] = l at this
      match l, this with
      | [_], _ => rfl
    have hrun : s' = s.push (s.mem, ⟨a.buf, gather a.pos [p]⟩) := by
      rw [hs']; simp [BOp.run, ha, itemArr, hp, wrapArr, hcc]
    have hnew : s'.vars[s.vars.length]? = some ⟨a.buf, gather a.pos [p]⟩ := by rw [hrun]; exact push_new s _
    refine ⟨?_, fun _ => ?_, fun hc => by cases hc⟩
    · have hmem : s'.mem = s.mem := by rw [hrun]; rfl
      simp only [shows, hnew, ha, Option.map_some, hmem, read_view h ha [p] hb]
    · exact tracks_view s' hs _ i a _ (by rw [hrun]; exact push_old s _ ha) hnew hb
  | false =>
    have hrun : s' = s.push (allocArr s.mem (gather (readArr s.mem a) [p])) := by
      rw [hs']
      simp only [BOp.run, ha, itemArr, hp, Bool.false_eq_true, if_false, wrap_alloc]
    refine ⟨?_, (fun hc => by cases hc), fun _ => ?_⟩
    · rw [hrun]
      simp only [shows, push_new, ha, Option.map_some]
      rw [show (s.push (allocArr s.mem (gather (readArr s.mem a) [p]))).mem =
        (allocArr s.mem (gather (readArr s.mem a) [p])).1 from rfl, readArr_alloc]
    · rw [hrun]
      exact independent_push s h _ (by rw [← hrun]; exact hs) (Nat.le_refl _)

/-- **C99** Every array held by a graphicle class is contiguous. -/
theorem C99_contiguous (m : List (List α)) (a : ArrRef) (cast : Option (α → α)) :
    contiguous (wrapArr m a cast).2.pos = true := by
  unfold wrapArr
  cases cast with
  | some f => exact contiguous_range _
  | none =>
    simp only
    split
    · next hc => exact hc
    · exact contiguous_range _

/-- **C99** A write `a.data[key] = v` changes exactly the selected records of `a`. -/
theorem C99_write (s : BState α) (h : Sound s) (i : Nat) (a : ArrRef) (ha : s.vars[i]? = some a)
    (hc : contiguous a.pos = true) (k : Key) (v : α) (idxs : List Nat) (hk : k.resolve a.pos.length = .ok idxs)
    (x y : List α) (hx : shows s i = some x) (hy : shows ((BOp.write i k v).run s) i = some y) :
    y.length = x.length ∧ ∀ q : Nat, q < x.length → y[q]? = if q ∈ idxs then some v else x[q]? := by
  obtain ⟨xs, h1, h2⟩ := h a (List.mem_of_getElem? ha)
  have hd : s.mem.getD a.buf [] = xs := by simp [List.getD_eq_getElem?_getD, h1]
  have hlt := (List.getElem?_eq_some_iff.1 h1).1
  have hb := resolve_bound _ _ _ hk
  simp only [shows, ha, Option.map_some, Option.some.injEq, readArr, hd] at hx
  simp only [BOp.run, ha, writeArr, hk, shows, Option.map_some, Option.some.injEq, readArr, hd] at hy
  rw [List.getD_eq_getElem?_getD, List.getElem?_set_self hlt, Option.getD_some] at hy
  have hlx := gather_length_buf xs a.pos h2
  have hw : ∀ p ∈ a.pos, p < (writeCells xs (gather a.pos idxs) v).length := by
    rw [writeCells_length]; exact h2
  have hly := gather_length_buf _ a.pos hw
  rw [hx] at hlx
  rw [hy] at hly
  refine ⟨by omega, ?_⟩
  intro q hq
  rw [← hy, gather_getElem?_buf _ a.pos hw, ← hx, gather_getElem?_buf xs a.pos h2]
  have hqa : q < a.pos.length := by omega
  rw [List.getElem?_eq_getElem hqa]
  simp only [Option.bind_some, writeCells_get]
  have hmem : a.pos[q] < xs.length := h2 _ (List.getElem_mem hqa)
  have hiff : a.pos[q] ∈ gather a.pos idxs ↔ q ∈ idxs := by
    constructor
    · intro hm
      simp only [gather, List.mem_filterMap] at hm
      obtain ⟨r, hr, hr'⟩ := hm
      have hra := hb r hr
      have e1 := contiguous_get hc r hra
      have e2 := contiguous_get hc q hqa
      rw [hr'] at e1
      rw [List.getElem?_eq_getElem hqa] at e2
      cases h0 : a.pos[0]? with
      | none => rw [h0] at e1; simp at e1
      | some z =>
        rw [h0] at e1 e2
        simp at e1 e2
        have : r = q := by omega
        rw [← this]; exact hr
    · intro hm
      simp only [gather, List.mem_filterMap]
      exact ⟨q, hm, List.getElem?_eq_getElem hqa⟩
  by_cases hqi : q ∈ idxs
  · simp [hiff.2 hqi, hqi, hmem]
  · simp [hqi, hiff]

/-- **C99** What a user may expect, and is false: that a subscripted array keeps what it showed when it was made.
Writing the first entry of a mask changes the entry in the mask `mask[0:2]` made before. -/
theorem C99_false : ∃ (s : BState Bool) (s1 : BState Bool) (op : BOp Bool), Sound s ∧
    s1 = (BOp.getitem 0 (.slice (some 0) (some 2) none)).run s ∧ mentions op = [0] ∧
    shows s1 1 = some [false, false] ∧ shows (op.run s1) 1 = some [true, false] := by
  refine ⟨⟨[[false, false, true]], [⟨0, [0, 1, 2]⟩]⟩, _, .write 0 (.ints [0]) true, ?_, rfl, rfl, by decide, by decide⟩
  intro a ha
  simp only [List.mem_singleton] at ha
  subst ha
  exact ⟨_, rfl, by decide⟩

-- hypotheses of the theorems on a mask of three entries
example : Sound (⟨[[false, false, true]], [⟨0, [0, 1, 2]⟩]⟩ : BState Bool) := by
  intro a ha
  simp only [List.mem_singleton] at ha
  subst ha
  exact ⟨_, rfl, by decide⟩
example : contiguous [0, 1, 2] = true ∧
    (Key.slice none none (some (-1))).resolve 3 = .ok [2, 1, 0] ∧
    (Key.slice (some 1) none none).resolve 3 = .ok [1, 2] ∧ normIdx 3 (-1) = .ok 2 := by decide
-- the independence hypothesis is met: two users work with a mask and its reversed subscript
example : shows ((BOp.write 0 (.ints [0]) true).run
    ((BOp.getitem 0 (.slice none none (some (-1)))).run
      (⟨[[false, false, true]], [⟨0, [0, 1, 2]⟩]⟩ : BState Bool))) 1 = some [true, false, false] := by decide

end Gcl
