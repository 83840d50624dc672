import Verif.Lemmas.EventObj
/-! # Property C152: events are objects that share their parts -/
namespace Gcl
set_option autoImplicit false
open Spec

variable {α : Type}

theorem shown_set {s : EState α} {x : Nat} {parts : Attr → Nat} (hx : s.objs[x]? = some (.set parts)) (a : Attr)
    (ha : a ≠ .adj) : shown s x a = s.records (parts a) := by
  simp [shown, EState.attr, hx, ha]

theorem shown_graph {s : EState α} {g p d : Nat} {parts : Attr → Nat} (hg : s.objs[g]? = some (.graph p d))
    (hp : s.objs[p]? = some (.set parts)) (a : Attr) : shown s g a = s.records (if a = .adj then d else parts a) := by
  by_cases ha : a = .adj <;> simp [shown, EState.attr, hg, hp, ha]

theorem madeGraph_shown {P : Nat → Prop} {Q : Attr → ArrRef → Prop} {s : EState α} {m : Py (EState α × Nat)} {want : Attr → List α}
    (h : MadeGraph P Q s m want) : (s.made m).2 = none ∧ EventsSound (s.made m).1 ∧ Grown P s (s.made m).1 ∧
      ∀ a, shown (s.made m).1 (newest (s.made m).1) a = some (want a) := by
  obtain ⟨s', i, ps, p, d, rfl, h2, h3, h4, h5, h6, _, _, h9, h10, _, _⟩ := h
  refine ⟨rfl, h2, h3, fun a => ?_⟩
  have hn : newest s' = i := by simp only [newest]; omega
  change shown s' (newest s') a = _
  rw [hn, shown_graph h4 h5]
  by_cases ha : a = .adj
  · subst ha; simpa using h10
  · rw [if_neg ha]; exact h9 a ha

theorem madeSet_shown {P : Nat → Prop} {Q : Attr → ArrRef → Prop} {s : EState α} {m : Py (EState α × Nat)} {want : Attr → List α}
    (h : MadeSet P Q s m want) : (s.made m).2 = none ∧ EventsSound (s.made m).1 ∧ Grown P s (s.made m).1 ∧
      ∀ a, a ≠ .adj → shown (s.made m).1 (newest (s.made m).1) a = some (want a) := by
  obtain ⟨s', i, ps, rfl, h2, h3, h4, h5, h6, h7, _⟩ := h
  refine ⟨rfl, h2, h3, fun a ha => ?_⟩
  have hn : newest s' = i := by simp only [newest]; omega
  change shown s' (newest s') a = _
  rw [hn, shown_set h4 a ha]
  exact (h7 a ha).1

/-- **C152** Whatever a user does, starting with nothing, every object stays of its kind and refers to existing objects and
memory. -/
theorem C152_reachable (hist : List (EOp α)) : EventsSound (runEvents ⟨[], []⟩ hist) :=
  runEvents_sound _ (fun i o h => by simp at h) hist

/-- **C152** `event.copy()` does not raise, shows what the event shows, and is independent of everything else: whatever
the users of the copy and of the other objects do, neither sees anything of it. -/
theorem C152_copy (s : EState α) (hs : EventsSound s) (g p d : Nat) (hg : s.objs[g]? = some (.graph p d))
    (out : EState α × Option PyErr) (hout : out = (EOp.copyGraph g).run s) :
    out.2 = none ∧ (∀ a, (shown s g a).isSome ∧ shown out.1 (newest out.1) a = shown s g a) ∧
    Separate out.1 s.objs.length := by
  obtain ⟨parts, xs, hp, hxs, hxd⟩ := graph_records hs hg
  have hm := madeGraph_shown (graphFrom_ok (P := fun _ => False) hs (maker_copy _ (fun _ => True) hs) hg hp
    (fun _ _ => trivial) trivial xs xs hxs hxd (fun _ => rfl))
  have hrun : out = s.made (s.graphFrom EState.copyPart g) := by simp only [hout, EOp.run, hg]
  rw [← hrun] at hm
  refine ⟨hm.1, fun a => ?_, separate_grown hs hm.2.1 hm.2.2.1⟩
  have hsh : shown s g a = some (xs a) := by
    rw [shown_graph hg hp]
    by_cases ha : a = .adj
    · subst ha; simpa using hxd
    · rw [if_neg ha]; exact hxs a ha
  rw [hm.2.2.2 a, hsh]
  exact ⟨rfl, rfl⟩

/-- **C152** `particles.copy()`, likewise. -/
theorem C152_copy_set (s : EState α) (hs : EventsSound s) (x : Nat) (parts : Attr → Nat)
    (hx : s.objs[x]? = some (.set parts)) (out : EState α × Option PyErr) (hout : out = (EOp.copySet x).run s) :
    out.2 = none ∧ (∀ a, a ≠ .adj → (shown s x a).isSome ∧ shown out.1 (newest out.1) a = shown s x a) ∧
    Separate out.1 s.objs.length := by
  obtain ⟨xs, hxs⟩ := set_records hs hx
  have hw := maker_copy (fun _ => False) (fun _ => True) hs
  have hm := madeSet_shown (addSet_ok (fun _ => False) _ (fun s a => s.copyPart (parts a)) xs s hs
    (fun a ha s' hs' hg => hw.2.2 _ _ trivial (hxs a ha) s' hs' hg))
  have hrun : out = s.made (s.addSet (fun s a => s.copyPart (parts a))) := by simp only [hout, EOp.run, hx]
  rw [← hrun] at hm
  refine ⟨hm.1, fun a ha => ?_, separate_grown hs hm.2.1 hm.2.2.1⟩
  rw [hm.2.2.2 a ha, shown_set hx a ha, hxs a ha]
  exact ⟨rfl, rfl⟩

/-- The subscript gives new memory for all attributes of `x`: it is a mask or a list of integers, or a slice with a step
other than one that selects more than one record of each attribute that has any. -/
def ToNewMemory (s : EState α) (x : Nat) (k : Key) : Prop :=
  match k with
  | .slice _ _ step => step.getD 1 ≠ 1 ∧ ∀ a l y, shown s x a = some l → l ≠ [] → k.apply l = .ok y → 2 ≤ y.length
  | _ => True

theorem newMemory_of {s : EState α} {x : Nat} {k : Key} (h : ToNewMemory s x k) {a : Attr} {l : List α}
    (hl : shown s x a = some l) : l = [] ∨ NewMemory k l.length := by
  cases k with
  | mask m => exact Or.inr trivial
  | ints is => exact Or.inr trivial
  | slice b e st =>
    by_cases hne : l = []
    · exact Or.inl hne
    · refine Or.inr ⟨h.1, fun idxs hi => ?_⟩
      have := h.2 a l (gather l idxs) hl hne (by simp only [Key.apply, hi])
      rwa [gather_length_buf l idxs (resolve_bound _ _ _ hi)] at this

/-- **C152** `event[key]`: if the subscript can be applied to every attribute that has records, the new event shows in each
attribute what the subscript selects of it, and nothing for an attribute without records; otherwise the exception of an
attribute is raised and nothing happens.  With a mask or a list of integers, or a slice with another step than one, the
new event is independent of everything else. -/
theorem C152_subscript (s : EState α) (hs : EventsSound s) (g p d : Nat) (hg : s.objs[g]? = some (.graph p d)) (k : Key)
    (out : EState α × Option PyErr) (hout : out = (EOp.getGraph g k).run s) :
    ((∀ a x, shown s g a = some x → ∃ y, picked k x = .ok y) →
      out.2 = none ∧
      (∀ a, ∃ x y, shown s g a = some x ∧ picked k x = .ok y ∧ shown out.1 (newest out.1) a = some y) ∧
      (ToNewMemory s g k → Separate out.1 s.objs.length)) ∧
    ((∃ a x e, shown s g a = some x ∧ picked k x = .error e) →
      ∃ a x e, shown s g a = some x ∧ picked k x = .error e ∧ out = (s, some e)) := by
  obtain ⟨parts, xs, hp, hxs, hxd⟩ := graph_records hs hg
  have hrun : out = s.made (s.graphFrom (EState.getPart k) g) := by simp only [hout, EOp.run, hg]
  have hsh : ∀ a, shown s g a = some (xs a) := by
    intro a
    rw [shown_graph hg hp]
    by_cases ha : a = .adj
    · subst ha; simpa using hxd
    · rw [if_neg ha]; exact hxs a ha
  have hwT : Maker (fun _ => True) (fun _ => True) _ s (EState.getPart k) (picked k) :=
    maker_get hs k fun _ _ _ _ => Or.inl trivial
  constructor
  · intro hall
    have hall' : ∀ a, ∃ y, picked k (xs a) = .ok y := fun a => hall a _ (hsh a)
    choose y hy using hall'
    have hm := madeGraph_shown (graphFrom_ok hs hwT hg hp (fun _ _ => trivial) trivial xs y hxs hxd hy)
    rw [← hrun] at hm
    refine ⟨hm.1, fun a => ⟨xs a, y a, hsh a, hy a, hm.2.2.2 a⟩, fun hnew => ?_⟩
    have hw : Maker (fun _ => False) (fun i => ∃ a, i = if a = .adj then d else parts a)
        (fun i r => ∀ r0, s.objs[i]? = some (.arr r0) → ViewOf k r0 r) s (EState.getPart k) (picked k) := by
      refine maker_get hs k ?_
      rintro i x ⟨a, rfl⟩ hix
      right
      rw [← shown_graph hg hp] at hix
      exact newMemory_of hnew hix
    have hm' := madeGraph_shown (graphFrom_ok hs hw hg hp (fun a ha => ⟨a, by rw [if_neg ha]⟩) ⟨.adj, by simp⟩ xs y hxs hxd hy)
    rw [← hrun] at hm'
    exact separate_grown hs hm'.2.1 hm'.2.2.1
  · rintro ⟨a, x, e, h1, h2⟩
    rw [hsh a] at h1
    cases h1
    obtain ⟨b, e', h3, h4⟩ := graphFrom_err hs hwT hg hp (fun _ _ => trivial) trivial xs hxs hxd ⟨a, e, h2⟩
    exact ⟨b, xs b, e', hsh b, h3, by rw [hrun, h4]; rfl⟩

/-- **C152** `particles[key]`, likewise. -/
theorem C152_subscript_set (s : EState α) (hs : EventsSound s) (x : Nat) (parts : Attr → Nat)
    (hx : s.objs[x]? = some (.set parts)) (k : Key) (out : EState α × Option PyErr) (hout : out = (EOp.getSet x k).run s) :
    ((∀ a l, shown s x a = some l → ∃ y, picked k l = .ok y) →
      out.2 = none ∧
      (∀ a, a ≠ .adj → ∃ l y, shown s x a = some l ∧ picked k l = .ok y ∧ shown out.1 (newest out.1) a = some y) ∧
      (ToNewMemory s x k → Separate out.1 s.objs.length)) ∧
    ((∃ a l e, shown s x a = some l ∧ picked k l = .error e) →
      ∃ a l e, shown s x a = some l ∧ picked k l = .error e ∧ out = (s, some e)) := by
  obtain ⟨xs, hxs⟩ := set_records hs hx
  have hrun : out = s.made (s.addSet (fun s a => s.getPart k (parts a))) := by simp only [hout, EOp.run, hx]
  have hsh : ∀ a, a ≠ .adj → shown s x a = some (xs a) := fun a ha => by rw [shown_set hx a ha]; exact hxs a ha
  have hwT : Maker (fun _ => True) (fun _ => True) _ s (EState.getPart k) (picked k) :=
    maker_get hs k fun _ _ _ _ => Or.inl trivial
  constructor
  · intro hall
    have hall' : ∀ a, ∃ y, a ≠ .adj → picked k (xs a) = .ok y := by
      intro a
      by_cases ha : a = .adj
      · exact ⟨[], fun h => absurd ha h⟩
      · obtain ⟨y, hy⟩ := hall a _ (hsh a ha)
        exact ⟨y, fun _ => hy⟩
    choose y hy using hall'
    have hm := madeSet_shown (addSet_ok (fun _ => True) _ (fun s a => s.getPart k (parts a)) y s hs
      (fun a ha s' hs' hg => by rw [← hy a ha]; exact hwT.2.2 _ _ trivial (hxs a ha) s' hs' hg))
    rw [← hrun] at hm
    refine ⟨hm.1, fun a ha => ⟨xs a, y a, hsh a ha, hy a ha, hm.2.2.2 a ha⟩, fun hnew => ?_⟩
    have hw : Maker (fun _ => False) (fun i => ∃ a, a ≠ Attr.adj ∧ i = parts a)
        (fun i r => ∀ r0, s.objs[i]? = some (.arr r0) → ViewOf k r0 r) s (EState.getPart k) (picked k) := by
      refine maker_get hs k ?_
      rintro i l ⟨a, ha, rfl⟩ hix
      right
      rw [← shown_set hx a ha] at hix
      exact newMemory_of hnew hix
    have hm' := madeSet_shown (addSet_ok (fun _ => False) _ (fun s a => s.getPart k (parts a)) y s hs
      (fun a ha s' hs' hg => by rw [← hy a ha]; exact hw.2.2 _ _ ⟨a, ha, rfl⟩ (hxs a ha) s' hs' hg))
    rw [← hrun] at hm'
    exact separate_grown hs hm'.2.1 hm'.2.2.1
  · rintro ⟨a, l, e, h1, h2⟩
    have ha : a ≠ .adj := by
      rintro rfl
      simp [shown, EState.attr, hx] at h1
    rw [hsh a ha] at h1
    cases h1
    obtain ⟨b, hb, e', h3, h4⟩ := addSet_err (fun _ => True) _ (fun s a => s.getPart k (parts a)) (fun a => picked k (xs a)) s hs
      (fun a ha s' hs' hg => hwT.2.2 _ _ trivial (hxs a ha) s' hs' hg) ⟨a, ha, e, h2⟩
    exact ⟨b, xs b, e', hsh b hb, h3, by rw [hrun, h4]; rfl⟩

/-! ## Objects in the same place -/

theorem objs_kept (s : EState α) (hs : EventsSound s) (op : EOp α) (i : Nat) (o : EObj) (hi : s.objs[i]? = some o)
    (h : ¬ replaces i op) : (op.run s).1.objs[i]? = some o := by
  have he := (eeffect_run (fun _ => True) s hs (fun _ _ _ _ _ _ => trivial) op (fun _ _ => trivial)).1
  generalize (op.run s).1 = s' at he
  cases he with
  | none => exact hi
  | grown _ hg => exact hg.old' hi
  | write x r ps v hx ho => exact hi
  | replace x e o' hx hrep href hbuf =>
    simp only
    rw [List.getElem?_set_ne (fun hxi => h (by rw [← hxi]; exact hrep))]
    exact hi

theorem objs_kept_run (s : EState α) (hs : EventsSound s) (hist : List (EOp α)) (i : Nat) (o : EObj)
    (hi : s.objs[i]? = some o) (h : ∀ op ∈ hist, ¬ replaces i op) : (runEvents s hist).objs[i]? = some o := by
  induction hist generalizing s with
  | nil => exact hi
  | cons op hist ih =>
    exact ih _ (run_sound s hs op) (objs_kept s hs op i o hi (h op (by simp))) (fun q hq => h q (by simp [hq]))

theorem slice_one_ok (n : Nat) (start stop step : Option Int) (h : step.getD 1 = 1) :
    ∃ idxs, (Key.slice start stop step).resolve n = .ok idxs := by
  simp only [Key.resolve, sliceIdxs, h]
  exact ⟨_, rfl⟩

/-- An array and its view keep showing the same, as long as nothing is put in their place. -/
theorem view_tracks {s : EState α} (hs : EventsSound s) {i j : Nat} {r0 r : ArrRef} (hi : s.objs[i]? = some (.arr r0))
    (hj : s.objs[j]? = some (.arr r)) {start stop step : Option Int} (h1 : step.getD 1 = 1)
    (hv : ViewOf (.slice start stop step) r0 r) :
    ∃ x y, s.records i = some x ∧ picked (.slice start stop step) x = .ok y ∧ s.records j = some y := by
  have hpl := hs i _ hi
  have hlen := placed_length hpl
  refine ⟨readArr s.mem r0, ?_⟩
  rcases hv h1 with ⟨ha, hb⟩ | ⟨idxs, hres, rfl⟩
  · refine ⟨[], by simp [EState.records, hi], ?_, ?_⟩
    · rw [picked, if_pos]; rw [readArr, ha]; rfl
    · simp [EState.records, hj, readArr, hb, gather]
  · refine ⟨gather (readArr s.mem r0) idxs, by simp [EState.records, hi], ?_, ?_⟩
    · unfold picked
      by_cases hx : readArr s.mem r0 = []
      · rw [if_pos hx, hx]; simp [gather]
      · rw [if_neg hx, Key.apply, hlen, hres]
    · simp only [EState.records, hj]
      rw [read_view_placed hpl idxs (resolve_bound _ _ _ hres)]

/-- **C152** `event[start:stop]`, without a step or with step one, never raises, and goes on showing the slice of what the
event shows, whatever is written through whichever object, until something is put in the place of the event, the slice,
their particles or their attributes. -/
theorem C152_slice (s : EState α) (hs : EventsSound s) (g p d : Nat) (hg : s.objs[g]? = some (.graph p d))
    (start stop step : Option Int) (h1 : step.getD 1 = 1) (out : EState α × Option PyErr)
    (hout : out = (EOp.getGraph g (.slice start stop step)).run s) (hist : List (EOp α))
    (hh : ∀ op ∈ hist, ∀ y, within out.1 g y ∨ within out.1 (newest out.1) y → ¬ replaces y op) :
    out.2 = none ∧ ∀ a, ∃ x y, shown (runEvents out.1 hist) g a = some x ∧ picked (.slice start stop step) x = .ok y ∧
      shown (runEvents out.1 hist) (newest out.1) a = some y := by
  obtain ⟨parts, xs, hp, hxs, hxd⟩ := graph_records hs hg
  have hrun : out = s.made (s.graphFrom (EState.getPart (.slice start stop step)) g) := by simp only [hout, EOp.run, hg]
  have hall : ∀ a, ∃ y, picked (.slice start stop step) (xs a) = .ok y := by
    intro a
    unfold picked
    split
    · exact ⟨_, rfl⟩
    · obtain ⟨idxs, hi⟩ := slice_one_ok (xs a).length start stop step h1
      exact ⟨_, by rw [Key.apply, hi]⟩
  choose y hy using hall
  obtain ⟨s', i, ps, p', d', k1, k2, k3, k4, k5, k6, _, _, k9, k10, k11, k12⟩ :=
    graphFrom_ok (P := fun _ => True) (D := fun _ => True) hs
    (maker_get hs (.slice start stop step) fun _ _ _ _ => Or.inl trivial) hg hp (fun _ _ => trivial) trivial xs y hxs hxd hy
  rw [k1] at hrun
  subst hrun
  have hn : newest s' = i := by simp only [newest]; omega
  refine ⟨rfl, fun a => ?_⟩
  change ∃ x y, shown (runEvents s' hist) g a = some x ∧ _ ∧ shown (runEvents s' hist) (newest s') a = some y
  change ∀ op ∈ hist, ∀ y, within s' g y ∨ within s' (newest s') y → ¬ replaces y op at hh
  rw [hn] at hh ⊢
  have hg' := k3.old' hg
  have hp' := k3.old' hp
  have keep := fun j o (ho : s'.objs[j]? = some o) (hw : within s' g j ∨ within s' i j) =>
    objs_kept_run s' k2 hist j o ho (fun op hop => hh op hop j hw)
  have hgf := keep g _ hg' (Or.inl (Or.inl rfl))
  have hpf := keep p _ hp' (Or.inl (Or.inr (Or.inl ⟨_, hg'⟩)))
  have hif := keep i _ k4 (Or.inr (Or.inl rfl))
  have hpf' := keep p' _ k5 (Or.inr (Or.inr (Or.inl ⟨_, k4⟩)))
  rw [shown_graph hgf hpf, shown_graph hif hpf']
  have hsf := runEvents_sound s' k2 hist
  -- the arrays
  have harr0 : ∃ r0, s.objs[if a = .adj then d else parts a]? = some (.arr r0) := by
    by_cases ha : a = .adj
    · subst ha; simpa using isArr_iff.1 (records_isArr hxd)
    · rw [if_neg ha]; exact isArr_iff.1 (records_isArr (hxs a ha))
  have harr : ∃ r, s'.objs[if a = .adj then d' else ps a]? = some (.arr r) := by
    by_cases ha : a = .adj
    · subst ha; simpa using isArr_iff.1 (records_isArr k10)
    · rw [if_neg ha]; exact isArr_iff.1 (records_isArr (k9 a ha))
  obtain ⟨r0, hr0⟩ := harr0
  obtain ⟨r, hr⟩ := harr
  have hview : ViewOf (.slice start stop step) r0 r := by
    by_cases ha : a = .adj
    · subst ha; exact k12 r (by simpa using hr) r0 hr0
    · rw [if_neg ha] at hr; exact k11 a r ha hr r0 hr0
  refine view_tracks hsf (keep _ _ (k3.old' hr0) (Or.inl (Or.inr (Or.inr ⟨a, ?_⟩))))
    (keep _ _ hr (Or.inr (Or.inr (Or.inr ⟨a, ?_⟩)))) h1 hview
  · by_cases ha : a = .adj <;> simp [EState.attr, hg', hp', ha]
  · by_cases ha : a = .adj <;> simp [EState.attr, k4, k5, ha]

/-- **C152** `ParticleSet(**given)`: an attribute given is the very object given; the others are new objects, one for each,
without records.  If none is given the set is independent of everything else. -/
theorem C152_new_set (s : EState α) (hs : EventsSound s) (given : Attr → Option Nat)
    (hgiven : ∀ a i, given a = some i → s.isArr i = true) (out : EState α × Option PyErr)
    (hout : out = (EOp.newSet given).run s) :
    out.2 = none ∧ s.objs.length ≤ newest out.1 ∧
    (∀ a i, a ≠ .adj → given a = some i → out.1.attr (newest out.1) a = some i) ∧
    (∀ a, a ≠ .adj → given a = none → shown out.1 (newest out.1) a = some [] ∧
      ∃ i, out.1.attr (newest out.1) a = some i ∧ s.objs.length ≤ i ∧
        ∀ b, b ≠ .adj → b ≠ a → given b = none → out.1.attr (newest out.1) b ≠ some i) ∧
    ((∀ a, given a = none) → Separate out.1 s.objs.length) := by
  have hrun : out = s.made (s.addSet (EState.givenPart given)) := by
    rw [hout]
    simp only [EOp.run]
    rw [if_pos]
    rw [List.all_eq_true]
    intro a _
    cases hga : given a with
    | none => rfl
    | some i => simpa using hgiven a i hga
  obtain ⟨s', i, parts, h1, h2, h3, h4, h5, h6, h7, h8⟩ := newSet_ok (fun _ => True) given s hs
    (fun a _ i hi => ⟨trivial, hgiven a i hi⟩)
  have hrun' : out = (s', none) := by rw [hrun, h1]; rfl
  subst hrun'
  have hn : newest s' = i := by simp only [newest]; omega
  simp only [hn]
  have hat : ∀ a, a ≠ .adj → s'.attr i a = some (parts a) := fun a ha => by simp [EState.attr, h4, ha]
  refine ⟨trivial, h5, ?_, ?_, ?_⟩
  · intro a j ha hj
    rw [hat a ha, (h7 a ha).1 j hj]
  · intro a ha hn
    obtain ⟨j1, j2⟩ := (h7 a ha).2 hn
    refine ⟨by rw [shown_set h4 a ha]; exact j2, parts a, hat a ha, j1, fun b hb hba hnb => ?_⟩
    rw [hat b hb]
    intro hc
    exact h8 b a hb ha hba hnb hn (Option.some.inj hc)
  · intro hnone
    obtain ⟨s2, i2, parts2, g1, g2, g3, _⟩ := newSet_ok (fun _ => False) given s hs
      (fun a _ i hi => by rw [hnone a] at hi; cases hi)
    rw [h1] at g1
    cases g1
    exact separate_grown hs g2 g3

/-- **C152** `Graphicle(particles=p, adj=d)`: the attributes of the event are the very objects of the particle set `p`, and
the very object `d`; left out, they are new objects without records, and an event made of nothing is independent of
everything else. -/
theorem C152_new_graph (s : EState α) (hs : EventsSound s) (p d : Option Nat) (hp : ∀ i, p = some i → s.isSet i = true)
    (hd : ∀ i, d = some i → s.isArr i = true) (out : EState α × Option PyErr) (hout : out = (EOp.newGraph p d).run s) :
    out.2 = none ∧ s.objs.length ≤ newest out.1 ∧
    (∀ i, p = some i → ∀ a, a ≠ .adj → out.1.attr (newest out.1) a = s.attr i a ∧ (s.attr i a).isSome) ∧
    (∀ i, d = some i → out.1.attr (newest out.1) .adj = some i) ∧
    (p = none → ∀ a, a ≠ .adj → shown out.1 (newest out.1) a = some [] ∧
      ∃ i, out.1.attr (newest out.1) a = some i ∧ s.objs.length ≤ i) ∧
    (d = none → shown out.1 (newest out.1) .adj = some [] ∧
      ∃ i, out.1.attr (newest out.1) .adj = some i ∧ s.objs.length ≤ i) ∧
    (p = none → d = none → Separate out.1 s.objs.length) := by
  have main : ∀ (own : Nat → Prop), (∀ i, p = some i → own i) → (∀ i, d = some i → own i) →
      ∃ s' n i1 i2 parts, out = (s', none) ∧ EventsSound s' ∧ Grown own s s' ∧ n + 1 = s'.objs.length ∧
      s.objs.length ≤ n ∧ s'.objs[n]? = some (.graph i1 i2) ∧ s'.objs[i1]? = some (.set parts) ∧
      (∀ i, p = some i → i1 = i) ∧ (∀ i, d = some i → i2 = i) ∧
      (p = none → ∀ a, a ≠ .adj → s'.records (parts a) = some [] ∧ s.objs.length ≤ parts a) ∧
      (d = none → s'.records i2 = some [] ∧ s.objs.length ≤ i2) := by
    intro own hpo hdo
    have hset : ∃ s1 i1 parts, s.givenSet p = .ok (s1, i1) ∧ EventsSound s1 ∧ Grown own s s1 ∧
        s1.objs[i1]? = some (.set parts) ∧ (own i1 ∨ s.objs.length ≤ i1) ∧ (∀ i, p = some i → i1 = i) ∧
        (p = none → ∀ a, a ≠ .adj → s1.records (parts a) = some [] ∧ s.objs.length ≤ parts a) := by
      cases p with
      | some i =>
        obtain ⟨parts, hi⟩ := isSet_iff.1 (hp i rfl)
        exact ⟨s, i, parts, rfl, hs, Grown.refl _ _, hi, Or.inl (hpo i rfl), fun j hj => Option.some.inj hj,
          fun h => by cases h⟩
      | none =>
        obtain ⟨s', i, ps, h1, h2, h3, h4, h5, h6, h7, _⟩ := emptySet_ok own s hs
        exact ⟨s', i, ps, h1, h2, h3, h4, Or.inr h5, (fun j hj => by cases hj),
          fun _ a ha => ⟨(h7 a ha).1, (h7 a ha).2.1⟩⟩
    obtain ⟨s1, i1, parts, h1, h2, h3, h4, h5, h6, h7⟩ := hset
    have hadj : ∃ s2 i2, s1.givenAdj d = (s2, i2) ∧ EventsSound s2 ∧ Grown (fun i => own i ∨ s.objs.length ≤ i) s1 s2 ∧
        s2.isArr i2 = true ∧ (own i2 ∨ s.objs.length ≤ i2) ∧ (∀ i, d = some i → i2 = i) ∧
        (d = none → s2.records i2 = some [] ∧ s.objs.length ≤ i2) := by
      cases d with
      | some i =>
        exact ⟨s1, i, rfl, h2, Grown.refl _ _, h3.isArr (hd i rfl), Or.inl (hdo i rfl), fun j hj => Option.some.inj hj,
          fun h => by cases h⟩
      | none =>
        obtain ⟨s', i, k1, k2, k3, k4, k5, _⟩ := gives_alloc (fun i => own i ∨ s.objs.length ≤ i) (fun _ => True) h2 [] trivial
        have := Nat.le_trans h3.le k5
        exact ⟨s', i, Except.ok.inj k1, k2, k3, records_isArr k4, Or.inr this, (fun j hj => by cases hj), fun _ => ⟨k4, this⟩⟩
    obtain ⟨s2, i2, k1, k2, k3, k4, k5, k6, k7⟩ := hadj
    obtain ⟨l1, l2⟩ := grown_add (P := fun i => own i ∨ s.objs.length ≤ i) k2 [] (.graph i1 i2) (by
      intro r hr
      simp only [EObj.refs, List.mem_cons, List.not_mem_nil, or_false] at hr
      rcases hr with rfl | rfl
      · exact h5
      · exact k5) (by simp) ⟨k3.isSet (isSet_iff.2 ⟨_, h4⟩), k4⟩
    rw [List.append_nil] at l1 l2
    refine ⟨_, s2.objs.length, i1, i2, parts, ?_, l2, (h3.trans k3).trans l1, by simp, (h3.trans k3).le, by simp,
      l1.old' (k3.old' h4), h6, k6, ?_, ?_⟩
    · rw [hout]
      simp only [EOp.run]
      rw [if_pos]
      · simp only [h1, k1]
      · rw [Bool.and_eq_true]
        constructor
        · cases p with
          | none => rfl
          | some i => simpa using hp i rfl
        · cases d with
          | none => rfl
          | some i => simpa using hd i rfl
    · intro hn a ha
      obtain ⟨m1, m2⟩ := h7 hn a ha
      refine ⟨?_, m2⟩
      have := records_lt m1
      rw [l1.records k2 (Nat.lt_of_lt_of_le this k3.le), k3.records h2 this]
      exact m1
    · intro hn
      obtain ⟨m1, m2⟩ := k7 hn
      exact ⟨by rw [l1.records k2 (records_lt m1)]; exact m1, m2⟩
  obtain ⟨s', n, i1, i2, parts, g1, g2, g3, g4, g5, g6, g7, g8, g9, g10, g11⟩ :=
    main (fun _ => True) (fun _ _ => trivial) (fun _ _ => trivial)
  subst g1
  have hn : newest s' = n := by simp only [newest]; omega
  simp only [hn]
  have hat : ∀ a, a ≠ .adj → s'.attr n a = some (parts a) := fun a ha => by simp [EState.attr, g6, g7, ha]
  have hadj : s'.attr n .adj = some i2 := by simp [EState.attr, g6]
  refine ⟨trivial, g5, ?_, ?_, ?_, ?_, ?_⟩
  · intro i hi a ha
    obtain ⟨ps, hps⟩ := isSet_iff.1 (hp i hi)
    have h' := g3.old' hps
    rw [← g8 i hi, g7] at h'
    cases h'
    rw [hat a ha]
    simp [EState.attr, hps, ha]
  · intro i hi
    rw [hadj, g9 i hi]
  · intro hpn a ha
    obtain ⟨m1, m2⟩ := g10 hpn a ha
    exact ⟨by rw [shown_graph g6 g7, if_neg ha]; exact m1, parts a, hat a ha, m2⟩
  · intro hdn
    obtain ⟨m1, m2⟩ := g11 hdn
    exact ⟨by rw [shown_graph g6 g7, if_pos rfl]; exact m1, i2, hadj, m2⟩
  · intro hpn hdn
    obtain ⟨s'', n', _, _, _, f1, f2, f3, _⟩ := main (fun _ => False) (fun i hi => by rw [hpn] at hi; cases hi)
      (fun i hi => by rw [hdn] at hi; cases hi)
    cases f1
    exact separate_grown hs f2 f3

/-- **C152** Two events made from the same particle set have the same attributes, not only equal ones, until the particle
set of one is replaced: whatever happens, `g.pdg is h.pdg`, and so on. -/
theorem C152_shared (s : EState α) (hs : EventsSound s) (g h p d d' : Nat) (hg : s.objs[g]? = some (.graph p d))
    (hh : s.objs[h]? = some (.graph p d')) (hist : List (EOp α)) (hno : ∀ op ∈ hist, ∀ q, op ≠ .setParticles g q ∧
      op ≠ .setParticles h q) (a : Attr) (ha : a ≠ .adj) :
    (runEvents s hist).attr g a = (runEvents s hist).attr h a ∧ ((runEvents s hist).attr g a).isSome := by
  have keep : ∀ x d, (∀ op ∈ hist, ∀ q, op ≠ EOp.setParticles x q) → s.objs[x]? = some (.graph p d) →
      ∃ d2, (runEvents s hist).objs[x]? = some (.graph p d2) := by
    clear hg hh hno
    induction hist generalizing s with
    | nil => exact fun x d _ hx => ⟨d, hx⟩
    | cons op hist ih =>
      intro x d hno hx
      have hop := hno op (by simp)
      obtain ⟨d2, hd2⟩ : ∃ d2, (op.run s).1.objs[x]? = some (.graph p d2) := by
        have he := (eeffect_run (fun _ => True) s hs (fun _ _ _ _ _ _ => trivial) op (fun _ _ => trivial)).1
        by_cases hr : replaces x op
        · cases op with
          | assign y z =>
            simp only [replaces] at hr; subst hr
            simp only [EOp.run, hx]
            exact ⟨d, rfl⟩
          | setAttr y b z =>
            simp only [replaces] at hr; subst hr
            simp only [EOp.run, hx]
            exact ⟨d, rfl⟩
          | setParticles y q =>
            simp only [replaces] at hr; subst hr
            exact absurd rfl (hop q)
          | setAdj y q =>
            simp only [replaces] at hr; subst hr
            simp only [EOp.run, hx]
            split
            · exact ⟨q, by simp [(List.getElem?_eq_some_iff.1 hx).1]⟩
            · exact ⟨d, hx⟩
          | _ => exact hr.elim
        · exact ⟨d, objs_kept s hs op x _ hx hr⟩
      exact ih _ (run_sound s hs op) x d2 (fun o ho => hno o (by simp [ho])) hd2
  obtain ⟨e1, h1⟩ := keep g d (fun op hop q => (hno op hop q).1) hg
  obtain ⟨e2, h2⟩ := keep h d' (fun op hop q => (hno op hop q).2) hh
  have hsf := runEvents_sound s hs hist
  obtain ⟨parts, hp⟩ := isSet_iff.1 (hsf g _ h1).1
  constructor
  · simp [EState.attr, h1, h2, ha]
  · simp [EState.attr, h1, hp, ha]

open Classical in
/-- **C152** `particles.a = y` puts the array object `y` into the place, whatever its length and without exception, for the
particle set and all events made of it, and changes no attribute of any other object and nothing any array shows. -/
theorem C152_assign (s : EState α) (x y : Nat) (a : Attr) (ha : a ≠ .adj) (parts : Attr → Nat)
    (hx : s.objs[x]? = some (.set parts)) (hy : s.isArr y = true) (out : EState α × Option PyErr)
    (hout : out = (EOp.setAttr x a y).run s) :
    out.2 = none ∧ out.1.mem = s.mem ∧ (∀ i, out.1.records i = s.records i) ∧
    ∀ z b, out.1.attr z b =
      if b = a ∧ (z = x ∨ ∃ d, s.objs[z]? = some (.graph x d)) then some y else s.attr z b := by
  have hlt := (List.getElem?_eq_some_iff.1 hx).1
  have hrun : out = (⟨s.mem, s.objs.set x (.set (fun b => if b = a then y else parts b))⟩, none) := by
    rw [hout]; simp only [EOp.run, hx]
    rw [if_pos (by simp [ha, hy])]
  subst hrun
  refine ⟨rfl, rfl, fun i => ?_, fun z b => ?_⟩
  · unfold EState.records
    simp only
    by_cases hi : x = i
    · subst hi; rw [List.getElem?_set_self hlt, hx]
    · rw [List.getElem?_set_ne hi]
  · by_cases hz : z = x
    · subst hz
      simp only [EState.attr, List.getElem?_set_self hlt, hx, true_or, and_true]
      by_cases hb : b = a
      · subst hb; simp [ha]
      · simp [hb]
    · have hz' : (s.objs.set x (.set (fun b => if b = a then y else parts b)))[z]? = s.objs[z]? :=
        List.getElem?_set_ne (Ne.symm hz)
      simp only [EState.attr, hz', hz, false_or]
      cases ho : s.objs[z]? with
      | none => simp
      | some o =>
        cases o with
        | arr r => simp
        | set ps => simp
        | graph p d =>
          simp only [Option.some.injEq, EObj.graph.injEq]
          by_cases hp : p = x
          · subst hp
            rw [List.getElem?_set_self hlt, hx]
            by_cases hb : b = a
            · subst hb; simp [ha]
            · simp [hb]
          · rw [List.getElem?_set_ne (Ne.symm hp)]
            have hno : ¬ (b = a ∧ ∃ d', p = x ∧ d = d') := by rintro ⟨_, d', h, _⟩; exact hp h
            simp only [if_neg hno]

/-- **C152** `event.particles = p` makes the event show the attributes of `p`, whatever their lengths; `event.adj = d` puts
`d` in place of the edges.  Nothing else changes. -/
theorem C152_assign_graph (s : EState α) (g p d q : Nat) (hg : s.objs[g]? = some (.graph p d)) :
    (s.isSet q = true → ∃ s', (EOp.setParticles g q).run s = (s', none) ∧ (∀ i, s'.records i = s.records i) ∧
      ∀ z b, s'.attr z b = if z = g ∧ b ≠ .adj then s.attr q b else s.attr z b) ∧
    (s.isArr q = true → ∃ s', (EOp.setAdj g q).run s = (s', none) ∧ (∀ i, s'.records i = s.records i) ∧
      ∀ z b, s'.attr z b = if z = g ∧ b = .adj then some q else s.attr z b) := by
  have hlt := (List.getElem?_eq_some_iff.1 hg).1
  have hrec : ∀ p' d' i, EState.records (⟨s.mem, s.objs.set g (.graph p' d')⟩ : EState α) i = s.records i := by
    intro p' d' i
    unfold EState.records
    simp only
    by_cases hi : g = i
    · subst hi; rw [List.getElem?_set_self hlt, hg]
    · rw [List.getElem?_set_ne hi]
  have hother : ∀ p' d' z b, z ≠ g → EState.attr (⟨s.mem, s.objs.set g (.graph p' d')⟩ : EState α) z b = s.attr z b := by
    intro p' d' z b hz
    unfold EState.attr
    simp only [List.getElem?_set_ne (Ne.symm hz)]
    split
    · rfl
    · next p2 d2 ho =>
      by_cases hp2 : g = p2
      · subst hp2; rw [List.getElem?_set_self hlt, hg]
      · rw [List.getElem?_set_ne hp2]
    · rfl
  constructor
  · intro hq
    obtain ⟨ps, hps⟩ := isSet_iff.1 hq
    have hqg : g ≠ q := by rintro rfl; rw [hg] at hps; cases hps
    refine ⟨_, by simp only [EOp.run, hg, hq, if_true], hrec q d, fun z b => ?_⟩
    by_cases hz : z = g
    · subst hz
      simp only [EState.attr, List.getElem?_set_self hlt, List.getElem?_set_ne hqg, hg, hps, true_and]
      by_cases hb : b = .adj <;> simp [hb]
    · rw [hother _ _ z b hz, if_neg (fun h => hz h.1)]
  · intro hq
    refine ⟨_, by simp only [EOp.run, hg, hq, if_true], hrec p q, fun z b => ?_⟩
    by_cases hz : z = g
    · subst hz
      have hpz : s.objs[p]? = (s.objs.set z (.graph p q))[p]? ∨ p = z := by
        by_cases h : p = z
        · exact Or.inr h
        · exact Or.inl (List.getElem?_set_ne (Ne.symm h)).symm
      simp only [EState.attr, List.getElem?_set_self hlt, hg, true_and]
      by_cases hb : b = .adj
      · simp [hb]
      · simp only [hb, if_false]
        rcases hpz with h | h
        · rw [← h]
        · subst h; rw [List.getElem?_set_self hlt, hg]
    · rw [hother _ _ z b hz, if_neg (fun h => hz h.1)]

/-- **C152** `event.pdg = …`, and so on, is `AttributeError` and changes nothing: the attributes of the particles cannot be
assigned through the event. -/
theorem C152_property (s : EState α) (g y : Nat) (a : Attr) : (EOp.setProperty g a y).run s = (s, some .attributeError) := rfl

/-- **C152** `x.data = y`: every particle set and event of which the array object `x` is an attribute shows in it what `y`
shows from now on; the attributes stay the same objects, and what other arrays show stays. -/
theorem C152_assign_data (s : EState α) (hs : EventsSound s) (x y : Nat) (hx : s.isArr x = true) (hy : s.isArr y = true)
    (out : EState α × Option PyErr) (hout : out = (EOp.assign x y).run s) :
    out.2 = none ∧ ∀ z b, out.1.attr z b = s.attr z b ∧
      shown out.1 z b = if s.attr z b = some x then s.records y else shown s z b := by
  obtain ⟨r, hr⟩ := isArr_iff.1 hx
  obtain ⟨r', hr'⟩ := isArr_iff.1 hy
  have hlt := (List.getElem?_eq_some_iff.1 hr).1
  obtain ⟨e, he⟩ := (made_wrap s.mem r' none).ext
  have hrun : out = (⟨(wrapArr s.mem r' none).1, s.objs.set x (.arr (wrapArr s.mem r' none).2)⟩, none) := by
    rw [hout]; simp only [EOp.run, hr, hr']
  have hpl := hs y _ hr'
  have hread : readArr (wrapArr s.mem r' none).1 (wrapArr s.mem r' none).2 = readArr s.mem r' := by
    simp [wrapArr, hpl.2]
  subst hrun
  have hattr : ∀ z b, EState.attr (⟨(wrapArr s.mem r' none).1, s.objs.set x (.arr (wrapArr s.mem r' none).2)⟩ : EState α) z b
      = s.attr z b := by
    intro z b
    unfold EState.attr
    simp only
    by_cases hz : x = z
    · subst hz; rw [List.getElem?_set_self hlt, hr]
    · rw [List.getElem?_set_ne hz]
      split
      · rfl
      · next p d ho =>
        by_cases hp : x = p
        · subst hp; rw [List.getElem?_set_self hlt, hr]
        · rw [List.getElem?_set_ne hp]
      · rfl
  refine ⟨rfl, fun z b => ⟨hattr z b, ?_⟩⟩
  simp only [shown, hattr]
  cases ha : s.attr z b with
  | none => simp
  | some i =>
    simp only [Option.bind_some, Option.some.injEq]
    by_cases hi : i = x
    · subst hi
      rw [if_pos rfl]
      simp only [EState.records, List.getElem?_set_self hlt, hr', hread]
    · rw [if_neg hi]
      simp only [EState.records, List.getElem?_set_ne (Ne.symm hi)]
      split
      · next q hq => rw [he, readArr_ext _ _ _ (arr_buf_lt hs hq)]
      · rfl

/-- **C152** What a user may expect, and is false: that an event keeps the attributes it was made with.  Assigning the codes
of the particle set changes the event. -/
theorem C152_false : ∃ (hist : List (EOp Nat)) (s s' : EState Nat), s = runEvents ⟨[], []⟩ hist ∧
    s.isSet 6 = true ∧ s.attr 8 .pdg = some 0 ∧ shown s 8 .pdg = some [1, 2] ∧
    s' = ((EOp.setAttr 6 .pdg 9).run s).1 ∧ s'.attr 8 .pdg = some 9 ∧ shown s' 8 .pdg = some [3] := by
  refine ⟨[.array [1, 2], .newSet (fun a => if a = .pdg then some 0 else none), .newGraph (some 6) none, .array [3]],
    _, _, rfl, ?_, ?_, ?_, rfl, ?_, ?_⟩ <;> decide

/-! ## The hypotheses on a history -/

/-- Two events of one particle set, with two codes and one edge. -/
def exampleEvents : EState Nat :=
  runEvents ⟨[], []⟩ [.array [1, 2], .newSet (fun a => if a = .pdg then some 0 else none), .array [5],
    .newGraph (some 6) (some 7), .newGraph (some 6) none]

example : EventsSound exampleEvents := C152_reachable _
example : (exampleEvents.objs.length = 11) ∧ exampleEvents.attr 8 .pdg = some 0 ∧ exampleEvents.attr 10 .pdg = some 0 ∧
    exampleEvents.attr 8 .adj = some 7 ∧ exampleEvents.attr 10 .adj = some 9 := by decide
-- the copy keeps its codes when those of the event are written
example : ∃ s, s = ((EOp.copyGraph 8).run exampleEvents).1 ∧ shown s (newest s) .pdg = some [1, 2] ∧
    shown ((EOp.write 0 (.ints [0]) 9).run s).1 (newest s) .pdg = some [1, 2] ∧
    shown ((EOp.write 0 (.ints [0]) 9).run s).1 8 .pdg = some [9, 2] ∧
    shown ((EOp.write 0 (.ints [0]) 9).run s).1 10 .pdg = some [9, 2] := by
  refine ⟨_, rfl, ?_, ?_, ?_, ?_⟩ <;> decide
-- a slice does not, and a mask of the wrong length for the edges raises
example : ∃ s, s = ((EOp.getGraph 8 (.slice (some 0) (some 1) none)).run exampleEvents).1 ∧
    shown s (newest s) .pdg = some [1] ∧ shown s (newest s) .adj = some [5] ∧
    shown ((EOp.write 0 (.ints [0]) 9).run s).1 (newest s) .pdg = some [9] := by
  refine ⟨_, rfl, ?_, ?_, ?_⟩ <;> decide
example : ((EOp.getGraph 8 (.mask [true, false])).run exampleEvents).2 = some .indexError ∧
    ((EOp.getGraph 10 (.mask [true, false])).run exampleEvents).2 = none := by decide
example : ToNewMemory exampleEvents 8 (.ints [0]) := trivial

end Gcl
