import Verif.Lemmas.Heap
/-! # Lemmas about `recursive_drop` on objects -/
namespace Gcl
set_option autoImplicit false
open Spec

theorem Spec.NestedGroup.isGroup {h : MHeap} {key : String} {a x : Nat} (hn : NestedGroup h key a x) :
    ∃ op es, h[a]? = some (.group op es) := by
  induction hn with
  | self h1 => exact ⟨_, _, h1⟩
  | member _ _ _ _ _ ih => exact ih

theorem Spec.NestedGroup.prepend {h : MHeap} {key : String} {a y x : Nat} {op op' : Agg} {k : String}
    {es es' : List (String × Nat)} (ha : h[a]? = some (.group op es)) (hk : (k, y) ∈ es) (hne : k ≠ key)
    (hy : h[y]? = some (.group op' es')) (hn : NestedGroup h key y x) : NestedGroup h key a x := by
  induction hn with
  | self _ => exact .member (.self ha) ha hk hne hy
  | member _ h2 h3 h4 h5 ih => exact .member ih h2 h3 h4 h5

theorem nestedGroup_head {h : MHeap} {key : String} {a x : Nat} {op : Agg} {es : List (String × Nat)}
    (ha : h[a]? = some (.group op es)) :
    NestedGroup h key a x ↔ x = a ∨ ∃ k y, (k, y) ∈ es ∧ k ≠ key ∧ NestedGroup h key y x := by
  constructor
  · intro hn
    induction hn with
    | self _ => exact Or.inl rfl
    | @member x y k op1 op2 es1 es2 h1 h2 h3 h4 h5 ih =>
      refine Or.inr ?_
      rcases ih with rfl | ⟨k', y', i1, i2, i3⟩
      · rw [ha] at h2
        cases h2
        exact ⟨k, y, h3, h4, .self h5⟩
      · exact ⟨k', y', i1, i2, .member i3 h2 h3 h4 h5⟩
  · rintro (rfl | ⟨k, y, h1, h2, h3⟩)
    · exact .self ha
    · obtain ⟨op', es', hy⟩ := h3.isGroup
      exact .prepend ha h1 h2 hy h3

/-- In `h'`, exactly the objects of `h` in `Q` have lost the entry `key`. -/
structure DroppedOn (key : String) (Q : Nat → Prop) (h h' : MHeap) : Prop where
  on : ∀ x, Q x → h'[x]? = (h[x]?).map (HObj.without key)
  off : ∀ x, ¬ Q x → h'[x]? = h[x]?

theorem DroppedOn.none (key : String) (h : MHeap) : DroppedOn key (fun _ => False) h h :=
  ⟨fun _ hx => hx.elim, fun _ _ => rfl⟩

theorem DroppedOn.congr {key : String} {Q Q' : Nat → Prop} {h h' : MHeap} (hd : DroppedOn key Q h h')
    (hq : ∀ x, Q x ↔ Q' x) : DroppedOn key Q' h h' :=
  ⟨fun x hx => hd.on x ((hq x).2 hx), fun x hx => hd.off x (fun hc => hx ((hq x).1 hc))⟩

theorem DroppedOn.length {key : String} {Q : Nat → Prop} {h h' : MHeap} (hd : DroppedOn key Q h h') (x : Nat) :
    x < h'.length ↔ x < h.length := by
  have : h'[x]? = Option.none ↔ h[x]? = Option.none := by
    by_cases hx : Q x
    · rw [hd.on x hx]; simp
    · rw [hd.off x hx]
  rw [List.getElem?_eq_none_iff, List.getElem?_eq_none_iff] at this
  omega

theorem filter_ne_idem (key : String) (es : List (String × Nat)) :
    (es.filter (fun p => p.1 != key)).filter (fun p => p.1 != key) = es.filter (fun p => p.1 != key) := by
  rw [List.filter_filter]; simp

theorem DroppedOn.group {key : String} {Q : Nat → Prop} {h h' : MHeap} (hd : DroppedOn key Q h h') {a : Nat}
    {op : Agg} {es : List (String × Nat)} (ha : h[a]? = some (.group op es)) :
    ∃ es', h'[a]? = some (.group op es') ∧
      es'.filter (fun p => p.1 != key) = es.filter (fun p => p.1 != key) := by
  by_cases hx : Q a
  · refine ⟨es.filter (fun p => p.1 != key), ?_, filter_ne_idem key es⟩
    rw [hd.on a hx, ha]; rfl
  · exact ⟨es, by rw [hd.off a hx, ha], rfl⟩

theorem DroppedOn.isGroup {key : String} {Q : Nat → Prop} {h h' : MHeap} (hd : DroppedOn key Q h h') {a : Nat}
    {op : Agg} {es : List (String × Nat)} (ha : h'[a]? = some (.group op es)) :
    ∃ es', h[a]? = some (.group op es') := by
  by_cases hx : Q a
  · rw [hd.on a hx] at ha
    cases ho : h[a]? with
    | none => rw [ho] at ha; cases ha
    | some o =>
      rw [ho] at ha
      cases o with
      | group op' es' =>
        simp only [Option.map_some, HObj.without, Option.some.injEq, HObj.group.injEq] at ha
        exact ⟨es', by rw [ha.1]⟩
      | buf d => simp [HObj.without] at ha
      | mask b => simp [HObj.without] at ha
  · exact ⟨es, by rw [← hd.off a hx, ha]⟩

theorem DroppedOn.set {key : String} {Q : Nat → Prop} {h h' : MHeap} (hd : DroppedOn key Q h h') {a : Nat}
    {op : Agg} {es : List (String × Nat)} (ha : h[a]? = some (.group op es)) :
    DroppedOn key (fun x => Q x ∨ x = a) h (h'.set a (.group op (es.filter (fun p => p.1 != key)))) := by
  have hl : a < h'.length := (hd.length a).2 (List.getElem?_eq_some_iff.1 ha).1
  constructor
  · intro x hx
    by_cases hxa : x = a
    · subst hxa
      rw [List.getElem?_set_self hl, ha]; rfl
    · rw [List.getElem?_set_ne (fun hc => hxa hc.symm)]
      rcases hx with hx | hx
      · exact hd.on x hx
      · exact absurd hx hxa
  · intro x hx
    rw [List.getElem?_set_ne (fun hc => hx (Or.inr hc.symm))]
    exact hd.off x (fun hc => hx (Or.inl hc))

theorem dropKidsH_dropped {key : String} {h : MHeap} {dr : MHeap → Nat → MHeap × Py Unit} (vs : List Nat)
    (hdr : ∀ v ∈ vs, (∃ op es, h[v]? = some (.group op es)) → ∀ Q h', DroppedOn key Q h h' →
      ∃ h'', dr h' v = (h'', .ok ()) ∧ DroppedOn key (fun x => Q x ∨ NestedGroup h key v x) h h'')
    (Q : Nat → Prop) (h' : MHeap) (hd : DroppedOn key Q h h') :
    ∃ h'', dropKidsH dr h' vs = (h'', .ok ()) ∧
      DroppedOn key (fun x => Q x ∨ ∃ v ∈ vs, NestedGroup h key v x) h h'' := by
  induction vs generalizing Q h' with
  | nil => exact ⟨h', rfl, hd.congr (by simp)⟩
  | cons v vs ih =>
    by_cases hg : ∃ op es, h[v]? = some (.group op es)
    · obtain ⟨op, es, hv⟩ := hg
      obtain ⟨es', hv', -⟩ := hd.group hv
      obtain ⟨h1, r1, r2⟩ := hdr v (by simp) ⟨op, es, hv⟩ Q h' hd
      obtain ⟨h2, s1, s2⟩ := ih (fun w hw => hdr w (by simp [hw])) _ h1 r2
      refine ⟨h2, by simp only [dropKidsH, hv', r1, s1], s2.congr (fun x => ?_)⟩
      simp only [List.mem_cons, exists_eq_or_imp]
      constructor
      · rintro ((hq | hn) | he)
        · exact Or.inl hq
        · exact Or.inr (Or.inl hn)
        · exact Or.inr (Or.inr he)
      · rintro (hq | hn | he)
        · exact Or.inl (Or.inl hq)
        · exact Or.inl (Or.inr hn)
        · exact Or.inr he
    · obtain ⟨h2, s1, s2⟩ := ih (fun w hw => hdr w (by simp [hw])) Q h' hd
      refine ⟨h2, ?_, s2.congr (fun x => ?_)⟩
      · rw [dropKidsH]
        split
        · next op es hh => exact absurd (let ⟨es', h3⟩ := hd.isGroup hh; ⟨op, es', h3⟩) hg
        · exact s1
      · simp only [List.mem_cons, exists_eq_or_imp]
        constructor
        · rintro (hq | he)
          · exact Or.inl hq
          · exact Or.inr (Or.inr he)
        · rintro (hq | hn | he)
          · exact Or.inl hq
          · exact absurd hn.isGroup hg
          · exact Or.inr he

theorem dropInPlace_dropped {h : MHeap} (key : String) {a : Nat} {m : Mask} (hs : ShowsMask h a m) :
    ∃ N, ∀ fuel, N ≤ fuel → (∃ op es, h[a]? = some (.group op es)) → ∀ Q h', DroppedOn key Q h h' →
      ∃ h'', dropInPlace fuel key h' a = (h'', .ok ()) ∧
        DroppedOn key (fun x => Q x ∨ NestedGroup h key a x) h h'' := by
  induction hs with
  | arr h1 h2 =>
    refine ⟨0, fun fuel _ hg => ?_⟩
    obtain ⟨op, es, hg⟩ := hg
    rw [h1] at hg
    cases hg
  | @grp a op es ks e1 e2 e3 ih =>
    have hlen : ks.length = es.length := by
      have := congrArg List.length e2
      simpa using this
    obtain ⟨N, hN⟩ := exists_uniform es (fun fuel e => (∃ op es, h[e.2]? = some (.group op es)) →
      ∀ Q h', DroppedOn key Q h h' → ∃ h'', dropInPlace fuel key h' e.2 = (h'', .ok ()) ∧
        DroppedOn key (fun x => Q x ∨ NestedGroup h key e.2 x) h h'') (by
      intro e he
      obtain ⟨i, hi⟩ := List.mem_iff_getElem?.1 he
      have hil : i < ks.length := by rw [hlen]; exact (List.getElem?_eq_some_iff.1 hi).1
      exact ih i e ks[i] hi (List.getElem?_eq_getElem hil))
    refine ⟨N + 1, fun fuel hf _ Q h' hd => ?_⟩
    obtain ⟨f, rfl⟩ : ∃ f, fuel = f + 1 := ⟨fuel - 1, by omega⟩
    obtain ⟨es', g1, g2⟩ := hd.group e1
    have hd1 := hd.set e1
    obtain ⟨h2, r1, r2⟩ := dropKidsH_dropped (dr := dropInPlace f key)
      ((es.filter (fun p => p.1 != key)).map Prod.snd) (by
        intro v hv hg Q h' hd
        obtain ⟨e, he, rfl⟩ := List.mem_map.1 hv
        exact hN f (by omega) e (List.mem_filter.1 he).1 hg Q h' hd) _ _ hd1
    refine ⟨h2, by simp only [dropInPlace, g1, g2, r1], r2.congr (fun x => ?_)⟩
    rw [nestedGroup_head e1]
    constructor
    · rintro ((hq | hx) | ⟨v, hv, hn⟩)
      · exact Or.inl hq
      · exact Or.inr (Or.inl hx)
      · obtain ⟨⟨k, y⟩, he, rfl⟩ := List.mem_map.1 hv
        obtain ⟨he1, he2⟩ := List.mem_filter.1 he
        exact Or.inr (Or.inr ⟨k, y, he1, by simpa using he2, hn⟩)
    · rintro (hq | hx | ⟨k, y, he1, he2, hn⟩)
      · exact Or.inl (Or.inl hq)
      · exact Or.inl (Or.inr hx)
      · exact Or.inr ⟨y, List.mem_map.2 ⟨(k, y), List.mem_filter.2 ⟨he1, by simpa using he2⟩, rfl⟩, hn⟩

theorem dropKids_forall₂ {R : Nat → Mask → Prop} {R' : Nat → Mask → Prop} (key : String)
    {es : List (String × Nat)} {ks : List (String × Mask)}
    (hf : List.Forall₂ (fun (e : String × Nat) (k : String × Mask) => e.1 = k.1 ∧ R e.2 k.2) es ks)
    (hR : ∀ e m, (∃ k, k ≠ key ∧ (k, e) ∈ es) → R e m → R' e (m.drop key)) :
    List.Forall₂ (fun (e : String × Nat) (k : String × Mask) => e.1 = k.1 ∧ R' e.2 k.2)
      (es.filter (fun p => p.1 != key)) (Mask.dropKids key ks) := by
  induction hf with
  | nil => exact .nil
  | @cons e k es ks hek _ ih =>
    obtain ⟨ek, ev⟩ := e
    obtain ⟨kk, kv⟩ := k
    obtain ⟨h1, h2⟩ := hek
    simp only at h1 h2
    subst h1
    have ih' := ih (fun e m ⟨k, hk1, hk2⟩ hr => hR e m ⟨k, hk1, by simp [hk2]⟩ hr)
    rw [Mask.dropKids]
    by_cases hk : ek = key
    · subst hk
      simp only [bne_self_eq_false, Bool.false_eq_true, not_false_eq_true, List.filter_cons_of_neg, if_true]
      exact ih'
    · rw [List.filter_cons_of_pos (by simpa using hk), if_neg hk]
      exact .cons ⟨rfl, hR ev kv ⟨ek, hk, by simp⟩ h2⟩ ih'

theorem dropped_shows {key : String} {Q : Nat → Prop} {h h' : MHeap} (hd : DroppedOn key Q h h') {a : Nat}
    {m : Mask} (hs : ShowsMask h a m) (hq : ∀ x, NestedGroup h key a x → Q x) : ShowsMask h' a (m.drop key) := by
  induction hs with
  | @arr a b d h1 h2 =>
    rw [Mask.drop]
    refine .arr (b := b) ?_ ?_
    · by_cases hx : Q a
      · rw [hd.on a hx, h1]; rfl
      · rw [hd.off a hx, h1]
    · by_cases hx : Q b
      · rw [hd.on b hx, h2]; rfl
      · rw [hd.off b hx, h2]
  | @grp a op es ks e1 e2 e3 ih =>
    rw [Mask.drop]
    have hqa : Q a := hq a (.self e1)
    have hf := (corresponds_iff (fun e m => (∀ x, NestedGroup h key e x → Q x) →
      ShowsMask h' e (m.drop key)) es ks).1 ⟨e2, ih⟩
    have hf' := dropKids_forall₂ (R := fun e m => (∀ x, NestedGroup h key e x → Q x) →
      ShowsMask h' e (m.drop key)) (R' := fun e m => ShowsMask h' e m) key hf (by
      rintro e m ⟨k, hk1, hk2⟩ hr
      refine hr (fun x hx => hq x ?_)
      exact (nestedGroup_head e1).2 (Or.inr ⟨k, e, hk2, hk1, hx⟩))
    obtain ⟨k1, k2⟩ := (corresponds_iff (fun e m => ShowsMask h' e m) _ _).2 hf'
    refine .grp (es := es.filter (fun p => p.1 != key)) ?_ k1 k2
    rw [hd.on a hqa, e1]; rfl

end Gcl
