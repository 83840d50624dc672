import Verif.Spec.Edits
import Verif.Lemmas.PartitionMem
/-! # In-place updates of trees of mask objects that share nothing -/
namespace Gcl
set_option autoImplicit false
open Spec

theorem owned_succ {n : Nat} {h : MHeap} {m : Mask} {a : Nat} {F : List Nat} (ho : Owned n h m a F) :
    Owned (n + 1) h m a F := by
  induction n generalizing m a F with
  | zero => exact ho.elim
  | succ n ih =>
    cases m with
    | arr d => exact ho
    | grp op ks =>
      obtain ⟨es, G, h1, h2, h3, h4⟩ := ho
      exact ⟨es, G, h1, h2, h3, ownedKids_mono h4 (fun m v F1 _ hp => ih hp)⟩

theorem owned_le {n N : Nat} (hn : n ≤ N) {h : MHeap} {m : Mask} {a : Nat} {F : List Nat} (ho : Owned n h m a F) :
    Owned N h m a F := by
  induction hn with
  | refl => exact ho
  | step _ ih => exact owned_succ ih

mutual
theorem owned_depth {h : MHeap} : ∀ (m : Mask) {n : Nat} {a : Nat} {F : List Nat}, Owned n h m a F →
    Owned (depth m) h m a F
  | .arr _, 0, _, _, ho => ho.elim
  | .arr _, _ + 1, _, _, ho => ho
  | .grp _ _, 0, _, _, ho => ho.elim
  | .grp _ ks, _ + 1, _, _, ho => by
    obtain ⟨es, G, h1, h2, h3, h4⟩ := ho
    exact ⟨es, G, h1, h2, h3, owned_depthKids ks h4⟩
termination_by structural m => m
theorem owned_depthKids {h : MHeap} : ∀ (ks : List (String × Mask)) {n : Nat} {es : List (String × Nat)} {F : List Nat},
    OwnedKids (Owned n h) ks es F → OwnedKids (Owned (depthKids ks) h) ks es F
  | [], _, _, _, hk => hk
  | (_, m) :: ks, _, _, _, hk => by
    obtain ⟨v, es', F1, F2, h1, h2, h3, h4, h5⟩ := hk
    refine ⟨v, es', F1, F2, h1, h2, owned_le (le_max_left _ _) (owned_depth m h3), ?_, h5⟩
    exact ownedKids_mono (owned_depthKids ks h4) (fun m v F _ hp => owned_le (le_max_right _ _) hp)
termination_by structural ks => ks
end

/-- Changing one member. -/
theorem kids_at {n : Nat} {h : MHeap} {ks : List (String × Mask)} {es : List (String × Nat)} {F : List Nat}
    (hk : OwnedKids (Owned n h) ks es F) (k : String) :
    (Dict.get? es k = none ∧ ∀ f, onKey k f ks = ks) ∨
    ∃ v m F1, Dict.get? es k = some v ∧ Owned n h m v F1 ∧ (∀ i ∈ F1, i ∈ F) ∧
      (∀ f : Mask → Mask, f m = m → onKey k f ks = ks) ∧ ∀ (h' : MHeap) (N : Nat) (F1' : List Nat) (f : Mask → Mask), n ≤ N → WritesIn F1 h h' → Owned N h' (f m) v F1' →
        (∀ i ∈ F1', i ∈ F1 ∨ h.length ≤ i) →
        ∃ G, OwnedKids (Owned N h') (onKey k f ks) es G ∧ ∀ i ∈ G, i ∈ F ∨ h.length ≤ i := by
  induction ks generalizing es F with
  | nil =>
    obtain ⟨rfl, rfl⟩ := hk
    exact .inl ⟨rfl, fun _ => rfl⟩
  | cons p ks ih =>
    obtain ⟨k', m⟩ := p
    obtain ⟨v, es', F1, F2, rfl, rfl, h3, h4, h5⟩ := hk
    by_cases hkk : k' = k
    · refine .inr ⟨v, m, F1, by simp [Dict.get?, hkk], h3, fun i hi => List.mem_append.2 (.inl hi),
        fun f hf => by simp [onKey, hkk, hf], ?_⟩
      intro h' N F1' f hN hw ho hs
      refine ⟨F1' ++ F2, ?_, ?_⟩
      · simp only [onKey, if_pos hkk]
        refine ⟨v, es', F1', F2, rfl, rfl, ho, ?_, ?_⟩
        · exact ownedKids_mono h4 (fun m v G hg hp => owned_le hN (owned_writesIn hp hw (fun i hi hj => h5 i hi (hg i hj))))
        · intro i hi hj
          rcases hs i hi with c | c
          · exact h5 i c hj
          · have := ownedKids_lt (fun m v F hp => owned_lt hp) h4 i hj; omega
      · intro i hi
        rcases List.mem_append.1 hi with hi | hi
        · rcases hs i hi with c | c
          · exact .inl (List.mem_append.2 (.inl c))
          · exact .inr c
        · exact .inl (List.mem_append.2 (.inr hi))
    · rcases ih h4 with ⟨e1, e2⟩ | ⟨w, m', G1, e1, e2, e3, e5, e4⟩
      · exact .inl ⟨by simp [Dict.get?, hkk, e1], fun f => by simp [onKey, hkk, e2]⟩
      · refine .inr ⟨w, m', G1, by simp [Dict.get?, hkk, e1], e2, fun i hi => List.mem_append.2 (.inr (e3 i hi)),
          fun f hf => by simp [onKey, hkk, e5 f hf], ?_⟩
        intro h' N F1' f hN hw ho hs
        obtain ⟨G, g1, g2⟩ := e4 h' N F1' f hN hw ho hs
        refine ⟨F1 ++ G, ?_, ?_⟩
        · simp only [onKey, if_neg hkk]
          refine ⟨v, es', F1, G, rfl, rfl, ?_, g1, ?_⟩
          · exact owned_le hN (owned_writesIn h3 hw (fun i hi hj => h5 i hj (e3 i hi)))
          · intro i hi hj
            rcases g2 i hj with c | c
            · exact h5 i hi c
            · have := owned_lt h3 i hi; omega
        · intro i hi
          rcases List.mem_append.1 hi with hi | hi
          · exact .inl (List.mem_append.2 (.inl hi))
          · rcases g2 i hi with c | c
            · exact .inl (List.mem_append.2 (.inr c))
            · exact .inr c

/-- Changing the part at a path. -/
theorem owned_at {n : Nat} {h : MHeap} {m : Mask} {a : Nat} {F : List Nat} (path : List String) (ho : Owned n h m a F) :
    (navigate h a path = none ∧ ∀ f, onPath f path m = m) ∨
    ∃ x m' F1, navigate h a path = some x ∧ Owned n h m' x F1 ∧ (∀ i ∈ F1, i ∈ F) ∧
      ∀ (h' : MHeap) (N : Nat) (F1' : List Nat) (f : Mask → Mask), n ≤ N → WritesIn F1 h h' → Owned N h' (f m') x F1' →
        (∀ i ∈ F1', i ∈ F1 ∨ h.length ≤ i) →
        ∃ N' F', n ≤ N' ∧ Owned N' h' (onPath f path m) a F' ∧ ∀ i ∈ F', i ∈ F ∨ h.length ≤ i := by
  induction path generalizing n m a F with
  | nil =>
    exact .inr ⟨a, m, F, rfl, ho, fun _ hi => hi, fun h' N F1' f hN _ ho' hs => ⟨N, F1', hN, ho', hs⟩⟩
  | cons k path ih =>
    cases n with
    | zero => exact ho.elim
    | succ n =>
    cases m with
    | arr d =>
      obtain ⟨b, h1, h2, rfl⟩ := ho
      exact .inl ⟨by simp [navigate, h1], fun f => rfl⟩
    | grp op ks =>
      obtain ⟨es, G, h1, rfl, h3, h4⟩ := ho
      rcases kids_at h4 k with ⟨e1, e2⟩ | ⟨v, m1, F1, e1, e2, e3, e5, e4⟩
      · exact .inl ⟨by simp [navigate, h1, e1], fun f => by rw [onPath, e2]⟩
      · rcases ih e2 with ⟨g1, g2⟩ | ⟨x, m', F2, g1, g2, g3, g4⟩
        · refine .inl ⟨by simp [navigate, h1, e1, g1], fun f => ?_⟩
          rw [onPath, e5 _ (g2 f)]
        · refine .inr ⟨x, m', F2, by simp [navigate, h1, e1, g1], owned_succ g2,
            fun i hi => List.mem_cons_of_mem _ (e3 i (g3 i hi)), ?_⟩
          intro h' N F1' f hN hw ho' hs
          obtain ⟨N', F', k1, k2, k3⟩ := g4 h' N F1' f (by omega) hw ho' hs
          obtain ⟨G', q1, q2⟩ := e4 h' N' F' (onPath f path) k1 (hw.mono (fun i hi _ => g3 i hi)) k2 k3
          refine ⟨N' + 1, a :: G', by omega, ⟨es, G', ?_, rfl, ?_, q1⟩, ?_⟩
          · rw [hw.2 a (List.getElem?_eq_some_iff.1 h1).1 (fun hi => h3 (e3 _ (g3 _ hi)))]
            exact h1
          · intro hi
            rcases q2 a hi with c | c
            · exact h3 c
            · have := (List.getElem?_eq_some_iff.1 h1).1; omega
          · intro i hi
            rcases List.mem_cons.1 hi with rfl | hi
            · exact .inl (by simp)
            · rcases q2 i hi with c | c
              · exact .inl (List.mem_cons_of_mem _ c)
              · exact .inr c

/-! ## The updates -/

/-! A new tree shares nothing. -/
mutual
theorem allocMask_owned : ∀ (m : Mask) (h : MHeap), ∃ F, Owned (depth m) (allocMask m h).1 m (allocMask m h).2 F ∧
    ∀ i ∈ F, h.length ≤ i
  | .arr d, h => by
    refine ⟨[h.length + 1, h.length], ⟨h.length, ?_, ?_, rfl⟩, by simp⟩
    · simp [allocMask]
    · simp [allocMask]
  | .grp op ks, h => by
    obtain ⟨F, o, l⟩ := allocKids_owned ks h
    have hlt := ownedKids_lt (fun m v F hp => owned_lt hp) o
    rw [allocMask]
    refine ⟨(allocKids ks h).1.length :: F, ⟨(allocKids ks h).2, F, by simp, rfl, ?_, ?_⟩, ?_⟩
    · intro hh; have := hlt _ hh; omega
    · refine ownedKids_mono o (fun m v F1 hs hp => owned_frame hp (fun i hi => ?_))
      exact List.getElem?_append_left (hlt i (hs i hi))
    · intro i hi
      rcases List.mem_cons.1 hi with rfl | hi
      · exact (allocKids_extends ks h).1.pre.length_le
      · exact l i hi
termination_by structural m => m
theorem allocKids_owned : ∀ (ks : List (String × Mask)) (h : MHeap), ∃ F,
    OwnedKids (Owned (depthKids ks) (allocKids ks h).1) ks (allocKids ks h).2 F ∧ ∀ i ∈ F, h.length ≤ i
  | [], h => ⟨[], ⟨rfl, rfl⟩, by simp⟩
  | (k, m) :: ks, h => by
    obtain ⟨F1, o1, l1⟩ := allocMask_owned m h
    obtain ⟨F2, o2, l2⟩ := allocKids_owned ks (allocMask m h).1
    have p := (allocKids_extends ks (allocMask m h).1).1.pre
    have p1 := (allocMask_extends m h).1.pre.length_le
    rw [allocKids]
    refine ⟨F1 ++ F2, ⟨_, _, F1, F2, rfl, rfl, ?_, ?_, ?_⟩, ?_⟩
    · refine owned_le (le_max_left _ _) (owned_frame o1 (fun i hi => ?_))
      have hlt := owned_lt o1 i hi
      obtain ⟨t, ht⟩ := p
      simp only
      rw [← ht]
      exact List.getElem?_append_left hlt
    · exact ownedKids_mono o2 (fun m v F _ hp => owned_le (le_max_right _ _) hp)
    · intro i hi hi2
      have := owned_lt o1 i hi
      have := l2 i hi2
      omega
    · intro i hi
      rcases List.mem_append.1 hi with hi | hi
      · exact l1 i hi
      · have := l2 i hi; omega
termination_by structural ks => ks
end

theorem ownedKids_filter {P : Mask → Nat → List Nat → Prop} (q : String → Bool) {ks : List (String × Mask)}
    {es : List (String × Nat)} {F : List Nat} (hk : OwnedKids P ks es F) :
    ∃ G, OwnedKids P (ks.filter (fun p => q p.1)) (es.filter (fun p => q p.1)) G ∧ ∀ i ∈ G, i ∈ F := by
  induction ks generalizing es F with
  | nil => obtain ⟨rfl, rfl⟩ := hk; exact ⟨[], ⟨rfl, rfl⟩, by simp⟩
  | cons p ks ih =>
    obtain ⟨k, m⟩ := p
    obtain ⟨v, es', F1, F2, rfl, rfl, h3, h4, h5⟩ := hk
    obtain ⟨G, g1, g2⟩ := ih h4
    by_cases hq : q k = true
    · refine ⟨F1 ++ G, ?_, ?_⟩
      · simp only [List.filter_cons, hq, if_true]
        exact ⟨v, _, F1, G, rfl, rfl, h3, g1, fun i hi hj => h5 i hi (g2 i hj)⟩
      · intro i hi
        rcases List.mem_append.1 hi with hi | hi
        · exact List.mem_append.2 (.inl hi)
        · exact List.mem_append.2 (.inr (g2 i hi))
    · simp only [List.filter_cons, if_neg hq]
      exact ⟨G, g1, fun i hi => List.mem_append.2 (.inr (g2 i hi))⟩

theorem ownedKids_set {n N : Nat} (hN : n ≤ N) {h h' : MHeap} {ks : List (String × Mask)} {es : List (String × Nat)}
    {F : List Nat} (hk : OwnedKids (Owned n h) ks es F) (hf : ∀ i ∈ F, h'[i]? = h[i]?) (k : String) {m : Mask} {v : Nat}
    {F1 : List Nat} (ho : Owned N h' m v F1) (hl : ∀ i ∈ F1, h.length ≤ i) :
    ∃ G, OwnedKids (Owned N h') (Dict.set ks k m) (Dict.set es k v) G ∧ ∀ i ∈ G, i ∈ F ∨ h.length ≤ i := by
  induction ks generalizing es F with
  | nil =>
    obtain ⟨rfl, rfl⟩ := hk
    exact ⟨F1 ++ [], ⟨v, [], F1, [], rfl, rfl, ho, ⟨rfl, rfl⟩, by simp⟩, fun i hi => .inr (hl i (by simpa using hi))⟩
  | cons p ks ih =>
    obtain ⟨k', m'⟩ := p
    obtain ⟨w, es', F1', F2, rfl, rfl, h3, h4, h5⟩ := hk
    have old : ∀ {m v G}, (∀ i ∈ G, i ∈ F1' ++ F2) → Owned n h m v G → Owned N h' m v G := fun hg hp =>
      owned_le hN (owned_frame hp (fun i hi => hf i (hg i hi)))
    by_cases hkk : k' = k
    · simp only [Dict.set, if_pos hkk]
      refine ⟨F1 ++ F2, ⟨v, es', F1, F2, rfl, rfl, ho, ?_, ?_⟩, ?_⟩
      · exact ownedKids_mono h4 (fun m v G hg hp => old (fun i hi => List.mem_append.2 (.inr (hg i hi))) hp)
      · intro i hi hj
        have := hl i hi
        have := ownedKids_lt (fun m v F hp => owned_lt hp) h4 i hj
        omega
      · intro i hi
        rcases List.mem_append.1 hi with hi | hi
        · exact .inr (hl i hi)
        · exact .inl (List.mem_append.2 (.inr hi))
    · simp only [Dict.set, if_neg hkk]
      obtain ⟨G, g1, g2⟩ := ih h4 (fun i hi => hf i (List.mem_append.2 (.inr hi)))
      refine ⟨F1' ++ G, ⟨w, _, F1', G, rfl, rfl, old (fun i hi => List.mem_append.2 (.inl hi)) h3, g1, ?_⟩, ?_⟩
      · intro i hi hj
        rcases g2 i hj with c | c
        · exact h5 i hi c
        · have := owned_lt h3 i hi; omega
      · intro i hi
        rcases List.mem_append.1 hi with hi | hi
        · exact .inl (List.mem_append.2 (.inl hi))
        · rcases g2 i hi with c | c
          · exact .inl (List.mem_append.2 (.inr c))
          · exact .inr c

/-- The members after `recursive_drop` of each that is a group. -/
def dropAll (key : String) (ks : List (String × Mask)) : List (String × Mask) := ks.map (fun p => (p.1, p.2.drop key))

theorem dropKids_eq (key : String) (ks : List (String × Mask)) :
    Mask.dropKids key ks = dropAll key (ks.filter (fun p => p.1 != key)) := by
  induction ks with
  | nil => rfl
  | cons p ks ih =>
    obtain ⟨k, m⟩ := p
    by_cases hk : k = key
    · simp [Mask.dropKids, hk, ih]
    · simp [Mask.dropKids, hk, ih, dropAll]

theorem dropKidsH_owned {n : Nat} {key : String} {dr : MHeap → Nat → MHeap × Py Unit}
    (hdr : ∀ (h : MHeap) (op : Agg) (ks : List (String × Mask)) (a : Nat) (F : List Nat), Owned n h (.grp op ks) a F →
      (dr h a).2 = .ok () ∧ (dr h a).1.length = h.length ∧ WritesIn F h (dr h a).1 ∧
      ∃ F', Owned n (dr h a).1 ((Mask.grp op ks).drop key) a F' ∧ ∀ i ∈ F', i ∈ F)
    (ks : List (String × Mask)) (h : MHeap) (es : List (String × Nat)) (F : List Nat)
    (hk : OwnedKids (Owned n h) ks es F) :
    (dropKidsH dr h (es.map Prod.snd)).2 = .ok () ∧ (dropKidsH dr h (es.map Prod.snd)).1.length = h.length ∧
    WritesIn F h (dropKidsH dr h (es.map Prod.snd)).1 ∧
    ∃ F', OwnedKids (Owned n (dropKidsH dr h (es.map Prod.snd)).1) (dropAll key ks) es F' ∧ ∀ i ∈ F', i ∈ F := by
  induction ks generalizing h es F with
  | nil =>
    obtain ⟨rfl, rfl⟩ := hk
    exact ⟨rfl, rfl, writesIn_refl _ _, [], ⟨rfl, rfl⟩, by simp⟩
  | cons p ks ih =>
    obtain ⟨k, m⟩ := p
    obtain ⟨v, es', F1, F2, rfl, rfl, h3, h4, h5⟩ := hk
    -- the first member
    obtain ⟨h1, hh, hl, hw, F1', ho, hs⟩ : ∃ h1, dropKidsH dr h (((k, v) :: es').map Prod.snd) =
        dropKidsH dr h1 (es'.map Prod.snd) ∧ h1.length = h.length ∧ WritesIn F1 h h1 ∧
        ∃ F', Owned n h1 (m.drop key) v F' ∧ ∀ i ∈ F', i ∈ F1 := by
      cases n with
      | zero => exact h3.elim
      | succ n =>
      cases m with
      | arr d =>
        obtain ⟨b, q1, q2, rfl⟩ := h3
        exact ⟨h, by simp [dropKidsH, q1], rfl, writesIn_refl _ _, [v, b], ⟨b, q1, q2, rfl⟩, fun _ hi => hi⟩
      | grp op ks1 =>
        obtain ⟨e1, e2, e3, F', e4, e5⟩ := hdr h op ks1 v F1 h3
        obtain ⟨es1, G1, q1, _⟩ := h3
        refine ⟨(dr h v).1, ?_, e2, e3, F', e4, e5⟩
        simp only [List.map_cons, dropKidsH, q1]
        cases hd : dr h v with
        | mk h1 r =>
          rw [hd] at e1
          simp only at e1
          rw [e1]
    rw [hh]
    have hk' : OwnedKids (Owned n h1) ks es' F2 :=
      ownedKids_mono h4 (fun m v G hg hp => owned_writesIn hp hw (fun i hi hj => h5 i hi (hg i hj)))
    obtain ⟨r1, r2, r3, F2', r4, r5⟩ := ih h1 es' F2 hk'
    refine ⟨r1, r2.trans hl, ⟨by rw [r2, hl], fun i hi hn => ?_⟩, F1' ++ F2', ?_, ?_⟩
    · simp only [List.mem_append, not_or] at hn
      rw [r3.2 i (by omega) hn.2, hw.2 i hi hn.1]
    · refine ⟨v, es', F1', F2', rfl, rfl, ?_, r4, fun i hi hj => h5 i (hs i hi) (r5 i hj)⟩
      exact owned_writesIn ho r3 (fun i hi hj => h5 i (hs i hj) hi)
    · intro i hi
      rcases List.mem_append.1 hi with hi | hi
      · exact List.mem_append.2 (.inl (hs i hi))
      · exact List.mem_append.2 (.inr (r5 i hi))

theorem dropInPlace_owned (key : String) (n : Nat) (h : MHeap) (op : Agg) (ks : List (String × Mask)) (a : Nat)
    (F : List Nat) (ho : Owned n h (.grp op ks) a F) {fuel : Nat} (hf : n ≤ fuel) :
    (dropInPlace fuel key h a).2 = .ok () ∧ (dropInPlace fuel key h a).1.length = h.length ∧
    WritesIn F h (dropInPlace fuel key h a).1 ∧
    ∃ F', Owned n (dropInPlace fuel key h a).1 ((Mask.grp op ks).drop key) a F' ∧ ∀ i ∈ F', i ∈ F := by
  induction n generalizing h op ks a F fuel with
  | zero => exact ho.elim
  | succ n ih =>
    obtain ⟨fuel, rfl⟩ : ∃ f, fuel = f + 1 := ⟨fuel - 1, by omega⟩
    obtain ⟨es, G, h1, rfl, h3, h4⟩ := ho
    have ha := (List.getElem?_eq_some_iff.1 h1).1
    obtain ⟨G', g1, g2⟩ := ownedKids_filter (fun k => k != key) h4
    have hset : ∀ i ∈ G', (h.set a (.group op (es.filter (fun p => p.1 != key))))[i]? = h[i]? := by
      intro i hi
      exact List.getElem?_set_ne (fun hai : a = i => h3 (by rw [hai]; exact g2 i hi))
    have g1' := ownedKids_mono g1 (fun m v F1 hs hp => owned_frame
      (h' := h.set a (.group op (es.filter (fun p => p.1 != key)))) hp (fun i hi => hset i (hs i hi)))
    obtain ⟨r1, r2, r3, F', r4, r5⟩ := dropKidsH_owned (key := key) (dr := dropInPlace fuel key)
      (fun h op ks a F ho => ih h op ks a F ho (by omega)) _ _ _ _ g1'
    simp only [dropInPlace, h1]
    refine ⟨r1, by rw [r2]; simp, ⟨by rw [r2]; simp, fun i hi hn => ?_⟩, a :: F', ⟨es.filter (fun p => p.1 != key), F', ?_, rfl, ?_, ?_⟩, ?_⟩
    · simp only [List.mem_cons, not_or] at hn
      rw [r3.2 i (by simpa using hi) (fun hg => hn.2 (g2 i hg)), List.getElem?_set_ne (Ne.symm hn.1)]
    · rw [r3.2 a (by simpa using ha) (fun hg => h3 (g2 a hg)), List.getElem?_set_self ha]
    · exact fun hh => h3 (g2 a (r5 a hh))
    · rw [dropKids_eq]
      exact r4
    · intro i hi
      rcases List.mem_cons.1 hi with rfl | hi
      · simp
      · exact List.mem_cons_of_mem _ (g2 i (r5 i hi))

/-- One update acts on the value as `edit` says, and touches nothing else. -/
theorem run_owned {n : Nat} {h : MHeap} {m : Mask} {a : Nat} {F : List Nat} (ho : Owned n h m a F) (src : Nat) (op : HOp)
    (hadd : ∀ p k s, op ≠ .addOld p k s) (hdrop : ∀ p key fuel, op = .drop p key fuel → n ≤ fuel) :
    WritesIn F h (op.run h a src) ∧
    ∃ N F', Owned N (op.run h a src) (edit op m) a F' ∧ ∀ i ∈ F', i ∈ F ∨ h.length ≤ i := by
  have stay : WritesIn F h h ∧ ∃ N F', Owned N h m a F' ∧ ∀ i ∈ F', i ∈ F ∨ h.length ≤ i :=
    ⟨writesIn_refl _ _, n, F, ho, fun i hi => .inl hi⟩
  -- it is enough to look at the part that changes
  have key : ∀ (path : List String) (f : Mask → Mask) (act : Nat → MHeap),
      (∀ x m' F1, Owned n h m' x F1 → WritesIn F1 h (act x) ∧ ∃ N F1', n ≤ N ∧ Owned N (act x) (f m') x F1' ∧
        ∀ i ∈ F1', i ∈ F1 ∨ h.length ≤ i) →
      ∀ h', (navigate h a path = none → h' = h) → (∀ x, navigate h a path = some x → h' = act x) →
      WritesIn F h h' ∧ ∃ N F', Owned N h' (onPath f path m) a F' ∧ ∀ i ∈ F', i ∈ F ∨ h.length ≤ i := by
    intro path f act hact h' hnone hsome
    rcases owned_at path ho with ⟨e1, e2⟩ | ⟨x, m', F1, e1, e2, e3, e4⟩
    · rw [hnone e1, e2]; exact stay
    · obtain ⟨w, N, F1', q1, q2, q3⟩ := hact x m' F1 e2
      rw [hsome x e1]
      obtain ⟨N', F', _, r1, r2⟩ := e4 (act x) N F1' f q1 w q2 q3
      exact ⟨w.mono (fun i hi _ => e3 i hi), N', F', r1, r2⟩
  have same : ∀ {x m' F1}, Owned n h m' x F1 → WritesIn F1 h h ∧ ∃ N F1', n ≤ N ∧ Owned N h m' x F1' ∧
      ∀ i ∈ F1', i ∈ F1 ∨ h.length ≤ i := fun {x m' F1} hx =>
    ⟨writesIn_refl _ _, n, F1, le_refl _, hx, fun i hi => .inl hi⟩
  cases n with
  | zero => exact ho.elim
  | succ n =>
  cases op with
  | addOld p k s => exact absurd rfl (hadd p k s)
  | write path d =>
    refine key path (assign d) (fun x => match h[x]? with | some (.mask b) => h.set b (.buf d) | _ => h) ?_ _
      (fun e => by simp [HOp.run, e]) (fun x e => by simp only [HOp.run, e]; rfl)
    intro x m' F1 hx
    cases m' with
    | grp op ks =>
      have hx' := hx
      obtain ⟨es, G, h1, _⟩ := hx
      simp only [h1]
      exact same hx'
    | arr d' =>
      obtain ⟨b, h1, h2, rfl⟩ := hx
      have hb := (List.getElem?_eq_some_iff.1 h2).1
      have hne : b ≠ x := by rintro rfl; rw [h1] at h2; cases h2
      simp only [h1]
      refine ⟨⟨by simp, fun i _ hn => ?_⟩, n + 1, [x, b], le_refl _, ⟨b, ?_, ?_, rfl⟩, fun i hi => .inl hi⟩
      · simp only [List.mem_cons, List.not_mem_nil, or_false, not_or] at hn
        exact List.getElem?_set_ne (Ne.symm hn.2)
      · rw [List.getElem?_set_ne hne]; exact h1
      · rw [List.getElem?_set_self hb]
  | rebind path d =>
    refine key path (assign d) (fun x => match h[x]? with
      | some (.mask _) => (h ++ [HObj.buf d]).set x (.mask h.length) | _ => h) ?_ _
      (fun e => by simp [HOp.run, e]) (fun x e => by simp only [HOp.run, e]; rfl)
    intro x m' F1 hx
    cases m' with
    | grp op ks =>
      have hx' := hx
      obtain ⟨es, G, h1, _⟩ := hx
      simp only [h1]
      exact same hx'
    | arr d' =>
      obtain ⟨b, h1, h2, rfl⟩ := hx
      have hx := (List.getElem?_eq_some_iff.1 h1).1
      simp only [h1]
      refine ⟨⟨by simp, fun i hi hn => ?_⟩, n + 1, [x, h.length], le_refl _, ⟨h.length, ?_, ?_, rfl⟩, ?_⟩
      · simp only [List.mem_cons, List.not_mem_nil, or_false, not_or] at hn
        rw [List.getElem?_set_ne (Ne.symm hn.1), List.getElem?_append_left hi]
      · rw [List.getElem?_set_self (by simp; omega)]
      · rw [List.getElem?_set_ne (by omega), List.getElem?_append_right (le_refl _)]
        simp
      · intro i hi
        simp only [List.mem_cons, List.not_mem_nil, or_false] at hi
        rcases hi with rfl | rfl
        · exact .inl (by simp)
        · exact .inr (le_refl _)
  | addNew path k mm =>
    refine key path _ (fun x => match h[x]? with
      | some (.group op es) => (allocMask mm h).1.set x (.group op (Dict.set es k (allocMask mm h).2)) | _ => h) ?_ _
      (fun e => by simp [HOp.run, e]) (fun x e => by simp only [HOp.run, e]; rfl)
    intro x m' F1 hx
    cases m' with
    | arr d' =>
      have hx' := hx
      obtain ⟨b, h1, _⟩ := hx
      simp only [h1]
      exact same hx'
    | grp op ks =>
      obtain ⟨es, G, h1, rfl, h3, h4⟩ := hx
      have hx := (List.getElem?_eq_some_iff.1 h1).1
      have hp := (allocMask_extends mm h).1.pre
      have hpl := hp.length_le
      have hpre : ∀ i < h.length, (allocMask mm h).1[i]? = h[i]? := by
        intro i hi
        obtain ⟨t, ht⟩ := hp
        rw [← ht]
        exact List.getElem?_append_left hi
      obtain ⟨F2, o2, l2⟩ := allocMask_owned mm h
      simp only [h1]
      set h' := (allocMask mm h).1.set x (.group op (Dict.set es k (allocMask mm h).2)) with hh'
      have hkeep : ∀ i, i ≠ x → h'[i]? = (allocMask mm h).1[i]? := fun i hi => List.getElem?_set_ne (Ne.symm hi)
      have o2' : Owned (max n (depth mm)) h' mm (allocMask mm h).2 F2 :=
        owned_le (le_max_right _ _) (owned_frame o2 (fun i hi => hkeep i (by have := l2 i hi; omega)))
      obtain ⟨G', g1, g2⟩ := ownedKids_set (le_max_left n (depth mm)) h4 (h' := h')
        (fun i hi => by
          rw [hkeep i (fun hix => h3 (hix ▸ hi))]
          exact hpre i (ownedKids_lt (fun m v F hp => owned_lt hp) h4 i hi)) k o2' l2
      refine ⟨⟨by simp [hh']; exact hpl, fun i hi hn => ?_⟩, max n (depth mm) + 1, x :: G', by omega,
        ⟨_, G', ?_, rfl, ?_, g1⟩, ?_⟩
      · simp only [List.mem_cons, not_or] at hn
        rw [hkeep i hn.1, hpre i hi]
      · rw [hh', List.getElem?_set_self (by omega)]
      · intro hi
        rcases g2 x hi with c | c
        · exact h3 c
        · omega
      · intro i hi
        rcases List.mem_cons.1 hi with rfl | hi
        · exact .inl (by simp)
        · rcases g2 i hi with c | c
          · exact .inl (List.mem_cons_of_mem _ c)
          · exact .inr c
  | del path k =>
    refine key path _ (fun x => match h[x]? with
      | some (.group op es) => h.set x (.group op (es.filter (fun p => p.1 != k))) | _ => h) ?_ _
      (fun e => by simp [HOp.run, e]) (fun x e => by simp only [HOp.run, e]; rfl)
    intro x m' F1 hx
    cases m' with
    | arr d' =>
      have hx' := hx
      obtain ⟨b, h1, _⟩ := hx
      simp only [h1]
      exact same hx'
    | grp op ks =>
      obtain ⟨es, G, h1, rfl, h3, h4⟩ := hx
      have hx := (List.getElem?_eq_some_iff.1 h1).1
      obtain ⟨G', g1, g2⟩ := ownedKids_filter (fun q => q != k) h4
      simp only [h1]
      refine ⟨⟨by simp, fun i _ hn => ?_⟩, n + 1, x :: G', le_refl _,
        ⟨es.filter (fun p => p.1 != k), G', ?_, rfl, fun hi => h3 (g2 _ hi), ?_⟩, ?_⟩
      · simp only [List.mem_cons, not_or] at hn
        exact List.getElem?_set_ne (Ne.symm hn.1)
      · rw [List.getElem?_set_self hx]
      · exact ownedKids_mono g1 (fun m v F2 hs hp => owned_frame hp (fun i hi =>
          List.getElem?_set_ne (fun hxi : x = i => h3 (by rw [hxi]; exact g2 i (hs i hi)))))
      · intro i hi
        rcases List.mem_cons.1 hi with rfl | hi
        · exact .inl (by simp)
        · exact .inl (List.mem_cons_of_mem _ (g2 i hi))
  | setAgg path op' =>
    refine key path _ (fun x => match h[x]? with
      | some (.group _ es) => h.set x (.group op' es) | _ => h) ?_ _
      (fun e => by simp [HOp.run, e]) (fun x e => by simp only [HOp.run, e]; rfl)
    intro x m' F1 hx
    cases m' with
    | arr d' =>
      have hx' := hx
      obtain ⟨b, h1, _⟩ := hx
      simp only [h1]
      exact same hx'
    | grp op ks =>
      obtain ⟨es, G, h1, rfl, h3, h4⟩ := hx
      have hx := (List.getElem?_eq_some_iff.1 h1).1
      simp only [h1]
      refine ⟨⟨by simp, fun i _ hn => ?_⟩, n + 1, x :: G, le_refl _, ⟨es, G, ?_, rfl, h3, ?_⟩, fun i hi => .inl hi⟩
      · simp only [List.mem_cons, not_or] at hn
        exact List.getElem?_set_ne (Ne.symm hn.1)
      · rw [List.getElem?_set_self hx]
      · exact ownedKids_mono h4 (fun m v F2 hs hp => owned_frame hp (fun i hi =>
          List.getElem?_set_ne (fun hxi : x = i => h3 (by rw [hxi]; exact hs i hi))))
  | drop path dkey fuel =>
    have hfu := hdrop path dkey fuel rfl
    refine key path (Mask.drop dkey) (fun x => (dropInPlace fuel dkey h x).1) ?_ _
      (fun e => by simp [HOp.run, e]) (fun x e => by simp only [HOp.run, e])
    intro x m' F1 hx
    cases m' with
    | arr d' =>
      have hx' := hx
      obtain ⟨b, h1, _⟩ := hx
      obtain ⟨fuel, rfl⟩ : ∃ f, fuel = f + 1 := ⟨fuel - 1, by omega⟩
      simp only [dropInPlace, h1]
      exact same hx'
    | grp op ks =>
      obtain ⟨_, _, e3, F', e4, e5⟩ := dropInPlace_owned dkey _ h op ks x F1 hx hfu
      exact ⟨e3, n + 1, F', le_refl _, e4, fun i hi => .inl (e5 i hi)⟩

/-- The same for a series of updates. -/
theorem runs_owned {n : Nat} {h : MHeap} {m : Mask} {a : Nat} {F : List Nat} (ho : Owned n h m a F) (src : Nat)
    (ops : List HOp) (hp : Plain ops m) :
    WritesIn F h (ops.foldl (fun h op => op.run h a src) h) ∧
    ∃ N F', Owned N (ops.foldl (fun h op => op.run h a src) h) (ops.foldl (fun m op => edit op m) m) a F' ∧
      ∀ i ∈ F', i ∈ F ∨ h.length ≤ i := by
  induction ops generalizing n h m F with
  | nil => exact ⟨writesIn_refl _ _, n, F, ho, fun i hi => .inl hi⟩
  | cons op ops ih =>
    have hstep : (∀ p k s, op ≠ .addOld p k s) ∧ (∀ p key fuel, op = .drop p key fuel → depth m ≤ fuel) ∧
        Plain ops (edit op m) := by
      cases op <;> simp_all [Plain]
    obtain ⟨w1, N, F1, o1, s1⟩ := run_owned (owned_depth m ho) src op hstep.1 hstep.2.1
    obtain ⟨w2, N2, F2, o2, s2⟩ := ih o1 hstep.2.2
    refine ⟨⟨w1.1.trans w2.1, fun i hi hn => ?_⟩, N2, F2, o2, fun i hi => ?_⟩
    · rw [List.foldl_cons, w2.2 i (lt_of_lt_of_le hi w1.1) (fun hf => ?_), w1.2 i hi hn]
      rcases s1 i hf with c | c
      · exact hn c
      · omega
    · rcases s2 i hi with c | c
      · exact s1 i c
      · exact .inr (w1.1.trans c)

end Gcl
