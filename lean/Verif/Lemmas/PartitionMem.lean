import Verif.Model.PartitionMem
import Verif.Lemmas.HierMem
/-! # Trees of mask objects that share nothing -/
namespace Gcl
set_option autoImplicit false
open Spec

/-- The members of a group show the masks `ks` by `P`, with footprints that do not meet. -/
def OwnedKids (P : Mask → Nat → List Nat → Prop) : List (String × Mask) → List (String × Nat) → List Nat → Prop
  | [], es, F => es = [] ∧ F = []
  | (k, m) :: rest, es, F => ∃ v es' F1 F2, es = (k, v) :: es' ∧ F = F1 ++ F2 ∧ P m v F1 ∧
      OwnedKids P rest es' F2 ∧ ∀ i ∈ F1, i ∉ F2

/-- The object at `a` shows `m`, as a tree of depth at most the first argument of objects that are all distinct: those
at the addresses `F`. -/
def Owned : Nat → MHeap → Mask → Nat → List Nat → Prop
  | 0, _, _, _, _ => False
  | _ + 1, h, .arr d, a, F => ∃ b, h[a]? = some (.mask b) ∧ h[b]? = some (.buf d) ∧ F = [a, b]
  | n + 1, h, .grp op ks, a, F => ∃ es G, h[a]? = some (.group op es) ∧ F = a :: G ∧ a ∉ G ∧
      OwnedKids (Owned n h) ks es G

theorem ownedKids_mono {P Q : Mask → Nat → List Nat → Prop} {ks : List (String × Mask)} {es : List (String × Nat)}
    {F : List Nat} (h : OwnedKids P ks es F) (hq : ∀ m v F1, (∀ i ∈ F1, i ∈ F) → P m v F1 → Q m v F1) :
    OwnedKids Q ks es F := by
  induction ks generalizing es F with
  | nil => exact h
  | cons p ks ih =>
    obtain ⟨k, m⟩ := p
    obtain ⟨v, es', F1, F2, h1, h2, h3, h4, h5⟩ := h
    subst h2
    exact ⟨v, es', F1, F2, h1, rfl, hq m v F1 (fun i hi => List.mem_append.2 (.inl hi)) h3,
      ih h4 (fun m v F' hF => hq m v F' (fun i hi => List.mem_append.2 (.inr (hF i hi)))), h5⟩

theorem owned_frame {n : Nat} {h h' : MHeap} {m : Mask} {a : Nat} {F : List Nat} (ho : Owned n h m a F)
    (hf : ∀ i ∈ F, h'[i]? = h[i]?) : Owned n h' m a F := by
  induction n generalizing m a F with
  | zero => exact ho
  | succ n ih =>
    cases m with
    | arr d =>
      obtain ⟨b, h1, h2, rfl⟩ := ho
      exact ⟨b, by rw [hf a (by simp)]; exact h1, by rw [hf b (by simp)]; exact h2, rfl⟩
    | grp op ks =>
      obtain ⟨es, G, h1, rfl, h2, h3⟩ := ho
      refine ⟨es, G, by rw [hf a (by simp)]; exact h1, rfl, h2, ?_⟩
      exact ownedKids_mono h3 (fun m v F1 hs hp => ih hp (fun i hi => hf i (List.mem_cons_of_mem _ (hs i hi))))

theorem owned_mem {n : Nat} {h : MHeap} {m : Mask} {a : Nat} {F : List Nat} (ho : Owned n h m a F) : a ∈ F := by
  cases n with
  | zero => exact ho.elim
  | succ n =>
    cases m with
    | arr d => obtain ⟨b, _, _, rfl⟩ := ho; simp
    | grp op ks => obtain ⟨es, G, _, rfl, _⟩ := ho; simp

theorem ownedKids_lt {P : Mask → Nat → List Nat → Prop} {N : Nat} (hP : ∀ m v F, P m v F → ∀ i ∈ F, i < N)
    {ks : List (String × Mask)} {es : List (String × Nat)} {F : List Nat} (h : OwnedKids P ks es F) :
    ∀ i ∈ F, i < N := by
  induction ks generalizing es F with
  | nil => obtain ⟨_, rfl⟩ := h; simp
  | cons p ks ih =>
    obtain ⟨v, es', F1, F2, _, rfl, h3, h4, _⟩ := h
    intro i hi
    rcases List.mem_append.1 hi with hi | hi
    · exact hP _ _ _ h3 i hi
    · exact ih h4 i hi

theorem owned_lt {n : Nat} {h : MHeap} {m : Mask} {a : Nat} {F : List Nat} (ho : Owned n h m a F) :
    ∀ i ∈ F, i < h.length := by
  induction n generalizing m a F with
  | zero => exact ho.elim
  | succ n ih =>
    cases m with
    | arr d =>
      obtain ⟨b, h1, h2, rfl⟩ := ho
      have l1 := (List.getElem?_eq_some_iff.1 h1).1
      have l2 := (List.getElem?_eq_some_iff.1 h2).1
      simp [l1, l2]
    | grp op ks =>
      obtain ⟨es, G, h1, rfl, _, h3⟩ := ho
      have l1 := (List.getElem?_eq_some_iff.1 h1).1
      intro i hi
      rcases List.mem_cons.1 hi with rfl | hi
      · exact l1
      · exact ownedKids_lt (fun m v F hp => ih hp) h3 i hi

/-- The members in order, each with its own footprint. -/
theorem ownedKids_forall2 {P : Mask → Nat → List Nat → Prop} {ks : List (String × Mask)} {es : List (String × Nat)}
    {F : List Nat} (h : OwnedKids P ks es F) :
    List.Forall₂ (fun (e : String × Nat) (k : String × Mask) =>
      e.1 = k.1 ∧ ∃ F1, P k.2 e.2 F1 ∧ ∀ i ∈ F1, i ∈ F) es ks := by
  induction ks generalizing es F with
  | nil => obtain ⟨rfl, _⟩ := h; exact .nil
  | cons p ks ih =>
    obtain ⟨v, es', F1, F2, rfl, rfl, h3, h4, _⟩ := h
    refine .cons ⟨rfl, F1, h3, fun i hi => List.mem_append.2 (.inl hi)⟩ ((ih h4).imp ?_)
    rintro a b ⟨h1, F', h2, h3⟩
    exact ⟨h1, F', h2, fun i hi => List.mem_append.2 (.inr (h3 i hi))⟩

theorem owned_shows {n : Nat} {h : MHeap} {m : Mask} {a : Nat} {F : List Nat} (ho : Owned n h m a F) :
    ShowsMask h a m := by
  induction n generalizing m a F with
  | zero => exact ho.elim
  | succ n ih =>
    cases m with
    | arr d => obtain ⟨b, h1, h2, rfl⟩ := ho; exact .arr h1 h2
    | grp op ks =>
      obtain ⟨es, G, h1, rfl, _, h3⟩ := ho
      have hf := ownedKids_forall2 h3
      refine .grp h1 ?_ ?_
      · clear h1 h3
        induction hf with
        | nil => rfl
        | cons h _ ih => simp [h.1, ih]
      · intro i e k he hk
        have := (List.forall₂_iff_get.1 hf).2 i (List.getElem?_eq_some_iff.1 he).1 (List.getElem?_eq_some_iff.1 hk).1
        rw [List.get_eq_getElem, List.get_eq_getElem, (List.getElem?_eq_some_iff.1 he).2,
          (List.getElem?_eq_some_iff.1 hk).2] at this
        obtain ⟨_, F1, h2, _⟩ := this
        exact ih h2

/-- The objects of the tree refer to objects of the tree. -/
theorem owned_inside {n : Nat} {h : MHeap} {m : Mask} {a : Nat} {F : List Nat} (ho : Owned n h m a F) :
    ∀ y ∈ F, ∀ o, h[y]? = some o → ∀ z ∈ refs o, z ∈ F := by
  induction n generalizing m a F with
  | zero => exact ho.elim
  | succ n ih =>
    cases m with
    | arr d =>
      obtain ⟨b, h1, h2, rfl⟩ := ho
      intro y hy o hyo z hz
      simp only [List.mem_cons, List.not_mem_nil, or_false] at hy
      rcases hy with rfl | rfl
      · rw [h1] at hyo; cases hyo
        simp [refs] at hz; simp [hz]
      · rw [h2] at hyo; cases hyo
        simp [refs] at hz
    | grp op ks =>
      obtain ⟨es, G, h1, rfl, _, h3⟩ := ho
      intro y hy o hyo z hz
      rcases List.mem_cons.1 hy with rfl | hy
      · rw [h1] at hyo; cases hyo
        simp only [refs, List.mem_map] at hz
        obtain ⟨e, he, rfl⟩ := hz
        have hf := ownedKids_forall2 h3
        refine List.mem_cons_of_mem _ ?_
        clear h1 h3
        induction hf with
        | nil => cases he
        | cons h _ ih' =>
          rcases List.mem_cons.1 he with rfl | he
          · obtain ⟨_, F1, h2, h4⟩ := h
            exact h4 _ (owned_mem h2)
          · exact ih' he
      · refine List.mem_cons_of_mem _ ?_
        clear h1
        induction ks generalizing es G with
        | nil => obtain ⟨_, rfl⟩ := h3; cases hy
        | cons p ks ih' =>
          obtain ⟨v, es', F1, F2, rfl, rfl, h3, h4, _⟩ := h3
          rcases List.mem_append.1 hy with hy | hy
          · exact List.mem_append.2 (.inl (ih h3 y hy o hyo z hz))
          · exact List.mem_append.2 (.inr (ih' es' F2 (by simp_all) h4 (List.mem_cons_of_mem _ hy) hy))

theorem owned_reaches {n : Nat} {h : MHeap} {m : Mask} {a : Nat} {F : List Nat} (ho : Owned n h m a F) (x : Nat)
    (hr : Reaches h a x) : x ∈ F := by
  induction hr with
  | here => exact owned_mem ho
  | step _ h1 h2 ih => exact owned_inside ho _ ih _ h1 _ h2

/-! ## Copies are trees -/

theorem copyKids_owned {n : Nat} {cp : MHeap → Nat → Py (MHeap × Nat)}
    (hcp : ∀ h a h' b, cp h a = .ok (h', b) → h <+: h' ∧ ∀ m, ShowsMask h a m →
      ∃ F, Owned n h' m b F ∧ ∀ i ∈ F, h.length ≤ i)
    (h : MHeap) (es : List (String × Nat)) (ks : List (String × Mask)) (h' : MHeap) (es' : List (String × Nat))
    (hs : List.Forall₂ (fun (e : String × Nat) (k : String × Mask) => e.1 = k.1 ∧ ShowsMask h e.2 k.2) es ks)
    (hr : copyKids cp h es = .ok (h', es')) :
    h <+: h' ∧ ∃ F, OwnedKids (Owned n h') ks es' F ∧ ∀ i ∈ F, h.length ≤ i := by
  induction es generalizing h ks es' with
  | nil =>
    cases hs
    simp only [copyKids, Except.ok.injEq, Prod.mk.injEq] at hr
    obtain ⟨rfl, rfl⟩ := hr
    exact ⟨List.prefix_refl _, [], ⟨rfl, rfl⟩, by simp⟩
  | cons e es ih =>
    obtain ⟨k, v⟩ := e
    cases hs with
    | @cons _ p _ ks hp hrest =>
    obtain ⟨k', m⟩ := p
    obtain ⟨hk, hm⟩ := hp
    simp only at hk hm
    subst hk
    simp only [copyKids] at hr
    cases h1 : cp h v with
    | error e => rw [h1] at hr; cases hr
    | ok r =>
      obtain ⟨h2, v'⟩ := r
      rw [h1] at hr
      simp only at hr
      cases h3 : copyKids cp h2 es with
      | error e => rw [h3] at hr; cases hr
      | ok r =>
        obtain ⟨h4, rest'⟩ := r
        rw [h3] at hr
        simp only [Except.ok.injEq, Prod.mk.injEq] at hr
        obtain ⟨rfl, rfl⟩ := hr
        obtain ⟨p1, q1⟩ := hcp _ _ _ _ h1
        obtain ⟨F1, o1, l1⟩ := q1 m hm
        obtain ⟨p2, F2, o2, l2⟩ := ih h2 ks rest' (hrest.imp (fun a b hab => ⟨hab.1, showsMask_prefix p1 hab.2⟩)) h3
        refine ⟨p1.trans p2, F1 ++ F2, ⟨v', rest', F1, F2, rfl, rfl, ?_, o2, ?_⟩, ?_⟩
        · refine owned_frame o1 (fun i hi => ?_)
          have hlt := owned_lt o1 i hi
          obtain ⟨t, rfl⟩ := p2
          exact List.getElem?_append_left hlt
        · intro i hi hi2
          have := owned_lt o1 i hi
          have := l2 i hi2
          omega
        · intro i hi
          rcases List.mem_append.1 hi with hi | hi
          · exact l1 i hi
          · have := l2 i hi
            have := p1.length_le
            omega

theorem copyObj_owned (n : Nat) (h : MHeap) (a : Nat) (h' : MHeap) (b : Nat) (hr : copyObj n h a = .ok (h', b)) :
    h <+: h' ∧ ∀ m, ShowsMask h a m → ∃ F, Owned n h' m b F ∧ ∀ i ∈ F, h.length ≤ i := by
  induction n generalizing h a h' b with
  | zero => cases hr
  | succ n ih =>
    refine ⟨(copyObj_extends _ _ _ _ _ hr).1.1, fun m hm => ?_⟩
    cases hm with
    | @arr _ c d h1 h2 =>
      simp only [copyObj, h1, h2, Except.ok.injEq, Prod.mk.injEq] at hr
      obtain ⟨rfl, rfl⟩ := hr
      refine ⟨[h.length + 1, h.length], ⟨h.length, ?_, ?_, rfl⟩, by simp⟩
      · simp
      · simp
    | @grp _ op es ks h1 h2 h3 =>
      simp only [copyObj, h1] at hr
      cases h4 : copyKids (copyObj n) h es with
      | error e => rw [h4] at hr; cases hr
      | ok r =>
        obtain ⟨h5, es'⟩ := r
        rw [h4] at hr
        simp only [Except.ok.injEq, Prod.mk.injEq] at hr
        obtain ⟨rfl, rfl⟩ := hr
        have hf : List.Forall₂ (fun (e : String × Nat) (k : String × Mask) => e.1 = k.1 ∧ ShowsMask h e.2 k.2) es ks := by
          refine List.forall₂_iff_get.2 ⟨?_, fun i hi hj => ⟨?_, ?_⟩⟩
          · have := congrArg List.length h2; simpa using this.symm
          · have := congrArg (fun l : List String => l[i]?) h2
            simp only [List.getElem?_map, List.getElem?_eq_getElem hi, List.getElem?_eq_getElem hj, Option.map_some,
              Option.some.injEq] at this
            exact this.symm
          · exact h3 i _ _ (List.getElem?_eq_getElem hi) (List.getElem?_eq_getElem hj)
        obtain ⟨p, F, o, l⟩ := copyKids_owned (fun h a h' b hh => ih h a h' b hh) h es ks h5 es' hf h4
        have hlt := ownedKids_lt (fun m v F hp => owned_lt hp) o
        refine ⟨h5.length :: F, ⟨es', F, by simp, rfl, ?_, ?_⟩, ?_⟩
        · intro hh; have := hlt _ hh; omega
        · refine ownedKids_mono o (fun m v F1 hs hp => owned_frame hp (fun i hi => ?_))
          exact List.getElem?_append_left (hlt i (hs i hi))
        · intro i hi
          rcases List.mem_cons.1 hi with rfl | hi
          · exact p.length_le
          · exact l i hi

/-! ## Visiting the leaves -/

/-- From `h` to `h'` objects were added, and of the old ones only those at `F` may have changed. -/
def WritesIn (F : List Nat) (h h' : MHeap) : Prop :=
  h.length ≤ h'.length ∧ ∀ i < h.length, i ∉ F → h'[i]? = h[i]?

theorem writesIn_refl (F : List Nat) (h : MHeap) : WritesIn F h h := ⟨le_refl _, fun _ _ _ => rfl⟩

theorem WritesIn.mono {F G : List Nat} {h h' : MHeap} (hw : WritesIn F h h') (hs : ∀ i ∈ F, i < h.length → i ∈ G) :
    WritesIn G h h' :=
  ⟨hw.1, fun i hi hn => hw.2 i hi (fun hf => hn (hs i hf hi))⟩

theorem WritesIn.trans {F : List Nat} {h h' h'' : MHeap} (h1 : WritesIn F h h')
    (h2 : ∀ i < h.length, i ∉ F → h''[i]? = h'[i]?) (hl : h'.length ≤ h''.length) : WritesIn F h h'' :=
  ⟨h1.1.trans hl, fun i hi hn => by rw [h2 i hi hn, h1.2 i hi hn]⟩

theorem owned_writesIn {n : Nat} {h h' : MHeap} {m : Mask} {a : Nat} {F G : List Nat} (ho : Owned n h m a G)
    (hw : WritesIn F h h') (hd : ∀ i ∈ F, i ∉ G) : Owned n h' m a G :=
  owned_frame ho (fun i hi => hw.2 i (owned_lt ho i hi) (fun hf => hd i hf hi))

/-- What the body of the loop does to one leaf. -/
def ActOK (act : MHeap → Nat → MHeap × Py Unit) (f : List Bool → Py (List Bool)) : Prop :=
  ∀ (h : MHeap) (a b : Nat) (d : List Bool), h[a]? = some (.mask b) → h[b]? = some (.buf d) →
    WritesIn [a, b] h (act h a).1 ∧
    (∀ e, f d = .error e → (act h a).2 = .error e) ∧
    (∀ d', f d = .ok d' → (act h a).2 = .ok () ∧ ∃ b', (act h a).1[a]? = some (.mask b') ∧
      (act h a).1[b']? = some (.buf d') ∧ (b' = b ∨ h.length ≤ b'))

/-- What a visit of the object at `a` that shows `m` does. -/
def VisitOK (n : Nat) (h : MHeap) (a : Nat) (F : List Nat) (want : Py Mask) (got : MHeap × Py Unit) : Prop :=
  WritesIn F h got.1 ∧
  (∀ e, want = .error e → got.2 = .error e) ∧
  (∀ m', want = .ok m' → got.2 = .ok () ∧ ∃ F', Owned n got.1 m' a F' ∧ ∀ i ∈ F', i ∈ F ∨ h.length ≤ i)

/-- The same for the members of a group. -/
def VisitKidsOK (n : Nat) (h : MHeap) (es : List (String × Nat)) (F : List Nat) (want : Py (List (String × Mask)))
    (got : MHeap × Py Unit) : Prop :=
  WritesIn F h got.1 ∧
  (∀ e, want = .error e → got.2 = .error e) ∧
  (∀ ks', want = .ok ks' → got.2 = .ok () ∧ ∃ F', OwnedKids (Owned n got.1) ks' es F' ∧
    ∀ i ∈ F', i ∈ F ∨ h.length ≤ i)

/-- A member in front of the others, unless one of them failed. -/
def consPy (k : String) (want1 : Py Mask) (want2 : Py (List (String × Mask))) : Py (List (String × Mask)) :=
  match want1 with
  | .error e => .error e
  | .ok m' =>
    match want2 with
    | .error e => .error e
    | .ok rest' => .ok ((k, m') :: rest')

/-- Continue unless an error was raised. -/
def thenH (got : MHeap × Py Unit) (rest : MHeap → MHeap × Py Unit) : MHeap × Py Unit :=
  match got with
  | (h1, .error e) => (h1, .error e)
  | (h1, .ok ()) => rest h1

/-- Visiting a member and then the others. -/
theorem visit_cons {n : Nat} {h : MHeap} {k : String} {v : Nat} {es : List (String × Nat)} {m : Mask}
    {ks : List (String × Mask)} {F1 F2 : List Nat} (hd : ∀ i ∈ F1, i ∉ F2)
    (hk2 : OwnedKids (Owned n h) ks es F2) (h1 : Owned n h m v F1)
    {want1 : Py Mask} {want2 : Py (List (String × Mask))} {got1 : MHeap × Py Unit}
    {rest : MHeap → MHeap × Py Unit}
    (hg1 : VisitOK n h v F1 want1 got1)
    (hg2 : ∀ h', OwnedKids (Owned n h') ks es F2 → VisitKidsOK n h' es F2 want2 (rest h')) :
    VisitKidsOK n h ((k, v) :: es) (F1 ++ F2)
      (consPy k want1 want2) (thenH got1 rest) := by
  obtain ⟨w1, e1, o1⟩ := hg1
  have l1 := owned_lt h1
  have l2 := ownedKids_lt (fun m v F hp => owned_lt hp) hk2
  cases want1 with
  | error e =>
    have := e1 e rfl
    obtain ⟨h', r⟩ := got1
    simp only at this w1
    subst this
    exact ⟨w1.mono (fun i hi _ => List.mem_append.2 (.inl hi)), fun e' he => (by cases he; rfl), fun _ hk => (by cases hk)⟩
  | ok m' =>
    obtain ⟨hr, F1', ho1, hs1⟩ := o1 m' rfl
    obtain ⟨h', r⟩ := got1
    simp only at hr w1 ho1
    subst hr
    have hk2' : OwnedKids (Owned n h') ks es F2 :=
      ownedKids_mono hk2 (fun m v G hs hp => owned_writesIn hp w1 (fun i hi hg => hd i hi (hs i hg)))
    obtain ⟨w2, e2, o2⟩ := hg2 h' hk2'
    have hw : WritesIn (F1 ++ F2) h (rest h').1 := by
      refine ⟨w1.1.trans w2.1, fun i hi hn => ?_⟩
      simp only [List.mem_append, not_or] at hn
      rw [w2.2 i (lt_of_lt_of_le hi w1.1) hn.2, w1.2 i hi hn.1]
    cases want2 with
    | error e => exact ⟨hw, fun e' he => e2 e' (by cases he; rfl), fun _ hk => (by cases hk)⟩
    | ok rest' =>
      obtain ⟨hr2, F2', ho2, hs2⟩ := o2 rest' rfl
      refine ⟨hw, fun e' he => (by cases he), fun ks' hks => ?_⟩
      cases hks
      refine ⟨hr2, F1' ++ F2', ⟨v, es, F1', F2', rfl, rfl, ?_, ho2, ?_⟩, ?_⟩
      · refine owned_writesIn ho1 w2 (fun i hi hi' => ?_)
        rcases hs1 i hi' with hh | hh
        · exact hd i hh hi
        · have := l2 i hi; omega
      · intro i hi hi'
        have hlt := owned_lt ho1 i hi
        rcases hs2 i hi' with hh | hh
        · rcases hs1 i hi with hh' | hh'
          · exact hd i hh' hh
          · have := l2 i hh; omega
        · omega
      · intro i hi
        rcases List.mem_append.1 hi with hi | hi
        · rcases hs1 i hi with hh | hh
          · exact .inl (List.mem_append.2 (.inl hh))
          · exact .inr hh
        · rcases hs2 i hi with hh | hh
          · exact .inl (List.mem_append.2 (.inr hh))
          · have := w1.1
            exact .inr (by omega)

/-- A member that is not visited. -/
theorem visit_skip {n : Nat} {h : MHeap} {m : Mask} {v : Nat} {F : List Nat} (ho : Owned n h m v F) :
    VisitOK n h v F (.ok m) (h, .ok ()) := by
  refine ⟨writesIn_refl _ _, fun _ he => (by cases he), fun m' hm => ?_⟩
  cases hm
  exact ⟨rfl, F, ho, fun i hi => .inl hi⟩

theorem walkKidsH_ok {n : Nat} {act : MHeap → Nat → MHeap × Py Unit} {f : List Bool → Py (List Bool)}
    (ih : ∀ (h : MHeap) (m : Mask) (a : Nat) (F : List Nat), Owned n h m a F →
      VisitOK n h a F (Mask.mapLeaves f m) (walkH act n h a))
    (ks : List (String × Mask)) (h : MHeap) (es : List (String × Nat)) (F : List Nat)
    (hk : OwnedKids (Owned n h) ks es F) :
    VisitKidsOK n h es F (Mask.mapLeavesKids f ks) (walkKidsH (walkH act n) h es) := by
  induction ks generalizing h es F with
  | nil =>
    obtain ⟨rfl, rfl⟩ := hk
    refine ⟨writesIn_refl _ _, fun e he => (by cases he), fun ks' hks => ?_⟩
    cases hks
    exact ⟨rfl, [], ⟨rfl, rfl⟩, by simp⟩
  | cons p ks ihk =>
    obtain ⟨k, m⟩ := p
    obtain ⟨v, es', F1, F2, rfl, rfl, h1, h2, h3⟩ := hk
    by_cases hl : k = "latent"
    · have := visit_cons (k := k) h3 h2 h1 (visit_skip h1) (fun h' hh => ihk h' es' F2 hh)
      simp only [Mask.mapLeavesKids, walkKidsH, if_pos hl]
      exact this
    · have := visit_cons (k := k) h3 h2 h1 (ih h m v F1 h1) (fun h' hh => ihk h' es' F2 hh)
      simp only [Mask.mapLeavesKids, walkKidsH, if_neg hl]
      exact this

theorem walkH_ok {act : MHeap → Nat → MHeap × Py Unit} {f : List Bool → Py (List Bool)} (hact : ActOK act f)
    (n : Nat) (h : MHeap) (m : Mask) (a : Nat) (F : List Nat) (ho : Owned n h m a F) :
    VisitOK n h a F (Mask.mapLeaves f m) (walkH act n h a) := by
  induction n generalizing h m a F with
  | zero => exact ho.elim
  | succ n ih =>
    cases m with
    | arr d =>
      obtain ⟨b, h1, h2, rfl⟩ := ho
      obtain ⟨w, he, hk⟩ := hact h a b d h1 h2
      simp only [walkH, h1, Mask.mapLeaves]
      refine ⟨w, ?_, ?_⟩
      · intro e hf
        cases hfd : f d with
        | error e' => rw [hfd] at hf; cases hf; exact he _ hfd
        | ok d' => rw [hfd] at hf; cases hf
      · intro m' hf
        cases hfd : f d with
        | error e' => rw [hfd] at hf; cases hf
        | ok d' =>
          rw [hfd] at hf
          cases hf
          obtain ⟨r, b', g1, g2, g3⟩ := hk d' hfd
          refine ⟨r, [a, b'], ⟨b', g1, g2, rfl⟩, ?_⟩
          intro i hi
          simp only [List.mem_cons, List.not_mem_nil, or_false] at hi ⊢
          rcases hi with rfl | rfl
          · exact .inl (.inl rfl)
          · rcases g3 with g3 | g3
            · exact .inl (.inr g3)
            · exact .inr g3
    | grp op ks =>
      obtain ⟨es, G, h1, rfl, h2, h3⟩ := ho
      obtain ⟨w, he, hk⟩ := walkKidsH_ok ih ks h es G h3
      simp only [walkH, h1, Mask.mapLeaves]
      have halt := (List.getElem?_eq_some_iff.1 h1).1
      refine ⟨w.mono (fun i hi _ => List.mem_cons_of_mem _ hi), ?_, ?_⟩
      · intro e hf
        cases hfd : Mask.mapLeavesKids f ks with
        | error e' => rw [hfd] at hf; cases hf; exact he _ hfd
        | ok d' => rw [hfd] at hf; cases hf
      · intro m' hf
        cases hfd : Mask.mapLeavesKids f ks with
        | error e' => rw [hfd] at hf; cases hf
        | ok ks' =>
          rw [hfd] at hf
          cases hf
          obtain ⟨r, F', o, s⟩ := hk ks' hfd
          refine ⟨r, a :: F', ⟨es, F', ?_, rfl, ?_, o⟩, ?_⟩
          · rw [w.2 a halt h2]; exact h1
          · intro hh
            rcases s a hh with hh | hh
            · exact h2 hh
            · omega
          · intro i hi
            rcases List.mem_cons.1 hi with rfl | hi
            · exact .inl (by simp)
            · rcases s i hi with hh | hh
              · exact .inl (List.mem_cons_of_mem _ hh)
              · exact .inr hh

theorem walkTopH_ok {n : Nat} {act : MHeap → Nat → MHeap × Py Unit} {f : List Bool → Py (List Bool)}
    (hact : ActOK act f) (ks : List (String × Mask)) (h : MHeap) (es : List (String × Nat)) (F : List Nat)
    (hk : OwnedKids (Owned n h) ks es F) :
    VisitKidsOK n h es F (mapTop f ks) (walkTopH (walkH act n) h es) := by
  induction ks generalizing h es F with
  | nil =>
    obtain ⟨rfl, rfl⟩ := hk
    refine ⟨writesIn_refl _ _, fun e he => (by cases he), fun ks' hks => ?_⟩
    cases hks
    exact ⟨rfl, [], ⟨rfl, rfl⟩, by simp⟩
  | cons p ks ihk =>
    obtain ⟨k, m⟩ := p
    obtain ⟨v, es', F1, F2, rfl, rfl, h1, h2, h3⟩ := hk
    exact visit_cons (k := k) h3 h2 h1 (walkH_ok hact n h m v F1 h1) (fun h' hh => ihk h' es' F2 hh)

end Gcl
