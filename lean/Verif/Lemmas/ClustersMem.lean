import Verif.Model.ClustersMem
import Verif.Lemmas.Clusters
import Verif.Lemmas.Edits
/-! # Leaf objects of trees of mask objects that share nothing -/
namespace Gcl
set_option autoImplicit false
open Spec

/-! ## Dictionaries with corresponding values -/

/-- The same keys in the same order, with related values. -/
def DictRel {α β : Type} (R : α → β → Prop) (d : Dict α) (e : Dict β) : Prop :=
  List.Forall₂ (fun p q => p.1 = q.1 ∧ R p.2 q.2) d e

theorem DictRel.set {α β : Type} {R : α → β → Prop} {d : Dict α} {e : Dict β} (h : DictRel R d e) (k : String) {v : α}
    {w : β} (hv : R v w) : DictRel R (Dict.set d k v) (Dict.set e k w) := by
  induction h with
  | nil => exact .cons ⟨rfl, hv⟩ .nil
  | @cons p q d e h1 h2 ih =>
    obtain ⟨k1, v1⟩ := p
    obtain ⟨k2, v2⟩ := q
    obtain ⟨h1, h3⟩ := h1
    simp only at h1 h3
    subst h1
    by_cases hk : k1 = k
    · simp only [Dict.set, if_pos hk]
      exact .cons ⟨rfl, hv⟩ h2
    · simp only [Dict.set, if_neg hk]
      exact .cons ⟨rfl, h3⟩ ih

theorem DictRel.update {α β : Type} {R : α → β → Prop} {d : Dict α} {e : Dict β} (h : DictRel R d e)
    {ps : List (String × α)} {qs : List (String × β)} (hp : DictRel R ps qs) :
    DictRel R (Dict.update d ps) (Dict.update e qs) := by
  unfold Dict.update
  induction hp generalizing d e with
  | nil => exact h
  | @cons p q ps qs h1 h2 ih =>
    obtain ⟨k1, v1⟩ := p
    obtain ⟨k2, v2⟩ := q
    obtain ⟨h1, h3⟩ := h1
    simp only at h1 h3
    subst h1
    exact ih (h.set k1 h3)

theorem DictRel.ofPairs {α β : Type} {R : α → β → Prop} {ps : List (String × α)} {qs : List (String × β)}
    (hp : DictRel R ps qs) : DictRel R (Dict.ofPairs ps) (Dict.ofPairs qs) :=
  DictRel.update (d := []) (e := []) .nil hp

theorem DictRel.get {α β : Type} {R : α → β → Prop} {d : Dict α} {e : Dict β} (h : DictRel R d e) (k : String) :
    (Dict.get? d k = none ∧ Dict.get? e k = none) ∨
    ∃ v w, Dict.get? d k = some v ∧ Dict.get? e k = some w ∧ R v w := by
  induction h with
  | nil => exact .inl ⟨rfl, rfl⟩
  | @cons p q d e h1 h2 ih =>
    obtain ⟨k1, v1⟩ := p
    obtain ⟨k2, v2⟩ := q
    obtain ⟨h1, h3⟩ := h1
    simp only at h1 h3
    subst h1
    by_cases hk : k1 = k
    · simp only [Dict.get?, if_pos hk]
      exact .inr ⟨v1, v2, rfl, rfl, h3⟩
    · simp only [Dict.get?, if_neg hk]
      exact ih

theorem DictRel.imp {α β : Type} {R S : α → β → Prop} {d : Dict α} {e : Dict β} (h : DictRel R d e)
    (hs : ∀ v w, R v w → S v w) : DictRel S d e :=
  List.Forall₂.imp (fun _ _ h => ⟨h.1, hs _ _ h.2⟩) h

theorem DictRel.append {α β : Type} {R : α → β → Prop} {d d' : Dict α} {e e' : Dict β} (h : DictRel R d e)
    (h' : DictRel R d' e') : DictRel R (d ++ d') (e ++ e') := List.rel_append h h'

/-! ## Following paths -/

theorem navigate_append (h : MHeap) (p q : List String) (a : Nat) :
    navigate h a (p ++ q) = (navigate h a p).bind (fun x => navigate h x q) := by
  induction p generalizing a with
  | nil => rfl
  | cons k p ih =>
    simp only [List.cons_append, navigate]
    cases h[a]? with
    | none => rfl
    | some o =>
      cases o with
      | buf d => rfl
      | mask b => rfl
      | group op es =>
        simp only
        cases Dict.get? es k with
        | none => rfl
        | some v => exact ih v

/-- Overwriting a buffer changes no path. -/
theorem navigate_setBuf (h : MHeap) (b : Nat) (d d' : List Bool) (hb : h[b]? = some (.buf d')) (p : List String)
    (a : Nat) : navigate (h.set b (.buf d)) a p = navigate h a p := by
  induction p generalizing a with
  | nil => rfl
  | cons k p ih =>
    simp only [navigate]
    by_cases hab : b = a
    · subst hab
      rw [List.getElem?_set_self (List.getElem?_eq_some_iff.1 hb).1, hb]
    · rw [List.getElem?_set_ne hab]
      cases h[a]? with
      | none => rfl
      | some o =>
        cases o with
        | buf d => rfl
        | mask b => rfl
        | group op es =>
          simp only
          cases Dict.get? es k with
          | none => rfl
          | some v => exact ih v

theorem ownedKids_keys {P : Mask → Nat → List Nat → Prop} {ks : List (String × Mask)} {es : List (String × Nat)}
    {F : List Nat} (hk : OwnedKids P ks es F) : Dict.keys es = Dict.keys ks := by
  induction ks generalizing es F with
  | nil => obtain ⟨rfl, rfl⟩ := hk; rfl
  | cons p ks ih =>
    obtain ⟨k, m⟩ := p
    obtain ⟨v, es', F1, F2, rfl, rfl, h3, h4, h5⟩ := hk
    show k :: Dict.keys es' = k :: Dict.keys ks
    rw [ih h4]

theorem ownedKids_get {P : Mask → Nat → List Nat → Prop} {ks : List (String × Mask)} {es : List (String × Nat)}
    {F : List Nat} (hk : OwnedKids P ks es F) {k : String} {m : Mask} (hm : Dict.get? ks k = some m) :
    ∃ v F1, Dict.get? es k = some v ∧ P m v F1 := by
  induction ks generalizing es F with
  | nil => cases hm
  | cons p ks ih =>
    obtain ⟨k', m'⟩ := p
    obtain ⟨v, es', F1, F2, rfl, rfl, h3, h4, h5⟩ := hk
    simp only [Dict.get?] at hm ⊢
    by_cases hkk : k' = k
    · rw [if_pos hkk] at hm ⊢
      cases hm
      exact ⟨v, F1, rfl, h3⟩
    · rw [if_neg hkk] at hm ⊢
      exact ih h4 hm

/-- The leaf at a path is a mask object with its booleans. -/
theorem owned_leafAt {n : Nat} {h : MHeap} {m : Mask} {a : Nat} {F : List Nat} (ho : Owned n h m a F) (p : List String)
    (d : List Bool) (hl : m.leafAt p = some d) :
    ∃ x b, navigate h a p = some x ∧ h[x]? = some (.mask b) ∧ h[b]? = some (.buf d) := by
  induction p generalizing n m a F with
  | nil =>
    cases n with
    | zero => exact ho.elim
    | succ n =>
    cases m with
    | grp op ks => cases hl
    | arr d' =>
      cases hl
      obtain ⟨b, h1, h2, rfl⟩ := ho
      exact ⟨a, b, rfl, h1, h2⟩
  | cons k p ih =>
    cases n with
    | zero => exact ho.elim
    | succ n =>
    cases m with
    | arr d' => cases hl
    | grp op ks =>
      obtain ⟨es, G, h1, rfl, h3, h4⟩ := ho
      simp only [Mask.leafAt] at hl
      cases hk : Dict.get? ks k with
      | none => rw [hk] at hl; cases hl
      | some m =>
        rw [hk] at hl
        obtain ⟨v, F1, e1, e2⟩ := ownedKids_get h4 hk
        obtain ⟨x, b, g1, g2⟩ := ih e2 hl
        exact ⟨x, b, by simp [navigate, h1, e1, g1], g2⟩

/-! ## The leaves of a tree -/

/-- What a leaf name stands for: a path, and the object there. -/
def AtPath (h : MHeap) (root : Nat) (p : List String) (x : Nat) : Prop := navigate h root p = some x

/-- What a leaf name stands for: booleans, and the object holding them. -/
def HoldsBools (h : MHeap) (d : List Bool) (x : Nat) : Prop := readMaskArr h x = .ok d

/-- The leaves found in the objects are the leaves of the value. -/
def LeavesOK (h : MHeap) (root : Nat) (refs : List (String × List String)) (iter : List (String × List Bool))
    (l : List (String × Nat)) : Prop := DictRel (AtPath h root) refs l ∧ DictRel (HoldsBools h) iter l

theorem leafRefsKidsH_ok {n fuel : Nat} {h : MHeap} {root : Nat} {pre : List String}
    (hrd : ∀ (m : Mask) (v : Nat) (F : List Nat) (pre : List String) (name : String), Owned n h m v F → UniqueKeys m →
      navigate h root pre = some v →
      (∀ l, leafRefsH fuel h name v = .ok l → LeavesOK h root (m.leafRefs pre name) (m.leafIter name) l) ∧
      (n ≤ fuel → ∃ l, leafRefsH fuel h name v = .ok l))
    (ks : List (String × Mask)) (es : List (String × Nat)) (F : List Nat) (hk : OwnedKids (Owned n h) ks es F)
    (hu : ∀ k m, (k, m) ∈ ks → UniqueKeys m) (hnav : ∀ k v, (k, v) ∈ es → navigate h root (pre ++ [k]) = some v) :
    (∀ l, leafRefsKidsH (leafRefsH fuel h) es = .ok l →
      LeavesOK h root (Mask.leafRefsKids pre ks) (Mask.leafIterKids ks) l) ∧
    (n ≤ fuel → ∃ l, leafRefsKidsH (leafRefsH fuel h) es = .ok l) := by
  induction ks generalizing es F with
  | nil =>
    obtain ⟨rfl, rfl⟩ := hk
    exact ⟨fun l hl => by cases hl; exact ⟨.nil, .nil⟩, fun _ => ⟨[], rfl⟩⟩
  | cons p ks ih =>
    obtain ⟨k, m⟩ := p
    obtain ⟨v, es', F1, F2, rfl, rfl, h3, h4, h5⟩ := hk
    obtain ⟨i1, i2⟩ := ih es' F2 h4 (fun k m hm => hu k m (by simp [hm])) (fun k v hv => hnav k v (by simp [hv]))
    simp only [leafRefsKidsH, Mask.leafRefsKids, Mask.leafIterKids]
    by_cases hl : k = "latent"
    · simp only [if_pos hl]
      exact ⟨i1, i2⟩
    · simp only [if_neg hl]
      obtain ⟨r1, r2⟩ := hrd m v F1 (pre ++ [k]) k h3 (hu k m (by simp)) (hnav k v (by simp))
      constructor
      · intro l hh
        cases hr : leafRefsH fuel h k v with
        | error e => rw [hr] at hh; cases hh
        | ok l1 =>
          rw [hr] at hh
          cases hr2 : leafRefsKidsH (leafRefsH fuel h) es' with
          | error e => rw [hr2] at hh; cases hh
          | ok l2 =>
            rw [hr2] at hh
            cases hh
            obtain ⟨a1, a2⟩ := r1 l1 hr
            obtain ⟨b1, b2⟩ := i1 l2 hr2
            exact ⟨a1.append b1, a2.append b2⟩
      · intro hn
        obtain ⟨l1, e1⟩ := r2 hn
        obtain ⟨l2, e2⟩ := i2 hn
        exact ⟨l1 ++ l2, by rw [e1, e2]⟩

theorem leafRefsH_ok (fuel : Nat) {n : Nat} {h : MHeap} {root : Nat} (m : Mask) (v : Nat) (F : List Nat)
    (pre : List String) (name : String) (ho : Owned n h m v F) (hu : UniqueKeys m) (hnav : navigate h root pre = some v) :
    (∀ l, leafRefsH fuel h name v = .ok l → LeavesOK h root (m.leafRefs pre name) (m.leafIter name) l) ∧
    (n ≤ fuel → ∃ l, leafRefsH fuel h name v = .ok l) := by
  induction fuel generalizing n m v F pre name with
  | zero =>
    refine ⟨fun l hl => (by cases hl), fun hn => ?_⟩
    obtain rfl : n = 0 := by omega
    exact ho.elim
  | succ fuel ih =>
    cases n with
    | zero => exact ho.elim
    | succ n =>
    cases m with
    | arr d =>
      obtain ⟨b, h1, h2, rfl⟩ := ho
      simp only [leafRefsH, h1]
      refine ⟨fun l hl => ?_, fun _ => ⟨_, rfl⟩⟩
      cases hl
      refine ⟨.cons ⟨rfl, hnav⟩ .nil, .cons ⟨rfl, ?_⟩ .nil⟩
      simp only [HoldsBools, readMaskArr, h1, h2]
    | grp op ks =>
      obtain ⟨es, G, h1, rfl, h3, h4⟩ := ho
      simp only [leafRefsH, h1]
      have hkeys := ownedKids_keys h4
      have := leafRefsKidsH_ok (n := n) (fuel := fuel) (h := h) (root := root) (pre := pre)
        (fun m v F pre name ho hu hnav => ih m v F pre name ho hu hnav) ks es G h4 (fun k m hm => hu.kid hm)
        (fun k w hw => by
          rw [navigate_append, hnav]
          simp only [Option.bind_some, navigate, h1]
          rw [Dict.get?_of_mem (by rw [hkeys]; exact hu.keys) hw])
      exact ⟨this.1, fun hn => this.2 (by omega)⟩

theorem arrays_rel {h : MHeap} {ps : List (String × List Bool)} {l : List (String × Nat)}
    (hp : DictRel (HoldsBools h) ps l) :
    DictRel (fun m x => ∃ d, m = Mask.arr d ∧ HoldsBools h d x) (ps.map (fun q => (q.1, Mask.arr q.2))) l := by
  unfold DictRel at hp ⊢
  rw [List.forall₂_map_left_iff]
  exact List.Forall₂.imp (fun p q hp => ⟨hp.1, p.2, rfl, hp.2⟩) hp

theorem leafDictH_ok {n fuel : Nat} {h : MHeap} {root : Nat} (ks : List (String × Mask)) (es : List (String × Nat))
    (F : List Nat) (hk : OwnedKids (Owned n h) ks es F)
    (hu : ∀ k m, (k, m) ∈ ks → UniqueKeys m) (hnav : ∀ k v, (k, v) ∈ es → navigate h root [k] = some v)
    (accR : Dict (List String)) (accB : Dict Mask) (acc : Dict Nat) (hR : DictRel (AtPath h root) accR acc)
    (hB : DictRel (fun m x => ∃ d, m = Mask.arr d ∧ HoldsBools h d x) accB acc) :
    (∀ l, leafDictH fuel h acc es = .ok l →
      DictRel (AtPath h root)
        (ks.foldl (fun acc p => Dict.update acc (Dict.ofPairs (Mask.leafRefs [p.1] p.1 p.2))) accR) l ∧
      DictRel (fun m x => ∃ d, m = Mask.arr d ∧ HoldsBools h d x)
        (ks.foldl (fun acc p => Dict.update acc
          (Dict.ofPairs ((Mask.leafIter p.1 p.2).map (fun q => (q.1, Mask.arr q.2))))) accB) l) ∧
    (n ≤ fuel → ∃ l, leafDictH fuel h acc es = .ok l) := by
  induction ks generalizing es F accR accB acc with
  | nil =>
    obtain ⟨rfl, rfl⟩ := hk
    exact ⟨fun l hl => by cases hl; exact ⟨hR, hB⟩, fun _ => ⟨acc, rfl⟩⟩
  | cons p ks ih =>
    obtain ⟨k, m⟩ := p
    obtain ⟨v, es', F1, F2, rfl, rfl, h3, h4, h5⟩ := hk
    obtain ⟨r1, r2⟩ := leafRefsH_ok fuel (root := root) m v F1 [k] k h3 (hu k m (by simp)) (hnav k v (by simp))
    have next := fun accR accB acc hR hB => ih es' F2 h4 (fun k m hm => hu k m (by simp [hm]))
      (fun k v hv => hnav k v (by simp [hv])) accR accB acc hR hB
    simp only [leafDictH, List.foldl_cons]
    constructor
    · intro l hl
      cases hr : leafRefsH fuel h k v with
      | error e => rw [hr] at hl; cases hl
      | ok l1 =>
        rw [hr] at hl
        obtain ⟨a1, a2⟩ := r1 l1 hr
        exact (next _ _ _ (hR.update a1.ofPairs) (hB.update (arrays_rel a2).ofPairs)).1 l hl
    · intro hn
      obtain ⟨l1, e1⟩ := r2 hn
      obtain ⟨a1, a2⟩ := r1 l1 e1
      rw [e1]
      exact (next _ _ _ (hR.update a1.ofPairs) (hB.update (arrays_rel a2).ofPairs)).2 hn

theorem readAll_rel {h : MHeap} {lks : Dict Mask} {l : Dict Nat}
    (hB : DictRel (fun m x => ∃ d, m = Mask.arr d ∧ HoldsBools h d x) lks l) :
    ∃ ds, flatEntries lks = .ok ds ∧ readAll h l = .ok ds := by
  induction hB with
  | nil => exact ⟨[], rfl, rfl⟩
  | @cons p q lks l h1 h2 ih =>
    obtain ⟨k1, m⟩ := p
    obtain ⟨k2, x⟩ := q
    obtain ⟨h1, d, h3, h4⟩ := h1
    simp only at h1 h3 h4
    subst h1 h3
    obtain ⟨ds, e1, e2⟩ := ih
    refine ⟨(k1, d) :: ds, ?_, ?_⟩
    · simp only [flatEntries, e1]
      rfl
    · have h4 : readMaskArr h x = .ok d := h4
      simp only [readAll, h4, e2]

/-! ## Overwriting leaves -/

theorem map_onKey (k : String) (f : Mask → Mask) (ks : List (String × Mask)) (hn : (Dict.keys ks).Nodup) :
    ks.map (fun q => if q.1 = k then (q.1, f q.2) else q) = onKey k f ks := by
  induction ks with
  | nil => rfl
  | cons p ks ih =>
    obtain ⟨k', m⟩ := p
    simp only [Dict.keys, List.map_cons, List.nodup_cons] at hn
    simp only [List.map_cons, onKey]
    by_cases hk : k' = k
    · simp only [if_pos hk]
      congr 1
      conv_rhs => rw [← List.map_id ks]
      apply List.map_congr_left
      intro q hq
      rw [if_neg]
      · rfl
      · rintro rfl
        exact hn.1 (by rw [hk]; exact List.mem_map.2 ⟨q, hq, rfl⟩)
    · simp only [if_neg hk]
      rw [ih hn.2]

theorem setLeaf_eq (d : List Bool) (p : List String) (m : Mask) (hu : UniqueKeys m) :
    m.setLeaf d p = onPath (assign d) p m := by
  induction p generalizing m with
  | nil => cases m <;> rfl
  | cons k p ih =>
    cases m with
    | arr d' => rfl
    | grp op ks =>
      rw [Mask.setLeaf, onPath, ← map_onKey k _ ks hu.keys]
      congr 1
      apply List.map_congr_left
      intro q hq
      by_cases hk : q.1 = k
      · rw [if_pos hk, if_pos hk, ih q.2 (hu.kid (k := q.1) hq)]
      · rw [if_neg hk, if_neg hk]

theorem depthKids_map (ks : List (String × Mask)) (g : String × Mask → String × Mask)
    (hg : ∀ q ∈ ks, depth (g q).2 = depth q.2) : depthKids (ks.map g) = depthKids ks := by
  induction ks with
  | nil => rfl
  | cons p ks ih =>
    have h1 := hg p (by simp)
    rcases hgp : g p with ⟨a, b⟩
    rw [hgp] at h1
    simp only [List.map_cons, hgp, depthKids, ih (fun q hq => hg q (by simp [hq])), h1]

theorem depth_setLeaf (d : List Bool) (p : List String) (m : Mask) : depth (m.setLeaf d p) = depth m := by
  induction p generalizing m with
  | nil => cases m <;> rfl
  | cons k p ih =>
    cases m with
    | arr d' => rfl
    | grp op ks =>
      simp only [Mask.setLeaf, depth]
      rw [depthKids_map]
      intro q _
      split
      · exact ih q.2
      · rfl

theorem setLeaf_grp (d : List Bool) (p : List String) (op : Agg) (ks : List (String × Mask)) :
    ∃ ks', (Mask.grp op ks).setLeaf d p = .grp op ks' := by
  cases p with
  | nil => exact ⟨ks, rfl⟩
  | cons k p => exact ⟨_, rfl⟩

theorem unique_setLeaf {d d0 : List Bool} {p : List String} {m : Mask} (hl : m.leafAt p = some d0)
    (hu : UniqueKeys m) : UniqueKeys (m.setLeaf d p) := by
  intro q op ks hq
  rw [look_setLeaf d d0 p m ((leafAt_iff p m d0).1 hl) q] at hq
  by_cases hqp : q = p
  · rw [if_pos hqp] at hq; cases hq
  · rw [if_neg hqp] at hq
    exact hu q op ks hq

theorem leafAt_setLeaf {d d0 : List Bool} {p : List String} {m : Mask} (hl : m.leafAt p = some d0) (q : List String)
    (hq : (m.leafAt q).isSome) : ((m.setLeaf d p).leafAt q).isSome := by
  obtain ⟨d1, hd1⟩ := Option.isSome_iff_exists.1 hq
  have h1 := (leafAt_iff q m d1).1 hd1
  have h2 := look_setLeaf d d0 p m ((leafAt_iff p m d0).1 hl) q
  by_cases hqp : q = p
  · rw [if_pos hqp] at h2
    rw [(leafAt_iff _ _ _).2 h2]
    rfl
  · rw [if_neg hqp, h1] at h2
    rw [(leafAt_iff _ _ _).2 h2]
    rfl

/-- A leaf name: a path to a leaf, and the object there. -/
def LeafObj (h : MHeap) (a : Nat) (m : Mask) (p : List String) (x : Nat) : Prop :=
  navigate h a p = some x ∧ (m.leafAt p).isSome

theorem pruneLoopH_ok (tol : ℝ) (pmu : List P4) (radius : ℝ) (hard : List Bool) (refs : Dict (List String))
    (leaves : Dict Nat) (keys : List String) {op : Agg} (ks : Dict Mask) (h : MHeap) (a : Nat) (F : List Nat)
    (ho : Owned (depth (.grp op ks)) h (.grp op ks) a F) (hu : UniqueKeys (.grp op ks))
    (hr : DictRel (LeafObj h a (.grp op ks)) refs leaves) :
    WritesIn F h (pruneLoopH tol pmu radius hard leaves h keys).1 ∧
    match pruneLoop tol pmu radius hard refs keys (.grp op ks) with
    | .error e => (pruneLoopH tol pmu radius hard leaves h keys).2 = .error e
    | .ok out => (pruneLoopH tol pmu radius hard leaves h keys).2 = .ok () ∧ ∃ ks' G, out = .grp op ks' ∧
        depth out = depth (.grp op ks) ∧
        Owned (depth out) (pruneLoopH tol pmu radius hard leaves h keys).1 out a G ∧
        ∀ i ∈ G, i ∈ F ∨ h.length ≤ i := by
  induction keys generalizing ks h F with
  | nil => exact ⟨writesIn_refl _ _, rfl, ks, F, rfl, rfl, ho, fun i hi => .inl hi⟩
  | cons k keys ih =>
    rw [pruneLoop, pruneLoopH]
    rcases hr.get k with ⟨e1, e2⟩ | ⟨p, x, e1, e2, e3, e4⟩
    · rw [e1, e2]
      exact ⟨writesIn_refl _ _, rfl⟩
    · obtain ⟨leaf, hl⟩ := Option.isSome_iff_exists.1 e4
      obtain ⟨x', b, g1, g2, g3⟩ := owned_leafAt ho p leaf hl
      rw [e3] at g1
      cases g1
      simp only [e1, e2, hl, g2, g3]
      cases hc : leafCentre tol pmu hard leaf with
      | error e => exact ⟨writesIn_refl _ _, rfl⟩
      | ok centre =>
        simp only
        cases hp : centroidPrune tol pmu radius (some leaf) (some centre) with
        | error e => exact ⟨writesIn_refl _ _, rfl⟩
        | ok d =>
          simp only
          have hrun := run_owned ho 0 (.write p d) (by simp) (by simp)
          have hh : (HOp.write p d).run h a 0 = h.set b (.buf d) := by
            simp only [HOp.run, e3, g2]
          rw [hh] at hrun
          obtain ⟨w, N, F', o, s⟩ := hrun
          have hed : edit (.write p d) (.grp op ks) = (Mask.grp op ks).setLeaf d p := (setLeaf_eq d p _ hu).symm
          rw [hed] at o
          obtain ⟨ks', hks'⟩ := setLeaf_grp d p op ks
          have hdep := depth_setLeaf d p (.grp op ks)
          have hu' := unique_setLeaf (d := d) hl hu
          have hr' : DictRel (LeafObj (h.set b (.buf d)) a ((Mask.grp op ks).setLeaf d p)) refs leaves :=
            hr.imp (fun q y hy => ⟨by rw [navigate_setBuf h b d leaf g3]; exact hy.1, leafAt_setLeaf hl q hy.2⟩)
          have o' := owned_depth _ o
          rw [hks'] at o' hu' hr' hdep ⊢
          obtain ⟨w2, q⟩ := ih ks' (h.set b (.buf d)) F' o' hu' hr'
          refine ⟨⟨w.1.trans w2.1, fun i hi hn => ?_⟩, ?_⟩
          · rw [w2.2 i (lt_of_lt_of_le hi w.1) (fun hf => ?_), w.2 i hi hn]
            rcases s i hf with c | c
            · exact hn c
            · omega
          · revert q
            generalize pruneLoop tol pmu radius hard refs keys (.grp op ks') = res
            cases res with
            | error e => exact id
            | ok out =>
              rintro ⟨q1, ks2, G, q2, q3, q4, q5⟩
              refine ⟨q1, ks2, G, q2, q3.trans hdep, q4, fun i hi => ?_⟩
              rcases q5 i hi with c | c
              · exact s i c
              · exact .inr (w.1.trans c)

end Gcl
