import Verif.Spec.ShareMem
import Verif.Lemmas.HierMem
import Verif.Lemmas.ClustersMem
import Verif.Props.MaskC
/-! # Lemmas about objects shared by groups -/
namespace Gcl
set_option autoImplicit false
open Spec

/-! ## New groups -/

mutual
theorem placeMember_prefix : ∀ (m : Member) (h : MHeap), h <+: (placeMember m h).1
  | .obj _, h => List.prefix_refl h
  | .array _, h => List.prefix_append h _
  | .values _, h => List.prefix_append h _
  | .mapping ms, h => by
    rw [placeMember]
    exact (placeMembers_prefix ms h).trans (List.prefix_append _ _)
theorem placeMembers_prefix : ∀ (ms : List (String × Member)) (h : MHeap), h <+: (placeMembers ms h).1
  | [], h => List.prefix_refl h
  | (k, m) :: rest, h => by
    rw [placeMembers]
    exact (placeMember_prefix m h).trans (placeMembers_prefix rest _)
end

theorem dictRel_index {α β : Type} {R : α → β → Prop} {d : Dict α} {e : Dict β} (h : DictRel R d e) :
    d.map Prod.fst = e.map Prod.fst ∧
    ∀ (i : Nat) (p : String × α) (q : String × β), d[i]? = some p → e[i]? = some q → R p.2 q.2 := by
  constructor
  · induction h with
    | nil => rfl
    | cons h1 _ ih => rw [List.map_cons, List.map_cons, h1.1, ih]
  · intro i p q hp hq
    obtain ⟨hl, h2⟩ := List.forall₂_iff_get.1 h
    obtain ⟨hp1, hp2⟩ := List.getElem?_eq_some_iff.1 hp
    obtain ⟨hq1, hq2⟩ := List.getElem?_eq_some_iff.1 hq
    have := (h2 i hp1 hq1).2
    rw [List.get_eq_getElem, List.get_eq_getElem, hp2, hq2] at this
    exact this

mutual
theorem placeMember_made : ∀ (m : Member) (h0 h h' : MHeap), h0.length ≤ h.length → (placeMember m h).1 <+: h' →
    MadeFor h0 h' m (placeMember m h).2
  | .obj a, h0, h, h', _, _ => .obj a
  | .array b, h0, h, h', hl, hp => by
    rw [placeMember] at hp ⊢
    exact .array hl (getElem?_prefix hp (by simp))
  | .values d, h0, h, h', hl, hp => by
    rw [placeMember] at hp ⊢
    exact .values (d := d) (b := h.length) (by simp only []; omega) (getElem?_prefix hp (by simp)) hl
      (getElem?_prefix hp (by simp))
  | .mapping ms, h0, h, h', hl, hp => by
    rw [placeMember] at hp ⊢
    simp only [] at hp ⊢
    have hpre := placeMembers_prefix ms h
    obtain ⟨e1, e2⟩ := dictRel_index (placeMembers_made ms h0 h h' hl ((List.prefix_append _ _).trans hp))
    exact .mapping (es := (placeMembers ms h).2) (hl.trans hpre.length_le) (getElem?_prefix hp (by simp)) e1 e2
theorem placeMembers_made : ∀ (ms : List (String × Member)) (h0 h h' : MHeap), h0.length ≤ h.length →
    (placeMembers ms h).1 <+: h' → DictRel (MadeFor h0 h') ms (placeMembers ms h).2
  | [], h0, h, h', _, _ => .nil
  | (k, m) :: rest, h0, h, h', hl, hp => by
    rw [placeMembers] at hp ⊢
    simp only [] at hp ⊢
    have hpre := placeMember_prefix m h
    exact .cons ⟨rfl, placeMember_made m h0 h h' hl ((placeMembers_prefix rest _).trans hp)⟩
      (placeMembers_made rest h0 _ h' (hl.trans hpre.length_le) hp)
end

/-- The objects from `lo` up to the end of `h` refer only to each other and to those below `n`. -/
def Within (n lo : Nat) (h : MHeap) : Prop :=
  ∀ (x : Nat) (o : HObj), lo ≤ x → h[x]? = some o → ∀ y ∈ refs o, y < n ∨ (lo ≤ y ∧ y < h.length)

theorem within_snoc {n lo : Nat} {h : MHeap} {o : HObj} (hw : Within n lo h)
    (ho : ∀ y ∈ refs o, y < n ∨ (lo ≤ y ∧ y < h.length)) : Within n lo (h ++ [o]) := by
  intro x p hx hp y hy
  have hb : y < n ∨ (lo ≤ y ∧ y < h.length) := by
    by_cases hxl : x < h.length
    · rw [List.getElem?_append_left hxl] at hp
      exact hw x p hx hp y hy
    · rw [List.getElem?_append_right (by omega)] at hp
      have hlt := (List.getElem?_eq_some_iff.1 hp).1
      simp only [List.length_singleton] at hlt
      have h0 : x - h.length = 0 := by omega
      rw [h0] at hp
      simp only [List.getElem?_cons_zero, Option.some.injEq] at hp
      subst hp
      exact ho y hy
  rw [List.length_append, List.length_singleton]
  omega

theorem within_nil (n : Nat) (h : MHeap) : Within n h.length h := by
  intro x o hx ho
  have := (List.getElem?_eq_some_iff.1 ho).1
  omega

theorem within_trans {n lo mid : Nat} {h h' : MHeap} (hp : h <+: h') (hm : h.length = mid) (h1 : Within n lo h)
    (h2 : Within n mid h') (hlo : lo ≤ mid) : Within n lo h' := by
  have hlen := hp.length_le
  intro x o hx ho y hy
  by_cases hxl : x < h.length
  · obtain ⟨t, rfl⟩ := hp
    rw [List.getElem?_append_left hxl] at ho
    have := h1 x o hx ho y hy
    omega
  · have := h2 x o (by omega) ho y hy
    omega

mutual
theorem placeMember_within : ∀ (m : Member) (h0 h : MHeap), ValidMember h0 m → h0.length ≤ h.length →
    Within h0.length h.length (placeMember m h).1 ∧
    ((placeMember m h).2 < h0.length ∨ (h.length ≤ (placeMember m h).2 ∧ (placeMember m h).2 < (placeMember m h).1.length))
  | .obj a, h0, h, hv, _ => by
    cases hv with
    | obj ha => exact ⟨within_nil _ h, Or.inl ha⟩
  | .array b, h0, h, hv, hl => by
    cases hv with
    | array hb =>
      rw [placeMember]
      refine ⟨within_snoc (within_nil _ h) ?_, by simp⟩
      intro y hy
      simp only [refs, List.mem_singleton] at hy
      subst hy
      exact Or.inl hb
  | .values d, h0, h, hv, hl => by
    rw [placeMember]
    have : h ++ [HObj.buf d, HObj.mask h.length] = (h ++ [HObj.buf d]) ++ [HObj.mask h.length] := by simp
    rw [this]
    refine ⟨within_snoc (within_snoc (within_nil _ h) (by simp [refs])) ?_, by simp⟩
    intro y hy
    simp only [refs, List.mem_singleton] at hy
    subst hy
    exact Or.inr (by simp)
  | .mapping ms, h0, h, hv, hl => by
    cases hv with
    | mapping hms =>
      obtain ⟨w1, w2⟩ := placeMembers_within ms h0 h hms hl
      have hpre := (placeMembers_prefix ms h).length_le
      rw [placeMember]
      refine ⟨within_snoc w1 ?_, ?_⟩
      · intro y hy
        simp only [refs, List.mem_map] at hy
        obtain ⟨e, he, rfl⟩ := hy
        exact w2 e he
      · simp only [List.length_append, List.length_singleton]
        omega
theorem placeMembers_within : ∀ (ms : List (String × Member)) (h0 h : MHeap),
    (∀ k m, (k, m) ∈ ms → ValidMember h0 m) → h0.length ≤ h.length →
    Within h0.length h.length (placeMembers ms h).1 ∧
    ∀ e ∈ (placeMembers ms h).2, e.2 < h0.length ∨ (h.length ≤ e.2 ∧ e.2 < (placeMembers ms h).1.length)
  | [], h0, h, _, _ => ⟨within_nil _ h, by simp [placeMembers]⟩
  | (k, m) :: rest, h0, h, hv, hl => by
    obtain ⟨a1, a2⟩ := placeMember_within m h0 h (hv k m (by simp)) hl
    have hpre := (placeMember_prefix m h).length_le
    have hpre2 := placeMembers_prefix rest (placeMember m h).1
    have hlen2 := hpre2.length_le
    obtain ⟨b1, b2⟩ := placeMembers_within rest h0 (placeMember m h).1 (fun k m hm => hv k m (by simp [hm]))
      (hl.trans hpre)
    rw [placeMembers]
    refine ⟨within_trans hpre2 rfl a1 b1 hpre, ?_⟩
    intro e he
    rcases List.mem_cons.1 he with rfl | he
    · simp only []; omega
    · have := b2 e he
      simp only []; omega
end

theorem reaches_within {n lo hi : Nat} {h' : MHeap} (hold : ∀ (x : Nat) (o : HObj), x < n → h'[x]? = some o → ∀ y ∈ refs o, y < n)
    (hnew : ∀ (x : Nat) (o : HObj), lo ≤ x → x < hi → h'[x]? = some o → ∀ y ∈ refs o, y < n ∨ (lo ≤ y ∧ y < hi))
    {v x : Nat} (hv : v < n ∨ (lo ≤ v ∧ v < hi)) (hr : Reaches h' v x) : x < n ∨ (lo ≤ x ∧ x < hi) := by
  induction hr with
  | here => exact hv
  | @step y z o _ h2 h3 ih =>
    rcases ih with hy | hy
    · exact Or.inl (hold y o hy h2 z h3)
    · exact hnew y o hy.1 hy.2 h2 z h3

theorem placeMembers_reach (h0 h' : MHeap) (h0' : h0 <+: h') (hc : Closed h0) (ms : List (String × Member)) (h : MHeap)
    (hv : ∀ k m, (k, m) ∈ ms → ValidMember h0 m) (hl : h0.length ≤ h.length) (hp : (placeMembers ms h).1 <+: h') :
    (∀ e ∈ (placeMembers ms h).2, ∀ x, Reaches h' e.2 x → x < h0.length ∨ h.length ≤ x) ∧
    NewApart h0 h' (placeMembers ms h).2 := by
  have hold : ∀ (x : Nat) (o : HObj), x < h0.length → h'[x]? = some o → ∀ y ∈ refs o, y < h0.length := by
    intro x o hx ho
    obtain ⟨t, rfl⟩ := h0'
    rw [List.getElem?_append_left hx] at ho
    exact hc x o ho
  induction ms generalizing h with
  | nil => exact ⟨by simp [placeMembers], fun i j e f _ he => by simp [placeMembers] at he⟩
  | cons p rest ih =>
    obtain ⟨k, m⟩ := p
    rw [placeMembers] at hp ⊢
    simp only [] at hp ⊢
    obtain ⟨w1, w2⟩ := placeMember_within m h0 h (hv k m (by simp)) hl
    have hpre := placeMember_prefix m h
    have hlen := hpre.length_le
    have hpr := (placeMembers_prefix rest (placeMember m h).1).trans hp
    have hnew : ∀ (x : Nat) (o : HObj), h.length ≤ x → x < (placeMember m h).1.length → h'[x]? = some o →
        ∀ y ∈ refs o, y < h0.length ∨ (h.length ≤ y ∧ y < (placeMember m h).1.length) := by
      intro x o hx hxl ho
      obtain ⟨t, rfl⟩ := hpr
      rw [List.getElem?_append_left hxl] at ho
      exact w1 x o hx ho
    have first : ∀ x, Reaches h' (placeMember m h).2 x →
        x < h0.length ∨ (h.length ≤ x ∧ x < (placeMember m h).1.length) :=
      fun x hx => reaches_within hold hnew w2 hx
    obtain ⟨i1, i2⟩ := ih (placeMember m h).1 (fun k m hm => hv k m (by simp [hm])) (hl.trans hlen) hp
    constructor
    · intro e he x hx
      rcases List.mem_cons.1 he with rfl | he
      · have := first x hx; omega
      · have := i1 e he x hx; omega
    · intro i j e f hij he hf x hx hy
      cases i with
      | zero =>
        cases j with
        | zero => exact absurd rfl hij
        | succ j =>
          simp only [List.getElem?_cons_zero, Option.some.injEq] at he
          subst he
          rw [List.getElem?_cons_succ] at hf
          have a := first x hx
          have b := i1 f (List.mem_of_getElem? hf) x hy
          omega
      | succ i =>
        rw [List.getElem?_cons_succ] at he
        cases j with
        | zero =>
          simp only [List.getElem?_cons_zero, Option.some.injEq] at hf
          subst hf
          have a := first x hy
          have b := i1 e (List.mem_of_getElem? he) x hx
          omega
        | succ j =>
          rw [List.getElem?_cons_succ] at hf
          exact i2 i j e f (by omega) he hf x hx hy

/-! ## Reading everything -/

/-- With enough depth a shown mask is read. -/
theorem readMask_of_shows {h : MHeap} {a : Nat} {m : Mask} (hs : ShowsMask h a m) :
    ∃ N, ∀ fuel, N ≤ fuel → readMask fuel h a = .ok m := by
  induction hs with
  | arr h1 h2 =>
    refine ⟨1, fun fuel hf => ?_⟩
    obtain ⟨f, rfl⟩ : ∃ f, fuel = f + 1 := ⟨fuel - 1, by omega⟩
    simp only [readMask, h1, h2]
  | @grp a op es ks h1 h2 h3 ih =>
    have hlen : es.length = ks.length := by
      have := congrArg List.length h2
      simpa using this.symm
    obtain ⟨N, hN⟩ := exists_uniform (es.zip ks) (fun fuel p => readMask fuel h p.1.2 = .ok p.2.2) (by
      intro p hp
      obtain ⟨i, hi⟩ := List.mem_iff_getElem?.1 hp
      obtain ⟨hi1, hi2⟩ := List.getElem?_zip_eq_some.1 hi
      exact ih i p.1 p.2 hi1 hi2)
    refine ⟨N + 1, fun fuel hf => ?_⟩
    obtain ⟨f, rfl⟩ : ∃ f, fuel = f + 1 := ⟨fuel - 1, by omega⟩
    simp only [readMask, h1]
    rw [readKids_forall2 (readMask f h) es ks]
    rw [List.forall₂_iff_get]
    refine ⟨hlen, fun i hi1 hi2 => ⟨?_, ?_⟩⟩
    · have : (ks.map Prod.fst)[i]? = (es.map Prod.fst)[i]? := by rw [h2]
      rw [List.getElem?_map, List.getElem?_map, List.getElem?_eq_getElem hi2, List.getElem?_eq_getElem hi1] at this
      simpa using this.symm
    · refine hN f (by omega) (es[i], ks[i]) ?_
      rw [List.mem_iff_getElem?]
      exact ⟨i, List.getElem?_zip_eq_some.2 ⟨by simp [hi1], by simp [hi2]⟩⟩

/-! ## What the collected values hold -/

/-- The value shows this mask once it is in the group. -/
def HoldsItem (h : MHeap) (m : Mask) : Member → Prop
  | .obj a => ShowsMask h a m
  | .array b => ∃ d, h[b]? = some (.buf d) ∧ m = .arr d
  | .values d => m = .arr d
  | .mapping _ => False

theorem made_shows {h h' : MHeap} (hp : h <+: h') {it : Member} {v : Nat} {m : Mask} (hm : MadeFor h h' it v)
    (hi : HoldsItem h m it) : ShowsMask h' v m := by
  cases hm with
  | obj a => exact showsMask_prefix hp hi
  | array h1 h2 =>
    obtain ⟨d, h3, rfl⟩ := hi
    exact .arr h2 (getElem?_prefix hp h3)
  | values h1 h2 h3 h4 =>
    cases hi
    exact .arr h2 h4
  | mapping => exact hi.elim

/-- The value collected for an object by `flatten("rise")`. -/
def RiseItem (h : MHeap) (x : Nat) (it : Member) : Prop :=
  ((∃ b, h[x]? = some (.mask b)) ∧ it = .obj x) ∨ ((∃ op es, h[x]? = some (.group op es)) ∧ ∃ d, it = .values d)

theorem visit_ok (fuel : Nat) (h : MHeap) (key : String) (a : Nat) (m : Mask) (hr : readMask fuel h a = .ok m) :
    match m.visitItem key with
    | .error e => visitItemH fuel h key a = .error e
    | .ok ps => ∃ items l, visitItemH fuel h key a = .ok items ∧
        (∀ rest out, key ≠ "latent" → ObjOrder h rest out → ObjOrder h ((key, a) :: rest) (l ++ out)) ∧
        DictRel (RiseItem h) l items ∧ DictRel (HoldsItem h) (ps.map (fun p => (p.1, Mask.arr p.2))) items := by
  induction fuel generalizing key a m with
  | zero => cases hr
  | succ fuel ih =>
    have kids : ∀ (es : List (String × Nat)) (ks : List (String × Mask)),
        List.Forall₂ (fun e k => e.1 = k.1 ∧ readMask fuel h e.2 = .ok k.2) es ks →
        match Mask.visitKids ks with
        | .error e => visitKidsH (visitItemH fuel h) es = .error e
        | .ok ps => ∃ items l, visitKidsH (visitItemH fuel h) es = .ok items ∧ ObjOrder h es l ∧
            DictRel (RiseItem h) l items ∧ DictRel (HoldsItem h) (ps.map (fun p => (p.1, Mask.arr p.2))) items := by
      intro es ks hf
      induction hf with
      | nil => exact ⟨[], [], rfl, .nil, .nil, .nil⟩
      | @cons e k es ks h1 _ ih2 =>
        obtain ⟨k1, v⟩ := e
        obtain ⟨k2, m2⟩ := k
        obtain ⟨h1, h2⟩ := h1
        simp only at h1 h2
        subst h1
        simp only [Mask.visitKids, visitKidsH]
        by_cases hl : k1 = "latent"
        · simp only [if_pos hl]
          cases hk : Mask.visitKids ks with
          | error e => simp only [hk] at ih2 ⊢; exact ih2
          | ok ps =>
            simp only [hk] at ih2 ⊢
            obtain ⟨items, l, a1, a2, a3⟩ := ih2
            subst hl
            exact ⟨items, l, a1, .latent a2, a3⟩
        · simp only [if_neg hl]
          have hx := ih k1 v m2 h2
          cases hi : Mask.visitItem k1 m2 with
          | error e => simp only [hi] at hx ⊢; simp only [hx]
          | ok ps =>
            simp only [hi] at hx ⊢
            obtain ⟨items, l, a1, a2, a3, a4⟩ := hx
            simp only [a1]
            cases hk : Mask.visitKids ks with
            | error e => simp only [hk] at ih2 ⊢; simp only [ih2]
            | ok qs =>
              simp only [hk] at ih2 ⊢
              obtain ⟨items', l', b1, b2, b3, b4⟩ := ih2
              simp only [b1]
              refine ⟨items ++ items', l ++ l', rfl, a2 es l' hl b2, a3.append b3, ?_⟩
              rw [List.map_append]
              exact a4.append b4
    have hr' := hr
    simp only [readMask] at hr
    split at hr
    · next b hb =>
      split at hr
      · next d hd =>
        cases hr
        simp only [Mask.visitItem, visitItemH, hb]
        refine ⟨_, [(key, a)], rfl, fun rest out hk ho => .leaf hk hb ho, .cons ⟨rfl, Or.inl ⟨⟨b, hb⟩, rfl⟩⟩ .nil,
          .cons ⟨rfl, ?_⟩ .nil⟩
        exact .arr hb hd
      · cases hr
    · next op es hes =>
      split at hr
      · cases hr
      · next ks hks =>
        cases hr
        have hk := kids es ks (readKids_inv _ _ _ hks)
        simp only [Mask.visitItem, visitItemH, hes, dataH, hr']
        cases hd : (Mask.grp op ks).data with
        | error e => simp only
        | ok d =>
          simp only
          cases hv : Mask.visitKids ks with
          | error e => simp only [hv] at hk ⊢; simp only [hk]
          | ok ps =>
            simp only [hv] at hk ⊢
            obtain ⟨items, l, b1, b2, b3, b4⟩ := hk
            simp only [b1]
            refine ⟨_, (key, a) :: l, rfl, fun rest out hkey ho => .group hkey hes b2 ho,
              .cons ⟨rfl, Or.inr ⟨⟨op, es, hes⟩, d, rfl⟩⟩ b3, .cons ⟨rfl, rfl⟩ b4⟩
    · cases hr

theorem visitKids_ok (fuel : Nat) (h : MHeap) (es : List (String × Nat)) (ks : List (String × Mask))
    (hf : List.Forall₂ (fun e k => e.1 = k.1 ∧ readMask fuel h e.2 = .ok k.2) es ks) :
    match Mask.visitKids ks with
    | .error e => visitKidsH (visitItemH fuel h) es = .error e
    | .ok ps => ∃ items l, visitKidsH (visitItemH fuel h) es = .ok items ∧ ObjOrder h es l ∧
        DictRel (RiseItem h) l items ∧ DictRel (HoldsItem h) (ps.map (fun p => (p.1, Mask.arr p.2))) items := by
  induction hf with
  | nil => exact ⟨[], [], rfl, .nil, .nil, .nil⟩
  | @cons e k es ks h1 _ ih2 =>
    obtain ⟨k1, v⟩ := e
    obtain ⟨k2, m2⟩ := k
    obtain ⟨h1, h2⟩ := h1
    simp only at h1 h2
    subst h1
    simp only [Mask.visitKids, visitKidsH]
    by_cases hl : k1 = "latent"
    · simp only [if_pos hl]
      cases hk : Mask.visitKids ks with
      | error e => simp only [hk] at ih2 ⊢; exact ih2
      | ok ps =>
        simp only [hk] at ih2 ⊢
        obtain ⟨items, l, a1, a2, a3⟩ := ih2
        subst hl
        exact ⟨items, l, a1, .latent a2, a3⟩
    · simp only [if_neg hl]
      have hx := visit_ok fuel h k1 v m2 h2
      cases hi : Mask.visitItem k1 m2 with
      | error e => simp only [hi] at hx ⊢; simp only [hx]
      | ok ps =>
        simp only [hi] at hx ⊢
        obtain ⟨items, l, a1, a2, a3, a4⟩ := hx
        simp only [a1]
        cases hk : Mask.visitKids ks with
        | error e => simp only [hk] at ih2 ⊢; simp only [ih2]
        | ok qs =>
          simp only [hk] at ih2 ⊢
          obtain ⟨items', l', b1, b2, b3, b4⟩ := ih2
          simp only [b1]
          refine ⟨items ++ items', l ++ l', rfl, a2 es l' hl b2, a3.append b3, ?_⟩
          rw [List.map_append]
          exact a4.append b4

/-- The value collected for an object by `flatten("agg")`. -/
def AggItem (h : MHeap) (x : Nat) (it : Member) : Prop :=
  (∃ b, h[x]? = some (.mask b) ∧ it = .array b) ∨ ((∃ op es, h[x]? = some (.group op es)) ∧ ∃ d, it = .values d)

theorem aggMembers_ok (fuel : Nat) (h : MHeap) (es : List (String × Nat)) (ks : List (String × Mask))
    (hf : List.Forall₂ (fun e k => e.1 = k.1 ∧ readMask fuel h e.2 = .ok k.2) es ks) :
    match Mask.dataKids ks with
    | .error e => aggMembers fuel h es = .error e
    | .ok rows => ∃ items, aggMembers fuel h es = .ok items ∧ DictRel (AggItem h) es items ∧
        DictRel (HoldsItem h) (List.zipWith (fun k d => (k, Mask.arr d)) (Dict.keys ks) rows) items := by
  induction hf with
  | nil => exact ⟨[], rfl, .nil, .nil⟩
  | @cons e k es ks h1 _ ih =>
    obtain ⟨k1, v⟩ := e
    obtain ⟨k2, m⟩ := k
    obtain ⟨h1, h2⟩ := h1
    simp only at h1 h2
    subst h1
    have hd : match m.data with
        | .error e => dataH fuel h v = .error e
        | .ok d => ∃ it, dataH fuel h v = .ok it ∧ AggItem h v it ∧ HoldsItem h (.arr d) it := by
      cases fuel with
      | zero => cases h2
      | succ fuel =>
        have h2' := h2
        simp only [readMask] at h2
        split at h2
        · next b hb =>
          split at h2
          · next d hdd =>
            cases h2
            simp only [Mask.data, dataH, hb, hdd]
            exact ⟨_, rfl, Or.inl ⟨b, hb, rfl⟩, d, hdd, rfl⟩
          · cases h2
        · next op es' hes =>
          simp only [dataH, hes, h2']
          cases hdd : m.data with
          | error e => simp only
          | ok d => exact ⟨_, rfl, Or.inr ⟨⟨op, es', hes⟩, d, rfl⟩, rfl⟩
        · cases h2
    simp only [Mask.dataKids, aggMembers]
    cases hm : m.data with
    | error e => simp only [hm] at hd ⊢; simp only [hd]
    | ok d =>
      simp only [hm] at hd ⊢
      obtain ⟨it, a1, a2, a3⟩ := hd
      simp only [a1]
      cases hk : Mask.dataKids ks with
      | error e => simp only [hk] at ih ⊢; simp only [ih]
      | ok rows =>
        simp only [hk] at ih ⊢
        obtain ⟨items, b1, b2, b3⟩ := ih
        simp only [b1]
        exact ⟨_, rfl, .cons ⟨rfl, a2⟩ b2, .cons ⟨rfl, a3⟩ b3⟩

/-! ## Leaves -/

theorem leafRefs_share (fuel : Nat) (h : MHeap) (key : String) (a : Nat) (m : Mask) (hr : readMask fuel h a = .ok m) :
    ∃ l, leafRefsH fuel h key a = .ok l ∧
      (∀ rest out, key ≠ "latent" → LeafObjs h rest out → LeafObjs h ((key, a) :: rest) (l ++ out)) ∧
      (∀ rest out, TopLeafObjs h rest out → TopLeafObjs h ((key, a) :: rest) (l ++ out)) ∧
      DictRel (fun m x => ShowsMask h x m) ((m.leafIter key).map (fun p => (p.1, Mask.arr p.2))) l := by
  induction fuel generalizing key a m with
  | zero => cases hr
  | succ fuel ih =>
    simp only [readMask] at hr
    split at hr
    · next b hb =>
      split at hr
      · next d hd =>
        cases hr
        simp only [Mask.leafIter, leafRefsH, hb]
        exact ⟨_, rfl, fun rest out hk ho => .leaf hk hb ho, fun rest out ho => .leaf hb ho, .cons ⟨rfl, .arr hb hd⟩ .nil⟩
      · cases hr
    · next op es hes =>
      split at hr
      · cases hr
      · next ks hks =>
        cases hr
        have kids : ∀ (es : List (String × Nat)) (ks : List (String × Mask)),
            List.Forall₂ (fun e k => e.1 = k.1 ∧ readMask fuel h e.2 = .ok k.2) es ks →
            ∃ l, leafRefsKidsH (leafRefsH fuel h) es = .ok l ∧ LeafObjs h es l ∧
              DictRel (fun m x => ShowsMask h x m) ((Mask.leafIterKids ks).map (fun p => (p.1, Mask.arr p.2))) l := by
          intro es ks hf
          induction hf with
          | nil => exact ⟨[], rfl, .nil, .nil⟩
          | @cons e k es ks h1 _ ih2 =>
            obtain ⟨k1, v⟩ := e
            obtain ⟨k2, m2⟩ := k
            obtain ⟨h1, h2⟩ := h1
            simp only at h1 h2
            subst h1
            obtain ⟨l', b1, b2, b3⟩ := ih2
            simp only [Mask.leafIterKids, leafRefsKidsH]
            by_cases hl : k1 = "latent"
            · simp only [if_pos hl]
              subst hl
              exact ⟨l', b1, .latent b2, b3⟩
            · simp only [if_neg hl]
              obtain ⟨l, a1, a2, -, a3⟩ := ih k1 v m2 h2
              simp only [a1, b1]
              refine ⟨l ++ l', rfl, a2 es l' hl b2, ?_⟩
              rw [List.map_append]
              exact a3.append b3
        obtain ⟨l, b1, b2, b3⟩ := kids es ks (readKids_inv _ _ _ hks)
        simp only [Mask.leafIter, leafRefsH, hes]
        exact ⟨l, b1, fun rest out hk ho => .group hk hes b2 ho, fun rest out ho => .group hes b2 ho, b3⟩
    · cases hr

theorem leafDict_share (fuel : Nat) (h : MHeap) (es : List (String × Nat)) (ks : List (String × Mask))
    (hf : List.Forall₂ (fun e k => e.1 = k.1 ∧ readMask fuel h e.2 = .ok k.2) es ks)
    (acc : Dict Nat) (accM : Dict Mask) (hn : (Dict.keys acc).Nodup)
    (ha : DictRel (fun m x => ShowsMask h x m) accM acc) :
    ∃ l, leafDictH fuel h acc es = .ok (Dict.update acc l) ∧ TopLeafObjs h es l ∧
      DictRel (fun m x => ShowsMask h x m)
        (ks.foldl (fun acc p => Dict.update acc
          (Dict.ofPairs ((Mask.leafIter p.1 p.2).map (fun q => (q.1, Mask.arr q.2))))) accM) (Dict.update acc l) := by
  induction hf generalizing acc accM with
  | nil => exact ⟨[], rfl, .nil, ha⟩
  | @cons e k es ks h1 _ ih =>
    obtain ⟨k1, v⟩ := e
    obtain ⟨k2, m⟩ := k
    obtain ⟨h1, h2⟩ := h1
    simp only at h1 h2
    subst h1
    obtain ⟨l, a1, -, a2, a3⟩ := leafRefs_share fuel h k1 v m h2
    have hup : Dict.update acc (Dict.ofPairs l) = Dict.update acc l := update_ofPairs acc hn l
    obtain ⟨l', b1, b2, b3⟩ := ih (Dict.update acc (Dict.ofPairs l))
      (Dict.update accM (Dict.ofPairs ((Mask.leafIter k1 m).map (fun q => (q.1, Mask.arr q.2)))))
      (Dict.nodup_keys_update hn _) (ha.update a3.ofPairs)
    have happ : Dict.update acc (l ++ l') = Dict.update (Dict.update acc l) l' := by simp [Dict.update]
    simp only [leafDictH, a1]
    rw [hup] at b1 b3
    rw [hup]
    exact ⟨l ++ l', by rw [happ]; exact b1, a2 es l' b2, by rw [happ]; exact b3⟩

/-! ## Dictionaries -/

theorem mem_ofPairs_last {α : Type} (ps : List (String × α)) (k : String) (v : α) (h : (k, v) ∈ Dict.ofPairs ps) :
    LastNamed ps k v := by
  have hk : k ∈ ps.map Prod.fst := by
    have : k ∈ Dict.keys (Dict.ofPairs ps) := List.mem_map.2 ⟨_, h, rfl⟩
    rw [show Dict.ofPairs ps = Dict.update [] ps from rfl, keys_update_first] at this
    simp only [Dict.keys, List.map_nil, List.nil_append, List.mem_filter] at this
    exact (mem_firstNames _ _).1 this.1
  obtain ⟨w, hw⟩ := exists_lastNamed ps k hk
  have h1 := lastNamed_get [] ps k w hw
  have h2 := Dict.get?_of_mem (Dict.nodup_keys_ofPairs ps) h
  rw [show Dict.ofPairs ps = Dict.update [] ps from rfl, h1] at h2
  cases h2
  exact hw

theorem dictRel_mem_right {α β : Type} {R : α → β → Prop} {d : Dict α} {e : Dict β} (h : DictRel R d e) {k : String} {w : β}
    (hm : (k, w) ∈ e) : ∃ v, (k, v) ∈ d ∧ R v w := by
  induction h with
  | nil => cases hm
  | @cons p q d e h1 _ ih =>
    rcases List.mem_cons.1 hm with rfl | hm
    · obtain ⟨k', v⟩ := p
      obtain ⟨h1, h2⟩ := h1
      simp only at h1 h2
      subst h1
      exact ⟨v, by simp, h2⟩
    · obtain ⟨v, h1, h2⟩ := ih hm
      exact ⟨v, by simp [h1], h2⟩

theorem dictRel_comp {α β γ : Type} {R : α → β → Prop} {S : β → γ → Prop} {d : Dict α} {e : Dict β} {f : Dict γ}
    (h1 : DictRel R d e) (h2 : DictRel S e f) : DictRel (fun a c => ∃ b, R a b ∧ S b c) d f := by
  induction h1 generalizing f with
  | nil => cases h2; exact .nil
  | @cons p q d e h _ ih =>
    cases h2 with
    | @cons _ r _ f g t => exact .cons ⟨h.1.trans g.1, q.2, h.2, g.2⟩ (ih t)

theorem dictRel_shows {h : MHeap} {a : Nat} {op : Agg} {es : List (String × Nat)} {ks : List (String × Mask)}
    (ha : h[a]? = some (.group op es)) (hd : DictRel (fun m x => ShowsMask h x m) ks es) : ShowsMask h a (.grp op ks) := by
  obtain ⟨e1, e2⟩ := dictRel_index hd
  exact .grp ha e1 (fun i e k he hk => e2 i k e hk he)

end Gcl
