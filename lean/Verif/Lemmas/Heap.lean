import Verif.Spec.Heap
import Verif.Lemmas.Mask
import Mathlib.Data.List.Forall2
import Mathlib.Tactic.Push
/-! # Lemmas about masks as objects -/
namespace Gcl
set_option autoImplicit false
open Spec

theorem Spec.Reaches.trans {h : MHeap} {x y z : Nat} (h1 : Reaches h x y) (h2 : Reaches h y z) :
    Reaches h x z := by
  induction h2 with
  | here => exact h1
  | step _ h3 h4 ih => exact .step ih h3 h4

theorem Spec.Reaches.one {h : MHeap} {x y : Nat} {o : HObj} (h1 : h[x]? = some o) (h2 : y ∈ refs o) :
    Reaches h x y := .step .here h1 h2

theorem reaches_congr {h h' : MHeap} {a : Nat} (he : ∀ x, Reaches h a x → h'[x]? = h[x]?) (x : Nat) :
    Reaches h' a x ↔ Reaches h a x := by
  constructor
  · intro hr
    induction hr with
    | here => exact .here
    | @step y z o _ h2 h3 ih => exact .step ih (by rw [← he y ih]; exact h2) h3
  · intro hr
    induction hr with
    | here => exact .here
    | @step y z o h1 h2 h3 ih => exact .step ih (by rw [he y h1]; exact h2) h3

theorem showsMask_congr {h h' : MHeap} {a : Nat} {m : Mask} (hs : ShowsMask h a m)
    (he : ∀ x, Reaches h a x → h'[x]? = h[x]?) : ShowsMask h' a m := by
  induction hs with
  | arr h1 h2 =>
    exact .arr (by rw [he _ .here]; exact h1) (by rw [he _ (.one h1 (by simp [refs]))]; exact h2)
  | @grp a op es ks h1 h2 h3 ih =>
    refine .grp (by rw [he _ .here]; exact h1) h2 (fun i e k hi hk => ih i e k hi hk (fun x hx => he x ?_))
    refine Reaches.trans (.one h1 ?_) hx
    exact List.mem_map.2 ⟨e, List.mem_of_getElem? hi, rfl⟩

theorem showsMask_congr_iff {h h' : MHeap} {a : Nat} (m : Mask)
    (he : ∀ x, Reaches h a x → h'[x]? = h[x]?) : ShowsMask h' a m ↔ ShowsMask h a m := by
  refine ⟨fun hs => showsMask_congr hs (fun x hx => ?_), fun hs => showsMask_congr hs he⟩
  exact (he x ((reaches_congr he x).1 hx)).symm

theorem getElem?_prefix {h h' : MHeap} (hp : h <+: h') {x : Nat} {o : HObj} (hx : h[x]? = some o) :
    h'[x]? = some o := by
  obtain ⟨n, rfl⟩ := hp
  rw [List.getElem?_append_left (List.getElem?_eq_some_iff.1 hx).1]
  exact hx

theorem showsMask_prefix {h h' : MHeap} (hp : h <+: h') {a : Nat} {m : Mask} (hs : ShowsMask h a m) :
    ShowsMask h' a m := by
  induction hs with
  | arr h1 h2 => exact .arr (getElem?_prefix hp h1) (getElem?_prefix hp h2)
  | grp h1 h2 _ ih => exact .grp (getElem?_prefix hp h1) h2 ih

theorem closed_reaches {h : MHeap} (hc : Closed h) {a x : Nat} (ha : a < h.length) (hr : Reaches h a x) :
    x < h.length := by
  induction hr with
  | here => exact ha
  | step _ h2 h3 _ => exact hc _ _ h2 _ h3

/-! ## Copying -/

/-- `h'` extends `h` by objects that refer only to new ones. -/
structure Extends (h h' : MHeap) : Prop where
  pre : h <+: h'
  fresh : ∀ (x : Nat) (o : HObj), h.length ≤ x → h'[x]? = some o → ∀ y ∈ refs o, h.length ≤ y ∧ y < h'.length

theorem Extends.refl (h : MHeap) : Extends h h :=
  ⟨List.prefix_refl h, fun x o hx ho => by
    have := (List.getElem?_eq_some_iff.1 ho).1
    omega⟩

theorem Extends.trans {h h1 h2 : MHeap} (e1 : Extends h h1) (e2 : Extends h1 h2) : Extends h h2 := by
  refine ⟨e1.pre.trans e2.pre, fun x o hx ho y hy => ?_⟩
  have l1 := e1.pre.length_le
  have l2 := e2.pre.length_le
  by_cases hx1 : h1.length ≤ x
  · have := e2.fresh x o hx1 ho y hy
    omega
  · have hx1 : h1[x]? = some o := by
      have hlt : x < h1.length := by omega
      rw [List.getElem?_eq_getElem hlt]
      have := getElem?_prefix e2.pre (List.getElem?_eq_getElem hlt)
      rw [← this, ho]
    have := e1.fresh x o hx hx1 y hy
    omega

theorem Extends.snoc {h h1 : MHeap} (e : Extends h h1) (o : HObj)
    (ho : ∀ y ∈ refs o, h.length ≤ y ∧ y < h1.length) : Extends h (h1 ++ [o]) := by
  refine ⟨e.pre.trans (List.prefix_append _ _), fun x o' hx ho' y hy => ?_⟩
  rw [List.length_append]
  by_cases hl : x < h1.length
  · rw [List.getElem?_append_left hl] at ho'
    have := e.fresh x o' hx ho' y hy
    omega
  · rw [List.getElem?_append_right (by omega)] at ho'
    cases hn : x - h1.length with
    | zero =>
      rw [hn] at ho'
      simp only [List.getElem?_cons_zero, Option.some.injEq] at ho'
      subst ho'
      have := ho y hy
      simp only [List.length_singleton]
      omega
    | succ n => rw [hn] at ho'; simp at ho'

theorem extends_array (h : MHeap) (d : List Bool) : Extends h (h ++ [.buf d, .mask h.length]) := by
  have : h ++ [HObj.buf d, HObj.mask h.length] = (h ++ [.buf d]) ++ [.mask h.length] := by simp
  rw [this]
  refine ((Extends.refl h).snoc (.buf d) (by simp [refs])).snoc _ ?_
  intro y hy
  simp only [refs, List.mem_singleton] at hy
  subst hy
  simp

theorem Extends.closed {h h' : MHeap} (e : Extends h h') (hc : Closed h) : Closed h' := by
  intro x o ho y hy
  have l := e.pre.length_le
  by_cases hx : h.length ≤ x
  · exact (e.fresh x o hx ho y hy).2
  · have hlt : x < h.length := by omega
    have := getElem?_prefix e.pre (List.getElem?_eq_getElem hlt)
    rw [ho] at this
    have := hc x o (by rw [List.getElem?_eq_getElem hlt, ← Option.some.inj this]) y hy
    omega

theorem copyKids_extends {cp : MHeap → Nat → Py (MHeap × Nat)}
    (hcp : ∀ h a h' b, cp h a = .ok (h', b) → Extends h h' ∧ h.length ≤ b ∧ b < h'.length)
    (h : MHeap) (es : List (String × Nat)) (h' : MHeap) (es' : List (String × Nat))
    (hr : copyKids cp h es = .ok (h', es')) :
    Extends h h' ∧ ∀ e ∈ es', h.length ≤ e.2 ∧ e.2 < h'.length := by
  induction es generalizing h es' with
  | nil =>
    simp only [copyKids, Except.ok.injEq, Prod.mk.injEq] at hr
    obtain ⟨rfl, rfl⟩ := hr
    exact ⟨Extends.refl h, by simp⟩
  | cons p es ih =>
    obtain ⟨k, v⟩ := p
    rw [copyKids] at hr
    cases h1 : cp h v with
    | error e => rw [h1] at hr; cases hr
    | ok r =>
      obtain ⟨g1, v'⟩ := r
      rw [h1] at hr
      simp only at hr
      cases h2 : copyKids cp g1 es with
      | error e => rw [h2] at hr; cases hr
      | ok r =>
        obtain ⟨g2, rest⟩ := r
        rw [h2] at hr
        simp only [Except.ok.injEq, Prod.mk.injEq] at hr
        obtain ⟨rfl, rfl⟩ := hr
        obtain ⟨e1, e2, e3⟩ := hcp h v g1 v' h1
        obtain ⟨f1, f2⟩ := ih g1 rest h2
        have l1 := e1.pre.length_le
        have l2 := f1.pre.length_le
        refine ⟨e1.trans f1, fun e he => ?_⟩
        rcases List.mem_cons.1 he with rfl | he
        · dsimp only; omega
        · have := f2 e he; omega

theorem copyObj_extends (fuel : Nat) (h : MHeap) (a : Nat) (h' : MHeap) (b : Nat)
    (hr : copyObj fuel h a = .ok (h', b)) :
    Extends h h' ∧ h.length ≤ b ∧ b < h'.length := by
  induction fuel generalizing h a h' b with
  | zero => cases hr
  | succ fuel ih =>
    rw [copyObj] at hr
    split at hr
    · split at hr
      · simp only [Except.ok.injEq, Prod.mk.injEq] at hr
        obtain ⟨rfl, rfl⟩ := hr
        exact ⟨extends_array h _, by omega, by simp⟩
      · cases hr
    · split at hr
      · cases hr
      · rename_i op es _ _ h1 es' hk
        simp only [Except.ok.injEq, Prod.mk.injEq] at hr
        obtain ⟨rfl, rfl⟩ := hr
        obtain ⟨e1, e2⟩ := copyKids_extends ih h es h1 es' hk
        refine ⟨e1.snoc _ ?_, e1.pre.length_le, by simp⟩
        intro y hy
        obtain ⟨e, he, rfl⟩ := List.mem_map.1 hy
        exact e2 e he
    · cases hr

theorem copyObj_lt (fuel : Nat) (h : MHeap) (a : Nat) (r : MHeap × Nat)
    (hr : copyObj fuel h a = .ok r) : a < h.length := by
  cases fuel with
  | zero => cases hr
  | succ fuel =>
    rw [copyObj] at hr
    split at hr
    · next hh => exact (List.getElem?_eq_some_iff.1 hh).1
    · next hh => exact (List.getElem?_eq_some_iff.1 hh).1
    · cases hr

theorem copyKids_mono {cp cp' : MHeap → Nat → Py (MHeap × Nat)}
    (hm : ∀ h a r, cp h a = .ok r → cp' h a = .ok r) (h : MHeap) (es : List (String × Nat))
    (r : MHeap × List (String × Nat)) (hr : copyKids cp h es = .ok r) : copyKids cp' h es = .ok r := by
  induction es generalizing h r with
  | nil => exact hr
  | cons p es ih =>
    obtain ⟨k, v⟩ := p
    rw [copyKids] at hr ⊢
    cases h1 : cp h v with
    | error e => rw [h1] at hr; cases hr
    | ok q =>
      obtain ⟨g1, v'⟩ := q
      rw [h1] at hr
      rw [hm h v _ h1]
      simp only at hr ⊢
      cases h2 : copyKids cp g1 es with
      | error e => rw [h2] at hr; cases hr
      | ok q =>
        rw [h2] at hr
        rw [ih g1 q h2]
        exact hr

theorem copyObj_mono (n k : Nat) (hk : n ≤ k) (h : MHeap) (a : Nat) (r : MHeap × Nat)
    (hr : copyObj n h a = .ok r) : copyObj k h a = .ok r := by
  induction n generalizing k h a r with
  | zero => cases hr
  | succ n ih =>
    obtain ⟨k, rfl⟩ : ∃ k', k = k' + 1 := ⟨k - 1, by omega⟩
    rw [copyObj] at hr ⊢
    cases ho : h[a]? with
    | none => rw [ho] at hr; cases hr
    | some o =>
      rw [ho] at hr
      cases o with
      | buf d => cases hr
      | mask b => exact hr
      | group op es =>
        simp only at hr ⊢
        cases hc : copyKids (copyObj n) h es with
        | error e => rw [hc] at hr; cases hr
        | ok q =>
          rw [hc] at hr
          rw [copyKids_mono (fun h a r => ih k (by omega) h a r) h es q hc]
          exact hr

/-- A bound that works for every element of a list. -/
theorem exists_uniform {α : Type} (l : List α) (P : Nat → α → Prop)
    (h : ∀ x ∈ l, ∃ n, ∀ k, n ≤ k → P k x) : ∃ n, ∀ k, n ≤ k → ∀ x ∈ l, P k x := by
  induction l with
  | nil => exact ⟨0, by simp⟩
  | cons a l ih =>
    obtain ⟨n, hn⟩ := h a (by simp)
    obtain ⟨n', hn'⟩ := ih (fun x hx => h x (by simp [hx]))
    refine ⟨max n n', fun k hk x hx => ?_⟩
    rcases List.mem_cons.1 hx with rfl | hx
    · exact hn k (by omega)
    · exact hn' k (by omega) x hx

/-- The two ways of saying that entries and members correspond. -/
theorem corresponds_iff (R : Nat → Mask → Prop) (es : List (String × Nat)) (ks : List (String × Mask)) :
    (ks.map Prod.fst = es.map Prod.fst ∧ ∀ (i : Nat) (e : String × Nat) (k : String × Mask),
      es[i]? = some e → ks[i]? = some k → R e.2 k.2) ↔
    List.Forall₂ (fun e k => e.1 = k.1 ∧ R e.2 k.2) es ks := by
  induction es generalizing ks with
  | nil =>
    constructor
    · rintro ⟨h1, -⟩
      simp only [List.map_nil, List.map_eq_nil_iff] at h1
      subst h1
      exact .nil
    · intro h
      cases h
      simp
  | cons e es ih =>
    cases ks with
    | nil => simp
    | cons k ks =>
      rw [List.forall₂_cons, ← ih ks]
      constructor
      · rintro ⟨h1, h2⟩
        simp only [List.map_cons, List.cons.injEq] at h1
        exact ⟨⟨h1.1.symm, h2 0 e k rfl rfl⟩, h1.2, fun i e' k' he hk => h2 (i + 1) e' k' he hk⟩
      · rintro ⟨⟨h1, h2⟩, h3, h4⟩
        refine ⟨by simp [h1, h3], ?_⟩
        intro i e' k' he hk
        cases i with
        | zero =>
          simp only [List.getElem?_cons_zero, Option.some.injEq] at he hk
          subst he; subst hk; exact h2
        | succ i => exact h4 i e' k' he hk

theorem copyKids_shows {cp : MHeap → Nat → Py (MHeap × Nat)} {h : MHeap}
    (hcp : ∀ h a h' b, cp h a = .ok (h', b) → Extends h h' ∧ h.length ≤ b ∧ b < h'.length)
    (es : List (String × Nat)) (ks : List (String × Mask))
    (hk : List.Forall₂ (fun e k => e.1 = k.1 ∧ ∀ h1, h <+: h1 → ∃ h2 b, cp h1 e.2 = .ok (h2, b) ∧
      ShowsMask h2 b k.2) es ks) (h1 : MHeap) (hp : h <+: h1) :
    ∃ h2 es', copyKids cp h1 es = .ok (h2, es') ∧
      List.Forall₂ (fun (e : String × Nat) (k : String × Mask) => e.1 = k.1 ∧ ShowsMask h2 e.2 k.2) es' ks := by
  induction hk generalizing h1 with
  | nil => exact ⟨h1, [], rfl, .nil⟩
  | @cons e k es ks hek _ ih =>
    obtain ⟨he, hc⟩ := hek
    obtain ⟨h2, b, c1, c2⟩ := hc h1 hp
    obtain ⟨x1, x2, x3⟩ := hcp _ _ _ _ c1
    obtain ⟨h3, es', d1, d2⟩ := ih h2 (hp.trans x1.pre)
    obtain ⟨y1, -⟩ := copyKids_extends hcp _ _ _ _ d1
    refine ⟨h3, (e.1, b) :: es', ?_, .cons ⟨he, showsMask_prefix y1.pre c2⟩ d2⟩
    obtain ⟨ek, ev⟩ := e
    simp only [copyKids, c1, d1]

theorem copyObj_shows {h : MHeap} {a : Nat} {m : Mask} (hs : ShowsMask h a m) :
    ∃ N, ∀ fuel, N ≤ fuel → ∀ h1, h <+: h1 → ∃ h2 b, copyObj fuel h1 a = .ok (h2, b) ∧ ShowsMask h2 b m := by
  induction hs with
  | @arr a b d e1 e2 =>
    refine ⟨1, fun fuel hf h1 hp => ?_⟩
    obtain ⟨f, rfl⟩ : ∃ f, fuel = f + 1 := ⟨fuel - 1, by omega⟩
    refine ⟨h1 ++ [.buf d, .mask h1.length], h1.length + 1,
      by simp only [copyObj, getElem?_prefix hp e1, getElem?_prefix hp e2], ?_⟩
    refine .arr (b := h1.length) ?_ (d := d) ?_
    · rw [List.getElem?_append_right (by omega)]; simp
    · rw [List.getElem?_append_right (by omega)]; simp
  | @grp a op es ks e1 e2 e3 ih =>
    obtain ⟨N, hN⟩ := exists_uniform (es.zip ks)
      (fun fuel p => ∀ h1, h <+: h1 → ∃ h2 b, copyObj fuel h1 p.1.2 = .ok (h2, b) ∧ ShowsMask h2 b p.2.2) (by
        intro p hp
        obtain ⟨i, hi⟩ := List.mem_iff_getElem?.1 hp
        obtain ⟨hi1, hi2⟩ := List.getElem?_zip_eq_some.1 hi
        exact ih i p.1 p.2 hi1 hi2)
    refine ⟨N + 1, fun fuel hf h1 hp => ?_⟩
    obtain ⟨f, rfl⟩ : ∃ f, fuel = f + 1 := ⟨fuel - 1, by omega⟩
    have hfa : List.Forall₂ (fun (e : String × Nat) (k : String × Mask) => e.1 = k.1 ∧
        ∀ h1, h <+: h1 → ∃ h2 b, copyObj f h1 e.2 = .ok (h2, b) ∧ ShowsMask h2 b k.2) es ks := by
      refine (corresponds_iff (fun e m => ∀ h1, h <+: h1 → ∃ h2 b, copyObj f h1 e = .ok (h2, b) ∧
        ShowsMask h2 b m) es ks).1 ⟨e2, fun i e k he hk => ?_⟩
      exact hN f (by omega) (e, k) (List.mem_iff_getElem?.2 ⟨i, List.getElem?_zip_eq_some.2 ⟨he, hk⟩⟩)
    obtain ⟨h2, es', c1, c2⟩ := copyKids_shows (fun h a h' b => copyObj_extends f h a h' b) es ks hfa h1 hp
    refine ⟨h2 ++ [.group op es'], h2.length, by simp only [copyObj, getElem?_prefix hp e1, c1], ?_⟩
    have hpre : h2 <+: h2 ++ [HObj.group op es'] := List.prefix_append _ _
    obtain ⟨k1, k2⟩ := (corresponds_iff (fun e m => ShowsMask h2 e m) es' ks).2 c2
    refine .grp (es := es') ?_ k1 (fun i e k he hk => showsMask_prefix hpre (k2 i e k he hk))
    rw [List.getElem?_append_right (by omega)]; simp

/-! ## In-place updates -/

/-- A region closed under references, in a heap without dangling references. -/
structure Region (T : Nat → Prop) (h : MHeap) : Prop where
  inside : ∀ (x : Nat) (o : HObj), T x → h[x]? = some o → ∀ y ∈ refs o, T y
  closed : Closed h

theorem Region.reaches {T : Nat → Prop} {h : MHeap} (hr : Region T h) {r x : Nat} (hrt : T r)
    (hx : Reaches h r x) : T x := by
  induction hx with
  | here => exact hrt
  | step _ h2 h3 ih => exact hr.inside _ _ ih h2 _ h3

/-- `h'` differs from `h` only inside the region `T`, which stays closed. -/
structure StaysIn (T : Nat → Prop) (h h' : MHeap) : Prop where
  len : h.length ≤ h'.length
  same : ∀ x, ¬ T x → h'[x]? = h[x]?
  region : Region T h'

theorem StaysIn.refl {T : Nat → Prop} {h : MHeap} (hr : Region T h) : StaysIn T h h :=
  ⟨Nat.le_refl _, fun _ _ => rfl, hr⟩

theorem StaysIn.trans {T : Nat → Prop} {h h1 h2 : MHeap} (e1 : StaysIn T h h1) (e2 : StaysIn T h1 h2) :
    StaysIn T h h2 :=
  ⟨Nat.le_trans e1.len e2.len, fun x hx => (e2.same x hx).trans (e1.same x hx), e2.region⟩

theorem staysIn_set {T : Nat → Prop} {h : MHeap} (hr : Region T h) {a : Nat} (ha : T a) (o : HObj)
    (ho : ∀ y ∈ refs o, T y ∧ y < h.length) : StaysIn T h (h.set a o) := by
  refine ⟨by simp, fun x hx => ?_, ?_, ?_⟩
  · rw [List.getElem?_set_ne]
    rintro rfl
    exact hx ha
  · intro x o' hx ho' y hy
    rw [List.getElem?_set] at ho'
    split at ho'
    · split at ho'
      · cases ho'; exact (ho y hy).1
      · cases ho'
    · exact hr.inside x o' hx ho' y hy
  · intro x o' ho' y hy
    rw [List.length_set]
    rw [List.getElem?_set] at ho'
    split at ho'
    · split at ho'
      · cases ho'; exact (ho y hy).2
      · cases ho'
    · exact hr.closed x o' ho' y hy

theorem staysIn_extends {T : Nat → Prop} {h h' : MHeap} (hr : Region T h) (hnew : ∀ x, h.length ≤ x → T x)
    (e : Extends h h') : StaysIn T h h' := by
  refine ⟨e.pre.length_le, fun x hx => ?_, ?_, e.closed hr.closed⟩
  · have hlt : x < h.length := by
      by_contra hc
      exact hx (hnew x (by omega))
    rw [List.getElem?_eq_getElem hlt]
    exact getElem?_prefix e.pre (List.getElem?_eq_getElem hlt)
  · intro x o hx ho y hy
    by_cases hl : h.length ≤ x
    · exact hnew y (e.fresh x o hl ho y hy).1
    · have hlt : x < h.length := by omega
      have := getElem?_prefix e.pre (List.getElem?_eq_getElem hlt)
      rw [ho] at this
      exact hr.inside x o hx (by rw [List.getElem?_eq_getElem hlt, ← Option.some.inj this]) y hy

theorem dropKidsH_stays {T : Nat → Prop} {dr : MHeap → Nat → MHeap × Py Unit}
    (hdr : ∀ h a, Region T h → T a → StaysIn T h (dr h a).1) (h : MHeap) (vs : List Nat) (hr : Region T h)
    (hvs : ∀ v ∈ vs, T v) : StaysIn T h (dropKidsH dr h vs).1 := by
  induction vs generalizing h with
  | nil => exact StaysIn.refl hr
  | cons v vs ih =>
    have hv := hvs v (by simp)
    have hvs' : ∀ w ∈ vs, T w := fun w hw => hvs w (by simp [hw])
    rw [dropKidsH]
    split
    · have hd := hdr h v hr hv
      split
      · next h1 hh => rw [hh] at hd; exact hd.trans (ih h1 hd.region hvs')
      · next h1 e hh => rw [hh] at hd; exact hd
    · exact ih h hr hvs'

theorem dropInPlace_stays {T : Nat → Prop} (fuel : Nat) (key : String) (h : MHeap) (a : Nat)
    (hr : Region T h) (ha : T a) : StaysIn T h (dropInPlace fuel key h a).1 := by
  induction fuel generalizing h a with
  | zero => exact StaysIn.refl hr
  | succ fuel ih =>
    rw [dropInPlace]
    split
    · next op es hh =>
      have hes : ∀ y ∈ (es.filter (fun p => p.1 != key)).map Prod.snd, T y ∧ y < h.length := by
        intro y hy
        obtain ⟨p, hp, rfl⟩ := List.mem_map.1 hy
        have hm : p.2 ∈ refs (.group op es) := List.mem_map.2 ⟨p, (List.mem_filter.1 hp).1, rfl⟩
        exact ⟨hr.inside a _ ha hh _ hm, hr.closed a _ hh _ hm⟩
      have h1 := staysIn_set hr ha (.group op (es.filter (fun p => p.1 != key))) hes
      exact h1.trans (dropKidsH_stays ih _ _ h1.region (fun v hv => (hes v hv).1))
    · exact StaysIn.refl hr

theorem navigate_reaches (h : MHeap) (a : Nat) (path : List String) (b : Nat)
    (hn : navigate h a path = some b) : Reaches h a b := by
  induction path generalizing a with
  | nil => simp only [navigate, Option.some.injEq] at hn; subst hn; exact .here
  | cons k path ih =>
    rw [navigate] at hn
    split at hn
    · next op es hh =>
      split at hn
      · next v hv =>
        refine Reaches.trans (.one hh ?_) (ih v hn)
        exact List.mem_map.2 ⟨(k, v), Dict.mem_of_get? hv, rfl⟩
      · cases hn
    · cases hn

mutual
theorem allocMask_extends : ∀ (m : Mask) (h : MHeap), Extends h (allocMask m h).1 ∧
    h.length ≤ (allocMask m h).2 ∧ (allocMask m h).2 < (allocMask m h).1.length
  | .arr d, h => ⟨extends_array h d, by simp [allocMask], by simp [allocMask]⟩
  | .grp op ks, h => by
    obtain ⟨e1, e2⟩ := allocKids_extends ks h
    rw [allocMask]
    refine ⟨e1.snoc _ ?_, e1.pre.length_le, by simp⟩
    intro y hy
    obtain ⟨e, he, rfl⟩ := List.mem_map.1 hy
    exact e2 e he
theorem allocKids_extends : ∀ (ks : List (String × Mask)) (h : MHeap), Extends h (allocKids ks h).1 ∧
    ∀ e ∈ (allocKids ks h).2, h.length ≤ e.2 ∧ e.2 < (allocKids ks h).1.length
  | [], h => ⟨Extends.refl h, by simp [allocKids]⟩
  | (k, m) :: rest, h => by
    obtain ⟨e1, e2, e3⟩ := allocMask_extends m h
    obtain ⟨f1, f2⟩ := allocKids_extends rest (allocMask m h).1
    have l1 := e1.pre.length_le
    have l2 := f1.pre.length_le
    rw [allocKids]
    refine ⟨e1.trans f1, fun e he => ?_⟩
    rcases List.mem_cons.1 he with rfl | he
    · dsimp only; omega
    · have := f2 e he; dsimp only; omega
end

theorem mem_dict_set {α : Type} (d : Dict α) (k : String) (v : α) (p : String × α) (hp : p ∈ Dict.set d k v) :
    p ∈ d ∨ p.2 = v := by
  induction d with
  | nil => simp only [Dict.set, List.mem_singleton] at hp; subst hp; exact Or.inr rfl
  | cons q d ih =>
    obtain ⟨a, b⟩ := q
    simp only [Dict.set] at hp
    split at hp
    · rcases List.mem_cons.1 hp with rfl | hp
      · exact Or.inr rfl
      · exact Or.inl (by simp [hp])
    · rcases List.mem_cons.1 hp with rfl | hp
      · exact Or.inl (by simp)
      · rcases ih hp with h | h
        · exact Or.inl (by simp [h])
        · exact Or.inr h

/-- Every update made through a root stays in any region containing the root and all new objects. -/
theorem run_stays {T : Nat → Prop} {h : MHeap} (hr : Region T h) (hnew : ∀ x, h.length ≤ x → T x)
    {r q : Nat} (hrt : T r) (hrl : r < h.length) (hqt : T q) (hql : q < h.length) (op : HOp) :
    StaysIn T h (op.run h r q) := by
  have hin : ∀ x, Reaches h r x → T x := fun x hx => hr.reaches hrt hx
  have hlt : ∀ x, Reaches h r x → x < h.length := fun x hx => closed_reaches hr.closed hrl hx
  have hrefs : ∀ (a : Nat) (o : HObj), Reaches h r a → h[a]? = some o → ∀ y ∈ refs o, T y ∧ y < h.length :=
    fun a o ha ho y hy => ⟨hin y (.step ha ho hy), hlt y (.step ha ho hy)⟩
  cases op with
  | write path d =>
    simp only [HOp.run]
    split
    · next a ha =>
      split
      · next b hb =>
        have := navigate_reaches h r path a ha
        exact staysIn_set hr (hrefs a _ this hb b (by simp [refs])).1 _ (by simp [refs])
      · exact StaysIn.refl hr
    · exact StaysIn.refl hr
  | rebind path d =>
    simp only [HOp.run]
    split
    · next a ha =>
      split
      · next b hb =>
        have hra := navigate_reaches h r path a ha
        have e1 := staysIn_extends hr hnew ((Extends.refl h).snoc (.buf d) (by simp [refs]))
        refine e1.trans (staysIn_set e1.region (hin a hra) _ ?_)
        intro y hy
        simp only [refs, List.mem_singleton] at hy
        subst hy
        exact ⟨hnew _ (Nat.le_refl _), by simp⟩
      · exact StaysIn.refl hr
    · exact StaysIn.refl hr
  | addNew path k m =>
    simp only [HOp.run]
    split
    · next a ha =>
      split
      · next op es hb =>
        have hra := navigate_reaches h r path a ha
        obtain ⟨x1, x2, x3⟩ := allocMask_extends m h
        have e1 := staysIn_extends hr hnew x1
        refine e1.trans (staysIn_set e1.region (hin a hra) _ ?_)
        intro y hy
        obtain ⟨p, hp, rfl⟩ := List.mem_map.1 hy
        rcases mem_dict_set _ _ _ _ hp with hp | hp
        · have := hrefs a _ hra hb p.2 (List.mem_map.2 ⟨p, hp, rfl⟩)
          exact ⟨this.1, by have := x1.pre.length_le; omega⟩
        · rw [hp]; exact ⟨hnew _ x2, x3⟩
      · exact StaysIn.refl hr
    · exact StaysIn.refl hr
  | addOld path k source =>
    simp only [HOp.run]
    split
    · next a v ha hv =>
      split
      · next op es hb =>
        have hra := navigate_reaches h r path a ha
        have hrv := navigate_reaches h q source v hv
        refine staysIn_set hr (hin a hra) _ ?_
        intro y hy
        obtain ⟨p, hp, rfl⟩ := List.mem_map.1 hy
        rcases mem_dict_set _ _ _ _ hp with hp | hp
        · exact hrefs a _ hra hb p.2 (List.mem_map.2 ⟨p, hp, rfl⟩)
        · rw [hp]; exact ⟨hr.reaches hqt hrv, closed_reaches hr.closed hql hrv⟩
      · exact StaysIn.refl hr
    · exact StaysIn.refl hr
  | del path k =>
    simp only [HOp.run]
    split
    · next a ha =>
      split
      · next op es hb =>
        have hra := navigate_reaches h r path a ha
        refine staysIn_set hr (hin a hra) _ ?_
        intro y hy
        obtain ⟨p, hp, rfl⟩ := List.mem_map.1 hy
        exact hrefs a _ hra hb p.2 (List.mem_map.2 ⟨p, (List.mem_filter.1 hp).1, rfl⟩)
      · exact StaysIn.refl hr
    · exact StaysIn.refl hr
  | setAgg path op =>
    simp only [HOp.run]
    split
    · next a ha =>
      split
      · next op' es hb =>
        have hra := navigate_reaches h r path a ha
        exact staysIn_set hr (hin a hra) _ (hrefs a (.group op' es) hra hb)
      · exact StaysIn.refl hr
    · exact StaysIn.refl hr
  | drop path key fuel =>
    simp only [HOp.run]
    split
    · next a ha => exact dropInPlace_stays fuel key h a hr (hin a (navigate_reaches h r path a ha))
    · exact StaysIn.refl hr

end Gcl
