import Verif.Model.HierMem
import Verif.Lemmas.Heap
import Verif.Lemmas.HierB
/-! # Lemmas about `hierarchy` with the objects it writes to -/
namespace Gcl
set_option autoImplicit false
open Spec

/-! ## Reading -/

theorem readKids_forall2 (rd : Nat → Py Mask) (es : List (String × Nat)) (ks : Dict Mask)
    (h : List.Forall₂ (fun e k => e.1 = k.1 ∧ rd e.2 = .ok k.2) es ks) : readKids rd es = .ok ks := by
  induction h with
  | nil => rfl
  | @cons e k es ks h1 _ ih =>
    obtain ⟨a, b⟩ := e
    obtain ⟨c, d⟩ := k
    obtain ⟨h1, h2⟩ := h1
    simp only at h1 h2
    subst h1
    simp only [readKids, h2, ih]

theorem readKids_inv (rd : Nat → Py Mask) (es : List (String × Nat)) (ks : Dict Mask)
    (h : readKids rd es = .ok ks) : List.Forall₂ (fun e k => e.1 = k.1 ∧ rd e.2 = .ok k.2) es ks := by
  induction es generalizing ks with
  | nil => cases h; exact .nil
  | cons e es ih =>
    obtain ⟨a, b⟩ := e
    simp only [readKids] at h
    split at h
    · cases h
    · next m hm =>
      split at h
      · cases h
      · next ms hms =>
        cases h
        exact .cons ⟨rfl, hm⟩ (ih ms hms)

/-- What is read is what the object shows. -/
theorem readMask_shows (fuel : Nat) (h : MHeap) (a : Nat) (m : Mask) (hr : readMask fuel h a = .ok m) :
    ShowsMask h a m := by
  induction fuel generalizing a m with
  | zero => cases hr
  | succ fuel ih =>
    simp only [readMask] at hr
    split at hr
    · next b hb =>
      split at hr
      · next d hd => cases hr; exact .arr hb hd
      · cases hr
    · next op es hes =>
      split at hr
      · cases hr
      · next ks hks =>
        cases hr
        have := readKids_inv _ _ _ hks
        refine .grp hes ?_ ?_
        · clear hks hes
          induction this with
          | nil => rfl
          | cons h1 _ ih2 => simp [h1.1, ih2]
        · intro i e k he hk
          have h2 := List.forall₂_iff_get.1 this
          obtain ⟨hl, h2⟩ := h2
          obtain ⟨he1, he2⟩ := List.getElem?_eq_some_iff.1 he
          obtain ⟨hk1, hk2⟩ := List.getElem?_eq_some_iff.1 hk
          have := (h2 i he1 hk1).2
          rw [List.get_eq_getElem, List.get_eq_getElem, he2, hk2] at this
          exact ih _ _ this
    · cases hr

theorem forall2_set {R : Nat → Mask → Prop} (es : List (String × Nat)) (ks : Dict Mask) (x : String) (v : Nat)
    (m : Mask) (h : List.Forall₂ (fun e k => e.1 = k.1 ∧ R e.2 k.2) es ks) (hv : R v m) :
    List.Forall₂ (fun e k => e.1 = k.1 ∧ R e.2 k.2) (Dict.set es x v) (Dict.set ks x m) := by
  induction h with
  | nil => exact .cons ⟨rfl, hv⟩ .nil
  | @cons e k es ks h1 ht ih =>
    obtain ⟨a, b⟩ := e
    obtain ⟨c, d⟩ := k
    obtain ⟨h1, h2⟩ := h1
    simp only at h1 h2
    subst h1
    simp only [Dict.set]
    split
    · exact .cons ⟨rfl, hv⟩ ht
    · exact .cons ⟨rfl, h2⟩ ih

/-! ## Private masks -/

/-- The masks of `desc`: each name has its own buffer, at `β name`. -/
structure Priv (desc : List (String × Nat)) (β : String → Option Nat) (h : MHeap) : Prop where
  mask : ∀ k v, Dict.get? desc k = some v → ∃ b, β k = some b ∧ h[v]? = some (.mask b)
  buf : ∀ k b, β k = some b → (∃ v, Dict.get? desc k = some v) ∧ ∃ d, h[b]? = some (.buf d)
  inj : ∀ k k' b, β k = some b → β k' = some b → k = k'

/-- From `h` to `h'` only the buffers of names in `W` were written, and objects added. -/
structure Frame (β : String → Option Nat) (h h' : MHeap) (W : List String) : Prop where
  len : h.length ≤ h'.length
  same : ∀ x : Nat, x < h.length → (∀ k ∈ W, β k ≠ some x) → h'[x]? = h[x]?
  buf : ∀ (x : Nat) (d : List Bool), h[x]? = some (.buf d) → ∃ d', h'[x]? = some (.buf d')

theorem Frame.refl (β : String → Option Nat) (h : MHeap) (W : List String) : Frame β h h W :=
  ⟨Nat.le_refl _, fun _ _ _ => rfl, fun _ d hd => ⟨d, hd⟩⟩

theorem Frame.trans {β : String → Option Nat} {h h1 h2 : MHeap} {W W' : List String} (f : Frame β h h1 W)
    (g : Frame β h1 h2 W') : Frame β h h2 (W ++ W') := by
  refine ⟨f.len.trans g.len, fun x hx hw => ?_, fun x d hd => ?_⟩
  · rw [g.same x (Nat.lt_of_lt_of_le hx f.len) (fun k hk => hw k (List.mem_append_right _ hk)),
      f.same x hx (fun k hk => hw k (List.mem_append_left _ hk))]
  · obtain ⟨d', hd'⟩ := f.buf x d hd
    exact g.buf x d' hd'

theorem Frame.mono {β : String → Option Nat} {h h1 : MHeap} {W W' : List String} (f : Frame β h h1 W)
    (hw : W ⊆ W') : Frame β h h1 W' :=
  ⟨f.len, fun x hx hk => f.same x hx (fun k hk' => hk k (hw hk')), f.buf⟩

theorem Frame.snoc (β : String → Option Nat) (h : MHeap) (n : List HObj) (W : List String) : Frame β h (h ++ n) W := by
  refine ⟨by simp, fun x hx _ => List.getElem?_append_left hx, fun x d hd => ⟨d, ?_⟩⟩
  rw [List.getElem?_append_left (List.getElem?_eq_some_iff.1 hd).1]; exact hd

/-- Name `k` holds `d`. -/
def Cont (desc : List (String × Nat)) (β : String → Option Nat) (h : MHeap) (k : String) (d : List Bool) : Prop :=
  ∃ v b, Dict.get? desc k = some v ∧ β k = some b ∧ h[v]? = some (.mask b) ∧ h[b]? = some (.buf d)

theorem Priv.frame {desc : List (String × Nat)} {β : String → Option Nat} {h h' : MHeap} {W : List String}
    (p : Priv desc β h) (f : Frame β h h' W) : Priv desc β h' := by
  refine ⟨fun k v hk => ?_, fun k b hb => ?_, p.inj⟩
  · obtain ⟨b, h1, h2⟩ := p.mask k v hk
    refine ⟨b, h1, ?_⟩
    rw [f.same v (List.getElem?_eq_some_iff.1 h2).1 ?_, h2]
    intro k' _ hk'
    obtain ⟨-, d, hd⟩ := p.buf k' v hk'
    rw [h2] at hd
    cases hd
  · obtain ⟨h1, d, hd⟩ := p.buf k b hb
    exact ⟨h1, f.buf b d hd⟩

theorem Cont.frame {desc : List (String × Nat)} {β : String → Option Nat} {h h' : MHeap} {W : List String}
    {k : String} {d : List Bool} (p : Priv desc β h) (f : Frame β h h' W) (c : Cont desc β h k d) (hk : k ∉ W) :
    Cont desc β h' k d := by
  obtain ⟨v, b, h1, h2, h3, h4⟩ := c
  refine ⟨v, b, h1, h2, ?_, ?_⟩
  · obtain ⟨b', h5, h6⟩ := (p.frame f).mask k v h1
    rw [h2] at h5
    cases h5
    exact h6
  · rw [f.same b (List.getElem?_eq_some_iff.1 h4).1 ?_, h4]
    intro k' hk' hb
    exact hk (p.inj k k' b h2 hb ▸ hk')

/-- The object at `a` reads as `m`, and does so as long as only buffers of names outside `V` are written. -/
def Stable (β : String → Option Nat) (h : MHeap) (fuel a : Nat) (m : Mask) (V : List String) : Prop :=
  ∀ h' W, Frame β h h' W → (∀ k ∈ W, k ∉ V) → readMask fuel h' a = .ok m

theorem Stable.now {β : String → Option Nat} {h : MHeap} {fuel a : Nat} {m : Mask} {V : List String}
    (s : Stable β h fuel a m V) : readMask fuel h a = .ok m := s h [] (Frame.refl β h []) (by simp)

theorem Stable.mono {β : String → Option Nat} {h : MHeap} {fuel a : Nat} {m : Mask} {V V' : List String}
    (s : Stable β h fuel a m V) (hv : V ⊆ V') : Stable β h fuel a m V' :=
  fun h' W f hw => s h' W f (fun k hk hk' => hw k hk (hv hk'))

theorem Stable.frame {β : String → Option Nat} {h h1 : MHeap} {fuel a : Nat} {m : Mask} {V W : List String}
    (s : Stable β h fuel a m V) (f : Frame β h h1 W) (hw : ∀ k ∈ W, k ∉ V) : Stable β h1 fuel a m V := by
  intro h' W' f' hw'
  refine s h' (W ++ W') (f.trans f') (fun k hk => ?_)
  rcases List.mem_append.1 hk with hk | hk
  · exact hw k hk
  · exact hw' k hk

theorem Frame.set {β : String → Option Nat} {h : MHeap} {k : String} {b : Nat} (hb : β k = some b)
    {d d' : List Bool} (_hd : h[b]? = some (.buf d)) : Frame β h (h.set b (.buf d')) [k] := by
  refine ⟨by simp, fun x _ hk => ?_, fun x e he => ?_⟩
  · rw [List.getElem?_set_ne]
    rintro rfl
    exact hk k (by simp) hb
  · by_cases hx : b = x
    · subst hx
      exact ⟨d', by rw [List.getElem?_set_self (List.getElem?_eq_some_iff.1 he).1]⟩
    · exact ⟨e, by rw [List.getElem?_set_ne hx]; exact he⟩

theorem Cont.set {desc : List (String × Nat)} {β : String → Option Nat} {h : MHeap} {k : String} {v b : Nat}
    {d d' : List Bool} (h1 : Dict.get? desc k = some v) (h2 : β k = some b) (h3 : h[v]? = some (.mask b))
    (h4 : h[b]? = some (.buf d)) : Cont desc β (h.set b (.buf d')) k d' := by
  refine ⟨v, b, h1, h2, ?_, ?_⟩
  · rw [List.getElem?_set_ne]
    · exact h3
    · rintro rfl
      rw [h3] at h4
      cases h4
  · rw [List.getElem?_set_self (List.getElem?_eq_some_iff.1 h4).1]

theorem Cont.stable {desc : List (String × Nat)} {β : String → Option Nat} {h : MHeap} {k : String} {v : Nat}
    {d : List Bool} (p : Priv desc β h) (c : Cont desc β h k d) (hv : Dict.get? desc k = some v) (fuel : Nat) :
    Stable β h (fuel + 1) v (.arr d) [k] := by
  intro h' W f hw
  obtain ⟨v', b, h1, h2, h3, h4⟩ := c.frame p f (fun hk => hw k hk (by simp))
  rw [hv] at h1
  cases h1
  simp only [readMask, h3, h4]

/-! ## Marking the final hard partons -/

/-- The private masks hold `D`. -/
structure Inv (desc : List (String × Nat)) (β : String → Option Nat) (D : Dict (List Bool)) (done : List String)
    (h : MHeap) : Prop where
  priv : Priv desc β h
  none : ∀ k, Dict.get? D k = none → Dict.get? desc k = none
  cont : ∀ k d, Dict.get? D k = some d → k ∉ done → Cont desc β h k d

theorem Inv.frame {desc : List (String × Nat)} {β : String → Option Nat} {D : Dict (List Bool)}
    {done W : List String} {h h' : MHeap} (i : Inv desc β D done h) (f : Frame β h h' W) :
    Inv desc β D (done ++ W) h' :=
  ⟨i.priv.frame f, i.none, fun k d hk hd =>
    (i.cont k d hk (fun hh => hd (List.mem_append_left _ hh))).frame i.priv f
      (fun hh => hd (List.mem_append_right _ hh))⟩

theorem markOneH_spec {desc : List (String × Nat)} {β : String → Option Nat} {D : Dict (List Bool)} {h : MHeap}
    (i : Inv desc β D [] h) (key : String) (idx : Nat) :
    match markOne D key idx with
    | .error e => markOneH desc h key idx = (h, .error e)
    | .ok D' => ∃ h', markOneH desc h key idx = (h', .ok ()) ∧ Inv desc β D' [] h' ∧ Frame β h h' [key] := by
  unfold markOne
  cases hk : Dict.get? D key with
  | none => simp only [markOneH, i.none key hk]
  | some d =>
    obtain ⟨v, b, h1, h2, h3, h4⟩ := i.cont key d hk (by simp)
    by_cases hidx : idx < d.length
    · simp only [hidx, if_true]
      have f : Frame β h (h.set b (.buf (d.set idx true))) [key] := Frame.set h2 h4
      refine ⟨_, by simp only [markOneH, h1, h3, h4, hidx, if_true], ⟨i.priv.frame f, fun k hk' => ?_, ?_⟩, f⟩
      · rw [Dict.get?_set] at hk'
        split at hk'
        · cases hk'
        · exact i.none k hk'
      · intro k d' hk' _
        rw [Dict.get?_set] at hk'
        split at hk'
        · next he =>
          cases hk'
          subst he
          exact Cont.set h1 h2 h3 h4
        · next hne =>
          refine (i.cont k d' hk' (by simp)).frame i.priv f ?_
          simp only [List.mem_singleton]
          intro he; exact hne (by rw [he])
    · simp only [hidx, if_false]
      simp only [markOneH, h1, h3, h4, hidx, if_false]

theorem markAllH_spec {desc : List (String × Nat)} {β : String → Option Nat} (ps : List (String × Nat))
    {D : Dict (List Bool)} {h : MHeap} (i : Inv desc β D [] h) :
    Frame β h (markAllH desc h ps).1 (ps.map Prod.fst) ∧
    match markAll D ps with
    | .error e => (markAllH desc h ps).2 = .error e
    | .ok D' => (markAllH desc h ps).2 = .ok () ∧ Inv desc β D' [] (markAllH desc h ps).1 := by
  induction ps generalizing D h with
  | nil => exact ⟨Frame.refl _ _ _, rfl, i⟩
  | cons p ps ih =>
    obtain ⟨key, idx⟩ := p
    have h1 := markOneH_spec i key idx
    simp only [markAll, markAllH]
    cases hm : markOne D key idx with
    | error e =>
      rw [hm] at h1
      simp only at h1
      rw [h1]
      exact ⟨Frame.refl _ _ _, rfl⟩
    | ok D' =>
      rw [hm] at h1
      obtain ⟨h', e1, i', f⟩ := h1
      rw [e1]
      obtain ⟨f2, r⟩ := ih i'
      exact ⟨by simpa using f.trans f2, r⟩

/-! ## The tree -/

/-- The names whose masks a branch writes to. -/
def visits (hard : Dict (List String)) : Nat → String → List String
  | 0, _ => []
  | fuel + 1, x =>
    match Dict.get? hard x with
    | some nest => nest.flatMap (visits hard fuel)
    | none => [x]

theorem visits_leaf (hard : Dict (List String)) (fuel : Nat) (x k : String) (h : k ∈ visits hard fuel x) :
    Dict.get? hard k = none := by
  induction fuel generalizing x with
  | zero => cases h
  | succ fuel ih =>
    simp only [visits] at h
    split at h
    · obtain ⟨y, _, hy⟩ := List.mem_flatMap.1 h
      exact ih y hy
    · next hx =>
      rw [List.mem_singleton] at h
      subst h; exact hx

/-- A step on objects does what the step on values does. -/
def StepOK (β : String → Option Nat) (h : MHeap) (r : MHeap × Py Nat) (v : Py Mask) (depth : Nat) (V : List String) :
    Prop :=
  Frame β h r.1 V ∧
  match v with
  | .error e => r.2 = .error e
  | .ok m => ∃ a, r.2 = .ok a ∧ Stable β r.1 depth a m V

theorem leafH_spec (es : List (Int × Int)) {desc : List (String × Nat)} {β : String → Option Nat}
    {D : Dict (List Bool)} {done : List String} {h : MHeap} (i : Inv desc β D done h) (x : String) (hx : x ∉ done)
    (fuel : Nat) : StepOK β h (leafH es desc h x) (leafEntry es D x) (fuel + 1) [x] := by
  unfold leafH leafEntry descGet
  cases hk : Dict.get? D x with
  | none =>
    simp only [i.none x hk]
    exact ⟨Frame.refl _ _ _, rfl⟩
  | some d =>
    have c := i.cont x d hk hx
    obtain ⟨v, b, h1, h2, h3, h4⟩ := c
    simp only [h1, h3, h4]
    cases hap : (Key.mask d).apply (es.map (fun e => e.1)) with
    | error e => exact ⟨Frame.refl _ _ _, rfl⟩
    | ok l =>
      cases l with
      | nil => exact ⟨Frame.refl _ _ _, rfl⟩
      | cons inEdge rest =>
        simp only
        by_cases hc : (es.map (fun e => e.2 == inEdge)).count true = 1
        · simp only [hc, if_true]
          cases hs : setMask d (es.map (fun e => e.2 == inEdge)) true with
          | error e => exact ⟨Frame.refl _ _ _, rfl⟩
          | ok m =>
            have f : Frame β h (h.set b (.buf m)) [x] := Frame.set h2 h4
            exact ⟨f, v, rfl, Cont.stable (i.priv.frame f) (Cont.set h1 h2 h3 h4) h1 fuel⟩
        · simp only [hc, if_false]
          exact ⟨Frame.refl _ _ _, v, rfl, Cont.stable i.priv ⟨v, b, h1, h2, h3, h4⟩ h1 fuel⟩

/-- The members of a group are as they should be, and stay so. -/
def Members (β : String → Option Nat) (h : MHeap) (depth : Nat) (V : List String) (es : List (String × Nat))
    (ks : Dict Mask) : Prop :=
  List.Forall₂ (fun e k => e.1 = k.1 ∧ Stable β h depth e.2 k.2 V) es ks

theorem Members.imp {β β' : String → Option Nat} {h h' : MHeap} {depth depth' : Nat} {V V' : List String}
    {es : List (String × Nat)} {ks : Dict Mask} (m : Members β h depth V es ks)
    (hi : ∀ a x, Stable β h depth a x V → Stable β' h' depth' a x V') : Members β' h' depth' V' es ks := by
  unfold Members at *
  exact m.imp (fun e k hk => ⟨hk.1, hi _ _ hk.2⟩)

/-- The members on objects are the members on values. -/
def BranchOK (β : String → Option Nat) (r : MHeap × Py (List (String × Nat))) (v : Py (Dict Mask)) (depth : Nat)
    (V : List String) : Prop :=
  match v with
  | .error e => r.2 = .error e
  | .ok ks => ∃ es, r.2 = .ok es ∧ Members β r.1 depth V es ks

theorem branchH_spec {desc : List (String × Nat)} {β : String → Option Nat} {D : Dict (List Bool)} {depth : Nat}
    (fH : MHeap → String → MHeap × Py Nat) (f : String → Py Mask) (vis : String → List String) (xs : List String)
    (Q : String → Prop) (hQ : ∀ x ∈ xs, ∀ k ∈ vis x, Q k)
    (hstep : ∀ x ∈ xs, ∀ (h : MHeap) (done : List String), Inv desc β D done h → (∀ k ∈ vis x, k ∉ done) →
      (∀ k ∈ done, Q k) → StepOK β h (fH h x) (f x) depth (vis x))
    (hnd : (xs.flatMap vis).Nodup) {h : MHeap} {done : List String} (i : Inv desc β D done h)
    (hdone : ∀ k ∈ xs.flatMap vis, k ∉ done) (hdQ : ∀ k ∈ done, Q k) (acc : List (String × Nat)) (accM : Dict Mask) (V : List String)
    (hV : V ⊆ done) (hacc : Members β h depth V acc accM) :
    Frame β h (branchH fH h acc xs).1 (xs.flatMap vis) ∧
    BranchOK β (branchH fH h acc xs) (buildBranch f accM xs) depth (V ++ xs.flatMap vis) := by
  induction xs generalizing h done acc accM V with
  | nil => exact ⟨Frame.refl _ _ _, acc, rfl, by simpa [branchH] using hacc⟩
  | cons x xs ih =>
    rw [List.flatMap_cons] at hnd hdone ⊢
    rw [List.nodup_append] at hnd
    obtain ⟨fr, hr⟩ := hstep x (by simp) h done i
      (fun k hk => hdone k (List.mem_append_left _ hk)) hdQ
    simp only [branchH, buildBranch]
    rcases hfx : fH h x with ⟨h1, res⟩
    rw [hfx] at fr hr
    simp only at fr hr
    cases hf : f x with
    | error e =>
      rw [hf] at hr
      simp only at hr
      subst hr
      exact ⟨fr.mono (List.subset_append_left _ _), rfl⟩
    | ok m =>
      rw [hf] at hr
      obtain ⟨a, rfl, hst⟩ := hr
      simp only
      have hVd : ∀ k ∈ vis x, k ∉ V := fun k hk hv => hdone k (List.mem_append_left _ hk) (hV hv)
      have hacc1 : Members β h1 depth (V ++ vis x) (Dict.set acc x a) (Dict.set accM x m) := by
        refine forall2_set (R := fun a m => Stable β h1 depth a m (V ++ vis x)) _ _ x a m ?_ (hst.mono (List.subset_append_right _ _))
        exact (hacc.imp (fun a y hs => (hs.frame fr hVd).mono (List.subset_append_left _ _)))
      obtain ⟨fr2, r2⟩ := ih (fun y hy => hQ y (by simp [hy])) (fun y hy => hstep y (by simp [hy])) hnd.2.1 (i.frame fr)
        (fun k hk hd => by
          rcases List.mem_append.1 hd with hd | hd
          · exact hdone k (List.mem_append_right _ hk) hd
          · exact hnd.2.2 k hd k hk rfl)
        (fun k hd => by
          rcases List.mem_append.1 hd with hd | hd
          · exact hdQ k hd
          · exact hQ x (by simp) k hd) (Dict.set acc x a) (Dict.set accM x m) (V ++ vis x)
        (by
          intro k hk
          rcases List.mem_append.1 hk with hk | hk
          · exact List.mem_append_left _ (hV hk)
          · exact List.mem_append_right _ hk) hacc1
      refine ⟨fr.trans fr2, ?_⟩
      have hgs : groupSet accM x m = Dict.set accM x m := rfl
      rw [hgs]
      cases hb : buildBranch f (Dict.set accM x m) xs with
      | error e => rw [hb] at r2; exact r2
      | ok ks =>
        rw [hb] at r2
        obtain ⟨es, e1, e2⟩ := r2
        exact ⟨es, e1, by rwa [List.append_assoc] at e2⟩

/-- `_make_tree` on objects does what it does on values. -/
def TreeOK (β : String → Option Nat) (h : MHeap) (r : MHeap × Py Nat) (v : Py (Dict Mask)) (depth : Nat)
    (V : List String) : Prop :=
  match v with
  | .error e => Frame β h r.1 V ∧ r.2 = .error e
  | .ok ks => ∃ hb es, r = (hb ++ [HObj.group .or es], .ok hb.length) ∧ Frame β h hb V ∧ Members β hb depth V es ks

theorem allocGroup_spec {β : String → Option Nat} {h : MHeap} {r : MHeap × Py (List (String × Nat))}
    {v : Py (Dict Mask)} {depth : Nat} {V : List String} (hf : Frame β h r.1 V)
    (hr : BranchOK β r v depth V) :
    TreeOK β h (allocGroup r) v depth V := by
  obtain ⟨hb, res⟩ := r
  cases v with
  | error e =>
    have hr : res = .error e := hr
    subst hr; exact ⟨hf, rfl⟩
  | ok ks =>
    obtain ⟨es, hr, hm⟩ := hr
    have hr : res = .ok es := hr
    subst hr
    exact ⟨hb, es, rfl, hf, hm⟩

/-- A branch, then its entry `latent`: on objects. -/
def thenLatentH (fuel : Nat) (desc : List (String × Nat)) (x : String) : MHeap × Py Nat → MHeap × Py Nat
  | (h1, .error e) => (h1, .error e)
  | (h1, .ok g) => latentH fuel desc h1 x g

/-- The same on values. -/
def thenLatent (D : Dict (List Bool)) (x : String) : Py (Dict Mask) → Py Mask
  | .error e => .error e
  | .ok sub => addLatent D x sub

/-- A finished group reads as its members. -/
theorem group_stable {desc : List (String × Nat)} {β : String → Option Nat} {h h2 : MHeap} {depth g : Nat}
    {V : List String} {es : List (String × Nat)} {ks : Dict Mask} (p : Priv desc β h) (hg : h.length ≤ g)
    (hg2 : h2[g]? = some (.group .or es)) (hm : Members β h2 depth V es ks) :
    Stable β h2 (depth + 1) g (.grp .or ks) V := by
  intro h' W f hw
  have hsame : h'[g]? = some (.group .or es) := by
    rw [f.same g (List.getElem?_eq_some_iff.1 hg2).1 ?_, hg2]
    intro k _ hb
    obtain ⟨-, d, hd⟩ := p.buf k g hb
    have := (List.getElem?_eq_some_iff.1 hd).1
    omega
  have := readKids_forall2 (readMask depth h') es ks
    (List.Forall₂.imp (fun e k hk => ⟨hk.1, hk.2 h' W f hw⟩) hm)
  simp only [readMask, hsame, this]

theorem latentH_spec {desc : List (String × Nat)} {β : String → Option Nat} {D : Dict (List Bool)}
    {done V : List String} {h : MHeap} {fuel : Nat} (i : Inv desc β D done h) (x : String) (hx : x ∉ done)
    (hxV : x ∉ V) {r : MHeap × Py Nat} {v : Py (Dict Mask)} (ht : TreeOK β h r v (fuel + 1) V) :
    StepOK β h (thenLatentH (fuel + 1) desc x r) (thenLatent D x v) (fuel + 2) V := by
  cases v with
  | error e =>
    obtain ⟨h1, res⟩ := r
    obtain ⟨hf, hr⟩ := ht
    simp only at hr
    subst hr
    exact ⟨hf, rfl⟩
  | ok ks =>
    obtain ⟨hb, es, rfl, hf, hm⟩ := ht
    simp only [thenLatentH, thenLatent]
    have fr1 : Frame β hb (hb ++ [HObj.group .or es]) [] := Frame.snoc _ _ _ _
    have hfull : Frame β h (hb ++ [HObj.group .or es]) V := by simpa using hf.trans fr1
    have hget : (hb ++ [HObj.group .or es])[hb.length]? = some (.group .or es) := by simp
    have hread : readKids (readMask (fuel + 1) (hb ++ [HObj.group .or es])) es = .ok ks :=
      readKids_forall2 _ _ _ (List.Forall₂.imp (fun e k hk => ⟨hk.1, hk.2 _ [] fr1 (by simp)⟩) hm)
    simp only [latentH, hget, hread, addLatent, descGet]
    cases hor : groupOr ks with
    | error e => exact ⟨hfull, rfl⟩
    | ok d =>
      simp only
      cases hk : Dict.get? D x with
      | none =>
        simp only [i.none x hk]
        exact ⟨hfull, rfl⟩
      | some d' =>
        have c := (i.cont x d' hk hx).frame i.priv hfull hxV
        obtain ⟨w, b, c1, c2, c3, c4⟩ := c
        simp only [c1, readMaskArr, c3, c4]
        cases hbc : bcast2 (fun a b => a != b) d d' with
        | error e => exact ⟨hfull, rfl⟩
        | ok l =>
          simp only
          set h2 := ((hb ++ [HObj.group .or es]) ++
            [HObj.buf l, HObj.mask (hb ++ [HObj.group .or es]).length]).set hb.length
              (.group .or (Dict.set es "latent" ((hb ++ [HObj.group .or es]).length + 1))) with hh2
          have fr2 : Frame β hb h2 [] := by
            refine ⟨by rw [hh2]; simp, fun y hy _ => ?_, fun y e he => ⟨e, ?_⟩⟩
            · rw [hh2, List.getElem?_set_ne (by omega), List.append_assoc, List.getElem?_append_left hy]
            · have hy := (List.getElem?_eq_some_iff.1 he).1
              rw [hh2, List.getElem?_set_ne (by omega), List.append_assoc, List.getElem?_append_left hy]
              exact he
          have hg2 : h2[hb.length]? = some (.group .or (Dict.set es "latent" (hb.length + 2))) := by
            rw [hh2, List.getElem?_set_self (by simp)]
            simp
          have hl1 : h2[hb.length + 1]? = some (.buf l) := by
            rw [hh2, List.getElem?_set_ne (by omega), List.getElem?_append_right (by simp)]
            simp
          have hl2 : h2[hb.length + 2]? = some (.mask (hb.length + 1)) := by
            rw [hh2, List.getElem?_set_ne (by omega), List.getElem?_append_right (by simp)]
            simp
          have hlb : h.length ≤ hb.length := hf.len
          have hnb : ∀ (k : String) (y : Nat), hb.length ≤ y → β k ≠ some y := by
            intro k y hy hbk
            obtain ⟨-, e, he⟩ := i.priv.buf k y hbk
            have := (List.getElem?_eq_some_iff.1 he).1
            omega
          have hlat : Stable β h2 (fuel + 1) (hb.length + 2) (.arr l) V := by
            intro h' W f _
            have e1 : h'[hb.length + 2]? = some (.mask (hb.length + 1)) := by
              rw [f.same _ (List.getElem?_eq_some_iff.1 hl2).1 (fun k _ => hnb k _ (by omega)), hl2]
            have e2 : h'[hb.length + 1]? = some (.buf l) := by
              rw [f.same _ (List.getElem?_eq_some_iff.1 hl1).1 (fun k _ => hnb k _ (by omega)), hl1]
            simp only [readMask, e1, e2]
          refine ⟨by simpa using hf.trans fr2, hb.length, rfl, ?_⟩
          refine group_stable i.priv hlb hg2 ?_
          refine forall2_set (R := fun a m => Stable β h2 (fuel + 1) a m V) _ _ "latent" _ _ ?_ hlat
          exact hm.imp (fun a y hs => hs.frame fr2 (by simp))

theorem stepKey_spec {desc : List (String × Nat)} {β : String → Option Nat} {D : Dict (List Bool)}
    {done V : List String} {h : MHeap} {fuel : Nat} (i : Inv desc β D done h) (x : String) (hx : x ∉ done)
    (hxV : x ∉ V) {r : MHeap × Py Nat} {v : Py (Dict Mask)} (ht : TreeOK β h r v fuel V)
    (h0 : fuel = 0 → ∃ e, v = .error e) :
    StepOK β h (thenLatentH fuel desc x r) (thenLatent D x v) (fuel + 1) V := by
  cases fuel with
  | succ fuel => exact latentH_spec i x hx hxV ht
  | zero =>
    obtain ⟨e, rfl⟩ := h0 rfl
    obtain ⟨h1, res⟩ := r
    obtain ⟨hf, hr⟩ := ht
    simp only at hr
    subst hr
    exact ⟨hf, rfl⟩

theorem treeH_spec (hard : Dict (List String)) (es : List (Int × Int)) {desc : List (String × Nat)}
    {β : String → Option Nat} {D : Dict (List Bool)} (fuel : Nat) (partons : List String) {h : MHeap}
    {done : List String} (i : Inv desc β D done h) (hnd : (partons.flatMap (visits hard fuel)).Nodup)
    (hdone : ∀ k ∈ partons.flatMap (visits hard fuel), k ∉ done)
    (hdQ : ∀ k ∈ done, Dict.get? hard k = none) :
    TreeOK β h (treeH hard es desc fuel h partons) (makeTree hard D es fuel partons) fuel
      (partons.flatMap (visits hard fuel)) := by
  induction fuel generalizing partons h done with
  | zero => exact ⟨Frame.refl _ _ _, rfl⟩
  | succ fuel ih =>
    simp only [treeH, makeTree]
    have hb := branchH_spec (depth := fuel + 1) (desc := desc) (β := β) (D := D)
      (fun h parton =>
        match Dict.get? hard parton with
        | some nest =>
          match treeH hard es desc fuel h nest with
          | (h1, .error e) => (h1, .error e)
          | (h1, .ok g) => latentH fuel desc h1 parton g
        | none => leafH es desc h parton)
      (fun parton =>
        match Dict.get? hard parton with
        | some nest =>
          match makeTree hard D es fuel nest with
          | .error e => .error e
          | .ok sub => addLatent D parton sub
        | none => leafEntry es D parton) (visits hard (fuel + 1)) partons
      (fun k => Dict.get? hard k = none) (fun x _ k hk => visits_leaf hard _ x k hk) ?_ hnd i hdone hdQ [] [] []
      (by simp) .nil
    · obtain ⟨hf, hr⟩ := hb
      rw [List.nil_append] at hr
      exact allocGroup_spec hf hr
    · intro x hx h done i hk hq
      have hsub : (visits hard (fuel + 1) x).Nodup := by
        rw [List.nodup_flatMap] at hnd
        exact hnd.1 x hx
      cases hg : Dict.get? hard x with
      | none =>
        have hv : visits hard (fuel + 1) x = [x] := by simp only [visits, hg]
        rw [hv] at hk ⊢
        simp only
        exact leafH_spec es i x (hk x (by simp)) fuel
      | some nest =>
        have hv : visits hard (fuel + 1) x = nest.flatMap (visits hard fuel) := by simp only [visits, hg]
        rw [hv] at hk hsub ⊢
        simp only
        have hgoal := stepKey_spec i x (fun hd => ?_) (fun hd => ?_) (ih nest i hsub hk hq) (fun h0 => ?_)
        · exact hgoal
        · rw [hq x hd] at hg; cases hg
        · obtain ⟨y, _, hy⟩ := List.mem_flatMap.1 hd
          rw [visits_leaf hard fuel y x hy] at hg; cases hg
        · subst h0; exact ⟨_, rfl⟩

theorem treeTopH_spec (hard : Dict (List String)) (es : List (Int × Int)) {desc : List (String × Nat)}
    {β : String → Option Nat} {D : Dict (List Bool)} (fuel : Nat) (roots : List String) {h : MHeap}
    (i : Inv desc β D [] h)
    (hnd : (((Dict.keys hard).filter (fun k => roots.contains k)).flatMap (visits hard (fuel + 1))).Nodup) :
    TreeOK β h (treeTopH hard es desc fuel h roots) (makeTreeTop hard D es fuel roots) (fuel + 1)
      (((Dict.keys hard).filter (fun k => roots.contains k)).flatMap (visits hard (fuel + 1))) := by
  unfold treeTopH makeTreeTop
  have hb := branchH_spec (depth := fuel + 1) (desc := desc) (β := β) (D := D)
    (fun h key =>
      match Dict.get? hard key with
      | some nest =>
        match treeH hard es desc fuel h nest with
        | (h1, .error e) => (h1, .error e)
        | (h1, .ok g) => latentH fuel desc h1 key g
      | none => (h, .error .keyError))
    (fun key =>
      match Dict.get? hard key with
      | some nest =>
        match makeTree hard D es fuel nest with
        | .error e => .error e
        | .ok sub => addLatent D key sub
      | none => .error .keyError) (visits hard (fuel + 1)) ((Dict.keys hard).filter (fun k => roots.contains k))
    (fun k => Dict.get? hard k = none) (fun x _ k hk => visits_leaf hard _ x k hk) ?_ hnd i (by simp) (by simp)
    [] [] [] (by simp) .nil
  · obtain ⟨hf, hr⟩ := hb
    rw [List.nil_append] at hr
    exact allocGroup_spec hf hr
  · intro x hx h done i hk hq
    have hsub : (visits hard (fuel + 1) x).Nodup := by
      rw [List.nodup_flatMap] at hnd
      exact hnd.1 x hx
    cases hg : Dict.get? hard x with
    | none => exact ⟨Frame.refl _ _ _, rfl⟩
    | some nest =>
      have hv : visits hard (fuel + 1) x = nest.flatMap (visits hard fuel) := by simp only [visits, hg]
      rw [hv] at hk hsub ⊢
      simp only
      have hgoal := stepKey_spec i x (fun hd => ?_) (fun hd => ?_)
        (treeH_spec hard es fuel nest i hsub hk hq) (fun h0 => ?_)
      · exact hgoal
      · rw [hq x hd] at hg; cases hg
      · obtain ⟨y, _, hy⟩ := List.mem_flatMap.1 hd
        rw [visits_leaf hard fuel y x hy] at hg; cases hg
      · subst h0; exact ⟨_, rfl⟩

/-! ## Every leaf is visited once -/

theorem visits_chain (hard : Dict (List String)) (kids : String → List String)
    (hkids : ∀ x, kids x = (Dict.get? hard x).getD []) (fuel : Nat) (x y : String) (c : List String)
    (hc : UpChain kids (x :: c)) (hy : y ∈ visits hard fuel x) :
    ∃ l, UpChain kids l ∧ l.head? = some y ∧ (x :: c) <:+ l := by
  induction fuel generalizing x c with
  | zero => cases hy
  | succ fuel ih =>
    simp only [visits] at hy
    split at hy
    · next nest hn =>
      obtain ⟨z, hz, hy⟩ := List.mem_flatMap.1 hy
      have hzk : z ∈ kids x := by rw [hkids, hn]; exact hz
      obtain ⟨l, h1, h2, h3⟩ := ih z (x :: c) (.step hzk hc) hy
      exact ⟨l, h1, h2, (List.suffix_cons z _).trans h3⟩
    · rw [List.mem_singleton] at hy
      subst hy
      exact ⟨_, hc, rfl, List.suffix_refl _⟩

theorem chain_disjoint {kids : String → List String} (hu : ∀ x x' y, y ∈ kids x → y ∈ kids x' → x = x')
    {l l' : List String} {y : String} (h : UpChain kids l) (h' : UpChain kids l') (hy : l.head? = some y)
    (hy' : l'.head? = some y) : l = l' := by
  cases l with
  | nil => cases hy
  | cons a c =>
    cases l' with
    | nil => cases hy'
    | cons a' c' =>
      simp only [List.head?_cons, Option.some.injEq] at hy hy'
      subst hy hy'
      rw [UpChain.unique hu h h']

theorem visits_nodup (hard : Dict (List String)) (kids : String → List String)
    (hkids : ∀ x, kids x = (Dict.get? hard x).getD []) (hu : ∀ x x' y, y ∈ kids x → y ∈ kids x' → x = x')
    (hnd : ∀ x, (kids x).Nodup) (fuel : Nat) (x : String) (c : List String) (hc : UpChain kids (x :: c)) :
    (visits hard fuel x).Nodup := by
  induction fuel generalizing x c with
  | zero => exact List.nodup_nil
  | succ fuel ih =>
    simp only [visits]
    split
    · next nest hn =>
      have hke : kids x = nest := by rw [hkids, hn]; rfl
      have hnn : nest.Nodup := hke ▸ hnd x
      rw [List.nodup_flatMap]
      refine ⟨fun z hz => ih z (x :: c) (.step (hke ▸ hz) hc), ?_⟩
      refine hnn.imp_of_mem ?_
      intro a b ha hb hab
      rw [Function.onFun]
      intro y hya hyb
      obtain ⟨l, l1, l2, l3⟩ := visits_chain hard kids hkids fuel a y (x :: c) (.step (hke ▸ ha) hc) hya
      obtain ⟨l', l1', l2', l3'⟩ := visits_chain hard kids hkids fuel b y (x :: c) (.step (hke ▸ hb) hc) hyb
      have hll := chain_disjoint hu l1 l1' l2 l2'
      subst hll
      have := List.suffix_of_suffix_length_le l3 l3' (by simp)
      have := this.eq_of_length (by simp)
      simp only [List.cons.injEq] at this
      exact hab this.1
    · simp

theorem visits_roots_nodup (hard : Dict (List String)) (kids : String → List String)
    (hkids : ∀ x, kids x = (Dict.get? hard x).getD []) (hu : ∀ x x' y, y ∈ kids x → y ∈ kids x' → x = x')
    (hnd : ∀ x, (kids x).Nodup) (fuel : Nat) (rs : List String) (hrs : rs.Nodup)
    (hroot : ∀ r ∈ rs, ∀ z, r ∉ kids z) : (rs.flatMap (visits hard fuel)).Nodup := by
  rw [List.nodup_flatMap]
  refine ⟨fun r hr => visits_nodup hard kids hkids hu hnd fuel r [] (.root (hroot r hr)), ?_⟩
  refine hrs.imp_of_mem ?_
  intro a b ha hb hab
  rw [Function.onFun]
  intro y hya hyb
  obtain ⟨l, l1, l2, l3⟩ := visits_chain hard kids hkids fuel a y [] (.root (hroot a ha)) hya
  obtain ⟨l', l1', l2', l3'⟩ := visits_chain hard kids hkids fuel b y [] (.root (hroot b hb)) hyb
  have hll := chain_disjoint hu l1 l1' l2 l2'
  subst hll
  have := List.suffix_of_suffix_length_le l3 l3' (by simp)
  have := this.eq_of_length (by simp)
  simp only [List.cons.injEq] at this
  exact hab this.1

end Gcl
