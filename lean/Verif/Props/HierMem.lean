import Verif.Lemmas.HierMem
import Verif.Props.Hier
/-! # Property C116: `hierarchy` writes into masks in place, but only into its own copies -/
namespace Gcl
set_option autoImplicit false
open Spec

/-! ## The private copy -/

/-- The objects of a copied group of arrays, placed from address `n` on. -/
def copyObjs : Nat → Dict (List Bool) → List HObj
  | _, [] => []
  | n, (_, d) :: ds => .buf d :: .mask n :: copyObjs (n + 2) ds

/-- The members of the copied group. -/
def copyEntries : Nat → Dict (List Bool) → List (String × Nat)
  | _, [] => []
  | n, (k, _) :: ds => (k, n + 1) :: copyEntries (n + 2) ds

theorem copyKids_arrays (fuel : Nat) (h0 : MHeap) (es : List (String × Nat)) (ds : Dict (List Bool))
    (hm : List.Forall₂ (fun e k => e.1 = k.1 ∧ ShowsMask h0 e.2 (.arr k.2)) es ds) (h : MHeap) (hp : h0 <+: h) :
    copyKids (copyObj (fuel + 1)) h es = .ok (h ++ copyObjs h.length ds, copyEntries h.length ds) := by
  induction hm generalizing h with
  | nil => simp [copyKids, copyObjs, copyEntries]
  | @cons e k es ds h1 _ ih =>
    obtain ⟨a, v⟩ := e
    obtain ⟨c, d⟩ := k
    obtain ⟨h1, h2⟩ := h1
    simp only at h1 h2
    subst h1
    cases showsMask_prefix hp h2 with
    | arr h3 h4 =>
      have := ih (h ++ [.buf d, .mask h.length]) (hp.trans (List.prefix_append _ _))
      have h5 : copyObj (fuel + 1) h v = .ok (h ++ [.buf d, .mask h.length], h.length + 1) := by
        simp only [copyObj, h3, h4]
      simp only [copyKids, h5]
      rw [this]
      simp [copyObjs, copyEntries]

theorem allocKids_arrays (ds : Dict (List Bool)) (h : MHeap) :
    allocKids (ds.map (fun p => (p.1, Mask.arr p.2))) h =
      (h ++ copyObjs h.length ds, copyEntries h.length ds) := by
  induction ds generalizing h with
  | nil => simp [allocKids, copyObjs, copyEntries]
  | cons p ds ih =>
    obtain ⟨k, d⟩ := p
    simp only [List.map_cons, allocKids, allocMask, ih]
    simp [copyObjs, copyEntries]

theorem copyEntries_get (ds : Dict (List Bool)) (n : Nat) (H : MHeap) (pre post : List HObj) (hn : pre.length = n)
    (hH : H = pre ++ copyObjs n ds ++ post) (k : String) :
    (Dict.get? ds k = none → Dict.get? (copyEntries n ds) k = none) ∧
    ∀ v, Dict.get? (copyEntries n ds) k = some v → n < v ∧ ∃ d, Dict.get? ds k = some d ∧
      H[v]? = some (.mask (v - 1)) ∧ H[v - 1]? = some (.buf d) := by
  induction ds generalizing n pre with
  | nil =>
    refine ⟨fun _ => rfl, fun v hv => ?_⟩
    cases hv
  | cons p ds ih =>
    obtain ⟨k0, d⟩ := p
    simp only [copyEntries, Dict.get?_cons]
    obtain ⟨i1, i2⟩ := ih (n + 2) (pre ++ [.buf d, .mask n]) (by simp [hn]) (by
      rw [hH]; simp [copyObjs])
    by_cases hk : k0 = k
    · rw [if_pos hk, if_pos hk]
      refine ⟨fun h => (by cases h), fun v hv => ?_⟩
      cases hv
      refine ⟨by omega, d, rfl, ?_, ?_⟩
      · rw [hH, List.append_assoc, List.getElem?_append_right (by omega), hn]
        simp [copyObjs]
      · rw [hH, List.append_assoc, List.getElem?_append_right (by omega), hn]
        simp [copyObjs]
    · rw [if_neg hk, if_neg hk]
      refine ⟨i1, fun v hv => ?_⟩
      obtain ⟨j1, j2⟩ := i2 v hv
      exact ⟨by omega, j2⟩

theorem copyEntries_inj (ds : Dict (List Bool)) (n : Nat) (k k' : String) (v v' : Nat)
    (h : Dict.get? (copyEntries n ds) k = some v) (h' : Dict.get? (copyEntries n ds) k' = some v')
    (hv : v - 1 = v' - 1) : k = k' := by
  have key : ∀ (ds : Dict (List Bool)) (n : Nat) (k : String) (v : Nat),
      Dict.get? (copyEntries n ds) k = some v → n < v := by
    intro ds n k v hv
    exact ((copyEntries_get ds n (List.replicate n (.buf []) ++ copyObjs n ds ++ []) (List.replicate n (.buf [])) []
      (by simp) rfl k).2 v hv).1
  induction ds generalizing n with
  | nil => cases h
  | cons p ds ih =>
    obtain ⟨k0, d⟩ := p
    simp only [copyEntries, Dict.get?_cons] at h h'
    split at h
    · next e1 =>
      split at h'
      · next e2 => rw [← e1, ← e2]
      · have := key _ _ _ _ h'
        cases h
        omega
    · split at h'
      · have := key _ _ _ _ h
        cases h'
        omega
      · exact ih _ h h'

theorem readAll_copy (ds : Dict (List Bool)) (n : Nat) (H : MHeap) (pre post : List HObj) (hn : pre.length = n)
    (hH : H = pre ++ copyObjs n ds ++ post) : readAll H (copyEntries n ds) = .ok ds := by
  induction ds generalizing n pre with
  | nil => rfl
  | cons p ds ih =>
    obtain ⟨k, d⟩ := p
    have h1 : H[n + 1]? = some (.mask n) := by
      rw [hH, List.append_assoc, List.getElem?_append_right (by omega), hn]; simp [copyObjs]
    have h2 : H[n]? = some (.buf d) := by
      rw [hH, List.append_assoc, List.getElem?_append_right (by omega), hn]; simp [copyObjs]
    have := ih (n + 2) (pre ++ [.buf d, .mask n]) (by simp [hn]) (by rw [hH]; simp [copyObjs])
    simp only [copyEntries, readAll, readMaskArr, h1, h2, this]

/-- The private masks hold the descriptors. -/
theorem inv_copy (ds : Dict (List Bool)) (h : MHeap) (op : Agg) :
    Inv (copyEntries h.length ds) (fun k => (Dict.get? (copyEntries h.length ds) k).map (· - 1)) ds []
      (h ++ copyObjs h.length ds ++ [HObj.group op (copyEntries h.length ds)]) := by
  have hget := copyEntries_get ds h.length _ h [HObj.group op (copyEntries h.length ds)] rfl rfl
  refine ⟨⟨?_, ?_, ?_⟩, fun k hk => (hget k).1 hk, ?_⟩
  · intro k v hv
    obtain ⟨-, d, -, h2, -⟩ := (hget k).2 v hv
    exact ⟨v - 1, by simp only [hv]; rfl, h2⟩
  · intro k b hb
    obtain ⟨v, hv, rfl⟩ := Option.map_eq_some_iff.1 hb
    obtain ⟨-, d, -, -, h3⟩ := (hget k).2 v hv
    exact ⟨⟨v, hv⟩, d, h3⟩
  · intro k k' b hb hb'
    obtain ⟨v, hv, h1⟩ := Option.map_eq_some_iff.1 hb
    obtain ⟨v', hv', h1'⟩ := Option.map_eq_some_iff.1 hb'
    exact copyEntries_inj ds _ k k' v v' hv hv' (h1.trans h1'.symm)
  · intro k d hk _
    cases hg : Dict.get? (copyEntries h.length ds) k with
    | none =>
      exfalso
      have : ∀ (ds : Dict (List Bool)) (n : Nat), Dict.get? (copyEntries n ds) k = none → Dict.get? ds k = none := by
        intro ds
        induction ds with
        | nil => intro _ _; rfl
        | cons p ds ih =>
          intro n hn
          obtain ⟨k0, d0⟩ := p
          simp only [copyEntries, Dict.get?_cons] at hn ⊢
          split
          · next he => rw [if_pos he] at hn; cases hn
          · next he => rw [if_neg he] at hn; exact ih _ hn
      rw [this ds _ hg] at hk
      cases hk
    | some v =>
      obtain ⟨-, d', h1, h2, h3⟩ := (hget k).2 v hg
      rw [hk] at h1
      cases h1
      exact ⟨v, v - 1, hg, by simp only [hg]; rfl, h2, h3⟩

/-! ## The dictionary of parents, for any masks -/

theorem ancestorRows_rows (n : Nat) (ds : List (List Bool)) (i : Nat) (A : List (List Bool))
    (h : ancestorRows n i ds = .ok A) : A.length = ds.length ∧ ∀ r ∈ A, r.length = n := by
  induction ds generalizing i A with
  | nil => cases h; simp
  | cons d ds ih =>
    simp only [ancestorRows] at h
    split at h
    · cases h
    · next r hr =>
      split at h
      · cases h
      · next rs hrs =>
        cases h
        obtain ⟨h1, h2⟩ := ih _ _ hrs
        have hrl : r.length = n := by
          unfold matRow at hr
          split at hr
          · next hd => cases hr; exact hd
          · split at hr
            · cases hr; simp
            · cases hr
        refine ⟨by simp [h1], fun r' hr' => ?_⟩
        rcases List.mem_cons.1 hr' with rfl | hr'
        · simpa using hrl
        · exact h2 r' hr'

theorem flat_forest (hd : Dict (List Bool)) (hk : (Dict.keys hd).Nodup) (flat : Dict (List String))
    (h : flatHierarchy hd = .ok flat) :
    (Dict.keys flat).Nodup ∧ (∀ x, ((Dict.get? flat x).getD []).Nodup) ∧
    ∀ x x' y, y ∈ (Dict.get? flat x).getD [] → y ∈ (Dict.get? flat x').getD [] → x = x' := by
  unfold flatHierarchy at h
  split at h
  · cases h
  · next A hA =>
    cases h
    obtain ⟨hl, hr⟩ := ancestorRows_rows _ _ _ _ hA
    obtain ⟨p1, p2, p3⟩ := parentMatrix_spec A hr
    obtain ⟨q1, q2⟩ := parentDict_spec (parentMatrix A) (Dict.keys hd) hk (by
      rw [p2, hl]; simp [Dict.keys])
    have hmem : ∀ x y, y ∈ (Dict.get? (parentDict (parentMatrix A) (Dict.keys hd)) x).getD [] →
        ∃ (i c : Nat), (Dict.keys hd)[i]? = some x ∧ (Dict.keys hd)[c]? = some y ∧
          tab (parentMatrix A) i c = true := by
      intro x y hy
      cases hx : Dict.get? (parentDict (parentMatrix A) (Dict.keys hd)) x with
      | none => rw [hx] at hy; cases hy
      | some cs =>
        rw [hx] at hy
        obtain ⟨i, r, h1, h2, -, h4⟩ := (q2 x cs).1 (Dict.mem_of_get? hx)
        have hy : y ∈ cs := hy
        rw [h4, mem_compress] at hy
        obtain ⟨c, c1, c2⟩ := hy
        exact ⟨i, c, h1, c1, (tab_true_iff _ _ _).2 ⟨r, h2, c2⟩⟩
    refine ⟨q1, fun x => ?_, fun x x' y hy hy' => ?_⟩
    · cases hx : Dict.get? (parentDict (parentMatrix A) (Dict.keys hd)) x with
      | none => exact List.nodup_nil
      | some cs =>
        obtain ⟨i, r, -, -, -, h4⟩ := (q2 x cs).1 (Dict.mem_of_get? hx)
        show cs.Nodup
        rw [h4]
        exact hk.sublist (compress_sublist _ _)
    · obtain ⟨i, c, h1, h2, h3⟩ := hmem x y hy
      obtain ⟨i', c', h1', h2', h3'⟩ := hmem x' y hy'
      have hcc : c = c' := by
        obtain ⟨hc, e1⟩ := List.getElem?_eq_some_iff.1 h2
        obtain ⟨hc', e1'⟩ := List.getElem?_eq_some_iff.1 h2'
        exact (List.Nodup.getElem_inj_iff hk).1 (e1.trans e1'.symm)
      subst hcc
      by_cases hi : i = i'
      · subst hi
        rw [h1] at h1'
        exact Option.some.inj h1'
      · have b1 := ((p3 i c).1 h3).2 i' ((p3 i' c).1 h3').1 (Ne.symm hi)
        have b2 := ((p3 i' c).1 h3').2 i ((p3 i c).1 h3).1 hi
        unfold Before at b1 b2
        omega

theorem selectNames_nodup (g acc out : Dict (List Bool)) (names : List String) (hn : (Dict.keys acc).Nodup)
    (h : selectNames g acc names = .ok out) : (Dict.keys out).Nodup := by
  induction names generalizing acc with
  | nil => cases h; exact hn
  | cons k names ih =>
    simp only [selectNames] at h
    split at h
    · cases h
    · exact ih _ (Dict.nodup_keys_set hn _ _) h

/-- The tree part of `hierarchy`, on the private masks. -/
theorem hierarchyTreeH_spec (names : List String) (hard final : List Bool) (es : List (Int × Int)) (h : MHeap)
    (op : Agg) (ds : Dict (List Bool)) :
    let h1 := h ++ copyObjs h.length ds ++ [HObj.group op (copyEntries h.length ds)]
    let r := hierarchyTreeH names hard final es h1 (h1.length - 1)
    (∀ x : Nat, x < h.length → r.1[x]? = h[x]?) ∧
    match hierarchyTree names hard final es ds with
    | .error e => r.2 = .error e
    | .ok out => ∃ b, r.2 = .ok b ∧ h.length ≤ b ∧ ShowsMask r.1 b (.grp .or out) := by
  intro h1 r
  have hinv := inv_copy ds h op
  set entries := copyEntries h.length ds with hentries
  set β : String → Option Nat := fun k => (Dict.get? entries k).map (· - 1) with hβ
  have hpre : ∀ x : Nat, x < h.length → h1[x]? = h[x]? := by
    intro x hx
    show (h ++ copyObjs h.length ds ++ [HObj.group op entries])[x]? = _
    rw [List.append_assoc, List.getElem?_append_left hx]
  have hframe : ∀ h2 W, Frame β h1 h2 W → ∀ x : Nat, x < h.length → h2[x]? = h[x]? := by
    intro h2 W f x hx
    rw [f.same x (by show x < (h ++ copyObjs h.length ds ++ [HObj.group op entries]).length; simp; omega) ?_, hpre x hx]
    intro k _ hk
    obtain ⟨v, hv, hvx⟩ := Option.map_eq_some_iff.1 hk
    have := ((copyEntries_get ds h.length h1 h [HObj.group op entries] rfl rfl k).2 v hv).1
    omega
  have hgrp : h1[h1.length - 1]? = some (.group op entries) := by
    have : h1.length - 1 = (h ++ copyObjs h.length ds).length := by
      show (h ++ copyObjs h.length ds ++ [HObj.group op entries]).length - 1 = _
      simp
    rw [this]
    exact List.getElem?_concat_length
  have hread : readAll h1 entries = .ok ds := readAll_copy ds h.length h1 h _ rfl rfl
  have hr : r = hierarchyTreeH names hard final es h1 (h1.length - 1) := rfl
  unfold hierarchyTreeH at hr
  simp only [hgrp, hread] at hr
  unfold hierarchyTree
  cases c1 : sliceAll hard ds with
  | error e => rw [c1] at hr; rw [hr]; exact ⟨hpre, rfl⟩
  | ok sliced =>
    rw [c1] at hr
    simp only at hr ⊢
    cases c2 : selectNames sliced [] names with
    | error e => rw [c2] at hr; rw [hr]; exact ⟨hpre, rfl⟩
    | ok hd =>
      rw [c2] at hr
      simp only at hr ⊢
      cases c3 : flatHierarchy hd with
      | error e => rw [c3] at hr; rw [hr]; exact ⟨hpre, rfl⟩
      | ok flat =>
        rw [c3] at hr
        simp only at hr ⊢
        cases c4 : bcast2 (· && ·) hard final with
        | error e => rw [c4] at hr; rw [hr]; exact ⟨hpre, rfl⟩
        | ok hf =>
          rw [c4] at hr
          simp only at hr ⊢
          have hmark : ∃ W, Frame β h1 (markFinalH names hard hf entries h1).1 W ∧
              match markFinal names hard hf ds with
              | .error e => (markFinalH names hard hf entries h1).2 = .error e
              | .ok D' => (markFinalH names hard hf entries h1).2 = .ok () ∧
                  Inv entries β D' [] (markFinalH names hard hf entries h1).1 := by
            unfold markFinalH markFinal
            by_cases hany : hf.any id = true
            · simp only [hany, if_true]
              cases c5 : (Key.mask hard).apply hf with
              | error e => exact ⟨[], Frame.refl _ _ _, rfl⟩
              | ok l => exact ⟨_, markAllH_spec _ hinv⟩
            · simp only [hany]
              exact ⟨[], Frame.refl _ _ _, rfl, hinv⟩
          obtain ⟨W, fr, hm⟩ := hmark
          rcases hmf : markFinalH names hard hf entries h1 with ⟨h2, res⟩
          rw [hmf] at fr hm hr
          simp only at fr hm hr
          cases c6 : markFinal names hard hf ds with
          | error e =>
            rw [c6] at hm
            simp only at hm
            subst hm
            simp only at hr
            rw [hr]
            exact ⟨hframe h2 W fr, rfl⟩
          | ok D' =>
            rw [c6] at hm
            obtain ⟨rfl, hinv2⟩ := hm
            simp only at hr ⊢
            obtain ⟨k1, k2, k3⟩ := flat_forest hd (selectNames_nodup _ [] hd names (by simp [Dict.keys]) c2) flat c3
            have hnd : (((Dict.keys flat).filter (fun k => (hierRoots flat).contains k)).flatMap
                (visits flat (flat.length + 1))).Nodup := by
              refine visits_roots_nodup flat (fun x => (Dict.get? flat x).getD []) (fun _ => rfl)
                (fun x x' y => k3 x x' y) k2 _ _ (k1.filter _) ?_
              intro x hx z hz
              have hx2 := (List.mem_filter.1 hx).2
              have hx1 := (List.mem_filter.1 hx).1
              rw [List.contains_iff_mem] at hx2
              unfold hierRoots at hx2
              have := (List.mem_filter.1 hx2).2
              have hval : ((flat.map Prod.snd).flatten).contains x = true := by
                rw [List.contains_iff_mem, List.mem_flatten]
                cases hg : Dict.get? flat z with
                | none => rw [hg] at hz; cases hz
                | some cs =>
                  rw [hg] at hz
                  exact ⟨cs, List.mem_map.2 ⟨(z, cs), Dict.mem_of_get? hg, rfl⟩, hz⟩
              rw [hval, List.contains_iff_mem.2 hx1] at this
              cases this
            have ht := treeTopH_spec flat es flat.length (hierRoots flat) hinv2 hnd
            cases c7 : makeTreeTop flat D' es flat.length (hierRoots flat) with
            | error e =>
              rw [c7] at ht
              obtain ⟨f2, t2⟩ := ht
              rw [← hr] at f2 t2
              exact ⟨hframe _ _ (fr.trans f2), t2⟩
            | ok out =>
              rw [c7] at ht
              obtain ⟨hb, es', t1, f2, t3⟩ := ht
              rw [t1] at hr
              have fr3 : Frame β hb (hb ++ [HObj.group .or es']) [] := Frame.snoc _ _ _ _
              have hlen : h1.length ≤ hb.length := (fr.trans f2).len
              have hlen1 : h.length ≤ h1.length := by
                show h.length ≤ (h ++ copyObjs h.length ds ++ [HObj.group op entries]).length
                simp
              rw [hr]
              refine ⟨hframe _ _ ((fr.trans f2).trans fr3), hb.length, rfl, hlen1.trans hlen, ?_⟩
              have hst := group_stable (desc := entries) (β := β) (h2 := hb ++ [HObj.group .or es']) (g := hb.length)
                hinv.priv hlen (by simp) (t3.imp (fun a y hs => hs.frame fr3 (by simp)))
              exact readMask_shows _ _ _ _ hst.now

/-! ## New objects refer to new objects -/

/-- Objects from address `n` on refer to addresses from `n` on. -/
def NewFrom (n : Nat) (h : MHeap) : Prop :=
  n ≤ h.length ∧ ∀ (x : Nat) (o : HObj), n ≤ x → h[x]? = some o → ∀ y ∈ refs o, n ≤ y

theorem NewFrom.setBuf {n : Nat} {h : MHeap} (hn : NewFrom n h) (b : Nat) (d : List Bool) :
    NewFrom n (h.set b (.buf d)) := by
  refine ⟨by simpa using hn.1, fun x o hx ho y hy => ?_⟩
  rw [List.getElem?_set] at ho
  split at ho
  · split at ho
    · cases ho; cases hy
    · cases ho
  · exact hn.2 x o hx ho y hy

theorem NewFrom.snoc {n : Nat} {h : MHeap} (hn : NewFrom n h) (o : HObj) (ho : ∀ y ∈ refs o, n ≤ y) :
    NewFrom n (h ++ [o]) := by
  refine ⟨by have := hn.1; simp; omega, fun x o' hx ho' y hy => ?_⟩
  by_cases hl : x < h.length
  · rw [List.getElem?_append_left hl] at ho'
    exact hn.2 x o' hx ho' y hy
  · rw [List.getElem?_append_right (by omega)] at ho'
    cases hxl : x - h.length with
    | zero => rw [hxl] at ho'; cases ho'; exact ho y hy
    | succ k => rw [hxl] at ho'; cases ho'

theorem NewFrom.setGroup {n : Nat} {h : MHeap} (hn : NewFrom n h) (g : Nat) (o : HObj)
    (ho : ∀ y ∈ refs o, n ≤ y) : NewFrom n (h.set g o) := by
  refine ⟨by simpa using hn.1, fun x o' hx ho' y hy => ?_⟩
  rw [List.getElem?_set] at ho'
  split at ho'
  · split at ho'
    · cases ho'; exact ho y hy
    · cases ho'
  · exact hn.2 x o' hx ho' y hy

theorem mem_entries_set (es : List (String × Nat)) (k : String) (v : Nat) (e : String × Nat)
    (h : e ∈ Dict.set es k v) : e.2 = v ∨ e ∈ es := by
  induction es with
  | nil =>
    simp only [Dict.set, List.mem_singleton] at h
    subst h; exact Or.inl rfl
  | cons p es ih =>
    obtain ⟨a, b⟩ := p
    simp only [Dict.set] at h
    split at h
    · rcases List.mem_cons.1 h with rfl | h
      · exact Or.inl rfl
      · exact Or.inr (List.mem_cons_of_mem _ h)
    · rcases List.mem_cons.1 h with rfl | h
      · exact Or.inr List.mem_cons_self
      · rcases ih h with h | h
        · exact Or.inl h
        · exact Or.inr (List.mem_cons_of_mem _ h)

/-- The heap afterwards, and the object returned, are new. -/
def NewStep (n : Nat) (r : MHeap × Py Nat) : Prop := NewFrom n r.1 ∧ ∀ a, r.2 = .ok a → n ≤ a

theorem leafH_new (n : Nat) (es : List (Int × Int)) (desc : List (String × Nat)) (hd : ∀ e ∈ desc, n ≤ e.2) (h : MHeap)
    (hn : NewFrom n h) (x : String) : NewStep n (leafH es desc h x) := by
  unfold leafH
  split
  · exact ⟨hn, fun a ha => by cases ha⟩
  · next v hv =>
    have hvn : n ≤ v := hd _ (Dict.mem_of_get? hv)
    split
    · split
      · split
        · exact ⟨hn, fun a ha => by cases ha⟩
        · exact ⟨hn, fun a ha => by cases ha⟩
        · split
          · split
            · exact ⟨hn, fun a ha => by cases ha⟩
            · exact ⟨hn.setBuf _ _, fun a ha => by cases ha; exact hvn⟩
          · exact ⟨hn, fun a ha => by cases ha; exact hvn⟩
      · exact ⟨hn, fun a ha => by cases ha⟩
    · exact ⟨hn, fun a ha => by cases ha⟩

theorem latentH_new (n fuel : Nat) (desc : List (String × Nat)) (h : MHeap)
    (hn : NewFrom n h) (x : String) (g : Nat) (hg : n ≤ g) : NewStep n (latentH fuel desc h x g) := by
  unfold latentH
  split
  · next op es hes =>
    split
    · exact ⟨hn, fun a ha => by cases ha⟩
    · split
      · exact ⟨hn, fun a ha => by cases ha⟩
      · split
        · exact ⟨hn, fun a ha => by cases ha⟩
        · split
          · exact ⟨hn, fun a ha => by cases ha⟩
          · split
            · exact ⟨hn, fun a ha => by cases ha⟩
            · next l _ =>
              refine ⟨?_, fun a ha => by cases ha; exact hg⟩
              have h1 : NewFrom n (h ++ [HObj.buf l]) := hn.snoc _ (by simp [refs])
              have h2 : NewFrom n ((h ++ [HObj.buf l]) ++ [HObj.mask h.length]) :=
                h1.snoc _ (by simp only [refs, List.mem_singleton]; intro y hy; rw [hy]; exact hn.1)
              rw [List.append_assoc] at h2
              refine NewFrom.setGroup h2 _ _ ?_
              intro y hy
              simp only [refs, List.mem_map] at hy
              obtain ⟨e, he, rfl⟩ := hy
              rcases mem_entries_set _ _ _ _ he with he | he
              · rw [he]; have := hn.1; omega
              · exact hn.2 g _ hg hes _ (List.mem_map.2 ⟨e, he, rfl⟩)
  · exact ⟨hn, fun a ha => by cases ha⟩

theorem branchH_new (n : Nat) (f : MHeap → String → MHeap × Py Nat)
    (hf : ∀ h x, NewFrom n h → NewStep n (f h x)) (xs : List String) (h : MHeap) (hn : NewFrom n h)
    (acc : List (String × Nat)) (ha : ∀ e ∈ acc, n ≤ e.2) : NewStep n (allocGroup (branchH f h acc xs)) := by
  induction xs generalizing h acc with
  | nil =>
    refine ⟨hn.snoc _ ?_, fun a ha' => by cases ha'; exact hn.1⟩
    intro y hy
    simp only [refs, List.mem_map] at hy
    obtain ⟨e, he, rfl⟩ := hy
    exact ha e he
  | cons x xs ih =>
    obtain ⟨h1, h2⟩ := hf h x hn
    simp only [branchH]
    rcases hfx : f h x with ⟨h', res⟩
    rw [hfx] at h1 h2
    cases res with
    | error e => exact ⟨h1, fun a ha' => by cases ha'⟩
    | ok v =>
      refine ih h' h1 _ (fun e he => ?_)
      rcases mem_entries_set _ _ _ _ he with he | he
      · rw [he]; exact h2 v rfl
      · exact ha e he

theorem treeH_new (n : Nat) (hard : Dict (List String)) (es : List (Int × Int)) (desc : List (String × Nat))
    (hd : ∀ e ∈ desc, n ≤ e.2) (fuel : Nat) (h : MHeap) (hn : NewFrom n h) (xs : List String) :
    NewStep n (treeH hard es desc fuel h xs) := by
  induction fuel generalizing h xs with
  | zero => exact ⟨hn, fun a ha => by cases ha⟩
  | succ fuel ih =>
    simp only [treeH]
    refine branchH_new n _ (fun h x hn => ?_) xs h hn [] (by simp)
    split
    · next nest _ =>
      have := ih h hn nest
      rcases ht : treeH hard es desc fuel h nest with ⟨h1, res⟩
      rw [ht] at this
      cases res with
      | error e => exact ⟨this.1, fun a ha => by cases ha⟩
      | ok g => exact latentH_new n fuel desc h1 this.1 x g (this.2 g rfl)
    · exact leafH_new n es desc hd h hn x

theorem treeTopH_new (n : Nat) (hard : Dict (List String)) (es : List (Int × Int)) (desc : List (String × Nat))
    (hd : ∀ e ∈ desc, n ≤ e.2) (fuel : Nat) (h : MHeap) (hn : NewFrom n h) (roots : List String) :
    NewStep n (treeTopH hard es desc fuel h roots) := by
  unfold treeTopH
  refine branchH_new n _ (fun h x hn => ?_) _ h hn [] (by simp)
  split
  · next nest _ =>
    have := treeH_new n hard es desc hd fuel h hn nest
    rcases ht : treeH hard es desc fuel h nest with ⟨h1, res⟩
    rw [ht] at this
    cases res with
    | error e => exact ⟨this.1, fun a ha => by cases ha⟩
    | ok g => exact latentH_new n fuel desc h1 this.1 x g (this.2 g rfl)
  · exact ⟨hn, fun a ha => by cases ha⟩

theorem markAllH_new (n : Nat) (desc : List (String × Nat)) (h : MHeap) (hn : NewFrom n h)
    (ps : List (String × Nat)) : NewFrom n (markAllH desc h ps).1 := by
  induction ps generalizing h with
  | nil => exact hn
  | cons p ps ih =>
    obtain ⟨key, idx⟩ := p
    have h1 : NewFrom n (markOneH desc h key idx).1 := by
      unfold markOneH
      split
      · exact hn
      · split
        · split
          · split
            · exact hn.setBuf _ _
            · exact hn
          · exact hn
        · exact hn
    simp only [markAllH]
    rcases hm : markOneH desc h key idx with ⟨h', res⟩
    rw [hm] at h1
    cases res with
    | error e => exact h1
    | ok u => exact ih h' h1

theorem hierarchyTreeH_new (n : Nat) (names : List String) (hard final : List Bool) (es : List (Int × Int)) (h : MHeap)
    (hn : NewFrom n h) (a : Nat) (ha : n ≤ a) : NewStep n (hierarchyTreeH names hard final es h a) := by
  unfold hierarchyTreeH
  split
  · next op entries hg =>
    have hd : ∀ e ∈ entries, n ≤ e.2 := fun e he => hn.2 a _ ha hg e.2 (List.mem_map.2 ⟨e, he, rfl⟩)
    split
    · exact ⟨hn, fun a ha => by cases ha⟩
    · split
      · exact ⟨hn, fun a ha => by cases ha⟩
      · split
        · exact ⟨hn, fun a ha => by cases ha⟩
        · split
          · exact ⟨hn, fun a ha => by cases ha⟩
          · split
            · exact ⟨hn, fun a ha => by cases ha⟩
            · next hf _ =>
              have h1 : NewFrom n (markFinalH names hard hf entries h).1 := by
                unfold markFinalH
                split
                · split
                  · exact hn
                  · exact markAllH_new n entries h hn _
                · exact hn
              split
              · next h2 e hm => rw [hm] at h1; exact ⟨h1, fun a ha => by cases ha⟩
              · next h2 hm => rw [hm] at h1; exact treeTopH_new n _ es entries hd _ h2 h1 _
  · exact ⟨hn, fun a ha => by cases ha⟩

theorem reaches_new {n : Nat} {h : MHeap} (hn : NewFrom n h) {a x : Nat} (ha : n ≤ a) (hr : Reaches h a x) : n ≤ x := by
  induction hr with
  | here => exact ha
  | step _ h2 h3 ih => exact hn.2 _ _ ih h2 _ h3

theorem copyObjs_new (ds : Dict (List Bool)) (h : MHeap) (n : Nat) (hn : NewFrom n h) :
    NewFrom n (h ++ copyObjs h.length ds) := by
  induction ds generalizing h with
  | nil => simpa [copyObjs] using hn
  | cons p ds ih =>
    obtain ⟨k, d⟩ := p
    have h1 : NewFrom n (h ++ [HObj.buf d]) := hn.snoc _ (by simp [refs])
    have h2 : NewFrom n ((h ++ [HObj.buf d]) ++ [HObj.mask h.length]) :=
      h1.snoc _ (by simp only [refs, List.mem_singleton]; intro y hy; rw [hy]; exact hn.1)
    have := ih _ h2
    simpa [copyObjs] using this

theorem copyEntries_lt (ds : Dict (List Bool)) (n : Nat) (e : String × Nat) (he : e ∈ copyEntries n ds) : n ≤ e.2 := by
  induction ds generalizing n with
  | nil => cases he
  | cons p ds ih =>
    obtain ⟨k, d⟩ := p
    rcases List.mem_cons.1 he with rfl | he
    · simp
    · have := ih (n + 2) he; omega

theorem private_new (ds : Dict (List Bool)) (h : MHeap) (op : Agg) :
    NewFrom h.length (h ++ copyObjs h.length ds ++ [HObj.group op (copyEntries h.length ds)]) := by
  have h0 : NewFrom h.length h := ⟨Nat.le_refl _, fun x o hx ho => by
    have := (List.getElem?_eq_some_iff.1 ho).1
    omega⟩
  refine (copyObjs_new ds h _ h0).snoc _ ?_
  intro y hy
  simp only [refs, List.mem_map] at hy
  obtain ⟨e, he, rfl⟩ := hy
  exact copyEntries_lt ds _ e he

/-! ## C116 -/

theorem markAll_keys (g g' : Dict (List Bool)) (ps : List (String × Nat)) (h : markAll g ps = .ok g') :
    Dict.keys g' = Dict.keys g := by
  induction ps generalizing g with
  | nil => cases h; rfl
  | cons p ps ih =>
    obtain ⟨k, i⟩ := p
    simp only [markAll] at h
    split at h
    · cases h
    · next g1 h1 =>
      rw [ih g1 h]
      unfold markOne at h1
      split at h1
      · cases h1
      · next d hd =>
        split at h1
        · cases h1
          rw [Dict.keys_set, if_pos]
          exact List.mem_map.2 ⟨(k, d), Dict.mem_of_get? hd, rfl⟩
        · cases h1

/-- The descendants `hierarchy` works with. -/
def givenDesc (nm : Int → String) (pdg status : List Int) (es : List (Int × Int)) :
    Option (Dict (List Bool)) → Py (Dict (List Bool))
  | none => hardDescendants nm pdg status es none false true
  | some d => .ok d

theorem hierarchy_given (nm : Int → String) (pdg status : List Int) (final : List Bool) (es : List (Int × Int))
    (given : Option (Dict (List Bool))) :
    hierarchy nm pdg status final es given =
      match (Key.mask (hardBools status)).apply pdg with
      | .error e => .error e
      | .ok hardPdg =>
        match givenDesc nm pdg status es given with
        | .error e => .error e
        | .ok desc =>
          if !((status.map (fun s => decide (s.natAbs = 22))).any id) then
            .ok (desc.map (fun p => (p.1, Mask.arr p.2)))
          else hierarchyTree (pdgsToKeys (hardPdg.map nm)) (hardBools status) final es desc := by
  obtain ⟨hg, g1, g2, g3⟩ := hardGroup_or status
  unfold hierarchy
  simp only [g1, g2, g3, Mask.data]
  cases given <;> rfl

/-- What `hierarchy` does, given the private masks. -/
theorem hierarchyH_private (nm : Int → String) (pdg status : List Int) (final : List Bool) (es : List (Int × Int))
    (fuel : Nat) (h : MHeap) (desc? : Option Nat) (given : Option (Dict (List Bool))) (op : Agg)
    (hp : match givenDesc nm pdg status es given with
      | .error e => privateDesc nm pdg status es fuel h desc? = (h, .error e)
      | .ok ds => privateDesc nm pdg status es fuel h desc? =
          (h ++ copyObjs h.length ds ++ [HObj.group op (copyEntries h.length ds)],
            .ok (h ++ copyObjs h.length ds).length)) :
    let r := hierarchyH nm pdg status final es fuel h desc?
    (∀ x : Nat, x < h.length → r.1[x]? = h[x]?) ∧
    match hierarchy nm pdg status final es given with
    | .error e => r.2 = .error e
    | .ok out => ∃ b, r.2 = .ok b ∧ (∀ x, Reaches r.1 b x → h.length ≤ x) ∧
        ShowsMask r.1 b (.grp (if ∃ s ∈ status, s.natAbs = 22 then .or else op) out) := by
  intro r
  have hr : r = hierarchyH nm pdg status final es fuel h desc? := rfl
  obtain ⟨hg, g1, g2, g3⟩ := hardGroup_or status
  unfold hierarchyH at hr
  rw [hierarchy_given]
  simp only [g1, g2, g3, Mask.data] at hr ⊢
  cases hpd : (Key.mask (hardBools status)).apply pdg with
  | error e =>
    rw [hpd] at hr
    rw [hr]
    exact ⟨fun _ _ => rfl, rfl⟩
  | ok hardPdg =>
    rw [hpd] at hr
    simp only at hr ⊢
    cases hgv : givenDesc nm pdg status es given with
    | error e =>
      rw [hgv] at hp
      simp only at hp
      rw [hp] at hr
      rw [hr]
      exact ⟨fun _ _ => rfl, rfl⟩
    | ok ds =>
      rw [hgv] at hp
      simp only at hp
      rw [hp] at hr
      simp only at hr ⊢
      have hnew := private_new ds h op
      set h1 := h ++ copyObjs h.length ds ++ [HObj.group op (copyEntries h.length ds)] with hh1
      have hl1 : h1.length - 1 = (h ++ copyObjs h.length ds).length := by rw [hh1]; simp
      have hany : ((status.map (fun s => decide (s.natAbs = 22))).any id = true) ↔ ∃ s ∈ status, s.natAbs = 22 := by
        rw [List.any_map, List.any_eq_true]
        simp
      by_cases hi : ∃ s ∈ status, s.natAbs = 22
      · have hb := hany.2 hi
        rw [hb] at hr ⊢
        simp only [Bool.not_true, Bool.false_eq_true, if_false, if_pos hi] at hr ⊢
        have hspec := hierarchyTreeH_spec (pdgsToKeys (hardPdg.map nm)) (hardBools status) final es h op ds
        simp only at hspec
        rw [← hh1, hl1] at hspec
        have hns := hierarchyTreeH_new h.length (pdgsToKeys (hardPdg.map nm)) (hardBools status) final es h1 hnew
          (h ++ copyObjs h.length ds).length (by simp)
        rw [← hr] at hspec hns
        refine ⟨hspec.1, ?_⟩
        have h2 := hspec.2
        cases hth : hierarchyTree (pdgsToKeys (hardPdg.map nm)) (hardBools status) final es ds with
        | error e => rw [hth] at h2; exact h2
        | ok out =>
          rw [hth] at h2
          obtain ⟨b, b1, b2, b3⟩ := h2
          exact ⟨b, b1, fun x hx => reaches_new hns.1 b2 hx, b3⟩
      · have hb : (status.map (fun s => decide (s.natAbs = 22))).any id = false := by
          rw [← Bool.not_eq_true]
          exact fun h => hi (hany.1 h)
        rw [hb] at hr ⊢
        simp only [Bool.not_false, if_true, if_neg hi] at hr ⊢
        rw [hr]
        refine ⟨fun x hx => ?_, _, rfl, fun x hx => reaches_new hnew (by simp) hx, ?_⟩
        · rw [hh1, List.append_assoc, List.getElem?_append_left hx]
        · have hgrp : h1[(h ++ copyObjs h.length ds).length]? = some (.group op (copyEntries h.length ds)) := by
            rw [hh1]; exact List.getElem?_concat_length
          have key : ∀ (ds : Dict (List Bool)) (n : Nat) (pre post : List HObj), pre.length = n →
              h1 = pre ++ copyObjs n ds ++ post →
              readKids (readMask 1 h1) (copyEntries n ds) = .ok (ds.map (fun p => (p.1, Mask.arr p.2))) := by
            intro ds
            induction ds with
            | nil => intro n pre post _ _; rfl
            | cons p ds ih =>
              intro n pre post hn hH
              obtain ⟨k, d⟩ := p
              have e1 : h1[n + 1]? = some (.mask n) := by
                rw [hH, List.append_assoc, List.getElem?_append_right (by omega), hn]; simp [copyObjs]
              have e2 : h1[n]? = some (.buf d) := by
                rw [hH, List.append_assoc, List.getElem?_append_right (by omega), hn]; simp [copyObjs]
              have e3 := ih (n + 2) (pre ++ [.buf d, .mask n]) post (by simp [hn]) (by rw [hH]; simp [copyObjs])
              have e4 : readMask 1 h1 (n + 1) = .ok (.arr d) := by simp only [readMask, e1, e2]
              simp only [copyEntries, readKids, e4, e3, List.map_cons]
          apply readMask_shows 2
          simp only [readMask, hgrp]
          have := key ds h.length h [HObj.group op (copyEntries h.length ds)] rfl hh1
          simp only [readMask] at this
          rw [this]

/-- **C116** `hierarchy(graph, desc)` for a group `desc` of masks anywhere in memory, and every event: it sets entries
of masks in place, but all objects that existed before hold afterwards what they held before, whether it succeeds or
raises; it raises exactly when, and what, the computation on values raises; and otherwise the group returned shows
the tree computed on values, and shares no object with anything that existed before. -/
theorem C116_given (nm : Int → String) (pdg status : List Int) (final : List Bool) (es : List (Int × Int)) (fuel : Nat)
    (h : MHeap) (a : Nat) (op : Agg) (ds : Dict (List Bool))
    (hs : ShowsMask h a (.grp op (ds.map (fun p => (p.1, Mask.arr p.2))))) :
    let r := hierarchyH nm pdg status final es (fuel + 2) h (some a)
    (∀ x : Nat, x < h.length → r.1[x]? = h[x]?) ∧
    match hierarchy nm pdg status final es (some ds) with
    | .error e => r.2 = .error e
    | .ok out => ∃ b, r.2 = .ok b ∧ (∀ x, Reaches r.1 b x → h.length ≤ x) ∧
        ShowsMask r.1 b (.grp (if ∃ s ∈ status, s.natAbs = 22 then .or else op) out) := by
  apply hierarchyH_private
  simp only [privateDesc, givenDesc]
  generalize hks : ds.map (fun p => (p.1, Mask.arr p.2)) = ks at hs
  cases hs with
  | @grp _ _ entries _ h1 h2 h3 =>
    have hf : List.Forall₂ (fun e k => e.1 = k.1 ∧ ShowsMask h e.2 (.arr k.2)) entries ds := by
      have hl : entries.length = ds.length := by
        have := congrArg List.length h2
        rw [← hks] at this
        simpa using this.symm
      rw [List.forall₂_iff_get]
      refine ⟨hl, fun i hi hi' => ?_⟩
      have e1 : entries[i]? = some entries[i] := List.getElem?_eq_getElem hi
      have e2 : ks[i]? = some (ds[i].1, Mask.arr ds[i].2) := by
        rw [← hks, List.getElem?_map, List.getElem?_eq_getElem hi']; rfl
      refine ⟨?_, h3 i _ _ e1 e2⟩
      have := congrArg (fun l => l[i]?) h2
      simp only [List.getElem?_map, e1, e2, Option.map_some, Option.some.injEq] at this
      exact this.symm
    have hc := copyKids_arrays fuel h entries ds hf h (List.prefix_refl h)
    have : copyObj (fuel + 2) h a = .ok (h ++ copyObjs h.length ds ++ [HObj.group op (copyEntries h.length ds)],
        (h ++ copyObjs h.length ds).length) := by
      rw [copyObj, h1]
      simp only [hc]
    rw [this]

/-- **C116** The same when `desc` is left out. -/
theorem C116_default (nm : Int → String) (pdg status : List Int) (final : List Bool) (es : List (Int × Int))
    (fuel : Nat) (h : MHeap) :
    let r := hierarchyH nm pdg status final es fuel h none
    (∀ x : Nat, x < h.length → r.1[x]? = h[x]?) ∧
    match hierarchy nm pdg status final es none with
    | .error e => r.2 = .error e
    | .ok out => ∃ b, r.2 = .ok b ∧ (∀ x, Reaches r.1 b x → h.length ≤ x) ∧ ShowsMask r.1 b (.grp .or out) := by
  have := hierarchyH_private nm pdg status final es fuel h none none .or (by
    simp only [privateDesc, givenDesc]
    cases hd : hardDescendants nm pdg status es none false true with
    | error e => rfl
    | ok ds => simp only [allocMask, allocKids_arrays])
  simpa using this

/-! ### The hypotheses are met -/
section Example

/-- A group with the descendants of the example event, in memory. -/
def exMem : MHeap := copyObjs 0 exDesc ++ [HObj.group .and (copyEntries 0 exDesc)]

example : ShowsMask exMem 12 (.grp .and (exDesc.map (fun p => (p.1, Mask.arr p.2)))) :=
  readMask_shows 2 _ _ _ rfl
-- the call succeeds, writes in place (both into the copies only), and the result is the tree of C48
example : hierarchy exNames exPdg exStatus exFinal exEdges (some exDesc) = .ok exOut := rfl
example : ∃ b, (hierarchyH exNames exPdg exStatus exFinal exEdges 2 exMem (some 12)).2 = .ok b ∧
    readMask 9 (hierarchyH exNames exPdg exStatus exFinal exEdges 2 exMem (some 12)).1 b = .ok (.grp .or exOut) ∧
    (hierarchyH exNames exPdg exStatus exFinal exEdges 2 exMem (some 12)).1.take 13 = exMem := ⟨_, rfl, rfl, rfl⟩
-- the private copies did change
example : (hierarchyH exNames exPdg exStatus exFinal exEdges 2 exMem (some 12)).1.take 26 ≠
    (match copyObj 2 exMem 12 with | .ok (h, _) => h | .error _ => []) := by decide

end Example

end Gcl
