import Verif.Lemmas.Parent
import Verif.Lemmas.Hard
/-!
# C47: each hard parton is listed under its closest ancestor
-/
namespace Gcl
set_option autoImplicit false
open Spec

theorem ancestorRows_ok (n : Nat) (k : Nat) (ds : List (List Bool)) (h : ∀ d ∈ ds, d.length = n) :
    ∃ A, ancestorRows n k ds = .ok A ∧ A.length = ds.length ∧
      ∀ i : Nat, A[i]? = ds[i]?.map (fun d => d.set (k + i) false) := by
  induction ds generalizing k with
  | nil => exact ⟨[], rfl, rfl, by simp⟩
  | cons d ds ih =>
    obtain ⟨A, h1, h2, h3⟩ := ih (k + 1) (fun d' hd' => h d' (by simp [hd']))
    refine ⟨d.set k false :: A, ?_, by simp [h2], ?_⟩
    · simp [ancestorRows, matRow, h d (by simp), h1]
    · intro i
      cases i with
      | zero => simp
      | succ i =>
        simp only [List.getElem?_cons_succ, h3]
        congr 1
        funext d'
        congr 1
        omega

theorem trueIdxs_length (m : List Bool) : (trueIdxs m).length = m.count true := by
  have h := C20_mask_length m m rfl
  rw [← h, ← gather_nil_pos, gather_length]
  intro j hj
  have := trueIdxs_lt m 0 j hj
  omega

theorem popcount_eq (r : List Bool) :
    popcount r = ((List.range r.length).filter (fun c => (r[c]?).getD false)).length := by
  unfold popcount
  rw [← trueIdxs_length, trueIdxs_eq_filter]

theorem compress_sublist (names : List String) (m : List Bool) : (compress names m).Sublist names := by
  unfold compress
  induction names generalizing m with
  | nil => simp
  | cons x names ih =>
    cases m with
    | nil => simp
    | cons b m =>
      cases b
      · simp only [List.zip_cons_cons, List.filterMap_cons, Bool.false_eq_true, if_false]
        exact (ih m).cons _
      · simp only [List.zip_cons_cons, List.filterMap_cons, if_true]
        exact (ih m).cons_cons _

theorem mem_compress (names : List String) (m : List Bool) (y : String) :
    y ∈ compress names m ↔ ∃ c : Nat, names[c]? = some y ∧ m[c]? = some true := by
  unfold compress
  rw [List.mem_filterMap]
  constructor
  · rintro ⟨⟨a, b⟩, hab, h⟩
    split at h
    · next hb =>
      simp only at hb
      subst hb
      cases h
      obtain ⟨c, hc⟩ := List.mem_iff_getElem?.1 hab
      rw [List.getElem?_zip_eq_some] at hc
      exact ⟨c, hc.1, hc.2⟩
    · cases h
  · rintro ⟨c, h1, h2⟩
    refine ⟨(y, true), List.mem_iff_getElem?.2 ⟨c, ?_⟩, by simp⟩
    rw [List.getElem?_zip_eq_some]
    exact ⟨h1, h2⟩

theorem tab_true_iff (A : List (List Bool)) (i c : Nat) :
    tab A i c = true ↔ ∃ r, A[i]? = some r ∧ r[c]? = some true := by
  unfold tab
  rcases h : A[i]? with _ | r
  · simp
  · simp only [Option.getD_some, Option.some.injEq, exists_eq_left']
    rcases h' : r[c]? with _ | b
    · simp
    · simp

/-- The parent dictionary in terms of the parent matrix. -/
theorem parentDict_spec (P : List (List Bool)) (names : List String) (hn : names.Nodup)
    (hl : names.length = P.length) :
    (Dict.keys (parentDict P names)).Nodup ∧
    (∀ x cs, (x, cs) ∈ parentDict P names ↔ ∃ (i : Nat) (r : List Bool), names[i]? = some x ∧
      P[i]? = some r ∧ r.any id = true ∧ cs = compress names r) := by
  have hsub : (((names.zip P).filter (fun p => p.2.any id)).map
      (fun p => (p.1, compress names p.2))).map Prod.fst =
      ((names.zip P).filter (fun p => p.2.any id)).map Prod.fst := by
    rw [List.map_map]; rfl
  have hnd : (((names.zip P).filter (fun p => p.2.any id)).map
      (fun p => (p.1, compress names p.2))).map Prod.fst |>.Nodup := by
    rw [hsub]
    have h1 : ((names.zip P).filter (fun p => p.2.any id)).map Prod.fst |>.Sublist
        ((names.zip P).map Prod.fst) := List.Sublist.map _ List.filter_sublist
    rw [List.map_fst_zip (by omega)] at h1
    exact hn.sublist h1
  have hval : parentDict P names = ((names.zip P).filter (fun p => p.2.any id)).map
      (fun p => (p.1, compress names p.2)) := Dict.ofPairs_of_nodup _ hnd
  rw [hval]
  refine ⟨hnd, fun x cs => ?_⟩
  rw [List.mem_map]
  constructor
  · rintro ⟨⟨a, r⟩, hp, heq⟩
    simp only [Prod.mk.injEq] at heq
    rw [List.mem_filter] at hp
    obtain ⟨i, hi⟩ := List.mem_iff_getElem?.1 hp.1
    rw [List.getElem?_zip_eq_some] at hi
    exact ⟨i, r, by rw [hi.1, heq.1], hi.2, hp.2, heq.2.symm⟩
  · rintro ⟨i, r, h1, h2, h3, rfl⟩
    refine ⟨(x, r), List.mem_filter.2 ⟨List.mem_iff_getElem?.2 ⟨i, ?_⟩, h3⟩, rfl⟩
    rw [List.getElem?_zip_eq_some]
    exact ⟨h1, h2⟩

/-- **C47** For all descendant masks over the hard process (one per hard parton, distinct keys): the
parent/child dictionary built from them lists parton `c` among the children of parton `i` exactly when
`i` is the closest ancestor of `c`; a parton is a key exactly when it has a child; children are listed
in record order without repetition. -/
theorem C47_parent (hd : Dict (List Bool)) (hk : (hd.map Prod.fst).Nodup)
    (hl : ∀ d ∈ hd.map Prod.snd, d.length = hd.length) :
    ∃ flat, flatHierarchy hd = .ok flat ∧ (flat.map Prod.fst).Nodup ∧
      (∀ x cs, (x, cs) ∈ flat → x ∈ hd.map Prod.fst ∧ cs ≠ [] ∧ cs.Sublist (hd.map Prod.fst)) ∧
      ∀ (i c : Nat) (x y : String), (hd.map Prod.fst)[i]? = some x → (hd.map Prod.fst)[c]? = some y →
        ((∃ cs, (x, cs) ∈ flat ∧ y ∈ cs) ↔ IsParent (hd.map Prod.snd) i c) := by
  set names := hd.map Prod.fst with hnames
  set ds := hd.map Prod.snd with hds
  set n := hd.length with hn
  have hdsl : ds.length = n := by rw [hds, List.length_map]
  have hnl : names.length = n := by rw [hnames, List.length_map]
  obtain ⟨A, hA1, hA2, hA3⟩ := ancestorRows_ok n 0 ds hl
  have hrows : Rows n A := by
    intro r hr
    obtain ⟨i, hi⟩ := List.mem_iff_getElem?.1 hr
    rw [hA3] at hi
    obtain ⟨d, hd', rfl⟩ := Option.map_eq_some_iff.1 hi
    rw [List.length_set]; exact hl d (List.mem_of_getElem? hd')
  have htab : ∀ i c, tab A i c = isAnc ds i c := by
    intro i c
    unfold tab isAnc
    rw [hA3]
    rcases h : ds[i]? with _ | d
    · simp
    · simp only [Option.map_some, Option.getD_some, Nat.zero_add, Option.bind_some]
      rw [List.getElem?_set]
      by_cases hic : i = c
      · subst hic
        rw [if_pos rfl]
        split <;> simp
      · rw [if_neg hic]
        have : (i != c) = true := by simpa using hic
        rw [this]
        rcases d[c]? with _ | b
        · simp
        · cases b <;> simp
  obtain ⟨p1, p2, p3⟩ := parentMatrix_spec A hrows
  obtain ⟨q1, q2⟩ := parentDict_spec (parentMatrix A) names hk (by omega)
  have hcount : ∀ k : Nat, popcount (A[k]?.getD []) = descCount ds k := by
    intro k
    rw [popcount_eq]
    unfold descCount
    by_cases hkl : k < n
    · rw [rows_getD hrows (by omega), hdsl]
      congr 1
      apply List.filter_congr
      intro c _
      rw [← htab]; rfl
    · have h0 : A[k]? = none := List.getElem?_eq_none (by omega)
      have h1 : ds[k]? = none := List.getElem?_eq_none (by omega)
      have e1 : (List.range ds.length).filter (isAnc ds k) = [] := by
        rw [List.filter_eq_nil_iff]
        intro c _
        simp [isAnc, h1]
      rw [h0, e1]
      rfl
  refine ⟨parentDict (parentMatrix A) names, ?_, q1, ?_, ?_⟩
  · unfold flatHierarchy ancestorMatrix
    rw [← hds, ← hn, hA1]
    rfl
  · intro x cs hx
    obtain ⟨i, r, h1, h2, h3, rfl⟩ := (q2 x cs).1 hx
    refine ⟨List.mem_of_getElem? h1, ?_, compress_sublist _ _⟩
    rw [List.any_eq_true] at h3
    obtain ⟨b, hb, hb'⟩ := h3
    obtain ⟨c, hc⟩ := List.mem_iff_getElem?.1 hb
    simp only [id] at hb'
    subst hb'
    have hcn : c < names.length := by
      have := (List.getElem?_eq_some_iff.1 hc).1
      rw [p1 r (List.mem_of_getElem? h2)] at this
      omega
    have : names[c] ∈ compress names r :=
      (mem_compress names r _).2 ⟨c, List.getElem?_eq_getElem hcn, hc⟩
    exact List.ne_nil_of_mem this
  · intro i c x y hx hy
    have hspec := p3 i c
    simp only [htab, Before, hcount] at hspec
    rw [IsParent, ← hspec, tab_true_iff]
    constructor
    · rintro ⟨cs, hcs, hyc⟩
      obtain ⟨i', r, h1, h2, h3, rfl⟩ := (q2 x cs).1 hcs
      obtain ⟨c', h4, h5⟩ := (mem_compress names r y).1 hyc
      have hii : i' = i := by
        exact (List.getElem?_inj (List.getElem?_eq_some_iff.1 h1).1 hk).1 (h1.trans hx.symm)
      have hcc : c' = c :=
        (List.getElem?_inj (List.getElem?_eq_some_iff.1 h4).1 hk).1 (h4.trans hy.symm)
      subst hii hcc
      exact ⟨r, h2, h5⟩
    · rintro ⟨r, h2, h5⟩
      refine ⟨compress names r, (q2 x _).2 ⟨i, r, hx, h2, ?_, rfl⟩,
        (mem_compress names r y).2 ⟨c, hy, h5⟩⟩
      rw [List.any_eq_true]
      exact ⟨true, List.mem_of_getElem? h5, rfl⟩

/-- **C47** Every parton with an ancestor has exactly one closest ancestor; a parton without one has
none. -/
theorem C47_unique (ds : List (List Bool)) (c : Nat) :
    ((∃ i, isAnc ds i c = true) → ∃ i, IsParent ds i c ∧ ∀ j, IsParent ds j c → j = i) ∧
    ((¬ ∃ i, isAnc ds i c = true) → ¬ ∃ i, IsParent ds i c) := by
  constructor
  · intro hex
    -- the ancestor minimal for the order (count, position)
    have hfin : ∀ m, (∃ i, isAnc ds i c = true ∧ descCount ds i ≤ m) →
        ∃ i, isAnc ds i c = true ∧ ∀ j, isAnc ds j c = true → descCount ds i ≤ descCount ds j := by
      intro m
      induction m with
      | zero => rintro ⟨i, hi, h0⟩; exact ⟨i, hi, fun j _ => by omega⟩
      | succ m ih =>
        rintro ⟨i, hi, hm⟩
        by_cases h : ∃ i, isAnc ds i c = true ∧ descCount ds i ≤ m
        · exact ih h
        · push Not at h
          exact ⟨i, hi, fun j hj => by have := h j hj; omega⟩
    obtain ⟨i0, hi0⟩ := hex
    obtain ⟨i1, hi1, hmin⟩ := hfin _ ⟨i0, hi0, le_refl _⟩
    have hfirst : ∃ i, (isAnc ds i c = true ∧ descCount ds i = descCount ds i1) ∧
        ∀ j < i, ¬ (isAnc ds j c = true ∧ descCount ds j = descCount ds i1) := by
      classical
      have hex2 : ∃ i, isAnc ds i c = true ∧ descCount ds i = descCount ds i1 := ⟨i1, hi1, rfl⟩
      exact ⟨Nat.find hex2, Nat.find_spec hex2, fun j hj => Nat.find_min hex2 hj⟩
    obtain ⟨i, ⟨hi, hie⟩, hlow⟩ := hfirst
    have hpar : IsParent ds i c := by
      refine ⟨hi, fun j hj hji => ?_⟩
      have h1 := hmin j hj
      by_cases h2 : descCount ds j = descCount ds i1
      · right
        refine ⟨by omega, ?_⟩
        by_contra hlt
        exact hlow j (by omega) ⟨hj, h2⟩
      · left; omega
    refine ⟨i, hpar, fun j hj => ?_⟩
    by_contra hne
    have h1 := hpar.2 j hj.1 hne
    have h2 := hj.2 i hi (fun h => hne h.symm)
    omega
  · rintro h ⟨i, hi⟩
    exact h ⟨i, hi.1⟩

theorem isAnc_ne {ds : List (List Bool)} {i c : Nat} (h : isAnc ds i c = true) : i ≠ c := by
  unfold isAnc at h
  simp only [Bool.and_eq_true, bne_iff_ne] at h
  exact h.1

/-- In a strict descent order, a descendant has fewer descendants. -/
theorem descCount_lt {ds : List (List Bool)} (hs : StrictDescent ds)
    (hsq : ∀ d ∈ ds, d.length = ds.length) {i j : Nat} (h : isAnc ds i j = true) :
    descCount ds j < descCount ds i := by
  unfold descCount
  have hj : j < ds.length := by
    unfold isAnc at h
    simp only [Bool.and_eq_true, beq_iff_eq] at h
    obtain ⟨d, hd, hdj⟩ := Option.bind_eq_some_iff.1 h.2
    have := (List.getElem?_eq_some_iff.1 hdj).1
    rwa [hsq d (List.mem_of_getElem? hd)] at this
  have hsub : ∀ l : List Nat, (l.filter (isAnc ds j)).length ≤ (l.filter (isAnc ds i)).length ∧
      (j ∈ l → (l.filter (isAnc ds j)).length < (l.filter (isAnc ds i)).length) := by
    intro l
    induction l with
    | nil => simp
    | cons k l ih =>
      obtain ⟨ih1, ih2⟩ := ih
      by_cases hk : isAnc ds j k = true
      · have hk' := hs i j k h hk
        rw [List.filter_cons_of_pos hk, List.filter_cons_of_pos hk']
        simp only [List.length_cons, List.mem_cons]
        refine ⟨by omega, ?_⟩
        rintro (rfl | hm)
        · exact absurd rfl (isAnc_ne hk)
        · have := ih2 hm; omega
      · rw [List.filter_cons_of_neg (by simpa using hk)]
        by_cases hk' : isAnc ds i k = true
        · rw [List.filter_cons_of_pos hk']
          simp only [List.length_cons, List.mem_cons]
          exact ⟨by omega, fun _ => by omega⟩
        · rw [List.filter_cons_of_neg (by simpa using hk')]
          refine ⟨ih1, ?_⟩
          intro hm
          rcases List.mem_cons.1 hm with rfl | hm
          · exact absurd h hk'
          · exact ih2 hm
  exact (hsub _).2 (List.mem_range.2 hj)

/-- **C47** When descent is a forest order, the closest ancestor is the immediate predecessor: the
ancestor with no other hard parton between it and the child. -/
theorem C47_forest (ds : List (List Bool)) (hsq : ∀ d ∈ ds, d.length = ds.length)
    (hf : ForestDescent ds) (i c : Nat) :
    IsParent ds i c ↔
      isAnc ds i c = true ∧ ¬ ∃ j, isAnc ds i j = true ∧ isAnc ds j c = true := by
  obtain ⟨hs, hch⟩ := hf
  constructor
  · rintro ⟨h1, h2⟩
    refine ⟨h1, ?_⟩
    rintro ⟨j, hij, hjc⟩
    have := descCount_lt hs hsq hij
    have := h2 j hjc (fun h => isAnc_ne hij h.symm)
    omega
  · rintro ⟨h1, h2⟩
    refine ⟨h1, fun j hj hji => ?_⟩
    rcases hch i j c h1 hj with h | h | h
    · exact absurd h.symm hji
    · exact absurd ⟨j, h, hj⟩ h2
    · left; exact descCount_lt hs hsq h

-- t -> b, W; W -> q, q' : a forest; the grandparent entries of t are removed
section Example
/-- descendant masks over the hard process t, b, W, q, q' -/
def exHard : Dict (List Bool) :=
  [("t", [true, true, true, true, true]), ("b", [false, true, false, false, false]),
   ("W", [false, false, true, true, true]), ("q", [false, false, false, true, false]),
   ("q'", [false, false, false, false, true])]
example : flatHierarchy exHard = .ok [("t", ["b", "W"]), ("W", ["q", "q'"])] := by decide
example : (exHard.map Prod.fst).Nodup ∧ ∀ d ∈ exHard.map Prod.snd, d.length = exHard.length := by
  decide
example : ForestDescent (exHard.map Prod.snd) := by
  have hb : ∀ i j, isAnc (exHard.map Prod.snd) i j = true → i < 5 ∧ j < 5 := by
    intro i j h
    unfold isAnc at h
    simp only [Bool.and_eq_true, beq_iff_eq] at h
    obtain ⟨d, hd, hdj⟩ := Option.bind_eq_some_iff.1 h.2
    have h1 := (List.getElem?_eq_some_iff.1 hd).1
    have h2 := (List.getElem?_eq_some_iff.1 hdj).1
    have h3 : ∀ d ∈ exHard.map Prod.snd, d.length = 5 := by decide
    rw [h3 d (List.mem_of_getElem? hd)] at h2
    exact ⟨by simpa [exHard] using h1, h2⟩
  have key : (∀ i ∈ List.range 5, ∀ j ∈ List.range 5, ∀ k ∈ List.range 5, isAnc (exHard.map Prod.snd) i j = true →
      isAnc (exHard.map Prod.snd) j k = true → isAnc (exHard.map Prod.snd) i k = true) ∧
      (∀ i ∈ List.range 5, ∀ j ∈ List.range 5, ∀ c ∈ List.range 5, isAnc (exHard.map Prod.snd) i c = true →
      isAnc (exHard.map Prod.snd) j c = true → i = j ∨ isAnc (exHard.map Prod.snd) i j = true ∨
      isAnc (exHard.map Prod.snd) j i = true) := by decide
  simp only [List.mem_range] at key
  exact ⟨fun i j k h1 h2 => key.1 i (hb i j h1).1 j (hb i j h1).2 k (hb j k h2).2 h1 h2,
    fun i j c h1 h2 => key.2 i (hb i c h1).1 j (hb j c h2).1 c (hb i c h1).2 h1 h2⟩
end Example

end Gcl
