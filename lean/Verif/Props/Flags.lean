import Verif.Model.Flags
import Verif.Props.HardDesc
import Verif.Props.Heap
import Verif.Props.Adj
import Verif.Props.Singlets
import Verif.Props.Pdg
/-! # C132: flag arguments that are not the two booleans -/
namespace Gcl
set_option autoImplicit false
open Spec

/-- **C132** With `True` and `False` the functions are those of the other properties. -/
theorem C132_booleans (b c : Bool) :
    (∀ data target, pdgMaskFlag data target (.ofBool b) (.ofBool c) = pdgMask data target b c) ∧
    (∀ data lo hi, inRangeFlag data lo hi (.ofBool b) = inRange data lo hi b) ∧
    (∀ nm pdg status es target, hardDescendantsFlag nm pdg status es target (.ofBool b) (.ofBool c) =
      hardDescendants nm pdg status es target b c) ∧
    (∀ fuel key h a, recursiveDropFlag fuel key (.ofBool b) h a = recursiveDropH fuel key b h a) ∧
    (∀ (W : Type) [Zero W] [DecidableEq W] (A : List (List W)), fromMatrixFlag A (.ofBool b) (.ofBool c) = fromMatrix A b c) ∧
    (∀ setIter leaves status color, colorSingletsFlag setIter leaves status color (.ofBool b) =
      colorSinglets setIter leaves status color b) := by
  cases b <;> cases c <;> exact ⟨fun _ _ => rfl, fun _ _ _ => rfl, fun _ _ _ _ _ => rfl, fun _ _ _ _ => rfl,
    fun _ _ _ _ => rfl,
    fun _ _ _ _ => rfl⟩

/-- **C132** `PdgArray.mask` and `in_range` heed the sign unless `sign_sensitive` is `False` itself: for `0`,
`numpy.False_` or `None` as for `True`.  (`blacklist` goes by its truth value.) -/
theorem C132_sign (s : PyFlag) (hs : s ≠ .fls) :
    (∀ (data target : List Int) (blacklist : PyFlag), (pdgMaskFlag data target blacklist s).length = data.length ∧
      ∀ (i : Nat) (x : Int), data[i]? = some x →
        (pdgMaskFlag data target blacklist s)[i]? = some (if blacklist.truth then decide (x ∉ target) else decide (x ∈ target))) ∧
    (∀ (data : List Int) (lo : Int) (hi : Option Int), (inRangeFlag data lo hi s).length = data.length ∧
      ∀ (i : Nat) (x : Int), data[i]? = some x →
        (inRangeFlag data lo hi s)[i]? = some (decide (lo ≤ x ∧ ∀ h, hi = some h → x ≤ h))) := by
  have h1 : ∀ data target bl, pdgMaskFlag data target bl s = pdgMask data target bl.truth true := by
    intro data target bl; cases s <;> first | rfl | exact absurd rfl hs
  have h2 : ∀ data lo hi, inRangeFlag data lo hi s = inRange data lo hi true := by
    intro data lo hi; cases s <;> first | rfl | exact absurd rfl hs
  refine ⟨fun data target bl => ?_, fun data lo hi => ?_⟩
  · rw [h1]
    obtain ⟨a1, a2, a3⟩ := C22_sensitive data target
    cases hb : bl.truth
    · exact ⟨a1, fun i x hx => by simpa using (a3 i x hx).1⟩
    · exact ⟨a2, fun i x hx => by simpa using (a3 i x hx).2⟩
  · rw [h2]
    exact C23_signed data lo hi

theorem filterTarget_falsy (g : HardGraph) (target : List Int) (strict : PyFlag) :
    filterTargetFlag g target .falsy strict =
      filterTarget g (target.map (fun c => (c.natAbs : Int))) true strict.truth := by
  unfold filterTargetFlag filterTarget
  have hm : pdgMaskFlag g.pdg (target.map (fun c => (c.natAbs : Int))) .fls .falsy =
      pdgMask g.pdg (target.map (fun c => (c.natAbs : Int))) false true := rfl
  simp only [PyFlag.truth, hm, if_true, Bool.false_eq_true, if_false]
  split
  · rfl
  · have hfound : ∀ found, (Key.mask (pdgMask g.pdg (target.map (fun c => (c.natAbs : Int))) false true)).apply g.pdg = .ok found →
        found.map (absWrap 32) = found := by
      intro found hf
      have hl : (pdgMask g.pdg (target.map (fun c => (c.natAbs : Int))) false true).length = g.pdg.length := by
        simp [pdgMask, isin]
      have hg := (C20_mask g.pdg (pdgMask g.pdg (target.map (fun c => (c.natAbs : Int))) false true)).1 hl
      rw [hg] at hf
      cases hf
      conv => rhs; rw [← List.map_id (selected _ _)]
      apply List.map_congr_left
      intro x hx
      unfold selected at hx
      obtain ⟨⟨y, b⟩, hy, rfl⟩ := List.mem_map.1 hx
      obtain ⟨hz, hb⟩ := List.mem_filter.1 hy
      simp only at hb
      subst hb
      obtain ⟨i, hi⟩ := List.mem_iff_getElem?.1 hz
      rw [List.getElem?_zip_eq_some] at hi
      obtain ⟨e1, e2⟩ := hi
      have := ((C22_sensitive g.pdg (target.map (fun c => (c.natAbs : Int)))).2.2 i y e1).1
      rw [this] at e2
      have hmem : y ∈ target.map (fun c => (c.natAbs : Int)) := by simpa using e2
      obtain ⟨c, -, rfl⟩ := List.mem_map.1 hmem
      simp only [absWrap, id]
      split
      · rfl
      · rw [if_neg (by omega)]
    cases hk : (Key.mask (pdgMask g.pdg (target.map (fun c => (c.natAbs : Int))) false true)).apply g.pdg with
    | error e => rfl
    | ok found => simp only [hfound found hk]

/-- **C132** `hard_descendants` with a `sign_sensitive` that is false but not `False` (`0`, `numpy.False_`, ...): as if the
absolute values of the codes had been asked for with `sign_sensitive=True`, so the antiparticles are left out.  One that
is true but not `True` is like `True`, and `strict` goes by its truth value. -/
theorem C132_hard_descendants (nm : Int → String) (pdg status : List Int) (es : List (Int × Int))
    (target : List Int) (strict : PyFlag) :
    hardDescendantsFlag nm pdg status es (some target) .falsy strict =
      hardDescendants nm pdg status es (some (target.map (fun c => (c.natAbs : Int)))) true strict.truth ∧
    hardDescendantsFlag nm pdg status es (some target) .truthy strict =
      hardDescendants nm pdg status es (some target) true strict.truth ∧
    ∀ s : PyFlag, hardDescendantsFlag nm pdg status es none s strict = hardDescendants nm pdg status es none false strict.truth := by
  refine ⟨?_, ?_, ?_⟩
  · unfold hardDescendantsFlag hardDescendants
    simp only [applyTargetFlag, applyTarget, filterTarget_falsy]
    rfl
  · rfl
  · intro s; rfl

/-- **C132** So with such a flag no antiparticle is ever found: every mask belongs to a hard parton with a code that is not
negative, and it is an error if there are only antiparticles of the given kinds. -/
theorem C132_no_antiparticles (nm : Int → String) (pdg status : List Int) (es : List (Int × Int))
    (h1 : pdg.length = es.length) (h2 : status.length = es.length) (hq : minI32 ∉ pdg)
    (hcol : ∀ c ∈ pdg, ':' ∉ (nm c).toList) (target : List Int) (strict : PyFlag) :
    ((∀ p ∈ partons status, ∀ c, pdg[p]? = some c → 0 ≤ c → c ∉ target ∧ -c ∉ target) →
      hardDescendantsFlag nm pdg status es (some target) .falsy strict = .error .valueError) ∧
    ∀ out, hardDescendantsFlag nm pdg status es (some target) .falsy strict = .ok out →
      ∃ S : List Nat, S.Pairwise (· < ·) ∧ out.length = S.length ∧
        (∀ p, p ∈ S ↔ p ∈ partons status ∧ ∃ c, pdg[p]? = some c ∧ 0 ≤ c ∧ (c ∈ target ∨ -c ∈ target)) ∧
        ∀ k : Nat, (out.map Prod.fst)[k]? = partonKey (namesAt nm pdg S) k := by
  have hmatch : ∀ c : Int, codeMatches (target.map (fun c => (c.natAbs : Int))) true c = true ↔
      0 ≤ c ∧ (c ∈ target ∨ -c ∈ target) := by
    intro c
    simp only [codeMatches, if_true, List.any_eq_true, List.mem_map, decide_eq_true_eq]
    constructor
    · rintro ⟨_, ⟨t, ht, rfl⟩, rfl⟩
      refine ⟨by omega, ?_⟩
      rcases Int.natAbs_eq t with h | h
      · left; rwa [← h]
      · right; rw [show -((t.natAbs : Int)) = t by omega]; exact ht
    · rintro ⟨h0, h | h⟩
      · exact ⟨c, ⟨c, h, by omega⟩, rfl⟩
      · exact ⟨c, ⟨-c, h, by omega⟩, rfl⟩
  rw [(C132_hard_descendants nm pdg status es target strict).1]
  obtain ⟨e1, e2, e3⟩ := C46_errors nm pdg status es h1 h2 hq hcol (target.map (fun c => (c.natAbs : Int))) true strict.truth
  constructor
  · intro hnone
    apply e1
    intro p hp c hc
    rw [← Bool.not_eq_true]
    intro hm
    obtain ⟨h0, h⟩ := (hmatch c).1 hm
    have := hnone p hp c hc h0
    tauto
  · intro out hout
    by_cases hany : ∃ p ∈ partons status, ∃ c, pdg[p]? = some c ∧ codeMatches (target.map (fun c => (c.natAbs : Int))) true c = true
    · by_cases hst : strict.truth = false ∨ ∀ t ∈ target.map (fun c => (c.natAbs : Int)), ∃ p ∈ partons status, ∃ c, pdg[p]? = some c ∧
          codeMatches [t] true c = true
      · obtain ⟨out', ho, hl, hk⟩ := e3 hany hst
        rw [ho] at hout
        cases hout
        refine ⟨targeted pdg status (target.map (fun c => (c.natAbs : Int))) true, ?_, hl, ?_, hk⟩
        · exact (List.pairwise_lt_range.filter _).filter _
        · intro p
          unfold targeted
          rw [List.mem_filter]
          constructor
          · rintro ⟨hp, hc⟩
            refine ⟨hp, ?_⟩
            cases hq' : pdg[p]? with
            | none => simp [hq'] at hc
            | some c =>
              simp only [hq'] at hc
              exact ⟨c, rfl, (hmatch c).1 hc⟩
          · rintro ⟨hp, c, hc, h⟩
            refine ⟨hp, ?_⟩
            simp only [hc]
            exact (hmatch c).2 h
      · exfalso
        rw [not_or] at hst
        obtain ⟨hs1, hs2⟩ := hst
        have hs1 : strict.truth = true := by cases h : strict.truth <;> simp_all
        rw [e2 hs1 (by
          by_contra hc
          apply hs2
          intro t ht
          by_contra hn
          apply hc
          refine ⟨t, ht, fun p hp c hcp => ?_⟩
          rw [← Bool.not_eq_true]
          intro hm
          exact hn ⟨p, hp, c, hcp, hm⟩)] at hout
        cases hout
    · exfalso
      rw [e1 (by
        intro p hp c hc
        rw [← Bool.not_eq_true]
        intro hm
        exact hany ⟨p, hp, c, hc, hm⟩)] at hout
      cases hout

/-- **C132** `recursive_drop` makes a copy only if `inplace` is `False` itself: for `0`, `numpy.False_` or `None` the group
itself is returned and has lost the entries. -/
theorem C132_drop (inplace : PyFlag) (hi : inplace ≠ .fls) (h : MHeap) (key : String) (a : Nat) (op : Agg)
    (ks : List (String × Mask)) (hs : ShowsMask h a (.grp op ks)) :
    ∃ N, ∀ fuel, N ≤ fuel → ∃ h', recursiveDropFlag fuel key inplace h a = (h', .ok a) ∧
      ShowsMask h' a ((Mask.grp op ks).drop key) := by
  have he : ∀ fuel, recursiveDropFlag fuel key inplace h a = recursiveDropH fuel key true h a := by
    intro fuel; cases inplace <;> first | rfl | exact absurd rfl hi
  obtain ⟨N, hN⟩ := C14_inplace h key a op ks hs
  refine ⟨N, fun fuel hf => ?_⟩
  obtain ⟨h', e1, e2, -⟩ := hN fuel hf
  exact ⟨h', by rw [he]; exact e1, e2⟩

/-- **C132** `from_matrix` adds self-loops and keeps weights, and `color_singlets` inverts, only if the flag is `True`
itself: `1` or `numpy.True_` are taken for `False`. -/
theorem C132_only_true {W : Type} [Zero W] [DecidableEq W] (A : List (List W)) (w s i : PyFlag)
    (setIter : List String → List String) (leaves : Dict (List Bool)) (status : List Int) (color : List (Int × Int)) :
    (s ≠ .tru → (fromMatrixFlag A w s).edges = (fromMatrix A false false).edges) ∧
    (w ≠ .tru → (fromMatrixFlag A w s).weights = []) ∧
    (i ≠ .tru → colorSingletsFlag setIter leaves status color i = colorSinglets setIter leaves status color false) := by
  refine ⟨fun h => ?_, fun h => ?_, fun h => ?_⟩
  · cases s <;> first | rfl | exact absurd rfl h
  · cases w <;> first | rfl | exact absurd rfl h
  · cases i <;> first | rfl | exact absurd rfl h

/-- Refuted: flags with the same truth value do the same.  For an event with a single hard parton, an antitop,
`hard_descendants(target=[6], sign_sensitive=False)` finds it and `sign_sensitive=0` is an error; in-place or not,
`from_matrix` with self-loops and inverted singlets differ likewise. -/
theorem C132_false :
    (∃ (nm : Int → String) (pdg status : List Int) (es : List (Int × Int)) (out : Dict (List Bool)),
      hardDescendantsFlag nm pdg status es (some [6]) .fls .tru = .ok out ∧
      hardDescendantsFlag nm pdg status es (some [6]) .falsy .tru = .error .valueError) ∧
    (∃ (data target : List Int), pdgMaskFlag data target .fls .fls ≠ pdgMaskFlag data target .fls .falsy) ∧
    (∃ (data : List Int), inRangeFlag data 1 none .fls ≠ inRangeFlag data 1 none .falsy) ∧
    (∃ (h : MHeap) (a b : Nat), (recursiveDropFlag 2 "x" .fls h a).2 = .ok b ∧ b ≠ a ∧
      (recursiveDropFlag 2 "x" .falsy h a).2 = .ok a) ∧
    (∃ A : List (List Int), fromMatrixFlag A .tru .tru ≠ fromMatrixFlag A .tru .truthy) ∧
    (∃ A : List (List Int), fromMatrixFlag A .tru .fls ≠ fromMatrixFlag A .truthy .fls) ∧
    ∃ (leaves : Dict (List Bool)) (status : List Int) (color : List (Int × Int)),
      colorSingletsFlag id leaves status color .tru ≠ colorSingletsFlag id leaves status color .truthy := by
  refine ⟨⟨fun _ => "t", [-6], [22], [(1, 2)], _, rfl, rfl⟩, ⟨[-6], [6], by decide⟩, ⟨[-1], by decide⟩,
    ⟨[.group .or []], 0, 1, rfl, by decide, rfl⟩, ⟨[[0]], ?_⟩, ⟨[[1]], ?_⟩,
    ⟨[("a", [true])], [23], [(1, 0)], by decide +kernel⟩⟩
  · intro h; exact absurd (congrArg Adj.edges h) (by decide)
  · intro h; exact absurd (congrArg Adj.weights h) (by decide)

/-! Non-vacuity: an event with a top and an antitop from the hard process. -/

example : hardDescendantsFlag (fun c => if c = 6 then "t" else "t~") [6, -6, 5] [22, 22, 1] [(1, 2), (1, 3), (2, 4)] (some [6])
    .falsy .tru = .ok [("t", [true, false, true])] := by decide +kernel

example : hardDescendantsFlag (fun c => if c = 6 then "t" else "t~") [6, -6, 5] [22, 22, 1] [(1, 2), (1, 3), (2, 4)] (some [6])
    .fls .tru = .ok [("t", [true, false, true]), ("t~", [false, true, false])] := by decide +kernel

example : ∃ out, hardDescendantsFlag (fun c => if c = 6 then "t" else "t~") [6, -6, 5] [22, 22, 1] [(1, 2), (1, 3), (2, 4)]
    (some [6]) .falsy .tru = .ok out ∧ out.map Prod.fst = ["t"] := ⟨_, rfl, by decide +kernel⟩

example : ShowsMask [.group .or [("x", 1), ("y", 1)], .mask 2, .buf [true, false]] 0
    (.grp .or [("x", .arr [true, false]), ("y", .arr [true, false])]) := by
  refine .grp (es := [("x", 1), ("y", 1)]) rfl rfl ?_
  intro i e k he hk
  match i, he, hk with
  | 0, he, hk => cases he; cases hk; exact .arr (b := 2) rfl rfl
  | 1, he, hk => cases he; cases hk; exact .arr (b := 2) rfl rfl
  | n + 2, he, _ => simp at he

example : (recursiveDropFlag 3 "x" .falsy [.group .or [("x", 1), ("y", 1)], .mask 2, .buf [true, false]] 0) =
    ([.group .or [("y", 1)], .mask 2, .buf [true, false]], .ok 0) := rfl

end Gcl
