import Verif.Lemmas.Hard
/-!
# C44-C46: `hard_descendants`
-/
namespace Gcl
set_option autoImplicit false
open Spec

/-- C44.  Without `target`, for an event whose codes, statuses and edges have one entry per record
and whose particle names contain no colon: the group has one mask per non-incoming hard parton, in
record order and under the parton's key; the mask is True exactly at the parton itself and at the
records descending from its end vertex. -/
theorem C44_all (nm : Int → String) (pdg status : List Int) (es : List (Int × Int))
    (h1 : pdg.length = es.length) (h2 : status.length = es.length)
    (hcol : ∀ c ∈ pdg, ':' ∉ (nm c).toList) (ss strict : Bool) :
    ∃ out, hardDescendants nm pdg status es none ss strict = .ok out ∧
      out.length = (partons status).length ∧
      ∀ (k p : Nat), (partons status)[k]? = some p →
        ∃ key d, out[k]? = some (key, d) ∧
          partonKey (namesAt nm pdg (partons status)) k = some key ∧ d.length = es.length ∧
          ∀ (i : Nat) (e ep : Int × Int), es[i]? = some e → es[p]? = some ep →
            (d[i]? = some true ↔ i = p ∨ Descends es ep.2 e) := by
  obtain ⟨hg, hg1, hg2, _⟩ := hardGroup_or status
  have hP : ∀ p ∈ partons status, p < es.length := by rw [← h2]; exact partons_lt status
  have hb : (hardBools status).length = es.length := by simp [hardBools, h2]
  obtain ⟨ds, hds, out, hout, hl, hs⟩ := hardDesc_tail nm pdg es (partons status) (partons status) h1
    hP hP (le_refl _) (fun c hc => by
      obtain ⟨j, _, hj⟩ := List.mem_filterMap.1 hc
      exact hcol c (List.mem_of_getElem? hj))
  refine ⟨out, ?_, hl, fun k p hp => hs k p p hp hp⟩
  unfold hardDescendants
  simp only [hg1, hg2, hardGraph_get pdg es _ (h1.trans hb.symm) hb.symm, trueIdxs_hard,
    applyTarget, hds, hout]

/-- the mask over hard partons computed by `PdgArray.mask` is `codeMatches` -/
theorem pdgMask_matches (q target : List Int) (ss : Bool) (hq : minI32 ∉ q) :
    pdgMask q (if ss then target else target.map (fun c => (c.natAbs : Int))) false ss =
      q.map (codeMatches target ss) := by
  unfold pdgMask isin
  cases ss
  · simp only [Bool.false_eq_true, if_false, List.map_map]
    apply List.map_congr_left
    intro x hx
    have hne : x ≠ minI32 := fun h => hq (h ▸ hx)
    simp only [Function.comp, absWrap32 x hne, codeMatches, Bool.false_eq_true, if_false,
      Bool.bne_false]
    rw [Bool.eq_iff_iff, List.contains_iff_mem, List.mem_map, List.any_eq_true]
    constructor
    · rintro ⟨t, ht, he⟩
      rw [Int.abs_eq_natAbs] at he
      exact ⟨t, ht, by simp; omega⟩
    · rintro ⟨t, ht, he⟩
      refine ⟨t, ht, ?_⟩
      rw [Int.abs_eq_natAbs]
      simp at he; omega
  · simp only [if_true]
    apply List.map_congr_left
    intro x hx
    simp only [codeMatches, if_true, Bool.bne_false]
    rw [Bool.eq_iff_iff, List.contains_iff_mem, List.any_eq_true]
    constructor
    · intro h; exact ⟨x, h, by simp⟩
    · rintro ⟨t, ht, he⟩; simp at he; exact he ▸ ht

theorem gather_map_fun {β : Type} (pdg : List Int) (P : List Nat) (hP : ∀ p ∈ P, p < pdg.length)
    (f : Int → β) (dflt : β) :
    (gather pdg P).map f = P.map (fun p => match pdg[p]? with | some c => f c | none => dflt) := by
  apply List.ext_getElem?
  intro k
  rw [List.getElem?_map, List.getElem?_map, gather_getElem? pdg P hP]
  rcases h : P[k]? with _ | p
  · rfl
  · have := hP p (List.mem_of_getElem? h)
    simp [List.getElem?_eq_getElem this]

/-- The filtering step in terms of record positions: errors exactly as specified, otherwise the
targeted positions. -/
theorem filterTarget_spec (pdg status : List Int) (es : List (Int × Int))
    (h1 : pdg.length = es.length) (h2 : status.length = es.length) (hq : minI32 ∉ pdg)
    (target : List Int) (ss strict : Bool) :
    let P := partons status
    let P' := targeted pdg status target ss
    let r := filterTarget ⟨gather pdg P, gather es P⟩ target ss strict
    (P' = [] → r = .error .valueError) ∧
    (P' ≠ [] → strict = true →
      (∃ t ∈ target, ∀ p ∈ P, ∀ c, pdg[p]? = some c → codeMatches [t] ss c = false) →
      r = .error .valueError) ∧
    (P' ≠ [] →
      (strict = false ∨
        ∀ t ∈ target, ∃ p ∈ P, ∃ c, pdg[p]? = some c ∧ codeMatches [t] ss c = true) →
      r = .ok ⟨gather pdg P', gather es P'⟩) := by
  intro P P' r
  have hP : ∀ p ∈ P, p < es.length := by rw [← h2]; exact partons_lt status
  have hPp : ∀ p ∈ P, p < pdg.length := by rw [h1]; exact hP
  have hqg : minI32 ∉ gather pdg P := by
    intro h
    obtain ⟨j, _, hj⟩ := List.mem_filterMap.1 h
    exact hq (List.mem_of_getElem? hj)
  have hmask := pdgMask_matches (gather pdg P) target ss hqg
  set tm := (gather pdg P).map (codeMatches target ss) with htm
  have htmP : tm = P.map (fun p => match pdg[p]? with
      | some c => codeMatches target ss c | none => false) := gather_map_fun pdg P hPp _ false
  have html : tm.length = P.length := by rw [htmP, List.length_map]
  have hT : ∀ j ∈ trueIdxs tm, j < P.length := by
    intro j hj; have := trueIdxs_lt tm 0 j hj; omega
  have hPT : gather P (trueIdxs tm) = P' := by
    rw [gather_nil_pos, htmP, selected_map]; rfl
  have hany : tm.any id = true ↔ P' ≠ [] := by
    rw [htmP, List.any_map, List.any_eq_true]
    show _ ↔ P.filter _ ≠ []
    rw [Ne, List.filter_eq_nil_iff]
    push Not
    rfl
  have hplen : (gather pdg P).length = P.length := gather_length pdg P hPp
  have helen : (gather es P).length = P.length := gather_length es P hP
  have hget : HardGraph.get ⟨gather pdg P, gather es P⟩ tm =
      .ok ⟨gather pdg P', gather es P'⟩ := by
    rw [hardGraph_get _ _ _ (by omega) (by omega)]
    rw [gather_gather pdg P _ hPp hT, gather_gather es P _ hP hT, hPT]
  have hfound : (Key.mask tm).apply (gather pdg P) = .ok (gather pdg P') := by
    have h := (C20_mask (gather pdg P) tm).1 (by omega)
    rw [h, ← gather_nil_pos, gather_gather pdg P _ hPp hT, hPT]
  -- the missing codes
  have hP'p : ∀ p ∈ P', p < pdg.length := fun p hp => hPp p (List.mem_of_mem_filter hp)
  have hmiss : ((if ss then target else target.map (fun c => (c.natAbs : Int))).filter
        (fun c => !((if ss then gather pdg P' else (gather pdg P').map (absWrap 32)).contains c))).isEmpty
        = true ↔
      ∀ t ∈ target, ∃ p ∈ P, ∃ c, pdg[p]? = some c ∧ codeMatches [t] ss c = true := by
    rw [List.isEmpty_iff, List.filter_eq_nil_iff]
    have hin : ∀ c, c ∈ gather pdg P' ↔ ∃ p ∈ P, pdg[p]? = some c ∧
        codeMatches target ss c = true := by
      intro c
      show c ∈ List.filterMap _ _ ↔ _
      rw [List.mem_filterMap]
      constructor
      · rintro ⟨p, hp, hc⟩
        have := List.mem_filter.1 hp
        refine ⟨p, this.1, hc, ?_⟩
        simpa [hc] using this.2
      · rintro ⟨p, hp, hc, hm⟩
        exact ⟨p, List.mem_filter.2 ⟨hp, by simp [hc, hm]⟩, hc⟩
    cases ss
    · simp only [Bool.false_eq_true, if_false, List.mem_map, Bool.not_eq_true', not_not,
        forall_exists_index, and_imp, forall_apply_eq_imp_iff₂, Bool.not_eq_false,
        List.contains_iff_mem]
      constructor
      · intro h t ht
        obtain ⟨c, hc, hct⟩ := h t ht
        obtain ⟨p, hp, hpc, hm⟩ := (hin c).1 hc
        refine ⟨p, hp, c, hpc, ?_⟩
        have hne : c ≠ minI32 := fun h => hq (h ▸ List.mem_of_getElem? hpc)
        rw [absWrap32 c hne, Int.abs_eq_natAbs] at hct
        simp [codeMatches]; omega
      · intro h t ht
        obtain ⟨p, hp, c, hpc, hm⟩ := h t ht
        have hm' : t = c ∨ t = -c := by simpa [codeMatches] using hm
        refine ⟨c, (hin c).2 ⟨p, hp, hpc, ?_⟩, ?_⟩
        · simp only [codeMatches, Bool.false_eq_true, if_false, List.any_eq_true]
          exact ⟨t, ht, by simpa using hm'⟩
        · have hne : c ≠ minI32 := fun h => hq (h ▸ List.mem_of_getElem? hpc)
          rw [absWrap32 c hne, Int.abs_eq_natAbs]
          omega
    · simp only [if_true, Bool.not_eq_true', Bool.not_eq_false, List.contains_iff_mem]
      constructor
      · intro h t ht
        obtain ⟨p, hp, hpc, hm⟩ := (hin t).1 (h t ht)
        exact ⟨p, hp, t, hpc, by simp [codeMatches]⟩
      · intro h t ht
        obtain ⟨p, hp, c, hpc, hm⟩ := h t ht
        have hm' : t = c := by simpa [codeMatches] using hm
        subst hm'
        refine (hin t).2 ⟨p, hp, hpc, ?_⟩
        simp only [codeMatches, if_true, List.any_eq_true]
        exact ⟨t, ht, by simp⟩
  have hr : r = if !(tm.any id) then .error .valueError else
      if strict && !((if ss then target else target.map (fun c => (c.natAbs : Int))).filter
        (fun c => !((if ss then gather pdg P' else (gather pdg P').map (absWrap 32)).contains c))).isEmpty
      then .error .valueError else .ok ⟨gather pdg P', gather es P'⟩ := by
    show filterTarget _ target ss strict = _
    unfold filterTarget
    simp only [hmask, hfound, hget]
  refine ⟨?_, ?_, ?_⟩
  · intro he
    have : tm.any id = false := by
      rw [Bool.eq_false_iff]; intro h; exact hany.1 h he
    rw [hr, this]; rfl
  · rintro hne rfl ⟨t, ht, hno⟩
    rw [hr, hany.2 hne]
    simp only [Bool.not_true, Bool.false_eq_true, if_false, Bool.true_and]
    rw [if_pos]
    rw [Bool.not_eq_true', Bool.eq_false_iff]
    intro h
    obtain ⟨p, hp, c, hc, hm⟩ := hmiss.1 h t ht
    rw [hno p hp c hc] at hm
    cases hm
  · intro hne hor
    rw [hr, hany.2 hne]
    simp only [Bool.not_true, Bool.false_eq_true, if_false]
    rcases hor with rfl | hor
    · simp
    · rw [if_neg]
      rw [hmiss.2 hor]
      simp

/-- C46.  With `target` given: `ValueError` when no hard parton matches, and under `strict` when some
requested code has no matching hard parton; otherwise one mask per matching parton, in record order,
under the keys of these partons. -/
theorem C46_errors (nm : Int → String) (pdg status : List Int) (es : List (Int × Int))
    (h1 : pdg.length = es.length) (h2 : status.length = es.length) (hq : minI32 ∉ pdg)
    (hcol : ∀ c ∈ pdg, ':' ∉ (nm c).toList) (target : List Int) (ss strict : Bool) :
    ((∀ p ∈ partons status, ∀ c, pdg[p]? = some c → codeMatches target ss c = false) →
      hardDescendants nm pdg status es (some target) ss strict = .error .valueError) ∧
    (strict = true →
      (∃ t ∈ target, ∀ p ∈ partons status, ∀ c, pdg[p]? = some c → codeMatches [t] ss c = false) →
      hardDescendants nm pdg status es (some target) ss strict = .error .valueError) ∧
    ((∃ p ∈ partons status, ∃ c, pdg[p]? = some c ∧ codeMatches target ss c = true) →
      (strict = false ∨ ∀ t ∈ target, ∃ p ∈ partons status, ∃ c, pdg[p]? = some c ∧
        codeMatches [t] ss c = true) →
      ∃ out, hardDescendants nm pdg status es (some target) ss strict = .ok out ∧
        out.length = (targeted pdg status target ss).length ∧
        ∀ k : Nat, (out.map Prod.fst)[k]? =
          partonKey (namesAt nm pdg (targeted pdg status target ss)) k) := by
  obtain ⟨hg, hg1, hg2, _⟩ := hardGroup_or status
  have hP : ∀ p ∈ partons status, p < es.length := by rw [← h2]; exact partons_lt status
  have hb : (hardBools status).length = es.length := by simp [hardBools, h2]
  obtain ⟨f1, f2, f3⟩ := filterTarget_spec pdg status es h1 h2 hq target ss strict
  have hnil : targeted pdg status target ss = [] ↔
      ∀ p ∈ partons status, ∀ c, pdg[p]? = some c → codeMatches target ss c = false := by
    unfold targeted
    rw [List.filter_eq_nil_iff]
    constructor
    · intro h p hp c hc
      have := h p hp
      simpa [hc] using this
    · intro h p hp
      rcases hc : pdg[p]? with _ | c
      · simp
      · simp [h p hp c hc]
  have herr : filterTarget ⟨gather pdg (partons status), gather es (partons status)⟩ target ss strict
      = .error .valueError →
      hardDescendants nm pdg status es (some target) ss strict = .error .valueError := by
    intro h
    unfold hardDescendants
    simp only [hg1, hg2, hardGraph_get pdg es _ (h1.trans hb.symm) hb.symm, trueIdxs_hard,
      applyTarget, h]
  refine ⟨fun h => herr (f1 (hnil.2 h)), ?_, ?_⟩
  · intro hs hm
    by_cases he : targeted pdg status target ss = []
    · exact herr (f1 he)
    · exact herr (f2 he hs hm)
  · rintro ⟨p0, hp0, c0, hc0, hm0⟩ hor
    have hne : targeted pdg status target ss ≠ [] := by
      intro h; rw [hnil] at h; rw [h p0 hp0 c0 hc0] at hm0; cases hm0
    have hok := f3 hne hor
    have hsub : ∀ p ∈ targeted pdg status target ss, p < es.length :=
      fun p hp => hP p (List.mem_of_mem_filter hp)
    obtain ⟨ds, hds, out, hout, hl, hs⟩ := hardDesc_tail nm pdg es (partons status)
      (targeted pdg status target ss) h1 hP hsub (List.length_filter_le _ _) (fun c hc => by
        obtain ⟨j, _, hj⟩ := List.mem_filterMap.1 hc
        exact hcol c (List.mem_of_getElem? hj))
    refine ⟨out, ?_, hl, ?_⟩
    · unfold hardDescendants
      simp only [hg1, hg2, hardGraph_get pdg es _ (h1.trans hb.symm) hb.symm, trueIdxs_hard,
        applyTarget, hok, hds, hout]
    · intro k
      by_cases hk : k < (targeted pdg status target ss).length
      · have hlt : k < (partons status).length :=
          lt_of_lt_of_le hk (List.length_filter_le _ _)
        obtain ⟨key, d, ho, hkey, _⟩ := hs k _ _ (List.getElem?_eq_getElem hk)
          (List.getElem?_eq_getElem hlt)
        rw [List.getElem?_map, ho, hkey]; rfl
      · rw [List.getElem?_eq_none (by simp [hl]; omega)]
        unfold partonKey
        rw [List.getElem?_eq_none, Option.map_none]
        have : (namesAt nm pdg (targeted pdg status target ss)).length ≤
            (targeted pdg status target ss).length := List.length_filterMap_le _ _
        omega

/-- **C45** With `target` given (and not raising), the mask under the key of the `k`-th
matching parton is True exactly at the descendants of that parton's end vertex and at the `k`-th
hard parton *of the whole hard process*. -/
theorem C45_exact (nm : Int → String) (pdg status : List Int) (es : List (Int × Int))
    (h1 : pdg.length = es.length) (h2 : status.length = es.length) (hq : minI32 ∉ pdg)
    (hcol : ∀ c ∈ pdg, ':' ∉ (nm c).toList) (target : List Int) (ss strict : Bool)
    (out : Dict (List Bool))
    (hok : hardDescendants nm pdg status es (some target) ss strict = .ok out) :
    ∀ (k p h : Nat), (targeted pdg status target ss)[k]? = some p →
      (partons status)[k]? = some h →
      ∃ key d, out[k]? = some (key, d) ∧
        partonKey (namesAt nm pdg (targeted pdg status target ss)) k = some key ∧
        d.length = es.length ∧
        ∀ (i : Nat) (e ep : Int × Int), es[i]? = some e → es[p]? = some ep →
          (d[i]? = some true ↔ i = h ∨ Descends es ep.2 e) := by
  obtain ⟨hg, hg1, hg2, _⟩ := hardGroup_or status
  have hP : ∀ p ∈ partons status, p < es.length := by rw [← h2]; exact partons_lt status
  have hb : (hardBools status).length = es.length := by simp [hardBools, h2]
  have hsub : ∀ p ∈ targeted pdg status target ss, p < es.length :=
    fun p hp => hP p (List.mem_of_mem_filter hp)
  obtain ⟨f1, f2, f3⟩ := filterTarget_spec pdg status es h1 h2 hq target ss strict
  obtain ⟨ds, hds, out', hout, hl, hs⟩ := hardDesc_tail nm pdg es (partons status)
    (targeted pdg status target ss) h1 hP hsub (List.length_filter_le _ _) (fun c hc => by
      obtain ⟨j, _, hj⟩ := List.mem_filterMap.1 hc
      exact hcol c (List.mem_of_getElem? hj))
  have hfil : ∀ r, filterTarget ⟨gather pdg (partons status), gather es (partons status)⟩ target ss
      strict = r → hardDescendants nm pdg status es (some target) ss strict =
        (match r with
         | .error e => .error e
         | .ok g' => match descMasks es (g'.edges.map (fun e => e.2)) with
           | .error e => .error e
           | .ok descs => markAll (Dict.ofPairs ((pdgsToKeys (g'.pdg.map nm)).zip descs))
               ((pdgsToKeys (g'.pdg.map nm)).zip (partons status))) := by
    intro r hr
    unfold hardDescendants
    simp only [hg1, hg2, hardGraph_get pdg es _ (h1.trans hb.symm) hb.symm, trueIdxs_hard,
      applyTarget, hr]
    rcases r with _ | g' <;> rfl
  have key : out = out' := by
    by_cases he : targeted pdg status target ss = []
    · rw [hfil _ (f1 he)] at hok; cases hok
    · by_cases hor : (strict = false ∨ ∀ t ∈ target, ∃ p ∈ partons status, ∃ c, pdg[p]? = some c ∧
          codeMatches [t] ss c = true)
      · rw [hfil _ (f3 he hor)] at hok
        simp only [hds, hout] at hok
        cases hok; rfl
      · push Not at hor
        obtain ⟨hs1, t, ht, hno⟩ := hor
        have : strict = true := by simpa using hs1
        rw [hfil _ (f2 he this ⟨t, ht, fun p hp c hc => by
          simpa using hno p hp c hc⟩)] at hok
        cases hok
  subst key
  exact hs

/-- **C45** When every hard parton up to the last matching one matches (the
matching partons are the first ones of the hard process), every mask marks its own parton. -/
theorem C45_prefix (nm : Int → String) (pdg status : List Int) (es : List (Int × Int))
    (h1 : pdg.length = es.length) (h2 : status.length = es.length) (hq : minI32 ∉ pdg)
    (hcol : ∀ c ∈ pdg, ':' ∉ (nm c).toList) (target : List Int) (ss strict : Bool)
    (out : Dict (List Bool))
    (hok : hardDescendants nm pdg status es (some target) ss strict = .ok out)
    (hpre : targeted pdg status target ss <+: partons status) :
    ∀ (k p : Nat), (targeted pdg status target ss)[k]? = some p →
      ∃ key d, out[k]? = some (key, d) ∧
        partonKey (namesAt nm pdg (targeted pdg status target ss)) k = some key ∧
        d.length = es.length ∧
        ∀ (i : Nat) (e ep : Int × Int), es[i]? = some e → es[p]? = some ep →
          (d[i]? = some true ↔ i = p ∨ Descends es ep.2 e) := by
  intro k p hp
  refine C45_exact nm pdg status es h1 h2 hq hcol target ss strict out hok k p p hp ?_
  obtain ⟨t, ht⟩ := hpre
  rw [← ht, List.getElem?_append_left (List.getElem?_eq_some_iff.1 hp).1]
  exact hp

/-- **C45** So, in an acyclic event, the mask of the `k`-th matching parton marks exactly that parton and its descendants
if and only if that parton is also the `k`-th of the whole hard process (or that one enters the same vertex, from which
nothing emerges). -/
theorem C45_right_iff (nm : Int → String) (pdg status : List Int) (es : List (Int × Int))
    (h1 : pdg.length = es.length) (h2 : status.length = es.length) (hq : minI32 ∉ pdg)
    (hcol : ∀ c ∈ pdg, ':' ∉ (nm c).toList) (target : List Int) (ss strict : Bool)
    (hac : Acyclic es) (out : Dict (List Bool))
    (hok : hardDescendants nm pdg status es (some target) ss strict = .ok out)
    (k p : Nat) (ep : Int × Int) (hp : (targeted pdg status target ss)[k]? = some p) (hep : es[p]? = some ep) :
    ∃ key d, out[k]? = some (key, d) ∧
      ((∀ (i : Nat) (e : Int × Int), es[i]? = some e → (d[i]? = some true ↔ i = p ∨ Descends es ep.2 e)) ↔
        ∃ h eh, (partons status)[k]? = some h ∧ es[h]? = some eh ∧
          (h = p ∨ ((¬ ∃ w, (ep.2, w) ∈ es) ∧ eh.2 = ep.2))) := by
  have hk : k < (partons status).length := by
    have h3 : k < (targeted pdg status target ss).length := (List.getElem?_eq_some_iff.1 hp).1
    have h4 : (targeted pdg status target ss).length ≤ (partons status).length := by
      unfold targeted; exact List.length_filter_le _ _
    omega
  obtain ⟨key, d, ho, -, hl, hd⟩ := C45_exact nm pdg status es h1 h2 hq hcol target ss strict out hok k p
    ((partons status)[k]) hp (List.getElem?_eq_getElem hk)
  refine ⟨key, d, ho, ?_⟩
  have hh : (partons status)[k] < es.length := by
    have h3 : (partons status)[k] ∈ List.range status.length := (List.mem_filter.1 (List.getElem_mem hk)).1
    rw [List.mem_range] at h3
    omega
  have hnot : Reach es ep.2 ep.1 → False := fun hr =>
    hac ep.1 (Relation.TransGen.head' (show Step es ep.1 ep.2 from List.mem_of_getElem? hep) hr)
  constructor
  · intro h
    refine ⟨(partons status)[k], es[(partons status)[k]], List.getElem?_eq_getElem hk, List.getElem?_eq_getElem hh, ?_⟩
    rcases (hd p ep ep hep hep).1 ((h p ep hep).2 (Or.inl rfl)) with hdp | hdp
    · exact Or.inl hdp.symm
    · rcases hdp with ⟨-, hr⟩ | ⟨hno, -⟩
      · exact (hnot hr).elim
      · have heh : es[(partons status)[k]]? = some es[(partons status)[k]] := List.getElem?_eq_getElem hh
        rcases (h _ _ heh).1 ((hd _ _ ep heh hep).2 (Or.inl rfl)) with e | ⟨⟨w, hw⟩, -⟩ | ⟨-, e⟩
        · exact Or.inl e
        · exact (hno ⟨w, hw⟩).elim
        · exact Or.inr ⟨hno, e⟩
  · rintro ⟨h, eh, hph, heh, hor⟩ i e he
    rw [List.getElem?_eq_getElem hk, Option.some.injEq] at hph
    rw [hd i e ep he hep, hph]
    rcases hor with rfl | ⟨hno, hee⟩
    · exact Iff.rfl
    · constructor
      · rintro (rfl | hD)
        · rw [heh] at he
          cases he
          exact Or.inr (Or.inr ⟨hno, hee⟩)
        · exact Or.inr hD
      · rintro (rfl | hD)
        · rw [hep] at he
          cases he
          exact Or.inr (Or.inr ⟨hno, rfl⟩)
        · exact Or.inr hD

/-- **C45** The expectation that a mask marks its own parton is refuted: for an event with hard partons `t` (record 0) and `b` (record 1, not a
descendant of `t`, and not related to it), the mask of target `b` marks `t`. -/
theorem C45_false :
    let nm : Int → String := fun c => if c = 6 then "t" else "b"
    ∃ (pdg status : List Int) (es : List (Int × Int)) (d : List Bool),
      hardDescendants nm pdg status es (some [5]) false true = .ok [("b", d)] ∧
      targeted pdg status [5] false = [1] ∧
      d[0]? = some true ∧ ¬ Descends es 4 (1, 2) ∧ es[1]? = some (3, 4) ∧ es[0]? = some (1, 2) := by
  refine ⟨[6, 5], [23, 23], [(1, 2), (3, 4)], [true, true], by decide, by decide, by decide, ?_,
    rfl, rfl⟩
  rintro (⟨⟨w, hw⟩, -⟩ | ⟨-, h⟩)
  · simp at hw
  · simp at h

-- non-vacuity: a top quark decaying to b and W, with the b radiating; all hypotheses of C44-C46 hold
section Example
/-- names used in the examples -/
def exNm : Int → String := fun c =>
  if c = 6 then "t" else if c = 5 then "b" else if c = 24 then "W+" else "g"

example : hardDescendants exNm [21, 6, 5, 24, 5, 21] [-21, -22, 23, 22, 51, 51]
    [(0, 1), (1, 2), (2, 3), (2, 4), (3, 5), (3, 6)] none false true =
    .ok [("t", [false, true, true, true, true, true]), ("b", [false, false, true, false, true, true]),
      ("W+", [false, false, false, true, false, false])] := by decide
example : hardDescendants exNm [21, 6, 5, 24, 5, 21] [-21, -22, 23, 22, 51, 51]
    [(0, 1), (1, 2), (2, 3), (2, 4), (3, 5), (3, 6)] (some [5, 7]) false true = .error .valueError := by
  decide
example : ∃ out, hardDescendants exNm [21, 6, 5, 24, 5, 21] [-21, -22, 23, 22, 51, 51]
    [(0, 1), (1, 2), (2, 3), (2, 4), (3, 5), (3, 6)] (some [-6, 7]) false false = .ok out ∧
    targeted [21, 6, 5, 24, 5, 21] [-21, -22, 23, 22, 51, 51] [-6, 7] false <+:
      partons [-21, -22, 23, 22, 51, 51] := by
  exact ⟨_, rfl, by decide⟩
end Example

end Gcl
