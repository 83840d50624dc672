import Mathlib.Tactic.Linarith
import Verif.Model.Pdg
import Verif.Spec.Mask
import Verif.Lemmas.Mask
/-! # C22–C24, C87: selection by particle code and status -/
namespace Gcl
set_option autoImplicit false
open Spec

/-- Smallest 32-bit and 16-bit integers. -/
def minI32 : Int := -2147483648
def minI16 : Int := -32768

theorem absWrap32 (x : Int) (h : x ≠ minI32) : absWrap 32 x = |x| := by
  unfold absWrap minI32 at *
  rw [if_neg (by simpa using h)]
  split
  · rw [abs_of_neg (by assumption)]
  · rw [abs_of_nonneg (by omega)]

theorem absWrap16 (x : Int) (h : x ≠ minI16) : absWrap 16 x = |x| := by
  unfold absWrap minI16 at *
  rw [if_neg (by simpa using h)]
  split
  · rw [abs_of_neg (by assumption)]
  · rw [abs_of_nonneg (by omega)]

theorem absWrap16_beq (x s : Int) (h1 : 21 ≤ s) (h2 : s ≤ 24) :
    (absWrap 16 x == s) = decide (|x| = s) := by
  by_cases h : x = minI16
  · subst h
    have e1 : absWrap 16 minI16 = -32768 := by decide
    have e2 : |minI16| = 32768 := by decide
    rw [e1]
    simp only [e2]
    rw [decide_eq_false (by omega), beq_eq_false_iff_ne]
    omega
  · rw [absWrap16 x h]; rfl

/-! ## C22 -/

/-- **C22** sign-sensitive: the mask has one entry per particle, and entry `i` says whether code `i`
is (with `blacklist`: is not) in `target`. -/
theorem C22_sensitive (data target : List Int) :
    (pdgMask data target false true).length = data.length ∧
    (pdgMask data target true true).length = data.length ∧
    ∀ (i : Nat) (x : Int), data[i]? = some x →
      (pdgMask data target false true)[i]? = some (decide (x ∈ target)) ∧
      (pdgMask data target true true)[i]? = some (decide (x ∉ target)) := by
  refine ⟨by simp [pdgMask, isin], by simp [pdgMask, isin], ?_⟩
  intro i x hx
  constructor
  · simp [pdgMask, isin, hx, List.contains_eq_mem]
  · by_cases hm : x ∈ target <;> simp [pdgMask, isin, hx, List.contains_eq_mem, hm]

/-- **C22** black- and whitelisting are complementary, for both settings of `sign_sensitive`. -/
theorem C22_complement (data target : List Int) (s : Bool) :
    pdgMask data target true s = (pdgMask data target false s).map (!·) := by
  simp only [pdgMask, isin, List.map_map]
  apply List.map_congr_left
  intro x _
  simp

/-- **C22** not sign-sensitive, for all codes and targets: entry `i` says whether the absolute value of code `i` is in
`target`, the smallest 32-bit integer counting as its own absolute value. -/
theorem C22_magnitude (data target : List Int) :
    (pdgMask data target false false).length = data.length ∧
    ∀ (i : Nat) (x : Int), data[i]? = some x →
      (pdgMask data target false false)[i]? =
        some (decide ((if x = minI32 then x else |x|) ∈ target)) := by
  refine ⟨by simp [pdgMask, isin], ?_⟩
  intro i x hx
  have : absWrap 32 x = if x = minI32 then x else |x| := by
    split
    · next h => subst h; decide
    · next h => exact absWrap32 x h
  simp only [pdgMask, isin, Bool.false_eq_true, if_false, List.map_map, List.getElem?_map, hx, Option.map_some,
    Function.comp, this, List.contains_eq_mem]
  cases decide ((if x = minI32 then x else |x|) ∈ target) <;> rfl

/-- **C22** not sign-sensitive: particle `i` is selected exactly when its code or that of its antiparticle is listed in
`target` as a non-negative code (so a negative entry of `target` selects nothing). -/
theorem C22_insensitive (data target : List Int) (i : Nat) (x : Int) (hx : data[i]? = some x) (hx32 : x ≠ minI32) :
    (pdgMask data target false false)[i]? = some (decide (∃ t ∈ target, 0 ≤ t ∧ (t = x ∨ t = -x))) := by
  rw [(C22_magnitude data target).2 i x hx, if_neg hx32]
  congr 1
  rw [decide_eq_decide]
  constructor
  · intro h
    exact ⟨|x|, h, abs_nonneg x, (abs_eq_abs.1 (abs_abs x)).imp id id⟩
  · rintro ⟨t, ht, h0, h | h⟩
    · rwa [← h, abs_of_nonneg h0]
    · rw [← abs_neg, ← h, abs_of_nonneg h0]; exact ht

/-- **C22** The expectation that a listed code is always selected is refuted: a particle whose own code is listed is
not selected. -/
theorem C22_false : ∃ (data target : List Int) (x : Int), minI32 ∉ data ∧ data[0]? = some x ∧
    x ∈ target ∧ (pdgMask data target false false)[0]? = some false :=
  ⟨[-11, 22], [-11], -11, by decide, by decide, by decide, by decide⟩

example : pdgMask [11, -11, 22, 1] [11, 22] false false = [true, true, true, false] := by decide

/-! ## C23 -/

/-- **C23** sign-sensitive: entry `i` says whether `lo ≤ status i ≤ hi`. -/
theorem C23_signed (data : List Int) (lo : Int) (hi : Option Int) :
    (inRange data lo hi true).length = data.length ∧
    ∀ (i : Nat) (x : Int), data[i]? = some x →
      (inRange data lo hi true)[i]? = some (decide (lo ≤ x ∧ ∀ h, hi = some h → x ≤ h)) := by
  cases hi with
  | none => simp +contextual [inRange]
  | some h =>
    refine ⟨by simp [inRange], ?_⟩
    intro i x hx
    simp [inRange, hx, List.getElem?_zipWith, Option.map₂]

/-- **C23** default: entry `i` says whether `lo ≤ |status i| ≤ hi`, for all statuses; the smallest 16-bit integer counts
as its own absolute value. -/
theorem C23_unsigned (data : List Int) (lo : Int) (hi : Option Int) :
    (inRange data lo hi false).length = data.length ∧
    ∀ (i : Nat) (x a : Int), data[i]? = some x → a = (if x = minI16 then x else |x|) →
      (inRange data lo hi false)[i]? = some (decide (lo ≤ a ∧ ∀ h, hi = some h → a ≤ h)) := by
  have hx' : ∀ x : Int, absWrap 16 x = if x = minI16 then x else |x| := fun x => by
    split
    · next h => subst h; decide
    · next h => exact absWrap16 x h
  cases hi with
  | none =>
    refine ⟨by simp [inRange], ?_⟩
    rintro i x a hx rfl
    rw [← hx']
    simp [inRange, hx]
  | some h =>
    refine ⟨by simp [inRange], ?_⟩
    rintro i x a hx rfl
    rw [← hx']
    simp [inRange, hx, List.getElem?_zipWith, Option.map₂]

/-- **C23** with default arguments exactly the smallest 16-bit integer is rejected. -/
theorem C23_default (data : List Int) :
    inRange data 0 none false = data.map (fun x => decide (x ≠ minI16)) := by
  apply List.ext_getElem?
  intro i
  obtain ⟨hl, h⟩ := C23_unsigned data 0 none
  cases hi : data[i]? with
  | none =>
    have : data.length ≤ i := List.getElem?_eq_none_iff.1 hi
    rw [List.getElem?_eq_none (by omega), List.getElem?_eq_none (by simpa using this)]
  | some x =>
    rw [h i x _ hi rfl, List.getElem?_map, hi]
    by_cases hx : x = minI16
    · subst hx; simp [minI16]
    · simp [hx]

/-- **C23** The expectation that the default range accepts every status is refuted at -32768. -/
theorem C23_false : inRange [minI16] 0 none false = [false] := by decide

example : inRange [-21, 23, 90, -63] 21 (some 63) false = [true, true, false, true] := by decide

/-! ## C24 -/

/-- **C24** the four categories, in order, with their status codes. -/
theorem C24_categories (data : List Int) :
    ∃ d : Int → List Bool,
      look (hardMask data) [] = some (.group .or
        ["incoming", "intermediate", "outgoing", "outgoing_nonperturbative_diffraction"]) ∧
      look (hardMask data) ["incoming"] = some (.leaf (d 21)) ∧
      look (hardMask data) ["intermediate"] = some (.leaf (d 22)) ∧
      look (hardMask data) ["outgoing"] = some (.leaf (d 23)) ∧
      look (hardMask data) ["outgoing_nonperturbative_diffraction"] = some (.leaf (d 24)) ∧
      ∀ s, 21 ≤ s → s ≤ 24 → (d s).length = data.length ∧
        ∀ (i : Nat) (x : Int), data[i]? = some x → (d s)[i]? = some (decide (|x| = s)) := by
  refine ⟨fun s => data.map (fun x => absWrap 16 x == s), ?_, ?_, ?_, ?_, ?_, ?_⟩
  · rfl
  · simp [look, at?, child, hardMask, node, Function.comp_def]
  · simp [look, at?, child, hardMask, node, Function.comp_def]
  · simp [look, at?, child, hardMask, node, Function.comp_def]
  · simp [look, at?, child, hardMask, node, Function.comp_def]
  · intro s h1 h2
    refine ⟨by simp, ?_⟩
    intro i x hx
    simp only [List.getElem?_map, hx, Option.map_some]
    congr 1
    exact absWrap16_beq x s h1 h2

/-- **C24** the categories are pairwise disjoint. -/
theorem C24_disjoint (data : List Int) (k k' : String) (d d' : List Bool) (hne : k ≠ k')
    (h : look (hardMask data) [k] = some (.leaf d)) (h' : look (hardMask data) [k'] = some (.leaf d'))
    (i : Nat) (hi : d[i]? = some true) : d'[i]? = some false := by
  obtain ⟨e, -, h1, h2, h3, h4, hs⟩ := C24_categories data
  have hkey : ∀ k d, look (hardMask data) [k] = some (.leaf d) → ∃ s, 21 ≤ s ∧ s ≤ 24 ∧ d = e s ∧
      k = (if s = 21 then "incoming" else if s = 22 then "intermediate" else if s = 23 then "outgoing"
        else "outgoing_nonperturbative_diffraction") := by
    intro k d hk
    by_cases c1 : k = "incoming"
    · subst c1; rw [h1] at hk
      exact ⟨21, by decide, by decide, by simpa using hk.symm, by simp⟩
    by_cases c2 : k = "intermediate"
    · subst c2; rw [h2] at hk
      exact ⟨22, by decide, by decide, by simpa using hk.symm, by simp⟩
    by_cases c3 : k = "outgoing"
    · subst c3; rw [h3] at hk
      exact ⟨23, by decide, by decide, by simpa using hk.symm, by simp⟩
    by_cases c4 : k = "outgoing_nonperturbative_diffraction"
    · subst c4; rw [h4] at hk
      exact ⟨24, by decide, by decide, by simpa using hk.symm, by simp⟩
    exfalso
    simp [look, at?, child, hardMask, List.find?_cons, beq_iff_eq, Ne.symm c1, Ne.symm c2,
      Ne.symm c3, Ne.symm c4] at hk
  obtain ⟨s, a1, a2, rfl, hk⟩ := hkey k d h
  obtain ⟨s', b1, b2, rfl, hk'⟩ := hkey k' d' h'
  have hss : s ≠ s' := by
    intro e; subst e; exact hne (hk.trans hk'.symm)
  have hlt : i < data.length := by
    rw [← (hs s a1 a2).1]
    by_contra hc
    rw [List.getElem?_eq_none (by omega)] at hi; cases hi
  have hx := List.getElem?_eq_getElem hlt
  have g1 := (hs s a1 a2).2 i _ hx
  have g2 := (hs s' b1 b2).2 i _ hx
  rw [hi] at g1
  simp only [Option.some.injEq] at g1
  have g1 := of_decide_eq_true g1.symm
  rw [g2, g1]
  simp [hss]

/-- **C24** the aggregate marks exactly the particles with status between 21 and 24 in absolute
value. -/
theorem C24_aggregate (data : List Int) :
    ∃ d, (hardMask data).data = .ok d ∧ d.length = data.length ∧
      ∀ (i : Nat) (x : Int), data[i]? = some x → d[i]? = some (decide (21 ≤ |x| ∧ |x| ≤ 24)) := by
  refine ⟨data.map (fun x => decide (21 ≤ |x| ∧ |x| ≤ 24)), ?_, by simp, by simp +contextual⟩
  simp only [hardMask, Mask.data, Mask.dataKids, reduceRows, List.length_map, List.all_cons,
    beq_self_eq_true, List.all_nil, Bool.and_true, if_true, List.foldl_cons, List.foldl_nil,
    List.zipWith_map, List.map_map, Except.ok.injEq]
  apply List.ext_getElem?
  intro i
  by_cases hi : i < data.length
  · simp only [List.getElem?_zipWith, List.getElem?_map, List.getElem?_eq_getElem hi,
      Option.map_some, Option.some.injEq, Function.comp]
    have key := absWrap16_beq
    rw [key _ 21 (by decide) (by decide), key _ 22 (by decide) (by decide),
      key _ 23 (by decide) (by decide), key _ 24 (by decide) (by decide)]
    rw [← Bool.decide_or, ← Bool.decide_or, ← Bool.decide_or, decide_eq_decide]
    omega
  · rw [List.getElem?_eq_none (by simp; omega), List.getElem?_eq_none (by simp; omega)]

example : (hardMask [-21, 22, -23, 24, 83]).data = .ok [true, true, true, true, false] := by
  rfl

/-! ## C87 -/

/-- **C87** unknown names are rejected, and only those. -/
theorem C87_unknown (table : List (Int × String)) (names : List String) :
    ((∃ n ∈ names, ∀ c, (c, n) ∉ table) → fromName table names = .error .valueError) ∧
    ((∀ n ∈ names, ∃ c, (c, n) ∈ table) → ∃ codes, fromName table names = .ok codes ∧
      ∀ c, c ∈ codes ↔ ∃ n ∈ names, (c, n) ∈ table) := by
  constructor
  · rintro ⟨n, hn, h⟩
    unfold fromName
    rw [if_neg]
    simp only [List.all_eq_true, List.any_eq_true, beq_iff_eq, not_forall]
    refine ⟨n, hn, ?_⟩
    rintro ⟨⟨c, m⟩, hm, rfl⟩
    exact h c hm
  · intro h
    refine ⟨_, by unfold fromName; rw [if_pos]; simp only [List.all_eq_true, List.any_eq_true, beq_iff_eq]; intro n hn; obtain ⟨c, hc⟩ := h n hn; exact ⟨(c, n), hc, rfl⟩, ?_⟩
    intro c
    simp only [List.mem_flatMap, List.mem_map, List.mem_filter, beq_iff_eq]
    constructor
    · rintro ⟨n, hn, ⟨c', m⟩, ⟨h1, h2⟩, rfl⟩
      exact ⟨n, hn, by simpa [← h2] using h1⟩
    · rintro ⟨n, hn, h1⟩
      exact ⟨n, hn, (c, n), ⟨h1, rfl⟩, rfl⟩

/-- **C87** for a table listing every code once and every name once, looking names up and reading
the names of the result gives the names back, one code per name in order. -/
theorem C87_roundtrip (table : List (Int × String)) (hc : (table.map Prod.fst).Nodup)
    (hn : (table.map Prod.snd).Nodup) (names : List String)
    (h : ∀ n ∈ names, ∃ c, (c, n) ∈ table) :
    ∃ codes, fromName table names = .ok codes ∧ codes.length = names.length ∧
      pdgNames table codes = names.map some := by
  have hall : names.all (fun n => table.any (fun r => r.2 == n)) = true := by
    simp only [List.all_eq_true, List.any_eq_true, beq_iff_eq]
    intro n hn
    obtain ⟨c, hc⟩ := h n hn
    exact ⟨(c, n), hc, rfl⟩
  have hfilter : ∀ (t : List (Int × String)) n c, (t.map Prod.snd).Nodup → (c, n) ∈ t →
      t.filter (fun r => r.2 == n) = [(c, n)] := by
    intro t n c
    induction t with
    | nil => simp
    | cons r t ih =>
      intro hnd hm
      simp only [List.map_cons, List.nodup_cons] at hnd
      rcases List.mem_cons.1 hm with e | e
      · subst e
        rw [List.filter_cons_of_pos (by simp), List.filter_eq_nil_iff.2]
        intro r hr
        simp only [beq_iff_eq]
        intro e
        exact hnd.1 (List.mem_map.2 ⟨r, hr, e⟩)
      · rw [List.filter_cons_of_neg, ih hnd.2 e]
        simp only [beq_iff_eq]
        intro e'
        exact hnd.1 (List.mem_map.2 ⟨(c, n), e, e'.symm⟩)
  have hfind : ∀ (t : List (Int × String)) n c, (t.map Prod.fst).Nodup → (c, n) ∈ t →
      t.find? (fun r => r.1 == c) = some (c, n) := by
    intro t n c
    induction t with
    | nil => simp
    | cons r t ih =>
      intro hnd hm
      simp only [List.map_cons, List.nodup_cons] at hnd
      rcases List.mem_cons.1 hm with e | e
      · subst e; simp
      · rw [List.find?_cons_of_neg, ih hnd.2 e]
        simp only [beq_iff_eq]
        intro e'
        exact hnd.1 (List.mem_map.2 ⟨(c, n), e, e'.symm⟩)
  refine ⟨_, by unfold fromName; rw [if_pos hall], ?_⟩
  clear hall
  induction names with
  | nil => simp [pdgNames]
  | cons n ns ih =>
    obtain ⟨c, hcm⟩ := h n (by simp)
    obtain ⟨i1, i2⟩ := ih (fun m hm => h m (by simp [hm]))
    simp only [pdgNames] at i2
    simp only [List.flatMap_cons, hfilter table n c hn hcm, List.length_append, i1, pdgNames,
      List.map_append, i2]
    simp [hfind table n c hc hcm]
    omega

example : fromName [(1, "d"), (-1, "d~"), (22, "gamma")] ["gamma", "d~"] = .ok [22, -1] := by decide

end Gcl
