import Verif.Props.Convert
import Verif.Props.MaskC
/-! # C16–C18: structured input with any number of fields -/
namespace Gcl
set_option autoImplicit false
open Spec

/-- `f` is the last of the fields that are named so. -/
def Spec.LastField (named : String → Prop) (names : List String) (f : String) : Prop :=
  named f ∧ ∃ pre post, names = pre ++ f :: post ∧ ∀ n ∈ post, ¬ named n

theorem lastField_exists (named : String → Prop) [DecidablePred named] (names : List String) (h : ∃ n ∈ names, named n) :
    ∃ f, LastField named names f := by
  induction names with
  | nil => obtain ⟨n, hn, -⟩ := h; cases hn
  | cons m ms ih =>
    by_cases hm : ∃ n ∈ ms, named n
    · obtain ⟨f, h1, pre, post, h2, h3⟩ := ih hm
      exact ⟨f, h1, m :: pre, post, by rw [h2]; rfl, h3⟩
    · obtain ⟨n, hn, hx⟩ := h
      rcases List.mem_cons.1 hn with rfl | hn
      · exact ⟨n, hx, [], ms, rfl, fun k hk hc => hm ⟨k, hk, hc⟩⟩
      · exact absurd ⟨n, hn, hx⟩ hm

theorem lastField_mem {named : String → Prop} {names : List String} {f : String} (h : LastField named names f) :
    f ∈ names := by
  obtain ⟨-, pre, post, rfl, -⟩ := h
  simp

theorem lastField_congr {P Q : String → Prop} (hPQ : ∀ n, P n ↔ Q n) {names : List String} {f : String}
    (h : LastField P names f) : LastField Q names f := by
  obtain ⟨h1, pre, post, h2, h3⟩ := h
  exact ⟨(hPQ f).1 h1, pre, post, h2, fun n hn hc => h3 n hn ((hPQ n).2 hc)⟩

theorem get?_ofPairs_zip (c : String → String) (names : List String) (o f : String)
    (h : LastField (fun n => c n = o) names f) :
    Dict.get? (Dict.ofPairs ((names.map c).zip names)) o = some f := by
  obtain ⟨h1, pre, post, rfl, h3⟩ := h
  rw [Dict.get?_ofPairs]
  have e : ((pre ++ f :: post).map c).zip (pre ++ f :: post) = (pre.map c).zip pre ++ (c f, f) :: (post.map c).zip post := by
    rw [List.map_append, List.zip_append (by simp)]; rfl
  have hz : ((post.map c).zip post).reverse.find? (fun p => p.1 == o) = none := by
    rw [List.find?_eq_none]
    intro p hp
    rw [List.mem_reverse, List.zip_map_left, List.mem_map] at hp
    obtain ⟨q, hq, rfl⟩ := hp
    have : q.1 = q.2 ∧ q.2 ∈ post := by
      have hz : ∀ l : List String, ∀ q ∈ l.zip l, q.1 = q.2 ∧ q.2 ∈ l := by
        intro l
        induction l with
        | nil => simp
        | cons b l ih =>
          intro q hq
          rw [List.zip_cons_cons, List.mem_cons] at hq
          rcases hq with rfl | hq
          · simp
          · obtain ⟨h1, h2⟩ := ih q hq
            exact ⟨h1, by simp [h2]⟩
      exact hz post q hq
    simp only [Prod.map_fst, beq_iff_eq]
    rw [this.1]
    exact h3 _ this.2
  rw [e, List.reverse_append, List.reverse_cons, List.find?_append, List.find?_append, hz]
  simp [h1]

/-- Reordering by field names for any alias table and any number of fields: the last field of each name is read. -/
theorem reorder_last {α : Type} (aliases : List (String × String)) (order ext : List String)
    (a : Structured α) (hself : ∀ o ∈ order, Dict.get? aliases o = some o) (hnames : a.names.Nodup)
    (hall : ∀ n ∈ a.names, (Dict.get? aliases n).isSome)
    (hext : List.Forall₂ (fun o f => LastField (fun n => Dict.get? aliases n = some o) a.names f) order ext)
    (hrec : ∀ r ∈ a.records, r.length = a.names.length) :
    ∃ b, reorder aliases order a = .ok b ∧ b.names.length = order.length ∧
      List.Forall₂ (fun r s => s.map some = ext.map (valueOf a.names r)) a.records b.records := by
  by_cases hn : a.names = order
  · -- names in canonical order
    have hsame : ext = order := by
      have : ∀ o f, o ∈ order → LastField (fun n => Dict.get? aliases n = some o) a.names f → f = o := by
        intro o f ho hf
        have hf1 : f ∈ order := by rw [← hn]; exact lastField_mem hf
        have := hself f hf1
        have h2 : Dict.get? aliases f = some o := hf.1
        rw [this] at h2
        exact Option.some.inj h2
      clear hself
      have gen : ∀ (os fs : List String), List.Forall₂ (fun o f => LastField (fun n => Dict.get? aliases n = some o) a.names f) os fs →
          (∀ o ∈ os, o ∈ order) → fs = os := by
        intro os fs h
        induction h with
        | nil => intro _; rfl
        | cons h1 _ ih =>
          intro hm
          rw [this _ _ (hm _ (by simp)) h1, ih (fun o ho => hm o (by simp [ho]))]
      exact gen _ _ hext (fun _ h => h)
    refine reorder_spec aliases order ext a hself (by rw [← hn]; exact hnames) ?_ (by rw [hsame, hn]) hrec
    exact hext.imp (fun _ _ h => h.1)
  · unfold reorder
    rw [if_neg hn]
    let c : String → String := fun n => (Dict.get? aliases n).getD ""
    have hc : ∀ n ∈ a.names, Dict.get? aliases n = some (c n) := by
      intro n hn
      obtain ⟨x, hx⟩ := Option.isSome_iff_exists.1 (hall n hn)
      simp only [c, hx, Option.getD_some]
    have hm1 : mapNames aliases a.names = .ok (a.names.map c) := by
      apply mapNames_ok
      rw [List.forall₂_map_right_iff, List.forall₂_same]
      exact hc
    rw [hm1]
    have hm2 : mapNames (Dict.ofPairs ((a.names.map c).zip a.names)) order = .ok ext := by
      apply mapNames_ok
      refine hext.imp (fun o f h => ?_)
      apply get?_ofPairs_zip
      obtain ⟨h1, pre, post, h2, h3⟩ := h
      refine ⟨?_, pre, post, h2, ?_⟩
      · simp only [c, h1, Option.getD_some]
      · intro n hn he
        apply h3 n hn
        rw [hc n (by rw [h2]; simp [hn]), he]
    simp only [hm2]
    refine ⟨_, rfl, hext.length_eq.symm, ?_⟩
    simp only
    rw [List.forall₂_map_right_iff, List.forall₂_same]
    intro r hr
    refine filterMap_valueOf a.names ext r (hrec r hr) ?_
    intro f hf
    obtain ⟨o, -, h⟩ : ∃ o ∈ order, LastField (fun n => Dict.get? aliases n = some o) a.names f := by
      clear hm2 hn hself
      induction hext with
      | nil => cases hf
      | cons h1 _ ih =>
        rcases List.mem_cons.1 hf with rfl | hf
        · exact ⟨_, by simp, h1⟩
        · obtain ⟨o, ho, h⟩ := ih hf
          exact ⟨o, by simp [ho], h⟩
    exact lastField_mem h

instance (c n : String) : Decidable (MomentumAlias c n) := by
  unfold MomentumAlias; split <;> infer_instance

instance (c n : String) : Decidable (EdgeAlias c n) := by
  unfold EdgeAlias; split <;> infer_instance

/-- **C16** In general, with any number of fields: if every field has one of the accepted names and every component
occurs, the array is accepted, and each component is read from the last of the fields naming it. -/
theorem C16_fields {α : Type} (a : Structured α) (hnames : a.names.Nodup)
    (hrec : ∀ r ∈ a.records, r.length = a.names.length)
    (hall : ∀ n ∈ a.names, ∃ c ∈ ["x", "y", "z", "e"], MomentumAlias c n)
    (hcomp : ∀ c ∈ ["x", "y", "z", "e"], ∃ n ∈ a.names, MomentumAlias c n) :
    ∃ fx fy fz fe b, LastField (MomentumAlias "x") a.names fx ∧ LastField (MomentumAlias "y") a.names fy ∧
      LastField (MomentumAlias "z") a.names fz ∧ LastField (MomentumAlias "e") a.names fe ∧
      constructStructured .momentum a = .ok b ∧ b.len = a.records.length ∧
      List.Forall₂ (fun r s => s.map some =
        [valueOf a.names r fx, valueOf a.names r fy, valueOf a.names r fz, valueOf a.names r fe])
        a.records (records .momentum b) := by
  obtain ⟨fx, hx⟩ := lastField_exists _ _ (hcomp "x" (by simp))
  obtain ⟨fy, hy⟩ := lastField_exists _ _ (hcomp "y" (by simp))
  obtain ⟨fz, hz⟩ := lastField_exists _ _ (hcomp "z" (by simp))
  obtain ⟨fe, he⟩ := lastField_exists _ _ (hcomp "e" (by simp))
  have conv : ∀ c f, c ∈ ["x", "y", "z", "e"] → LastField (MomentumAlias c) a.names f →
      LastField (fun n => Dict.get? momentumMap n = some c) a.names f :=
    fun c f hc h => lastField_congr (fun n => (momentumAlias_iff c n hc).symm) h
  obtain ⟨b, hb, hbn, hbr⟩ := reorder_last momentumMap ["x", "y", "z", "e"] [fx, fy, fz, fe] a (by decide) hnames
    (fun n hn => by
      obtain ⟨c, hc, h⟩ := hall n hn
      rw [(momentumAlias_iff c n hc).2 h]; rfl)
    (.cons (conv _ _ (by simp) hx) (.cons (conv _ _ (by simp) hy) (.cons (conv _ _ (by simp) hz)
      (.cons (conv _ _ (by simp) he) .nil)))) hrec
  have hl4 : ∀ s ∈ b.records, s.length = 4 := forall₂_map_lengths hbr
  obtain ⟨hc, hfl⟩ := chunks_flatten 4 b.records hl4
  have hlen : b.records.length = a.records.length := hbr.length_eq.symm
  have hbn4 : b.names.length = 4 := hbn
  refine ⟨fx, fy, fz, fe, ⟨[b.records.flatten.length / 4, 4], b.records.flatten⟩, hx, hy, hz, he, ?_, ?_, ?_⟩
  · simp [constructStructured, convertStructured, Kind.cols, hb, convertNd, unstructure, hbn4, isFlat]
  · simp [Nd.len, hfl, hlen]
  · have : records .momentum ⟨[b.records.flatten.length / 4, 4], b.records.flatten⟩ = b.records := by
      simp only [records, Kind.cols, hfl]
      simpa using hc
    rw [this]; simpa using hbr

theorem edgeKnown_iff (n : String) : (Dict.get? edgeMap n).isSome ↔ ∃ c ∈ ["src", "dst"], EdgeAlias c n := by
  constructor
  · intro h
    obtain ⟨c, hc⟩ := Option.isSome_iff_exists.1 h
    have hm : c ∈ ["src", "dst"] := by
      have := Dict.mem_of_get? hc
      revert this
      simp only [edgeMap, List.mem_cons, Prod.mk.injEq, List.not_mem_nil, or_false]
      tauto
    exact ⟨c, hm, (edgeAlias_iff c n hm).1 hc⟩
  · rintro ⟨c, hm, h⟩
    rw [(edgeAlias_iff c n hm).2 h]; rfl

/-- **C17** In general, for edges and for colours alike: if every field has one of the accepted names for sources and
destinations and both occur, each is read from the last of the fields naming it; -/
theorem C17_fields {α : Type} (k : Kind) (hk : k = .color ∨ k = .edges) (a : Structured α) (hnames : a.names.Nodup)
    (hrec : ∀ r ∈ a.records, r.length = a.names.length)
    (hall : ∀ n ∈ a.names, ∃ c ∈ ["src", "dst"], EdgeAlias c n)
    (hcomp : ∀ c ∈ ["src", "dst"], ∃ n ∈ a.names, EdgeAlias c n) :
    ∃ fs fd b, LastField (EdgeAlias "src") a.names fs ∧ LastField (EdgeAlias "dst") a.names fd ∧
      constructStructured k a = .ok b ∧ b.len = a.records.length ∧
      List.Forall₂ (fun r s => s.map some = [valueOf a.names r fs, valueOf a.names r fd]) a.records (records k b) := by
  obtain ⟨fs, hs⟩ := lastField_exists _ _ (hcomp "src" (by simp))
  obtain ⟨fd, hd⟩ := lastField_exists _ _ (hcomp "dst" (by simp))
  have conv : ∀ c f, c ∈ ["src", "dst"] → LastField (EdgeAlias c) a.names f →
      LastField (fun n => Dict.get? edgeMap n = some c) a.names f :=
    fun c f hc h => lastField_congr (fun n => (edgeAlias_iff c n hc).symm) h
  obtain ⟨b, hb, hbn, hbr⟩ := reorder_last edgeMap ["src", "dst"] [fs, fd] a (by decide) hnames
    (fun n hn => (edgeKnown_iff n).2 (hall n hn))
    (.cons (conv _ _ (by simp) hs) (.cons (conv _ _ (by simp) hd) .nil)) hrec
  have hl2 : ∀ s ∈ b.records, s.length = 2 := forall₂_map_lengths hbr
  obtain ⟨hc, hfl⟩ := chunks_flatten 2 b.records hl2
  have hlen : b.records.length = a.records.length := hbr.length_eq.symm
  have hbn2 : b.names.length = 2 := hbn
  have hany : a.names.any (fun n => (Dict.get? edgeMap n).isSome) = true := by
    rw [List.any_eq_true]
    exact ⟨fs, lastField_mem hs, (edgeKnown_iff fs).2 ⟨"src", by simp, hs.1⟩⟩
  refine ⟨fs, fd, ⟨[b.records.length, b.names.length], b.records.flatten⟩, hs, hd, ?_, ?_, ?_⟩
  · rcases hk with rfl | rfl <;>
    · simp only [constructStructured, convertStructured, Kind.cols, hany, hb, convertNd, unstructure, hbn2, isFlat]
      simp
  · simp [Nd.len, hlen]
  · have : records k ⟨[b.records.length, b.names.length], b.records.flatten⟩ = b.records := by
      rcases hk with rfl | rfl <;>
      · simp only [records, Kind.cols, hfl]
        simpa using hc
    rw [this]; simpa using hbr

/-- **C17** if some field has such a name, but another one has not, or one of the two is missing, it is a `KeyError`;
also for colours. -/
theorem C17_error {α : Type} (k : Kind) (hk : k = .color ∨ k = .edges) (a : Structured α)
    (hsome : ∃ n ∈ a.names, ∃ c ∈ ["src", "dst"], EdgeAlias c n)
    (h : (∃ n ∈ a.names, ∀ c ∈ ["src", "dst"], ¬ EdgeAlias c n) ∨
      (∃ c ∈ ["src", "dst"], ∀ n ∈ a.names, ¬ EdgeAlias c n)) :
    constructStructured k a = .error .keyError := by
  have hany : a.names.any (fun n => (Dict.get? edgeMap n).isSome) = true := by
    obtain ⟨n, hn, hc⟩ := hsome
    rw [List.any_eq_true]
    exact ⟨n, hn, (edgeKnown_iff n).2 hc⟩
  have : reorder edgeMap ["src", "dst"] a = .error .keyError := by
    apply reorder_err _ _ _ (by decide)
    rcases h with ⟨n, hn, h⟩ | ⟨c, hc, h⟩
    · refine Or.inl ⟨n, hn, ?_⟩
      cases hg : Dict.get? edgeMap n with
      | none => rfl
      | some c =>
        obtain ⟨c, hc, hh⟩ := (edgeKnown_iff n).1 (by rw [hg]; rfl)
        exact absurd hh (h c hc)
    · exact Or.inr ⟨c, hc, fun n hn e => h n hn ((edgeAlias_iff c n hc).1 e)⟩
  rcases hk with rfl | rfl <;> simp [constructStructured, convertStructured, Kind.cols, hany, this]

/-- **C18** If no field has one of the names for sources and destinations, colours and edges alike are read column by
column: two fields give one pair per record, in the order of the fields; any other number of fields is a `ValueError`,
unless there are no records, or one field and two records; those two numbers make one pair. -/
theorem C18_other_names {α : Type} (k : Kind) (hk : k = .color ∨ k = .edges) (a : Structured α)
    (hnone : ∀ n ∈ a.names, ∀ c ∈ ["src", "dst"], ¬ EdgeAlias c n)
    (hrec : ∀ r ∈ a.records, r.length = a.names.length) :
    (a.names.length = 2 → ∃ b, constructStructured k a = .ok b ∧ b.len = a.records.length ∧ records k b = a.records) ∧
    (a.names.length ≠ 2 → a.records ≠ [] → ¬ (a.names.length = 1 ∧ a.records.length = 2) →
      constructStructured k a = .error .valueError) ∧
    (∀ x y, a.names.length = 1 → a.records = [[x], [y]] →
      ∃ b, constructStructured k a = .ok b ∧ b.len = 2 ∧ records k b = [[x, y]]) ∧
    (a.records = [] → ∃ b, constructStructured k a = .ok b ∧ b.len = 0 ∧ records k b = []) := by
  have hany : a.names.any (fun n => (Dict.get? edgeMap n).isSome) = false := by
    rw [List.any_eq_false]
    intro n hn hc
    obtain ⟨c, hc, hh⟩ := (edgeKnown_iff n).1 hc
    exact hnone n hn c hc hh
  have hcols : k.cols = 2 := by rcases hk with rfl | rfl <;> rfl
  have hcon : constructStructured k a = convertNd 2 (unstructure a) := by
    have e : convertStructured k.cols a = convertNd 2 (unstructure a) := by
      unfold convertStructured
      rw [hcols, hany]; simp
    unfold constructStructured
    rw [e]
    rcases hk with rfl | rfl <;> cases convertNd 2 (unstructure a) <;> rfl
  rw [hcon]
  refine ⟨fun h => ?_, fun h hne hx => ?_, fun x y h hr => ?_, fun hr => ?_⟩
  · obtain ⟨hc, hfl⟩ := chunks_flatten 2 a.records (by rw [← h]; exact hrec)
    refine ⟨unstructure a, by simp [convertNd, unstructure, isFlat, h], rfl, ?_⟩
    unfold records
    rw [hcols]
    simp only [unstructure, hfl]
    simpa using hc
  · have hn : a.records.length ≠ 0 := by simpa using hne
    by_cases h1 : a.names.length = 1
    · have : a.records.length ≠ 2 := fun e => hx ⟨h1, e⟩
      simp [convertNd, unstructure, isFlat, h1, hne, this]
    · simp [convertNd, unstructure, isFlat, h, h1, hne]
  · refine ⟨⟨[2, 1], [x, y]⟩, by simp [convertNd, unstructure, isFlat, h, hr], rfl, ?_⟩
    unfold records
    rw [hcols]; simp [chunks]
  · refine ⟨⟨[0, a.names.length], []⟩, by simp [convertNd, unstructure, isFlat, hr], rfl, ?_⟩
    unfold records
    rw [hcols]; simp [chunks]

-- non-vacuity: a repeated component, a mixture of names, a single field
example : (constructStructured .momentum ⟨["x", "E", "px", "y", "z"], [[1, 2, 3, 4, 5]]⟩).map (records .momentum) =
    .ok [[3, 4, 5, 2]] := by decide
example : constructStructured .color ⟨["in", "color"], [[1, 2]]⟩ = .error .keyError := by decide
example : constructStructured .edges ⟨["in", "src", "dst"], [[1, 2, 3]]⟩ = .ok ⟨[1, 2], [2, 3]⟩ := by decide
example : constructStructured .color ⟨["a", "b", "c"], [[1, 2, 3]]⟩ = .error .valueError := by decide
example : (constructStructured .color ⟨["a"], [[1], [2]]⟩).map (records .color) = .ok [[1, 2]] := by decide

end Gcl
