import Verif.Model.Given
import Verif.Spec.Convert
import Verif.Spec.Mapping
import Verif.Props.Mapping
import Verif.Props.RawMask
/-! # C135: what a group makes of the values given for its masks -/
namespace Gcl
set_option autoImplicit false
open Spec

/-- An array `MaskArray` takes: a scalar, a flat array, one column, or an array of length zero. -/
def Spec.MaskShaped (shape : List Nat) : Prop :=
  shape.length ≤ 1 ∨ shape[1]? = some 1 ∨ shape[0]? = some 0

mutual
/-- What a value stands for when a group is made: a mask for itself, an array for its elements in order, a dictionary
for the group of what its values stand for, with the operation "and". -/
def Spec.StandsFor : Given → RMask → Prop
  | .mask m, r => r = m
  | .values a, r => MaskShaped a.shape ∧ r = .arr a.flat
  | .fields a, r => (a.names.length = 1 ∨ a.records = []) ∧ r = .arr a.records.flatten
  | .mapping kids, r => ∃ ks, r = .grp (.str "and") ks ∧ Spec.StandFor kids ks
termination_by structural g => g
/-- Name by name, in order. -/
def Spec.StandFor : List (String × Given) → List (String × RMask) → Prop
  | [], ks => ks = []
  | (k, g) :: rest, ks => ∃ m ks', ks = (k, m) :: ks' ∧ Spec.StandsFor g m ∧ Spec.StandFor rest ks'
termination_by structural gs => gs
end

theorem construct_scalar (a : Nd Bool) (m : RMask) :
    (arrayMask (construct .scalar a) = .ok m ↔ MaskShaped a.shape ∧ m = .arr a.flat) ∧
    (∀ e, arrayMask (construct .scalar a) = .error e → e = .valueError) ∧
    (MaskShaped a.shape → arrayMask (construct .scalar a) = .ok (.arr a.flat)) ∧
    (¬ MaskShaped a.shape → arrayMask (construct .scalar a) = .error .valueError) := by
  obtain ⟨shape, flat⟩ := a
  match shape with
  | [] => simp [construct, convertNd, isFlat, Kind.cols, arrayMask, MaskShaped] <;> exact eq_comm
  | [n] => simp [construct, convertNd, isFlat, Kind.cols, arrayMask, MaskShaped] <;> exact eq_comm
  | n :: c :: rest =>
    by_cases hc : c = 1
    · simp [construct, convertNd, isFlat, Kind.cols, arrayMask, MaskShaped, hc] <;> exact eq_comm
    · by_cases hn : n = 0
      · simp [construct, convertNd, isFlat, Kind.cols, arrayMask, MaskShaped, hc, hn] <;> exact eq_comm
      · simp [construct, convertNd, isFlat, Kind.cols, arrayMask, MaskShaped, hc, hn] <;> exact eq_comm

theorem construct_fields (a : Structured Bool) (m : RMask) :
    (arrayMask (constructStructured .scalar a) = .ok m ↔
      (a.names.length = 1 ∨ a.records = []) ∧ m = .arr a.records.flatten) ∧
    (∀ e, arrayMask (constructStructured .scalar a) = .error e → e = .valueError) ∧
    ((a.names.length = 1 ∨ a.records = []) ∨ arrayMask (constructStructured .scalar a) = .error .valueError) := by
  have e : arrayMask (constructStructured .scalar a) = arrayMask (construct .scalar (unstructure a)) := by
    simp [constructStructured, convertStructured, construct, Kind.cols]
  have hs : MaskShaped (unstructure a).shape ↔ (a.names.length = 1 ∨ a.records = []) := by
    simp [MaskShaped, unstructure]
  rw [e, ← hs]
  obtain ⟨h1, h2, h3, h4⟩ := construct_scalar (unstructure a) m
  exact ⟨h1, h2, (Classical.em _).imp id h4⟩

mutual
theorem convert_iff (g : Given) (m : RMask) : Given.convert g = .ok m ↔ StandsFor g m := by
  match g with
  | .mask m' => simp [Given.convert, StandsFor, eq_comm]
  | .values a => simp only [Given.convert, StandsFor]; exact (construct_scalar a m).1
  | .fields a => simp only [Given.convert, StandsFor]; exact (construct_fields a m).1
  | .mapping kids =>
    simp only [Given.convert, StandsFor]
    have ih := convertKids_iff kids
    constructor
    · intro h
      split at h
      · rename_i ks hk
        exact ⟨ks, (Except.ok.inj h).symm, (ih ks).1 hk⟩
      · cases h
    · rintro ⟨ks, rfl, hk⟩
      rw [(ih ks).2 hk]
theorem convertKids_iff (gs : List (String × Given)) (ks : List (String × RMask)) :
    Given.convertKids gs = .ok ks ↔ StandFor gs ks := by
  match gs with
  | [] => simp [Given.convertKids, StandFor, eq_comm]
  | (k, g) :: rest =>
    simp only [Given.convertKids, StandFor]
    have ih := convert_iff g
    have ih' := convertKids_iff rest
    constructor
    · intro h
      split at h
      · cases h
      · rename_i m hm
        split at h
        · cases h
        · rename_i ms hms
          exact ⟨m, ms, (Except.ok.inj h).symm, (ih m).1 hm, (ih' ms).1 hms⟩
    · rintro ⟨m, ms, rfl, h1, h2⟩
      rw [(ih m).2 h1]
      simp only
      rw [(ih' ms).2 h2]
end

mutual
theorem convert_error (g : Given) (e : PyErr) (h : Given.convert g = .error e) : e = .valueError := by
  match g with
  | .mask m' => simp [Given.convert] at h
  | .values a => simp only [Given.convert] at h; exact (construct_scalar a (.arr [])).2.1 e h
  | .fields a => simp only [Given.convert] at h; exact (construct_fields a (.arr [])).2.1 e h
  | .mapping kids =>
    simp only [Given.convert] at h
    split at h
    · cases h
    · rename_i e' he
      cases h
      exact convertKids_error kids _ he
theorem convertKids_error (gs : List (String × Given)) (e : PyErr) (h : Given.convertKids gs = .error e) : e = .valueError := by
  match gs with
  | [] => simp [Given.convertKids] at h
  | (k, g) :: rest =>
    simp only [Given.convertKids] at h
    split at h
    · rename_i e' he; cases h; exact convert_error g _ he
    · split at h
      · rename_i e' he; cases h; exact convertKids_error rest _ he
      · cases h
end

/-- **C135** `MaskGroup(mapping, agg_op)` is the group of what the values of the mapping stand for; it raises, and then
`ValueError`, exactly if at some depth there is a value which stands for no mask. -/
theorem C135_constructed (kids : List (String × Given)) (op : RawOp) :
    (∀ r, groupOfGiven kids op = .ok r ↔ ∃ ks, r = .grp op ks ∧ StandFor kids ks) ∧
    ((∃ e, groupOfGiven kids op = .error e) ↔ ¬ ∃ ks, StandFor kids ks) ∧
    ∀ e, groupOfGiven kids op = .error e → e = .valueError := by
  have hi := convertKids_iff kids
  have he := convertKids_error kids
  unfold groupOfGiven
  cases h : Given.convertKids kids with
  | ok ks =>
    have hk := (hi ks).1 h
    refine ⟨fun r => ⟨fun e => ⟨ks, (Except.ok.inj e).symm, hk⟩, ?_⟩, ⟨(by rintro ⟨e, h⟩; cases h), fun hno => absurd ⟨ks, hk⟩ hno⟩, by rintro e ⟨⟩⟩
    rintro ⟨ks', rfl, h'⟩
    rw [(hi ks').2 h'] at h
    cases h; rfl
  | error e =>
    have hno : ¬ ∃ ks, StandFor kids ks := by
      rintro ⟨ks, hk⟩
      rw [(hi ks).2 hk] at h
      cases h
    refine ⟨fun r => ⟨fun h' => (by cases h'), ?_⟩, ⟨fun _ => hno, fun _ => ⟨e, rfl⟩⟩, ?_⟩
    · rintro ⟨ks, -, hk⟩; exact absurd ⟨ks, hk⟩ hno
    · intro e' h'; cases h'; exact he _ h

theorem standFor_keys (gs : List (String × Given)) : ∀ ks, StandFor gs ks → ks.map Prod.fst = gs.map Prod.fst := by
  induction gs with
  | nil => intro ks h; simp only [StandFor] at h; simp [h]
  | cons p rest ih =>
    obtain ⟨k, g⟩ := p
    intro ks h
    simp only [StandFor] at h
    obtain ⟨m, ks', rfl, -, h2⟩ := h
    simp [ih ks' h2]

theorem standFor_get (gs : List (String × Given)) (k : String) (g : Given) : ∀ ks, StandFor gs ks → Dict.get? gs k = some g →
    ∃ m, Dict.get? ks k = some m ∧ StandsFor g m := by
  induction gs with
  | nil => intro ks h hg; simp [Dict.get?] at hg
  | cons p rest ih =>
    obtain ⟨k', g'⟩ := p
    intro ks h hg
    simp only [StandFor] at h
    obtain ⟨m, ks', rfl, h1, h2⟩ := h
    by_cases hk : k' = k
    · subst hk
      simp only [Dict.get?, Option.some.injEq, if_true] at hg ⊢
      subst hg
      exact ⟨m, rfl, h1⟩
    · have hk2 : ¬ k' = k := hk
      simp only [Dict.get?, hk2, if_false] at hg ⊢
      exact ih ks' h2 hg

/-- **C135** So the group has the names of the mapping in their order, and under each name what its value stands for. -/
theorem C135_lookup (kids : List (String × Given)) (op : RawOp) (ks : List (String × RMask))
    (h : groupOfGiven kids op = .ok (.grp op ks)) :
    Dict.keys ks = Dict.keys kids ∧
    ∀ k g, Dict.get? kids k = some g → ∃ m, rawGetitem op ks (.name k) = .ok m ∧ StandsFor g m := by
  obtain ⟨ks', e, hk⟩ := ((C135_constructed kids op).1 _).1 h
  cases e
  refine ⟨standFor_keys kids ks hk, fun k g hg => ?_⟩
  obtain ⟨m, h1, h2⟩ := standFor_get kids k g ks hk hg
  exact ⟨m, by simp [rawGetitem, h1], h2⟩

/-- **C135** `group[key] = value` stores what the value stands for, unless that is a dictionary: of a dictionary it stores
a mask of length one, `True` if there are entries, whatever they are. A value which stands for no mask is `ValueError`,
and the group is as before. -/
theorem C135_assigned (ks : Dict RMask) (k : String) (v : Given) :
    ((∀ kids, v ≠ .mapping kids) → (∀ m, StandsFor v m → assignGiven ks k v = (Dict.set ks k m, none)) ∧
      ((¬ ∃ m, StandsFor v m) → assignGiven ks k v = (ks, some .valueError))) ∧
    (∀ kids, v = .mapping kids → assignGiven ks k v = (Dict.set ks k (.arr [decide (kids ≠ [])]), none)) := by
  constructor
  · intro hv
    have e : v.assigned = v.convert := by
      cases v with
      | mapping kids => exact absurd rfl (hv kids)
      | _ => simp [Given.assigned, Given.convert]
    constructor
    · intro m hm
      simp only [assignGiven, e, (convert_iff v m).2 hm]
    · intro hno
      cases h : v.convert with
      | ok m => exact absurd ⟨m, (convert_iff v m).1 h⟩ hno
      | error er =>
        have := convert_error v er h
        subst this
        simp [assignGiven, e, h]
  · rintro kids rfl
    have := (construct_scalar ⟨[], [decide (kids.length ≠ 0)]⟩ (.arr [])).2.2.1 (by simp [MaskShaped])
    simp only [assignGiven, Given.assigned, this]
    simp

/-- What an assignment stores, if anything. -/
def Spec.Stored : Given → Option RMask → Prop
  | .mapping kids, r => r = some (.arr [decide (kids ≠ [])])
  | v, some m => StandsFor v m
  | v, none => ¬ ∃ m, StandsFor v m

/-- **C135** Through a history of assignments the group is the ordered map with the values stored, failed assignments
(those raising `ValueError`) left out. -/
theorem C135_history (hist : List (String × Given)) : ∀ (ks : Dict RMask) (s : OMap), IsOMap ks s →
    ∃ stored : List (Option RMask), List.Forall₂ (fun p r => Stored p.2 r) hist stored ∧
      IsOMap (assignAll ks hist).1
        ((hist.zip stored).foldl (fun s p => match p.2 with | some m => s.put p.1.1 m | none => s) s) ∧
      (assignAll ks hist).2 = stored.map (fun r => if r.isSome then none else some .valueError) := by
  induction hist with
  | nil => intro ks s h; exact ⟨[], .nil, h, rfl⟩
  | cons p rest ih =>
    obtain ⟨k, v⟩ := p
    intro ks s h
    obtain ⟨c1, c2⟩ := C135_assigned ks k v
    have key : (∃ m, Stored v (some m) ∧ assignGiven ks k v = (Dict.set ks k m, none)) ∨
        (Stored v none ∧ assignGiven ks k v = (ks, some .valueError)) := by
      by_cases hv : ∃ kids, v = .mapping kids
      · obtain ⟨kids, rfl⟩ := hv
        exact Or.inl ⟨_, rfl, c2 kids rfl⟩
      · have hv' : ∀ kids, v ≠ .mapping kids := fun kids e => hv ⟨kids, e⟩
        obtain ⟨d1, d2⟩ := c1 hv'
        by_cases hm : ∃ m, StandsFor v m
        · obtain ⟨m, hm⟩ := hm
          refine Or.inl ⟨m, ?_, d1 m hm⟩
          cases v with
          | mapping kids => exact absurd rfl (hv' kids)
          | _ => exact hm
        · refine Or.inr ⟨?_, d2 hm⟩
          cases v with
          | mapping kids => exact absurd rfl (hv' kids)
          | _ => exact hm
    rcases key with ⟨m, hs, e⟩ | ⟨hs, e⟩
    · obtain ⟨stored, f1, f2, f3⟩ := ih (Dict.set ks k m) (s.put k m) (omap_put h k m)
      refine ⟨some m :: stored, .cons hs f1, ?_, ?_⟩
      · simp only [assignAll, e]; exact f2
      · simp only [assignAll, e, List.map_cons, f3]; rfl
    · obtain ⟨stored, f1, f2, f3⟩ := ih ks s h
      refine ⟨none :: stored, .cons hs f1, ?_, ?_⟩
      · simp only [assignAll, e]; exact f2
      · simp only [assignAll, e, List.map_cons, f3]; rfl

/-- **C135** The expectation that assigning a value under a name gives what a group made with it has there is refuted: a
dictionary of masks of three particles becomes a mask of one. -/
theorem C135_false : ∃ (v : Given) (m m' : RMask),
    groupOfGiven [("a", v)] (.str "and") = .ok (.grp (.str "and") [("a", m)]) ∧ m.data = .ok [true, false, false] ∧
    assignGiven [] "a" v = ([("a", m')], none) ∧ m'.data = .ok [true] :=
  ⟨.mapping [("b", .values ⟨[3], [true, true, false]⟩), ("c", .mask (.arr [true, false, false]))], _, _, rfl, by
    have h : "and".toLower = "and" := (lower_and "and").2 (by decide)
    simp [RMask.data, RMask.dataKids, RawOp.parse, h, Agg.ofLowered, reduceRows], rfl, by simp [RMask.data]⟩

-- non-vacuity
example : StandFor [("a", .values ⟨[2, 1], [true, false]⟩), ("b", .mapping [("c", .mask (.arr [true, true]))])]
    [("a", .arr [true, false]), ("b", .grp (.str "and") [("c", .arr [true, true])])] := by
  simp [StandFor, StandsFor, MaskShaped]
example : ¬ ∃ m, StandsFor (.values ⟨[2, 2], [true, false, true, true]⟩) m := by simp [StandsFor, MaskShaped]
example : (assignAll [] [("a", .values ⟨[2], [true, false]⟩), ("a", .values ⟨[1, 2], [true, false]⟩),
    ("b", .mapping [])]).2 = [none, some .valueError, none] := by rfl
example : IsOMap [] ⟨[], fun _ => none⟩ := ⟨rfl, by simp, by simp⟩

end Gcl
