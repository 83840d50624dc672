import Verif.Spec.RawMask
import Verif.Lemmas.Basic
import Verif.Lemmas.Mask
import Verif.Props.MaskA
/-! # C100, C104: stored aggregation operations, structured masks, printed trees -/
namespace Gcl
set_option autoImplicit false
open Spec

theorem toLower_eq (c d : Char) (hd : 97 ≤ d.toNat ∧ d.toNat ≤ 122) :
    c.toLower = d ↔ c = d ∨ c.toNat + 32 = d.toNat := by
  unfold Char.toLower
  have e1 : c.val.toNat = c.toNat := rfl
  have e2 : d.val.toNat = d.toNat := rfl
  split
  next h => 
    rw [Char.ext_iff, Char.ext_iff]
    rw [← UInt32.toNat_inj, ← UInt32.toNat_inj]
    simp only [UInt32.toNat_add]
    have h1 := UInt32.le_iff_toNat_le.1 h.1
    have h2 := UInt32.le_iff_toNat_le.1 h.2
    rw [e1] at *
    rw [e2]
    have : ('a'.val - 'A'.val).toNat = 32 := by decide
    rw [this]
    have : ('A'.val).toNat = 65 := by decide
    have : ('Z'.val).toNat = 90 := by decide
    omega
  next h =>
    constructor
    · exact Or.inl
    · rintro (e | e)
      · exact e
      · exfalso; apply h
        have : ('A'.val).toNat = 65 := by decide
        have : ('Z'.val).toNat = 90 := by decide
        constructor <;> (apply UInt32.le_iff_toNat_le.2; omega)

theorem toLower_iff (c d u : Char) (hd : 97 ≤ d.toNat ∧ d.toNat ≤ 122) (hu : u.toNat + 32 = d.toNat) :
    c.toLower = d ↔ c = d ∨ c = u := by
  rw [toLower_eq c d hd]
  constructor
  · rintro (h | h)
    · exact .inl h
    · right; apply Char.toNat_inj.1; omega
  · rintro (rfl | rfl)
    · exact .inl rfl
    · exact .inr hu

theorem lower_and (s : String) : s.toLower = "and" ↔ s ∈ spellings .and := by
  have ha := fun c => toLower_iff c 'a' 'A' (by decide) (by decide)
  have hn := fun c => toLower_iff c 'n' 'N' (by decide) (by decide)
  have hd := fun c => toLower_iff c 'd' 'D' (by decide) (by decide)
  rw [← String.toList_inj, String.toLower, String.toList_map]
  have hw : "and".toList = ['a', 'n', 'd'] := by decide
  rw [hw]
  constructor
  · intro h
    have hs' : ∃ x y z : Char, s.toList = [x, y, z] := by
      have hl := congrArg List.length h
      simp only [List.length_map, List.length_cons, List.length_nil] at hl
      generalize s.toList = l at hl
      match l, hl with
      | [x, y, z], _ => exact ⟨x, y, z, rfl⟩
    obtain ⟨x, y, z, hs⟩ := hs'
    rw [hs] at h
    simp only [List.map_cons, List.map_nil, List.cons.injEq, and_true, ha, hn, hd] at h
    have hs' : s = String.ofList [x, y, z] := by rw [← hs, String.ofList_toList]
    obtain ⟨ex, ey, ez⟩ := h
    rcases ex with rfl | rfl <;> rcases ey with rfl | rfl <;> rcases ez with rfl | rfl <;> rw [hs'] <;> decide
  · intro h
    simp only [spellings, List.mem_cons, List.not_mem_nil, or_false] at h
    rcases h with rfl | rfl | rfl | rfl | rfl | rfl | rfl | rfl <;> decide

theorem lower_or (s : String) : s.toLower = "or" ↔ s ∈ spellings .or := by
  have ho := fun c => toLower_iff c 'o' 'O' (by decide) (by decide)
  have hr := fun c => toLower_iff c 'r' 'R' (by decide) (by decide)
  rw [← String.toList_inj, String.toLower, String.toList_map]
  have hw : "or".toList = ['o', 'r'] := by decide
  rw [hw]
  constructor
  · intro h
    have hs' : ∃ x y : Char, s.toList = [x, y] := by
      have hl := congrArg List.length h
      simp only [List.length_map, List.length_cons, List.length_nil] at hl
      generalize s.toList = l at hl
      match l, hl with
      | [x, y], _ => exact ⟨x, y, rfl⟩
    obtain ⟨x, y, hs⟩ := hs'
    rw [hs] at h
    simp only [List.map_cons, List.map_nil, List.cons.injEq, and_true, ho, hr] at h
    have hs' : s = String.ofList [x, y] := by rw [← hs, String.ofList_toList]
    obtain ⟨ex, ey⟩ := h
    rcases ex with rfl | rfl <;> rcases ey with rfl | rfl <;> rw [hs'] <;> decide
  · intro h
    simp only [spellings, List.mem_cons, List.not_mem_nil, or_false] at h
    rcases h with rfl | rfl | rfl | rfl <;> decide

theorem lower_none (s : String) : s.toLower = "none" ↔ s ∈ spellings .none := by
  have hn := fun c => toLower_iff c 'n' 'N' (by decide) (by decide)
  have ho := fun c => toLower_iff c 'o' 'O' (by decide) (by decide)
  have he := fun c => toLower_iff c 'e' 'E' (by decide) (by decide)
  rw [← String.toList_inj, String.toLower, String.toList_map]
  have hw : "none".toList = ['n', 'o', 'n', 'e'] := by decide
  rw [hw]
  constructor
  · intro h
    have hs' : ∃ x y z w : Char, s.toList = [x, y, z, w] := by
      have hl := congrArg List.length h
      simp only [List.length_map, List.length_cons, List.length_nil] at hl
      generalize s.toList = l at hl
      match l, hl with
      | [x, y, z, w], _ => exact ⟨x, y, z, w, rfl⟩
    obtain ⟨x, y, z, w, hs⟩ := hs'
    rw [hs] at h
    simp only [List.map_cons, List.map_nil, List.cons.injEq, and_true, hn, ho, he] at h
    have hs' : s = String.ofList [x, y, z, w] := by rw [← hs, String.ofList_toList]
    obtain ⟨ex, ey, ez, ew⟩ := h
    rcases ex with rfl | rfl <;> rcases ey with rfl | rfl <;> rcases ez with rfl | rfl <;> rcases ew with rfl | rfl <;> rw [hs'] <;> decide
  · intro h
    simp only [spellings, List.mem_cons, List.not_mem_nil, or_false] at h
    rcases h with rfl | rfl | rfl | rfl | rfl | rfl | rfl | rfl | rfl | rfl | rfl | rfl | rfl | rfl | rfl | rfl <;> decide


/-- Structural induction over masks with stored operations. -/
theorem RMask.ind {P : RMask → Prop} (ha : ∀ d, P (.arr d))
    (hg : ∀ op ks, (∀ k m, (k, m) ∈ ks → P m) → P (.grp op ks)) : ∀ m, P m := by
  intro m
  refine RMask.rec (motive_1 := P) (motive_2 := fun ks => ∀ k m, (k, m) ∈ ks → P m)
    (motive_3 := fun p => P p.2) ha hg ?_ ?_ ?_ m
  · intro k m h; cases h
  · intro p r ih1 ih2 k m h
    cases h with
    | head => exact ih1
    | tail _ h => exact ih2 k m h
  · intro a b ih; exact ih

theorem ofLowered_eq (t : String) (a : Agg) : Agg.ofLowered t = .ok a ↔ t = a.value := by
  unfold Agg.ofLowered
  split
  · next h => subst h; cases a <;> simp [Agg.value]
  · next h1 =>
    split
    · next h => subst h; cases a <;> simp [Agg.value]
    · next h2 =>
      split
      · next h => subst h; cases a <;> simp [Agg.value]
      · next h3 => cases a <;> simp [Agg.value, h1, h2, h3]

theorem parse_iff (s : String) (a : Agg) : (RawOp.str s).parse = .ok a ↔ s ∈ spellings a := by
  unfold RawOp.parse
  rw [ofLowered_eq]
  cases a
  · exact lower_and s
  · exact lower_or s
  · exact lower_none s

theorem parse_err (s : String) (h : ∀ a, s ∉ spellings a) : (RawOp.str s).parse = .error .valueError := by
  have h1 : s.toLower ≠ "and" := fun e => h _ ((lower_and s).1 e)
  have h2 : s.toLower ≠ "or" := fun e => h _ ((lower_or s).1 e)
  have h3 : s.toLower ≠ "none" := fun e => h _ ((lower_none s).1 e)
  simp [RawOp.parse, Agg.ofLowered, h1, h2, h3]

theorem spellings_disjoint (s : String) (a b : Agg) (ha : s ∈ spellings a) (hb : s ∈ spellings b) : a = b := by
  have h1 := (parse_iff s a).2 ha
  have h2 := (parse_iff s b).2 hb
  rw [h1] at h2
  exact Except.ok.inj h2

theorem parse_meaning (op : RawOp) (a : Agg) (h : op.parse = .ok a) : meaning op = a := by
  cases op with
  | obj => simp [RawOp.parse] at h
  | str s =>
    have hs := (parse_iff s a).1 h
    have d := fun b hb => spellings_disjoint s b a hb hs
    unfold meaning
    simp only []
    by_cases h1 : s ∈ spellings .and
    · rw [if_pos h1]; exact d _ h1
    · rw [if_neg h1]
      by_cases h2 : s ∈ spellings .or
      · rw [if_pos h2]; exact d _ h2
      · rw [if_neg h2]
        cases a with
        | and => exact absurd hs h1
        | or => exact absurd hs h2
        | none => rfl

theorem meaning_of_err (op : RawOp) (e : PyErr) (h : op.parse = .error e) : meaning op = .none := by
  cases op with
  | obj => rfl
  | str s =>
    unfold meaning
    simp only []
    have h1 : s ∉ spellings .and := fun hm => by rw [(parse_iff s _).2 hm] at h; cases h
    have h2 : s ∉ spellings .or := fun hm => by rw [(parse_iff s _).2 hm] at h; cases h
    rw [if_neg h1, if_neg h2]

theorem parse_str_err (s : String) (e : PyErr) (h : (RawOp.str s).parse = .error e) : e = .valueError := by
  by_cases hh : ∃ a, s ∈ spellings a
  · obtain ⟨a, ha⟩ := hh
    rw [(parse_iff s a).2 ha] at h; cases h
  · rw [parse_err s (fun a ha => hh ⟨a, ha⟩)] at h
    exact (Except.error.inj h).symm

theorem dataKids_raw (ks : List (String × RMask)) (h : ∀ k m, (k, m) ∈ ks → RMask.data m = (norm m).data) :
    RMask.dataKids ks = Mask.dataKids (normKids ks) := by
  induction ks with
  | nil => rfl
  | cons p ks ih =>
    obtain ⟨k, m⟩ := p
    simp only [RMask.dataKids, normKids, Mask.dataKids]
    rw [h k m (List.mem_cons_self), ih (fun k' m' hm => h k' m' (List.mem_cons_of_mem _ hm))]
    cases (norm m).data with
    | error e => rfl
    | ok d => cases Mask.dataKids (normKids ks) <;> rfl

theorem dataKids_raw_ok (ks : List (String × RMask))
    (h : ∀ k m, (k, m) ∈ ks → ∀ d, RMask.data m = .ok d ↔ (norm m).data = .ok d) (rows : List (List Bool)) :
    RMask.dataKids ks = .ok rows ↔ Mask.dataKids (normKids ks) = .ok rows := by
  induction ks generalizing rows with
  | nil => simp [RMask.dataKids, normKids, Mask.dataKids]
  | cons p ks ih =>
    obtain ⟨k, m⟩ := p
    simp only [RMask.dataKids, normKids, Mask.dataKids]
    have h1 := h k m (List.mem_cons_self)
    have h2 := ih (fun k' m' hm => h k' m' (List.mem_cons_of_mem _ hm))
    cases hm : RMask.data m with
    | error e =>
      cases hm' : (norm m).data with
      | error e' => simp
      | ok d => rw [(h1 d).2 hm'] at hm; cases hm
    | ok d =>
      rw [(h1 d).1 hm]
      simp only []
      cases hk : RMask.dataKids ks with
      | error e =>
        cases hk' : Mask.dataKids (normKids ks) with
        | error e' => simp
        | ok r => rw [(h2 r).2 hk'] at hk; cases hk
      | ok r => rw [(h2 r).1 hk]

theorem raw_data_ok (r : RMask) : ∀ d, r.data = .ok d ↔ (norm r).data = .ok d := by
  induction r using RMask.ind with
  | ha d => intro d'; simp [RMask.data, norm, Mask.data]
  | hg op ks ih =>
    intro d
    have hk := dataKids_raw_ok ks ih
    cases hp : op.parse with
    | error e =>
      simp only [RMask.data, hp, norm, meaning_of_err op e hp, Mask.data]
      simp
    | ok a =>
      have hm := parse_meaning op a hp
      cases a with
      | none => simp [RMask.data, hp, norm, hm, Mask.data]
      | and =>
        simp only [RMask.data, hp, norm, hm, Mask.data]
        cases h1 : RMask.dataKids ks with
        | error e =>
          cases h2 : Mask.dataKids (normKids ks) with
          | error e' => simp
          | ok r => rw [(hk r).2 h2] at h1; cases h1
        | ok r => rw [(hk r).1 h1]
      | or =>
        simp only [RMask.data, hp, norm, hm, Mask.data]
        cases h1 : RMask.dataKids ks with
        | error e =>
          cases h2 : Mask.dataKids (normKids ks) with
          | error e' => simp
          | ok r => rw [(hk r).2 h2] at h1; cases h1
        | ok r => rw [(hk r).1 h1]

theorem Spec.Strings.kids {op : RawOp} {ks : List (String × RMask)} (h : Strings (.grp op ks)) :
    (∃ s, op = .str s) ∧ ∀ k m, (k, m) ∈ ks → Strings m := by
  cases h with
  | grp hk => exact ⟨⟨_, rfl⟩, hk⟩

theorem raw_data_str (r : RMask) : Strings r → r.data = (norm r).data := by
  induction r using RMask.ind with
  | ha d => intro _; simp [RMask.data, norm, Mask.data]
  | hg op ks ih =>
    intro h
    obtain ⟨⟨s, rfl⟩, hks⟩ := h.kids
    have hk := dataKids_raw ks (fun k m hm => ih k m hm (hks k m hm))
    cases hp : (RawOp.str s).parse with
    | error e =>
      simp only [RMask.data, hp, norm, meaning_of_err _ e hp, Mask.data]
      rw [parse_str_err s e hp]
    | ok a =>
      have hm := parse_meaning _ a hp
      cases a <;> simp only [RMask.data, hp, norm, hm, Mask.data, hk] <;> cases Mask.dataKids (normKids ks) <;> rfl

/-- **C100** Reading `agg_op`: a string is understood exactly if it spells `and`, `or` or `none`, in upper and lower case
letters; any other string is `ValueError`, another object `AttributeError`. -/
theorem C100_agg_op (s : String) (a : Agg) :
    ((RawOp.str s).parse = .ok a ↔ s ∈ spellings a) ∧
    ((∀ b, s ∉ spellings b) → (RawOp.str s).parse = .error .valueError) ∧
    RawOp.obj.parse = .error .attributeError ∧
    (RawOp.ofAgg a).parse = .ok a := by
  refine ⟨parse_iff s a, parse_err s, rfl, ?_⟩
  rw [RawOp.ofAgg, parse_iff]
  cases a <;> decide

/-- **C100** `data` is the aggregate by the meaning of the stored operations, at every depth: a misspelt operation acts
as `none`, also as regards the exception if all operations are strings. -/
theorem C100_data (r : RMask) :
    (∀ d, r.data = .ok d ↔ IsAggregate (norm r) d) ∧ (Strings r → r.data = (norm r).data) :=
  ⟨fun d => (raw_data_ok r d).trans ⟨data_ok_isAggregate, data_of_isAggregate⟩, raw_data_str r⟩

theorem noAgg_run (v w : RawOp) (ks : Dict RMask) (hist : List GOp) :
    runGroup (v, ks) hist = (lastAgg v hist, (runGroup (w, ks) (noAgg hist)).2) := by
  induction hist generalizing v w ks with
  | nil => rfl
  | cons o rest ih =>
    cases o with
    | setAgg x => exact ih x w ks
    | set k m => exact ih v w (Dict.set ks k m)
    | del k =>
      simp only [runGroup, noAgg, lastAgg, GOp.run]
      cases Dict.pop? ks k with
      | none => exact ih v w ks
      | some ks' => exact ih v w ks'

/-- **C100** Setting `agg_op` never fails and takes effect at once: after any history of assignments to `agg_op`, of
masks and deletions, the stored operation is the one last set and the masks are those of the history without the
assignments to `agg_op`, whatever the operation was in between. -/
theorem C100_history (v w : RawOp) (ks : Dict RMask) (hist : List GOp) :
    runGroup (v, ks) hist = (lastAgg v hist, (runGroup (w, ks) (noAgg hist)).2) ∧
    ∀ s x, (GOp.setAgg x).run s = ((x, s.2), none) :=
  ⟨noAgg_run v w ks hist, fun _ _ => rfl⟩

/-- **C100** Setting a mask never fails, deleting one never fails if its name is there, and is otherwise `KeyError` with
the group as it was. -/
theorem C100_outcome (s : RawOp × Dict RMask) :
    (∀ k m, ((GOp.set k m).run s).2 = none) ∧
    (∀ k, k ∈ Dict.keys s.2 → ((GOp.del k).run s).2 = none) ∧
    (∀ k, k ∉ Dict.keys s.2 → (GOp.del k).run s = (s, some .keyError)) := by
  refine ⟨fun _ _ => rfl, fun k hk => ?_, fun k hk => ?_⟩
  · simp only [GOp.run]
    cases h : Dict.pop? s.2 k with
    | none => exact absurd hk ((Dict.pop?_eq_none_iff _ _).1 h)
    | some ks => rfl
  · simp only [GOp.run, (Dict.pop?_eq_none_iff _ _).2 hk]

theorem copyKids_eq (ks : List (String × RMask)) (h : ∀ k m, (k, m) ∈ ks → RMask.copy m = m) :
    RMask.copyKids ks = ks := by
  induction ks with
  | nil => rfl
  | cons p ks ih =>
    obtain ⟨k, m⟩ := p
    simp only [RMask.copyKids]
    rw [h k m (List.mem_cons_self), ih (fun k' m' hm => h k' m' (List.mem_cons_of_mem _ hm))]

theorem sliceKids_raw (key : Key) (ks : List (String × RMask))
    (h : ∀ k m, (k, m) ∈ ks → (RMask.slice key m).map norm = Mask.slice key (norm m)) :
    (RMask.sliceKids key ks).map normKids = Mask.sliceKids key (normKids ks) := by
  induction ks with
  | nil => rfl
  | cons p ks ih =>
    obtain ⟨k, m⟩ := p
    have h1 := h k m (List.mem_cons_self)
    have h2 := ih (fun k' m' hm => h k' m' (List.mem_cons_of_mem _ hm))
    simp only [RMask.sliceKids, normKids, Mask.sliceKids, ← h1]
    cases RMask.slice key m with
    | error e => rfl
    | ok m' =>
      simp only [Except.map, ← h2]
      cases RMask.sliceKids key ks with
      | error e => rfl
      | ok r => rfl

theorem slice_raw (key : Key) (r : RMask) : (RMask.slice key r).map norm = Mask.slice key (norm r) := by
  induction r using RMask.ind with
  | ha d =>
    simp only [RMask.slice, norm, Mask.slice]
    cases key.apply d <;> rfl
  | hg op ks ih =>
    have hk := sliceKids_raw key ks ih
    simp only [RMask.slice, norm, Mask.slice, ← hk]
    cases RMask.sliceKids key ks <;> rfl

theorem visitKids_raw (ks : List (String × RMask))
    (h : ∀ k m, (k, m) ∈ ks → ∀ k', RMask.visitItem k' m = Mask.visitItem k' (norm m)) :
    RMask.visitKids ks = Mask.visitKids (normKids ks) := by
  induction ks with
  | nil => rfl
  | cons p ks ih =>
    obtain ⟨k, m⟩ := p
    simp only [RMask.visitKids, normKids, Mask.visitKids]
    rw [h k m (List.mem_cons_self) k, ih (fun k' m' hm => h k' m' (List.mem_cons_of_mem _ hm))]
    by_cases hk : k = "latent"
    · rw [if_pos hk, if_pos hk]
    · rw [if_neg hk, if_neg hk]
      cases Mask.visitItem k (norm m) with
      | error e => rfl
      | ok ps => cases Mask.visitKids (normKids ks) <;> rfl

theorem visitItem_raw (r : RMask) : Strings r → ∀ k, RMask.visitItem k r = Mask.visitItem k (norm r) := by
  induction r using RMask.ind with
  | ha d => intro _ k; rfl
  | hg op ks ih =>
    intro h k
    have hd := raw_data_str _ h
    have hk := visitKids_raw ks (fun k' m hm k'' => ih k' m hm (h.kids.2 k' m hm) k'')
    simp only [RMask.visitItem, norm, Mask.visitItem, hk]
    rw [hd, norm]
    cases (Mask.grp (meaning op) (normKids ks)).data with
    | error e => rfl
    | ok d => cases Mask.visitKids (normKids ks) <;> rfl

theorem normKids_arr (ps : List (String × List Bool)) :
    normKids (Dict.ofPairs (ps.map (fun p => (p.1, RMask.arr p.2)))) =
      Dict.ofPairs (ps.map (fun p => (p.1, Mask.arr p.2))) := by
  have hset : ∀ (d : Dict RMask) k x, normKids (Dict.set d k (.arr x)) = Dict.set (normKids d) k (.arr x) := by
    intro d k x
    induction d with
    | nil => rfl
    | cons p d ih =>
      obtain ⟨k', m⟩ := p
      simp only [Dict.set, normKids]
      by_cases hk : k' = k
      · simp [hk, normKids, norm]
      · simp [hk, normKids, ih]
  unfold Dict.ofPairs
  have : ∀ (acc : Dict RMask), normKids ((ps.map (fun p => (p.1, RMask.arr p.2))).foldl (fun d p => Dict.set d p.1 p.2) acc)
      = (ps.map (fun p => (p.1, Mask.arr p.2))).foldl (fun d p => Dict.set d p.1 p.2) (normKids acc) := by
    induction ps with
    | nil => intro acc; rfl
    | cons p ps ih => intro acc; simp only [List.map_cons, List.foldl_cons]; rw [ih, hset]
  exact this []

/-- **C100** A copy and a subscript keep the stored operations as they are (so also misspelt ones), and nothing that does
not read `agg_op` minds a misspelt one: `bitwise_or`, `bitwise_and` and `to_dict` only read those of the nested
groups. -/
theorem C100_handed_on (r : RMask) (key : Key) :
    r.copy = r ∧ (RMask.slice key r).map norm = Mask.slice key (norm r) ∧
    (∀ op ks r', r = .grp op ks → RMask.slice key r = .ok r' → ∃ ks', r' = .grp op ks' ∧
      Dict.keys ks' = Dict.keys ks) := by
  refine ⟨?_, slice_raw key r, ?_⟩
  · induction r using RMask.ind with
    | ha d => rfl
    | hg op ks ih => simp only [RMask.copy]; rw [copyKids_eq ks ih]
  · rintro op ks r' rfl h
    simp only [RMask.slice] at h
    cases hk : RMask.sliceKids key ks with
    | error e => rw [hk] at h; cases h
    | ok ks' =>
      rw [hk] at h
      refine ⟨ks', (Except.ok.inj h).symm, ?_⟩
      clear h
      induction ks generalizing ks' with
      | nil => simp only [RMask.sliceKids] at hk; cases hk; rfl
      | cons p ks ih =>
        obtain ⟨k, m⟩ := p
        simp only [RMask.sliceKids] at hk
        cases h1 : RMask.slice key m with
        | error e => rw [h1] at hk; cases hk
        | ok m' =>
          rw [h1] at hk
          simp only [] at hk
          cases h2 : RMask.sliceKids key ks with
          | error e => rw [h2] at hk; cases hk
          | ok r =>
            rw [h2] at hk
            cases hk
            simp only [Dict.keys, List.map_cons]
            have := ih r h2
            simp only [Dict.keys] at this
            rw [this]

/-- **C100** The methods aggregate by their own operation, whatever is stored in the group itself. -/
theorem C100_methods (op : RawOp) (ks : Dict RMask) (d : List Bool) :
    (rawReduce (· || ·) ks = .ok d ↔ IsAggregate (.grp .or (normKids ks)) d) ∧
    (rawReduce (· && ·) ks = .ok d ↔ IsAggregate (.grp .and (normKids ks)) d) ∧
    ((RMask.grp op ks).data = .ok d → op.parse = .ok .or ∧ rawReduce (· || ·) ks = .ok d ∨
      op.parse = .ok .and ∧ rawReduce (· && ·) ks = .ok d) := by
  have hor : rawReduce (· || ·) ks = (RMask.grp (.str "or") ks).data := by
    have hp : (RawOp.str "or").parse = .ok .or := (parse_iff _ _).2 (by decide)
    simp only [rawReduce, RMask.data, hp]
  have hand : rawReduce (· && ·) ks = (RMask.grp (.str "and") ks).data := by
    have hp : (RawOp.str "and").parse = .ok .and := (parse_iff _ _).2 (by decide)
    simp only [rawReduce, RMask.data, hp]
  have n1 : norm (.grp (.str "or") ks) = .grp .or (normKids ks) := by
    simp only [norm]; rw [parse_meaning _ .or ((parse_iff _ _).2 (by decide))]
  have n2 : norm (.grp (.str "and") ks) = .grp .and (normKids ks) := by
    simp only [norm]; rw [parse_meaning _ .and ((parse_iff _ _).2 (by decide))]
  refine ⟨?_, ?_, ?_⟩
  · rw [hor, (C100_data _).1, n1]
  · rw [hand, (C100_data _).1, n2]
  · intro h
    simp only [RMask.data] at h
    cases hp : op.parse with
    | error e => rw [hp] at h; cases h
    | ok a =>
      rw [hp] at h
      cases a with
      | none => cases h
      | or => exact .inl ⟨rfl, h⟩
      | and => exact .inr ⟨rfl, h⟩

/-- **C100** `flatten()` reads the operation of the group: with a spelling of `a` it gives what it gives for `a`, the
result holding a spelling of `a`; with a misspelt one it fails even if nothing needs aggregating. -/
theorem C100_flatten (s : String) (ks : Dict RMask) (hks : ∀ k m, (k, m) ∈ ks → Strings m) :
    (∀ a, s ∈ spellings a → (rawFlattenRise (.str s) ks).map norm = flattenRise a (normKids ks)) ∧
    ((∀ a, s ∉ spellings a) → ∃ e, rawFlattenRise (.str s) ks = .error e ∧
      (∀ r, flattenRise .none (normKids ks) = .ok r → e = .valueError)) := by
  have hv := visitKids_raw ks (fun k m hm => visitItem_raw m (hks k m hm))
  constructor
  · intro a ha
    simp only [rawFlattenRise, flattenRise, hv, (parse_iff s a).2 ha]
    cases Mask.visitKids (normKids ks) with
    | error e => rfl
    | ok ps =>
      simp only [Except.map, norm, normKids_arr]
      rw [parse_meaning (RawOp.ofAgg a) a (C100_agg_op s a).2.2.2]
  · intro h
    simp only [rawFlattenRise, flattenRise, hv, parse_err s h]
    cases Mask.visitKids (normKids ks) with
    | error e => exact ⟨e, rfl, fun r hr => by cases hr⟩
    | ok ps => exact ⟨_, rfl, fun _ _ => rfl⟩

/-- **C100** What a user may expect, and is false: that a misspelt operation is refused when it is given.  It is stored,
copied and subscripted; `data`, `agg_op` and printing then raise `ValueError`. -/
theorem C100_false : ∃ (op : RawOp) (ks : Dict RMask),
    ((GOp.setAgg op).run (.str "and", ks)) = ((op, ks), none) ∧
    (RMask.grp (.str "and") ks).data = .ok [true, false] ∧
    (RMask.grp op ks).copy = .grp op ks ∧
    (RMask.grp op ks).data = .error .valueError ∧ op.parse = .error .valueError ∧
    rawStr op ks = .error .valueError := by
  have hp : (RawOp.str "xor").parse = .error .valueError := parse_err _ (fun a => by cases a <;> decide)
  have hq : (RawOp.str "and").parse = .ok .and := (parse_iff _ _).2 (by decide)
  refine ⟨.str "xor", [("a", .arr [true, false])], rfl, ?_, rfl, ?_, hp, ?_⟩
  · simp only [RMask.data, hq]; decide
  · simp only [RMask.data, hp]
  · simp only [rawStr, rawRich, hp]

/-! ## Subscripts -/

theorem rawSelect_spec (ks : Dict RMask) (acc : Dict RMask) (ns : List String) :
    ((∀ n ∈ ns, n ∈ Dict.keys ks) → ∃ out, rawSelect ks acc ns = .ok out ∧
      (∀ k, Dict.get? out k = if k ∈ ns then Dict.get? ks k else Dict.get? acc k)) ∧
    ((∃ n ∈ ns, n ∉ Dict.keys ks) → rawSelect ks acc ns = .error .keyError) := by
  induction ns generalizing acc with
  | nil => exact ⟨fun _ => ⟨acc, rfl, fun k => by simp⟩, fun ⟨n, hn, _⟩ => absurd hn List.not_mem_nil⟩
  | cons n ns ih =>
    constructor
    · intro h
      have hn : n ∈ Dict.keys ks := h n List.mem_cons_self
      cases hg : Dict.get? ks n with
      | none => exact absurd hn ((Dict.get?_eq_none_iff ks n).1 hg)
      | some m =>
        obtain ⟨out, ho, hk⟩ := (ih (Dict.set acc n m)).1 (fun x hx => h x (List.mem_cons_of_mem _ hx))
        refine ⟨out, by simp only [rawSelect, hg]; exact ho, fun k => ?_⟩
        rw [hk k, Dict.get?_set]
        by_cases h1 : k ∈ ns
        · simp [h1]
        · by_cases h2 : n = k
          · subst h2; simp [h1, hg]
          · simp [h1, h2, Ne.symm h2]
    · rintro ⟨x, hx, hxk⟩
      simp only [rawSelect]
      cases hg : Dict.get? ks n with
      | none => rfl
      | some m =>
        rcases List.mem_cons.1 hx with rfl | hx'
        · exact absurd ((Dict.get?_eq_none_iff ks x).2 hxk) (by rw [hg]; simp)
        · exact (ih _).2 ⟨x, hx', hxk⟩

/-- **C100** Subscripts of a group: a name gives the mask of that name (`KeyError` if there is none); a list of names the
group of exactly these masks with the same operation (`KeyError` if one is missing); a list with anything else in
it, such as integers, is `KeyError` although an array of the same integers is a subscript. -/
theorem C100_subscript (op : RawOp) (ks : Dict RMask) (hu : (Dict.keys ks).Nodup) (k : String) (m : RMask)
    (ns : List String) :
    ((k, m) ∈ ks → rawGetitem op ks (.name k) = .ok m) ∧
    (k ∉ Dict.keys ks → rawGetitem op ks (.name k) = .error .keyError) ∧
    ((∀ n ∈ ns, n ∈ Dict.keys ks) → ∃ out, rawGetitem op ks (.names ns) = .ok (.grp op out) ∧
      ∀ n m, Dict.get? out n = some m ↔ n ∈ ns ∧ (n, m) ∈ ks) ∧
    ((∃ n ∈ ns, n ∉ Dict.keys ks) → rawGetitem op ks (.names ns) = .error .keyError) ∧
    rawGetitem op ks .otherList = .error .keyError ∧
    (∀ key, rawGetitem op ks (.array key) = RMask.slice key (.grp op ks)) := by
  refine ⟨?_, ?_, ?_, ?_, rfl, fun _ => rfl⟩
  · intro h; simp only [rawGetitem, Dict.get?_of_mem hu h]
  · intro h; simp only [rawGetitem, (Dict.get?_eq_none_iff ks k).2 h]
  · intro h
    obtain ⟨out, ho, hk⟩ := (rawSelect_spec ks [] ns).1 h
    refine ⟨out, by simp only [rawGetitem, ho], fun n m' => ?_⟩
    rw [hk n]
    by_cases hn : n ∈ ns
    · simp only [hn, if_true, true_and]
      exact ⟨Dict.mem_of_get?, Dict.get?_of_mem hu⟩
    · simp [hn]
  · intro h; simp only [rawGetitem, (rawSelect_spec ks [] ns).2 h]

/-! ## Structured masks -/

theorem mapArr_dataKids {α : Type} (f : α → List Bool) (ps : List (String × α)) :
    RMask.dataKids (ps.map (fun p => (p.1, RMask.arr (f p.2)))) = .ok (ps.map (fun p => f p.2)) := by
  induction ps with
  | nil => rfl
  | cons p ps ih => simp only [List.map_cons, RMask.dataKids, RMask.data, ih]

theorem ofPairs_nodup {α : Type} (f : String → α) (ns : List String) (h : ns.Nodup) :
    Dict.ofPairs (ns.map (fun n => (n, f n))) = ns.map (fun n => (n, f n)) := by
  have hset : ∀ (d : Dict α) k v, k ∉ Dict.keys d → Dict.set d k v = d ++ [(k, v)] := by
    intro d k v
    induction d with
    | nil => intro _; rfl
    | cons p d ih =>
      intro hk
      obtain ⟨k', v'⟩ := p
      simp only [Dict.keys, List.map_cons, List.mem_cons, not_or] at hk
      simp only [Dict.set, if_neg (Ne.symm hk.1), List.cons_append]
      rw [ih hk.2]
  have : ∀ (pre : List String), (pre ++ ns).Nodup →
      (ns.map (fun n => (n, f n))).foldl (fun d p => Dict.set d p.1 p.2) (pre.map (fun n => (n, f n))) =
        (pre ++ ns).map (fun n => (n, f n)) := by
    clear h
    induction ns with
    | nil => intro pre _; simp
    | cons n ns ih =>
      intro pre hn
      simp only [List.map_cons, List.foldl_cons]
      rw [hset _ _ _ (by
        simp only [Dict.keys, List.map_map]
        intro hm
        have hm' : n ∈ pre := by simpa [Function.comp_def] using hm
        exact (List.nodup_append.1 hn).2.2 n hm' n List.mem_cons_self rfl)]
      have := ih (pre ++ [n]) (by simpa using hn)
      simpa using this
  have h0 := this [] (by simpa using h)
  simpa [Dict.ofPairs] using h0

/-- **C102** `MaskGroup.from_numpy_structured(arr)` has the fields of the array as names, in their order, each with its
column (as booleans); `to_dict` gives the columns back.  Its aggregate is the conjunction of the columns. -/
theorem C102_structured {α : Type} (truth : α → Bool) (a : StructArr α) (ns : List String) (hn : a.names = some ns)
    (hu : ns.Nodup) (L : Nat) (hL : ∀ n ∈ ns, (a.column n).length = L) :
    ∃ ks, fromStructured truth a = .ok (.grp (.str "and") ks) ∧
      ks = ns.map (fun n => (n, RMask.arr ((a.column n).map truth))) ∧
      rawToDict ks = .ok (ns.map (fun n => (n, (a.column n).map truth))) ∧
      (ns ≠ [] → ∃ d, (RMask.grp (.str "and") ks).data = .ok d ∧ d.length = L ∧
        ∀ i, i < L → (d[i]? = some true ↔ ∀ n ∈ ns, ∃ x, (a.column n)[i]? = some x ∧ truth x = true)) ∧
      (ns = [] → (RMask.grp (.str "and") ks).data = .error .typeError) := by
  have hks : (Dict.ofPairs (ns.map (fun n => (n, a.column n)))).map (fun p => (p.1, RMask.arr (p.2.map truth))) =
      ns.map (fun n => (n, RMask.arr ((a.column n).map truth))) := by
    rw [ofPairs_nodup a.column ns hu, List.map_map]; rfl
  have hp : (RawOp.str "and").parse = .ok .and := (parse_iff _ _).2 (by decide)
  refine ⟨_, ?_, rfl, ?_, ?_, ?_⟩
  · simp only [fromStructured, hn, hks]
  · have := mapArr_dataKids (fun n => (a.column n).map truth) (ns.map (fun n => (n, n)))
    simp only [List.map_map, Function.comp_def] at this
    simp only [rawToDict, this, Dict.keys, List.map_map, Function.comp_def]
    congr 1
    clear hks hu hL hn this
    induction ns with
    | nil => rfl
    | cons n ns ih => simp only [List.map_cons, List.zipWith_cons_cons, ih]
  · intro hne
    have hnorm : norm (.grp (.str "and") (ns.map (fun n => (n, RMask.arr ((a.column n).map truth))))) =
        .grp .and (ns.map (fun n => (n, Mask.arr ((a.column n).map truth)))) := by
      simp only [norm, parse_meaning _ _ hp]
      congr 1
      clear hks hu hL hn hne
      induction ns with
      | nil => rfl
      | cons n ns ih => simp only [List.map_cons, normKids, norm, ih]
    have hag : Aggregable L (.grp .and (ns.map (fun n => (n, Mask.arr ((a.column n).map truth))))) := by
      refine .group (by simp) (by simpa using hne) ?_
      intro k m hm
      obtain ⟨n0, hnn, e⟩ := List.mem_map.1 hm
      obtain ⟨rfl, rfl⟩ := Prod.mk.inj e
      exact .leaf (by simpa using hL n0 hnn)
    obtain ⟨d, hd, hlen⟩ := aggregable_data hag
    have hagg := data_ok_isAggregate hd
    refine ⟨d, ?_, hlen, ?_⟩
    · rw [raw_data_ok, hnorm]; exact hd
    · intro i hi
      have h1 := hagg.2 i (by omega)
      rw [List.getElem?_eq_getElem (by omega : i < d.length), Option.some.injEq, h1]
      constructor
      · intro h n hnn
        cases h with
        | all hall =>
          have := hall n _ (List.mem_map.2 ⟨n, hnn, rfl⟩)
          cases this with
          | leaf hx =>
            rw [List.getElem?_map, Option.map_eq_some_iff] at hx
            exact hx
      · intro h
        refine .all (fun k m hm => ?_)
        obtain ⟨n0, hnn, e⟩ := List.mem_map.1 hm
        obtain ⟨rfl, rfl⟩ := Prod.mk.inj e
        refine .leaf ?_
        rw [List.getElem?_map, Option.map_eq_some_iff]
        exact h n0 hnn
  · rintro rfl
    simp only [List.map_nil, RMask.data, hp, RMask.dataKids, reduceRows]

/-- **C102** An array without fields is refused. -/
theorem C102_plain {α : Type} (truth : α → Bool) (a : StructArr α) :
    (a.names = none ↔ fromStructured truth a = .error .typeError) ∧
    (a.names = none ∨ ∃ r, fromStructured truth a = .ok r) := by
  unfold fromStructured
  cases a.names <;> simp

/-- **C102** `to_dict` gives each top-level name, in order, with what `data` of its mask is; it fails exactly if one of
these fails.  The nesting is lost. -/
theorem C102_to_dict (ks : Dict RMask) (out : Dict (List Bool)) :
    rawToDict ks = .ok out ↔
      List.Forall₂ (fun (p : String × RMask) (q : String × List Bool) => q.1 = p.1 ∧ IsAggregate (norm p.2) q.2)
        ks out := by
  have key : ∀ (ks : Dict RMask) (rows : List (List Bool)), RMask.dataKids ks = .ok rows ↔
      List.Forall₂ (fun (p : String × RMask) (r : List Bool) => IsAggregate (norm p.2) r) ks rows := by
    intro ks
    induction ks with
    | nil =>
      intro rows
      simp only [RMask.dataKids, Except.ok.injEq]
      constructor
      · rintro rfl; exact .nil
      · intro h; cases h; rfl
    | cons p ks ih =>
      intro rows
      obtain ⟨k, m⟩ := p
      simp only [RMask.dataKids]
      constructor
      · intro h
        cases h1 : RMask.data m with
        | error e => rw [h1] at h; cases h
        | ok d =>
          rw [h1] at h
          simp only [] at h
          cases h2 : RMask.dataKids ks with
          | error e => rw [h2] at h; cases h
          | ok r =>
            rw [h2] at h
            cases h
            exact .cons (((C100_data m).1 d).1 h1) ((ih r).1 h2)
      · intro h
        cases h with
        | cons h1 h2 =>
          rw [((C100_data m).1 _).2 h1, (ih _).2 h2]
  have zip : ∀ (ks : Dict RMask) (rows : List (List Bool)) (out : Dict (List Bool)), rows.length = ks.length →
      (List.zipWith (fun k d => (k, d)) (Dict.keys ks) rows = out ↔
        Dict.keys out = Dict.keys ks ∧ out.map Prod.snd = rows) := by
    intro ks
    induction ks with
    | nil =>
      intro rows out h
      have : rows = [] := List.length_eq_zero_iff.1 (by simpa using h)
      subst this
      simp only [Dict.keys, List.map_nil, List.zipWith_nil_left, List.map_eq_nil_iff]
      constructor
      · intro h; exact ⟨h.symm, h.symm⟩
      · intro h; exact h.1.symm
    | cons p ks ih =>
      intro rows out h
      cases rows with
      | nil => simp at h
      | cons r rows =>
        have := ih rows
        cases out with
        | nil => simp [Dict.keys]
        | cons q out =>
          obtain ⟨q1, q2⟩ := q
          have h' := this out (by simpa using h)
          simp only [Dict.keys, List.map_cons, List.zipWith_cons_cons, List.cons.injEq, Prod.mk.injEq] at h' ⊢
          rw [h']
          constructor
          · rintro ⟨⟨rfl, rfl⟩, h1, h2⟩; exact ⟨⟨rfl, h1⟩, rfl, h2⟩
          · rintro ⟨⟨rfl, h1⟩, rfl, h2⟩; exact ⟨⟨rfl, rfl⟩, h1, h2⟩
  constructor
  · intro h
    simp only [rawToDict] at h
    cases hd : RMask.dataKids ks with
    | error e => rw [hd] at h; cases h
    | ok rows =>
      rw [hd] at h
      have hf := (key ks rows).1 hd
      obtain ⟨h1, h2⟩ := (zip ks rows out hf.length_eq.symm).1 (Except.ok.inj h)
      subst h2
      clear h hd
      induction ks generalizing out with
      | nil =>
        cases out with
        | nil => exact .nil
        | cons q out => simp [Dict.keys] at h1
      | cons p ks ih =>
        cases out with
        | nil => simp [Dict.keys] at h1
        | cons q out =>
          simp only [Dict.keys, List.map_cons, List.cons.injEq] at h1
          cases hf with
          | cons g1 g2 => exact .cons ⟨h1.1, g1⟩ (ih out h1.2 g2)
  · intro h
    have hf : List.Forall₂ (fun (p : String × RMask) (r : List Bool) => IsAggregate (norm p.2) r) ks
        (out.map Prod.snd) := by
      induction h with
      | nil => exact .nil
      | cons h1 _ ih => exact .cons h1.2 ih
    simp only [rawToDict, (key ks _).2 hf, Except.ok.injEq]
    rw [zip ks _ out (by simpa using h.length_eq.symm)]
    refine ⟨?_, rfl⟩
    clear hf
    induction h with
    | nil => rfl
    | cons h1 _ ih =>
      simp only [Dict.keys, List.map_cons] at ih ⊢
      rw [h1.1, ih]

/-! ## Printed trees -/

theorem linesKids_append (xs ys : List RTree) : RTree.linesKids (xs ++ ys) = RTree.linesKids xs ++ RTree.linesKids ys := by
  induction xs with
  | nil => rfl
  | cons x xs ih => simp only [List.cons_append, RTree.linesKids, ih, List.append_assoc]

theorem lines_add (b t : RTree) : (b.add t).lines = b.lines ++ t.lines.map (fun l => (l.1 + 1, l.2)) := by
  cases b <;> simp [RTree.add, RTree.lines, linesKids_append, RTree.linesKids]

theorem lines_shift {n : Nat} {ks : List (String × RMask)} {out : List (Nat × String)} (h : Lines n ks out) (j : Nat) :
    Lines (n + j) ks (out.map (fun l => (l.1 + j, l.2))) := by
  induction h with
  | nil => exact .nil
  | leaf _ ih => exact .leaf ih
  | @group n k op ks rest inner out _ _ ih1 ih2 =>
    rw [List.map_cons, List.map_append]
    exact .group (by rw [show n + j + 1 = n + 1 + j by omega]; exact ih1) ih2

theorem makeTree_lines (ks : List (String × RMask))
    (h : ∀ k m, (k, m) ∈ ks → ∀ name, ∃ inner, (RMask.subBranch name m).lines = (0, name) :: inner ∧
      ∀ n rest out, Lines n rest out →
        Lines n ((name, m) :: rest) ((n, name) :: (inner.map (fun l => (l.1 + n, l.2)) ++ out))) (b : RTree) :
    ∃ out, (RMask.makeTree ks b).lines = b.lines ++ out ∧ Lines 1 ks out := by
  induction ks generalizing b with
  | nil => exact ⟨[], by simp [RMask.makeTree], .nil⟩
  | cons p ks ih =>
    obtain ⟨k, m⟩ := p
    obtain ⟨o1, e1, l1⟩ := h k m List.mem_cons_self k
    obtain ⟨o2, e2, l2⟩ := ih (fun k' m' hm => h k' m' (List.mem_cons_of_mem _ hm)) (b.add (RMask.subBranch k m))
    refine ⟨((0, k) :: o1).map (fun l => (l.1 + 1, l.2)) ++ o2, ?_, ?_⟩
    · simp only [RMask.makeTree, e2, lines_add, e1, List.append_assoc]
    · exact l1 1 ks o2 l2

theorem subBranch_lines (m : RMask) : ∀ name, ∃ inner, (RMask.subBranch name m).lines = (0, name) :: inner ∧
    ∀ n rest out, Lines n rest out →
      Lines n ((name, m) :: rest) ((n, name) :: (inner.map (fun l => (l.1 + n, l.2)) ++ out)) := by
  induction m using RMask.ind with
  | ha d => exact fun name => ⟨[], rfl, fun n rest out h => .leaf h⟩
  | hg op ks ih =>
    intro name
    obtain ⟨out, e, l⟩ := makeTree_lines ks ih (.text name [])
    refine ⟨out, ?_, fun n rest out' h => ?_⟩
    · simp only [RMask.subBranch, RTree.lines, RTree.linesKids, List.append_nil, e, List.singleton_append]
    · refine .group ?_ h
      have := lines_shift l n
      rwa [show 1 + n = n + 1 by omega] at this

/-- **C101** `str(group)` prints the aggregation operation and below it every name of the tree, at its depth, each
group's names directly below it and in order; it raises exactly if the operation of the group itself cannot be
read. -/
theorem C101_lines (op : RawOp) (ks : Dict RMask) :
    (∀ a, op.parse = .ok a → ∃ out, rawStr op ks = .ok ((0, "MaskGroup(agg_op=" ++ a.name ++ ")") :: out) ∧
      Lines 1 ks out) ∧
    (∀ e, op.parse = .error e → rawStr op ks = .error e) := by
  constructor
  · intro a ha
    obtain ⟨out, e, l⟩ := makeTree_lines ks (fun k m _ => subBranch_lines m) (.text ("MaskGroup(agg_op=" ++ a.name ++ ")") [])
    refine ⟨out, ?_, l⟩
    simp only [rawStr, rawRich, ha, e, RTree.lines, RTree.linesKids, List.singleton_append]
  · intro e he
    simp only [rawStr, rawRich, he]

/-- **C101** The lines a tree of names has are determined, and contain a name at a depth exactly if there is a path of
that many names ending in it. -/
theorem C101_complete (n : Nat) (ks : List (String × RMask)) (out : List (Nat × String)) (h : Lines n ks out) :
    (∀ out', Lines n ks out' → out' = out) ∧
    ∀ d name, (d, name) ∈ out ↔ ∃ p, Named ks (p ++ [name]) ∧ d = n + p.length := by
  constructor
  · induction h with
    | nil => intro out' h'; cases h'; rfl
    | leaf _ ih => intro out' h'; cases h' with | leaf h2 => rw [ih _ h2]
    | group _ _ ih1 ih2 => intro out' h'; cases h' with | group h1 h2 => rw [ih1 _ h1, ih2 _ h2]
  · have hcons : ∀ (q : String × RMask) (ks : List (String × RMask)) p, Named ks p → Named (q :: ks) p := by
      intro q ks p h
      cases h with
      | here h => exact .here (List.mem_cons_of_mem _ h)
      | down h1 h2 => exact .down (List.mem_cons_of_mem _ h1) h2
    induction h with
    | nil =>
      intro d name
      simp only [List.not_mem_nil, false_iff]
      rintro ⟨p, hp, _⟩
      generalize p ++ [name] = q at hp
      cases hp with
      | here h => cases h
      | down h _ => cases h
    | @leaf n k x rest out _ ih =>
      intro d name
      rw [List.mem_cons, ih]
      constructor
      · rintro (e | ⟨p, hp, rfl⟩)
        · cases e; exact ⟨[], .here List.mem_cons_self, rfl⟩
        · exact ⟨p, hcons _ _ _ hp, rfl⟩
      · rintro ⟨p, hp, rfl⟩
        generalize hq : p ++ [name] = q at hp
        cases hp with
        | @here _ k' m hm =>
          have hpn : p = [] ∧ name = k' := by
            cases p with
            | nil => exact ⟨rfl, by simpa using hq⟩
            | cons a p => simp at hq
          obtain ⟨rfl, rfl⟩ := hpn
          rcases List.mem_cons.1 hm with e | hm'
          · cases e; exact .inl rfl
          · exact .inr ⟨[], .here hm', rfl⟩
        | @down _ k' op kk p' hm hp' =>
          rcases List.mem_cons.1 hm with e | hm'
          · cases e
          · exact .inr ⟨p, by rw [hq]; exact .down hm' hp', rfl⟩
    | @group n k op kk rest inner out _ _ ih1 ih2 =>
      intro d name
      rw [List.mem_cons, List.mem_append, ih1, ih2]
      constructor
      · rintro (e | ⟨p, hp, rfl⟩ | ⟨p, hp, rfl⟩)
        · cases e; exact ⟨[], .here List.mem_cons_self, rfl⟩
        · exact ⟨k :: p, .down List.mem_cons_self hp, by simp; omega⟩
        · exact ⟨p, hcons _ _ _ hp, rfl⟩
      · rintro ⟨p, hp, rfl⟩
        generalize hq : p ++ [name] = q at hp
        cases hp with
        | @here _ k' m hm =>
          have hpn : p = [] ∧ name = k' := by
            cases p with
            | nil => exact ⟨rfl, by simpa using hq⟩
            | cons a p => simp at hq
          obtain ⟨rfl, rfl⟩ := hpn
          rcases List.mem_cons.1 hm with e | hm'
          · cases e; exact .inl rfl
          · exact .inr (.inr ⟨[], .here hm', rfl⟩)
        | @down _ k' op' kk' p' hm hp' =>
          rcases List.mem_cons.1 hm with e | hm'
          · cases e
            cases p with
            | nil =>
              simp only [List.nil_append, List.cons.injEq] at hq
              obtain ⟨_, rfl⟩ := hq
              generalize hz : ([] : List String) = z at hp'
              cases hp' <;> cases hz
            | cons a p =>
              simp only [List.cons_append, List.cons.injEq] at hq
              obtain ⟨rfl, rfl⟩ := hq
              exact .inr (.inl ⟨p, hp', by simp; omega⟩)
          · exact .inr (.inr ⟨p, by rw [hq]; exact .down hm' hp', rfl⟩)

/-! ## Non-vacuity -/

-- a nested group with operations in mixed case, one of them misspelt
def exRaw : RMask := .grp (.str "Or") [("a", .arr [true, false]),
  ("b", .grp (.str "AND") [("c", .arr [true, true]), ("d", .arr [false, true])])]

example : exRaw.data = .ok [true, true] ∧ Strings exRaw := by
  constructor
  · have h1 : (RawOp.str "Or").parse = .ok .or := (parse_iff _ _).2 (by decide)
    have h2 : (RawOp.str "AND").parse = .ok .and := (parse_iff _ _).2 (by decide)
    simp only [exRaw, RMask.data, RMask.dataKids, h1, h2]
    decide
  · refine .grp (fun k m h => ?_)
    simp only [List.mem_cons, Prod.mk.injEq, List.not_mem_nil, or_false] at h
    rcases h with ⟨rfl, rfl⟩ | ⟨rfl, rfl⟩
    · exact .arr
    · refine .grp (fun k m h => ?_)
      simp only [List.mem_cons, Prod.mk.injEq, List.not_mem_nil, or_false] at h
      rcases h with ⟨rfl, rfl⟩ | ⟨rfl, rfl⟩ <;> exact .arr

example : rawStr (.str "or") [("a", .arr [true]), ("b", .grp (.str "and") [("c", .arr [true]), ("d", .arr [true])]),
    ("e", .arr [])] =
    .ok [(0, "MaskGroup(agg_op=OR)"), (1, "a"), (1, "b"), (2, "c"), (2, "d"), (1, "e")] := by
  have h1 : (RawOp.str "or").parse = .ok .or := (parse_iff _ _).2 (by decide)
  simp only [rawStr, rawRich, h1]
  decide

example : ∃ ks, fromStructured (fun x : Nat => decide (x ≠ 0))
      ⟨some ["x", "y"], fun n => if n = "x" then [1, 0] else [2, 3]⟩ = .ok (.grp (.str "and") ks) ∧
    rawToDict ks = .ok [("x", [true, false]), ("y", [true, true])] :=
  ⟨_, rfl, by decide⟩

example : ∃ r, rawGetitem (.str "or") [("a", .arr [true, false]), ("b", .arr [true])] (.names ["b"]) = .ok r :=
  ⟨_, rfl⟩

end Gcl
