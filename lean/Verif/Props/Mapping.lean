import Verif.Spec.Mapping
import Verif.Props.RawMask
/-!
# C107: the mapping methods of a mask group
-/
namespace Gcl
set_option autoImplicit false
open Spec

theorem isOMap_iff (ks : Dict RMask) (s : OMap) :
    IsOMap ks s ↔ Dict.keys ks = s.order ∧ s.order.Nodup ∧ ∀ k, Dict.get? ks k = s.look k := by
  unfold IsOMap
  constructor
  · rintro ⟨h1, h2, h3⟩
    refine ⟨h1, h2, fun k => ?_⟩
    have hn : (Dict.keys ks).Nodup := by rw [show Dict.keys ks = s.order from h1]; exact h2
    cases hl : s.look k with
    | some m => exact Dict.get?_of_mem hn ((h3 k m).1 hl)
    | none =>
      cases hg : Dict.get? ks k with
      | none => rfl
      | some m => rw [(h3 k m).2 (Dict.mem_of_get? hg)] at hl; cases hl
  · rintro ⟨h1, h2, h3⟩
    have hn : (Dict.keys ks).Nodup := by rw [h1]; exact h2
    refine ⟨h1, h2, fun k m => ?_⟩
    rw [← h3]
    exact ⟨Dict.mem_of_get?, Dict.get?_of_mem hn⟩

theorem omap_put {ks : Dict RMask} {s : OMap} (h : IsOMap ks s) (k : String) (m : RMask) :
    IsOMap (Dict.set ks k m) (s.put k m) := by
  rw [isOMap_iff] at h ⊢
  obtain ⟨h1, h2, h3⟩ := h
  have hn : (Dict.keys ks).Nodup := by rw [h1]; exact h2
  refine ⟨?_, ?_, fun x => ?_⟩
  · rw [Dict.keys_set, h1]; rfl
  · have := Dict.nodup_keys_set hn k m
    rw [Dict.keys_set, h1] at this
    exact this
  · rw [Dict.get?_set, h3]
    unfold OMap.put
    by_cases hx : k = x
    · subst hx; simp
    · simp [hx, Ne.symm hx]

theorem omap_out {ks ks' : Dict RMask} {s : OMap} (h : IsOMap ks s) {k : String}
    (hp : Dict.pop? ks k = some ks') : IsOMap ks' (s.out k) := by
  rw [isOMap_iff] at h ⊢
  obtain ⟨h1, h2, h3⟩ := h
  have hn : (Dict.keys ks).Nodup := by rw [h1]; exact h2
  rw [Dict.pop?_eq_some hn hp]
  refine ⟨?_, h2.filter _, fun x => ?_⟩
  · rw [Dict.keys_filter_ne, h1]
    unfold OMap.out
    apply List.filter_congr
    intro x _
    simp [bne, BEq.beq]
  · rw [Dict.get?_filter_ne, h3]
    unfold OMap.out
    by_cases hx : k = x
    · subst hx; simp
    · simp [hx, Ne.symm hx]

theorem omap_puts {ks : Dict RMask} {s : OMap} (h : IsOMap ks s) (ps : List (Option String × MArg)) :
    IsOMap (mapUpdate ks ps).1 (s.puts ps).1 ∧ (mapUpdate ks ps).2 = (s.puts ps).2 := by
  induction ps generalizing ks s with
  | nil => exact ⟨h, rfl⟩
  | cons p ps ih =>
    obtain ⟨k, v⟩ := p
    cases k with
    | none => exact ⟨h, rfl⟩
    | some k => exact ih (omap_put h k v.toMask)

theorem mapPopitem_cons (k : String) (m : RMask) (ks : Dict RMask) :
    mapPopitem ((k, m) :: ks) = .ok (ks, (k, m)) := by
  simp [mapPopitem, Dict.keys, Dict.get?, Dict.pop?]

theorem mapClear_nil (n : Nat) (ks : Dict RMask) (h : ks.length < n) : mapClear n ks = [] := by
  induction n generalizing ks with
  | zero => omega
  | succ n ih =>
    cases ks with
    | nil => rfl
    | cons p ks =>
      obtain ⟨k, m⟩ := p
      simp only [mapClear, mapPopitem_cons]
      exact ih ks (by simpa using h)

theorem pop_of_mem {ks : Dict RMask} {k : String} (h : k ∈ Dict.keys ks) : ∃ ks', Dict.pop? ks k = some ks' := by
  cases hp : Dict.pop? ks k with
  | some d => exact ⟨d, rfl⟩
  | none => exact absurd h ((Dict.pop?_eq_none_iff _ _).1 hp)

theorem mem_keys_of_get {ks : Dict RMask} {k : String} {m : RMask} (h : Dict.get? ks k = some m) :
    k ∈ Dict.keys ks := by
  by_contra hc
  rw [(Dict.get?_eq_none_iff _ _).2 hc] at h
  cases h

theorem omap_step {ks : Dict RMask} {s : OMap} (h : IsOMap ks s) (o : MapOp) :
    IsOMap (o.run ks).1 (s.step o).1 ∧ (o.run ks).2 = (s.step o).2 := by
  have h' := (isOMap_iff ks s).1 h
  obtain ⟨h1, h2, h3⟩ := h'
  cases o with
  | set k v =>
    cases k with
    | none => exact ⟨h, rfl⟩
    | some k => exact ⟨omap_put h k v.toMask, rfl⟩
  | del k =>
    simp only [MapOp.run, OMap.step]
    by_cases hk : k ∈ s.order
    · obtain ⟨ks', hp⟩ := pop_of_mem (ks := ks) (k := k) (by rw [h1]; exact hk)
      simp only [hp, hk, if_true]
      exact ⟨omap_out h hp, trivial⟩
    · rw [(Dict.pop?_eq_none_iff _ _).2 (by rw [h1]; exact hk)]
      simp only [hk, if_false]
      exact ⟨h, trivial⟩
  | pop k default =>
    simp only [MapOp.run, OMap.step, ← h3 k]
    cases hg : Dict.get? ks k with
    | some m =>
      obtain ⟨ks', hp⟩ := pop_of_mem (mem_keys_of_get hg)
      simp only [hp]
      exact ⟨omap_out h hp, trivial⟩
    | none => cases default <;> exact ⟨h, rfl⟩
  | popitem =>
    cases ks with
    | nil =>
      have : s.order = [] := by rw [← h1]; rfl
      simp only [MapOp.run, OMap.step, this, mapPopitem, Dict.keys, List.map_nil]
      exact ⟨h, trivial⟩
    | cons p ks =>
      obtain ⟨k, m⟩ := p
      have ho : s.order = k :: Dict.keys ks := by rw [← h1]; rfl
      have hl : s.look k = some m := by rw [← h3]; simp [Dict.get?]
      simp only [MapOp.run, mapPopitem_cons, OMap.step, ho, hl]
      exact ⟨omap_out h (by simp [Dict.pop?]), trivial⟩
  | clear =>
    simp only [MapOp.run, OMap.step, mapClear_nil (ks.length + 1) ks (by omega)]
    exact ⟨⟨rfl, List.nodup_nil, by simp⟩, trivial⟩
  | update ps => exact omap_puts h ps
  | setdefault k v =>
    simp only [MapOp.run, OMap.step, ← h3 k]
    cases hg : Dict.get? ks k with
    | some m => exact ⟨h, rfl⟩
    | none => exact ⟨omap_put h k v.toMask, rfl⟩

/-- **C107** For every group and every history of assignments, deletions and calls of `pop`, `popitem`, `clear`,
`update` and `setdefault`: the group holds what an ordered map holds after that history, in the same order, and every
call gives back (or raises) what it does for the ordered map.  In particular `popitem` takes the *first* entry. -/
theorem C107_history (ks : Dict RMask) (s : OMap) (h : IsOMap ks s) (hist : List MapOp) :
    IsOMap (runMap ks hist).1 (s.run hist).1 ∧ (runMap ks hist).2 = (s.run hist).2 := by
  induction hist generalizing ks s with
  | nil => exact ⟨h, rfl⟩
  | cons o rest ih =>
    obtain ⟨g1, g2⟩ := omap_step h o
    obtain ⟨i1, i2⟩ := ih _ _ g1
    simp only [runMap, OMap.run]
    exact ⟨i1, by rw [g2, i2]⟩

/-- **C107** Every group with distinct names is an ordered map, so the history theorem applies to every group. -/
theorem C107_every (ks : Dict RMask) (hu : (ks.map Prod.fst).Nodup) :
    IsOMap ks ⟨ks.map Prod.fst, fun k => Dict.get? ks k⟩ :=
  (isOMap_iff _ _).2 ⟨rfl, hu, fun _ => rfl⟩

theorem normIdxs_err (n : Nat) (is : List Int) (e : PyErr) (h : normIdxs n is = .error e) : e = .indexError := by
  induction is with
  | nil => simp [normIdxs] at h
  | cons i is ih =>
    simp only [normIdxs] at h
    cases h1 : normIdx n i with
    | error e' =>
      rw [h1] at h
      have he : e' = .indexError := by
        unfold normIdx at h1
        split_ifs at h1
        exact (Except.error.inj h1).symm
      cases h2 : normIdxs n is with
      | ok js => rw [h2] at h; simp only [Except.error.injEq] at h; rw [← h, he]
      | error e2 => rw [h2] at h; simp only [Except.error.injEq] at h; rw [← h, he]
    | ok j =>
      rw [h1] at h
      cases h2 : normIdxs n is with
      | ok js => rw [h2] at h; cases h
      | error e2 =>
        rw [h2] at h
        simp only [Except.error.injEq] at h
        exact ih (by rw [h2, h])

theorem apply_not_keyError (k : Key) (d : List Bool) (h : k.apply d = .error .keyError) : False := by
  unfold Key.apply at h
  cases hr : k.resolve d.length with
  | ok is => rw [hr] at h; cases h
  | error e =>
    rw [hr] at h
    simp only [Except.error.injEq] at h
    subst h
    cases k with
    | mask m => simp only [Key.resolve] at hr; split_ifs at hr; cases hr
    | ints is => cases normIdxs_err _ _ _ hr
    | slice a b c => simp only [Key.resolve, sliceIdxs] at hr; split_ifs at hr; cases hr

theorem slice_not_keyError (k : Key) (r : RMask) : RMask.slice k r ≠ .error .keyError := by
  have hkids : ∀ (ks : List (String × RMask)), (∀ n m, (n, m) ∈ ks → RMask.slice k m ≠ .error .keyError) →
      RMask.sliceKids k ks ≠ .error .keyError := by
    intro ks
    induction ks with
    | nil => intro _ h; simp [RMask.sliceKids] at h
    | cons p ks ih =>
      obtain ⟨n, m⟩ := p
      intro hall h
      simp only [RMask.sliceKids] at h
      cases hm : RMask.slice k m with
      | error e =>
        rw [hm] at h
        simp only [Except.error.injEq] at h
        exact hall n m (by simp) (by rw [hm, h])
      | ok m' =>
        rw [hm] at h
        simp only at h
        cases hk : RMask.sliceKids k ks with
        | error e =>
          rw [hk] at h
          simp only [Except.error.injEq] at h
          exact ih (fun n m hnm => hall n m (by simp [hnm])) (by rw [hk, h])
        | ok r' => rw [hk] at h; cases h
  induction r using RMask.ind with
  | ha d =>
    intro h
    simp only [RMask.slice] at h
    cases ha : k.apply d with
    | ok d' => rw [ha] at h; cases h
    | error e =>
      rw [ha] at h
      simp only [Except.error.injEq] at h
      subst h
      exact apply_not_keyError k d ha
  | hg op ks ih =>
    intro h
    simp only [RMask.slice] at h
    cases hk : RMask.sliceKids k ks with
    | ok r' => rw [hk] at h; cases h
    | error e =>
      rw [hk] at h
      simp only [Except.error.injEq] at h
      subst h
      exact hkids ks ih hk

/-- **C107** What `key in group` and `group.get(key, default)` say.  For a name: whether it is there, and its mask or
the default.  But `in` accepts other subscripts as well: a list of names is "in" the group if all of them are, a list of
anything else is not, and an array or slice always is, unless it does not fit the masks, which raises. -/
theorem C107_in (op : RawOp) (ks : Dict RMask) (hu : (ks.map Prod.fst).Nodup) :
    (∀ k, mapContains op ks (.name k) = .ok (decide (k ∈ ks.map Prod.fst))) ∧
    (∀ k m d, (k, m) ∈ ks → mapGet op ks (.name k) d = .ok (some m)) ∧
    (∀ k d, k ∉ ks.map Prod.fst → mapGet op ks (.name k) d = .ok d) ∧
    (∀ ns, mapContains op ks (.names ns) = .ok (decide (∀ n ∈ ns, n ∈ ks.map Prod.fst))) ∧
    mapContains op ks .otherList = .ok false ∧
    (∀ key r, RMask.slice key (.grp op ks) = .ok r → mapContains op ks (.array key) = .ok true) ∧
    (∀ key e, RMask.slice key (.grp op ks) = .error e → mapContains op ks (.array key) = .error e) := by
  have hs := fun k m ns => C100_subscript op ks hu k m ns
  refine ⟨fun k => ?_, fun k m d hk => ?_, fun k d hk => ?_, fun ns => ?_, ?_, fun key r h => ?_, fun key e h => ?_⟩
  · by_cases hk : k ∈ ks.map Prod.fst
    · obtain ⟨⟨k', m⟩, hm, rfl⟩ := List.mem_map.1 hk
      simp only [mapContains, (hs k' m []).1 hm, hk, decide_true]
    · simp only [mapContains, (hs k (.arr []) []).2.1 hk, hk, decide_false]
  · simp only [mapGet, (hs k m []).1 hk]
  · simp only [mapGet, (hs k (.arr []) []).2.1 hk]
  · by_cases hn : ∀ n ∈ ns, n ∈ ks.map Prod.fst
    · obtain ⟨out, ho, _⟩ := (hs "" (.arr []) ns).2.2.1 hn
      rw [decide_eq_true hn]
      simp only [mapContains, ho]
    · rw [decide_eq_false hn]
      simp only [mapContains]
      rw [(hs "" (.arr []) ns).2.2.2.1 (by simpa [Dict.keys] using hn)]
  · rfl
  · simp only [mapContains, rawGetitem, h]
  · have : e ≠ .keyError := fun he => slice_not_keyError key (.grp op ks) (by rw [h, he])
    unfold mapContains
    rw [show rawGetitem op ks (.array key) = .error e from h]
    cases e <;> first | rfl | exact absurd rfl this

/-- Both have the same number of entries.
Helper statement for the views. -/
theorem eqTruth_spec (v m : RMask) (x y : List Bool) (hv : IsAggregate (norm v) x) (hm : IsAggregate (norm m) y) :
    (x.length = y.length → ¬ (IsGroup (norm v) ∧ ¬ IsGroup (norm m)) →
      eqTruthMask v (.mask m) = .ok (decide (x ≠ []))) ∧
    (x.length = y.length → IsGroup (norm v) → ¬ IsGroup (norm m) → eqTruthMask v (.mask m) = .error .typeError) ∧
    (x.length ≠ y.length → eqTruthMask v (.mask m) = .error .valueError) ∧
    (x.length = y.length → eqTruthMask v (.array y) = .ok (decide (x ≠ []))) ∧
    (x.length ≠ y.length → eqTruthMask v (.array y) = .error .valueError) := by
  have e1 := ((C100_data v).1 x).2 hv
  have e2 := ((C100_data m).1 y).2 hm
  have hne : ∀ (h : x.length = y.length), decide ((List.zipWith (fun p q : Bool => p == q) x y).length ≠ 0) =
      decide (x ≠ []) := by
    intro h
    rw [List.length_zipWith, ← h, Nat.min_self]
    cases x <;> simp
  have hok : ∀ (h : x.length = y.length), truthOf (.ok (List.zipWith (fun p q : Bool => p == q) x y)) =
      .ok (decide (x ≠ [])) := fun h => congrArg _ (hne h)
  refine ⟨fun h hg => ?_, fun h hv' hm' => ?_, fun h => ?_, fun h => ?_, fun h => ?_⟩
  · rw [eqTruthMask, e1, e2]
    simp only [h, if_true]
    cases v <;> cases m
    · exact hok h
    · exact hok h
    · exact absurd ⟨by simp [norm, IsGroup], by simp [norm, IsGroup]⟩ hg
    · exact hok h
  · rw [eqTruthMask, e1, e2]
    simp only [h, if_true]
    cases v <;> cases m
    · exact (by simpa [norm, IsGroup] using hv')
    · exact (by simpa [norm, IsGroup] using hv')
    · rfl
    · exact absurd (by simp [norm, IsGroup]) hm'
  · rw [eqTruthMask, e1, e2]; simp only [h, if_false]
  · rw [eqTruthMask, e1]
    simp only [h, if_true]
    cases v <;> exact hok h
  · rw [eqTruthMask, e1]; simp only [h, if_false]

/-- **C107** `value in group.values()` does not ask whether the group holds such a mask.  For a non-empty group whose
first mask (of aggregate `x`) is another object: the answer is yes for *every* mask with as many entries, if there are
any; but if the first is a `MaskGroup` and the other a `MaskArray` it is `TypeError`; a mask of another length, or
anything that is no mask, raises `ValueError`. -/
theorem C107_values (k : String) (i : Nat) (v m : RMask) (rest : List (String × (Nat × RMask))) (j : Nat)
    (x y : List Bool) (hij : i ≠ j) (hv : IsAggregate (norm v) x) (hm : IsAggregate (norm m) y) :
    (x.length = y.length → x ≠ [] → ¬ (IsGroup (norm v) ∧ ¬ IsGroup (norm m)) →
      valuesContain (j, .mask m) ((k, (i, v)) :: rest) = .ok true) ∧
    (x.length = y.length → IsGroup (norm v) → ¬ IsGroup (norm m) →
      valuesContain (j, .mask m) ((k, (i, v)) :: rest) = .error .typeError) ∧
    (x.length ≠ y.length → valuesContain (j, .mask m) ((k, (i, v)) :: rest) = .error .valueError) ∧
    valuesContain (j, .foreign) ((k, (i, v)) :: rest) = .error .valueError ∧
    valuesContain (j, .mask m) [] = .ok false := by
  obtain ⟨s1, s2, s3, _, _⟩ := eqTruth_spec v m x y hv hm
  refine ⟨fun h hx hg => ?_, fun h h1 h2 => ?_, fun h => ?_, ?_, rfl⟩
  · simp only [valuesContain, sameOrEq, hij, if_false, s1 h hg, hx, ne_eq, not_false_eq_true, decide_true]
  · simp only [valuesContain, sameOrEq, hij, if_false, s2 h h1 h2]
  · simp only [valuesContain, sameOrEq, hij, if_false, s3 h]
  · simp only [valuesContain, sameOrEq, hij, if_false, eqTruthMask]

/-- **C107** The same for `(key, value) in group.items()`: no for names which are not there; otherwise yes for the object
itself and for every mask with as many entries, if there are any, whatever they are, except that a `MaskArray` is not
compared with a `MaskGroup` (`TypeError`). -/
theorem C107_items (ks : Dict (Nat × RMask)) (hu : (ks.map Prod.fst).Nodup) (k : String) (j : Nat) (m : RMask)
    (y : List Bool) (hm : IsAggregate (norm m) y) :
    (k ∉ ks.map Prod.fst → itemsContain ks k (j, .mask m) = .ok false) ∧
    (∀ v, (k, (j, v)) ∈ ks → itemsContain ks k (j, .mask m) = .ok true) ∧
    (∀ i v x, (k, (i, v)) ∈ ks → i ≠ j → IsAggregate (norm v) x →
      (x.length = y.length → ¬ (IsGroup (norm v) ∧ ¬ IsGroup (norm m)) →
        itemsContain ks k (j, .mask m) = .ok (decide (x ≠ []))) ∧
      (x.length = y.length → IsGroup (norm v) → ¬ IsGroup (norm m) →
        itemsContain ks k (j, .mask m) = .error .typeError) ∧
      (x.length ≠ y.length → itemsContain ks k (j, .mask m) = .error .valueError)) := by
  refine ⟨fun hk => ?_, fun v hv => ?_, fun i v x hv hij hx => ?_⟩
  · have : Dict.get? ks k = none := (Dict.get?_eq_none_iff _ _).2 hk
    simp only [itemsContain, this]
  · simp only [itemsContain, Dict.get?_of_mem hu hv, sameOrEq, if_true]
  · obtain ⟨s1, s2, s3, _, _⟩ := eqTruth_spec v m x y hx hm
    refine ⟨fun h hg => ?_, fun h h1 h2 => ?_, fun h => ?_⟩
    · simp only [itemsContain, Dict.get?_of_mem hu hv, sameOrEq, hij, if_false, s1 h hg]
    · simp only [itemsContain, Dict.get?_of_mem hu hv, sameOrEq, hij, if_false, s2 h h1 h2]
    · simp only [itemsContain, Dict.get?_of_mem hu hv, sameOrEq, hij, if_false, s3 h]

/-- **C107** Expectations which are false: that `popitem` takes the entry added last, as for a `dict`; that
`setdefault` gives back what is then in the group (given a list, it gives back the list); that a mask found by `in
group.values()` is equal to one of the group. -/
theorem C107_false :
    (∃ ks : Dict RMask, Dict.keys ks = ["a", "b"] ∧ (MapOp.popitem.run ks).2 = .item "a" (.arr [true])) ∧
    (∀ (ks : Dict RMask) (k : String) (d : List Bool), k ∉ Dict.keys ks →
      ((MapOp.setdefault k (.raw d)).run ks).2 = .val (.raw d) ∧
      Dict.get? ((MapOp.setdefault k (.raw d)).run ks).1 k = some (.arr d)) ∧
    valuesContain (1, .mask (.arr [false, false])) [("a", (0, .arr [true, true]))] = .ok true := by
  refine ⟨⟨[("a", .arr [true]), ("b", .arr [false])], rfl, rfl⟩, fun ks k d hk => ?_, rfl⟩
  have : Dict.get? ks k = none := (Dict.get?_eq_none_iff _ _).2 hk
  simp only [MapOp.run, this]
  exact ⟨trivial, by rw [Dict.get?_set]; simp [MArg.toMask]⟩

/-! ## Witnesses -/

example : (runMap [("a", .arr [true]), ("b", .arr [false])]
      [.set (some "c") (.raw [true]), .popitem, .update [(some "b", .raw [true]), (none, .raw []), (some "x", .raw [])]]).1
    = [("b", .arr [true]), ("c", .arr [true])] := rfl

example : IsOMap [("a", .arr [true]), ("b", .arr [false])]
    ⟨["a", "b"], fun k => Dict.get? [("a", .arr [true]), ("b", .arr [false])] k⟩ :=
  C107_every _ (by decide)

example : IsAggregate (norm (.arr [true, false])) [true, false] ∧ IsAggregate (norm (.arr [false, false])) [false, false] :=
  ⟨((C100_data (.arr [true, false])).1 _).1 rfl, ((C100_data (.arr [false, false])).1 _).1 rfl⟩

end Gcl
