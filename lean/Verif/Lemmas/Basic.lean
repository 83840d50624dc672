import Verif.Model.Basic
/-! # Lemmas about dictionaries, subscripts and broadcasting -/
namespace Gcl
set_option autoImplicit false

namespace Dict
variable {α : Type}

@[simp] theorem get?_nil (k : String) : get? ([] : Dict α) k = none := rfl
theorem get?_cons (k' k : String) (v : α) (d : Dict α) :
    get? ((k', v) :: d) k = if k' = k then some v else get? d k := rfl

theorem get?_eq_find (d : Dict α) (k : String) :
    get? d k = (d.find? (fun p => p.1 == k)).map Prod.snd := by
  induction d with
  | nil => rfl
  | cons p d ih =>
    obtain ⟨k', v⟩ := p
    simp only [get?_cons, List.find?_cons]
    by_cases h : k' = k
    · simp [h]
    · have hb : (k' == k) = false := by simp [h]
      simp [h, ih, hb]

theorem get?_eq_none_iff (d : Dict α) (k : String) : get? d k = none ↔ k ∉ keys d := by
  induction d with
  | nil => simp [keys]
  | cons p d ih =>
    obtain ⟨k', v⟩ := p
    simp only [get?_cons, keys, List.map_cons, List.mem_cons, not_or]
    by_cases h : k' = k
    · simp [h]
    · simp only [h, if_false]
      rw [ih]
      constructor
      · intro hh; exact ⟨fun e => h e.symm, hh⟩
      · intro hh; exact hh.2

theorem mem_of_get? {d : Dict α} {k : String} {v : α} (h : get? d k = some v) : (k, v) ∈ d := by
  induction d with
  | nil => simp at h
  | cons p d ih =>
    obtain ⟨k', v'⟩ := p
    rw [get?_cons] at h
    by_cases hk : k' = k
    · simp only [hk, if_true, Option.some.injEq] at h
      simp [hk, h]
    · simp only [hk, if_false] at h
      exact List.mem_cons_of_mem _ (ih h)

theorem get?_of_mem {d : Dict α} (hn : (keys d).Nodup) {k : String} {v : α} (h : (k, v) ∈ d) :
    get? d k = some v := by
  induction d with
  | nil => simp at h
  | cons p d ih =>
    obtain ⟨k', v'⟩ := p
    simp only [keys, List.map_cons, List.nodup_cons] at hn
    rw [get?_cons]
    rcases List.mem_cons.1 h with e | h'
    · simp only [Prod.mk.injEq] at e; simp [e.1, e.2]
    · have : k' ≠ k := by
        rintro rfl
        exact hn.1 (List.mem_map.2 ⟨(k', v), h', rfl⟩)
      simp [this, ih hn.2 h']

theorem get?_set (d : Dict α) (k k' : String) (v : α) :
    get? (set d k v) k' = if k = k' then some v else get? d k' := by
  induction d with
  | nil => simp [set, get?_cons]
  | cons p d ih =>
    obtain ⟨k₀, v₀⟩ := p
    unfold set
    by_cases h : k₀ = k
    · subst h
      simp only [if_true, get?_cons]
      by_cases h2 : k₀ = k' <;> simp [h2]
    · simp only [h, if_false, get?_cons, ih]
      by_cases h2 : k₀ = k'
      · subst h2; simp [Ne.symm h]
      · simp [h2]

theorem keys_set (d : Dict α) (k : String) (v : α) :
    keys (set d k v) = if k ∈ keys d then keys d else keys d ++ [k] := by
  induction d with
  | nil => simp [set, keys]
  | cons p d ih =>
    obtain ⟨k₀, v₀⟩ := p
    unfold set
    by_cases h : k₀ = k
    · subst h; simp [keys]
    · have hk : k ≠ k₀ := Ne.symm h
      have ih' : List.map Prod.fst (set d k v) = if k ∈ List.map Prod.fst d then List.map Prod.fst d
        else List.map Prod.fst d ++ [k] := ih
      simp only [h, if_false, keys, List.map_cons, ih', List.mem_cons, hk, false_or]
      split <;> rfl

theorem nodup_keys_set {d : Dict α} (hn : (keys d).Nodup) (k : String) (v : α) :
    (keys (set d k v)).Nodup := by
  rw [keys_set]
  split
  · exact hn
  · rw [List.nodup_append]
    refine ⟨hn, by simp, ?_⟩
    intro a ha b hb
    simp only [List.mem_singleton] at hb
    subst hb
    rintro rfl
    contradiction

theorem nodup_keys_update {d : Dict α} (hn : (keys d).Nodup) (ps : List (String × α)) :
    (keys (update d ps)).Nodup := by
  unfold update
  induction ps generalizing d with
  | nil => simpa
  | cons p ps ih => exact ih (nodup_keys_set hn _ _)

theorem nodup_keys_ofPairs (ps : List (String × α)) : (keys (ofPairs ps)).Nodup :=
  nodup_keys_update (d := []) (by simp [keys]) ps

theorem mem_keys_update (d : Dict α) (ps : List (String × α)) (k : String) :
    k ∈ keys (update d ps) ↔ k ∈ keys d ∨ k ∈ ps.map Prod.fst := by
  unfold update
  induction ps generalizing d with
  | nil => simp
  | cons p ps ih =>
    rw [List.foldl_cons, ih, keys_set]
    simp only [List.map_cons, List.mem_cons]
    split
    · rename_i h
      constructor
      · rintro (h1 | h1) <;> simp [h1]
      · rintro (h1 | h1 | h1)
        · exact .inl h1
        · subst h1; exact .inl h
        · exact .inr h1
    · simp only [List.mem_append, List.mem_singleton]
      rw [or_assoc]

/-- Appending fresh distinct pairs. -/
theorem update_of_nodup (d : Dict α) (ps : List (String × α))
    (hn : (keys d ++ ps.map Prod.fst).Nodup) : update d ps = d ++ ps := by
  induction ps generalizing d with
  | nil => simp [update]
  | cons p ps ih =>
    obtain ⟨k, v⟩ := p
    have hset : ∀ d : Dict α, k ∉ keys d → set d k v = d ++ [(k, v)] := by
      intro d hk
      induction d with
      | nil => rfl
      | cons q d ih =>
        obtain ⟨k₀, v₀⟩ := q
        simp only [keys, List.map_cons, List.mem_cons, not_or] at hk
        unfold set
        rw [if_neg (Ne.symm hk.1), ih hk.2]
        rfl
    have hk : k ∉ keys d := by
      intro h
      rw [List.nodup_append] at hn
      exact hn.2.2 k h k (by simp) rfl
    have h1 : update d ((k, v) :: ps) = update (d ++ [(k, v)]) ps := by
      show update (set d k v) ps = _
      rw [hset d hk]
    rw [h1, ih]
    · simp
    · simpa [keys] using hn

theorem ofPairs_of_nodup (ps : List (String × α)) (hn : (ps.map Prod.fst).Nodup) :
    ofPairs ps = ps := by
  have := update_of_nodup ([] : Dict α) ps (by simpa [keys] using hn)
  simpa [update, ofPairs] using this

theorem pop?_eq_none_iff (d : Dict α) (k : String) : pop? d k = none ↔ k ∉ keys d := by
  induction d with
  | nil => simp [pop?, keys]
  | cons p d ih =>
    obtain ⟨k', v⟩ := p
    unfold pop?
    by_cases h : k' = k
    · simp [h, keys]
    · have hk : k ≠ k' := Ne.symm h
      simp only [h, if_false, Option.map_eq_none_iff, ih, keys, List.map_cons, List.mem_cons, hk,
        false_or]

theorem pop?_eq_some {d d' : Dict α} {k : String} (hn : (keys d).Nodup) (h : pop? d k = some d') :
    d' = d.filter (fun p => p.1 != k) := by
  induction d generalizing d' with
  | nil => simp [pop?] at h
  | cons p d ih =>
    obtain ⟨k', v⟩ := p
    simp only [keys, List.map_cons, List.nodup_cons] at hn
    unfold pop? at h
    by_cases hk : k' = k
    · subst hk
      simp only [if_true, Option.some.injEq] at h
      subst h
      simp only [List.filter_cons, bne_self_eq_false, Bool.false_eq_true, if_false]
      symm
      rw [List.filter_eq_self]
      intro p hp
      simp only [bne_iff_ne, ne_eq]
      rintro rfl
      exact hn.1 (List.mem_map.2 ⟨p, hp, rfl⟩)
    · simp only [hk, if_false, Option.map_eq_some_iff] at h
      obtain ⟨d₁, h1, h2⟩ := h
      subst h2
      simp [hk, ih hn.2 h1]

theorem get?_filter_ne (d : Dict α) (k k' : String) :
    get? (d.filter (fun p => p.1 != k)) k' = if k = k' then none else get? d k' := by
  induction d with
  | nil => simp
  | cons p d ih =>
    obtain ⟨k₀, v⟩ := p
    by_cases h : k₀ = k
    · subst h
      simp only [List.filter_cons, bne_self_eq_false, Bool.false_eq_true, if_false, ih, get?_cons]
      by_cases h2 : k₀ = k' <;> simp [h2]
    · have : (k₀ != k) = true := by simp [h]
      simp only [List.filter_cons, this, if_true, get?_cons, ih]
      by_cases h2 : k₀ = k'
      · subst h2; simp [Ne.symm h]
      · simp [h2]

theorem keys_filter_ne (d : Dict α) (k : String) :
    keys (d.filter (fun p => p.1 != k)) = (keys d).filter (· != k) := by
  unfold keys
  rw [List.filter_map]
  rfl

end Dict

theorem bcast2_eq_length {α β γ : Type} (f : α → β → γ) {a : List α} {b : List β}
    (h : a.length = b.length) : bcast2 f a b = .ok (List.zipWith f a b) := by
  simp [bcast2, h]

end Gcl
