import Verif.Lemmas.ClustersB
import Verif.Spec.Clusters
/-! # The pruning loop and the flattening of `clusters` -/
namespace Gcl
set_option autoImplicit false
open Spec

theorem outgoing_iff (status : List Int) (j : Nat) :
    (status.map (fun s => decide (|s| = 23)))[j]? = some true ↔ Outgoing status j := by
  unfold Outgoing
  rw [List.getElem?_map]
  cases status[j]? <;> simp

theorem mem_partonMask {status : List Int} {d : List Bool} (j : Nat) :
    j ∈ trueIdxs (List.zipWith (· && ·) (status.map (fun s => decide (|s| = 23))) d) ↔
      d[j]? = some true ∧ Outgoing status j := by
  rw [mem_trueIdxs, ← outgoing_iff, List.getElem?_zipWith]
  cases d[j]? <;> cases (status.map (fun s => decide (|s| = 23)))[j]? <;> simp [and_comm]

theorem leafCentre_eq (tol : ℝ) {pmu : List P4} {status : List Int} {d : List Bool}
    (hd : d.length = status.length) (hp : pmu.length = status.length) :
    leafCentre tol pmu (status.map (fun s => decide (|s| = 23))) d =
      match gather pmu (trueIdxs (List.zipWith (· && ·) (status.map (fun s => decide (|s| = 23))) d)) with
      | [p] => .ok (p.eta, p.phi tol)
      | _ => .error .valueError := by
  unfold leafCentre
  rw [bcast2_eq_length _ (by simp [hd])]
  have hl : (List.zipWith (· && ·) (status.map (fun s => decide (|s| = 23))) d).length = pmu.length := by
    simp [hd, hp]
  simp only [(C20_mask pmu _).1 hl, gather_eq_selected pmu _ hl]
  cases selected pmu (List.zipWith (· && ·) (status.map (fun s => decide (|s| = 23))) d) with
  | nil => rfl
  | cons a l => cases l <;> rfl

theorem leafCentre_ok (tol : ℝ) {pmu : List P4} {status : List Int} {d : List Bool}
    (hd : d.length = status.length) (hp : pmu.length = status.length) {j : Nat} (hj : TheParton status d j)
    {pj : P4} (hpj : pmu[j]? = some pj) :
    leafCentre tol pmu (status.map (fun s => decide (|s| = 23))) d = .ok (pj.eta, pj.phi tol) := by
  rw [leafCentre_eq tol hd hp]
  have : trueIdxs (List.zipWith (· && ·) (status.map (fun s => decide (|s| = 23))) d) = [j] := by
    have hmem := (mem_partonMask (status := status) (d := d) j).2 hj.1
    have hnd := trueIdxs_nodup (List.zipWith (· && ·) (status.map (fun s => decide (|s| = 23))) d)
    have hall : ∀ x ∈ trueIdxs (List.zipWith (· && ·) (status.map (fun s => decide (|s| = 23))) d), x = j := by
      intro x hx
      obtain ⟨h1, h2⟩ := (mem_partonMask (status := status) (d := d) x).1 hx
      exact hj.2 x h1 h2
    revert hmem hnd hall
    generalize trueIdxs (List.zipWith (· && ·) (status.map (fun s => decide (|s| = 23))) d) = l
    intro hmem hnd hall
    match l, hmem, hnd, hall with
    | [a], _, _, hall => rw [hall a (by simp)]
    | a :: b :: l, _, hnd, hall =>
      have h1 := hall a (by simp)
      have h2 := hall b (by simp)
      rw [h1, h2] at hnd
      simp at hnd
  rw [this]
  simp [gather, hpj]

theorem leafCentre_error (tol : ℝ) {pmu : List P4} {status : List Int} {d : List Bool}
    (hd : d.length = status.length) (hp : pmu.length = status.length)
    (hj : ¬ ∃ j, TheParton status d j) :
    leafCentre tol pmu (status.map (fun s => decide (|s| = 23))) d = .error .valueError := by
  rw [leafCentre_eq tol hd hp]
  have hmem := fun j => mem_partonMask (status := status) (d := d) j
  have hlt : ∀ j ∈ trueIdxs (List.zipWith (· && ·) (status.map (fun s => decide (|s| = 23))) d),
      j < pmu.length := by
    intro j hj'
    have := (List.getElem?_eq_some_iff.1 ((hmem j).1 hj').1).1
    omega
  have hlen := gather_length pmu _ hlt
  have hnd := trueIdxs_nodup (List.zipWith (· && ·) (status.map (fun s => decide (|s| = 23))) d)
  revert hmem hlen hnd
  generalize trueIdxs (List.zipWith (· && ·) (status.map (fun s => decide (|s| = 23))) d) = l
  intro hmem hlen hnd
  have : l.length ≠ 1 := by
    intro h1
    obtain ⟨a, rfl⟩ := List.length_eq_one_iff.1 h1
    refine hj ⟨a, (hmem a).1 (by simp), fun j' h1 h2 => ?_⟩
    simpa using (hmem j').2 ⟨h1, h2⟩
  rw [← hlen] at this
  match gather pmu l, this with
  | [], _ => rfl
  | [a], h => simp at h
  | a :: b :: c, _ => rfl

/-- What the loop does to one leaf. -/
def PrunedTo (tol radius : ℝ) (pmu : List P4) (status : List Int) (d d' : List Bool) : Prop :=
  d'.length = d.length ∧ ∀ i : Nat, d'[i]? = some true ↔
    d[i]? = some true ∧ NearParton tol radius pmu status d i

theorem TheParton.unique {status : List Int} {d : List Bool} {j j' : Nat} (h : TheParton status d j)
    (h' : TheParton status d j') : j = j' := h'.2 j h.1.1 h.1.2

theorem prune_one (tol radius : ℝ) {pmu : List P4} {status : List Int} {d : List Bool}
    (hd : d.length = status.length) (hp : pmu.length = status.length) {j : Nat} (hj : TheParton status d j) :
    ∃ centre d', leafCentre tol pmu (status.map (fun s => decide (|s| = 23))) d = .ok centre ∧
      centroidPrune tol pmu radius (some d) (some centre) = .ok d' ∧ PrunedTo tol radius pmu status d d' := by
  have hjl : j < pmu.length := by
    have := (List.getElem?_eq_some_iff.1 hj.1.1).1
    omega
  have hpj : pmu[j]? = some pmu[j] := List.getElem?_eq_getElem hjl
  obtain ⟨d', h1, h2, h3⟩ := C55_masked tol pmu radius d (some ((pmu[j]).eta, (pmu[j]).phi tol))
    (by rw [hd, hp])
  refine ⟨_, d', leafCentre_ok tol hd hp hj hpj, h1, h2, fun i => ?_⟩
  rw [h3 i]
  refine and_congr_right fun _ => ?_
  constructor
  · rintro ⟨p, e1, e2⟩
    exact ⟨j, _, p, hj, hpj, e1, e2⟩
  · rintro ⟨j', pj, pi, e1, e2, e3, e4⟩
    have := TheParton.unique e1 hj
    subst this
    rw [hpj] at e2
    cases e2
    exact ⟨pi, e3, e4⟩

theorem pruneLoop_ok (tol radius : ℝ) {pmu : List P4} {status : List Int} (hp : pmu.length = status.length)
    (refs : Dict (List String))
    (hinj : ∀ k k' path, Dict.get? refs k = some path → Dict.get? refs k' = some path → k = k')
    (keys : List String) (hn : keys.Nodup) (hier : Mask)
    (hk : ∀ k ∈ keys, ∃ path d j, Dict.get? refs k = some path ∧ look hier path = some (.leaf d) ∧
      d.length = status.length ∧ TheParton status d j) :
    ∃ out, pruneLoop tol pmu radius (status.map (fun s => decide (|s| = 23))) refs keys hier = .ok out ∧
      ∀ path, (look hier path = none → look out path = none) ∧
        (∀ op ks, look hier path = some (.group op ks) → look out path = some (.group op ks)) ∧
        (∀ d, look hier path = some (.leaf d) → ∃ d', look out path = some (.leaf d') ∧
          ((∃ k ∈ keys, Dict.get? refs k = some path) → PrunedTo tol radius pmu status d d') ∧
          ((¬ ∃ k ∈ keys, Dict.get? refs k = some path) → d' = d)) := by
  induction keys generalizing hier with
  | nil => exact ⟨hier, rfl, fun path => ⟨id, fun _ _ => id, fun d h => ⟨d, h, by simp, by simp⟩⟩⟩
  | cons k keys ih =>
    obtain ⟨path0, d0, j, e1, e2, e3, e4⟩ := hk k (by simp)
    obtain ⟨centre, d1, f1, f2, f3⟩ := prune_one tol radius e3 hp e4
    have hset := look_setLeaf d1 d0 path0 hier e2
    rw [List.nodup_cons] at hn
    obtain ⟨out, g1, g2⟩ := ih hn.2 (hier.setLeaf d1 path0) (by
      intro k' hk'
      obtain ⟨path', d', j', e1', e2', e3', e4'⟩ := hk k' (by simp [hk'])
      refine ⟨path', d', j', e1', ?_, e3', e4'⟩
      rw [hset, if_neg, e2']
      rintro rfl
      have := hinj k k' path' e1 e1'
      subst this
      exact hn.1 hk')
    refine ⟨out, ?_, fun path => ?_⟩
    · simp only [pruneLoop, e1, (leafAt_iff path0 hier d0).2 e2, f1, f2, g1]
    · obtain ⟨a1, a2, a3⟩ := g2 path
      rw [hset path] at a1 a2 a3
      by_cases hpath : path = path0
      · subst hpath
        rw [if_pos rfl] at a1 a2 a3
        refine ⟨(fun h => by rw [h] at e2; cases e2), (fun _ _ h => by rw [h] at e2; cases e2), ?_⟩
        intro d hd
        rw [hd] at e2
        cases e2
        obtain ⟨d', b1, b2, b3⟩ := a3 d1 rfl
        have hnot : ¬ ∃ k' ∈ keys, Dict.get? refs k' = some path := by
          rintro ⟨k', c1, c2⟩
          exact hn.1 (hinj k k' path e1 c2 ▸ c1)
        have := b3 hnot
        subst this
        exact ⟨d', b1, fun _ => f3, fun h => absurd ⟨k, by simp, e1⟩ h⟩
      · rw [if_neg hpath] at a1 a2 a3
        refine ⟨a1, a2, fun d hd => ?_⟩
        obtain ⟨d', b1, b2, b3⟩ := a3 d hd
        have hiff : (∃ k' ∈ k :: keys, Dict.get? refs k' = some path) ↔
            ∃ k' ∈ keys, Dict.get? refs k' = some path := by
          constructor
          · rintro ⟨k', c1, c2⟩
            rcases List.mem_cons.1 c1 with rfl | c1
            · rw [e1] at c2; cases c2; exact absurd rfl hpath
            · exact ⟨k', c1, c2⟩
          · rintro ⟨k', c1, c2⟩
            exact ⟨k', by simp [c1], c2⟩
        exact ⟨d', b1, by rw [hiff]; exact b2, by rw [hiff]; exact b3⟩

theorem pruneLoop_error (tol radius : ℝ) {pmu : List P4} {status : List Int} (hp : pmu.length = status.length)
    (refs : Dict (List String))
    (hinj : ∀ k k' path, Dict.get? refs k = some path → Dict.get? refs k' = some path → k = k')
    (keys : List String) (hn : keys.Nodup) (hier : Mask)
    (hk : ∀ k ∈ keys, ∃ path d, Dict.get? refs k = some path ∧ look hier path = some (.leaf d) ∧
      d.length = status.length)
    (hbad : ∃ k ∈ keys, ∃ path d, Dict.get? refs k = some path ∧ look hier path = some (.leaf d) ∧
      ¬ ∃ j, TheParton status d j) :
    pruneLoop tol pmu radius (status.map (fun s => decide (|s| = 23))) refs keys hier =
      .error .valueError := by
  induction keys generalizing hier with
  | nil => obtain ⟨k, hk, _⟩ := hbad; cases hk
  | cons k keys ih =>
    obtain ⟨path0, d0, e1, e2, e3⟩ := hk k (by simp)
    rw [List.nodup_cons] at hn
    by_cases hj : ∃ j, TheParton status d0 j
    · obtain ⟨j, e4⟩ := hj
      obtain ⟨centre, d1, f1, f2, f3⟩ := prune_one tol radius e3 hp e4
      have hset := look_setLeaf d1 d0 path0 hier e2
      have hother : ∀ k' ∈ keys, ∀ path', Dict.get? refs k' = some path' →
          look (hier.setLeaf d1 path0) path' = look hier path' := by
        intro k' hk' path' e1'
        rw [hset, if_neg]
        rintro rfl
        have := hinj k k' path' e1 e1'
        subst this
        exact hn.1 hk'
      have := ih hn.2 (hier.setLeaf d1 path0) (by
        intro k' hk'
        obtain ⟨path', d', e1', e2', e3'⟩ := hk k' (by simp [hk'])
        exact ⟨path', d', e1', by rw [hother k' hk' path' e1']; exact e2', e3'⟩) (by
        obtain ⟨k', hk', path', d', b1, b2, b3⟩ := hbad
        rcases List.mem_cons.1 hk' with rfl | hk'
        · rw [e1] at b1; cases b1
          rw [e2] at b2; cases b2
          exact absurd ⟨j, e4⟩ b3
        · exact ⟨k', hk', path', d', b1, by rw [hother k' hk' path' b1]; exact b2, b3⟩)
      simp only [pruneLoop, e1, (leafAt_iff path0 hier d0).2 e2, f1, f2, this]
    · simp only [pruneLoop, e1, (leafAt_iff path0 hier d0).2 e2, leafCentre_error tol e3 hp hj]

/-! ## Dropping `latent`, flattening, restricting -/

theorem aggregable_len {n n' : Nat} {m : Mask} (h : Aggregable n m) (h' : Aggregable n' m) : n = n' := by
  induction h with
  | leaf hd => cases h' with | leaf hd' => rw [← hd, hd']
  | @group op ks _ hne _ ih =>
    cases h' with
    | group _ _ hs =>
      obtain ⟨⟨k, m⟩, hm⟩ := List.exists_mem_of_ne_nil ks hne
      exact ih k m hm (hs k m hm)

theorem look_append (m : Mask) (p q : List String) :
    look m (p ++ q) = (at? m p).bind (fun c => look c q) := by
  unfold look
  rw [at?_append]
  cases at? m p <;> rfl

theorem restrictAll_ok (final : List Bool) (l : List (String × List Bool))
    (h : ∀ p ∈ l, p.2.length = final.length) :
    restrictAll final l = .ok (l.map (fun p => (p.1, selected p.2 final))) := by
  induction l with
  | nil => rfl
  | cons p l ih =>
    obtain ⟨k, d⟩ := p
    simp only [restrictAll, (C20_mask d final).1 (h (k, d) (by simp)).symm,
      ih (fun q hq => h q (by simp [hq])), List.map_cons]

/-- Lines 1157-1162 of the code, applied to a nice tree. -/
theorem flatten_rest {n : Nat} {P : Mask} (hP : NiceTree n P) (final : List Bool) (hf : final.length = n) :
    ∃ ks flat entries, P.drop "latent" = .grp .or ks ∧ flattenRise .or ks = .ok (.grp .or flat) ∧
      flatEntries flat = .ok entries ∧
      restrictAll final entries = .ok (entries.map (fun p => (p.1, selected p.2 final))) ∧
      (entries.map Prod.fst).Nodup ∧
      (∀ k, k ∈ entries.map Prod.fst ↔ ∃ p, "latent" ∉ p ++ [k] ∧ (look P (p ++ [k])).isSome) ∧
      (∀ k full, (k, full) ∈ entries → full.length = n ∧ ∃ p, "latent" ∉ p ++ [k] ∧
        (look P (p ++ [k])).isSome ∧
        ∀ i : Nat, full[i]? = some true ↔ ∃ q d, "latent" ∉ q ∧ look P (p ++ [k] ++ q) = some (.leaf d) ∧
          d[i]? = some true) := by
  have hlook := C07_recursive_drop "latent" P
  obtain ⟨op0, ks0, ht⟩ := hP.top
  have hop0 := (hP.group [] op0 ks0 ht).1
  subst hop0
  have hD : ∃ ks, P.drop "latent" = .grp .or ks := by
    have := hlook []
    rw [ht] at this
    simp only [List.not_mem_nil, if_false, Option.map_some, Node.without] at this
    cases hd : P.drop "latent" with
    | arr d => rw [hd, look_nil] at this; simp [node] at this
    | grp op ks =>
      rw [hd, look_nil] at this
      simp only [node, Option.some.injEq, Node.group.injEq] at this
      exact ⟨ks, by rw [this.1]⟩
  obtain ⟨ks, hD⟩ := hD
  rw [hD] at hlook
  -- the nodes of the tree without `latent`
  have dleaf : ∀ p d, look (.grp .or ks) p = some (.leaf d) ↔ "latent" ∉ p ∧ look P p = some (.leaf d) := by
    intro p d
    rw [hlook]
    by_cases hp : "latent" ∈ p
    · simp [hp]
    · rw [if_neg hp]
      cases hl : look P p with
      | none => simp
      | some c => cases c <;> simp [Node.without, hp]
  have dgroup : ∀ p op ks', look (.grp .or ks) p = some (.group op ks') →
      op = .or ∧ ks'.Nodup ∧ ks' ≠ [] := by
    intro p op ks' h
    rw [hlook] at h
    split at h
    · cases h
    · obtain ⟨c, h1, h2⟩ := Option.map_eq_some_iff.1 h
      cases c with
      | leaf d => simp [Node.without] at h2
      | group op1 ks1 =>
        simp only [Node.without, Node.group.injEq] at h2
        obtain ⟨rfl, rfl⟩ := h2
        obtain ⟨g1, g2, k, g3, g4⟩ := hP.group p op1 ks1 h1
        exact ⟨g1, g2.filter _, List.ne_nil_of_mem (List.mem_filter.2 ⟨g3, by simpa using g4⟩)⟩
  have dsome : ∀ p, (look (.grp .or ks) p).isSome ↔ "latent" ∉ p ∧ (look P p).isSome := by
    intro p
    rw [hlook]
    by_cases hp : "latent" ∈ p <;> simp [hp]
  have hu : UniqueKeys (.grp .or ks) := fun p op ks' h => (dgroup p op ks' h).2.1
  have sub : ∀ p m, at? (.grp .or ks) p = some m →
      (∀ q op ks', look m q = some (.group op ks') → op = .or ∧ ks'.Nodup ∧ ks' ≠ []) ∧ Aggregable n m := by
    intro p m hm
    have hq : ∀ q, look m q = look (.grp .or ks) (p ++ q) := by
      intro q; rw [look_append, hm]; rfl
    have h1 : ∀ q op ks', look m q = some (.group op ks') → op = .or ∧ ks'.Nodup ∧ ks' ≠ [] := by
      intro q op ks' h
      rw [hq] at h
      exact dgroup _ _ _ h
    refine ⟨h1, aggregable_of_look m h1 (fun q d h => ?_)⟩
    rw [hq] at h
    exact hP.leaf _ d ((dleaf _ d).1 h).2
  obtain ⟨c1, c2⟩ := C08_flatten_rise .or ks hu
  obtain ⟨r, hr⟩ := c1.2 (fun p k m _ hm => ⟨n, (sub _ m hm).2⟩)
  obtain ⟨flat, rfl, f1, f2, f3, f4⟩ := c2 r hr
  have hent : ∃ entries : List (String × List Bool), flat = entries.map (fun q => (q.1, Mask.arr q.2)) := by
    clear f1 f3 f4 hr c1 c2
    induction flat with
    | nil => exact ⟨[], rfl⟩
    | cons p flat ih =>
      obtain ⟨k, m⟩ := p
      obtain ⟨d, rfl⟩ := f2 k m (by simp)
      obtain ⟨es, rfl⟩ := ih (fun k m h => f2 k m (by simp [h]))
      exact ⟨(k, d) :: es, rfl⟩
  obtain ⟨entries, rfl⟩ := hent
  have hfst : (entries.map (fun q => (q.1, Mask.arr q.2))).map Prod.fst = entries.map Prod.fst := by simp
  rw [hfst] at f1
  have hmem : ∀ k full, (k, full) ∈ entries → full.length = n ∧ ∃ p, "latent" ∉ p ++ [k] ∧
        (look P (p ++ [k])).isSome ∧
        ∀ i : Nat, full[i]? = some true ↔ ∃ q d, "latent" ∉ q ∧ look P (p ++ [k] ++ q) = some (.leaf d) ∧
          d[i]? = some true := by
    intro k full hk
    have hc : child (.grp .or (entries.map (fun q => (q.1, Mask.arr q.2)))) k = some (.arr full) := by
      rw [child_grp]
      exact Dict.get?_of_mem (by rw [Dict.keys, hfst]; exact f1) (List.mem_map.2 ⟨_, hk, rfl⟩)
    obtain ⟨p, m, g1, g2, g3⟩ := f4 k full hc
    obtain ⟨s1, s2⟩ := sub _ m g2
    have hlen : full.length = n := aggregable_len g3.1 s2
    refine ⟨hlen, p, g1, ?_, fun i => ?_⟩
    · have := (dsome (p ++ [k])).1 (by rw [look_of_at g2]; rfl)
      exact this.2
    · have hh := holds_or_iff i m (fun q op ks' h => ⟨(s1 q op ks' h).1, (s1 q op ks' h).2.1⟩)
      have hfull : full[i]? = some true ↔ Holds i m := by
        constructor
        · intro h
          obtain ⟨h1, h2⟩ := List.getElem?_eq_some_iff.1 h
          exact (g3.2 i h1).1 h2
        · intro h
          have hi : i < full.length := by
            obtain ⟨q, d, e1, e2⟩ := hh.1 h
            have := aggregable_leaf s2 e1
            have := (List.getElem?_eq_some_iff.1 e2).1
            omega
          rw [List.getElem?_eq_getElem hi, (g3.2 i hi).2 h]
      rw [hfull, hh]
      have hq : ∀ q, look m q = look (.grp .or ks) (p ++ [k] ++ q) := by
        intro q; rw [look_append, g2]; rfl
      constructor
      · rintro ⟨q, d, e1, e2⟩
        rw [hq, dleaf] at e1
        exact ⟨q, d, fun h => e1.1 (by simp [h]), e1.2, e2⟩
      · rintro ⟨q, d, e1, e2, e3⟩
        refine ⟨q, d, ?_, e3⟩
        rw [hq, dleaf]
        refine ⟨fun h => ?_, e2⟩
        rcases List.mem_append.1 h with h | h
        · exact g1 h
        · exact e1 h
  refine ⟨ks, _, entries, hD, hr, flatEntries_arr entries, restrictAll_ok final entries ?_, f1, ?_, hmem⟩
  · intro p hp
    rw [(hmem p.1 p.2 hp).1, hf]
  · intro k
    have h3 := f3 k
    rw [child_grp] at h3
    rw [← hfst]
    have : (Dict.get? (entries.map (fun q => (q.1, Mask.arr q.2))) k).isSome ↔
        k ∈ (entries.map (fun q => (q.1, Mask.arr q.2))).map Prod.fst := by
      rw [← not_iff_not, Option.not_isSome_iff_eq_none, Dict.get?_eq_none_iff]
      rfl
    rw [← this, h3]
    constructor
    · rintro ⟨p, h1, h2⟩
      obtain ⟨m, hm⟩ := Option.isSome_iff_exists.1 h2
      exact ⟨p, h1, ((dsome (p ++ [k])).1 (by rw [look_of_at hm]; rfl)).2⟩
    · rintro ⟨p, h1, h2⟩
      refine ⟨p, h1, ?_⟩
      have := (dsome (p ++ [k])).2 ⟨h1, h2⟩
      obtain ⟨c, hc⟩ := Option.isSome_iff_exists.1 this
      obtain ⟨m, hm, -⟩ := at_of_look hc
      rw [hm]; rfl

end Gcl
