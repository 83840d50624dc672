import Verif.Props.Adj
import Verif.Props.Partition
/-! # C33, C52: the general statements, without the conditions of `C33_nodes` and `C52_frame` -/
namespace Gcl
set_option autoImplicit false
open Spec

/-- The absolute value in the 32-bit arithmetic of the ids: the lowest integer is its own. -/
def Spec.magnitude32 (v : Int) : Int := if v = -2147483648 then v else |v|

theorem absWrap_magnitude (v : Int) : absWrap 32 v = magnitude32 v := by
  unfold magnitude32
  by_cases h : v = -2147483648
  · subst h; rfl
  · rw [if_neg h]; exact absWrap32 v (by simpa [minI32] using h)

/-- `nodes` for one permutation, any ids. -/
theorem nodesWith_any (es : List (Int × Int)) (perm : List Nat)
    (hp : IsArgsort ((npUnique (flatIds es)).map (absWrap 32)) perm) :
    (∀ v, v ∈ nodesWith perm es ↔ IsVertex es v) ∧ (nodesWith perm es).Nodup ∧
    (nodesWith perm es).Pairwise (fun u v => magnitude32 u ≤ magnitude32 v) := by
  obtain ⟨hperm, hsort⟩ := hp
  rw [List.length_map] at hperm
  have hpm : (nodesWith perm es).Perm (vs es) := by
    unfold nodesWith gather
    have h1 := hperm.filterMap (fun i => (vs es)[i]?)
    have h2 : (List.range (vs es).length).filterMap (fun i => (vs es)[i]?) = vs es := by
      generalize vs es = l
      apply List.map_injective_iff.2 (Option.some_injective _)
      have := gather_map_some l (List.range l.length) (by simp)
      unfold gather at this
      rw [this]
      apply List.ext_getElem?
      intro i
      by_cases hi : i < l.length
      · simp [hi]
      · rw [List.getElem?_eq_none (by simpa using hi), List.getElem?_eq_none (by simpa using hi)]
    rw [h2] at h1
    exact h1
  refine ⟨fun v => by rw [hpm.mem_iff, (vs_vertexList es).2], hpm.nodup_iff.2 (npUnique_nodup _), ?_⟩
  have hmap : perm.filterMap (fun i => ((npUnique (flatIds es)).map (absWrap 32))[i]?) =
      (nodesWith perm es).map (absWrap 32) := by
    unfold nodesWith gather
    rw [List.map_filterMap]
    congr 1
    funext i
    simp
  rw [hmap, List.pairwise_map] at hsort
  refine hsort.imp ?_
  intro u v h
  rwa [absWrap_magnitude, absWrap_magnitude] at h

/-- **C33** For every adjacency list, the lowest 32-bit integer among its ids included: `nodes` contains exactly the
vertex ids, each once, ordered by magnitude, the lowest integer counting as its own magnitude. -/
theorem C33_any (argsort : List Int → List Nat) (hsort : ∀ keys, IsArgsort keys (argsort keys))
    (es : List (Int × Int)) :
    (∀ v, v ∈ nodes argsort es ↔ IsVertex es v) ∧ (nodes argsort es).Nodup ∧
    (nodes argsort es).Pairwise (fun u v => magnitude32 u ≤ magnitude32 v) :=
  nodesWith_any es _ (hsort _)

/-- **C33** The condition of `C33_nodes` is needed: if the lowest 32-bit integer is among the ids it comes first, before
ids of smaller absolute value. -/
theorem C33_false (argsort : List Int → List Nat) (hsort : ∀ keys, IsArgsort keys (argsort keys))
    (es : List (Int × Int)) (h : IsVertex es (-2147483648)) :
    (nodes argsort es).head? = some (-2147483648) := by
  obtain ⟨hm, -, hp⟩ := C33_any argsort hsort es
  have hin := (hm _).2 h
  cases hl : nodes argsort es with
  | nil => rw [hl] at hin; simp at hin
  | cons a l =>
    rw [hl] at hin hp
    rcases List.mem_cons.1 hin with h0 | h0
    · rw [h0]; rfl
    · have := (List.pairwise_cons.1 hp).1 _ h0
      simp only [magnitude32, if_true] at this
      split at this
      · rename_i h1; rw [h1]; rfl
      · have := abs_nonneg a; omega

example : IsVertex [(-2147483648, 1), (1, 2)] (-2147483648) := ⟨(-2147483648, 1), by simp, Or.inl rfl⟩
example : IsArgsort ((npUnique (flatIds [(-2147483648, 1), (1, 2)])).map (absWrap 32)) [0, 1, 2] := ⟨by decide, by decide⟩
example : nodesWith [0, 1, 2] [(-2147483648, 1), (1, 2)] = [-2147483648, 1, 2] := by decide

/-! ## C52 -/

theorem leafSteps_frame {M R : Type} [LinearOrder R] {dist : M → M → R} {pmu : List M} {final : List Bool}
    {es : List (Int × Int)} {vs : List Int} {d d' : List Bool} (h : LeafSteps dist pmu final es vs d d') :
    d'.length = d.length ∧ (∀ i : Nat, (∀ v ∈ vs, ¬ HadronOf es final v i) → d'[i]? = d[i]?) ∧
    ((∀ v ∈ vs, ¬ Incident es v d) → d' = d) := by
  induction h with
  | nil => exact ⟨rfl, fun _ _ => rfl, fun _ => rfl⟩
  | cons hs _ ih =>
    obtain ⟨h1, h2, h3⟩ := ih
    refine ⟨h1.trans hs.len, fun i hi => ?_, fun hi => ?_⟩
    · rw [h2 i (fun v hv => hi v (by simp [hv])), hs.same i (fun hc => hi _ (by simp) hc.1)]
    · have he : _ = _ := List.ext_getElem? (fun i => hs.same i (fun hc => hi _ (by simp) hc.2))
      rw [← he]
      exact h3 (fun v hv => by rw [he]; exact hi v (by simp [hv]))

/-- **C52** For every event at all, final particles entering hadronisation vertices included, and groups of every kind
below a top level of `or`: `partition_descendants` keeps all groups, keys and lengths and the `latent` masks; it changes
no entry of a mask except at final particles descending from a hadronisation vertex which some particle of the tree
enters, and changes no mask at all that is incident on none of those vertices. -/
theorem C52_any {M R : Type} [LinearOrder R] (dist : M → M → R) (pmu : List M) (final : List Bool)
    (status : List Int) (es : List (Int × Int)) (hier : Dict Mask) (hp : pmu.length = es.length)
    (hf : final.length = es.length) (hs : status.length = es.length)
    (hagg : Aggregable es.length (.grp .or hier)) :
    ∃ out, partitionDescendants dist pmu final status es hier = .ok out ∧
      ∀ path,
        (look (.grp .or hier) path = none → look (.grp .or out) path = none) ∧
        (∀ op ks, look (.grp .or hier) path = some (.group op ks) →
          look (.grp .or out) path = some (.group op ks)) ∧
        (∀ d, look (.grp .or hier) path = some (.leaf d) →
          ∃ d', look (.grp .or out) path = some (.leaf d') ∧ d'.length = d.length ∧
            (¬ LeafPath path → d' = d) ∧
            ((∀ v, HadronVertex es status v → ¬ Incident es v d) → d' = d) ∧
            ∀ i : Nat, (¬ ∃ v, HadronVertex es status v ∧ HadronOf es final v i ∧
                ∃ p : Nat, Enters es v p ∧ Holds p (.grp .or hier)) → d'[i]? = d[i]?) := by
  obtain ⟨vs, out, ho, -, hv, hm, -⟩ := C51_any dist pmu final status es hier hp hf hs hagg
  refine ⟨out, ho, fun path => ⟨(hm path).1, (hm path).2.1, fun d hd => ?_⟩⟩
  obtain ⟨d', h1, h2, h3⟩ := (hm path).2.2 d hd
  by_cases hE : LeafPath path
  · obtain ⟨g1, g2, g3⟩ := leafSteps_frame (h2 hE)
    refine ⟨d', h1, g1, fun h => absurd hE h, fun h => g3 (fun v hv' => h v ((hv v).1 hv').1), fun i hi => g2 i ?_⟩
    intro v hv' hh
    exact hi ⟨v, ((hv v).1 hv').1, hh, ((hv v).1 hv').2⟩
  · have := h3 hE
    subst this
    exact ⟨_, h1, rfl, fun _ => rfl, fun _ => rfl, fun _ _ => rfl⟩

end Gcl
