import Verif.Lemmas.PartitionMem
import Verif.Lemmas.Edits
import Verif.Props.Partition
/-! # Property C117: `partition_descendants` gives new buffers to the masks of its own copy only -/
namespace Gcl
set_option autoImplicit false
open Spec

theorem readMask_ok {h : MHeap} {a : Nat} {m : Mask} (hs : ShowsMask h a m) :
    ∃ N, ∀ fuel, N ≤ fuel → readMask fuel h a = .ok m := by
  induction hs with
  | @arr a b d e1 e2 =>
    refine ⟨1, fun fuel hf => ?_⟩
    obtain ⟨f, rfl⟩ : ∃ f, fuel = f + 1 := ⟨fuel - 1, by omega⟩
    simp only [readMask, e1, e2]
  | @grp a op es ks e1 e2 e3 ih =>
    obtain ⟨N, hN⟩ := exists_uniform (es.zip ks) (fun fuel p => readMask fuel h p.1.2 = .ok p.2.2) (by
        intro p hp
        obtain ⟨i, hi⟩ := List.mem_iff_getElem?.1 hp
        obtain ⟨hi1, hi2⟩ := List.getElem?_zip_eq_some.1 hi
        exact ih i p.1 p.2 hi1 hi2)
    refine ⟨N + 1, fun fuel hf => ?_⟩
    obtain ⟨f, rfl⟩ : ∃ f, fuel = f + 1 := ⟨fuel - 1, by omega⟩
    have hfa : List.Forall₂ (fun (e : String × Nat) (k : String × Mask) => e.1 = k.1 ∧
        readMask f h e.2 = .ok k.2) es ks := by
      refine (corresponds_iff (fun e m => readMask f h e = .ok m) es ks).1 ⟨e2, fun i e k he hk => ?_⟩
      exact hN f (by omega) (e, k) (List.mem_iff_getElem?.2 ⟨i, List.getElem?_zip_eq_some.2 ⟨he, hk⟩⟩)
    simp only [readMask, e1, readKids_forall2 _ _ _ hfa]

variable {M R : Type} [LT R] [DecidableLT R]

theorem partitionLeafH_ok (dist : M → M → R) (pmu : List M) (final : List Bool) (es : List (Int × Int)) (v : Int)
    (pclsIn vtxDesc : List Bool) :
    ActOK (partitionLeafH dist pmu final es v pclsIn vtxDesc) (partitionLeaf dist pmu final es v pclsIn vtxDesc) := by
  intro h a b d h1 h2
  have ha := (List.getElem?_eq_some_iff.1 h1).1
  have hb := (List.getElem?_eq_some_iff.1 h2).1
  have hr : readMaskArr h a = .ok d := by simp only [readMaskArr, h1, h2]
  simp only [partitionLeafH, hr, partitionLeaf]
  cases hk : (Key.mask d).apply (es.map (fun e => e.2)) with
  | error e => exact ⟨writesIn_refl _ _, fun e' he => (by cases he; rfl), fun d' hd => (by cases hd)⟩
  | ok dsts =>
    simp only
    by_cases hc : dsts.contains v = true
    · rw [if_pos hc, if_pos hc]
      cases hp : partitionVertex dist pmu final pclsIn vtxDesc d with
      | error e =>
        refine ⟨⟨by simp, fun i hi _ => List.getElem?_append_left hi⟩, fun e' he => (by cases he; rfl),
          fun d' hd => (by cases hd)⟩
      | ok d1 =>
        refine ⟨⟨by simp, fun i hi hn => ?_⟩, fun e' he => (by cases he), fun d' hd => ?_⟩
        · simp only [List.mem_cons, List.not_mem_nil, or_false, not_or] at hn
          rw [List.getElem?_set_ne (Ne.symm hn.1)]
          exact List.getElem?_append_left hi
        · cases hd
          refine ⟨rfl, h.length, ?_, ?_, .inr (le_refl _)⟩
          · rw [List.getElem?_set_self (by simp; omega)]
          · rw [List.getElem?_set_ne (by omega), List.getElem?_append_right (le_refl _)]
            simp
    · rw [if_neg hc, if_neg hc]
      refine ⟨writesIn_refl _ _, fun e' he => (by cases he), fun d' hd => ?_⟩
      cases hd
      exact ⟨rfl, b, h1, h2, .inl rfl⟩

theorem partitionLoopH_ok (dist : M → M → R) (pmu : List M) (final : List Bool) (es : List (Int × Int)) (n : Nat)
    (entries : List (String × Nat)) (vps : List (Int × List Bool)) (h : MHeap) (ks : List (String × Mask))
    (F : List Nat) (hk : OwnedKids (Owned n h) ks entries F) :
    VisitKidsOK n h entries F (partitionLoop dist pmu final es vps ks)
      (partitionLoopH dist pmu final es n entries h vps) := by
  induction vps generalizing h ks F with
  | nil =>
    refine ⟨writesIn_refl _ _, fun e he => (by cases he), fun ks' hks => ?_⟩
    cases hks
    exact ⟨rfl, F, hk, fun i hi => .inl hi⟩
  | cons p vps ih =>
    obtain ⟨v, pclsIn⟩ := p
    simp only [partitionLoop, partitionLoopH]
    cases hv : vertexDescendants es v with
    | error e => exact ⟨writesIn_refl _ _, fun e' he => (by cases he; rfl), fun d' hd => (by cases hd)⟩
    | ok vtxDesc =>
      simp only
      obtain ⟨w1, e1, o1⟩ := walkTopH_ok (partitionLeafH_ok dist pmu final es v pclsIn vtxDesc) ks h entries F hk
      cases hm : mapTop (partitionLeaf dist pmu final es v pclsIn vtxDesc) ks with
      | error e =>
        have := e1 e hm
        revert this w1
        generalize walkTopH _ h entries = got
        obtain ⟨h', r⟩ := got
        intro w1 this
        simp only at this w1
        subst this
        exact ⟨w1, fun e' he => (by cases he; rfl), fun d' hd => (by cases hd)⟩
      | ok ks' =>
        obtain ⟨hr, F', ho, hs⟩ := o1 ks' hm
        revert hr ho w1
        generalize walkTopH _ h entries = got
        obtain ⟨h', r⟩ := got
        intro w1 hr ho
        simp only at hr w1 ho
        subst hr
        obtain ⟨w2, e2, o2⟩ := ih h' ks' F' ho
        refine ⟨⟨w1.1.trans w2.1, fun i hi hn => ?_⟩, e2, fun out ho' => ?_⟩
        · rw [w2.2 i (lt_of_lt_of_le hi w1.1) ?_, w1.2 i hi hn]
          intro hh
          rcases hs i hh with hh | hh
          · exact hn hh
          · omega
        · obtain ⟨hr2, F2, o3, s3⟩ := o2 out ho'
          refine ⟨hr2, F2, o3, fun i hi => ?_⟩
          rcases s3 i hi with hh | hh
          · exact hs i hh
          · exact .inr (w1.1.trans hh)

theorem showsMask_det {h : MHeap} {a : Nat} {m : Mask} (hs : ShowsMask h a m) : ∀ m', ShowsMask h a m' → m' = m := by
  induction hs with
  | @arr a b d e1 e2 =>
    intro m' hm'
    cases hm' with
    | arr f1 f2 =>
      rw [e1] at f1
      cases f1
      rw [e2] at f2
      cases f2
      rfl
    | grp f1 => rw [e1] at f1; cases f1
  | @grp a op es ks e1 e2 e3 ih =>
    intro m' hm'
    cases hm' with
    | arr f1 => rw [e1] at f1; cases f1
    | @grp _ op' es' ks' f1 f2 f3 =>
      rw [e1] at f1
      cases f1
      have hl : ks'.length = ks.length := by
        have := congrArg List.length (f2.trans e2.symm)
        simpa using this
      have hl2 : es.length = ks.length := by
        have := congrArg List.length e2
        simpa using this.symm
      congr 1
      refine List.ext_getElem hl (fun i h1 h2 => ?_)
      have g1 : ks'[i].1 = ks[i].1 := by
        have := congrArg (fun l => l[i]?) (f2.trans e2.symm)
        simp only [List.getElem?_map, List.getElem?_eq_getElem h1, List.getElem?_eq_getElem h2, Option.map_some,
          Option.some.injEq] at this
        exact this
      have g2 := ih i es[i] ks[i] (List.getElem?_eq_getElem (by omega)) (List.getElem?_eq_getElem h2) ks'[i].2
        (f3 i es[i] ks'[i] (List.getElem?_eq_getElem (by omega)) (List.getElem?_eq_getElem h1))
      exact Prod.ext g1 g2

/-- As `C117_partition`, with the footprint of the result. -/
theorem partition_owned (dist : M → M → R) (pmu : List M) (final : List Bool) (status : List Int)
    (es : List (Int × Int)) (h : MHeap) (a : Nat) (op : Agg) (ks : Dict Mask) (hs : ShowsMask h a (.grp op ks)) :
    (∀ (fuel x : Nat), x < h.length → (partitionDescendantsH dist pmu final status es fuel h a).1[x]? = h[x]?) ∧
    (∀ (fuel b : Nat), (partitionDescendantsH dist pmu final status es fuel h a).2 = .ok b →
      ∃ out F, partitionDescendants dist pmu final status es ks = .ok out ∧
        Owned (depth (.grp op out)) (partitionDescendantsH dist pmu final status es fuel h a).1 (.grp op out) b F ∧
        ∀ x ∈ F, h.length ≤ x) ∧
    ∃ N, ∀ fuel, N ≤ fuel →
      let r := partitionDescendantsH dist pmu final status es fuel h a
      match partitionDescendants dist pmu final status es ks with
      | .error e => r.2 = .error e
      | .ok out => ∃ b F, r.2 = .ok b ∧ Owned (depth (.grp op out)) r.1 (.grp op out) b F ∧ ∀ x ∈ F, h.length ≤ x := by
  have key : ∀ (fuel : Nat) (vps : List (Int × List Bool)),
      let r := partitionCopyH dist pmu final es fuel h a vps
      (∀ x : Nat, x < h.length → r.1[x]? = h[x]?) ∧
      ∀ h1 b, copyObj (fuel + 1) h a = .ok (h1, b) →
        (∀ e, partitionLoop dist pmu final es vps ks = .error e → r.2 = .error e) ∧
        ∀ out, partitionLoop dist pmu final es vps ks = .ok out →
          ∃ b F, r.2 = .ok b ∧ Owned (depth (.grp op out)) r.1 (.grp op out) b F ∧ ∀ x ∈ F, h.length ≤ x := by
    intro fuel vps
    simp only [partitionCopyH]
    cases hc : copyObj (fuel + 1) h a with
    | error e => exact ⟨fun _ _ => rfl, fun h1 b hh => (by cases hh)⟩
    | ok r =>
      obtain ⟨h1, b⟩ := r
      obtain ⟨⟨t, ht⟩, q⟩ := copyObj_owned _ _ _ _ _ hc
      obtain ⟨F, ho, hl⟩ := q _ hs
      obtain ⟨entries, G, g1, rfl, g2, g3⟩ := ho
      have hlen : h.length ≤ h1.length := by rw [← ht]; simp
      have hbl := (List.getElem?_eq_some_iff.1 g1).1
      simp only [g1]
      obtain ⟨w, he, hok⟩ := partitionLoopH_ok dist pmu final es fuel entries vps h1 ks G g3
      revert w he hok
      generalize partitionLoopH dist pmu final es fuel entries h1 vps = got
      obtain ⟨h2, r⟩ := got
      intro w he hok
      simp only at w he hok
      have hfr : ∀ x : Nat, x < h.length → h2[x]? = h[x]? := by
        intro x hx
        rw [w.2 x (by omega) (fun hg => ?_), ← ht, List.getElem?_append_left hx]
        have := hl x (List.mem_cons_of_mem _ hg)
        omega
      have hfst : ∀ x : Nat, x < h.length → (match (h2, r) with
          | (h2, Except.error e) => (h2, (Except.error e : Py Nat))
          | (h2, Except.ok ()) => (h2, Except.ok b)).1[x]? = h[x]? := by
        intro x hx
        cases r with
        | error e => exact hfr x hx
        | ok u => exact hfr x hx
      refine ⟨hfst, ?_⟩
      intro h1' b' hh
      cases hh
      refine ⟨fun e hpe => ?_, fun out hpo => ?_⟩
      · have := he e hpe
        subst this
        rfl
      · obtain ⟨hr, F', o, s⟩ := hok out hpo
        subst hr
        have hown : Owned (fuel + 1) h2 (.grp op out) b (b :: F') := by
          refine ⟨entries, F', ?_, rfl, ?_, o⟩
          · rw [w.2 b hbl g2]; exact g1
          · intro hh
            rcases s b hh with hh | hh
            · exact g2 hh
            · omega
        refine ⟨b, _, rfl, owned_depth _ hown, fun x hx => ?_⟩
        rcases List.mem_cons.1 hx with rfl | hx
        · exact hl _ (by simp)
        · rcases s x hx with hh | hh
          · exact hl x (List.mem_cons_of_mem _ hh)
          · omega
  refine ⟨fun fuel x hx => ?_, fun fuel b hb => ?_, ?_⟩
  · unfold partitionDescendantsH
    split
    · rfl
    · rfl
    · split
      · rfl
      · split
        · rfl
        · split
          · rfl
          · exact (key fuel _).1 x hx
  · revert hb
    simp only [partitionDescendantsH, partitionDescendants]
    cases hrd : readMask (fuel + 1) h a with
    | error e => intro hb; cases hb
    | ok m =>
      obtain rfl := showsMask_det hs m (readMask_shows _ _ _ _ hrd)
      simp only
      cases groupOr ks with
      | error e => intro hb; cases hb
      | ok fromHard =>
        simp only
        cases hadronVertices es status with
        | error e => intro hb; cases hb
        | ok vtxs =>
          simp only
          cases hadronVtxPartons es fromHard vtxs with
          | error e => intro hb; cases hb
          | ok vps =>
            simp only
            intro hb
            cases hc : copyObj (fuel + 1) h a with
            | error e => rw [partitionCopyH, hc] at hb; cases hb
            | ok r =>
              obtain ⟨k1, k2⟩ := (key fuel vps).2 r.1 r.2 hc
              cases hp : partitionLoop dist pmu final es vps ks with
              | error e => rw [k1 e hp] at hb; cases hb
              | ok out =>
                obtain ⟨b', F, q1, q2⟩ := k2 out hp
                rw [hb] at q1
                cases q1
                exact ⟨out, F, rfl, q2⟩
  · obtain ⟨N1, hN1⟩ := readMask_ok hs
    obtain ⟨N2, hN2⟩ := copyObj_shows hs
    refine ⟨max N1 N2, fun fuel hf => ?_⟩
    have hrd := hN1 (fuel + 1) (by omega)
    obtain ⟨h1, b, hcp, _⟩ := hN2 (fuel + 1) (by omega) h (List.prefix_refl _)
    simp only [partitionDescendantsH, hrd, partitionDescendants]
    cases groupOr ks with
    | error e => rfl
    | ok fromHard =>
      simp only
      cases hadronVertices es status with
      | error e => rfl
      | ok vtxs =>
        simp only
        cases hadronVtxPartons es fromHard vtxs with
        | error e => rfl
        | ok vps =>
          simp only
          obtain ⟨k1, k2⟩ := (key fuel vps).2 h1 b hcp
          cases hp : partitionLoop dist pmu final es vps ks with
          | error e => exact k1 e hp
          | ok out => exact k2 out hp

/-- **C117** A single mask in the place of the tree has no `bitwise_or`: `AttributeError`, and nothing in memory
changes. -/
theorem C117_not_a_group (dist : M → M → R) (pmu : List M) (final : List Bool) (status : List Int)
    (es : List (Int × Int)) (fuel : Nat) (h : MHeap) (a : Nat) (d : List Bool) (hs : ShowsMask h a (.arr d)) :
    partitionDescendantsH dist pmu final status es fuel h a = (h, .error .attributeError) := by
  cases hs with
  | arr h1 h2 => simp [partitionDescendantsH, readMask, h1, h2]
example : ShowsMask [.buf [true, false], .mask 0] 1 (.arr [true, false]) := .arr rfl rfl

/-- **C117** `partition_descendants(graph, hier)` for a tree of masks anywhere in memory, with any sharing between its
objects, and every event: the call assigns new buffers to masks, but all objects that existed before hold afterwards
what they held before, whether it succeeds or raises; given enough recursion depth, it raises exactly when, and what,
the computation on values raises; and otherwise the group returned shows the tree computed on values, its `agg_op` is
that of `hier`, and it shares no object with anything that existed before. -/
theorem C117_partition (dist : M → M → R) (pmu : List M) (final : List Bool) (status : List Int)
    (es : List (Int × Int)) (h : MHeap) (a : Nat) (op : Agg) (ks : Dict Mask) (hs : ShowsMask h a (.grp op ks)) :
    (∀ (fuel x : Nat), x < h.length → (partitionDescendantsH dist pmu final status es fuel h a).1[x]? = h[x]?) ∧
    ∃ N, ∀ fuel, N ≤ fuel →
      let r := partitionDescendantsH dist pmu final status es fuel h a
      match partitionDescendants dist pmu final status es ks with
      | .error e => r.2 = .error e
      | .ok out => ∃ b, r.2 = .ok b ∧ ShowsMask r.1 b (.grp op out) ∧ ∀ x, Reaches r.1 b x → h.length ≤ x := by
  obtain ⟨h1, -, N, h2⟩ := partition_owned dist pmu final status es h a op ks hs
  refine ⟨h1, N, fun fuel hf => ?_⟩
  have := h2 fuel hf
  simp only at this ⊢
  cases hp : partitionDescendants dist pmu final status es ks with
  | error e => rw [hp] at this; exact this
  | ok out =>
    rw [hp] at this
    obtain ⟨b, F, e1, e2, e3⟩ := this
    exact ⟨b, e1, owned_shows e2, fun x hx => e3 x (owned_reaches e2 x hx)⟩

/-! ## A concrete case -/
section Example

/-- The tree of the example in Props/Partition.lean, in memory. -/
def exPMem : MHeap := (allocMask (.grp .or exPHier) []).1

example : ShowsMask exPMem 7 (.grp .or exPHier) := readMask_shows 3 _ _ _ rfl

/-- Two names for one mask object: both leaves of the copy are assigned separately, the given object keeps its
entries. -/
def exPShared : MHeap :=
  [.buf [true, true, false, true, true, true], .mask 0, .group .or [("q", 1), ("r", 1)]]
example : ShowsMask exPShared 2 (.grp .or [("q", .arr [true, true, false, true, true, true]),
    ("r", .arr [true, true, false, true, true, true])]) := readMask_shows 3 _ _ _ rfl
example : ∃ b, (partitionDescendantsH exPDist exPmu exPFinal exPStatus exPEdges 5 exPShared 2).2 = .ok b ∧
    readMask 3 (partitionDescendantsH exPDist exPmu exPFinal exPStatus exPEdges 5 exPShared 2).1 b =
      .ok (.grp .or [("q", .arr [true, true, false, true, false, true]),
        ("r", .arr [true, true, false, true, false, true])]) ∧
    (partitionDescendantsH exPDist exPmu exPFinal exPStatus exPEdges 5 exPShared 2).1.take 3 = exPShared :=
  ⟨_, rfl, rfl, rfl⟩
end Example

end Gcl
