import Verif.Lemmas.ClustersMem
import Verif.Props.HierMem
import Verif.Props.PartitionMem
import Verif.Props.Clusters
import Verif.Props.Heap
/-! # Property C120: `clusters` overwrites and removes only inside its own tree -/
namespace Gcl
set_option autoImplicit false
open Spec

/-! ## The names in the tree -/

/-- The members have different names, at every level. -/
def GoodKids (ks : Dict Mask) : Prop := (Dict.keys ks).Nodup ∧ ∀ k m, (k, m) ∈ ks → UniqueKeys m

theorem mem_set_pair {α : Type} (d : Dict α) (k : String) (v : α) (p : String × α) (hp : p ∈ Dict.set d k v) :
    p ∈ d ∨ p = (k, v) := by
  induction d with
  | nil => exact .inr (by simpa [Dict.set] using hp)
  | cons q d ih =>
    rw [Dict.set] at hp
    split at hp
    · rcases List.mem_cons.1 hp with c | c
      · exact .inr c
      · exact .inl (List.mem_cons_of_mem _ c)
    · rcases List.mem_cons.1 hp with c | c
      · exact .inl (by rw [c]; exact List.mem_cons_self)
      · rcases ih c with c | c
        · exact .inl (List.mem_cons_of_mem _ c)
        · exact .inr c

theorem GoodKids.set {ks : Dict Mask} (h : GoodKids ks) (k : String) {m : Mask} (hm : UniqueKeys m) :
    GoodKids (Dict.set ks k m) := by
  refine ⟨Dict.nodup_keys_set h.1 _ _, fun k' m' hm' => ?_⟩
  rcases mem_dict_set ks k m (k', m') hm' with c | c
  · exact h.2 k' m' c
  · cases c; exact hm

theorem buildBranch_good {f : String → Py Mask} (hf : ∀ x m, f x = .ok m → UniqueKeys m) (xs : List String)
    (acc out : Dict Mask) (ha : GoodKids acc) (h : buildBranch f acc xs = .ok out) : GoodKids out := by
  induction xs generalizing acc with
  | nil => cases h; exact ha
  | cons x xs ih =>
    rw [buildBranch] at h
    split at h
    · cases h
    · next m hm => exact ih _ (ha.set x (hf x m hm)) h

theorem leafEntry_unique (es : List (Int × Int)) (desc : Dict (List Bool)) (x : String) (m : Mask)
    (h : leafEntry es desc x = .ok m) : UniqueKeys m := by
  unfold leafEntry at h
  split at h
  · cases h
  · split at h
    · cases h
    · cases h
    · simp only at h
      split at h
      · split at h
        · cases h
        · cases h; exact uniqueKeys_arr _
      · cases h; exact uniqueKeys_arr _

theorem addLatent_unique (desc : Dict (List Bool)) (key : String) (sub : Dict Mask) (hs : GoodKids sub) (m : Mask)
    (h : addLatent desc key sub = .ok m) : UniqueKeys m := by
  unfold addLatent at h
  split at h
  · cases h
  · split at h
    · cases h
    · split at h
      · cases h
      · next l _ =>
        cases h
        have := hs.set "latent" (uniqueKeys_arr l)
        exact uniqueKeys_grp this.1 this.2

theorem makeTree_good (hard : Dict (List String)) (desc : Dict (List Bool)) (es : List (Int × Int)) (fuel : Nat)
    (xs : List String) (out : Dict Mask) (h : makeTree hard desc es fuel xs = .ok out) : GoodKids out := by
  induction fuel generalizing xs out with
  | zero => cases h
  | succ fuel ih =>
    rw [makeTree] at h
    refine buildBranch_good (fun x m hm => ?_) _ _ _ ⟨by simp [Dict.keys], by simp⟩ h
    split at hm
    · split at hm
      · cases hm
      · next sub hs => exact addLatent_unique desc x sub (ih _ _ hs) m hm
    · exact leafEntry_unique es desc x m hm

theorem arrays_good (desc : Dict (List Bool)) (h : (Dict.keys desc).Nodup) :
    GoodKids (desc.map (fun p => (p.1, Mask.arr p.2))) := by
  refine ⟨?_, fun k m hm => ?_⟩
  · have : Dict.keys (desc.map (fun p => (p.1, Mask.arr p.2))) = Dict.keys desc := by
      simp [Dict.keys]
    rw [this]; exact h
  · obtain ⟨p, -, hp⟩ := List.mem_map.1 hm
    cases hp
    exact uniqueKeys_arr _

theorem hierarchy_good (nm : Int → String) (pdg status : List Int) (final : List Bool) (es : List (Int × Int))
    (out : Dict Mask) (h : hierarchy nm pdg status final es none = .ok out) : GoodKids out := by
  unfold hierarchy at h
  split at h
  · cases h
  · split at h
    · cases h
    · split at h
      · cases h
      · simp only at h
        split at h
        · cases h
        · next desc hd =>
          split at h
          · cases h
          · split at h
            · cases h
            · split at h
              · cases h
                refine arrays_good desc ?_
                unfold hardDescendants at hd
                split at hd
                · cases hd
                · split at hd
                  · cases hd
                  · split at hd
                    · cases hd
                    · split at hd
                      · cases hd
                      · simp only at hd
                        split at hd
                        · cases hd
                        · rw [markAll_keys _ _ _ hd]
                          exact Dict.nodup_keys_ofPairs _
              · unfold hierarchyTree at h
                split at h
                · cases h
                · split at h
                  · cases h
                  · split at h
                    · cases h
                    · split at h
                      · cases h
                      · split at h
                        · cases h
                        · rw [makeTreeTop] at h
                          refine buildBranch_good (fun x m hm => ?_) _ _ _ ⟨by simp [Dict.keys], by simp⟩ h
                          split at hm
                          · split at hm
                            · cases hm
                            · next sub hs => exact addLatent_unique _ x sub (makeTree_good _ _ _ _ _ _ hs) m hm
                          · cases hm

mutual
theorem mapLeaves_unique (f : List Bool → Py (List Bool)) : ∀ (m m' : Mask), UniqueKeys m → m.mapLeaves f = .ok m' →
    UniqueKeys m'
  | .arr d, m', _, h => by
    rw [Mask.mapLeaves] at h
    split at h
    · cases h
    · cases h; exact uniqueKeys_arr _
  | .grp op ks, m', hu, h => by
    rw [Mask.mapLeaves] at h
    split at h
    · cases h
    · next ks' hk =>
      cases h
      obtain ⟨h1, h2⟩ := mapLeavesKids_unique f ks ks' (fun k m hm => hu.kid hm) hk
      exact uniqueKeys_grp (by rw [h1]; exact hu.keys) h2
termination_by structural m => m
theorem mapLeavesKids_unique (f : List Bool → Py (List Bool)) : ∀ (ks ks' : List (String × Mask)),
    (∀ k m, (k, m) ∈ ks → UniqueKeys m) → Mask.mapLeavesKids f ks = .ok ks' →
    Dict.keys ks' = Dict.keys ks ∧ ∀ k m, (k, m) ∈ ks' → UniqueKeys m
  | [], ks', _, h => by cases h; exact ⟨rfl, by simp⟩
  | (k, m) :: rest, ks', hu, h => by
    rw [Mask.mapLeavesKids] at h
    split at h
    · cases h
    · next m' hm =>
      split at h
      · cases h
      · next rest' hr =>
        cases h
        obtain ⟨h1, h2⟩ := mapLeavesKids_unique f rest rest' (fun k m hm => hu k m (by simp [hm])) hr
        refine ⟨by simp only [Dict.keys, List.map_cons] at h1 ⊢; rw [h1], fun k' x hx => ?_⟩
        rcases List.mem_cons.1 hx with c | c
        · cases c
          split at hm
          · cases hm; exact hu k _ (by simp)
          · exact mapLeaves_unique f m _ (hu k m (by simp)) hm
        · exact h2 k' x c
termination_by structural ks => ks
end

theorem mapTop_good (f : List Bool → Py (List Bool)) (ks ks' : Dict Mask)
    (hu : ∀ k m, (k, m) ∈ ks → UniqueKeys m) (h : mapTop f ks = .ok ks') :
    Dict.keys ks' = Dict.keys ks ∧ ∀ k m, (k, m) ∈ ks' → UniqueKeys m := by
  induction ks generalizing ks' with
  | nil => cases h; exact ⟨rfl, by simp⟩
  | cons p ks ih =>
    obtain ⟨k, m⟩ := p
    rw [mapTop] at h
    split at h
    · cases h
    · next m' hm =>
      split at h
      · cases h
      · next rest' hr =>
        cases h
        obtain ⟨h1, h2⟩ := ih rest' (fun k m hm => hu k m (by simp [hm])) hr
        refine ⟨by simp only [Dict.keys, List.map_cons] at h1 ⊢; rw [h1], fun k' x hx => ?_⟩
        rcases List.mem_cons.1 hx with c | c
        · cases c
          exact mapLeaves_unique f m _ (hu k m (by simp)) hm
        · exact h2 k' x c

theorem partition_good {M R : Type} [LT R] [DecidableLT R] (dist : M → M → R) (pmu : List M) (final : List Bool)
    (status : List Int) (es : List (Int × Int)) (ks out : Dict Mask) (hg : GoodKids ks)
    (h : partitionDescendants dist pmu final status es ks = .ok out) : GoodKids out := by
  unfold partitionDescendants at h
  split at h
  · cases h
  · split at h
    · cases h
    · split at h
      · cases h
      · next vps _ =>
        clear * - hg h
        induction vps generalizing ks with
        | nil => cases h; exact hg
        | cons p vps ih =>
          obtain ⟨v, pcls⟩ := p
          rw [partitionLoop] at h
          split at h
          · cases h
          · split at h
            · cases h
            · next ks' hm =>
              obtain ⟨h1, h2⟩ := mapTop_good _ ks ks' hg.2 hm
              exact ih ks' ⟨by rw [h1]; exact hg.1, h2⟩ h

/-! ## Removing members, whatever the recursion depth -/

/-- Objects in `T` refer to objects in `T`. -/
def Inside (T : Nat → Prop) (h : MHeap) : Prop := ∀ (x : Nat) (o : HObj), T x → h[x]? = some o → ∀ y ∈ refs o, T y

theorem dropKidsH_inside {T : Nat → Prop} {dr : MHeap → Nat → MHeap × Py Unit}
    (hdr : ∀ h a, Inside T h → T a → Inside T (dr h a).1 ∧ (dr h a).1.length = h.length ∧
      ∀ x : Nat, ¬ T x → (dr h a).1[x]? = h[x]?)
    (h : MHeap) (vs : List Nat) (hr : Inside T h) (hvs : ∀ v ∈ vs, T v) :
    Inside T (dropKidsH dr h vs).1 ∧ (dropKidsH dr h vs).1.length = h.length ∧
      ∀ x : Nat, ¬ T x → (dropKidsH dr h vs).1[x]? = h[x]? := by
  induction vs generalizing h with
  | nil => exact ⟨hr, rfl, fun _ _ => rfl⟩
  | cons v vs ih =>
    have hvs' : ∀ w ∈ vs, T w := fun w hw => hvs w (by simp [hw])
    rw [dropKidsH]
    split
    · have hd := hdr h v hr (hvs v (by simp))
      split
      · next h1 hh =>
        rw [hh] at hd
        obtain ⟨i1, i2, i3⟩ := ih h1 hd.1 hvs'
        exact ⟨i1, i2.trans hd.2.1, fun x hx => (i3 x hx).trans (hd.2.2 x hx)⟩
      · next h1 e hh => rw [hh] at hd; exact hd
    · exact ih h hr hvs'

theorem dropInPlace_inside {T : Nat → Prop} (fuel : Nat) (key : String) (h : MHeap) (a : Nat) (hr : Inside T h)
    (ha : T a) : Inside T (dropInPlace fuel key h a).1 ∧ (dropInPlace fuel key h a).1.length = h.length ∧
      ∀ x : Nat, ¬ T x → (dropInPlace fuel key h a).1[x]? = h[x]? := by
  induction fuel generalizing h a with
  | zero => exact ⟨hr, rfl, fun _ _ => rfl⟩
  | succ fuel ih =>
    rw [dropInPlace]
    split
    · next op es hh =>
      have hes : ∀ y ∈ (es.filter (fun p => p.1 != key)).map Prod.snd, T y := by
        intro y hy
        obtain ⟨p, hp, rfl⟩ := List.mem_map.1 hy
        exact hr a _ ha hh _ (List.mem_map.2 ⟨p, (List.mem_filter.1 hp).1, rfl⟩)
      have h1 : Inside T (h.set a (.group op (es.filter (fun p => p.1 != key)))) := by
        intro x o hx ho y hy
        rw [List.getElem?_set] at ho
        split at ho
        · split at ho
          · cases ho; exact hes y hy
          · cases ho
        · exact hr x o hx ho y hy
      obtain ⟨i1, i2, i3⟩ := dropKidsH_inside ih _ _ h1 hes
      refine ⟨i1, by rw [i2]; simp, fun x hx => ?_⟩
      rw [i3 x hx, List.getElem?_set_ne]
      rintro rfl
      exact hx ha
    · exact ⟨hr, rfl, fun _ _ => rfl⟩

/-! ## After partitioning -/

theorem readMask_owned {n : Nat} {h : MHeap} {m : Mask} {a : Nat} {F : List Nat} (ho : Owned n h m a F) {fuel : Nat}
    (hf : n ≤ fuel) : readMask fuel h a = .ok m := by
  induction n generalizing m a F fuel with
  | zero => exact ho.elim
  | succ n ih =>
    obtain ⟨fuel, rfl⟩ : ∃ f, fuel = f + 1 := ⟨fuel - 1, by omega⟩
    cases m with
    | arr d =>
      obtain ⟨b, h1, h2, rfl⟩ := ho
      simp only [readMask, h1, h2]
    | grp op ks =>
      obtain ⟨es, G, h1, rfl, h3, h4⟩ := ho
      have : readKids (readMask fuel h) es = .ok ks := by
        clear h1 h3
        induction ks generalizing es G with
        | nil => obtain ⟨rfl, rfl⟩ := h4; rfl
        | cons p ks ihk =>
          obtain ⟨k, m⟩ := p
          obtain ⟨v, es', F1, F2, rfl, rfl, q3, q4, q5⟩ := h4
          simp only [readKids, ih q3 (show n ≤ fuel by omega), ihk es' F2 q4]
      simp only [readMask, h1, this]

theorem clusterEndH_ok (final : List Bool) (fuel : Nat) (h : MHeap) (a : Nat) :
    (∀ x : Nat, x < h.length → (clusterEndH final fuel h a).1[x]? = h[x]?) ∧
    ∀ op ks, readMask fuel h a = .ok (.grp op ks) →
      match (match flattenRise op ks with
        | .error e => (.error e : Py (Dict (List Bool)))
        | .ok (.arr _) => .error .attributeError
        | .ok (.grp _ flat) =>
          match flatEntries flat with
          | .error e => .error e
          | .ok entries =>
            match restrictAll final entries with
            | .error e => .error e
            | .ok out => .ok (Dict.ofPairs out)) with
      | .error e => (clusterEndH final fuel h a).2 = .error e
      | .ok out => ∃ b, (clusterEndH final fuel h a).2 = .ok b ∧
          ShowsMask (clusterEndH final fuel h a).1 b (.grp .or (out.map (fun p => (p.1, Mask.arr p.2)))) ∧
          ∀ x, Reaches (clusterEndH final fuel h a).1 b x → h.length ≤ x := by
  have alloc : ∀ m : Mask, (∀ x : Nat, x < h.length → (allocMask m h).1[x]? = h[x]?) ∧
      ShowsMask (allocMask m h).1 (allocMask m h).2 m ∧
      ∀ x, Reaches (allocMask m h).1 (allocMask m h).2 x → h.length ≤ x := by
    intro m
    obtain ⟨F, o, l⟩ := allocMask_owned m h
    refine ⟨fun x hx => ?_, owned_shows o, fun x hx => l x (owned_reaches o x hx)⟩
    obtain ⟨t, ht⟩ := (allocMask_extends m h).1.pre
    rw [← ht]
    exact List.getElem?_append_left hx
  constructor
  · intro x hx
    unfold clusterEndH
    split
    · rfl
    · rfl
    · split
      · rfl
      · rfl
      · split
        · rfl
        · split
          · rfl
          · exact (alloc _).1 x hx
  · intro op ks hr
    simp only [clusterEndH, hr]
    cases flattenRise op ks with
    | error e => rfl
    | ok m =>
      cases m with
      | arr d => rfl
      | grp op' flat =>
        simp only
        cases flatEntries flat with
        | error e => rfl
        | ok entries =>
          simp only
          cases restrictAll final entries with
          | error e => rfl
          | ok out => exact ⟨_, rfl, (alloc _).2.1, (alloc _).2.2⟩

theorem clusterRestH_ok (setIter : List String → List String) (tol radius : ℝ) (g : ClusterGraph) (h : MHeap) (a : Nat)
    (ks : Dict Mask) (F : List Nat) (ho : Owned (depth (.grp .or ks)) h (.grp .or ks) a F) (hg : GoodKids ks)
    (base : Nat) (hb : base ≤ h.length) (hF : ∀ x ∈ F, base ≤ x) :
    (∀ fuel x : Nat, x < base → (clusterRestH setIter tol radius g fuel h a).1[x]? = h[x]?) ∧
    ∀ fuel, depth (.grp .or ks) ≤ fuel →
      let r := clusterRestH setIter tol radius g fuel h a
      match clusterRest setIter tol radius g ks with
      | .error e => r.2 = .error e
      | .ok out => ∃ b, r.2 = .ok b ∧ ShowsMask r.1 b (.grp .or (out.map (fun p => (p.1, Mask.arr p.2)))) ∧
          ∀ x, Reaches r.1 b x → base ≤ x := by
  have hu : UniqueKeys (.grp .or ks) := uniqueKeys_grp hg.1 hg.2
  have ho' := ho
  rw [depth] at ho'
  obtain ⟨es, G, h1, hFG, h3, h4⟩ := ho'
  have hnav : ∀ k v, (k, v) ∈ es → navigate h a [k] = some v := by
    intro k v hv
    simp only [navigate, h1]
    rw [Dict.get?_of_mem (by rw [ownedKids_keys h4]; exact hg.1) hv]
  -- the leaves
  have leaves : ∀ fuel refs, leafDictH fuel h [] es = .ok refs →
      DictRel (LeafObj h a (.grp .or ks)) (leafRefDict ks) refs ∧
      ∃ lks ds, leafMasks .or ks = .grp .or lks ∧ flatEntries lks = .ok ds ∧ readAll h refs = .ok ds := by
    intro fuel refs hrefs
    obtain ⟨q1, q2⟩ := (leafDictH_ok (fuel := fuel) (root := a) ks es G h4 hg.2 hnav [] [] [] .nil .nil).1 refs hrefs
    obtain ⟨ds, d1, d2⟩ := readAll_rel q2
    refine ⟨?_, _, ds, rfl, d1, d2⟩
    -- every path leads to a leaf
    have hmem : ∀ k p, (k, p) ∈ leafRefDict ks → ((Mask.grp .or ks).leafAt p).isSome := by
      intro k p hp
      have : ∀ (l : List (String × Mask)) (acc : Dict (List String)), (∀ q ∈ l, q ∈ ks) →
          (∀ k p, (k, p) ∈ acc → (k, p) ∈ allRefs ks) →
          ∀ k p, (k, p) ∈ l.foldl (fun acc p => Dict.update acc (Dict.ofPairs (Mask.leafRefs [p.1] p.1 p.2))) acc →
            (k, p) ∈ allRefs ks := by
        have upd : ∀ (ps : List (String × List String)) (d : Dict (List String)) q,
            q ∈ Dict.update d ps → q ∈ d ∨ q ∈ ps := by
          intro ps
          induction ps with
          | nil => intro d q hq; exact .inl hq
          | cons p ps ih =>
            intro d q hq
            rcases ih _ q hq with c | c
            · rcases mem_set_pair d p.1 p.2 q c with c | c
              · exact .inl c
              · exact .inr (by rw [c]; exact List.mem_cons_self)
            · exact .inr (List.mem_cons_of_mem _ c)
        intro l
        induction l with
        | nil => intro acc _ ha k p hp; exact ha k p hp
        | cons q l ih =>
          intro acc hl ha k p hp
          refine ih _ (fun q hq => hl q (by simp [hq])) ?_ k p hp
          intro k p hkp
          rcases upd _ _ _ hkp with c | c
          · exact ha k p c
          · rcases upd _ [] _ c with c | c
            · cases c
            · exact List.mem_flatMap.2 ⟨q, hl q (by simp), c⟩
      have hall := this ks [] (fun q hq => hq) (by simp) k p hp
      obtain ⟨_, _, _, d, hd⟩ := (mem_allRefs (op := .or) hu k p).1 hall
      rw [(leafAt_iff p _ d).2 hd]
      rfl
    have q1' : DictRel (AtPath h a) (leafRefDict ks) refs := q1
    clear q1 q2 d1 d2 hrefs
    revert hmem q1'
    generalize leafRefDict ks = lr
    intro hmem q
    induction q with
    | nil => exact .nil
    | @cons p q l l' e1 _ ih =>
      exact .cons ⟨e1.1, e1.2, hmem p.1 p.2 (by simp)⟩ (ih (fun k p hp => hmem k p (by simp [hp])))
  constructor
  · intro fuel x hx
    have hxF : ∀ G : List Nat, (∀ i ∈ G, i ∈ F ∨ h.length ≤ i) → x ∉ G := by
      intro G hG hxG
      rcases hG x hxG with c | c
      · have := hF x c; omega
      · omega
    unfold clusterRestH
    simp only [h1]
    split
    · rfl
    · next refs hrefs =>
      obtain ⟨hrel, _⟩ := leaves fuel refs hrefs
      split
      · rfl
      · split
        · rfl
        · next colorKeys _ =>
          split
          · rfl
          · next hard _ =>
            obtain ⟨w, q⟩ := pruneLoopH_ok tol g.pmu radius hard (leafRefDict ks) refs colorKeys.flatten ks h a F ho hu hrel
            have hsame := w.2 x (by omega) (hxF F (fun i hi => .inl hi))
            split
            · next h' e hp => rw [hp] at hsame; exact hsame
            · next h' hp =>
              rw [hp] at hsame q w
              simp only at hsame q w
              cases hv : pruneLoop tol g.pmu radius hard (leafRefDict ks) colorKeys.flatten (.grp .or ks) with
              | error e => rw [hv] at q; cases q
              | ok out =>
                rw [hv] at q
                obtain ⟨-, ks', G', -, -, o, s⟩ := q
                obtain ⟨-, i2, i3⟩ := dropInPlace_inside (T := fun y => y ∈ G') fuel "latent" h' a
                  (fun y o' hy ho' z hz => owned_inside o y hy o' ho' z hz) (owned_mem o)
                have hd := i3 x (hxF G' s)
                split
                · next h2 e hp2 => rw [hp2] at hd; exact hd.trans hsame
                · next h2 hp2 =>
                  rw [hp2] at hd i2
                  rw [(clusterEndH_ok g.final fuel h2 a).1 x (by simp only at i2; rw [i2]; exact lt_of_lt_of_le (by omega) w.1)]
                  exact hd.trans hsame
  · intro fuel hf
    obtain ⟨refs, hrefs⟩ := (leafDictH_ok (fuel := fuel) (root := a) ks es G h4 hg.2 hnav [] [] [] .nil .nil).2 (by
      rw [depth] at hf; omega)
    obtain ⟨hrel, lks, ds, e1, e2, e3⟩ := leaves fuel refs hrefs
    simp only [clusterRestH, clusterRest, h1, hrefs, e1, e2, e3]
    cases colorSinglets setIter ds g.status g.color true with
    | error e => rfl
    | ok colorKeys =>
      simp only
      cases outgoingMask g.status with
      | error e => rfl
      | ok hard =>
        simp only
        obtain ⟨w, q⟩ := pruneLoopH_ok tol g.pmu radius hard (leafRefDict ks) refs colorKeys.flatten ks h a F ho hu hrel
        revert w q
        generalize pruneLoopH tol g.pmu radius hard refs h colorKeys.flatten = got
        obtain ⟨h', res⟩ := got
        cases pruneLoop tol g.pmu radius hard (leafRefDict ks) colorKeys.flatten (.grp .or ks) with
        | error e =>
          intro w q
          simp only at q
          subst q
          rfl
        | ok out =>
          rintro w ⟨q1, ks', G', rfl, q3, o, s⟩
          simp only at q1 o w
          subst q1
          simp only [Mask.drop]
          obtain ⟨d1, d2, d3, F', d4, d5⟩ := dropInPlace_owned "latent" _ h' .or ks' a G' o (fuel := fuel) (by omega)
          revert d1 d2 d3 d4
          generalize dropInPlace fuel "latent" h' a = got
          obtain ⟨h2, res⟩ := got
          intro d1 d2 d3 d4
          simp only at d1 d2 d3 d4
          subst d1
          simp only [Mask.drop] at d4
          simp only
          have hrd := readMask_owned d4 (fuel := fuel) (by omega)
          have hend := (clusterEndH_ok g.final fuel h2 a).2 .or _ hrd
          revert hend
          generalize clusterEndH g.final fuel h2 a = got
          obtain ⟨h3', r⟩ := got
          intro hend
          have hbase : base ≤ h2.length := by rw [d2]; exact hb.trans w.1
          simp only at hend ⊢
          revert hend
          cases flattenRise .or (Mask.dropKids "latent" ks') with
          | error e => exact id
          | ok m =>
            cases m with
            | arr d => exact id
            | grp op' flat =>
              simp only
              cases flatEntries flat with
              | error e => exact id
              | ok entries =>
                simp only
                cases restrictAll g.final entries with
                | error e => exact id
                | ok out =>
                  rintro ⟨b, b1, b2, b3⟩
                  exact ⟨b, b1, b2, fun x hx => hbase.trans (b3 x hx)⟩

/-- **C120** `clusters(graph, radius)` for every event and every state of memory: the call overwrites masks and removes
members of groups in place, but all objects that existed before hold afterwards what they held before, whether it
succeeds or raises; given enough recursion depth, it raises exactly when, and what, the computation on values raises;
and otherwise the group returned shows the entries computed on values, its `agg_op` is `or`, and it shares no object
with anything that existed before. -/
theorem C120_clusters {R : Type} [LT R] [DecidableLT R] (dist : P4 → P4 → R) (setIter : List String → List String)
    (nm : Int → String) (tol radius : ℝ) (g : ClusterGraph) (h : MHeap) :
    (∀ fuel x : Nat, x < h.length → (clustersH dist setIter nm tol radius g fuel h).1[x]? = h[x]?) ∧
    ∃ N, ∀ fuel, N ≤ fuel →
      let r := clustersH dist setIter nm tol radius g fuel h
      match clusters dist setIter nm tol radius g with
      | .error e => r.2 = .error e
      | .ok out => ∃ b, r.2 = .ok b ∧ ShowsMask r.1 b (.grp .or (out.map (fun p => (p.1, Mask.arr p.2)))) ∧
          ∀ x, Reaches r.1 b x → h.length ≤ x := by
  constructor
  · intro fuel x hx
    obtain ⟨c1, c2⟩ := C116_default nm g.pdg g.status g.final g.edges fuel h
    have c3 := c1 x hx
    unfold clustersH
    split
    · next h1 e hh => rw [hh] at c3; exact c3
    · next h1 a0 hh =>
      simp only [hh] at c2 c3
      cases hv : hierarchy nm g.pdg g.status g.final g.edges none with
      | error e => rw [hv] at c2; cases c2
      | ok hier0 =>
        rw [hv] at c2
        obtain ⟨b, b1, b2, b3⟩ := c2
        cases b1
        obtain ⟨p1, p2, -⟩ := partition_owned dist g.pmu g.final g.status g.edges h1 a0 .or hier0 b3
        have hl : h.length ≤ h1.length := by
          by_contra hc
          have := c1 h1.length (by omega)
          rw [hh] at this
          simp only [List.getElem?_eq_none (le_refl _)] at this
          rw [List.getElem?_eq_getElem (by omega)] at this
          cases this
        have p3 := p1 fuel x (by omega)
        have p4 := p2 fuel
        split
        · next h2 e hp => rw [hp] at p3; exact p3.trans c3
        · next h2 a hp =>
          rw [hp] at p3 p4
          obtain ⟨out, F, q1, q2, q3⟩ := p4 a rfl
          have hl2 : h1.length ≤ h2.length := by
            by_contra hc
            have := p1 fuel h2.length (by omega)
            rw [hp] at this
            simp only [List.getElem?_eq_none (le_refl _)] at this
            rw [List.getElem?_eq_getElem (by omega)] at this
            cases this
          rw [(clusterRestH_ok setIter tol radius g h2 a out F q2
            (partition_good _ _ _ _ _ _ _ (hierarchy_good _ _ _ _ _ _ hv) q1) h1.length hl2 q3).1 fuel x (by omega)]
          exact p3.trans c3
  · cases hv : hierarchy nm g.pdg g.status g.final g.edges none with
    | error e =>
      refine ⟨0, fun fuel _ => ?_⟩
      obtain ⟨-, c2⟩ := C116_default nm g.pdg g.status g.final g.edges fuel h
      rw [hv] at c2
      simp only [clusters, hv, clustersH]
      revert c2
      generalize hierarchyH nm g.pdg g.status g.final g.edges fuel h none = got
      obtain ⟨h1, r⟩ := got
      intro c2
      simp only at c2
      subst c2
      rfl
    | ok hier0 =>
      obtain ⟨c1, c2⟩ := C116_default nm g.pdg g.status g.final g.edges 0 h
      rw [hv] at c2
      obtain ⟨a0, b1, b2, b3⟩ := c2
      have hfuel : ∀ fuel, hierarchyH nm g.pdg g.status g.final g.edges fuel h none =
          hierarchyH nm g.pdg g.status g.final g.edges 0 h none := fun fuel => rfl
      simp only [clusters, hv, clustersH, hfuel]
      revert c1 b1 b2 b3
      generalize hierarchyH nm g.pdg g.status g.final g.edges 0 h none = got
      obtain ⟨h1, r⟩ := got
      intro c1 b1 b2 b3
      simp only at c1 b1 b2 b3
      subst b1
      have hl : h.length ≤ h1.length := by
        by_contra hc
        have := c1 h1.length (by omega)
        simp only [List.getElem?_eq_none (le_refl _)] at this
        rw [List.getElem?_eq_getElem (by omega)] at this
        cases this
      obtain ⟨p1, p2, N, p3⟩ := partition_owned dist g.pmu g.final g.status g.edges h1 a0 .or hier0 b3
      cases hp : partitionDescendants dist g.pmu g.final g.status g.edges hier0 with
      | error e =>
        refine ⟨N, fun fuel hf => ?_⟩
        have := p3 fuel hf
        rw [hp] at this
        simp only at this ⊢
        revert this
        generalize partitionDescendantsH dist g.pmu g.final g.status g.edges fuel h1 a0 = got
        obtain ⟨h2, r⟩ := got
        intro q
        simp only at q
        subst q
        rfl
      | ok out =>
        refine ⟨max N (depth (.grp .or out)), fun fuel hf => ?_⟩
        have q := p3 fuel (by omega)
        rw [hp] at q
        obtain ⟨a, F, q1, q2, q3⟩ := q
        have p4 := p1 fuel
        simp only
        revert q1 q2 p4
        generalize partitionDescendantsH dist g.pmu g.final g.status g.edges fuel h1 a0 = got
        obtain ⟨h2, r⟩ := got
        intro q1 q2 p4
        simp only at q1 q2 p4
        subst q1
        have hl2 : h1.length ≤ h2.length := by
          by_contra hc
          have := p4 h2.length (by omega)
          simp only [List.getElem?_eq_none (le_refl _)] at this
          rw [List.getElem?_eq_getElem (by omega)] at this
          cases this
        have hrest := (clusterRestH_ok setIter tol radius g h2 a out F q2
          (partition_good _ _ _ _ _ _ _ (hierarchy_good _ _ _ _ _ _ hv) hp) h1.length hl2 q3).2 fuel (by omega)
        revert hrest
        simp only
        cases clusterRest setIter tol radius g out with
        | error e => exact id
        | ok res =>
          rintro ⟨b, r1, r2, r3⟩
          exact ⟨b, r1, r2, fun x hx => hl.trans (r3 x hx)⟩

/-! ## A concrete case -/

/-- For the example event of Props/Clusters.lean the call succeeds, with memory holding other masks. -/
example (tol radius : ℝ) : ∃ N, ∀ fuel, N ≤ fuel → ∃ b out,
    (clustersH (fun _ _ => (0 : Nat)) id exNames tol radius exCG fuel exHeap).2 = .ok b ∧
    ShowsMask (clustersH (fun _ _ => (0 : Nat)) id exNames tol radius exCG fuel exHeap).1 b (.grp .or out) ∧
    (clustersH (fun _ _ => (0 : Nat)) id exNames tol radius exCG fuel exHeap).1[3]? = exHeap[3]? := by
  obtain ⟨h1, N, h2⟩ := C120_clusters (fun _ _ => (0 : Nat)) id exNames tol radius exCG exHeap
  obtain ⟨out, ho, -⟩ := exCG_clusters tol radius
  refine ⟨N, fun fuel hf => ?_⟩
  have := h2 fuel hf
  rw [ho] at this
  obtain ⟨b, b1, b2, -⟩ := this
  exact ⟨b, _, b1, b2, h1 fuel 3 (by decide)⟩

end Gcl
