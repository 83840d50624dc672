import Verif.Props.Symmetry
import Verif.Props.Hier
/-! # C104, C105: `hard_descendants` and `hierarchy` under reordered records and renamed vertices -/
namespace Gcl
set_option autoImplicit false
open Spec

theorem descMasks_rename (f : Int → Int) (es : List (Int × Int)) (hf : Set.InjOn f {w | IsVertex es w}) (l : List Int)
    (hl : ∀ v ∈ l, IsVertex es v) : descMasks (rename f es) (l.map f) = descMasks es l := by
  induction l with
  | nil => rfl
  | cons v l ih =>
    have hv := hl v (by simp)
    have e := (C105_masks f es v v (hf.mono (fun w hw => by
      rcases hw with h | rfl | rfl
      · exact h
      · exact hv
      · exact hv))).1
    simp only [List.map_cons, descMasks, e, ih (fun v h => hl v (by simp [h]))]

theorem gather_map {α β : Type} (g : α → β) (a : List α) (is : List Nat) :
    gather (a.map g) is = (gather a is).map g := by
  simp only [gather, List.map_filterMap, List.getElem?_map]

theorem mem_of_mem_gather {α : Type} {a : List α} {is : List Nat} {x : α} (h : x ∈ gather a is) : x ∈ a := by
  obtain ⟨i, -, h⟩ := List.mem_filterMap.1 h
  exact List.mem_of_getElem? h

theorem apply_map {α β : Type} (g : α → β) (k : Key) (a : List α) : k.apply (a.map g) = (k.apply a).map (List.map g) := by
  unfold Key.apply
  rw [List.length_map]
  cases k.resolve a.length with
  | error e => rfl
  | ok is => simp [Except.map, gather_map]

theorem getCol_map {α β : Type} (g : α → β) (k : Key) (a : List α) : getCol k (a.map g) = (getCol k a).map (List.map g) := by
  unfold getCol
  have : listTruthy (a.map g) = listTruthy a := by cases a <;> rfl
  rw [this, apply_map]
  split <;> rfl

theorem hardGraph_rename (f : Int → Int) (pdg : List Int) (es : List (Int × Int)) (m : List Bool) :
    HardGraph.get ⟨pdg, rename f es⟩ m = (HardGraph.get ⟨pdg, es⟩ m).map (fun g => ⟨g.pdg, rename f g.edges⟩) := by
  unfold HardGraph.get
  cases getCol (.mask m) pdg with
  | error e => rfl
  | ok p =>
    simp only [rename, getCol_map]
    cases getCol (.mask m) es with
    | error e => rfl
    | ok es' => rfl

theorem hardGraph_edges {pdg : List Int} {es : List (Int × Int)} {m : List Bool} {g : HardGraph}
    (h : HardGraph.get ⟨pdg, es⟩ m = .ok g) : ∀ e ∈ g.edges, e ∈ es := by
  unfold HardGraph.get at h
  simp only at h
  cases h1 : getCol (.mask m) pdg with
  | error e => rw [h1] at h; cases h
  | ok p =>
    rw [h1] at h
    cases h2 : getCol (.mask m) es with
    | error e => rw [h2] at h; cases h
    | ok es' =>
      rw [h2] at h
      cases h
      intro e he
      unfold getCol at h2
      split at h2
      · unfold Key.apply at h2
        split at h2
        · cases h2; exact mem_of_mem_gather he
        · cases h2
      · cases h2; cases he

theorem applyTarget_rename (f : Int → Int) (g : HardGraph) (t : Option (List Int)) (b s : Bool) :
    applyTarget ⟨g.pdg, rename f g.edges⟩ t b s = (applyTarget g t b s).map (fun g => ⟨g.pdg, rename f g.edges⟩) := by
  cases t with
  | none => rfl
  | some t =>
    obtain ⟨pdg, es⟩ := g
    simp only [applyTarget, filterTarget]
    by_cases h : (!(pdgMask pdg (if b = true then t else t.map (fun c => (c.natAbs : Int))) false b).any id) = true
    · rw [if_pos h, if_pos h]; rfl
    · rw [if_neg h, if_neg h]
      cases (Key.mask (pdgMask pdg (if b = true then t else t.map (fun c => (c.natAbs : Int))) false b)).apply pdg with
      | error e => rfl
      | ok found =>
        dsimp only
        generalize (s && !(List.filter (fun c => !(if b = true then found else found.map (absWrap 32)).contains c)
          (if b = true then t else t.map (fun c => (c.natAbs : Int)))).isEmpty) = c
        cases c
        · exact hardGraph_rename f pdg es _
        · rfl

theorem applyTarget_edges {g g' : HardGraph} {t : Option (List Int)} {b s : Bool} (h : applyTarget g t b s = .ok g') :
    ∀ e ∈ g'.edges, e ∈ g.edges := by
  cases t with
  | none => cases h; exact fun e he => he
  | some t =>
    obtain ⟨pdg, es⟩ := g
    simp only [applyTarget, filterTarget] at h
    by_cases hc : (!(pdgMask pdg (if b = true then t else t.map (fun c => (c.natAbs : Int))) false b).any id) = true
    · rw [if_pos hc] at h; cases h
    · rw [if_neg hc] at h
      cases hA : (Key.mask (pdgMask pdg (if b = true then t else t.map (fun c => (c.natAbs : Int))) false b)).apply pdg with
      | error e => rw [hA] at h; cases h
      | ok found =>
        rw [hA] at h
        dsimp only at h
        generalize (s && !(List.filter (fun c => !(if b = true then found else found.map (absWrap 32)).contains c)
          (if b = true then t else t.map (fun c => (c.natAbs : Int)))).isEmpty) = c at h
        cases c
        · exact hardGraph_edges h
        · cases h

/-- **C105** `hard_descendants` does not depend on the ids of the vertices: renaming them, different ones differently,
changes nothing, for all targets and options, exceptions included. -/
theorem C105_hard (f : Int → Int) (nm : Int → String) (pdg status : List Int) (es : List (Int × Int))
    (hf : Set.InjOn f {w | IsVertex es w}) (target : Option (List Int)) (signSensitive strict : Bool) :
    hardDescendants nm pdg status (rename f es) target signSensitive strict =
      hardDescendants nm pdg status es target signSensitive strict := by
  unfold hardDescendants
  cases hardGroup status with
  | error e => rfl
  | ok hg =>
    simp only
    cases groupOr hg with
    | error e => rfl
    | ok hard =>
      simp only [hardGraph_rename]
      cases hG : HardGraph.get ⟨pdg, es⟩ hard with
      | error e => rfl
      | ok g =>
        simp only [Except.map, applyTarget_rename]
        cases hT : applyTarget g target signSensitive strict with
        | error e => rfl
        | ok g' =>
          simp only
          have hmem : ∀ v ∈ g'.edges.map (fun e => e.2), IsVertex es v := by
            intro v hv
            obtain ⟨e, he, rfl⟩ := List.mem_map.1 hv
            exact ⟨e, hardGraph_edges hG e (applyTarget_edges hT e he), Or.inr rfl⟩
          have : (rename f g'.edges).map (fun e => e.2) = (g'.edges.map (fun e => e.2)).map f := by
            simp [rename, Function.comp_def]
          rw [this, descMasks_rename f es hf _ hmem]

theorem leafEntry_rename (f : Int → Int) (es : List (Int × Int)) (hf : Set.InjOn f {w | IsVertex es w})
    (desc : Dict (List Bool)) (x : String) : leafEntry (rename f es) desc x = leafEntry es desc x := by
  unfold leafEntry
  cases descGet desc x with
  | error e => rfl
  | ok mask =>
    have e1 : (rename f es).map (fun e => e.1) = (es.map (fun e => e.1)).map f := by simp [rename, Function.comp_def]
    simp only [e1]
    rw [apply_map f]
    cases hA : (Key.mask mask).apply (es.map (fun e => e.1)) with
    | error e => rfl
    | ok l =>
      cases l with
      | nil => rfl
      | cons v l =>
        have hv : IsVertex es v := by
          have : v ∈ es.map (fun e => e.1) := by
            unfold Key.apply at hA
            split at hA
            · simp only [Except.ok.injEq] at hA
              exact mem_of_mem_gather (is := _) (by rw [hA]; simp)
            · cases hA
          obtain ⟨e, he, rfl⟩ := List.mem_map.1 this
          exact ⟨e, he, Or.inl rfl⟩
        have e2 : (rename f es).map (fun e => e.2 == f v) = es.map (fun e => e.2 == v) := by
          simp only [rename, List.map_map]
          refine List.map_congr_left (fun e he => ?_)
          simp only [Function.comp]
          by_cases h : e.2 = v
          · simp [h]
          · have : f e.2 ≠ f v := fun h' => h (hf ⟨e, he, Or.inr rfl⟩ hv h')
            simp [h, this]
        simp only [Except.map, List.map_cons, e2]

theorem buildBranch_congr {f g : String → Py Mask} (h : ∀ x, f x = g x) (acc : Dict Mask) (l : List String) :
    buildBranch f acc l = buildBranch g acc l := by
  have : f = g := funext h
  rw [this]

theorem makeTree_rename (f : Int → Int) (es : List (Int × Int)) (hf : Set.InjOn f {w | IsVertex es w})
    (hard : Dict (List String)) (desc : Dict (List Bool)) (fuel : Nat) (l : List String) :
    makeTree hard desc (rename f es) fuel l = makeTree hard desc es fuel l := by
  induction fuel generalizing l with
  | zero => rfl
  | succ n ih =>
    unfold makeTree
    refine buildBranch_congr (fun x => ?_) _ _
    cases Dict.get? hard x with
    | none => exact leafEntry_rename f es hf desc x
    | some nest => simp only [ih]

/-- **C105** Neither does `hierarchy`, with the descendants computed or given, exceptions included. -/
theorem C105_hierarchy (f : Int → Int) (nm : Int → String) (pdg status : List Int) (final : List Bool)
    (es : List (Int × Int)) (hf : Set.InjOn f {w | IsVertex es w}) (desc : Option (Dict (List Bool))) :
    hierarchy nm pdg status final (rename f es) desc = hierarchy nm pdg status final es desc := by
  have htop : ∀ (hard : Dict (List String)) (d : Dict (List Bool)) (n : Nat) (rs : List String),
      makeTreeTop hard d (rename f es) n rs = makeTreeTop hard d es n rs := by
    intro hard d n rs
    unfold makeTreeTop
    refine buildBranch_congr (fun x => ?_) _ _
    cases Dict.get? hard x with
    | none => rfl
    | some nest => simp only [makeTree_rename f es hf]
  unfold hierarchy
  simp only [C105_hard f nm pdg status es hf, hierarchyTree, htop]

end Gcl
