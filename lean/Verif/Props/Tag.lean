import Verif.Props.ArgClosest
import Verif.Props.Prune
import Verif.Props.HardDesc
import Verif.Props.Rotation
import Verif.Props.Keys
/-!
# C58: `monte_carlo_tag`
-/
namespace Gcl
set_option autoImplicit false
open Spec

theorem gather_filter {α : Type} (l : List α) (f : α → Bool) :
    gather l (trueIdxs (l.map f)) = l.filter f := by
  rw [gather_eq_selected _ _ (by simp)]
  induction l with
  | nil => rfl
  | cons x l ih =>
    rw [List.map_cons, selected_cons, ih, List.filter_cons]

/-- The mask of the requested stages of the hard process. -/
theorem portionMask_eq (status : List Int) (o i : Bool) (h : o = true ∨ i = true) :
    portionMask status (portionNames o i) =
      .ok (status.map (fun s => (o && s.natAbs == 23) || (i && s.natAbs == 22))) := by
  have habs : ∀ (x : Int) (s : Nat), (|x| = (s : Int)) ↔ x.natAbs = s := by
    intro x s; rw [Int.abs_eq_natAbs]; omega
  have k22 : ∀ x : Int, (absWrap 16 x == 22) = (x.natAbs == 22) := by
    intro x
    rw [absWrap16_beq _ 22 (by decide) (by decide)]
    have := habs x 22
    push_cast at this
    simp only [this]
    by_cases hx : x.natAbs = 22 <;> simp [hx]
  have k23 : ∀ x : Int, (absWrap 16 x == 23) = (x.natAbs == 23) := by
    intro x
    rw [absWrap16_beq _ 23 (by decide) (by decide)]
    have := habs x 23
    push_cast at this
    simp only [this]
    by_cases hx : x.natAbs = 23 <;> simp [hx]
  cases o <;> cases i
  · simp at h
  all_goals
    simp [portionMask, portionNames, hardMask, groupSelect, groupSelect.go, Dict.get?, Dict.set, groupOr,
      Mask.dataKids, Mask.data, reduceRows, Function.comp_def, k22, k23, List.zipWith_map]

/-- `p` is the position of a record whose code passes the filters. -/
def keptAt (pdg : List Int) (a : TagArgs) (p : Nat) : Bool :=
  match pdg[p]? with
  | some c => codeKept a.blacklist a.whitelist a.signSensitive c
  | none => false

theorem maskStep {α : Type} (a : List α) (P : List Nat) (hP : ∀ j ∈ P, j < a.length) (f : Nat → Bool) :
    (Key.mask (P.map f)).apply (gather a P) = .ok (gather a (P.filter f)) := by
  unfold Key.apply Key.resolve
  dsimp only
  rw [if_pos (by rw [gather_length a P hP]; simp)]
  simp only
  rw [gather_gather a P _ hP (fun j hj => by simpa using trueIdxs_lt _ 0 j hj), gather_filter]

theorem isin_eq (pdg : List Int) (P : List Nat) (hP : ∀ j ∈ P, j < pdg.length) (hmin : minI32 ∉ pdg)
    (l : List Int) (ss inv : Bool) :
    isin (if ss then gather pdg P else (gather pdg P).map (absWrap 32))
        (if ss then l else l.map (fun x => (x.natAbs : Int))) inv =
      P.map (fun p => match pdg[p]? with
        | some c => codeMatches l ss c != inv
        | none => false) := by
  have h1 := pdgMask_matches (gather pdg P) l ss (fun h => by
    obtain ⟨j, _, hj⟩ := List.mem_filterMap.1 h
    exact hmin (List.mem_of_getElem? hj))
  have h2 : isin (if ss then gather pdg P else (gather pdg P).map (absWrap 32))
      (if ss then l else l.map (fun x => (x.natAbs : Int))) inv =
      (pdgMask (gather pdg P) (if ss then l else l.map (fun c => (c.natAbs : Int))) false ss).map
        (fun b => b != inv) := by
    unfold pdgMask isin
    simp [Function.comp_def]
  rw [h2, h1, List.map_map]
  apply List.ext_getElem?
  intro k
  rw [List.getElem?_map, List.getElem?_map, gather_getElem? _ _ hP]
  rcases hk : P[k]? with _ | p
  · rfl
  · have := hP p (List.mem_of_getElem? hk)
    simp [this]

theorem any_map_false {P : List Nat} {f : Nat → Bool} : (P.map f).any id = false ↔ P.filter f = [] := by
  simp [List.filter_eq_nil_iff]

theorem tagFilter_eq (a : TagArgs) (pmu : List P4) (pdg : List Int) (P : List Nat)
    (hP : ∀ j ∈ P, j < pdg.length) (hl : pmu.length = pdg.length) (hmin : minI32 ∉ pdg)
    (hboth : ¬ (Given a.blacklist ∧ Given a.whitelist))
    (hq : ¬ (Given a.blacklist ∧ a.whitelist = some [])) :
    ((Given a.blacklist ∨ Given a.whitelist) → P.filter (keptAt pdg a) = [] →
      tagFilter a (gather pmu P) (gather pdg P) = .error .indexError) ∧
    (((Given a.blacklist ∨ Given a.whitelist) → P.filter (keptAt pdg a) ≠ []) →
      tagFilter a (gather pmu P) (gather pdg P) =
        .ok (gather pmu (P.filter (keptAt pdg a)), gather pdg (P.filter (keptAt pdg a)))) := by
  have hP' : ∀ j ∈ P, j < pmu.length := by rwa [hl]
  have step : ∀ (l : List Int) (inv : Bool), (∀ p, keptAt pdg a p = match pdg[p]? with
        | some c => codeMatches l a.signSensitive c != inv
        | none => false) →
      isin (if a.signSensitive then gather pdg P else (gather pdg P).map (absWrap 32))
        (if a.signSensitive then l else l.map (fun x => (x.natAbs : Int))) inv =
      P.map (keptAt pdg a) := by
    intro l inv h
    rw [isin_eq pdg P hP hmin]
    apply List.map_congr_left
    intro p _
    rw [h]
  have fin : ∀ (c : Int) (cs : List Int), orList a.blacklist a.whitelist = some (c :: cs) →
      (truthyList a.blacklist && truthyList a.whitelist) = false →
      (∀ p, keptAt pdg a p = match pdg[p]? with
        | some x => codeMatches (c :: cs) a.signSensitive x != a.whitelist.isNone
        | none => false) →
      (P.filter (keptAt pdg a) = [] →
        tagFilter a (gather pmu P) (gather pdg P) = .error .indexError) ∧
      (P.filter (keptAt pdg a) ≠ [] → tagFilter a (gather pmu P) (gather pdg P) =
        .ok (gather pmu (P.filter (keptAt pdg a)), gather pdg (P.filter (keptAt pdg a)))) := by
    intro c cs hor htr hk
    have hs := step (c :: cs) a.whitelist.isNone hk
    unfold tagFilter
    simp only [htr, hor, Bool.false_eq_true, if_false, hs]
    constructor
    · intro h
      rw [if_pos (by rw [any_map_false.2 h]; rfl)]
    · intro h
      rw [if_neg, maskStep pmu P hP', maskStep pdg P hP]
      intro h'
      apply h
      rw [← any_map_false]
      simpa using h'
  rcases hb : a.blacklist with _ | _ | ⟨b, bs⟩
  · rcases hw : a.whitelist with _ | _ | ⟨w, ws⟩
    · have : P.filter (keptAt pdg a) = P := by
        rw [List.filter_eq_self]
        intro p hp
        simp [keptAt, List.getElem?_eq_getElem (hP p hp), codeKept, hb, hw]
      refine ⟨fun h => ?_, fun _ => ?_⟩
      · simp [Given] at h
      · rw [this]
        simp [tagFilter, hb, hw, truthyList, orList]
    · have : P.filter (keptAt pdg a) = P := by
        rw [List.filter_eq_self]
        intro p hp
        simp [keptAt, List.getElem?_eq_getElem (hP p hp), codeKept, hb, hw]
      refine ⟨fun h => ?_, fun _ => ?_⟩
      · simp [Given] at h
      · rw [this]
        simp [tagFilter, hb, hw, truthyList, orList]
    · obtain ⟨f1, f2⟩ := fin w ws (by simp [orList, hb, hw, truthyList]) (by simp [hb, truthyList]) (by
        intro p
        simp [keptAt, codeKept, hb, hw])
      exact ⟨fun _ => f1, fun h => f2 (h (Or.inr ⟨w, ws, rfl⟩))⟩
  · rcases hw : a.whitelist with _ | _ | ⟨w, ws⟩
    · have : P.filter (keptAt pdg a) = P := by
        rw [List.filter_eq_self]
        intro p hp
        simp [keptAt, List.getElem?_eq_getElem (hP p hp), codeKept, hb, hw]
      refine ⟨fun h => ?_, fun _ => ?_⟩
      · simp [Given] at h
      · rw [this]
        simp [tagFilter, hb, hw, truthyList, orList]
    · have : P.filter (keptAt pdg a) = P := by
        rw [List.filter_eq_self]
        intro p hp
        simp [keptAt, List.getElem?_eq_getElem (hP p hp), codeKept, hb, hw]
      refine ⟨fun h => ?_, fun _ => ?_⟩
      · simp [Given] at h
      · rw [this]
        simp [tagFilter, hb, hw, truthyList, orList]
    · obtain ⟨f1, f2⟩ := fin w ws (by simp [orList, hb, hw, truthyList]) (by simp [hb, truthyList]) (by
        intro p
        simp [keptAt, codeKept, hb, hw])
      exact ⟨fun _ => f1, fun h => f2 (h (Or.inr ⟨w, ws, rfl⟩))⟩
  · rcases hw : a.whitelist with _ | _ | ⟨w, ws⟩
    · obtain ⟨f1, f2⟩ := fin b bs (by simp [orList, hb, truthyList]) (by simp [hw, truthyList]) (by
        intro p
        simp [keptAt, codeKept, hb, hw])
      exact ⟨fun _ => f1, fun h => f2 (h (Or.inl ⟨b, bs, rfl⟩))⟩
    · exact absurd ⟨⟨b, bs, hb⟩, hw⟩ hq
    · exact absurd ⟨⟨b, bs, hb⟩, w, ws, hw⟩ hboth

theorem tagPositions_eq (pdg status : List Int) (hl : pdg.length = status.length) (a : TagArgs) :
    (trueIdxs (status.map (fun s => (a.outgoing && s.natAbs == 23) || (a.intermediate && s.natAbs == 22)))
      ).filter (keptAt pdg a) = tagPositions pdg status a := by
  rw [trueIdxs_eq_filter, List.filter_filter, List.length_map]
  unfold tagPositions
  apply List.filter_congr
  intro i hi
  have hi := List.mem_range.1 hi
  have hi' : i < pdg.length := by omega
  simp only [List.getElem?_map, List.getElem?_eq_getElem hi, List.getElem?_eq_getElem hi', keptAt,
    Option.map_some, Option.getD_some]
  rw [Bool.and_comm]

theorem tagPositions_lt {pdg status : List Int} {a : TagArgs} :
    ∀ j ∈ tagPositions pdg status a, j < status.length := by
  intro j hj
  exact List.mem_range.1 (List.mem_filter.1 hj).1

/-- The momenta of the jets. -/
noncomputable def jetsOf (p : TagParticles) (a : TagArgs) : List P4 :=
  a.clusterMasks.map (fun m => total (selected (clusteredMomenta p a) m))

/-- What is left to do once the arguments passed the checks. -/
noncomputable def tagRest (limit : Int) (sched : List (List Write) → List Write)
    (init : Nat × Nat → Fl) (lsa : List (List Fl) → Py (List Nat)) (tol : ℝ) (nm : Int → String)
    (hardPmu : List P4) (hardPdg : List Int) (clustered : List P4) (masks : List (List Bool)) :
    Py (Dict (List Bool)) :=
  match aggregateMomenta clustered masks with
  | .error e => .error e
  | .ok jets =>
    match (argClosest limit sched init lsa tol (fun o => if o = 0 then ⟨hardPmu, none⟩ else ⟨jets, none⟩)
      0 1 1).1 with
    | .error e => .error e
    | .ok idxs => tagGroup nm hardPdg masks idxs

theorem tag_reduce (limit : Int) (sched : List (List Write) → List Write)
    (init : Nat × Nat → Fl) (lsa : List (List Fl) → Py (List Nat)) (tol : ℝ) (nm : Int → String)
    (p : TagParticles) (a : TagArgs) (hd : p.pdg.length = p.status.length)
    (hp : p.pmu.length = p.status.length) (hf : p.final.length = p.status.length)
    (hmin : minI32 ∉ p.pdg) (m0 : List Bool) (ms : List (List Bool)) (hm : a.clusterMasks = m0 :: ms)
    (hoi : a.outgoing = true ∨ a.intermediate = true)
    (hboth : ¬ (Given a.blacklist ∧ Given a.whitelist))
    (hq : ¬ (Given a.blacklist ∧ a.whitelist = some [])) :
    ((Given a.blacklist ∨ Given a.whitelist) → tagPositions p.pdg p.status a = [] →
      monteCarloTag limit sched init lsa tol nm p a = .error .indexError) ∧
    (((Given a.blacklist ∨ Given a.whitelist) → tagPositions p.pdg p.status a ≠ []) →
      monteCarloTag limit sched init lsa tol nm p a =
        if a.clusterMasks.length < (tagPositions p.pdg p.status a).length then .error .valueError
        else if (clusteredMomenta p a).length ≠ m0.length then .error .valueError
        else tagRest limit sched init lsa tol nm (gather p.pmu (tagPositions p.pdg p.status a))
          (gather p.pdg (tagPositions p.pdg p.status a)) (clusteredMomenta p a) a.clusterMasks) := by
  obtain ⟨n0, ns, hn⟩ : ∃ n0 ns, portionNames a.outgoing a.intermediate = n0 :: ns := by
    unfold portionNames
    rcases hoi with h | h <;> cases ho : a.outgoing <;> simp_all
  set pm := p.status.map (fun s => (a.outgoing && s.natAbs == 23) || (a.intermediate && s.natAbs == 22))
    with hpm
  have hpmask : portionMask p.status (n0 :: ns) = .ok pm := by
    rw [← hn]; exact portionMask_eq p.status a.outgoing a.intermediate hoi
  have hlt : ∀ j ∈ trueIdxs pm, j < p.pdg.length := by
    intro j hj
    have := trueIdxs_lt _ 0 j hj
    simpa [hpm, hd] using this
  obtain ⟨f1, f2⟩ := tagFilter_eq a p.pmu p.pdg (trueIdxs pm) hlt (by omega) hmin hboth hq
  rw [hpm, tagPositions_eq p.pdg p.status hd a, ← hpm] at f1 f2
  have g1 : (Key.mask pm).apply p.pmu = .ok (gather p.pmu (trueIdxs pm)) := by
    simp [Key.apply, Key.resolve, hpm, hp]
  have g2 : (Key.mask pm).apply p.pdg = .ok (gather p.pdg (trueIdxs pm)) := by
    simp [Key.apply, Key.resolve, hpm, hd]
  have g3 : clusteredOf a p = .ok (clusteredMomenta p a) := by
    unfold clusteredOf clusteredMomenta
    cases a.clusteredPmu with
    | some ps => rfl
    | none => exact (C20_mask p.pmu p.final).1 (by omega)
  constructor
  · intro hg hS
    unfold monteCarloTag
    simp only [hm, hn, hpmask, g1, g2, f1 hg hS]
  · intro hg
    unfold monteCarloTag
    simp only [hm, hn, hpmask, g1, g2, f2 hg, g3]
    rw [gather_length _ _ (fun j hj => by rw [hp]; exact tagPositions_lt j hj)]
    rfl

/-- **C58** The documented errors, for aligned particle data: no cluster masks, no stage of the hard
process, both lists of codes; no parton left by the lists; fewer clusters than partons; wrong length of the
first mask. -/
theorem C58_errors (limit : Int) (sched : List (List Write) → List Write)
    (init : Nat × Nat → Fl) (lsa : List (List Fl) → Py (List Nat)) (tol : ℝ) (nm : Int → String)
    (p : TagParticles) (a : TagArgs) (hd : p.pdg.length = p.status.length)
    (hp : p.pmu.length = p.status.length) (hf : p.final.length = p.status.length)
    (hmin : minI32 ∉ p.pdg) :
    (a.clusterMasks = [] → monteCarloTag limit sched init lsa tol nm p a = .error .valueError) ∧
    (a.outgoing = false → a.intermediate = false →
      monteCarloTag limit sched init lsa tol nm p a = .error .valueError) ∧
    (Given a.blacklist → Given a.whitelist →
      monteCarloTag limit sched init lsa tol nm p a = .error .valueError) ∧
    (a.clusterMasks ≠ [] → a.outgoing = true ∨ a.intermediate = true →
      ¬ (Given a.blacklist ∧ a.whitelist ≠ none) →
      (Given a.blacklist ∨ Given a.whitelist → tagPositions p.pdg p.status a = [] →
        monteCarloTag limit sched init lsa tol nm p a = .error .indexError) ∧
      ((Given a.blacklist ∨ Given a.whitelist → tagPositions p.pdg p.status a ≠ []) →
        (a.clusterMasks.length < (tagPositions p.pdg p.status a).length →
          monteCarloTag limit sched init lsa tol nm p a = .error .valueError) ∧
        (∀ m0 : List Bool, a.clusterMasks[0]? = some m0 → m0.length ≠ (clusteredMomenta p a).length →
          monteCarloTag limit sched init lsa tol nm p a = .error .valueError))) := by
  refine ⟨?_, ?_, ?_, ?_⟩
  · intro h
    unfold monteCarloTag
    rw [h]
  · intro h1 h2
    unfold monteCarloTag
    cases a.clusterMasks with
    | nil => rfl
    | cons m0 ms => simp [portionNames, h1, h2]
  · intro h1 h2
    obtain ⟨b, bs, hb⟩ := h1
    obtain ⟨w, ws, hw⟩ := h2
    unfold monteCarloTag
    rcases hm : a.clusterMasks with _ | ⟨m0, ms⟩
    · rfl
    · rcases hn : portionNames a.outgoing a.intermediate with _ | ⟨n0, ns⟩
      · rfl
      · have hoi : a.outgoing = true ∨ a.intermediate = true := by
          cases ho : a.outgoing <;> cases hi : a.intermediate <;> simp [portionNames, ho, hi] at hn ⊢
        have hpm := portionMask_eq p.status a.outgoing a.intermediate hoi
        rw [hn] at hpm
        simp [hpm, Key.apply, Key.resolve, hp, hd, tagFilter, hb, hw, truthyList]
  · intro hne hoi hq
    obtain ⟨m0, ms, hm⟩ := List.exists_cons_of_ne_nil hne
    have hq' : ¬ (Given a.blacklist ∧ Given a.whitelist) ∧
        ¬ (Given a.blacklist ∧ a.whitelist = some []) := by
      constructor
      · rintro ⟨h1, w, ws, hw⟩; exact hq ⟨h1, by simp [hw]⟩
      · rintro ⟨h1, hw⟩; exact hq ⟨h1, by simp [hw]⟩
    obtain ⟨r1, r2⟩ := tag_reduce limit sched init lsa tol nm p a hd hp hf hmin m0 ms hm hoi hq'.1 hq'.2
    refine ⟨r1, fun hS => ⟨fun hlt => ?_, fun m0' h0 hl => ?_⟩⟩
    · rw [r2 hS, if_pos hlt]
    · rw [hm] at h0
      simp only [List.getElem?_cons_zero, Option.some.injEq] at h0
      subst h0
      rw [r2 hS]
      split
      · rfl
      · rw [if_pos (Ne.symm hl)]

/-- **C58** Whenever `monte_carlo_tag` returns (blacklist not combined with an empty whitelist), the
selected partons got distinct clusters `idxs`, each under the parton's key, in record order; no assignment
of clusters to partons costs less; and no documented error was due. -/
theorem C58_tags (limit : Int) (sched : List (List Write) → List Write) (hs : IsSchedule sched)
    (init : Nat × Nat → Fl) (lsa : List (List Fl) → Py (List Nat)) (hlsa : IsLSA lsa) (tol : ℝ)
    (nm : Int → String) (p : TagParticles) (a : TagArgs) (hd : p.pdg.length = p.status.length)
    (hp : p.pmu.length = p.status.length) (hf : p.final.length = p.status.length)
    (hmin : minI32 ∉ p.pdg) (hnm : ∀ c, ':' ∉ (nm c).toList)
    (hq : ¬ (Given a.blacklist ∧ a.whitelist = some [])) (out : Dict (List Bool))
    (hout : monteCarloTag limit sched init lsa tol nm p a = .ok out) :
    let S := tagPositions p.pdg p.status a
    let ps := gather p.pmu S
    let jets := a.clusterMasks.map (fun m => total (selected (clusteredMomenta p a) m))
    (∃ idxs : List Nat, idxs.Nodup ∧ out.length = S.length ∧ (out.map Prod.fst).Nodup ∧
      (∀ (k pos : Nat), S[k]? = some pos → ∃ key j m, partonKey (namesAt nm p.pdg S) k = some key ∧
        idxs[k]? = some j ∧ a.clusterMasks[j]? = some m ∧ out[k]? = some (key, m)) ∧
      ∃ D : Nat → Nat → ℝ,
        (∀ (i j : Nat) (x q : P4), ps[i]? = some x → jets[j]? = some q →
          deltaRCell (x.rapidity tol) (q.rapidity tol) x.xyPol q.xyPol = .fin (D i j)) ∧
        Optimal S.length jets.length (assignCost D (fun i => (ps.map P4.pt).getD i 0)
          (fun j => (jets.map P4.pt).getD j 0) jets.length) (List.range S.length) idxs) ∧
    S ≠ [] ∧ S.length ≤ a.clusterMasks.length ∧
    (∀ m ∈ a.clusterMasks, m.length = (clusteredMomenta p a).length) ∧
    (a.outgoing = true ∨ a.intermediate = true) ∧ ¬ (Given a.blacklist ∧ Given a.whitelist) := by
  intro S ps jets
  have herr := C58_errors limit sched init lsa tol nm p a hd hp hf hmin
  have hne : a.clusterMasks ≠ [] := by
    intro h; rw [herr.1 h] at hout; cases hout
  have hoi : a.outgoing = true ∨ a.intermediate = true := by
    by_contra h
    rw [herr.2.1 (by cases ho : a.outgoing <;> simp_all) (by cases ho : a.intermediate <;> simp_all)] at hout
    cases hout
  have hboth : ¬ (Given a.blacklist ∧ Given a.whitelist) := by
    rintro ⟨h1, h2⟩
    rw [herr.2.2.1 h1 h2] at hout
    cases hout
  obtain ⟨m0, ms, hm⟩ := List.exists_cons_of_ne_nil hne
  obtain ⟨r1, r2⟩ := tag_reduce limit sched init lsa tol nm p a hd hp hf hmin m0 ms hm hoi hboth hq
  have hS : Given a.blacklist ∨ Given a.whitelist → S ≠ [] := by
    intro hg h
    rw [r1 hg h] at hout
    cases hout
  rw [r2 hS] at hout
  split at hout
  · cases hout
  next hle =>
  split at hout
  · cases hout
  next hl0 =>
  have hle : S.length ≤ a.clusterMasks.length := Nat.le_of_not_lt hle
  unfold tagRest at hout
  have hlens : ∀ m ∈ a.clusterMasks, m.length = (clusteredMomenta p a).length := by
    by_contra h
    have h' : ∃ m ∈ a.clusterMasks, m.length ≠ (clusteredMomenta p a).length := by
      by_contra h''
      apply h
      intro m hm
      by_contra h3
      exact h'' ⟨m, hm, h3⟩
    rw [(C68_aggregate _ _).2 h'] at hout
    cases hout
  rw [(C68_aggregate _ _).1 hlens] at hout
  simp only at hout
  change (match (argClosest limit sched init lsa tol
    (fun o => if o = 0 then ⟨ps, none⟩ else ⟨jets, none⟩) 0 1 1).1 with
    | .error e => (.error e : Py (Dict (List Bool)))
    | .ok idxs => tagGroup nm (gather p.pdg S) a.clusterMasks idxs) = _ at hout
  have hjl : jets.length = a.clusterMasks.length := by simp [jets]
  have hSlt : ∀ j ∈ S, j < p.status.length := tagPositions_lt
  have hpl : ps.length = S.length := gather_length _ _ (by rw [hp]; exact hSlt)
  split at hout
  · cases hout
  next idxs hidx =>
  obtain ⟨D, rows, d1, d2, d3, d4, d5, d6⟩ := C57_returns limit sched hs init lsa hlsa tol _ 0 1 1
    (Or.inl rfl) (Or.inl rfl) ps jets rfl rfl
    (by intro h; rw [h] at hjl; exact hne (List.eq_nil_of_length_eq_zero hjl.symm)) idxs hidx
  obtain ⟨hrows, hil⟩ := d6 (by omega)
  have hin : ∀ j ∈ idxs, j < a.clusterMasks.length := by
    intro j hj
    have := d4.2.2.2.2.2 j hj
    omega
  have hSne : S ≠ [] := by
    intro h
    have : idxs = [] := List.eq_nil_of_length_eq_zero (by rw [hil, hpl, h]; rfl)
    rw [this] at hout
    cases hout
  refine ⟨⟨idxs, d4.2.2.2.2.1, ?_⟩, hSne, hle, hlens, hoi, hboth⟩
  have hgo : tagGroup nm (gather p.pdg S) a.clusterMasks idxs =
      .ok (Dict.ofPairs ((pdgsToKeys ((gather p.pdg S).map nm)).zip (gather a.clusterMasks idxs))) := by
    unfold tagGroup
    cases h : idxs with
    | nil =>
      exfalso
      apply hSne
      apply List.eq_nil_of_length_eq_zero
      rw [← hpl, ← hil, h]
      rfl
    | cons i is =>
      simp only
      rw [if_pos]
      rw [List.all_eq_true]
      intro j hj
      simpa using hin j (by rw [h]; exact hj)
  rw [hgo] at hout
  injection hout with hout
  have hnames : (gather p.pdg S).map nm = namesAt nm p.pdg S := by rw [map_gather]; rfl
  have hnl : ((gather p.pdg S).map nm).length = S.length := by
    rw [List.length_map, gather_length _ _ (by rw [hd]; exact hSlt)]
  obtain ⟨kl, kk⟩ := C43_keys ((gather p.pdg S).map nm)
  have hgl := gather_length a.clusterMasks idxs hin
  have hku := C43_unique ((gather p.pdg S).map nm) (by
    intro x hx
    obtain ⟨c, _, rfl⟩ := List.mem_map.1 hx
    exact hnm c)
  have hnd : (((pdgsToKeys ((gather p.pdg S).map nm)).zip (gather a.clusterMasks idxs)).map Prod.fst).Nodup := by
    rw [List.map_fst_zip (by omega)]
    exact hku
  rw [Dict.ofPairs_of_nodup _ hnd] at hout
  subst hout
  refine ⟨?_, hnd, ?_, D, d1, ?_⟩
  · rw [List.length_zip]; omega
  · intro k pos hk
    have hkS := (List.getElem?_eq_some_iff.1 hk).1
    have hki : k < idxs.length := by omega
    have hkj : idxs[k] < a.clusterMasks.length := hin _ (List.getElem_mem hki)
    have hkk : k < (pdgsToKeys ((gather p.pdg S).map nm)).length := by omega
    refine ⟨(pdgsToKeys ((gather p.pdg S).map nm))[k], idxs[k], a.clusterMasks[idxs[k]], ?_, by simp [hki],
      by simp, ?_⟩
    · rw [← hnames, ← kk k]
      simp
    · rw [List.getElem?_zip_eq_some]
      refine ⟨by simp, ?_⟩
      rw [gather_getElem? _ _ hin]
      simp [hki]
  · rw [hrows, hpl] at d5
    exact d5

/-- **C58** It does return a value, if the arguments pass the checks, at least one parton is selected and
the assignment problem is not degenerate (see `C57_equal_pt`): the result is described by
`C58_tags`. -/
theorem C58_returns (limit : Int) (hlim : 1 ≤ limit) (sched : List (List Write) → List Write)
    (hs : IsSchedule sched) (init : Nat × Nat → Fl) (lsa : List (List Fl) → Py (List Nat))
    (hlsa : IsLSA lsa) (tol : ℝ)
    (nm : Int → String) (p : TagParticles) (a : TagArgs) (hd : p.pdg.length = p.status.length)
    (hp : p.pmu.length = p.status.length) (hf : p.final.length = p.status.length)
    (hmin : minI32 ∉ p.pdg) (hoi : a.outgoing = true ∨ a.intermediate = true)
    (hq : ¬ (Given a.blacklist ∧ a.whitelist ≠ none))
    (hlens : ∀ m ∈ a.clusterMasks, m.length = (clusteredMomenta p a).length)
    (hne : tagPositions p.pdg p.status a ≠ [])
    (hle : (tagPositions p.pdg p.status a).length ≤ a.clusterMasks.length)
    (D : Nat → Nat → ℝ)
    (hD : ∀ (i j : Nat) (x q : P4), (gather p.pmu (tagPositions p.pdg p.status a))[i]? = some x →
      (jetsOf p a)[j]? = some q →
      deltaRCell (x.rapidity tol) (q.rapidity tol) x.xyPol q.xyPol = .fin (D i j))
    (hpt : popVar ((jetsOf p a).map P4.pt) ≠ 0)
    (hrow : ∀ i : Nat, i < (tagPositions p.pdg p.status a).length →
      popVar ((List.range a.clusterMasks.length).map (D i)) ≠ 0) :
    ∃ out, monteCarloTag limit sched init lsa tol nm p a = .ok out := by
  have hcm : a.clusterMasks ≠ [] := by
    intro h
    rw [h] at hle
    exact hne (List.eq_nil_of_length_eq_zero (Nat.le_zero.1 hle))
  obtain ⟨m0, ms, hm⟩ := List.exists_cons_of_ne_nil hcm
  have hq' : ¬ (Given a.blacklist ∧ Given a.whitelist) ∧
      ¬ (Given a.blacklist ∧ a.whitelist = some []) := by
    constructor
    · rintro ⟨h1, w, ws, hw⟩; exact hq ⟨h1, by simp [hw]⟩
    · rintro ⟨h1, hw⟩; exact hq ⟨h1, by simp [hw]⟩
  obtain ⟨r1, r2⟩ := tag_reduce limit sched init lsa tol nm p a hd hp hf hmin m0 ms hm hoi hq'.1 hq'.2
  rw [r2 (fun _ => hne), if_neg (by omega), if_neg (by
    rw [not_not, hlens m0 (by rw [hm]; simp)])]
  unfold tagRest
  rw [(C68_aggregate _ _).1 hlens]
  have hpl : (gather p.pmu (tagPositions p.pdg p.status a)).length = (tagPositions p.pdg p.status a).length :=
    gather_length _ _ (by rw [hp]; exact tagPositions_lt)
  have hjl : (jetsOf p a).length = a.clusterMasks.length := by simp [jetsOf]
  obtain ⟨rows, cols, c1, c2, c3, c4⟩ := C57_assignment limit sched hs init lsa hlsa tol
    (fun o => if o = 0 then ⟨gather p.pmu (tagPositions p.pdg p.status a), none⟩ else ⟨jetsOf p a, none⟩)
    0 1 1 (Or.inl rfl) (Or.inl rfl) ⟨by norm_num, hlim⟩ _ _ rfl rfl D hD hpt (by
      intro i hi
      simp only [if_true, one_ne_zero, if_false, hpl, hjl] at hi ⊢
      exact hrow i hi)
  simp only [if_true, one_ne_zero, if_false] at c2 c4
  simp only [jetsOf] at c1
  simp only [c1]
  unfold tagGroup
  have hcl := (c4 (by omega)).2
  cases h : cols with
  | nil =>
    exfalso
    rw [h, hpl] at hcl
    exact hne (List.eq_nil_of_length_eq_zero hcl.symm)
  | cons i is =>
    simp only
    rw [if_pos]
    · exact ⟨_, rfl⟩
    · rw [List.all_eq_true]
      intro j hj
      have := c2.2.2.2.2.2 j (by rw [h]; exact hj)
      simpa [← hjl] using this

/-- **C58** A blacklist combined with an empty whitelist is treated as a whitelist. -/
theorem C58_swapped (limit : Int) (sched : List (List Write) → List Write)
    (init : Nat × Nat → Fl) (lsa : List (List Fl) → Py (List Nat)) (tol : ℝ) (nm : Int → String)
    (p : TagParticles) (a : TagArgs) (hb : Given a.blacklist) (hw : a.whitelist = some []) :
    monteCarloTag limit sched init lsa tol nm p a =
      monteCarloTag limit sched init lsa tol nm p { a with blacklist := none, whitelist := a.blacklist } := by
  obtain ⟨b, bs, hb⟩ := hb
  unfold monteCarloTag
  have h1 : ∀ x y, tagFilter a x y = tagFilter { a with blacklist := none, whitelist := a.blacklist } x y := by
    intro x y
    simp [tagFilter, hb, hw, truthyList, orList]
  simp only [h1]
  rfl

/-- **C58** With no parton selected and no list of codes given, the call fails (with a `TypeError`, unless
the assignment costs are degenerate). -/
theorem C58_no_partons (limit : Int) (hlim : 1 ≤ limit) (sched : List (List Write) → List Write)
    (hs : IsSchedule sched) (init : Nat × Nat → Fl) (lsa : List (List Fl) → Py (List Nat))
    (hlsa : IsLSA lsa) (tol : ℝ)
    (nm : Int → String) (p : TagParticles) (a : TagArgs) (hd : p.pdg.length = p.status.length)
    (hp : p.pmu.length = p.status.length) (hf : p.final.length = p.status.length)
    (hmin : minI32 ∉ p.pdg) (hoi : a.outgoing = true ∨ a.intermediate = true)
    (hb : ¬ Given a.blacklist) (hw : ¬ Given a.whitelist) (hcm : a.clusterMasks ≠ [])
    (hlens : ∀ m ∈ a.clusterMasks, m.length = (clusteredMomenta p a).length)
    (hnone : tagPositions p.pdg p.status a = [])
    (hpt : popVar ((jetsOf p a).map P4.pt) ≠ 0) :
    monteCarloTag limit sched init lsa tol nm p a = .error .typeError := by
  obtain ⟨m0, ms, hm⟩ := List.exists_cons_of_ne_nil hcm
  obtain ⟨r1, r2⟩ := tag_reduce limit sched init lsa tol nm p a hd hp hf hmin m0 ms hm hoi
    (fun h => hb h.1) (fun h => hb h.1)
  rw [r2 (fun h => by rcases h with h | h <;> contradiction), hnone, if_neg (by simp), if_neg (by
    rw [not_not, hlens m0 (by rw [hm]; simp)])]
  unfold tagRest
  rw [(C68_aggregate _ _).1 hlens]
  obtain ⟨rows, cols, c1, c2, c3, c4⟩ := C57_assignment limit sched hs init lsa hlsa tol
    (fun o => if o = 0 then ⟨gather p.pmu [], none⟩ else ⟨jetsOf p a, none⟩)
    0 1 1 (Or.inl rfl) (Or.inl rfl) ⟨by norm_num, hlim⟩ _ _ rfl rfl (fun _ _ => 0)
    (by intro i j x q hx; simp [gather] at hx) hpt (by intro i hi; simp [gather] at hi)
  simp only [jetsOf] at c1
  simp only [c1]
  have : cols = [] := by
    apply List.eq_nil_of_length_eq_zero
    have := c2.2.1
    simpa [gather] using this
  rw [this]
  rfl

/-- An event with two outgoing partons (codes 5 and 6) and two final particles. -/
noncomputable def exTag : TagParticles :=
  { pmu := [⟨1, 0, 0, 2⟩, ⟨0, 0, 7, 9⟩, ⟨3, 0, 0, 5⟩, ⟨0, 1, 0, 2⟩], pdg := [5, 6, 211, 211],
    status := [-23, 23, 1, 1], final := [false, false, true, true] }

theorem exTag_returns (limit : Int) (hlim : 1 ≤ limit) (sched : List (List Write) → List Write)
    (hs : IsSchedule sched) (init : Nat × Nat → Fl) (lsa : List (List Fl) → Py (List Nat))
    (hlsa : IsLSA lsa) (nm : Int → String) (a : TagArgs) (ho : a.outgoing = true)
    (hi : a.intermediate = false)
    (hm : a.clusterMasks = [[true, false], [false, true]]) (hc : a.clusteredPmu = none)
    (hq : ¬ (Given a.blacklist ∧ a.whitelist ≠ none)) (hS : tagPositions exTag.pdg exTag.status a = [0]) :
    ∃ out, monteCarloTag limit sched init lsa 0 nm exTag a = .ok out := by
  have hcl : clusteredMomenta exTag a = [⟨3, 0, 0, 5⟩, ⟨0, 1, 0, 2⟩] := by
    simp [clusteredMomenta, hc, exTag, selected]
  have hj : jetsOf exTag a = [⟨3, 0, 0, 5⟩, ⟨0, 1, 0, 2⟩] := by
    unfold jetsOf
    rw [hm, hcl]
    simp [selected, total]
  have hps : gather exTag.pmu [0] = [⟨1, 0, 0, 2⟩] := by simp [gather, exTag]
  have ⟨D, h1, h2, h3⟩ := exAssign
  apply C58_returns limit hlim sched hs init lsa hlsa 0 nm exTag a rfl rfl rfl (by decide) (Or.inl ho) hq
    (by rw [hm, hcl]; simp) (by rw [hS]; simp) (by rw [hS, hm]; simp) D
  · rw [hS, hps, hj]; exact h1
  · rw [hj]; exact h2
  · rw [hS, hm]; exact h3

/-- **C58** The expectation that a blacklist removes is refuted: with `blacklist=[5]` and `whitelist=[]` the result is the cluster of the
blacklisted parton, and the other one is left out. -/
theorem C58_false (limit : Int) (hlim : 1 ≤ limit) (sched : List (List Write) → List Write)
    (hs : IsSchedule sched) (init : Nat × Nat → Fl) (lsa : List (List Fl) → Py (List Nat))
    (hlsa : IsLSA lsa) (nm : Int → String) (hnm : ∀ c, ':' ∉ (nm c).toList) :
    let a : TagArgs := { clusterMasks := [[true, false], [false, true]], blacklist := some [5],
                         whitelist := some [] }
    tagPositions exTag.pdg exTag.status a = [1] ∧
    ∃ m, monteCarloTag limit sched init lsa 0 nm exTag a = .ok [(nm 5, m)] := by
  intro a
  refine ⟨by decide +kernel, ?_⟩
  rw [C58_swapped limit sched init lsa 0 nm exTag a ⟨5, [], rfl⟩ rfl]
  set b : TagArgs := { a with blacklist := none, whitelist := a.blacklist } with hb
  have hS : tagPositions exTag.pdg exTag.status b = [0] := by decide +kernel
  have hnb : ¬ Given b.blacklist := by rintro ⟨_, _, h⟩; cases h
  obtain ⟨out, hout⟩ := exTag_returns limit hlim sched hs init lsa hlsa nm b rfl rfl rfl rfl
    (fun h => hnb h.1) hS
  obtain ⟨⟨idxs, -, h2, -, h4, -⟩, -⟩ := C58_tags limit sched hs init lsa hlsa 0 nm exTag b rfl rfl rfl
    (by decide) hnm (fun h => hnb h.1) out hout
  rw [hS] at h2 h4
  obtain ⟨key, j, m, g1, -, -, g4⟩ := h4 0 0 rfl
  refine ⟨m, ?_⟩
  rw [hout]
  match out, h2 with
  | [x], _ =>
    simp only [List.getElem?_cons_zero, Option.some.injEq] at g4
    subst g4
    have : key = nm 5 := by
      have e : namesAt nm exTag.pdg [0] = [nm 5] := rfl
      rw [e] at g1
      simpa [partonKey] using g1.symm
    rw [this]

/-- Witness for `C58_returns` and `C58_tags`: blacklisting the second parton tags the first. -/
example (limit : Int) (hlim : 1 ≤ limit) (sched : List (List Write) → List Write)
    (hs : IsSchedule sched) (init : Nat × Nat → Fl) (lsa : List (List Fl) → Py (List Nat))
    (hlsa : IsLSA lsa) (nm : Int → String) :
    ∃ out, monteCarloTag limit sched init lsa 0 nm exTag
      { clusterMasks := [[true, false], [false, true]], blacklist := some [-6] } = .ok out :=
  exTag_returns limit hlim sched hs init lsa hlsa nm _ rfl rfl rfl rfl (fun h => h.2 rfl) (by decide +kernel)

-- positions selected by the filters
example : tagPositions [5, 6, -5, 211] [23, -22, 23, 23]
    { clusterMasks := [], intermediate := true, whitelist := some [5, 6] } = [0, 1, 2] := by decide +kernel
example : tagPositions [5, 6, -5, 211] [23, -22, 23, 23]
    { clusterMasks := [], intermediate := true, blacklist := some [5], signSensitive := true } = [1, 2, 3] := by
  decide +kernel

end Gcl
