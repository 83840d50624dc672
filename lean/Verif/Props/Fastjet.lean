import Verif.Spec.Select
import Verif.Lemmas.Hard
import Mathlib.Data.List.Sort
/-!
# C56: `fastjet_clusters`
-/
namespace Gcl
set_option autoImplicit false
open Real Spec Classical

theorem foldl_set_spec (idxs : List Nat) (m : List Bool) (i : Nat) :
    (idxs.foldl (fun m i => m.set i true) m).length = m.length ∧
    ((idxs.foldl (fun m i => m.set i true) m)[i]? = some true ↔
      m[i]? = some true ∨ (i ∈ idxs ∧ i < m.length)) := by
  induction idxs generalizing m with
  | nil => simp
  | cons j js ih =>
    obtain ⟨h1, h2⟩ := ih (m.set j true)
    simp only [List.foldl_cons]
    refine ⟨by simpa using h1, ?_⟩
    rw [h2, List.getElem?_set]
    by_cases hij : j = i
    · subst hij
      by_cases hl : j < m.length <;> simp [hl]
    · simp [hij, Ne.symm hij]

theorem jetMask_spec (n : Nat) (idxs : List Nat) (h : ∀ i ∈ idxs, i < n) :
    ∃ m, jetMask n idxs = .ok m ∧ IsMaskOf n idxs m := by
  refine ⟨idxs.foldl (fun m i => m.set i true) (List.replicate n false), ?_, ?_, ?_⟩
  · unfold jetMask
    rw [if_pos]
    simpa using h
  · simpa using (foldl_set_spec idxs (List.replicate n false) 0).1
  · intro i
    rw [(foldl_set_spec idxs (List.replicate n false) i).2]
    constructor
    · rintro (h' | h')
      · exfalso
        rw [List.getElem?_replicate] at h'
        split at h' <;> simp at h'
      · exact h'.1
    · intro h'
      exact Or.inr ⟨h', by simpa using h i h'⟩

theorem jetMasks_spec (n : Nat) (ls : List (List Nat)) (h : ∀ is ∈ ls, ∀ i ∈ is, i < n) :
    ∃ ms, jetMasks n ls = .ok ms ∧ List.Forall₂ (IsMaskOf n) ls ms := by
  induction ls with
  | nil => exact ⟨[], rfl, .nil⟩
  | cons is rest ih =>
    obtain ⟨m, hm, hs⟩ := jetMask_spec n is (h is (by simp))
    obtain ⟨ms, hms, hss⟩ := ih (fun is' h' => h is' (by simp [h']))
    exact ⟨m :: ms, by simp only [jetMasks, hm, hms], .cons hs hss⟩

/-- Reversed `argsort` of a key: a rearrangement with non-increasing key. -/
theorem argsort_desc {α : Type} (argsort : List ℝ → List Nat) (ha : IsArgsortR argsort) (l : List α)
    (key : α → ℝ) :
    (gather l (argsort (l.map key)).reverse).Perm l ∧
    (gather l (argsort (l.map key)).reverse).Pairwise (fun a b => key b ≤ key a) := by
  obtain ⟨hp, hs⟩ := ha (l.map key)
  rw [List.length_map] at hp
  set P := argsort (l.map key) with hP
  have hlt : ∀ j ∈ P.reverse, j < l.length := by
    intro j hj
    have := hp.mem_iff.1 (List.mem_reverse.1 hj)
    simpa using this
  constructor
  · have h1 : (gather l P.reverse).Perm (gather l (List.range l.length)) := by
      unfold gather
      exact ((List.reverse_perm P).trans hp).filterMap _
    refine h1.trans (List.Perm.of_eq ?_)
    apply List.ext_getElem?
    intro i
    rw [gather_getElem? _ _ (by simp)]
    by_cases hi : i < l.length <;> simp [hi]
  · rw [List.pairwise_iff_getElem]
    intro i j hi hj hij
    have hgl := gather_length l P.reverse hlt
    have e1 := gather_getElem? l P.reverse hlt i
    have e2 := gather_getElem? l P.reverse hlt j
    rw [List.getElem?_eq_getElem hi] at e1
    rw [List.getElem?_eq_getElem hj] at e2
    rw [hgl] at hi hj
    rw [List.length_reverse] at hi hj
    rw [List.getElem?_reverse hi] at e1
    rw [List.getElem?_reverse hj] at e2
    have hi' : P.length - 1 - i < P.length := by omega
    have hj' : P.length - 1 - j < P.length := by omega
    rw [List.getElem?_eq_getElem hi'] at e1
    rw [List.getElem?_eq_getElem hj'] at e2
    simp only [Option.bind_some] at e1 e2
    refine hs (P.length - 1 - j) (P.length - 1 - i) (by omega) _ _ (List.getElem?_eq_getElem hj')
      (List.getElem?_eq_getElem hi') _ _ ?_ ?_
    · rw [List.getElem?_map, ← e2]; rfl
    · rw [List.getElem?_map, ← e1]; rfl

theorem TopK.cut_map {α β : Type} (k : TopK) (f : α → β) (l : List α) :
    k.cut (l.map f) = (k.cut l).map f := by
  cases k <;> simp [TopK.cut]

theorem TopK.cut_sublist {α : Type} (k : TopK) (l : List α) : (k.cut l).Sublist l := by
  cases k with
  | none => exact List.Sublist.refl _
  | int k => exact List.take_sublist _ _
  | other => exact List.Sublist.refl _

theorem etaWithin_iff (e : Fl) (cut : ℝ) : etaWithin e cut = true ↔ ∃ η, e = .fin η ∧ |η| < cut := by
  cases e <;> simp [etaWithin]

theorem fjAlgo_spec (p : ℝ) : AlgoFor p (fjAlgo p) := by
  unfold fjAlgo AlgoFor
  refine ⟨fun h => by simp [h], fun h => by norm_num [h], fun h => by norm_num [h], ?_⟩
  intro h1 h2 h3
  simp [h1, h2, h3]

/-- **C56** Bad arguments raise `ValueError`. -/
theorem C56_errors (fj : List P4 → FjAlgo → ℝ → ℝ → List Jet) (argsort : List ℝ → List Nat)
    (pmu : List P4) (radius pVal : ℝ) (ptCut etaCut : Option ℝ) (topK : TopK)
    (h : FjBadArgs radius ptCut etaCut topK) :
    fastjetClusters fj argsort pmu radius pVal ptCut etaCut topK = .error .valueError := by
  unfold fastjetClusters
  split
  · rfl
  · next h1 =>
    split
    · rfl
    · next h2 =>
      split
      · rfl
      · next h3 =>
        simp only [decide_eq_true_eq, not_lt] at h1 h2
        rcases h with ⟨c, rfl, hc⟩ | hr | ⟨c, rfl, hc⟩ | ⟨k, rfl, hk⟩ | rfl
        · simp at h1; linarith
        · linarith
        · simp [hc]
        · simp [TopK.bad] at h3; omega
        · simp [TopK.bad] at h3

/-- **C56** Otherwise there is an arrangement of FastJet's jets by non-increasing transverse momentum such
that the result has one mask for each of the first `top_k` jets of it that pass the pseudorapidity cut,
true exactly at the jet's constituents and with one entry per input particle.  FastJet is run with the
algorithm, radius and transverse momentum cut asked for. -/
theorem C56_masks (fj : List P4 → FjAlgo → ℝ → ℝ → List Jet) (argsort : List ℝ → List Nat)
    (ha : IsArgsortR argsort) (pmu : List P4) (radius pVal : ℝ) (ptCut etaCut : Option ℝ) (topK : TopK)
    (h : ¬ FjBadArgs radius ptCut etaCut topK) :
    ∃ algo, AlgoFor pVal algo ∧
    ((∀ j ∈ fj pmu algo radius (ptCut.getD 0), ∀ i ∈ j.constituents, i < pmu.length) →
    ∃ (sorted kept : List Jet) (masks : List (List Bool)),
      fastjetClusters fj argsort pmu radius pVal ptCut etaCut topK = .ok masks ∧
      sorted.Perm (fj pmu algo radius (ptCut.getD 0)) ∧
      sorted.Pairwise (fun a b => b.pmu.pt ≤ a.pmu.pt) ∧
      kept = sorted.filter (fun j => decide (EtaOk etaCut j)) ∧
      List.Forall₂ (fun (j : Jet) m => IsMaskOf pmu.length j.constituents m)
        (firstK topK kept) masks) := by
  refine ⟨fjAlgo pVal, fjAlgo_spec pVal, fun hc => ?_⟩
  set jets := fj pmu (fjAlgo pVal) radius (ptCut.getD 0) with hjets
  obtain ⟨hperm, hpw⟩ := argsort_desc argsort ha jets (fun j => j.pmu.pt)
  set sorted := gather jets (argsort (jets.map (fun j => j.pmu.pt))).reverse with hs
  simp only [FjBadArgs, not_or, not_exists, not_and, not_lt] at h
  obtain ⟨g1, g2, g3, g4, g5⟩ := h
  have b1 : ¬ (ptCut.getD 0 < 0) := by
    cases ptCut with
    | none => simp
    | some c => simpa using g1 c rfl
  have b3 : topK.bad = false := by
    cases topK with
    | none => rfl
    | int k => simpa [TopK.bad] using g4 k rfl
    | other => exact absurd rfl g5
  have hlt : ∀ (l : List Jet), l.Sublist sorted → ∀ is ∈ (topK.cut l).map Jet.constituents,
      ∀ i ∈ is, i < pmu.length := by
    intro l hl is his i hi
    obtain ⟨j, hj, rfl⟩ := List.mem_map.1 his
    exact hc j (hperm.mem_iff.1 (hl.mem ((TopK.cut_sublist topK l).mem hj))) i hi
  have hcut : ∀ l : List Jet, topK.cut l = firstK topK l := by
    intro l; cases topK <;> rfl
  cases etaCut with
  | none =>
    obtain ⟨ms, e1, e2⟩ := jetMasks_spec pmu.length ((topK.cut sorted).map Jet.constituents)
      (hlt sorted (List.Sublist.refl _))
    refine ⟨sorted, sorted, ms, ?_, hperm, hpw, ?_, ?_⟩
    · unfold fastjetClusters
      simp only [b1, decide_false, not_lt.2 g2, b3, Bool.false_eq_true, if_false, ← hjets, ← hs]
      rw [TopK.cut_map, e1]
    · simp [EtaOk]
    · rw [← hcut]; exact List.forall₂_map_left_iff.1 e2
  | some cut =>
    obtain ⟨ms, e1, e2⟩ := jetMasks_spec pmu.length
      ((topK.cut (sorted.filter (fun j => etaWithin j.pmu.eta cut))).map Jet.constituents)
      (hlt _ List.filter_sublist)
    refine ⟨sorted, sorted.filter (fun j => etaWithin j.pmu.eta cut), ms, ?_, hperm, hpw,
      ?_, ?_⟩
    · unfold fastjetClusters
      simp only [b1, decide_false, not_lt.2 g2, not_lt.2 (g3 cut rfl), b3, Bool.false_eq_true, if_false,
        ← hjets, ← hs]
      rw [TopK.cut_map, e1]
    · apply List.filter_congr
      intro j _
      rw [Bool.eq_iff_iff, etaWithin_iff]
      simp [EtaOk]
    · rw [← hcut]; exact List.forall₂_map_left_iff.1 e2

/-- **C56** If FastJet's jets have pairwise disjoint constituents, so have the masks. -/
theorem C56_disjoint (fj : List P4 → FjAlgo → ℝ → ℝ → List Jet) (argsort : List ℝ → List Nat)
    (ha : IsArgsortR argsort) (pmu : List P4) (radius pVal : ℝ) (ptCut etaCut : Option ℝ) (topK : TopK)
    (masks : List (List Bool))
    (hin : ∀ algo, ∀ j ∈ fj pmu algo radius (ptCut.getD 0), ∀ i ∈ j.constituents, i < pmu.length)
    (hdis : ∀ algo, (fj pmu algo radius (ptCut.getD 0)).Pairwise
      (fun a b => ∀ i ∈ a.constituents, i ∉ b.constituents))
    (h : fastjetClusters fj argsort pmu radius pVal ptCut etaCut topK = .ok masks) :
    masks.Pairwise (fun a b => ∀ i : Nat, ¬ (a[i]? = some true ∧ b[i]? = some true)) := by
  by_cases hb : FjBadArgs radius ptCut etaCut topK
  · rw [C56_errors fj argsort pmu radius pVal ptCut etaCut topK hb] at h; cases h
  obtain ⟨algo, _, hm⟩ := C56_masks fj argsort ha pmu radius pVal ptCut etaCut topK hb
  obtain ⟨sorted, kept, ms, e, hperm, _, hkept, hf⟩ := hm (hin algo)
  rw [h] at e; cases e
  have hd : sorted.Pairwise (fun a b => ∀ i ∈ a.constituents, i ∉ b.constituents) :=
    (hperm.pairwise_iff (fun {a b} hab i hi hi' => hab i hi' hi)).2 (hdis algo)
  have hsub : kept.Sublist sorted := by rw [hkept]; exact List.filter_sublist
  have hsub' : (firstK topK kept).Sublist sorted := by
    cases topK with
    | none => exact hsub
    | int k => exact (List.take_sublist _ _).trans hsub
    | other => exact hsub
  have hd' := hd.sublist hsub'
  clear hsub' hd h
  generalize firstK topK kept = l at hf hd'
  induction hf with
  | nil => exact .nil
  | @cons j m l ms hjm hf ih =>
    rw [List.pairwise_cons] at hd' ⊢
    refine ⟨fun b hb i hi => ?_, ih hd'.2⟩
    obtain ⟨j', hj', hjb⟩ := forall₂_mem_right hf hb
    exact hd'.1 j' hj' i ((hjm.2 i).1 hi.1) ((hjb.2 i).1 hi.2)

/-- **C56** At most `top_k` masks, each with one entry per input particle. -/
theorem C56_top_k (fj : List P4 → FjAlgo → ℝ → ℝ → List Jet) (argsort : List ℝ → List Nat)
    (ha : IsArgsortR argsort) (pmu : List P4) (radius pVal : ℝ) (ptCut etaCut : Option ℝ) (k : Int)
    (masks : List (List Bool))
    (hin : ∀ algo, ∀ j ∈ fj pmu algo radius (ptCut.getD 0), ∀ i ∈ j.constituents, i < pmu.length)
    (h : fastjetClusters fj argsort pmu radius pVal ptCut etaCut (.int k) = .ok masks) :
    (masks.length : Int) ≤ k ∧ ∀ m ∈ masks, m.length = pmu.length := by
  by_cases hb : FjBadArgs radius ptCut etaCut (.int k)
  · rw [C56_errors fj argsort pmu radius pVal ptCut etaCut _ hb] at h; cases h
  obtain ⟨algo, _, hm⟩ := C56_masks fj argsort ha pmu radius pVal ptCut etaCut _ hb
  obtain ⟨sorted, kept, ms, e, hperm, _, hkept, hf⟩ := hm (hin algo)
  rw [h] at e; cases e
  constructor
  · have := hf.length_eq
    rw [firstK, List.length_take] at this
    have h1 : ¬ k < 1 := fun hk => hb (Or.inr (Or.inr (Or.inr (Or.inl ⟨k, rfl, hk⟩))))
    omega
  · intro m hm'
    obtain ⟨j, _, hj⟩ := forall₂_mem_right hf hm'
    exact hj.1

/-- Witness: acceptable arguments. -/
example : ¬ FjBadArgs 0.4 (some 10) (some 2.5) (.int 3) := by
  rintro (⟨c, h, h'⟩ | h | ⟨c, h, h'⟩ | ⟨k, h, h'⟩ | h)
  · injection h with h; rw [← h] at h'; norm_num at h'
  · norm_num at h
  · injection h with h; rw [← h] at h'; norm_num at h'
  · injection h with h; omega
  · cases h

/-- Witness: a jet in the transverse plane passes every positive cut. -/
example : EtaOk (some 2.5) ⟨⟨30, 0, 0, 30⟩, [0, 2]⟩ := by
  intro cut hcut
  injection hcut with hcut
  refine ⟨0, ?_, by rw [abs_zero, ← hcut]; norm_num⟩
  have hs : P4.spatialMag ⟨30, 0, 0, 30⟩ ≠ 0 := by
    intro h
    have : (P4.ztPol ⟨30, 0, 0, 30⟩) = 0 := norm_eq_zero.1 h
    have h2 := congrArg Complex.im this
    simp only [P4.ztPol, Complex.zero_im] at h2
    have h3 := congrArg Complex.re (norm_eq_zero.1 h2)
    norm_num [P4.xyPol] at h3
  simp [P4.eta, hs]

/-- Witness: a function with the contract of `argsort` exists. -/
example : ∃ argsort, IsArgsortR argsort := by
  refine ⟨fun l => (List.range l.length).insertionSort (fun i j => l.getD i 0 ≤ l.getD j 0), fun l => ?_⟩
  refine ⟨List.perm_insertionSort _ _, ?_⟩
  have hs : ((List.range l.length).insertionSort (fun i j => l.getD i 0 ≤ l.getD j 0)).Pairwise
      (fun i j => l.getD i 0 ≤ l.getD j 0) := by
    have : Std.Total (fun i j : Nat => l.getD i 0 ≤ l.getD j 0) := ⟨fun a b => le_total _ _⟩
    have : IsTrans Nat (fun i j : Nat => l.getD i 0 ≤ l.getD j 0) := ⟨fun a b c => le_trans⟩
    exact List.pairwise_insertionSort _ _
  intro i j hij a b h1 h2 x y hx hy
  obtain ⟨hi, h1⟩ := List.getElem?_eq_some_iff.1 h1
  obtain ⟨hj, h2⟩ := List.getElem?_eq_some_iff.1 h2
  have := (List.pairwise_iff_getElem.1 hs) i j hi hj hij
  rw [h1, h2] at this
  simpa [List.getD_eq_getElem?_getD, hx, hy] using this

/-- Witness: the mask of two constituents. -/
example : IsMaskOf 4 [0, 2] [true, false, true, false] := by
  refine ⟨rfl, fun i => ?_⟩
  match i with
  | 0 => simp
  | 1 => simp
  | 2 => simp
  | 3 => simp
  | n + 4 => simp

end Gcl
