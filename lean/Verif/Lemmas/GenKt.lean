import Verif.Spec.GenKt
import Verif.Props.Fastjet
import Verif.Props.Kinematics
import Verif.Props.OrderFree
/-!
# Lemmas on the generalised-kt algorithm
-/
namespace Gcl
set_option autoImplicit false
open Spec Real

theorem KtRun.constituents {S : KtRule} {R : ℝ} {act jets : List Jet} (h : KtRun S R act jets) :
    (act.flatMap Jet.constituents).Perm (jets.flatMap Jet.constituents) := by
  induction h with
  | done => exact .refl _
  | beam h _ _ ih =>
    refine (h.flatMap_right _).trans ?_
    simp only [List.flatMap_cons]
    exact ih.append_left _
  | pair h _ _ _ ih =>
    refine (h.flatMap_right _).trans ?_
    simpa [Jet.join, List.flatMap_cons, List.append_assoc] using ih

theorem KtRun.keeps {S : KtRule} {R : ℝ} {P : Jet → Prop} (hj : ∀ a b, P a → P b → P (a.join b)) {act jets : List Jet}
    (h : KtRun S R act jets) (ha : ∀ a ∈ act, P a) : ∀ a ∈ jets, P a := by
  induction h with
  | done => exact ha
  | beam h _ _ ih =>
    intro a hm
    rcases List.mem_cons.1 hm with rfl | hm
    · exact ha _ (h.mem_iff.2 (by simp))
    · exact ih (fun a hr => ha a (h.mem_iff.2 (by simp [hr]))) a hm
  | pair h _ _ _ ih =>
    refine ih (fun a hr => ?_)
    rcases List.mem_cons.1 hr with rfl | hr
    · exact hj _ _ (ha _ (h.mem_iff.2 (by simp))) (ha _ (h.mem_iff.2 (by simp)))
    · exact ha a (h.mem_iff.2 (by simp [hr]))

theorem ktInput_constituents (pmu : List P4) : (ktInput pmu).flatMap Jet.constituents = List.range pmu.length := by
  have : ∀ k, (((pmu.zipIdx k).map (fun pi => (⟨pi.1, [pi.2]⟩ : Jet))).flatMap Jet.constituents) = List.range' k pmu.length := by
    induction pmu with
    | nil => intro k; rfl
    | cons p ps ih =>
      intro k
      simp only [List.zipIdx_cons, List.map_cons, List.flatMap_cons, ih, List.length_cons, List.range'_succ]
      rfl
  rw [List.range_eq_range']
  exact this 0

/-- The momenta at the positions given. -/
def atPos (pmu : List P4) (is : List Nat) : List P4 := is.filterMap (fun i => pmu[i]?)

theorem ktInput_momenta (pmu : List P4) : ∀ a ∈ ktInput pmu, a.pmu = total (atPos pmu a.constituents) := by
  intro a ha
  obtain ⟨⟨p, i⟩, h1, rfl⟩ := List.mem_map.1 ha
  have := List.mem_zipIdx_iff_getElem?.1 h1
  simp only [atPos, List.filterMap_cons, this, List.filterMap_nil]
  cases p
  simp [total]

theorem ktInput_nonempty (pmu : List P4) : ∀ a ∈ ktInput pmu, a.constituents ≠ [] := by
  intro a ha
  obtain ⟨⟨p, i⟩, h1, rfl⟩ := List.mem_map.1 ha
  simp

/-- What is known of the jets of a run from the particles. -/
theorem ktRun_input {S : KtRule} {R : ℝ} {pmu : List P4} {jets : List Jet} (h : KtRun S R (ktInput pmu) jets) :
    (jets.flatMap Jet.constituents).Perm (List.range pmu.length) ∧
    (∀ j ∈ jets, j.pmu = total (atPos pmu j.constituents)) ∧ ∀ j ∈ jets, j.constituents ≠ [] := by
  refine ⟨?_, ?_, ?_⟩
  · rw [← ktInput_constituents]; exact h.constituents.symm
  · refine h.keeps (fun a b ha hb => ?_) (ktInput_momenta pmu)
    simp only [Jet.join, atPos, List.filterMap_append]
    rw [total_append, ha, hb]; rfl
  · refine h.keeps (fun a b ha hb => ?_) (ktInput_nonempty pmu)
    simp [Jet.join, ha]

theorem jets_in_range {jets : List Jet} {n : Nat} (h : (jets.flatMap Jet.constituents).Perm (List.range n)) :
    (∀ j ∈ jets, ∀ i ∈ j.constituents, i < n) ∧ (∀ j ∈ jets, j.constituents.Nodup) ∧
    jets.Pairwise (fun a b => ∀ i ∈ a.constituents, i ∉ b.constituents) := by
  have hn : (jets.flatMap Jet.constituents).Nodup := h.nodup_iff.2 List.nodup_range
  rw [List.nodup_flatMap] at hn
  refine ⟨fun j hj i hi => ?_, hn.1, ?_⟩
  · have := h.mem_iff.1 (List.mem_flatMap.2 ⟨j, hj, hi⟩)
    simpa using this
  · refine hn.2.imp (fun {a b} hab i hi hi' => ?_)
    exact List.disjoint_left.1 hab hi hi'

/-- Selecting by a mask is taking the positions at which it is true. -/
theorem select_perm (pmu : List P4) (idxs : List Nat) (m : List Bool) (hm : IsMaskOf pmu.length idxs m)
    (hd : idxs.Nodup) : (((pmu.zip m).filter Prod.snd).map Prod.fst).Perm (atPos pmu idxs) := by
  have key : ∀ (ps : List P4) (m : List Bool), m.length = ps.length →
      ((ps.zip m).filter Prod.snd).map Prod.fst =
        atPos ps ((List.range ps.length).filter (fun i => m[i]? == some true)) := by
    intro ps
    induction ps with
    | nil => intro m _; simp [atPos]
    | cons p ps ih =>
      intro m hl
      cases m with
      | nil => simp at hl
      | cons b m =>
        have hl' : m.length = ps.length := by simpa using hl
        simp only [List.length_cons, List.range_succ_eq_map, List.filter_cons, List.zip_cons_cons]
        have e : atPos (p :: ps) (((List.range ps.length).map Nat.succ).filter (fun i => (b :: m)[i]? == some true)) =
            ((ps.zip m).filter Prod.snd).map Prod.fst := by
          rw [ih m hl', List.filter_map]
          simp [atPos, List.filterMap_map, Function.comp_def]
        cases b
        · simpa using e.symm
        · simp only [if_true, List.map_cons, List.getElem?_cons_zero, beq_self_eq_true]
          rw [show atPos (p :: ps) (0 :: ((List.range ps.length).map Nat.succ).filter
            (fun i => (true :: m)[i]? == some true)) = p :: atPos (p :: ps) (((List.range ps.length).map Nat.succ).filter
            (fun i => (true :: m)[i]? == some true)) by simp [atPos], e]
  rw [key pmu m hm.1]
  refine List.Perm.filterMap _ ?_
  rw [List.perm_ext_iff_of_nodup (List.nodup_range.filter _) hd]
  intro i
  simp only [List.mem_filter, List.mem_range, beq_iff_eq, ← hm.2 i]
  constructor
  · exact fun h => h.2
  · intro h
    refine ⟨?_, h⟩
    have := (List.getElem?_eq_some_iff.1 h).1
    rw [hm.1] at this
    exact this

theorem momentumOf_eq (pmu : List P4) (idxs : List Nat) (m : List Bool) (hm : IsMaskOf pmu.length idxs m)
    (hd : idxs.Nodup) : momentumOf pmu m = total (atPos pmu idxs) :=
  total_perm (select_perm pmu idxs m hm hd)

/-- A run never gets stuck. -/
theorem ktRun_exists (S : KtRule) (hs : ∀ p, 0 ≤ S.scale p) (hd : ∀ p q, 0 ≤ S.dist p q)
    (hsym : ∀ p q, S.dist p q = S.dist q p) {R : ℝ} (hR : 0 < R) (act : List Jet) : ∃ jets, KtRun S R act jets := by
  have main : ∀ n, ∀ act : List Jet, act.length = n → ∃ jets, KtRun S R act jets := by
    intro n
    induction n with
    | zero =>
      intro act h
      rw [List.length_eq_zero_iff] at h
      subst h
      exact ⟨[], .done⟩
    | succ n ih =>
      intro act hl
      have hne : act ≠ [] := by rintro rfl; simp at hl
      -- the one nearest to the beam
      obtain ⟨i, hi, himin⟩ : ∃ i ∈ act, ∀ k ∈ act, S.scale i.pmu ≤ S.scale k.pmu := by
        obtain ⟨i, hi⟩ := Option.ne_none_iff_exists'.1 (mt List.argmin_eq_none.1 hne : act.argmin (fun j => S.scale j.pmu) ≠ none)
        exact ⟨i, List.argmin_mem hi, fun k hk => List.le_of_mem_argmin (f := fun j : Jet => S.scale j.pmu) hk hi⟩
      obtain ⟨l1, l2, rfl⟩ := List.append_of_mem hi
      by_cases hp : (l1 ++ i :: l2).Pairwise (fun a b => S.scale i.pmu ≤ S.pair R a b)
      · obtain ⟨jets, hj⟩ := ih (l1 ++ l2) (by simp at hl ⊢; omega)
        exact ⟨i :: jets, .beam List.perm_middle ⟨himin, hp⟩ hj⟩
      · -- the pair nearest to each other
        have hpairs : ∀ l : List Jet, (∀ a b rest, l.Perm (a :: b :: rest) → S.scale i.pmu ≤ S.pair R a b) →
            l.Pairwise (fun a b => S.scale i.pmu ≤ S.pair R a b) := by
          intro l
          induction l with
          | nil => intro _; exact .nil
          | cons a l ihl =>
            intro h
            refine .cons (fun b hb => ?_) (ihl (fun b c rest hp => h b c (a :: rest) ?_))
            · obtain ⟨u, v, rfl⟩ := List.append_of_mem hb
              exact h a b (u ++ v) (.cons a List.perm_middle)
            · exact (hp.cons a).trans ((List.Perm.swap b a _).trans ((List.Perm.swap c a _).cons b))
        have hex : ∃ a b rest, (l1 ++ i :: l2).Perm (a :: b :: rest) ∧ S.pair R a b < S.scale i.pmu := by
          by_contra hcon
          refine hp (hpairs _ (fun a b rest h => ?_))
          by_contra hlt
          exact hcon ⟨a, b, rest, h, not_le.1 hlt⟩
        -- all values of pairs
        let vals : List Jet → List (Jet × Jet) := fun l => l.flatMap (fun a => l.map (fun b => (a, b)))
        let Ok : Jet × Jet → Prop := fun ab => ∃ rest, (l1 ++ i :: l2).Perm (ab.1 :: ab.2 :: rest)
        classical
        let cand := (vals (l1 ++ i :: l2)).filter (fun ab => decide (Ok ab))
        have hmem : ∀ a b, (∃ rest, (l1 ++ i :: l2).Perm (a :: b :: rest)) → (a, b) ∈ cand := by
          rintro a b ⟨rest, h⟩
          refine List.mem_filter.2 ⟨?_, by simpa [Ok] using ⟨rest, h⟩⟩
          refine List.mem_flatMap.2 ⟨a, h.mem_iff.2 (by simp), List.mem_map.2 ⟨b, h.mem_iff.2 (by simp), rfl⟩⟩
        obtain ⟨a0, b0, rest0, h0, hlt0⟩ := hex
        have hcne : cand ≠ [] := List.ne_nil_of_mem (hmem a0 b0 ⟨rest0, h0⟩)
        obtain ⟨⟨a, b⟩, hab⟩ := Option.ne_none_iff_exists'.1
          (mt List.argmin_eq_none.1 hcne : cand.argmin (fun ab => S.pair R ab.1 ab.2) ≠ none)
        have hmin : ∀ x ∈ cand, S.pair R a b ≤ S.pair R x.1 x.2 := fun x hx => List.le_of_mem_argmin (f := fun ab : Jet × Jet => S.pair R ab.1 ab.2) hx hab
        have hin := List.argmin_mem hab
        obtain ⟨rest, hr⟩ : ∃ rest, (l1 ++ i :: l2).Perm (a :: b :: rest) := by
          have := (List.mem_filter.1 hin).2
          simpa [Ok] using this
        have hlt : S.pair R a b < S.scale i.pmu := lt_of_le_of_lt (hmin _ (hmem a0 b0 ⟨rest0, h0⟩)) hlt0
        have hgen : ∀ l : List Jet, (∀ x y rest, l.Perm (x :: y :: rest) → S.pair R a b ≤ S.pair R x y) →
            l.Pairwise (fun x y => S.pair R a b ≤ S.pair R x y) := by
          intro l
          induction l with
          | nil => intro _; exact .nil
          | cons x l ihl =>
            intro h
            refine .cons (fun y hy => ?_) (ihl (fun y z rest hp => h y z (x :: rest) ?_))
            · obtain ⟨u, v, rfl⟩ := List.append_of_mem hy
              exact h x y (u ++ v) (.cons x List.perm_middle)
            · exact (hp.cons x).trans ((List.Perm.swap y x _).trans ((List.Perm.swap z x _).cons y))
        obtain ⟨jets, hj⟩ := ih (a.join b :: rest) (by have := hr.length_eq; rw [hl] at this; simp at this ⊢; omega)
        refine ⟨jets, .pair hr ⟨fun k hk => (hlt.le.trans (himin k hk)), hgen _ (fun x y rest h => hmin (x, y) (hmem x y ⟨rest, h⟩))⟩ ?_ hj⟩
        -- nearer than R
        have ha := himin a (hr.mem_iff.2 (by simp))
        have hb := himin b (hr.mem_iff.2 (by simp))
        by_contra hfar
        rw [not_lt] at hfar
        have h1 : 1 ≤ (S.dist a.pmu b.pmu / R) ^ 2 := by
          have : 1 ≤ S.dist a.pmu b.pmu / R := by rwa [le_div_iff₀ hR, one_mul]
          nlinarith
        have h2 : S.scale i.pmu ≤ min (S.scale a.pmu) (S.scale b.pmu) := le_min ha hb
        have h3 : 0 ≤ S.scale i.pmu := hs _
        unfold KtRule.pair at hlt
        nlinarith
  exact main _ act rfl

end Gcl
