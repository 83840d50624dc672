import Verif.Model.Transform
import Verif.Lemmas.EventShape
import Verif.Lemmas.Partition
import Verif.Lemmas.Hard
import Verif.Props.Index
import Verif.Props.Kinematics
/-!
# C84: `from_spherical_uniform`
-/
namespace Gcl
set_option autoImplicit false
open Real Spec

/-- The components of one element. -/
theorem sphericalElem_eq (m e u f : ℝ) :
    sphericalElem m e u f = ⟨m * cos (arccos (1 - 2 * u)) * cos f, m * cos (arccos (1 - 2 * u)) * sin f,
      m * sin (arccos (1 - 2 * u)), e⟩ := by
  have h : ∀ t : ℝ, Complex.exp (Complex.I * (t : ℂ)) = ⟨cos t, sin t⟩ := by
    intro t
    rw [mul_comm, Complex.exp_mul_I]
    apply Complex.ext <;> simp [← Complex.ofReal_cos, ← Complex.ofReal_sin]
  unfold sphericalElem npArccos
  simp only [h]
  apply P4.ext <;> simp [Complex.cos_ofReal_re]

/-- Every element built from a non-negative magnitude has that magnitude, its energy, and `pz ≥ 0`. -/
theorem sphericalElem_spec (m e u f : ℝ) (hm : 0 ≤ m) :
    norm3 (sphericalElem m e u f) = m ∧ (sphericalElem m e u f).e = e ∧ 0 ≤ (sphericalElem m e u f).z := by
  rw [sphericalElem_eq]
  refine ⟨?_, rfl, mul_nonneg hm (sin_nonneg_of_nonneg_of_le_pi (arccos_nonneg _) (arccos_le_pi _))⟩
  unfold norm3
  simp only
  have h1 := sin_sq_add_cos_sq f
  have h2 := sin_sq_add_cos_sq (arccos (1 - 2 * u))
  rw [show (m * cos (arccos (1 - 2 * u)) * cos f) ^ 2 + (m * cos (arccos (1 - 2 * u)) * sin f) ^ 2 +
    (m * sin (arccos (1 - 2 * u))) ^ 2 = m ^ 2 by
      linear_combination m ^ 2 * cos (arccos (1 - 2 * u)) ^ 2 * h1 + m ^ 2 * h2]
  exact sqrt_sq hm

theorem sphericalElems_getElem? (ms es us fs : List ℝ) (n : Nat) (h1 : ms.length = n) (h2 : es.length = n)
    (h3 : us.length = n) (h4 : fs.length = n) :
    (sphericalElems ms es us fs).length = n ∧
    ∀ (i : Nat) (p : P4), (sphericalElems ms es us fs)[i]? = some p →
      ∃ m e u f, ms[i]? = some m ∧ es[i]? = some e ∧ us[i]? = some u ∧ fs[i]? = some f ∧
        p = sphericalElem m e u f := by
  induction n generalizing ms es us fs with
  | zero =>
    have := List.length_eq_zero_iff.1 h1
    subst this
    simp [sphericalElems]
  | succ n ih =>
    cases ms with
    | nil => simp at h1
    | cons m ms =>
    cases es with
    | nil => simp at h2
    | cons e es =>
    cases us with
    | nil => simp at h3
    | cons u us =>
    cases fs with
    | nil => simp at h4
    | cons f fs =>
      obtain ⟨i1, i2⟩ := ih ms es us fs (by simpa using h1) (by simpa using h2) (by simpa using h3)
        (by simpa using h4)
      rw [sphericalElems]
      refine ⟨by simp [i1], fun i p hp => ?_⟩
      cases i with
      | zero =>
        simp only [List.getElem?_cons_zero, Option.some.injEq] at hp
        exact ⟨m, e, u, f, rfl, rfl, rfl, rfl, hp.symm⟩
      | succ i =>
        simp only [List.getElem?_cons_succ] at hp ⊢
        exact i2 i p hp

/-- `√(E² - m²)` for a drawn mass. -/
theorem rootDiff_draw {e m : ℝ} (h0 : 0 ≤ m) (h1 : m ≤ e) :
    0 ≤ rootDiffTwoSquares e m ∧ rootDiffTwoSquares e m ≤ e ∧
      rootDiffTwoSquares e m ^ 2 = e ^ 2 - m ^ 2 := by
  have hs := rootDiff_signed e m
  have hnn : 0 ≤ rootDiffTwoSquares e m := by
    by_contra hneg
    rw [not_le] at hneg
    rw [abs_of_neg hneg] at hs
    nlinarith [mul_pos_of_neg_of_neg hneg hneg]
  rw [abs_of_nonneg hnn] at hs
  refine ⟨hnn, ?_, by nlinarith⟩
  apply le_of_sq_le_sq (a := rootDiffTwoSquares e m) _ (le_trans h0 h1)
  nlinarith

/-- The draws are as the random generator makes them: `n` energies in `[0, maxE]`, masses between zero and
the energy of their particle — for all particles if `massless = 0`, for those not marked massless
(`rand ≥ massless`), in order, if `0 < massless < 1`. -/
def Spec.GoodDraws (n : Nat) (maxE massless : ℝ) (energy rand mass us fs : List ℝ) : Prop :=
  energy.length = n ∧ us.length = n ∧ fs.length = n ∧ (∀ e ∈ energy, 0 ≤ e ∧ e ≤ maxE) ∧
  (massless = 0 → List.Forall₂ (fun m e => 0 ≤ m ∧ m ≤ e) mass energy) ∧
  (0 < massless → massless < 1 → rand.length = n ∧
    List.Forall₂ (fun m p => 0 ≤ m ∧ m ≤ Prod.snd p) mass
      ((rand.zip energy).filter (fun p => decide (massless ≤ p.1))))

/-- Numbers `≥ r` are those not `< r`. -/
theorem notMask_eq (massless : ℝ) (rand : List ℝ) [inst : ∀ r, Decidable (r < massless)] :
    rand.map (fun r => !@decide (r < massless) (inst r)) = rand.map (fun r => decide (massless ≤ r)) := by
  apply List.map_congr_left
  intro r _
  by_cases h : r < massless <;> simp [h, not_le.2, not_lt.1]

theorem selected_zip_filter (massless : ℝ) (rand energy : List ℝ) :
    selected energy (rand.map (fun r => decide (massless ≤ r))) =
      ((rand.zip energy).filter (fun p => decide (massless ≤ p.1))).map Prod.snd := by
  induction rand generalizing energy with
  | nil => cases energy <;> rfl
  | cons r rand ih =>
    cases energy with
    | nil => rfl
    | cons e energy =>
      rw [List.map_cons, selected_cons, ih, List.zip_cons_cons, List.filter_cons]
      by_cases h : massless ≤ r <;> simp [h]

theorem trueIdxs_count (m : List Bool) (off : Nat) : (trueIdxs m off).length = m.count true := by
  induction m generalizing off with
  | nil => rfl
  | cons b m ih => cases b <;> simp [trueIdxs, ih]

/-- What a momentum magnitude is drawn as. -/
def Spec.Drawn (massless r e p : ℝ) (drawn : Option ℝ) : Prop :=
  (r < massless → p = e) ∧ (massless ≤ r → ∃ m, drawn = some m ∧ 0 ≤ m ∧ m ≤ e ∧ p = rootDiffTwoSquares e m)

theorem go_draws (massless : ℝ) : ∀ (rand energy mass : List ℝ), rand.length = energy.length →
    List.Forall₂ (fun m p => 0 ≤ m ∧ m ≤ Prod.snd p) mass
      ((rand.zip energy).filter (fun p => decide (massless ≤ p.1))) →
    (setMaskVals.go energy (rand.map (fun r => decide (massless ≤ r)))
      (List.zipWith rootDiffTwoSquares
        (((rand.zip energy).filter (fun p => decide (massless ≤ p.1))).map Prod.snd) mass)).length =
      energy.length ∧
    ∀ (i : Nat) (r e p : ℝ), rand[i]? = some r → energy[i]? = some e →
      (setMaskVals.go energy (rand.map (fun r => decide (massless ≤ r)))
        (List.zipWith rootDiffTwoSquares
          (((rand.zip energy).filter (fun p => decide (massless ≤ p.1))).map Prod.snd) mass))[i]? = some p →
      Drawn massless r e p mass[(rand.take i).countP (fun r => decide (massless ≤ r))]? := by
  intro rand
  induction rand with
  | nil =>
    intro energy mass hl _
    have : energy = [] := List.length_eq_zero_iff.1 (by simpa using hl.symm)
    subst this
    simp [setMaskVals.go]
  | cons r rand ih =>
    intro energy mass hl hf
    cases energy with
    | nil => simp at hl
    | cons e energy =>
      have hl' : rand.length = energy.length := by simpa using hl
      by_cases h : massless ≤ r
      · simp only [List.zip_cons_cons, List.filter_cons, h, decide_true, if_true] at hf ⊢
        cases hf with
        | cons hm hrest =>
          rename_i m mass'
          obtain ⟨i1, i2⟩ := ih energy mass' hl' hrest
          simp only [List.map_cons, h, decide_true, List.zipWith_cons_cons, setMaskVals.go]
          refine ⟨by simp [i1], fun i r' e' p' h1 h2 h3 => ?_⟩
          cases i with
          | zero =>
            simp only [List.getElem?_cons_zero, Option.some.injEq] at h1 h2 h3
            subst h1; subst h2; subst h3
            exact ⟨fun h' => absurd h (not_le.2 h'), fun _ => ⟨m, rfl, hm.1, hm.2, rfl⟩⟩
          | succ i =>
            simp only [List.getElem?_cons_succ] at h1 h2 h3
            rw [List.take_succ_cons, List.countP_cons_of_pos (by simpa using h), List.getElem?_cons_succ]
            exact i2 i r' e' p' h1 h2 h3
      · simp only [List.zip_cons_cons, List.filter_cons, h, decide_false, Bool.false_eq_true, if_false] at hf ⊢
        obtain ⟨i1, i2⟩ := ih energy mass hl' hf
        simp only [List.map_cons, h, decide_false, setMaskVals.go]
        refine ⟨by simp [i1], fun i r' e' p' h1 h2 h3 => ?_⟩
        cases i with
        | zero =>
          simp only [List.getElem?_cons_zero, Option.some.injEq] at h1 h2 h3
          subst h1; subst h2; subst h3
          exact ⟨fun _ => rfl, fun h' => absurd h' h⟩
        | succ i =>
          simp only [List.getElem?_cons_succ] at h1 h2 h3
          rw [List.take_succ_cons, List.countP_cons_of_neg (by simpa using h)]
          exact i2 i r' e' p' h1 h2 h3

/-- **C84** For every outcome of the random draws: `size` momenta with `0 ≤ |p| ≤ E ≤ max_energy`; those
marked massless (all for `massless = 1`, those with draw below `massless` otherwise) have `|p| = E`, the
others the mass drawn for them, between zero and their energy: the `i`-th drawn for the `i`-th particle when
`massless = 0`, and the `k`-th drawn for the `k`-th one not marked massless otherwise. -/
theorem C84_momenta (n : Nat) (maxE massless : ℝ) (energy rand mass us fs : List ℝ)
    (h0 : 0 ≤ massless) (h1 : massless ≤ 1) (hd : GoodDraws n maxE massless energy rand mass us fs) :
    ∃ ps, fromSphericalUniform massless energy rand mass us fs = .ok ps ∧ ps.length = n ∧
      ∀ (i : Nat) (p : P4), ps[i]? = some p →
        energy[i]? = some p.e ∧ norm3 p ≤ p.e ∧ p.e ≤ maxE ∧
        (massless = 1 ∨ (0 < massless ∧ ∃ r, rand[i]? = some r ∧ r < massless) → norm3 p = p.e) ∧
        (massless = 0 → ∃ m, mass[i]? = some m ∧ norm3 p ^ 2 = p.e ^ 2 - m ^ 2) ∧
        (0 < massless → massless < 1 → ∀ r, rand[i]? = some r → massless ≤ r →
          ∃ m, mass[(rand.take i).countP (fun r => decide (massless ≤ r))]? = some m ∧ norm3 p ^ 2 = p.e ^ 2 - m ^ 2) := by
  obtain ⟨he, hu, hf, hen, hm0, hmid⟩ := hd
  have hbound : ∀ (i : Nat) (e : ℝ), energy[i]? = some e → 0 ≤ e ∧ e ≤ maxE := by
    intro i e h
    exact hen e (List.mem_of_getElem? h)
  unfold fromSphericalUniform
  rw [if_neg (not_not.2 ⟨h0, h1⟩)]
  by_cases hz : massless = 0
  · rw [if_pos hz]
    have hF := hm0 hz
    obtain ⟨s1, s2⟩ := sphericalElems_getElem? (List.zipWith rootDiffTwoSquares energy mass) energy us fs n
      (by rw [List.length_zipWith, he, hF.length_eq, he, min_self]) he hu hf
    refine ⟨_, rfl, s1, fun i p hp => ?_⟩
    obtain ⟨q, e, u, f, a1, a2, a3, a4, rfl⟩ := s2 i p hp
    rw [List.getElem?_zipWith, a2] at a1
    have hi : i < mass.length := by
      rw [hF.length_eq]; exact (List.getElem?_eq_some_iff.1 a2).1
    rw [List.getElem?_eq_getElem hi] at a1
    simp only [Option.some.injEq] at a1
    have hme : 0 ≤ mass[i] ∧ mass[i] ≤ e := by
      have := List.forall₂_iff_get.1 hF
      have h2 := this.2 i hi (by rw [← hF.length_eq]; exact hi)
      have : energy.get ⟨i, by rw [← hF.length_eq]; exact hi⟩ = e := by
        have := (List.getElem?_eq_some_iff.1 a2).2
        simpa using this
      rw [this] at h2
      simpa using h2
    obtain ⟨r1, r2, r3⟩ := rootDiff_draw hme.1 hme.2
    obtain ⟨b1, b2, _⟩ := sphericalElem_spec q e u f (a1 ▸ r1)
    rw [b1, b2]
    refine ⟨a2, a1 ▸ r2, (hbound i e a2).2, ?_, fun _ => ⟨mass[i], by simp, by rw [← a1]; exact r3⟩, fun h => absurd hz h.ne'⟩
    rintro (h | ⟨h, _⟩)
    · rw [hz] at h; norm_num at h
    · rw [hz] at h; exact absurd h (lt_irrefl _)
  rw [if_neg hz]
  by_cases h1' : massless < 1
  · rw [if_pos h1']
    have hpos : 0 < massless := lt_of_le_of_ne h0 (Ne.symm hz)
    obtain ⟨hr, hF⟩ := hmid hpos h1'
    obtain ⟨g1, g2⟩ := go_draws massless rand energy mass (by rw [hr, he]) hF
    have hlen : (rand.map (fun r => decide (massless ≤ r))).length = energy.length := by simp [hr, he]
    have hsel := (C20_mask energy (rand.map (fun r => decide (massless ≤ r)))).1 hlen
    rw [selected_zip_filter] at hsel
    have hvals : (List.zipWith rootDiffTwoSquares
        (((rand.zip energy).filter (fun p => decide (massless ≤ p.1))).map Prod.snd) mass).length =
        (trueIdxs (rand.map (fun r => decide (massless ≤ r)))).length := by
      rw [trueIdxs_count, ← C20_mask_length energy _ hlen, selected_zip_filter, List.length_zipWith,
        List.length_map, hF.length_eq, min_self]
    have hset : setMaskVals energy (rand.map (fun r => decide (massless ≤ r)))
        (List.zipWith rootDiffTwoSquares
          (((rand.zip energy).filter (fun p => decide (massless ≤ p.1))).map Prod.snd) mass) =
        .ok (setMaskVals.go energy (rand.map (fun r => decide (massless ≤ r)))
          (List.zipWith rootDiffTwoSquares
            (((rand.zip energy).filter (fun p => decide (massless ≤ p.1))).map Prod.snd) mass)) := by
      unfold setMaskVals
      rw [if_neg (by simpa using hlen), if_pos hvals]
    simp only [notMask_eq, hsel, hset]
    obtain ⟨s1, s2⟩ := sphericalElems_getElem? _ energy us fs n (by rw [g1, he]) he hu hf
    refine ⟨_, rfl, s1, fun i p hp => ?_⟩
    obtain ⟨q, e, u, f, a1, a2, a3, a4, rfl⟩ := s2 i p hp
    have hi : i < rand.length := by rw [hr, ← he]; exact (List.getElem?_eq_some_iff.1 a2).1
    have hD := g2 i rand[i] e q (by simp) a2 a1
    have hq : 0 ≤ q ∧ q ≤ e := by
      rcases lt_or_ge rand[i] massless with h | h
      · rw [hD.1 h]; exact ⟨(hbound i e a2).1, le_refl _⟩
      · obtain ⟨m, -, m1, m2, rfl⟩ := hD.2 h
        obtain ⟨r1, r2, _⟩ := rootDiff_draw m1 m2
        exact ⟨r1, r2⟩
    obtain ⟨b1, b2, _⟩ := sphericalElem_spec q e u f hq.1
    rw [b1, b2]
    refine ⟨a2, hq.2, (hbound i e a2).2, ?_, fun h => absurd h hz, fun _ _ r hr' hle => ?_⟩
    rotate_left
    · rw [List.getElem?_eq_getElem hi] at hr'
      cases hr'
      obtain ⟨m, m0, m1, m2, rfl⟩ := hD.2 hle
      exact ⟨m, m0, (rootDiff_draw m1 m2).2.2⟩
    rintro (h | ⟨_, r, h2, h3⟩)
    · exact absurd h h1'.ne
    · rw [List.getElem?_eq_getElem hi] at h2
      simp only [Option.some.injEq] at h2
      exact hD.1 (h2 ▸ h3)
  · rw [if_neg h1']
    obtain ⟨s1, s2⟩ := sphericalElems_getElem? energy energy us fs n he he hu hf
    refine ⟨_, rfl, s1, fun i p hp => ?_⟩
    obtain ⟨q, e, u, f, a1, a2, a3, a4, rfl⟩ := s2 i p hp
    have : q = e := by rw [a1] at a2; exact Option.some.inj a2
    subst this
    obtain ⟨b1, b2, _⟩ := sphericalElem_spec q q u f (hbound i q a2).1
    rw [b1, b2]
    exact ⟨a2, le_refl _, (hbound i q a2).2, fun _ => rfl, fun h => absurd h hz, fun _ h => absurd h h1'⟩

/-- **C84** The error. -/
theorem C84_error (massless : ℝ) (energy rand mass us fs : List ℝ) (h : ¬ (0 ≤ massless ∧ massless ≤ 1)) :
    fromSphericalUniform massless energy rand mass us fs = .error .valueError := by
  unfold fromSphericalUniform; rw [if_pos h]

/-- **C84** The expectation that the whole sphere is covered is refuted: for every outcome of the draws every momentum has
`pz ≥ 0`, so no direction of the lower hemisphere is ever produced. -/
theorem C84_false (n : Nat) (maxE massless : ℝ) (energy rand mass us fs : List ℝ)
    (h0 : 0 ≤ massless) (h1 : massless ≤ 1) (hd : GoodDraws n maxE massless energy rand mass us fs)
    (ps : List P4) (h : fromSphericalUniform massless energy rand mass us fs = .ok ps) :
    ∀ p ∈ ps, 0 ≤ p.z := by
  have key : ∀ (ms es us fs : List ℝ), (∀ m ∈ ms, 0 ≤ m) → ∀ p ∈ sphericalElems ms es us fs, 0 ≤ p.z := by
    intro ms
    induction ms with
    | nil => intro es us fs _ p hp; simp [sphericalElems] at hp
    | cons m ms ih =>
      intro es us fs hm p hp
      cases es with
      | nil => simp [sphericalElems] at hp
      | cons e es =>
      cases us with
      | nil => simp [sphericalElems] at hp
      | cons u us =>
      cases fs with
      | nil => simp [sphericalElems] at hp
      | cons f fs =>
        rw [sphericalElems] at hp
        rcases List.mem_cons.1 hp with rfl | hp
        · exact (sphericalElem_spec m e u f (hm m (by simp))).2.2
        · exact ih es us fs (fun q hq => hm q (by simp [hq])) p hp
  obtain ⟨he, hu, hf, hen, hm0, hmid⟩ := hd
  unfold fromSphericalUniform at h
  rw [if_neg (not_not.2 ⟨h0, h1⟩)] at h
  by_cases hz : massless = 0
  · rw [if_pos hz] at h
    injection h with h
    subst h
    apply key
    intro m hm
    obtain ⟨i, hi, rfl⟩ := List.mem_iff_getElem.1 hm
    have hF := List.forall₂_iff_get.1 (hm0 hz)
    rw [List.getElem_zipWith]
    rw [List.length_zipWith] at hi
    have := hF.2 i (by omega) (by omega)
    exact (rootDiff_draw (by simpa using this.1) (by simpa using this.2)).1
  rw [if_neg hz] at h
  by_cases h1' : massless < 1
  · rw [if_pos h1'] at h
    have hpos : 0 < massless := lt_of_le_of_ne h0 (Ne.symm hz)
    obtain ⟨hr, hF⟩ := hmid hpos h1'
    obtain ⟨g1, g2⟩ := go_draws massless rand energy mass (by rw [hr, he]) hF
    have hlen : (rand.map (fun r => decide (massless ≤ r))).length = energy.length := by simp [hr, he]
    have hsel := (C20_mask energy (rand.map (fun r => decide (massless ≤ r)))).1 hlen
    rw [selected_zip_filter] at hsel
    have hvals : (List.zipWith rootDiffTwoSquares
        (((rand.zip energy).filter (fun p => decide (massless ≤ p.1))).map Prod.snd) mass).length =
        (trueIdxs (rand.map (fun r => decide (massless ≤ r)))).length := by
      rw [trueIdxs_count, ← C20_mask_length energy _ hlen, selected_zip_filter, List.length_zipWith,
        List.length_map, hF.length_eq, min_self]
    have hset : setMaskVals energy (rand.map (fun r => decide (massless ≤ r)))
        (List.zipWith rootDiffTwoSquares
          (((rand.zip energy).filter (fun p => decide (massless ≤ p.1))).map Prod.snd) mass) =
        .ok (setMaskVals.go energy (rand.map (fun r => decide (massless ≤ r)))
          (List.zipWith rootDiffTwoSquares
            (((rand.zip energy).filter (fun p => decide (massless ≤ p.1))).map Prod.snd) mass)) := by
      unfold setMaskVals
      rw [if_neg (by simpa using hlen), if_pos hvals]
    simp only [notMask_eq, hsel, hset] at h
    injection h with h
    subst h
    apply key
    intro m hm
    obtain ⟨i, hi, rfl⟩ := List.mem_iff_getElem.1 hm
    rw [g1] at hi
    have hD := g2 i (rand[i]'(by omega)) energy[i] _ (by simp) (by simp)
      (List.getElem?_eq_getElem (by rw [g1]; exact hi))
    rcases lt_or_ge (rand[i]'(by omega)) massless with h | h
    · rw [hD.1 h]; exact (hen _ (List.getElem_mem hi)).1
    · obtain ⟨m, -, m1, m2, e⟩ := hD.2 h
      rw [e]
      exact (rootDiff_draw m1 m2).1
  · rw [if_neg h1'] at h
    injection h with h
    subst h
    exact key _ _ _ _ (fun m hm => (hen m hm).1)

/-- **C84** Every direction with `z ≥ 0` is produced by
draws in the generator's ranges `[0, 1)` and `[-π, π)`. -/
theorem C84_covers (m e x y z : ℝ) (hz : 0 ≤ z) (hn : x ^ 2 + y ^ 2 + z ^ 2 = 1) :
    ∃ u f, 0 ≤ u ∧ u < 1 ∧ -π ≤ f ∧ f < π ∧ sphericalElem m e u f = ⟨m * x, m * y, m * z, e⟩ := by
  have ht0 := sqrt_nonneg (x ^ 2 + y ^ 2)
  have ht2 : sqrt (x ^ 2 + y ^ 2) ^ 2 = x ^ 2 + y ^ 2 := sq_sqrt (by positivity)
  have hnorm : ‖(⟨x, y⟩ : ℂ)‖ = sqrt (x ^ 2 + y ^ 2) := by
    rw [Complex.norm_def, Complex.normSq_mk]; ring_nf
  have hx := Complex.norm_mul_cos_arg (⟨x, y⟩ : ℂ)
  have hy := Complex.norm_mul_sin_arg (⟨x, y⟩ : ℂ)
  rw [hnorm] at hx hy
  simp only at hx hy
  set t := sqrt (x ^ 2 + y ^ 2) with ht
  have ht1 : t ≤ 1 := by nlinarith [sq_nonneg z]
  have hc : cos (arccos (1 - 2 * ((1 - t) / 2))) = t := by
    rw [show 1 - 2 * ((1 - t) / 2) = t by ring]
    exact cos_arccos (by linarith) ht1
  have hs : sin (arccos (1 - 2 * ((1 - t) / 2))) = z := by
    rw [show 1 - 2 * ((1 - t) / 2) = t by ring, sin_arccos, show 1 - t ^ 2 = z ^ 2 by linarith]
    exact sqrt_sq hz
  obtain ⟨f, f1, f2, f3, f4⟩ : ∃ f, -π ≤ f ∧ f < π ∧ cos f = cos (⟨x, y⟩ : ℂ).arg ∧
      sin f = sin (⟨x, y⟩ : ℂ).arg := by
    have h1 := Complex.neg_pi_lt_arg (⟨x, y⟩ : ℂ)
    have h2 := Complex.arg_le_pi (⟨x, y⟩ : ℂ)
    rcases h2.lt_or_eq with h | h
    · exact ⟨_, h1.le, h, rfl, rfl⟩
    · refine ⟨-π, le_refl _, by linarith [pi_pos], ?_, ?_⟩
      · rw [h, cos_neg]
      · rw [h, sin_neg, sin_pi, neg_zero]
  refine ⟨(1 - t) / 2, f, by linarith, by linarith, f1, f2, ?_⟩
  rw [sphericalElem_eq, hc, hs, f3, f4]
  apply P4.ext
  · simp only; rw [mul_assoc, hx]
  · simp only; rw [mul_assoc, hy]
  · rfl
  · rfl

/-- Draws as in the hypotheses: one massless and one massive particle for `massless = 1/2`. -/
example : GoodDraws 2 10 (1 / 2) [3, 5] [1 / 4, 3 / 4] [4] [0, 1 / 2] [0, 1] := by
  refine ⟨rfl, rfl, rfl, ?_, fun h => by norm_num at h, fun _ _ => ⟨rfl, ?_⟩⟩
  · simp; norm_num
  · simp only [List.zip_cons_cons, List.zip_nil_right, List.filter_cons, List.filter_nil]
    norm_num

end Gcl
