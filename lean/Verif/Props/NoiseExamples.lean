import Verif.Props.Noise
import Mathlib.Analysis.SpecialFunctions.Trigonometric.Bounds
/-!
# Where noise does matter, and an event where it does not
-/
namespace Gcl
set_option autoImplicit false
open Spec Real

theorem ktStep_length {S : KtRule} {R : ℝ} {a b : List Jet} (h : KtStep S R a b) : b.length + 1 = a.length := by
  cases h with
  | beam h _ => rw [h.length_eq]; simp
  | pair h _ _ => rw [h.length_eq]; simp

theorem ktSteps_length {S : KtRule} {R : ℝ} {a b : List Jet} (h : Relation.ReflTransGen (KtStep S R) a b) : b.length ≤ a.length := by
  induction h with
  | refl => exact le_rfl
  | tail _ s ih => have := ktStep_length s; omega

theorem regular_one {S : KtRule} {R : ℝ} {j : Jet} (h : Visible j.pmu) : Regular S R [j] := by
  intro act hr
  have hl := ktSteps_length hr
  refine ⟨?_, fun i k rest hp => ?_⟩
  · rcases Relation.ReflTransGen.cases_head hr with rfl | ⟨b, s, hr⟩
    · simpa using h
    · have h1 := ktStep_length s
      have h2 := ktSteps_length hr
      simp at h1
      have : act = [] := List.length_eq_zero_iff.1 (by simp only [h1, List.length_nil] at h2; omega)
      subst this
      simp
  · have := hp.length_eq
    simp at this hl
    omega

theorem perm_two {α : Type} {a b k l : α} {rest : List α} (hp : [a, b].Perm (k :: l :: rest)) :
    rest = [] ∧ ((k = a ∧ l = b) ∨ (k = b ∧ l = a)) := by
  have : rest = [] := by
    have := hp.length_eq
    simp at this
    exact this
  subst this
  refine ⟨rfl, ?_⟩
  have hk : k ∈ [a, b] := hp.mem_iff.2 (by simp)
  simp only [List.mem_cons, List.not_mem_nil, or_false] at hk
  rcases hk with rfl | rfl
  · left; refine ⟨rfl, ?_⟩; simpa using (List.perm_cons _).1 hp.symm
  · right; refine ⟨rfl, ?_⟩
    simpa using (List.perm_cons _).1 (hp.symm.trans (List.Perm.swap _ _ _))

theorem regular_two {S : KtRule} (hsym : ∀ p q, S.dist p q = S.dist q p) {R : ℝ} {a b : Jet} (ha : Visible a.pmu) (hb : Visible b.pmu)
    (hab : Visible (padd a.pmu b.pmu)) (hd : S.dist a.pmu b.pmu ≠ R) : Regular S R [a, b] := by
  intro act hr
  rcases Relation.ReflTransGen.cases_head hr with rfl | ⟨c, s, hr⟩
  · refine ⟨by simp [ha, hb], fun i j rest hp => ?_⟩
    rcases (perm_two hp).2 with ⟨rfl, rfl⟩ | ⟨rfl, rfl⟩
    · exact hd
    · rw [hsym]; exact hd
  · cases s with
    | @beam _ i h _ =>
      have hl := h.length_eq
      match c, hl with
      | [j], _ =>
        refine regular_one ?_ act hr
        rcases (perm_two h).2 with ⟨rfl, rfl⟩ | ⟨rfl, rfl⟩
        · exact hb
        · exact ha
    | @pair rest i j h _ _ =>
      obtain ⟨rfl, h2⟩ := perm_two h
      refine regular_one ?_ act hr
      rcases h2 with ⟨rfl, rfl⟩ | ⟨rfl, rfl⟩
      · exact hab
      · have : padd j.pmu i.pmu = padd i.pmu j.pmu := by simp [padd, add_comm]
        change Visible (padd i.pmu j.pmu)
        rw [← this]; exact hab

open Classical in
/-- The run behind a result. -/
theorem result_jets {rule : FjAlgo → KtRule} {argsort : List ℝ → List Nat} (ha : IsArgsortR argsort) {pmu : List P4}
    {R pVal : ℝ} {ptCut etaCut : Option ℝ} (hR : 0 < R) {masks : List (List Bool)}
    (h : KtResult rule argsort pmu R pVal ptCut etaCut .none masks) :
    ∃ jets sorted, KtRun (rule (fjAlgo pVal)) R (ktInput pmu) jets ∧
      sorted.Perm (jets.filter (fun j => decide (ptCut.getD 0 ≤ j.pmu.pt ∧ EtaOk etaCut j))) ∧
      List.Forall₂ (fun (j : Jet) m => IsMaskOf pmu.length j.constituents m) sorted masks := by
  obtain ⟨fj, hfj, hok⟩ := h
  have hbad : ¬ FjBadArgs R ptCut etaCut .none := by
    intro hbad
    rw [C56_errors fj argsort _ R pVal _ _ .none hbad] at hok
    cases hok
  obtain ⟨algo, jets, sorted, ms, halgo, hrun, m1, m2, m3, m4⟩ := kt_masks hfj ha pmu R pVal ptCut etaCut .none hR hbad
  rw [hok] at m1
  cases m1
  have hal : algo = fjAlgo pVal := algoFor_unique halgo (fjAlgo_spec pVal)
  subst hal
  refine ⟨jets, _, hrun, ?_, m4⟩
  refine (m2.filter _).trans (.of_eq ?_)
  rw [List.filter_filter]
  congr 1
  funext j
  simp [Bool.and_comm]

theorem run_one {S : KtRule} {R : ℝ} {j : Jet} {J : List Jet} (h : KtRun S R [j] J) : J = [j] := by
  cases h with
  | @beam _ rest _ i h _ next =>
    have hl := h.length_eq
    simp at hl
    subst hl
    have : i = j := by simpa using h.symm
    subst this
    cases next with
    | done => rfl
    | beam h _ _ => exact absurd h.length_eq (by simp)
    | pair h _ _ _ => exact absurd h.length_eq (by simp)
  | pair h _ _ _ => exact absurd h.length_eq (by simp)

theorem mask_one {m : List Bool} (h : IsMaskOf 1 [0] m) : m = [true] := by
  refine bools_ext (by simp [h.1]) fun i hi => ?_
  have : i = 0 := by rw [h.1] at hi; omega
  subst this
  simpa using h.2 0

theorem mask_two {c : List Nat} (h0 : 0 ∈ c) (h1 : 1 ∈ c) {m : List Bool} (h : IsMaskOf 2 c m) : m = [true, true] := by
  refine bools_ext (by simp [h.1]) fun i hi => ?_
  rw [h.1] at hi
  match i, hi with
  | 0, _ => simp [h.2 0, h0]
  | 1, _ => simp [h.2 1, h1]

/-- **C166** A jet exactly at the cut: it is found, but not if its momentum is a little smaller, however little. -/
theorem C166_false_cut {rule : FjAlgo → KtRule} (hrule : IsKtRule rule) {argsort : List ℝ → List Nat} (ha : IsArgsortR argsort)
    (pVal : ℝ) : (∀ algo, Regular (rule algo) 1 (ktInput [planeP4 1 0])) ∧
    (∀ masks, KtResult rule argsort [planeP4 1 0] 1 pVal (some 1) none .none masks → masks = [[true]]) ∧
    ∀ η, 0 < η → ∃ pmu', Noisy η [planeP4 1 0] [] pmu' ∧
      (∃ masks', KtResult rule argsort pmu' 1 pVal (some 1) none .none masks') ∧
      ∀ masks', KtResult rule argsort pmu' 1 pVal (some 1) none .none masks' → masks' = [] := by
  refine ⟨fun algo => regular_one (plane_visible 0), fun masks h => ?_, fun η hη => ?_⟩
  · obtain ⟨jets, sorted, hrun, hp, hm⟩ := result_jets ha one_pos h
    have := run_one hrun
    subst this
    have hpt : (planeP4 1 0).pt = 1 := planeP4_pt 1 0 one_pos
    rw [List.filter_cons_of_pos (by simp [hpt, EtaOk])] at hp
    have : sorted = [⟨planeP4 1 0, [0]⟩] := by simpa using hp
    subst this
    cases hm with
    | cons h1 h2 =>
      cases h2
      rw [mask_one h1]
  · have hd : 0 < min (η / 4) (1 / 2) := by positivity
    have hd1 : min (η / 4) (1 / 2) ≤ η / 4 := min_le_left _ _
    have hd2 : min (η / 4) (1 / 2 : ℝ) ≤ 1 / 2 := min_le_right _ _
    generalize min (η / 4) (1 / 2) = δ at hd hd1 hd2
    have hpos : 0 < 1 - δ := by linarith
    have hpt : (planeP4 (1 - δ) 0).pt = 1 - δ := planeP4_pt _ 0 hpos
    obtain ⟨fj, hfj⟩ : ∃ fj, RunsKt rule fj := by
      obtain ⟨J, hJ⟩ := ktRun_exists (rule .kt) (hrule.nonneg _) (hrule.dist_nonneg _) (hrule.symm _) one_pos (ktInput [])
      obtain ⟨fj, h, -⟩ := runsKt_with hrule hJ
      exact ⟨fj, h⟩
    refine ⟨[planeP4 (1 - δ) 0], ⟨[planeP4 (1 - δ) 0], by simp, .cons ⟨⟨?_, ?_⟩, ?_⟩ .nil, by simp, by simpa using hη⟩, ?_, fun masks' h => ?_⟩
    · simp only [planeP4]; linarith
    · simp only [planeP4, cos_zero, sin_zero]; nlinarith
    · simp only [Off, planeP4, cos_zero, sin_zero]
      refine ⟨?_, ?_, ?_, ?_⟩ <;> rw [abs_lt] <;> constructor <;> linarith
    · obtain ⟨masks, h1, -⟩ := C159_masks hfj ha [planeP4 (1 - δ) 0] 1 pVal (some 1) none .none one_pos (by simp [FjBadArgs])
      exact ⟨masks, fj, hfj, h1⟩
    · obtain ⟨jets, sorted, hrun, hp, hm⟩ := result_jets ha one_pos h
      have := run_one hrun
      subst this
      rw [List.filter_cons_of_neg (by simp [hpt, hd])] at hp
      have : sorted = [] := by simpa using hp
      subst this
      cases hm
      rfl

theorem plane_scale {rule : FjAlgo → KtRule} (hrule : IsKtRule rule) (algo : FjAlgo) (θ : ℝ) : (rule algo).scale (planeP4 1 θ) = 1 := by
  have hpt := planeP4_pt 1 θ one_pos
  cases algo with
  | kt => rw [hrule.kt _ (plane_visible θ), hpt]; norm_num
  | cambridge => exact hrule.cambridge _
  | antikt => rw [hrule.antikt _ (plane_visible θ), hpt]; norm_num
  | genkt n => rw [hrule.genkt n _ (plane_visible θ), hpt]; norm_num

/-- Two particles in the transverse plane nearer than the radius are one jet. -/
theorem plane_joined {rule : FjAlgo → KtRule} (hrule : IsKtRule rule) (algo : FjAlgo) {ψ : ℝ} (h0 : 0 < ψ) (h1 : ψ < 1) {J : List Jet}
    (h : KtRun (rule algo) 1 (ktInput [planeP4 1 0, planeP4 1 ψ]) J) : ∃ j, J = [j] ∧ j.pmu = padd (planeP4 1 0) (planeP4 1 ψ) ∧
      0 ∈ j.constituents ∧ 1 ∈ j.constituents := by
  have hpi := pi_gt_three
  set a : Jet := ⟨planeP4 1 0, [0]⟩ with hadef
  set b : Jet := ⟨planeP4 1 ψ, [1]⟩ with hbdef
  have hd : (rule algo).dist a.pmu b.pmu = ψ := by
    change (rule algo).dist (planeP4 1 0) (planeP4 1 ψ) = ψ
    rw [planeKt_dist hrule algo (by rw [abs_zero]; linarith) (by rw [abs_of_pos h0]; linarith), zero_sub, abs_neg, abs_of_pos h0]
  have sa : (rule algo).scale a.pmu = 1 := plane_scale hrule algo 0
  have sb : (rule algo).scale b.pmu = 1 := plane_scale hrule algo ψ
  have hpair : (rule algo).pair 1 a b = ψ ^ 2 := by
    unfold KtRule.pair
    rw [sa, sb, hd]; simp
  have ein : ktInput [planeP4 1 0, planeP4 1 ψ] = [a, b] := rfl
  rw [ein] at h
  cases h with
  | @beam _ rest _ i h least next =>
    exfalso
    have hl := least.2
    simp only [List.pairwise_cons, List.mem_cons, List.not_mem_nil, or_false, forall_eq] at hl
    have hle := hl.1
    rw [hpair] at hle
    have hi : i ∈ [a, b] := h.mem_iff.2 (by simp)
    simp only [List.mem_cons, List.not_mem_nil, or_false] at hi
    rcases hi with rfl | rfl
    · rw [sa] at hle; nlinarith
    · rw [sb] at hle; nlinarith
  | @pair _ rest _ i j h least near next =>
    obtain ⟨rfl, h2⟩ := perm_two h
    refine ⟨i.join j, run_one next, ?_⟩
    rcases h2 with ⟨rfl, rfl⟩ | ⟨rfl, rfl⟩
    · exact ⟨rfl, by simp [Jet.join, hadef], by simp [Jet.join, hbdef]⟩
    · refine ⟨by simp [Jet.join, hadef, hbdef, padd, add_comm], by simp [Jet.join, hadef], by simp [Jet.join, hbdef]⟩

theorem plane_sum_pt {ψ : ℝ} (h0 : 0 < ψ) (h1 : ψ ≤ 1) : 1 ≤ (padd (planeP4 1 0) (planeP4 1 ψ)).pt := by
  have hpi := pi_gt_three
  have hc : 0 ≤ cos ψ := cos_nonneg_of_neg_pi_div_two_le_of_le (by linarith) (by linarith)
  rw [pt_eq]
  apply le_sqrt_of_sq_le
  simp only [padd, planeP4, cos_zero, sin_zero]
  nlinarith [sin_sq_add_cos_sq ψ]

theorem plane_result {rule : FjAlgo → KtRule} (hrule : IsKtRule rule) {argsort : List ℝ → List Nat} (ha : IsArgsortR argsort)
    {pVal ψ : ℝ} {ptCut etaCut : Option ℝ} (h0 : 0 < ψ) (h1 : ψ < 1) (hc : ptCut.getD 0 ≤ 1) (he : ∀ cut, etaCut = some cut → 0 < cut)
    {masks : List (List Bool)} (h : KtResult rule argsort [planeP4 1 0, planeP4 1 ψ] 1 pVal ptCut etaCut .none masks) :
    masks = [[true, true]] := by
  classical
  have hpi := pi_gt_three
  obtain ⟨jets, sorted, hrun, hp, hm⟩ := result_jets ha one_pos h
  obtain ⟨⟨p, c⟩, rfl, hj, c0, c1⟩ := plane_joined hrule _ h0 h1 hrun
  change p = _ at hj
  have hpt := plane_sum_pt (ψ := ψ) (by linarith) (by linarith)
  have hvis := (plane_sum (α := 0) (β := ψ) (by rw [abs_lt]; constructor <;> linarith) (by linarith) (by linarith)).1
  have heta : EtaOk etaCut ⟨p, c⟩ := by
    cases etaCut with
    | none => simp [EtaOk]
    | some cut =>
      rw [etaOk_iff (by rw [hj]; exact hvis)]
      have hs : 0 < sinh cut := sinh_pos_iff.2 (he cut rfl)
      have hpos : 0 < p.pt := by rw [hj]; linarith
      have hz : p.z = 0 := by rw [hj]; simp [padd, planeP4]
      rw [hz, abs_zero]
      positivity
  rw [List.filter_cons_of_pos (by
    simp only [decide_eq_true_eq]
    exact ⟨by rw [hj]; linarith, heta⟩)] at hp
  have : sorted = [⟨p, c⟩] := by simpa using hp
  subst this
  cases hm with
  | cons h1 h2 =>
    cases h2
    rw [mask_two c0 c1 h1]

/-- **C166** Two particles exactly at the radius: each is a jet, but together they are one if they are a little nearer. -/
theorem C166_false_radius {rule : FjAlgo → KtRule} (hrule : IsKtRule rule) {argsort : List ℝ → List Nat} (ha : IsArgsortR argsort)
    (pVal : ℝ) :
    (∀ masks, KtResult rule argsort [planeP4 1 0, planeP4 1 1] 1 pVal (some (1 / 2)) none .none masks → [true, true] ∉ masks) ∧
    ∀ η, 0 < η → ∃ pmu', Noisy η [planeP4 1 0, planeP4 1 1] [] pmu' ∧
      (∃ masks', KtResult rule argsort pmu' 1 pVal (some (1 / 2)) none .none masks') ∧
      ∀ masks', KtResult rule argsort pmu' 1 pVal (some (1 / 2)) none .none masks' → masks' = [[true, true]] := by
  have hpi := pi_gt_three
  refine ⟨fun masks h hm => ?_, fun η hη => ?_⟩
  · obtain ⟨fj, hfj, hok⟩ := h
    have hfar : ∀ algo, [planeP4 1 0, planeP4 1 1].Pairwise (fun p q => (1 : ℝ) ≤ (rule algo).dist p q) := by
      intro algo
      have := planeKt_dist hrule algo (θ := 0) (ψ := 1) (by rw [abs_zero]; linarith) (by rw [abs_one]; linarith)
      simp [this]
    obtain ⟨i, hi⟩ := C159_resolved hrule hfj ha _ 1 pVal (some (1 / 2)) none .none one_pos hfar masks hok _ hm
    have h0 := (hi 0).1 rfl
    have h1 := (hi 1).1 rfl
    omega
  · have hd : 0 < min (η / 4) (1 / 2) := by positivity
    have hd1 : min (η / 4) (1 / 2) ≤ η / 4 := min_le_left _ _
    have hd2 : min (η / 4) (1 / 2 : ℝ) ≤ 1 / 2 := min_le_right _ _
    generalize min (η / 4) (1 / 2) = δ at hd hd1 hd2
    obtain ⟨fj, hfj⟩ : ∃ fj, RunsKt rule fj := by
      obtain ⟨J, hJ⟩ := ktRun_exists (rule .kt) (hrule.nonneg _) (hrule.dist_nonneg _) (hrule.symm _) one_pos (ktInput [])
      obtain ⟨fj, h, -⟩ := runsKt_with hrule hJ
      exact ⟨fj, h⟩
    have off0 : Off η (planeP4 1 0) (planeP4 1 0) := by simp [Off, hη]
    have off1 : Off η (planeP4 1 (1 - δ)) (planeP4 1 1) := by
      have hab : |1 - δ - 1| = δ := by rw [show 1 - δ - 1 = -δ by ring, abs_neg, abs_of_pos hd]
      have h1 := abs_cos_sub_cos_le (1 - δ) 1
      have h2 := abs_sin_sub_sin_le (1 - δ) 1
      rw [hab] at h1 h2
      refine ⟨?_, ?_, ?_, ?_⟩ <;> simp only [planeP4, one_mul, sub_self, abs_zero]
      · linarith
      · linarith
      · exact hη
      · exact hη
    refine ⟨[planeP4 1 0, planeP4 1 (1 - δ)], ⟨[planeP4 1 0, planeP4 1 (1 - δ)], by simp,
      .cons ⟨(plane_visible 0).1, off0⟩ (.cons ⟨(plane_visible _).1, off1⟩ .nil), by simp, by simpa using hη⟩, ?_, fun masks' h => ?_⟩
    · obtain ⟨masks, h1, -⟩ := C159_masks hfj ha [planeP4 1 0, planeP4 1 (1 - δ)] 1 pVal (some (1 / 2)) none .none one_pos
        (by simp [FjBadArgs])
      exact ⟨masks, fj, hfj, h1⟩
    · exact plane_result hrule ha (by linarith) (by linarith) (by norm_num) (by simp) h

theorem plane_regular {rule : FjAlgo → KtRule} (hrule : IsKtRule rule) (algo : FjAlgo) :
    Regular (rule algo) 1 (ktInput [planeP4 1 0, planeP4 1 (1 / 2)]) := by
  have hpi := pi_gt_three
  have hvis := (plane_sum (α := 0) (β := 1 / 2) (by rw [abs_lt]; constructor <;> linarith) (by linarith) (by linarith)).1
  refine regular_two (hrule.symm algo) (plane_visible 0) (plane_visible _) hvis ?_
  change (rule algo).dist (planeP4 1 0) (planeP4 1 (1 / 2)) ≠ 1
  rw [planeKt_dist hrule algo (by rw [abs_zero]; linarith) (by rw [abs_of_pos] <;> linarith)]
  norm_num [abs_of_neg]

theorem plane_offCuts {rule : FjAlgo → KtRule} (hrule : IsKtRule rule) {argsort : List ℝ → List Nat} (ha : IsArgsortR argsort) (pVal c : ℝ)
    (hc : c < 1) : OffCuts rule argsort [planeP4 1 0, planeP4 1 (1 / 2)] 1 pVal c (some 5) := by
  have hpi := pi_gt_three
  have hvis := (plane_sum (α := 0) (β := 1 / 2) (by rw [abs_lt]; constructor <;> linarith) (by linarith) (by linarith)).1
  have hpt := plane_sum_pt (ψ := 1 / 2) (by norm_num) (by norm_num)
  have hmom : momentumOf [planeP4 1 0, planeP4 1 (1 / 2)] [true, true] = padd (planeP4 1 0) (planeP4 1 (1 / 2)) := by
    simp [momentumOf, total, padd]
  intro all hall m hm
  rw [plane_result hrule ha (by norm_num) (by norm_num) (by simp) (by simp) hall] at hm
  have : m = [true, true] := by simpa using hm
  subst this
  rw [hmom]
  refine ⟨by intro h; linarith, fun cut hcut η hη => ?_⟩
  cases hcut
  obtain ⟨y, y1, y2, -⟩ := (C89_eta (padd (planeP4 1 0) (planeP4 1 (1 / 2)))).1 hvis.2
  rw [y1] at hη
  have e : y = η := by injection hη
  rw [← e]
  have hz : (padd (planeP4 1 0) (planeP4 1 (1 / 2))).z = 0 := by simp [padd, planeP4]
  rw [hz] at y2
  have : sinh y = 0 := by
    rcases mul_eq_zero.1 y2.symm with h | h
    · exact absurd h hvis.2.ne'
    · exact h
  rw [sinh_eq_zero.1 this, abs_zero]
  norm_num

/-- Two particles nearer than the radius: noise does not change that they are one jet. -/
example {rule : FjAlgo → KtRule} (hrule : IsKtRule rule) {argsort : List ℝ → List Nat} (ha : IsArgsortR argsort) (pVal : ℝ) :
    ∃ η, 0 < η ∧ ∀ softs pmu', Noisy η [planeP4 1 0, planeP4 1 (1 / 2)] softs pmu' → ∀ masks',
      KtResult rule argsort pmu' 1 pVal (some (1 / 2)) (some 5) .none masks' → masks'.map (·.take 2) = [[true, true]] := by
  obtain ⟨η, h0, hη⟩ := C166_noise hrule ha [planeP4 1 0, planeP4 1 (1 / 2)] 1 pVal (1 / 2) (some 5) .none one_pos (by norm_num)
    (fun algo _ => plane_regular hrule algo) (plane_offCuts hrule ha pVal _ (by norm_num)) 1 one_pos
  exact ⟨η, h0, fun softs pmu' hn masks' h' =>
    plane_result hrule ha (by norm_num) (by norm_num) (by norm_num) (by simp) (hη softs pmu' hn masks' h').1⟩

/-- The same event, without a `pt_cut`. -/
example {rule : FjAlgo → KtRule} (hrule : IsKtRule rule) {argsort : List ℝ → List Nat} (ha : IsArgsortR argsort) (pVal : ℝ) :
    ∃ η, 0 < η ∧ ∀ pmu', List.Forall₂ (fun q p => Physical q ∧ Off η q p) pmu' [planeP4 1 0, planeP4 1 (1 / 2)] → ∀ masks',
      KtResult rule argsort pmu' 1 pVal none (some 5) .none masks' → masks' = [[true, true]] := by
  obtain ⟨η, h0, hη⟩ := C166_perturbed hrule ha [planeP4 1 0, planeP4 1 (1 / 2)] 1 pVal none (some 5) .none one_pos
    (fun algo _ => plane_regular hrule algo) (plane_offCuts hrule ha pVal _ (by norm_num))
  exact ⟨η, h0, fun pmu' hn masks' h' =>
    plane_result hrule ha (by norm_num) (by norm_num) (by norm_num) (by simp) (hη pmu' hn masks' h')⟩

end Gcl
