import Verif.Props.GenKtFrames
import Verif.Props.ArgClosestDocs
/-!
# C159: what does not hold, and that the assumptions can be met
-/
namespace Gcl
set_option autoImplicit false
open Spec Real Classical

theorem plane_visible (θ : ℝ) : Visible (planeP4 1 θ) := by
  refine ⟨⟨by norm_num [planeP4], ?_⟩, by rw [planeP4_pt 1 θ one_pos]; exact one_pos⟩
  simp only [planeP4]
  nlinarith [sin_sq_add_cos_sq θ]

theorem plane_arg {θ : ℝ} (h1 : -π < θ) (h2 : θ ≤ π) : (planeP4 1 θ).xyPol.arg = θ := by
  have : (planeP4 1 θ).xyPol = Complex.cos θ + Complex.sin θ * Complex.I := by
    rw [← Complex.ofReal_cos, ← Complex.ofReal_sin]
    apply Complex.ext <;> simp [planeP4, P4.xyPol, -Complex.ofReal_cos, -Complex.ofReal_sin]
  rw [this]
  exact Complex.arg_cos_add_sin_mul_I ⟨h1, h2⟩

theorem plane_rapidity (θ : ℝ) : jetRapidity (planeP4 1 θ) = 0 := by
  simp [jetRapidity, planeP4]

theorem planeKt_dist {rule : FjAlgo → KtRule} (hrule : IsKtRule rule) (algo : FjAlgo) {θ ψ : ℝ} (h1 : |θ| < π / 2)
    (h2 : |ψ| < π / 2) : (rule algo).dist (planeP4 1 θ) (planeP4 1 ψ) = |θ - ψ| := by
  obtain ⟨a1, a2⟩ := abs_lt.1 h1
  obtain ⟨b1, b2⟩ := abs_lt.1 h2
  have hpi := pi_pos
  rw [hrule.dist algo _ _ (θ - ψ) (plane_visible θ) (plane_visible ψ) (by linarith) (by linarith)
    ⟨0, by rw [plane_arg (by linarith) (by linarith), plane_arg (by linarith) (by linarith)]; simp⟩, plane_rapidity, plane_rapidity]
  simp [sqrt_sq_eq_abs]

/-- Three particles in the transverse plane. -/
noncomputable def threeJets : List P4 := [planeP4 1 (-(2 / 5)), planeP4 1 (2 / 5), planeP4 1 (13 / 10)]

/-- **C159** What does not hold: particles nearer to each other than the radius need not be in one mask.  Of three particles
the second is at distance 9/10 of the third, but it is nearer to the first, and the sum of these two is too far from the
third. -/
theorem C159_false {rule : FjAlgo → KtRule} (hrule : IsKtRule rule) :
    (rule .cambridge).dist (planeP4 1 (2 / 5)) (planeP4 1 (13 / 10)) = 9 / 10 ∧
    ∀ (argsort : List ℝ → List Nat), IsArgsortR argsort → ∀ masks,
      KtResult rule argsort threeJets 1 0 none none .none masks →
      (∃ m ∈ masks, m[0]? = some true ∧ m[1]? = some true) ∧
      ∀ m ∈ masks, ¬ (m[1]? = some true ∧ m[2]? = some true) := by
  have hpi := pi_gt_three
  have d01 := planeKt_dist hrule .cambridge (θ := -(2 / 5)) (ψ := 2 / 5) (by rw [abs_lt]; constructor <;> linarith)
    (by rw [abs_lt]; constructor <;> linarith)
  have d12 := planeKt_dist hrule .cambridge (θ := 2 / 5) (ψ := 13 / 10) (by rw [abs_lt]; constructor <;> linarith)
    (by rw [abs_lt]; constructor <;> linarith)
  have d02 := planeKt_dist hrule .cambridge (θ := -(2 / 5)) (ψ := 13 / 10) (by rw [abs_lt]; constructor <;> linarith)
    (by rw [abs_lt]; constructor <;> linarith)
  norm_num [abs_of_neg, abs_of_pos] at d01 d12 d02
  refine ⟨by norm_num [d12], ?_⟩
  intro argsort ha masks ⟨fj, hfj, hm⟩
  obtain ⟨algo, jets, sorted, masks', halgo, hrun, m1, m2, m3, m4⟩ := kt_masks hfj ha threeJets 1 0 none none .none one_pos
    (by simp [FjBadArgs])
  rw [hm] at m1
  cases m1
  have hal : algo = .cambridge := halgo.2.1 rfl
  subst hal
  let j0 : Jet := ⟨planeP4 1 (-(2 / 5)), [0]⟩
  let j1 : Jet := ⟨planeP4 1 (2 / 5), [1]⟩
  let j2 : Jet := ⟨planeP4 1 (13 / 10), [2]⟩
  have ein : ktInput threeJets = [j0, j1, j2] := rfl
  -- the two nearest, recombined
  have hsum : padd (planeP4 1 (-(2 / 5))) (planeP4 1 (2 / 5)) = ⟨2 * cos (2 / 5), 0, 0, 4⟩ := by
    simp only [padd, planeP4, cos_neg, sin_neg, P4.mk.injEq]
    refine ⟨by ring, by ring, by ring, by ring⟩
  have hcos : 0 < cos (2 / 5 : ℝ) := cos_pos_of_mem_Ioo ⟨by linarith, by linarith⟩
  have vsum : Visible ⟨2 * cos (2 / 5), 0, 0, 4⟩ := by
    refine ⟨⟨by norm_num, ?_⟩, ?_⟩
    · have := cos_le_one (2 / 5 : ℝ)
      simp only
      nlinarith
    · rw [pt_eq]
      have : 0 < 2 * cos (2 / 5 : ℝ) := by linarith
      simp only
      positivity
  have hfar : (rule .cambridge).dist ⟨2 * cos (2 / 5), 0, 0, 4⟩ (planeP4 1 (13 / 10)) = 13 / 10 := by
    rw [hrule.dist .cambridge _ _ (-(13 / 10)) vsum (plane_visible _) (by linarith) (by linarith) ⟨0, ?_⟩]
    · rw [plane_rapidity]
      have : jetRapidity ⟨2 * cos (2 / 5), 0, 0, 4⟩ = 0 := by simp [jetRapidity]
      rw [this, show ((0 - 0) ^ 2 + (-(13 / 10)) ^ 2 : ℝ) = (13 / 10) ^ 2 by norm_num]
      exact sqrt_sq (by norm_num)
    · rw [plane_arg (by linarith) (by linarith)]
      have : (P4.xyPol ⟨2 * cos (2 / 5), 0, 0, 4⟩) = ((2 * cos (2 / 5) : ℝ) : ℂ) := by
        apply Complex.ext
        · rw [Complex.ofReal_re]; rfl
        · rw [Complex.ofReal_im]; rfl
      rw [this, Complex.arg_ofReal_of_nonneg (by linarith)]
      norm_num
  have fin : ∀ (jn : Jet), jn.pmu = ⟨2 * cos (2 / 5), 0, 0, 4⟩ → (jn.constituents = [0, 1] ∨ jn.constituents = [1, 0]) →
      ∀ rest, rest.Perm [j2] → KtRun (rule .cambridge) 1 (jn :: rest) jets → jets.Perm [jn, j2] := by
    intro jn hjn _ rest hrest hr
    have hr' := List.perm_singleton.1 hrest
    subst hr'
    refine resolved_run (hrule.symm _) hr ?_
    simp only [List.pairwise_cons, List.mem_cons, List.not_mem_nil, or_false, forall_eq, hjn]
    refine ⟨?_, by simp⟩
    show 1 ≤ (rule .cambridge).dist _ (planeP4 1 (13 / 10))
    rw [hfar]; norm_num
  have hjets : ∃ jn : Jet, (jn.constituents = [0, 1] ∨ jn.constituents = [1, 0]) ∧ jets.Perm [jn, j2] := by
    rw [ein] at hrun
    have hp01 : (rule .cambridge).pair 1 j0 j1 = (4 / 5) ^ 2 := by
      unfold KtRule.pair
      rw [hrule.cambridge, hrule.cambridge, show j0.pmu = planeP4 1 (-(2 / 5)) from rfl, show j1.pmu = planeP4 1 (2 / 5) from rfl, d01]
      norm_num
    have hle : ∀ d, (rule .cambridge).Least 1 [j0, j1, j2] d → d ≤ (4 / 5) ^ 2 := by
      intro d hd
      have := (List.pairwise_cons.1 hd.2).1 j1 (by simp)
      rwa [hp01] at this
    have honly : [j0, j1, j2].Pairwise (fun x y => (rule .cambridge).dist x.pmu y.pmu ≤ 4 / 5 →
        (x = j0 ∧ y = j1) ∨ (x = j1 ∧ y = j0)) := by
      have e02 : (rule .cambridge).dist j0.pmu j2.pmu = 17 / 10 := by
        show (rule .cambridge).dist (planeP4 1 (-(2 / 5))) (planeP4 1 (13 / 10)) = 17 / 10
        norm_num [d02]
      have e12 : (rule .cambridge).dist j1.pmu j2.pmu = 9 / 10 := by
        show (rule .cambridge).dist (planeP4 1 (2 / 5)) (planeP4 1 (13 / 10)) = 9 / 10
        norm_num [d12]
      refine .cons ?_ (.cons ?_ (.cons (by simp) .nil))
      · intro y hy
        simp only [List.mem_cons, List.not_mem_nil, or_false] at hy
        rcases hy with rfl | rfl
        · exact fun _ => Or.inl ⟨rfl, rfl⟩
        · intro h; rw [e02] at h; norm_num at h
      · intro y hy
        simp only [List.mem_cons, List.not_mem_nil, or_false] at hy
        subst hy
        intro h; rw [e12] at h; norm_num at h
    have hrest : ∀ rest, [j0, j1, j2].Perm (j0 :: j1 :: rest) → rest.Perm [j2] := fun rest hp => (hp.cons_inv.cons_inv).symm
    generalize hact : [j0, j1, j2] = act at hrun
    cases hrun with
    | done => simp at hact
    | @beam _ rest _ i h1 h2 _ =>
      subst hact
      have := hle _ h2
      rw [hrule.cambridge] at this
      norm_num at this
    | @pair _ rest _ i j h1 h2 h3 h4 =>
      subst hact
      have hd0 : (rule .cambridge).dist i.pmu j.pmu ≤ 4 / 5 := by
        have hl := hle _ h2
        unfold KtRule.pair at hl
        rw [hrule.cambridge, hrule.cambridge, min_self, one_mul, div_one] at hl
        exact abs_le_of_sq_le_sq' hl (by norm_num) |>.2
      have hpw := (h1.pairwise_iff (R := fun x y : Jet => (rule .cambridge).dist x.pmu y.pmu ≤ 4 / 5 →
        (x = j0 ∧ y = j1) ∨ (x = j1 ∧ y = j0)) (fun {x y} hxy h0 => by
          rw [hrule.symm] at h0
          rcases hxy h0 with ⟨h1, h2⟩ | ⟨h1, h2⟩
          · exact Or.inr ⟨h2, h1⟩
          · exact Or.inl ⟨h2, h1⟩)).1 honly
      rcases (List.pairwise_cons.1 hpw).1 j (by simp) hd0 with ⟨rfl, rfl⟩ | ⟨rfl, rfl⟩
      · exact ⟨_, Or.inl rfl, fin _ (by show padd _ _ = _; exact hsum) (Or.inl rfl) rest (hrest rest h1) h4⟩
      · exact ⟨_, Or.inr rfl, fin _ (by show padd _ _ = _; rw [padd_comm']; exact hsum) (Or.inr rfl) rest
          (hrest rest (h1.trans (.swap _ _ _))) h4⟩
  obtain ⟨jn, hjn, hjp⟩ := hjets
  have hall : sorted.Perm [jn, j2] := by
    refine (m2.trans (List.Perm.of_eq (List.filter_eq_self.2 (fun j _ => ?_)))).trans hjp
    simp only [Option.getD_none, decide_eq_true_eq]
    exact pt_nonneg _
  have hk : firstK TopK.none (sorted.filter (fun j => decide (EtaOk none j))) = sorted := by
    show sorted.filter _ = sorted
    exact List.filter_eq_self.2 (fun j _ => by simp [EtaOk])
  rw [hk] at m4
  constructor
  · obtain ⟨m, hm', hr⟩ := forall₂_mem_left m4 (hall.mem_iff.2 (by simp : jn ∈ [jn, j2]))
    refine ⟨m, hm', (hr.2 0).2 ?_, (hr.2 1).2 ?_⟩ <;> rcases hjn with h | h <;> simp [h]
  · intro m hm' ⟨h1, h2⟩
    obtain ⟨j, hj, hr⟩ := forall₂_mem_right m4 hm'
    rw [hr.2 1] at h1
    rw [hr.2 2] at h2
    have := hall.mem_iff.1 hj
    simp only [List.mem_cons, List.not_mem_nil, or_false] at this
    rcases this with rfl | rfl
    · rcases hjn with h | h <;> simp [h] at h2
    · simp [j2] at h1

/-! ### The assumptions can be met -/

/-- A rule as assumed. -/
noncomputable def exampleRule (algo : FjAlgo) : KtRule where
  scale p := match algo with
    | .kt => p.pt ^ 2
    | .cambridge => 1
    | .antikt => 1 / p.pt ^ 2
    | .genkt n => (p.pt ^ 2) ^ n
  dist p q := match deltaRCell (.fin (jetRapidity p)) (.fin (jetRapidity q)) p.xyPol q.xyPol with
    | .fin d => d
    | _ => 0

theorem exampleRule_ok : IsKtRule exampleRule := by
  refine ⟨fun _ _ => rfl, fun _ => rfl, fun _ _ => rfl, fun _ _ _ => rfl, ?_, ?_, ?_, ?_⟩
  · intro algo p
    cases algo
    · show 0 ≤ 1 / p.pt ^ 2; positivity
    · show (0 : ℝ) ≤ 1; norm_num
    · show 0 ≤ p.pt ^ 2; positivity
    · exact rpow_nonneg (sq_nonneg _) _
  · intro algo p q
    obtain ⟨a, h, -⟩ := C65_value (jetRapidity p) (jetRapidity q) p.xyPol q.xyPol
    simp only [exampleRule, h]
    exact sqrt_nonneg _
  · intro algo p q
    simp only [exampleRule]
    rw [C65_symm]
  · intro algo p q a hp hq a1 a2 a3
    obtain ⟨b, h, b1, b2, b3⟩ := C65_value (jetRapidity p) (jetRapidity q) p.xyPol q.xyPol
    have ne : ∀ {p : P4}, Visible p → p.xyPol ≠ 0 := by
      intro p hp h0
      have : p.pt = 0 := by
        rw [pt_eq]
        have hx : p.x = 0 := by simpa [P4.xyPol] using congrArg Complex.re h0
        have hy : p.y = 0 := by simpa [P4.xyPol] using congrArg Complex.im h0
        simp [hx, hy]
      exact hp.2.ne' this
    have hab : a = b := by
      obtain ⟨k, hk⟩ := a3
      obtain ⟨l, hl⟩ := b3 (ne hp) (ne hq)
      exact angleEq_unique ⟨l - k, by push_cast; linarith⟩ a1 a2 b1 b2
    simp only [exampleRule, h, hab]

/-- There is such a rule, and for it a FastJet that runs the algorithm. -/
theorem C159_consistent : IsKtRule exampleRule ∧ ∃ fj, RunsKt exampleRule fj := by
  refine ⟨exampleRule_ok, ?_⟩
  have hall : ∀ (q : List P4) (algo : FjAlgo) (R : ℝ), 0 < R → ∃ jets, KtRun (exampleRule algo) R (ktInput q) jets :=
    fun q algo R h0 => ktRun_exists (exampleRule algo) (exampleRule_ok.nonneg algo) (exampleRule_ok.dist_nonneg algo)
      (exampleRule_ok.symm algo) h0 _
  choose jets hj using hall
  refine ⟨fun q algo R ptMin => if h0 : 0 < R then (jets q algo R h0).filter (fun j => decide (ptMin ≤ j.pmu.pt)) else [], ?_⟩
  intro q algo R ptMin h0
  exact ⟨jets q algo R h0, hj q algo R h0, by simp [h0]⟩

/-- Non-vacuity of the assumptions of `C159_boost`, `C159_rotation` and `C159_collinear`: two particles which do not balance. -/
example : Unbalanced [planeP4 1 0, planeP4 1 1] ∧ (∀ q ∈ [planeP4 1 0] ++ [planeP4 1 1], Visible q) ∧
    ∀ algo, ([planeP4 1 0] ++ [planeP4 1 1]).Pairwise (fun a b => 0 < (exampleRule algo).dist a b) := by
  have hpi := pi_gt_three
  refine ⟨?_, ?_, ?_⟩
  · intro sel hs hne
    have e1 : total [planeP4 1 0] = planeP4 1 0 := by simp [total]
    have e2 : total [planeP4 1 1] = planeP4 1 1 := by simp [total]
    have h12 : Visible (total [planeP4 1 0, planeP4 1 1]) := by
      refine ⟨(physical_total _ ?_).1, ?_⟩
      · intro p hp
        simp only [List.mem_cons, List.not_mem_nil, or_false] at hp
        rcases hp with rfl | rfl <;> exact (plane_visible _).1
      · rw [pt_eq]
        apply sqrt_pos.2
        have hc : 0 < cos (1 : ℝ) := cos_one_pos
        simp only [total, planeP4, List.map_cons, List.map_nil, List.sum_cons, List.sum_nil, cos_zero, sin_zero]
        positivity
    cases hs with
    | cons _ h =>
      cases h with
      | cons _ h => cases h; exact absurd rfl hne
      | cons_cons _ h => cases h; rw [e2]; exact plane_visible 1
    | cons_cons _ h =>
      cases h with
      | cons _ h => cases h; rw [e1]; exact plane_visible 0
      | cons_cons _ h => cases h; exact h12
  · intro q hq
    simp only [List.cons_append, List.nil_append, List.mem_cons, List.not_mem_nil, or_false] at hq
    rcases hq with rfl | rfl <;> exact plane_visible _
  · intro algo
    have h := planeKt_dist exampleRule_ok algo (θ := 0) (ψ := 1) (by rw [abs_lt]; constructor <;> linarith)
      (by rw [abs_lt]; constructor <;> linarith)
    simp only [List.cons_append, List.nil_append, List.pairwise_cons, List.mem_cons, List.not_mem_nil, or_false, forall_eq]
    refine ⟨?_, by simp⟩
    rw [h]; norm_num

end Gcl
