import Verif.Model.Distance
import Verif.Spec.Distance
import Verif.Props.DeltaR
import Verif.Props.Partition
/-! # C96: `delta_R_aff`, `parton_hadron_distance`, and `partition_descendants` with the real distance -/
namespace Gcl
set_option autoImplicit false
open Spec Real

/-- **C96** (the matrix): under every schedule of the parallel loop, entry `(i, j)` of
`parton_hadron_distance(partons, hadrons, pt_exp)` depends on parton `i` and hadron `j` alone and is
`pt_i ** pt_exp * ΔR_ij`; `delta_R_aff(pmu)` has the `ΔR` of particles `i` and `j` there, and the square matrix is
symmetric with zero diagonal. -/
theorem C96_entries (ptExp : ℝ) (partons hadrons : List P4) (mem : Nat × Nat → Fl) :
    (∀ tr, Interleave (partonHadronLoop partons hadrons) tr → ∀ (i j : Nat) (p h : P4),
      partons[i]? = some p → hadrons[j]? = some h →
      partonHadronEntry partons ptExp (runWrites mem tr) i j = weightedDist ptExp p h) ∧
    (∀ tr, Interleave (deltaRAffLoop partons) tr → ∀ (i j : Nat) (p q : P4),
      partons[i]? = some p → partons[j]? = some q →
      runWrites mem tr (i, j) = deltaRCell p.eta q.eta p.xyPol q.xyPol ∧
      runWrites mem tr (j, i) = runWrites mem tr (i, j) ∧ runWrites mem tr (i, i) = .fin 0) := by
  constructor
  · intro tr h i j p q hp hq
    have := (C66_schedule false _ _ (by simp) tr h mem).2.2.1 i j (p.eta, p.xyPol) (q.eta, q.xyPol)
      (by simp [cloudOf, hp]) (by simp [cloudOf, hq])
    simp [partonHadronEntry, hp, weightedDist, this]
  · intro tr h i j p q hp hq
    have key := fun (i j : Nat) (p q : P4) (hp : partons[i]? = some p) (hq : partons[j]? = some q) =>
      (C66_schedule true _ _ (fun _ => rfl) tr h mem).2.2.1 i j (p.eta, p.xyPol) (q.eta, q.xyPol)
        (by simp [cloudOf, hp]) (by simp [cloudOf, hq])
    refine ⟨key i j p q hp hq, ?_, ?_⟩
    · rw [key i j p q hp hq, key j i q p hq hp]
      exact C65_symm _ _ _ _
    · rw [key i i p p hp hp]
      exact C65_self _ _

/-- **C96** (values): for a parton with transverse momentum and finite pseudorapidities, the entry is the number
`pt ** pt_exp * sqrt((η₁ - η₂)² + a²)` with `a` the azimuthal difference in `(-π, π]`; with `pt_exp = 0` the entries
are the plain `ΔR`, in all cases. -/
theorem C96_value (ptExp : ℝ) (p h : P4) :
    (∀ y1 y2, 0 < p.pt → p.eta = .fin y1 → h.eta = .fin y2 →
      ∃ a, weightedDist ptExp p h = .fin (p.pt ^ ptExp * sqrt ((y1 - y2) ^ 2 + a ^ 2)) ∧ -π < a ∧ a ≤ π ∧
        (h.xyPol ≠ 0 → AngleEq p.xyPol.arg (h.xyPol.arg + a))) ∧
    weightedDist 0 p h = deltaRCell p.eta h.eta p.xyPol h.xyPol := by
  constructor
  · intro y1 y2 hp e1 e2
    obtain ⟨a, ha, h1, h2, h3⟩ := C65_value y1 y2 p.xyPol h.xyPol
    have hw : p.xyPol ≠ 0 := by
      intro h0
      have : p.pt = 0 := by simp [P4.pt, P4.ztPol, h0]
      exact hp.ne' this
    refine ⟨a, ?_, h1, h2, h3 hw⟩
    simp [weightedDist, e1, e2, ha, ptWeight, hp.ne', Fl.mul]
  · unfold weightedDist ptWeight
    rw [if_neg (by simp)]
    cases deltaRCell p.eta h.eta p.xyPol h.xyPol <;> simp [Fl.mul]

theorem weighted_mono {w v : ℝ} (hw : 0 < w) (hv : w ≤ v) {d : Fl} (hd : ∃ z, (d = .fin z ∧ 0 ≤ z) ∨ d = .pinf) :
    (Fl.fin w).mul d ≤ (Fl.fin v).mul d := by
  obtain ⟨z, ⟨rfl, hz⟩ | rfl⟩ := hd
  · show flRank _ ≤ flRank _
    simp only [Fl.mul, flRank]
    exact WithBot.coe_le_coe.2 (EReal.coe_le_coe_iff.2 (mul_le_mul_of_nonneg_right hv hz))
  · have hv' : 0 < v := lt_of_lt_of_le hw hv
    simp [Fl.mul, hw.ne', hw, hv'.ne', hv']

/-- **C96** (hard partons are preferred): of two partons in the same direction, a negative exponent puts the one with
the larger transverse momentum nearer to every hadron. -/
theorem C96_harder (ptExp : ℝ) (hexp : ptExp ≤ 0) (p q h : P4) (c : ℝ) (hc : 1 ≤ c) (hp : 0 < p.pt)
    (hdir : q.xyPol = c * p.xyPol) (heta : q.eta = p.eta) :
    weightedDist ptExp q h ≤ weightedDist ptExp p h := by
  have hc0 : 0 < c := lt_of_lt_of_le one_pos hc
  have hq : q.pt = c * p.pt := by
    simp [P4.pt, P4.ztPol, hdir, abs_of_pos hc0]
  have hq0 : 0 < q.pt := by rw [hq]; positivity
  have hcell : deltaRCell q.eta h.eta q.xyPol h.xyPol = deltaRCell p.eta h.eta p.xyPol h.xyPol := by
    unfold deltaRCell
    rw [heta, hdir, mul_assoc, Complex.arg_real_mul _ hc0]
  unfold weightedDist ptWeight
  rw [hcell, if_neg (fun e => hq0.ne' e.1), if_neg (fun e => hp.ne' e.1)]
  refine weighted_mono (rpow_pos_of_pos hq0 _) ?_ ?_
  · exact rpow_le_rpow_of_nonpos hp (by rw [hq]; nlinarith) hexp
  · unfold deltaRCell hypotFl
    split
    · exact ⟨_, Or.inl ⟨rfl, sqrt_nonneg _⟩⟩
    · exact ⟨_, Or.inl ⟨rfl, sqrt_nonneg _⟩⟩
    · exact ⟨0, Or.inr rfl⟩
    · exact ⟨0, Or.inr rfl⟩

/-- Two partons as in `C96_harder`. -/
example : ∃ (p q : P4) (c : ℝ), 1 ≤ c ∧ 0 < p.pt ∧ q.xyPol = c * p.xyPol ∧ q.eta = p.eta ∧ p ≠ q := by
  have hpt : ∀ a : ℝ, 0 < a → (⟨a, 0, 0, a⟩ : P4).pt = a := by
    intro a ha
    have : (⟨a, 0, 0, a⟩ : P4).xyPol = (a : ℂ) := by apply Complex.ext <;> simp [P4.xyPol]
    simp [P4.pt, P4.ztPol, this, abs_of_pos ha]
  have heta : ∀ a : ℝ, 0 < a → (⟨a, 0, 0, a⟩ : P4).eta = .fin (artanh 0) := by
    intro a ha
    have hm : (⟨a, 0, 0, a⟩ : P4).spatialMag ≠ 0 := by
      intro h0
      have : (⟨a, 0, 0, a⟩ : P4).ztPol = 0 := by simpa [P4.spatialMag] using h0
      have h2 : (⟨a, 0, 0, a⟩ : P4).pt = 0 := by simp [P4.pt, this]
      rw [hpt a ha] at h2
      exact ha.ne' h2
    simp [P4.eta, hm]
  refine ⟨⟨1, 0, 0, 1⟩, ⟨2, 0, 0, 2⟩, 2, by norm_num, ?_, ?_, ?_, ?_⟩
  · rw [hpt 1 one_pos]; exact one_pos
  · apply Complex.ext <;> simp [P4.xyPol]
  · rw [heta 1 one_pos, heta 2 two_pos]
  · intro h
    have := congrArg P4.x h
    norm_num at this

/-- **C96** (a parton at rest): with a negative exponent (the default) its distance to every hadron is nan, which
`np.argmin` takes for the smallest: no other parton is nearer to any hadron. -/
theorem C96_rest (ptExp : ℝ) (hexp : ptExp < 0) (e : ℝ) (h : P4) :
    weightedDist ptExp ⟨0, 0, 0, e⟩ h = .nan ∧ ∀ q, weightedDist ptExp ⟨0, 0, 0, e⟩ h ≤ weightedDist ptExp q h := by
  have hx : (⟨0, 0, 0, e⟩ : P4).xyPol = 0 := rfl
  have hpt : (⟨0, 0, 0, e⟩ : P4).pt = 0 := by simp [P4.pt, P4.ztPol, hx]
  have hmag : (⟨0, 0, 0, e⟩ : P4).spatialMag = 0 := by
    have : (⟨0, 0, 0, e⟩ : P4).ztPol = 0 := by
      apply Complex.ext <;> simp [P4.ztPol, hx]
    simp [P4.spatialMag, this]
  have heta : (⟨0, 0, 0, e⟩ : P4).eta = .nan := by simp [P4.eta, hmag]
  have hn : weightedDist ptExp ⟨0, 0, 0, e⟩ h = .nan := by
    simp [weightedDist, ptWeight, hpt, hexp, hx, heta, deltaRCell, Fl.sub, hypotFl, Fl.mul]
  exact ⟨hn, fun q => by rw [hn]; exact nanFirst_spec.1 _⟩

/-- **C96** (infinities): a parton off the beam axis is infinitely far from every hadron on it; a parton on the axis
is, with a negative exponent (the default), infinitely far from every hadron except those along the same beam or at
rest, for which the distance is nan; with a positive exponent it is the other way round: nan for the hadrons
infinitely far away and zero for the others. -/
theorem C96_beam (ptExp : ℝ) (p h : P4) :
    (0 < p.pt → h.pt = 0 → h.z ≠ 0 → weightedDist ptExp p h = .pinf) ∧
    (p.pt = 0 → p.z ≠ 0 → ptExp < 0 → (0 < h.pt ∨ h.z * p.z < 0) → weightedDist ptExp p h = .pinf) ∧
    (p.pt = 0 → p.z ≠ 0 → ptExp < 0 → h.pt = 0 → 0 ≤ h.z * p.z → weightedDist ptExp p h = .nan) ∧
    (p.pt = 0 → p.z ≠ 0 → 0 < ptExp → (0 < h.pt ∨ (h.pt = 0 ∧ h.z * p.z < 0)) → weightedDist ptExp p h = .nan) ∧
    (p.pt = 0 → p.z ≠ 0 → 0 < ptExp → h.pt = 0 → 0 ≤ h.z * p.z → weightedDist ptExp p h = .fin 0) := by
  obtain ⟨p1, p2, p3, -⟩ := C89_eta p
  obtain ⟨h1, h2, h3, h4⟩ := C89_eta h
  have hx : p.pt = 0 → p.xyPol = 0 := fun e => by
    have := pt_sq p
    rw [e] at this
    have ha : p.x = 0 := by nlinarith [sq_nonneg p.x, sq_nonneg p.y]
    have hb : p.y = 0 := by nlinarith [sq_nonneg p.x, sq_nonneg p.y]
    apply Complex.ext <;> simp [P4.xyPol, ha, hb]
  have hfar : p.pt = 0 → p.z ≠ 0 → (0 < h.pt ∨ (h.pt = 0 ∧ h.z * p.z < 0)) →
      deltaRCell p.eta h.eta p.xyPol h.xyPol = .pinf := by
    intro e z c
    rcases c with c | ⟨c0, c⟩
    · obtain ⟨y, hy, -⟩ := h1 c
      rcases lt_or_gt_of_ne z with z | z
      · rw [p3 e z, hy]; rfl
      · rw [p2 e z, hy]; rfl
    · rcases lt_or_gt_of_ne z with z | z
      · rw [p3 e z, h2 c0 (by nlinarith)]; rfl
      · rw [p2 e z, h3 c0 (by nlinarith)]; rfl
  have hnear : p.pt = 0 → p.z ≠ 0 → h.pt = 0 → 0 ≤ h.z * p.z →
      deltaRCell p.eta h.eta p.xyPol h.xyPol = .fin 0 := by
    intro e z c0 c
    rw [hx e]
    rcases lt_trichotomy h.z 0 with k | k | k
    · rw [p3 e (by rcases lt_or_gt_of_ne z with z | z <;> nlinarith), h3 c0 k]
      simp [deltaRCell, Fl.sub, hypotFl]
    · rw [h4 c0 k]
      rcases lt_or_gt_of_ne z with z | z
      · rw [p3 e z]; simp [deltaRCell, Fl.sub, hypotFl]
      · rw [p2 e z]; simp [deltaRCell, Fl.sub, hypotFl]
    · rw [p2 e (by rcases lt_or_gt_of_ne z with z | z <;> nlinarith), h2 c0 k]
      simp [deltaRCell, Fl.sub, hypotFl]
  have hh : (0 < h.pt ∨ h.z * p.z < 0) → (0 < h.pt ∨ (h.pt = 0 ∧ h.z * p.z < 0)) := by
    rintro (c | c)
    · exact Or.inl c
    · rcases (pt_nonneg h).lt_or_eq with k | k
      · exact Or.inl k
      · exact Or.inr ⟨k.symm, c⟩
  refine ⟨fun e c0 c => ?_, fun e z m c => ?_, fun e z m c0 c => ?_, fun e z m c => ?_, fun e z m c0 c => ?_⟩
  · obtain ⟨y, hy, -⟩ := p1 e
    have hd : deltaRCell p.eta h.eta p.xyPol h.xyPol = .pinf := by
      rw [hy]
      rcases lt_or_gt_of_ne c with c | c
      · rw [h3 c0 c]; rfl
      · rw [h2 c0 c]; rfl
    have hw := rpow_pos_of_pos e ptExp
    simp [weightedDist, hd, ptWeight, e.ne', Fl.mul, hw, hw.ne']
  · simp [weightedDist, hfar e z (hh c), ptWeight, e, m, Fl.mul]
  · simp [weightedDist, hnear e z c0 c, ptWeight, e, m, Fl.mul]
  · simp [weightedDist, hfar e z c, ptWeight, e, not_lt.2 m.le, Fl.mul, zero_rpow m.ne']
  · simp [weightedDist, hnear e z c0 c, ptWeight, e, not_lt.2 m.le, Fl.mul]

/-- A parton along the beam and a central hadron. -/
example : weightedDist (-1) ⟨0, 0, 5, 5⟩ ⟨1, 0, 0, 1⟩ = .pinf ∧ weightedDist 1 ⟨0, 0, 5, 5⟩ ⟨1, 0, 0, 1⟩ = .nan := by
  have hp : (⟨0, 0, 5, 5⟩ : P4).pt = 0 := by rw [pt_eq]; norm_num
  have hh : 0 < (⟨1, 0, 0, 1⟩ : P4).pt := by rw [pt_eq]; norm_num
  exact ⟨(C96_beam _ _ _).2.1 hp (by norm_num) (by norm_num) (Or.inl hh),
    (C96_beam _ _ _).2.2.2.1 hp (by norm_num) (by norm_num) (Or.inl hh)⟩

/-- IEEE comparison against the order with nan first. -/
theorem lt_iff_flLt (x b : Fl) (hb : b ≠ .nan) : x < b ↔ x = .nan ∨ x.lt b := by
  show flRank x < flRank b ↔ _
  cases x with
  | nan =>
    cases b with
    | nan => exact absurd rfl hb
    | _ => simp [flRank, Fl.lt]
  | ninf =>
    cases b with
    | nan => exact absurd rfl hb
    | pinf => simpa [flRank, Fl.lt] using WithBot.coe_lt_coe.2 (bot_lt_top : (⊥ : EReal) < ⊤)
    | _ => simp [flRank, Fl.lt]
  | pinf =>
    cases b with
    | nan => exact absurd rfl hb
    | _ => simp [flRank, Fl.lt]
  | fin x =>
    cases b with
    | nan => exact absurd rfl hb
    | pinf => simpa [flRank, Fl.lt] using WithBot.coe_lt_coe.2 (EReal.coe_lt_top x)
    | _ => simp [flRank, Fl.lt]

theorem argminFrom_nan (bi k : Nat) (xs : List Fl) : argminFrom Fl.nan bi k xs = bi := by
  induction xs generalizing k with
  | nil => rfl
  | cons x xs ih =>
    have : ¬ x < Fl.nan := not_lt.2 (nanFirst_spec.1 x)
    rw [argminFrom, if_neg this, ih]

/-- **C96** (`np.argmin` with nan): numpy's scan, which compares as IEEE does and stops at the first nan, finds the
first minimum in the order of the floating point numbers where nan comes before all others. -/
theorem C96_argmin (l : List Fl) : npArgmin l = argmin l := by
  have key : ∀ (xs : List Fl) (best : Fl) (bi k : Nat), npArgminFrom best bi k xs = argminFrom best bi k xs := by
    intro xs
    induction xs with
    | nil => intros; rfl
    | cons x xs ih =>
      intro best bi k
      by_cases hb : best = .nan
      · subst hb
        rw [argminFrom_nan]
        simp [npArgminFrom]
      · rw [npArgminFrom, argminFrom, if_neg hb]
        by_cases hx : x < best
        · rw [if_pos hx, if_pos ((lt_iff_flLt x best hb).1 hx), ih]
        · rw [if_neg hx, if_neg (fun e => hx ((lt_iff_flLt x best hb).2 e)), ih]
  cases l with
  | nil => rfl
  | cons x xs => simp [npArgmin, argmin, key]

/-- **C96** (`partition_descendants` with its real distance): the assignment of C51, for every event, tree and
exponent, with the nearest parton taken by the weighted distance and nan counted as nearest. -/
theorem C96_partition (ptExp : ℝ) (pmu : List P4) (final : List Bool)
    (status : List Int) (es : List (Int × Int)) (hier : Dict Mask) (hp : pmu.length = es.length)
    (hf : final.length = es.length) (hs : status.length = es.length)
    (hfin : ∀ (v : Int) (p : Nat), HadronVertex es status v → Enters es v p → final[p]? ≠ some true)
    (hagg : Aggregable es.length (.grp .or hier)) (hor : AllAgg .or (.grp .or hier)) :
    ∃ out, partitionDescendants (weightedDist ptExp) pmu final status es hier = .ok out ∧
      MapsIf LeafPath (fun d d' => d'.length = d.length ∧ ∀ i : Nat,
        ((¬ ∃ v, HadronVertex es status v ∧ HadronOf es final v i ∧ Incident es v d) →
          d'[i]? = d[i]?) ∧
        (∀ v, HadronVertex es status v → HadronOf es final v i → Incident es v d →
          (∀ w, HadronVertex es status w → HadronOf es final w i → Incident es w d → w ≤ v) →
          ∃ p, Nearest (weightedDist ptExp) pmu es v i p ∧ (d'[i]? = some true ↔ d[p]? = some true)))
        (.grp .or hier) (.grp .or out) :=
  C51_assign (weightedDist ptExp) pmu final status es hier hp hf hs hfin hagg hor

end Gcl
