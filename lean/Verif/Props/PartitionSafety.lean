import Verif.Props.Distance
import Verif.Props.Frames
import Verif.Props.Safety
/-! # C147: infrared and collinear safety of `partition_descendants` -/
namespace Gcl
set_option autoImplicit false
open Spec Real

/-! ## What the partition depends on -/

theorem allocate_argmin {M R : Type} [LT R] [DecidableLT R] (δ δ' : M → M → R) (ps hs : List M)
    (h : ∀ i ∈ hs, argmin (ps.map (fun p => δ p i)) = argmin (ps.map (fun p => δ' p i))) :
    allocate δ ps hs = allocate δ' ps hs := by
  induction hs with
  | nil => rfl
  | cons x xs ih =>
    simp only [allocate]
    rw [h x (by simp), ih (fun i hi => h i (by simp [hi]))]

theorem gather_range_mask (n : Nat) (m : List Bool) (hm : m.length = n) : gather (List.range n) (trueIdxs m) = trueIdxs m := by
  unfold gather
  have : ∀ l : List Nat, (∀ i ∈ l, i < n) → l.filterMap (fun i => (List.range n)[i]?) = l := by
    intro l
    induction l with
    | nil => intro _; rfl
    | cons a l ih =>
      intro h
      rw [List.filterMap_cons, List.getElem?_range (h a (by simp)), ih (fun i hi => h i (by simp [hi]))]
  apply this
  intro i hi
  rw [mem_trueIdxs] at hi
  rw [← hm]
  by_contra hc
  rw [List.getElem?_eq_none (by omega)] at hi
  cases hi

theorem vtxPartons_mem (es : List (Int × Int)) (fh : List Bool) : ∀ (vs : List Int) (vps : List (Int × List Bool)),
    hadronVtxPartons es fh vs = .ok vps → ∀ x ∈ vps, x.1 ∈ vs ∧ x.2 = es.map (fun e => x.1 == e.2) := by
  intro vs
  induction vs with
  | nil => intro vps h x hx; simp only [hadronVtxPartons, Except.ok.injEq] at h; subst h; cases hx
  | cons v vs ih =>
    intro vps h x hx
    simp only [hadronVtxPartons] at h
    split at h
    · cases h
    · split at h
      · cases h
      · rename_i ps hps
        simp only [Except.ok.injEq] at h
        subst h
        split at hx
        · rcases List.mem_cons.1 hx with rfl | hx
          · simp
          · obtain ⟨a, b⟩ := ih ps hps x hx
            exact ⟨List.mem_cons_of_mem _ a, b⟩
        · obtain ⟨a, b⟩ := ih ps hps x hx
          exact ⟨List.mem_cons_of_mem _ a, b⟩

/-- The partition depends on the distances only through the answer which entering particle is the first nearest to which
final descendant. -/
theorem partition_indices {R : Type} [LT R] [DecidableLT R] (δ δ' : Nat → Nat → R) (final : List Bool)
    (status : List Int) (es : List (Int × Int)) (hier : Dict Mask) (hf : final.length = es.length)
    (hs : status.length = es.length)
    (h : ∀ v i, HadronVertex es status v → HadronOf es final v i → ∀ ps : List Nat, ps.Nodup →
      (∀ p, p ∈ ps ↔ Enters es v p) → argmin (ps.map (fun p => δ p i)) = argmin (ps.map (fun p => δ' p i))) :
    partitionDescendants δ (List.range es.length) final status es hier =
      partitionDescendants δ' (List.range es.length) final status es hier := by
  have hvert : ∀ vtxs, hadronVertices es status = .ok vtxs → ∀ v ∈ vtxs, HadronVertex es status v := by
    intro vtxs hv v hvm
    obtain ⟨vtxs', v1, -, v3⟩ := C41_hadron es status hs
    rw [hv] at v1
    cases v1
    rw [v3] at hvm
    unfold HadronVertex
    have : ∀ s : Int, (80 ≤ |s| ∧ |s| ≤ 90) ↔ (80 ≤ s.natAbs ∧ s.natAbs ≤ 90) := by
      intro s; rw [Int.abs_eq_natAbs]; omega
    simpa only [this] using hvm
  have hloop : ∀ (vps : List (Int × List Bool)),
      (∀ x ∈ vps, HadronVertex es status x.1 ∧ x.2 = es.map (fun e => x.1 == e.2)) → ∀ hier : Dict Mask,
      partitionLoop δ (List.range es.length) final es vps hier =
        partitionLoop δ' (List.range es.length) final es vps hier := by
    intro vps
    induction vps with
    | nil => intro _ _; rfl
    | cons x vps ih =>
      intro hx hier
      obtain ⟨v, pcls⟩ := x
      obtain ⟨hv, he⟩ := hx (v, pcls) (by simp)
      simp only at hv he
      subst he
      obtain ⟨m, m1, m2, m3⟩ := vertexDesc_mask es v
      have hleaf : ∀ d, partitionLeaf δ (List.range es.length) final es v (es.map (fun e => v == e.2)) m d =
          partitionLeaf δ' (List.range es.length) final es v (es.map (fun e => v == e.2)) m d := by
        intro d
        unfold partitionLeaf
        split
        · rfl
        · split
          · unfold partitionVertex
            have hl : (es.map (fun e => v == e.2)).length = es.length := by simp
            have hfv : bcast2 (· && ·) m final = .ok (List.zipWith (· && ·) m final) :=
              bcast2_eq_length _ (m2.trans hf.symm)
            have hfl : (List.zipWith (· && ·) m final).length = es.length := by simp [m2, hf]
            have a1 : (Key.mask (es.map (fun e => v == e.2))).apply (List.range es.length) =
                .ok (trueIdxs (es.map (fun e => v == e.2))) := by
              simp only [Key.apply, Key.resolve, List.length_range, hl, if_true]
              rw [gather_range_mask _ _ hl]
            have a2 : (Key.mask (List.zipWith (· && ·) m final)).apply (List.range es.length) =
                .ok (trueIdxs (List.zipWith (· && ·) m final)) := by
              simp only [Key.apply, Key.resolve, List.length_range, hfl, if_true]
              rw [gather_range_mask _ _ hfl]
            simp only [a1, hfv, a2]
            rw [allocate_argmin δ δ' _ _ (fun i hi => ?_)]
            refine h v i hv ?_ _ ?_ (fun p => ?_)
            · rw [mem_trueIdxs, List.getElem?_zipWith] at hi
              unfold HadronOf
              rw [← m3 i]
              cases h1 : m[i]? with
              | none => simp [h1] at hi
              | some b =>
                cases h2 : final[i]? with
                | none => simp [h1, h2] at hi
                | some b' => simp [h1, h2] at hi; simp [hi]
            · exact trueIdxs_nodup _
            · rw [mem_trueIdxs, enters_iff]
          · rfl
      have hfun : partitionLeaf δ (List.range es.length) final es v (es.map (fun e => v == e.2)) m =
          partitionLeaf δ' (List.range es.length) final es v (es.map (fun e => v == e.2)) m := funext hleaf
      simp only [partitionLoop, m1, hfun]
      split
      · rfl
      · exact ih (fun x hx' => hx x (by simp [hx'])) _
  unfold partitionDescendants
  split
  · rfl
  · split
    · rfl
    · rename_i vtxs hv
      split
      · rfl
      · rename_i vps hp
        exact hloop vps (fun x hx => ⟨hvert _ hv _ (vtxPartons_mem es _ _ _ hp x hx).1, (vtxPartons_mem es _ _ _ hp x hx).2⟩) hier

/-- Two lists of momenta. -/
theorem partition_argmin {M R : Type} [LT R] [DecidableLT R] (z : M) (dist : M → M → R) (pmu pmu' : List M)
    (final : List Bool) (status : List Int) (es : List (Int × Int)) (hier : Dict Mask) (hp : pmu.length = es.length)
    (hp' : pmu'.length = es.length) (hf : final.length = es.length) (hs : status.length = es.length)
    (h : ∀ v i, HadronVertex es status v → HadronOf es final v i → ∀ ps : List Nat, ps.Nodup →
      (∀ p, p ∈ ps ↔ Enters es v p) → argmin (ps.map (fun p => dist (pmu.getD p z) (pmu.getD i z))) =
        argmin (ps.map (fun p => dist (pmu'.getD p z) (pmu'.getD i z)))) :
    partitionDescendants dist pmu final status es hier = partitionDescendants dist pmu' final status es hier := by
  have key : ∀ q : List M, q.length = es.length → partitionDescendants dist q final status es hier =
      partitionDescendants (fun a b => dist (q.getD a z) (q.getD b z)) (List.range es.length) final status es hier := by
    intro q hq
    have : (List.range es.length).map (fun a => q.getD a z) = q := by
      apply List.ext_getElem
      · simp [hq]
      · intro i h1 h2
        simp [h2]
    conv_lhs => rw [← this]
    exact partition_congr _ dist (fun a => q.getD a z) _ final status es hier (fun _ _ _ _ _ _ => Iff.rfl)
  rw [key pmu hp, key pmu' hp']
  exact partition_indices _ _ final status es hier hf hs h

/-- A hopeless candidate does not influence which one is the first nearest. -/
theorem argmin_soft {R : Type} [LinearOrder R] (ps : List Nat) (hn : ps.Nodup) (g g' : Nat → R) (s : Nat)
    (hg : ∀ p ∈ ps, p ≠ s → g p = g' p) (q : Nat) (hq : q ∈ ps) (hqs : q ≠ s) (h1 : g q < g s) (h2 : g' q < g' s) :
    argmin (ps.map g) = argmin (ps.map g') := by
  have hne : ps ≠ [] := List.ne_nil_of_mem hq
  obtain ⟨a, x, e1, e2, e3⟩ := argmin_spec (ps.map g) (by simpa using hne)
  obtain ⟨b, y, f1, f2, f3⟩ := argmin_spec (ps.map g') (by simpa using hne)
  rw [e1, f1]
  rw [List.getElem?_map, Option.map_eq_some_iff] at e2 f2
  obtain ⟨p, p1, rfl⟩ := e2
  obtain ⟨r, r1, rfl⟩ := f2
  obtain ⟨k, hk⟩ := List.mem_iff_getElem?.1 hq
  have ek := e3 k (g q) (by rw [List.getElem?_map, hk]; rfl)
  have fk := f3 k (g' q) (by rw [List.getElem?_map, hk]; rfl)
  have hps : p ≠ s := by rintro rfl; exact absurd h1 (not_lt.2 ek.1)
  have hrs : r ≠ s := by rintro rfl; exact absurd h2 (not_lt.2 fk.1)
  have hpm := List.mem_of_getElem? p1
  have hrm := List.mem_of_getElem? r1
  have ea := f3 a (g' p) (by rw [List.getElem?_map, p1]; rfl)
  have eb := e3 b (g r) (by rw [List.getElem?_map, r1]; rfl)
  rw [← hg p hpm hps, ← hg r hrm hrs] at ea
  congr 1
  rcases lt_trichotomy a b with hab | hab | hab
  · exact absurd (ea.2 hab) (not_lt.2 eb.1)
  · exact hab
  · exact absurd (eb.2 hab) (not_lt.2 ea.1)

/-! ## Scaled momenta -/

theorem xyPol_scale (c : ℝ) (p : P4) : (scale c p).xyPol = c * p.xyPol := by
  apply Complex.ext <;> simp [P4.xyPol, scale]

theorem pt_scale {c : ℝ} (hc : 0 < c) (p : P4) : (scale c p).pt = c * p.pt := by
  simp [P4.pt, P4.ztPol, xyPol_scale, abs_of_pos hc]

theorem spatialMag_scale {c : ℝ} (hc : 0 < c) (p : P4) : (scale c p).spatialMag = c * p.spatialMag := by
  have : (scale c p).ztPol = c * p.ztPol := by
    apply Complex.ext
    · simp [P4.ztPol, scale]
    · have := pt_scale hc p
      simpa [P4.pt] using this
  simp [P4.spatialMag, this, abs_of_pos hc]

theorem eta_scale {c : ℝ} (hc : 0 < c) (p : P4) : (scale c p).eta = p.eta := by
  unfold P4.eta
  rw [spatialMag_scale hc]
  by_cases h : p.spatialMag = 0
  · simp [h]
  · have hz : (scale c p).z / (c * p.spatialMag) = p.z / p.spatialMag := by
      simp only [scale]
      rw [mul_div_mul_left _ _ hc.ne']
    simp only [mul_eq_zero, hc.ne', h, or_self, if_false, hz]

theorem cell_scale {c d : ℝ} (hc : 0 < c) (hd : 0 < d) (p h : P4) :
    deltaRCell (scale c p).eta (scale d h).eta (scale c p).xyPol (scale d h).xyPol =
      deltaRCell p.eta h.eta p.xyPol h.xyPol := by
  unfold deltaRCell
  rw [eta_scale hc, eta_scale hd, xyPol_scale, xyPol_scale, map_mul, Complex.conj_ofReal,
    show (c : ℂ) * p.xyPol * ((d : ℂ) * (starRingEnd ℂ) h.xyPol) = ((c * d : ℝ) : ℂ) * (p.xyPol * (starRingEnd ℂ) h.xyPol) by
      push_cast; ring, Complex.arg_real_mul _ (mul_pos hc hd)]

theorem scale_one (p : P4) : scale 1 p = p := by simp [scale]

theorem cell_cases (p h : P4) : (∃ z, 0 ≤ z ∧ deltaRCell p.eta h.eta p.xyPol h.xyPol = .fin z) ∨
    deltaRCell p.eta h.eta p.xyPol h.xyPol = .pinf := by
  unfold deltaRCell hypotFl
  split
  · exact .inl ⟨_, sqrt_nonneg _, rfl⟩
  · exact .inl ⟨_, sqrt_nonneg _, rfl⟩
  · exact .inr rfl
  · exact .inr rfl

theorem weighted_zero (p h : P4) : weightedDist 0 p h = deltaRCell p.eta h.eta p.xyPol h.xyPol := (C96_value 0 p h).2

/-- The distance from a parton with transverse momentum, in terms of the angular distance. -/
theorem weighted_scale (e : ℝ) {c d : ℝ} (hc : 0 < c) (hd : 0 < d) {p : P4} (hp : 0 < p.pt) (h : P4) :
    weightedDist e (scale c p) (scale d h) = (Fl.fin ((c * p.pt) ^ e)).mul (weightedDist 0 p h) := by
  have : 0 < c * p.pt := mul_pos hc hp
  rw [weighted_zero]
  unfold weightedDist ptWeight
  rw [cell_scale hc hd, pt_scale hc, if_neg (fun k => this.ne' k.1)]

theorem weighted_hadron (e : ℝ) {d : ℝ} (hd : 0 < d) (p h : P4) :
    weightedDist e p (scale d h) = weightedDist e p h := by
  have := cell_scale one_pos hd p h
  rw [scale_one] at this
  unfold weightedDist
  rw [this]

theorem weighted_flat {c : ℝ} (hc : 0 < c) (p h : P4) : weightedDist 0 (scale c p) h = weightedDist 0 p h := by
  have := cell_scale hc one_pos p h
  rw [scale_one] at this
  rw [weighted_zero, weighted_zero, this]

theorem not_nan_ninf (p h : P4) : weightedDist 0 p h ≠ .nan ∧ weightedDist 0 p h ≠ .ninf := by
  rw [weighted_zero]
  rcases cell_cases p h with ⟨z, -, hz⟩ | hz <;> rw [hz] <;> simp

theorem small_rpow {e x : ℝ} (he : e < 0) {a : ℝ} (ha : 0 < a) : ∃ ε > 0, ∀ c, 0 < c → c < ε → x < (c * a) ^ e := by
  have hy : 0 < max x 0 + 1 := by positivity
  refine ⟨(max x 0 + 1) ^ (1 / e) / a, div_pos (rpow_pos_of_pos hy _) ha, fun c h0 hc => ?_⟩
  rw [lt_div_iff₀ ha] at hc
  have := rpow_lt_rpow_of_neg (mul_pos h0 ha) hc he
  rw [← rpow_mul hy.le, one_div_mul_cancel he.ne, rpow_one] at this
  linarith [le_max_left x 0]

theorem small_rpow_pos {e x : ℝ} (he : 0 < e) (hx : 0 < x) {a : ℝ} (ha : 0 < a) :
    ∃ ε > 0, ∀ c, 0 < c → c < ε → (c * a) ^ e < x := by
  refine ⟨x ^ (1 / e) / a, div_pos (rpow_pos_of_pos hx _) ha, fun c h0 hc => ?_⟩
  rw [lt_div_iff₀ ha] at hc
  have := rpow_lt_rpow (mul_pos h0 ha).le hc he
  rwa [← rpow_mul hx.le, one_div_mul_cancel he.ne', rpow_one] at this

theorem fl_lt_cases {D : Fl} (h : D < .pinf) : D = .nan ∨ D = .ninf ∨ ∃ x, D = .fin x := by
  cases D with
  | fin x => exact .inr (.inr ⟨x, rfl⟩)
  | pinf => exact absurd h (lt_irrefl _)
  | ninf => exact .inr (.inl rfl)
  | nan => exact .inl rfl

theorem nan_lt_fin (x : ℝ) : Fl.nan < .fin x := by
  refine lt_of_le_of_ne (nanFirst_spec.1 _) (by simp)

/-- With a negative exponent a soft parton is farther from a hadron than any given distance. -/
theorem soft_far {e : ℝ} (he : e < 0) {p : P4} (hp : 0 < p.pt) (h : P4) (hd : weightedDist 0 p h ≠ .fin 0) {D : Fl}
    (hD : D < .pinf) : ∃ ε > 0, ∀ c, 0 < c → c < ε → D < weightedDist e (scale c p) h := by
  rcases cell_cases p h with ⟨z, z0, hz⟩ | hz
  · have hz0 : 0 < z := lt_of_le_of_ne z0 (fun k => hd (by rw [weighted_zero, hz, ← k]))
    have key : ∀ c, 0 < c → weightedDist e (scale c p) h = .fin ((c * p.pt) ^ e * z) := by
      intro c hc
      have := weighted_scale e hc one_pos hp h
      rw [scale_one, weighted_zero, hz] at this
      exact this
    rcases fl_lt_cases hD with rfl | rfl | ⟨x, rfl⟩
    · exact ⟨1, one_pos, fun c hc _ => by rw [key c hc]; exact nan_lt_fin _⟩
    · exact ⟨1, one_pos, fun c hc _ => by rw [key c hc]; exact (nanFirst_spec.2.2.2 _).1⟩
    · obtain ⟨ε, ε0, hε⟩ := small_rpow (x := x / z) he hp
      refine ⟨ε, ε0, fun c hc hce => ?_⟩
      rw [key c hc, nanFirst_spec.2.2.1]
      have := hε c hc hce
      rwa [div_lt_iff₀ hz0] at this
  · refine ⟨1, one_pos, fun c hc _ => ?_⟩
    have := weighted_scale e hc one_pos hp h
    have hw : 0 < (c * p.pt) ^ e := rpow_pos_of_pos (mul_pos hc hp) _
    rw [scale_one, weighted_zero, hz] at this
    simp only [Fl.mul, hw.ne', hw, if_false, if_true] at this
    rw [this]
    exact hD

/-- With a positive exponent it is nearer than any given distance. -/
theorem soft_near {e : ℝ} (he : 0 < e) {p : P4} (hp : 0 < p.pt) (h : P4) (hd : weightedDist 0 p h ≠ .pinf) {D : Fl}
    (hD : .fin 0 < D) : ∃ ε > 0, ∀ c, 0 < c → c < ε → weightedDist e (scale c p) h < D := by
  rcases cell_cases p h with ⟨z, z0, hz⟩ | hz
  · have key : ∀ c, 0 < c → weightedDist e (scale c p) h = .fin ((c * p.pt) ^ e * z) := by
      intro c hc
      have := weighted_scale e hc one_pos hp h
      rw [scale_one, weighted_zero, hz] at this
      exact this
    cases D with
    | nan => exact absurd hD (not_lt.2 (nanFirst_spec.1 _))
    | ninf => exact absurd hD (not_lt.2 (nanFirst_spec.2.2.2 0).1.le)
    | pinf => exact ⟨1, one_pos, fun c hc _ => by rw [key c hc]; exact (nanFirst_spec.2.2.2 _).2⟩
    | fin x =>
      rw [nanFirst_spec.2.2.1] at hD
      obtain ⟨ε, ε0, hε⟩ := small_rpow_pos (x := x / (z + 1)) he (by positivity) hp
      refine ⟨ε, ε0, fun c hc hce => ?_⟩
      rw [key c hc, nanFirst_spec.2.2.1]
      have h1 := hε c hc hce
      rw [lt_div_iff₀ (by positivity)] at h1
      have h2 : 0 < (c * p.pt) ^ e := rpow_pos_of_pos (mul_pos hc hp) _
      nlinarith
  · rw [weighted_zero, hz] at hd
    exact absurd rfl hd

theorem uniform_small (n : Nat) (P : Nat → ℝ → Prop) (h : ∀ i < n, ∃ ε > 0, ∀ c, 0 < c → c < ε → P i c) :
    ∃ ε > 0, ∀ i < n, ∀ c, 0 < c → c < ε → P i c := by
  induction n with
  | zero => exact ⟨1, one_pos, fun i hi => absurd hi (by omega)⟩
  | succ n ih =>
    obtain ⟨ε, h0, h1⟩ := ih (fun i hi => h i (by omega))
    obtain ⟨δ, d0, d1⟩ := h n (by omega)
    refine ⟨min ε δ, lt_min h0 d0, fun i hi c hc hce => ?_⟩
    rcases Nat.lt_succ_iff_lt_or_eq.1 hi with hi | rfl
    · exact h1 i hi c hc (lt_of_lt_of_le hce (min_le_left _ _))
    · exact d1 c hc (lt_of_lt_of_le hce (min_le_right _ _))

/-! ## C147 -/

/-- `r` is, of the particles other than `s` entering `v`, the one nearest to particle `i`, the first one on ties. -/
def Spec.NearestBut {M R : Type} [LT R] [LE R] (s : Nat) (dist : M → M → R) (pmu : List M) (es : List (Int × Int))
    (v : Int) (i r : Nat) : Prop :=
  Enters es v r ∧ r ≠ s ∧ ∃ mi mr, pmu[i]? = some mi ∧ pmu[r]? = some mr ∧
    ∀ (q : Nat) (mq : M), Enters es v q → q ≠ s → pmu[q]? = some mq →
      dist mr mi ≤ dist mq mi ∧ (q < r → dist mr mi < dist mq mi)

section
variable (e : ℝ) (pmu : List P4) (final : List Bool) (status : List Int) (es : List (Int × Int))
  (hp : pmu.length = es.length) (hf : final.length = es.length) (hs : status.length = es.length)
  (hfin : ∀ (v : Int) (p : Nat), HadronVertex es status v → Enters es v p → final[p]? ≠ some true)
include hp hf hs hfin

/-- **C147** Where a final particle goes depends on its direction only: final particles may be made harder or softer,
each by a factor of its own, for every exponent. -/
theorem C147_hadrons (hier : Dict Mask) (pmu' : List P4) (hp' : pmu'.length = es.length)
    (h : ∀ (i : Nat) (p p' : P4), pmu[i]? = some p → pmu'[i]? = some p' →
      p' = p ∨ (final[i]? = some true ∧ ∃ c : ℝ, 0 < c ∧ p' = scale c p)) :
    partitionDescendants (weightedDist e) pmu' final status es hier =
      partitionDescendants (weightedDist e) pmu final status es hier := by
  refine partition_argmin ⟨0, 0, 0, 0⟩ _ _ _ final status es hier hp' hp hf hs (fun v i hv hi ps _ hps => ?_)
  congr 1
  refine List.map_congr_left (fun q hq => ?_)
  have hq' := (hps q).1 hq
  have hlt : ∀ j, (∃ x, es[j]? = some x) → j < es.length := by
    rintro j ⟨x, hx⟩
    by_contra hc
    rw [List.getElem?_eq_none (by omega)] at hx
    cases hx
  have hql : q < es.length := hlt q (by obtain ⟨x, hx, -⟩ := hq'; exact ⟨x, hx⟩)
  have hil : i < es.length := hlt i (by obtain ⟨-, x, hx, -⟩ := hi; exact ⟨x, hx⟩)
  have g : ∀ (l : List P4) (j : Nat) (hj : j < l.length), l.getD j ⟨0, 0, 0, 0⟩ = l[j] := by
    intro l j hj; simp [hj]
  rw [g pmu' q (by omega), g pmu' i (by omega), g pmu q (by omega), g pmu i (by omega)]
  rcases h q _ _ (List.getElem?_eq_getElem (by omega : q < pmu.length))
    (List.getElem?_eq_getElem (by omega : q < pmu'.length)) with hqq | ⟨hqf, -⟩
  · rw [hqq]
    rcases h i _ _ (List.getElem?_eq_getElem (by omega : i < pmu.length))
      (List.getElem?_eq_getElem (by omega : i < pmu'.length)) with hii | ⟨-, c, hc, hii⟩
    · rw [hii]
    · rw [hii, weighted_hadron e hc]
  · exact absurd hqf (hfin v q hv hq')

/-- **C147** Negative exponents are infrared safe: make one parton `s` softer and softer, keeping its direction.  If it is
exactly along no final particle of its vertex, and each of these has some other parton at a finite distance, then from
some point on every such final particle goes to the parton that would be nearest without `s`, and the partition of every
tree no longer changes. -/
theorem C147_soft (he : e < 0) (s : Nat) (p : P4) (hsp : pmu[s]? = some p) (hpt : 0 < p.pt)
    (hother : ∀ v i mi, HadronVertex es status v → Enters es v s → HadronOf es final v i → pmu[i]? = some mi →
      weightedDist 0 p mi ≠ .fin 0 ∧
      ∃ q mq, q ≠ s ∧ Enters es v q ∧ pmu[q]? = some mq ∧ weightedDist e mq mi < .pinf) :
    ∃ ε > 0, ∀ c, 0 < c → c < ε →
      (∀ v i r, HadronVertex es status v → Enters es v s → HadronOf es final v i →
        Nearest (weightedDist e) (pmu.set s (scale c p)) es v i r → NearestBut s (weightedDist e) pmu es v i r) ∧
      ∀ c', 0 < c' → c' < ε → ∀ hier : Dict Mask,
        partitionDescendants (weightedDist e) (pmu.set s (scale c' p)) final status es hier =
          partitionDescendants (weightedDist e) (pmu.set s (scale c p)) final status es hier := by
  have hlt : ∀ j, (∃ x, es[j]? = some x) → j < es.length := by
    rintro j ⟨x, hx⟩
    by_contra hc
    rw [List.getElem?_eq_none (by omega)] at hx
    cases hx
  have hsl : s < pmu.length := by
    by_contra hc
    rw [List.getElem?_eq_none (by omega)] at hsp
    cases hsp
  obtain ⟨ε, ε0, hε⟩ := uniform_small es.length (fun i c => ∀ v mi, HadronVertex es status v → Enters es v s →
      HadronOf es final v i → pmu[i]? = some mi → ∃ q mq, q ≠ s ∧ Enters es v q ∧ pmu[q]? = some mq ∧
        weightedDist e mq mi < weightedDist e (scale c p) mi) (by
    intro i hi
    by_cases hc : ∃ v, HadronVertex es status v ∧ Enters es v s ∧ HadronOf es final v i
    · obtain ⟨v, h1, h2, h3⟩ := hc
      have him : pmu[i]? = some (pmu[i]'(by omega)) := List.getElem?_eq_getElem (by omega)
      obtain ⟨hd, q, mq, q1, q2, q3, q4⟩ := hother v i _ h1 h2 h3 him
      obtain ⟨ε, ε0, hε⟩ := soft_far he hpt _ hd q4
      refine ⟨ε, ε0, fun c hc hce w mi _ hw2 _ hmi => ?_⟩
      have hwv : w = v := by
        obtain ⟨x, x1, x2⟩ := hw2
        obtain ⟨y, y1, y2⟩ := h2
        rw [x1] at y1
        cases y1
        rw [← x2, ← y2]
      subst hwv
      rw [him] at hmi
      cases hmi
      exact ⟨q, mq, q1, q2, q3, hε c hc hce⟩
    · exact ⟨1, one_pos, fun c _ _ v mi h1 h2 h3 _ => absurd ⟨v, h1, h2, h3⟩ hc⟩)
  refine ⟨ε, ε0, fun c hc hce => ⟨fun v i r hv hvs hi hr => ?_, fun c' hc' hce' hier => ?_⟩⟩
  · obtain ⟨hre, mi, mr, m1, m2, m3⟩ := hr
    have his : s ≠ i := by
      rintro rfl
      exact hfin v s hv hvs hi.1
    rw [List.getElem?_set_ne his] at m1
    have hil : i < es.length := hlt i (by obtain ⟨-, x, hx, -⟩ := hi; exact ⟨x, hx⟩)
    obtain ⟨q, mq, q1, q2, q3, q4⟩ := hε i hil c hc hce v mi hv hvs hi m1
    have hrs : r ≠ s := by
      rintro rfl
      rw [List.getElem?_set_self hsl] at m2
      cases m2
      exact absurd q4 (not_lt.2 (m3 q mq q2 (by rw [List.getElem?_set_ne q1.symm]; exact q3)).1)
    rw [List.getElem?_set_ne hrs.symm] at m2
    exact ⟨hre, hrs, mi, mr, m1, m2, fun q' mq' a b d => m3 q' mq' a (by rw [List.getElem?_set_ne b.symm]; exact d)⟩
  · refine partition_argmin ⟨0, 0, 0, 0⟩ _ _ _ final status es hier (by simpa using hp) (by simpa using hp) hf hs
      (fun v i hv hi ps hn hps => ?_)
    have hil : i < es.length := hlt i (by obtain ⟨-, x, hx, -⟩ := hi; exact ⟨x, hx⟩)
    by_cases hvs : Enters es v s
    · have his : s ≠ i := by
        rintro rfl
        exact hfin v s hv hvs hi.1
      have him : pmu[i]? = some (pmu[i]'(by omega)) := List.getElem?_eq_getElem (by omega)
      obtain ⟨q, mq, q1, q2, q3, q4⟩ := hε i hil c hc hce v _ hv hvs hi him
      obtain ⟨q', mq', q1', q2', q3', q4'⟩ := hε i hil c' hc' hce' v _ hv hvs hi him
      have gi : ∀ c, (pmu.set s (scale c p)).getD i ⟨0, 0, 0, 0⟩ = pmu[i]'(by omega) := by
        intro c
        rw [List.getD_eq_getElem?_getD, List.getElem?_set_ne his, him]; rfl
      have gs : ∀ c, (pmu.set s (scale c p)).getD s ⟨0, 0, 0, 0⟩ = scale c p := by
        intro c
        rw [List.getD_eq_getElem?_getD, List.getElem?_set_self hsl]; rfl
      have gq : ∀ c q, q ≠ s → (pmu.set s (scale c p)).getD q ⟨0, 0, 0, 0⟩ = pmu.getD q ⟨0, 0, 0, 0⟩ := by
        intro c q hq
        rw [List.getD_eq_getElem?_getD, List.getElem?_set_ne hq.symm, List.getD_eq_getElem?_getD]
      have gm : pmu.getD q ⟨0, 0, 0, 0⟩ = mq := by rw [List.getD_eq_getElem?_getD, q3]; rfl
      have gm' : pmu.getD q' ⟨0, 0, 0, 0⟩ = mq' := by rw [List.getD_eq_getElem?_getD, q3']; rfl
      simp only [gi]
      -- the nearer of the two witnesses beats both
      have hboth : ∃ t, t ≠ s ∧ Enters es v t ∧
          weightedDist e (pmu.getD t ⟨0, 0, 0, 0⟩) (pmu[i]'(by omega)) < weightedDist e (scale c p) (pmu[i]'(by omega)) ∧
          weightedDist e (pmu.getD t ⟨0, 0, 0, 0⟩) (pmu[i]'(by omega)) < weightedDist e (scale c' p) (pmu[i]'(by omega)) := by
        rcases le_total (weightedDist e mq (pmu[i]'(by omega))) (weightedDist e mq' (pmu[i]'(by omega))) with hle | hle
        · exact ⟨q, q1, q2, by rw [gm]; exact q4, by rw [gm]; exact lt_of_le_of_lt hle q4'⟩
        · exact ⟨q', q1', q2', by rw [gm']; exact lt_of_le_of_lt hle q4, by rw [gm']; exact q4'⟩
      obtain ⟨t, t1, t2, t3, t4⟩ := hboth
      refine argmin_soft ps hn _ _ s (fun x _ hxs => by rw [gq c' x hxs, gq c x hxs]) t ((hps t).2 t2) t1 ?_ ?_
      · simp only [gs, gq c' t t1]; exact t4
      · simp only [gs, gq c t t1]; exact t3
    · congr 1
      refine List.map_congr_left (fun x hx => ?_)
      have hxs : x ≠ s := by
        rintro rfl
        exact hvs ((hps x).1 hx)
      have gq : ∀ c, (pmu.set s (scale c p)).getD x ⟨0, 0, 0, 0⟩ = pmu.getD x ⟨0, 0, 0, 0⟩ := by
        intro c
        rw [List.getD_eq_getElem?_getD, List.getElem?_set_ne hxs.symm, List.getD_eq_getElem?_getD]
      rw [gq, gq]
      by_cases his : s = i
      · subst his
        have g : ∀ c, (pmu.set s (scale c p)).getD s ⟨0, 0, 0, 0⟩ = scale c p := by
          intro c
          rw [List.getD_eq_getElem?_getD, List.getElem?_set_self hsl]; rfl
        rw [g, g, weighted_hadron e hc', weighted_hadron e hc]
      · have g : ∀ c, (pmu.set s (scale c p)).getD i ⟨0, 0, 0, 0⟩ = pmu.getD i ⟨0, 0, 0, 0⟩ := by
          intro c
          rw [List.getD_eq_getElem?_getD, List.getElem?_set_ne his, List.getD_eq_getElem?_getD]
        rw [g, g]

/-- **C147** Positive exponents are not infrared safe: from some point on a parton that is made softer and softer takes
every final particle of its vertex that is at a finite angular distance from it and not exactly at another parton. -/
theorem C147_unsafe (he : 0 < e) (s : Nat) (p : P4) (hsp : pmu[s]? = some p) (hpt : 0 < p.pt) (v : Int)
    (hv : HadronVertex es status v) (hvs : Enters es v s) :
    ∃ ε > 0, ∀ c, 0 < c → c < ε → ∀ i mi, HadronOf es final v i → pmu[i]? = some mi → weightedDist 0 p mi ≠ .pinf →
      (∀ q mq, q ≠ s → Enters es v q → pmu[q]? = some mq → .fin 0 < weightedDist e mq mi) →
      ∀ r, Nearest (weightedDist e) (pmu.set s (scale c p)) es v i r → r = s := by
  have hlt : ∀ j, (∃ x, es[j]? = some x) → j < es.length := by
    rintro j ⟨x, hx⟩
    by_contra hc
    rw [List.getElem?_eq_none (by omega)] at hx
    cases hx
  have hsl : s < pmu.length := by
    by_contra hc
    rw [List.getElem?_eq_none (by omega)] at hsp
    cases hsp
  obtain ⟨ε, ε0, hε⟩ := uniform_small es.length (fun i c => ∀ q < es.length, ∀ mi mq, pmu[i]? = some mi →
      pmu[q]? = some mq → weightedDist 0 p mi ≠ .pinf → .fin 0 < weightedDist e mq mi →
      weightedDist e (scale c p) mi < weightedDist e mq mi) (by
    intro i hi
    have := uniform_small es.length (fun q c => ∀ mi mq, pmu[i]? = some mi →
      pmu[q]? = some mq → weightedDist 0 p mi ≠ .pinf → .fin 0 < weightedDist e mq mi →
      weightedDist e (scale c p) mi < weightedDist e mq mi) (by
        intro q hq
        by_cases hc : weightedDist 0 p (pmu[i]'(by omega)) ≠ .pinf ∧
            .fin 0 < weightedDist e (pmu[q]'(by omega)) (pmu[i]'(by omega))
        · obtain ⟨ε, ε0, hε⟩ := soft_near he hpt _ hc.1 hc.2
          refine ⟨ε, ε0, fun c h0 h1 mi mq h2 h3 _ _ => ?_⟩
          rw [List.getElem?_eq_getElem (by omega)] at h2 h3
          cases h2; cases h3
          exact hε c h0 h1
        · refine ⟨1, one_pos, fun c _ _ mi mq h2 h3 h4 h5 => ?_⟩
          rw [List.getElem?_eq_getElem (by omega)] at h2 h3
          cases h2; cases h3
          exact absurd ⟨h4, h5⟩ hc)
    obtain ⟨ε, ε0, hε⟩ := this
    exact ⟨ε, ε0, fun c h0 h1 q hq => hε q hq c h0 h1⟩)
  refine ⟨ε, ε0, fun c h0 h1 i mi hi him hfi hoth r hr => ?_⟩
  obtain ⟨hre, mi', mr, m1, m2, m3⟩ := hr
  have his : s ≠ i := by
    rintro rfl
    exact hfin v s hv hvs hi.1
  rw [List.getElem?_set_ne his, him] at m1
  cases m1
  by_contra hrs
  rw [List.getElem?_set_ne (Ne.symm hrs)] at m2
  have hil : i < es.length := hlt i (by obtain ⟨-, x, hx, -⟩ := hi; exact ⟨x, hx⟩)
  have hrl : r < es.length := hlt r (by obtain ⟨x, hx, -⟩ := hre; exact ⟨x, hx⟩)
  have h2 := hε i hil c h0 h1 r hrl mi mr him m2 hfi (hoth r mr hrs hre m2)
  exact absurd h2 (not_lt.2 (m3 s _ hvs (List.getElem?_set_self hsl)).1)

/-- **C147** The exceptions made for negative exponents are needed.  However soft the parton, a final particle exactly
along it goes to it, unless another parton is as near; and at the end of the limit, a parton at rest, every final particle
of its vertex goes to it, unless another parton's distance is nan as well. -/
theorem C147_soft_false (he : e < 0) (s : Nat) (p : P4) (hsp : pmu[s]? = some p) (hpt : 0 < p.pt) (v : Int)
    (hv : HadronVertex es status v) (hvs : Enters es v s) (i : Nat) (mi : P4) (hi : HadronOf es final v i)
    (him : pmu[i]? = some mi) :
    (weightedDist 0 p mi = .fin 0 → (∀ q mq, q ≠ s → Enters es v q → pmu[q]? = some mq → .fin 0 < weightedDist e mq mi) →
      ∀ c, 0 < c → ∀ r, Nearest (weightedDist e) (pmu.set s (scale c p)) es v i r → r = s) ∧
    ((∀ q mq, q ≠ s → Enters es v q → pmu[q]? = some mq → weightedDist e mq mi ≠ .nan) →
      ∀ r, Nearest (weightedDist e) (pmu.set s (scale 0 p)) es v i r → r = s) := by
  have hsl : s < pmu.length := by
    by_contra hc
    rw [List.getElem?_eq_none (by omega)] at hsp
    cases hsp
  have his : s ≠ i := by
    rintro rfl
    exact hfin v s hv hvs hi.1
  have main : ∀ c r, (∀ q mq, q ≠ s → Enters es v q → pmu[q]? = some mq →
      weightedDist e (scale c p) mi < weightedDist e mq mi) →
      Nearest (weightedDist e) (pmu.set s (scale c p)) es v i r → r = s := by
    intro c r hall ⟨hre, mi', mr, m1, m2, m3⟩
    rw [List.getElem?_set_ne his, him] at m1
    cases m1
    by_contra hrs
    rw [List.getElem?_set_ne (Ne.symm hrs)] at m2
    exact absurd (hall r mr hrs hre m2) (not_lt.2 (m3 s _ hvs (List.getElem?_set_self hsl)).1)
  refine ⟨fun hz hoth c hc r hr => main c r (fun q mq a b d => ?_) hr, fun hoth r hr => main 0 r (fun q mq a b d => ?_) hr⟩
  · have := weighted_scale e hc one_pos hpt mi
    rw [scale_one, hz] at this
    rw [this]
    simp only [Fl.mul, mul_zero]
    exact hoth q mq a b d
  · have h0 : scale 0 p = ⟨0, 0, 0, 0⟩ := by simp [scale]
    rw [h0, (C96_rest e he 0 mi).1]
    exact lt_of_le_of_ne (nanFirst_spec.1 _) (hoth q mq a b d).symm

omit hfin in
/-- **C147** With exponent zero only directions count: every momentum, of partons and of final particles, may be made
harder or softer by a factor of its own.  So a parton keeps what it has, however soft it becomes. -/
theorem C147_flat (hier : Dict Mask) (pmu' : List P4) (hp' : pmu'.length = es.length)
    (h : ∀ (i : Nat) (p p' : P4), pmu[i]? = some p → pmu'[i]? = some p' → ∃ c : ℝ, 0 < c ∧ p' = scale c p) :
    partitionDescendants (weightedDist 0) pmu' final status es hier =
      partitionDescendants (weightedDist 0) pmu final status es hier := by
  refine partition_argmin ⟨0, 0, 0, 0⟩ _ _ _ final status es hier hp' hp hf hs (fun v i hv hi ps _ hps => ?_)
  congr 1
  refine List.map_congr_left (fun q hq => ?_)
  have hq' := (hps q).1 hq
  have hlt : ∀ j, (∃ x, es[j]? = some x) → j < es.length := by
    rintro j ⟨x, hx⟩
    by_contra hc
    rw [List.getElem?_eq_none (by omega)] at hx
    cases hx
  have hql : q < es.length := hlt q (by obtain ⟨x, hx, -⟩ := hq'; exact ⟨x, hx⟩)
  have hil : i < es.length := hlt i (by obtain ⟨-, x, hx, -⟩ := hi; exact ⟨x, hx⟩)
  have g : ∀ (l : List P4) (j : Nat) (hj : j < l.length), l.getD j ⟨0, 0, 0, 0⟩ = l[j] := by
    intro l j hj; simp [hj]
  rw [g pmu' q (by omega), g pmu' i (by omega), g pmu q (by omega), g pmu i (by omega)]
  obtain ⟨c, hc, e1⟩ := h q _ _ (List.getElem?_eq_getElem (by omega : q < pmu.length))
    (List.getElem?_eq_getElem (by omega : q < pmu'.length))
  obtain ⟨d, hd, e2⟩ := h i _ _ (List.getElem?_eq_getElem (by omega : i < pmu.length))
    (List.getElem?_eq_getElem (by omega : i < pmu'.length))
  rw [e1, e2, weighted_hadron 0 hd, weighted_flat hc]

end

theorem plane_eta (x y e : ℝ) (h : x ≠ 0 ∨ y ≠ 0) : (⟨x, y, 0, e⟩ : P4).eta = .fin 0 := by
  have hpos : (⟨x, y, 0, e⟩ : P4).spatialMag ≠ 0 := by
    intro h0
    have : (⟨x, y, 0, e⟩ : P4).ztPol = 0 := by simpa [P4.spatialMag] using h0
    have h1 : (⟨x, y, 0, e⟩ : P4).pt = 0 := by simp [P4.pt, this]
    have h2 := pt_sq ⟨x, y, 0, e⟩
    rw [h1] at h2
    simp only at h2
    rcases h with h | h
    · exact h (by nlinarith [sq_nonneg x, sq_nonneg y])
    · exact h (by nlinarith [sq_nonneg x, sq_nonneg y])
  simp [P4.eta, hpos]

/-- Distances in the transverse plane from a hadron along x: of a parton along y and of one opposite. -/
theorem plane_dist (e a b : ℝ) (ha : 0 < a) (hb : 0 < b) :
    weightedDist e ⟨0, a, 0, a⟩ ⟨1, 0, 0, 1⟩ = .fin (a ^ e * (π / 2)) ∧
    weightedDist e ⟨-b, 0, 0, b⟩ ⟨1, 0, 0, 1⟩ = .fin (b ^ e * π) := by
  have e0 : (⟨1, 0, 0, 1⟩ : P4).eta = .fin 0 := plane_eta 1 0 1 (by simp)
  have e1 : (⟨0, a, 0, a⟩ : P4).eta = .fin 0 := plane_eta 0 a a (.inr ha.ne')
  have e2 : (⟨-b, 0, 0, b⟩ : P4).eta = .fin 0 := plane_eta (-b) 0 b (.inl (by simpa using hb.ne'))
  have x0 : (⟨1, 0, 0, 1⟩ : P4).xyPol = 1 := by apply Complex.ext <;> simp [P4.xyPol]
  have x1 : (⟨0, a, 0, a⟩ : P4).xyPol = (a : ℂ) * Complex.I := by apply Complex.ext <;> simp [P4.xyPol]
  have x2 : (⟨-b, 0, 0, b⟩ : P4).xyPol = (b : ℂ) * (-1) := by apply Complex.ext <;> simp [P4.xyPol]
  have p1 : (⟨0, a, 0, a⟩ : P4).pt = a := by simp [P4.pt, P4.ztPol, x1, abs_of_pos ha]
  have p2 : (⟨-b, 0, 0, b⟩ : P4).pt = b := by simp [P4.pt, P4.ztPol, x2, abs_of_pos hb]
  have s1 : √((π / 2) ^ 2) = π / 2 := sqrt_sq (by positivity)
  have s2 : √(π ^ 2) = π := sqrt_sq pi_pos.le
  constructor
  · simp only [weightedDist, ptWeight, p1, e0, e1, x0, x1, deltaRCell, Fl.sub, hypotFl]
    rw [if_neg (fun k => ha.ne' k.1), map_one, mul_one, Complex.arg_real_mul _ ha, Complex.arg_I]
    simp only [Fl.mul, sub_self, ne_eq, OfNat.ofNat_ne_zero, not_false_eq_true, zero_pow, zero_add, s1]
  · simp only [weightedDist, ptWeight, p2, e0, e2, x0, x2, deltaRCell, Fl.sub, hypotFl]
    rw [if_neg (fun k => hb.ne' k.1), map_one, mul_one, Complex.arg_real_mul _ hb, Complex.arg_neg_one]
    simp only [Fl.mul, sub_self, ne_eq, OfNat.ofNat_ne_zero, not_false_eq_true, zero_pow, zero_add, s2]

/-- **C147** Negative exponents are not collinear safe: whatever the exponent and the fraction, there are two partons and
a hadron nearest to the first of them which, after that parton is split into two along its own direction, is nearer to the
second one than to both halves. -/
theorem C147_collinear_false (e : ℝ) (he : e < 0) (z : ℝ) (h0 : 0 < z) (h1 : z < 1) : ∃ p q h : P4,
    weightedDist e p h < weightedDist e q h ∧
    weightedDist e q h < weightedDist e (scale z p) h ∧ weightedDist e q h < weightedDist e (scale (1 - z) p) h := by
  have hz1 : 0 < 1 - z := by linarith
  have a1 : 1 < z ^ e := one_lt_rpow_of_pos_of_lt_one_of_neg h0 h1 he
  have a2 : 1 < (1 - z) ^ e := one_lt_rpow_of_pos_of_lt_one_of_neg hz1 (by linarith) he
  set m := min (z ^ e) ((1 - z) ^ e) with hm
  have hm1 : 1 < m := lt_min a1 a2
  have hy : 0 < (1 + m) / 4 := by linarith
  have hb : 0 < ((1 + m) / 4) ^ (1 / e) := rpow_pos_of_pos hy _
  have hbe : (((1 + m) / 4) ^ (1 / e)) ^ e = (1 + m) / 4 := by
    rw [← rpow_mul hy.le, one_div_mul_cancel he.ne, rpow_one]
  have hsc : ∀ c : ℝ, scale c ⟨0, 1, 0, 1⟩ = ⟨0, c, 0, c⟩ := by intro c; simp [scale]
  refine ⟨⟨0, 1, 0, 1⟩, ⟨-(((1 + m) / 4) ^ (1 / e)), 0, 0, ((1 + m) / 4) ^ (1 / e)⟩, ⟨1, 0, 0, 1⟩, ?_, ?_, ?_⟩
  · rw [(plane_dist e 1 _ one_pos hb).1, (plane_dist e 1 _ one_pos hb).2, nanFirst_spec.2.2.1, one_rpow, hbe]
    nlinarith [pi_pos]
  · rw [hsc, (plane_dist e z _ h0 hb).1, (plane_dist e z _ h0 hb).2, nanFirst_spec.2.2.1, hbe]
    have : m ≤ z ^ e := min_le_left _ _
    nlinarith [pi_pos]
  · rw [hsc, (plane_dist e (1 - z) _ hz1 hb).1, (plane_dist e (1 - z) _ hz1 hb).2, nanFirst_spec.2.2.1, hbe]
    have : m ≤ (1 - z) ^ e := min_le_right _ _
    nlinarith [pi_pos]

/-- An event as in the theorems: two partons enter the hadronisation vertex 1, one final particle leaves it. -/
theorem exSafety (e : ℝ) : let es : List (Int × Int) := [(5, 1), (6, 1), (1, 2)]
    let final := [false, false, true]
    let status : List Int := [71, 71, 84]
    let pmu : List P4 := [⟨0, 2, 0, 2⟩, ⟨-3, 0, 0, 3⟩, ⟨1, 0, 0, 1⟩]
    HadronVertex es status 1 ∧ Enters es 1 0 ∧ HadronOf es final 1 2 ∧
    (∀ (v : Int) (p : Nat), HadronVertex es status v → Enters es v p → final[p]? ≠ some true) ∧
    (∀ v i mi, HadronVertex es status v → Enters es v 0 → HadronOf es final v i → pmu[i]? = some mi →
      weightedDist 0 ⟨0, 2, 0, 2⟩ mi ≠ .fin 0 ∧
      ∃ q mq, q ≠ 0 ∧ Enters es v q ∧ pmu[q]? = some mq ∧ weightedDist e mq mi < .pinf) := by
  intro es final status pmu
  have hD : HadronOf es final 1 2 := by
    refine ⟨rfl, (1, 2), rfl, ?_⟩
    exact .inl ⟨⟨2, by simp [es]⟩, Relation.ReflTransGen.refl⟩
  have hE : ∀ v p, Enters es v p → p < 2 ∧ v = 1 ∨ p = 2 ∧ v = 2 := by
    intro v p ⟨x, hx, hv⟩
    match p with
    | 0 => simp [es] at hx; subst hx; exact .inl ⟨by omega, hv.symm⟩
    | 1 => simp [es] at hx; subst hx; exact .inl ⟨by omega, hv.symm⟩
    | 2 => simp [es] at hx; subst hx; exact .inr ⟨rfl, hv.symm⟩
    | n + 3 => simp [es] at hx
  have hV : ∀ v, HadronVertex es status v → v = 1 := by
    rintro v ⟨i, x, s, h1, h2, h3, h4, h5⟩
    match i with
    | 0 => simp [status] at h2; subst h2; simp at h4
    | 1 => simp [status] at h2; subst h2; simp at h4
    | 2 => simp [es] at h1; subst h1; exact h3.symm
    | n + 3 => simp [es] at h1
  refine ⟨⟨2, (1, 2), 84, rfl, rfl, rfl, by decide, by decide⟩, ⟨(5, 1), rfl, rfl⟩, hD, ?_, ?_⟩
  · intro v p hv hp
    rcases hE v p hp with ⟨h, -⟩ | ⟨-, h⟩
    · interval_cases p <;> simp [final]
    · rw [hV v hv] at h; cases h
  · intro v i mi hv h0 hi hmi
    have hv1 := hV v hv
    subst hv1
    have hi2 : i = 2 := by
      obtain ⟨h1, -⟩ := hi
      match i with
      | 0 => simp [final] at h1
      | 1 => simp [final] at h1
      | 2 => rfl
      | n + 3 => simp [final] at h1
    subst hi2
    simp [pmu] at hmi
    subst hmi
    refine ⟨?_, 1, ⟨-3, 0, 0, 3⟩, by decide, ⟨(6, 1), rfl, rfl⟩, rfl, ?_⟩
    · rw [(plane_dist 0 2 3 two_pos three_pos).1]
      simp [pi_ne_zero]
    · rw [(plane_dist e 2 3 two_pos three_pos).2]
      exact (nanFirst_spec.2.2.2 _).2

/-- For it and the exponent of the default distance, softening the first parton ends with the final particle at the
second one. -/
example : ∃ ε > 0, ∀ c, 0 < c → c < ε → ∀ r, Nearest (weightedDist (-0.1))
    ([⟨0, 2, 0, 2⟩, ⟨-3, 0, 0, 3⟩, ⟨1, 0, 0, 1⟩].set 0 (scale c ⟨0, 2, 0, 2⟩)) [(5, 1), (6, 1), (1, 2)] 1 2 r → r ≠ 0 := by
  obtain ⟨h1, h2, h3, h4, h5⟩ := exSafety (-0.1)
  have hpt : 0 < (⟨0, 2, 0, 2⟩ : P4).pt := by rw [pt_eq]; norm_num
  obtain ⟨ε, ε0, hε⟩ := C147_soft (-0.1) _ _ _ _ rfl rfl rfl h4 (by norm_num) 0 ⟨0, 2, 0, 2⟩ rfl hpt h5
  exact ⟨ε, ε0, fun c a b r hr => ((hε c a b).1 1 2 r h1 h2 h3 hr).2.1⟩

end Gcl
