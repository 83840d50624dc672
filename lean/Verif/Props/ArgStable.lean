import Verif.Props.Stable
import Verif.Props.ArgClosestDocs
import Verif.Props.Tag
/-! # C169: `arg_closest` does not mind a little noise -/
namespace Gcl
set_option autoImplicit false
open Spec Real Filter Topology

/-- Pairs of lists of momenta near a pair: all components of all momenta within some `δ`. -/
def nearLists (ps qs : List P4) : Filter (List P4 × List P4) where
  sets := {s | ∃ δ > 0, ∀ x : List P4 × List P4, List.Forall₂ (Off δ) x.1 ps → List.Forall₂ (Off δ) x.2 qs → x ∈ s}
  univ_sets := ⟨1, one_pos, fun _ _ _ => trivial⟩
  sets_of_superset := fun ⟨δ, h, h'⟩ hs => ⟨δ, h, fun x a b => hs (h' x a b)⟩
  inter_sets := fun ⟨δ, h, h'⟩ ⟨δ', k, k'⟩ => ⟨min δ δ', lt_min h k, fun x a b =>
    ⟨h' x (a.imp fun _ _ => off_mono (min_le_left _ _)) (b.imp fun _ _ => off_mono (min_le_left _ _)),
      k' x (a.imp fun _ _ => off_mono (min_le_right _ _)) (b.imp fun _ _ => off_mono (min_le_right _ _))⟩⟩

theorem nearLists_iff {ps qs : List P4} {P : List P4 × List P4 → Prop} : (∀ᶠ x in nearLists ps qs, P x) ↔
    ∃ δ > 0, ∀ x : List P4 × List P4, List.Forall₂ (Off δ) x.1 ps → List.Forall₂ (Off δ) x.2 qs → P x := Iff.rfl

/-- The `i`-th momentum, the null vector outside the list. -/
def nthP (l : List P4) (i : Nat) : P4 := l.getD i ⟨0, 0, 0, 0⟩

theorem off_nth {δ : ℝ} (hδ : 0 < δ) {l' l : List P4} (h : List.Forall₂ (Off δ) l' l) (i : Nat) : Off δ (nthP l' i) (nthP l i) := by
  unfold nthP
  rw [List.getD_eq_getElem?_getD, List.getD_eq_getElem?_getD]
  have hl := h.length_eq
  by_cases hi : i < l'.length
  · rw [List.getElem?_eq_getElem hi, List.getElem?_eq_getElem (hl ▸ hi)]
    exact h.get hi (hl ▸ hi)
  · rw [List.getElem?_eq_none (by omega), List.getElem?_eq_none (by omega)]
    exact off_self hδ _

theorem tends_vec1 (ps qs : List P4) (i : Nat) : Tendsto (fun x : List P4 × List P4 => (nthP x.1 i).vec) (nearLists ps qs) (𝓝 (nthP ps i).vec) := by
  rw [Metric.tendsto_nhds]
  intro ε hε
  exact nearLists_iff.2 ⟨ε, hε, fun x a _ => off_dist (off_nth hε a i)⟩

theorem tends_vec2 (ps qs : List P4) (i : Nat) : Tendsto (fun x : List P4 × List P4 => (nthP x.2 i).vec) (nearLists ps qs) (𝓝 (nthP qs i).vec) := by
  rw [Metric.tendsto_nhds]
  intro ε hε
  exact nearLists_iff.2 ⟨ε, hε, fun x _ b => off_dist (off_nth hε b i)⟩

/-- The separation in rapidity and azimuth of momenta off the beam, without angles. -/
noncomputable def rapAng (p q : P4) : ℝ :=
  √((0.5 * log ((p.e + p.z) / (p.e - p.z)) - 0.5 * log ((q.e + q.z) / (q.e - q.z))) ^ 2 +
    arccos ((p.x * q.x + p.y * q.y) / (p.pt * q.pt)) ^ 2)

theorem abs_arg {p q : P4} (hp : 0 < p.pt) (hq : 0 < q.pt) :
    |(p.xyPol * (starRingEnd ℂ) q.xyPol).arg| = arccos ((p.x * q.x + p.y * q.y) / (p.pt * q.pt)) := by
  have hne : p.xyPol * (starRingEnd ℂ) q.xyPol ≠ 0 := mul_ne_zero (xyPol_ne hp) ((map_ne_zero _).2 (xyPol_ne hq))
  have hre : (p.xyPol * (starRingEnd ℂ) q.xyPol).re = p.x * q.x + p.y * q.y := by simp [P4.xyPol]
  have hn : ‖p.xyPol * (starRingEnd ℂ) q.xyPol‖ = p.pt * q.pt := by
    rw [norm_mul, RCLike.norm_conj, norm_xyPol, norm_xyPol]
  rw [← hre, ← hn, ← Complex.cos_arg hne, ← Real.cos_abs, arccos_cos (abs_nonneg _) (Complex.abs_arg_le_pi _)]

theorem separation_rapAng {tol : ℝ} (ht : 0 ≤ tol) {p q : P4} (hp : 0 < p.pt ∧ tol < p.e - |p.z|) (hq : 0 < q.pt ∧ tol < q.e - |q.z|) :
    deltaRCell (p.rapidity tol) (q.rapidity tol) p.xyPol q.xyPol = .fin (rapAng p q) := by
  rw [rapidity_eq ht hp.2, rapidity_eq ht hq.2]
  simp only [deltaRCell, Fl.sub, hypotFl]
  rw [rapAng, ← abs_arg hp.1 hq.1, sq_abs]

theorem cont_pt : Continuous (fun v : ℝ × ℝ × ℝ × ℝ => √(v.1 ^ 2 + v.2.1 ^ 2)) := by fun_prop

/-- The separation is continuous. -/
theorem tends_rapAng {L : Filter (List P4 × List P4)} {f g : List P4 × List P4 → P4} {p q : P4} (hp : 0 < p.pt ∧ |p.z| < p.e)
    (hq : 0 < q.pt ∧ |q.z| < q.e) (hf : Tendsto (fun x => (f x).vec) L (𝓝 p.vec)) (hg : Tendsto (fun x => (g x).vec) L (𝓝 q.vec)) :
    Tendsto (fun x => rapAng (f x) (g x)) L (𝓝 (rapAng p q)) := by
  let pt : (ℝ × ℝ × ℝ × ℝ) → ℝ := fun v => √(v.1 ^ 2 + v.2.1 ^ 2)
  have hpt : ∀ p : P4, pt p.vec = p.pt := fun p => (pt_eq p).symm
  let F : (ℝ × ℝ × ℝ × ℝ) × (ℝ × ℝ × ℝ × ℝ) → ℝ := fun v =>
    √((0.5 * log ((v.1.2.2.2 + v.1.2.2.1) / (v.1.2.2.2 - v.1.2.2.1)) - 0.5 * log ((v.2.2.2.2 + v.2.2.2.1) / (v.2.2.2.2 - v.2.2.2.1))) ^ 2 +
    arccos ((v.1.1 * v.2.1 + v.1.2.1 * v.2.2.1) / (pt v.1 * pt v.2)) ^ 2)
  have hF : ∀ p q : P4, F (p.vec, q.vec) = rapAng p q := by
    intro p q
    simp only [F, hpt]
    rfl
  have c1 : ContinuousAt (fun v : (ℝ × ℝ × ℝ × ℝ) × (ℝ × ℝ × ℝ × ℝ) => pt v.1) (p.vec, q.vec) :=
    (cont_pt.comp continuous_fst).continuousAt
  have c2 : ContinuousAt (fun v : (ℝ × ℝ × ℝ × ℝ) × (ℝ × ℝ × ℝ × ℝ) => pt v.2) (p.vec, q.vec) :=
    (cont_pt.comp continuous_snd).continuousAt
  have n1 : pt p.vec ≠ 0 := by rw [hpt]; exact hp.1.ne'
  have n2 : pt q.vec ≠ 0 := by rw [hpt]; exact hq.1.ne'
  have k1 := abs_lt.1 hp.2
  have k2 := abs_lt.1 hq.2
  have m1 : p.e - p.z ≠ 0 := by linarith
  have m2 : q.e - q.z ≠ 0 := by linarith
  have l1 : (p.e + p.z) / (p.e - p.z) ≠ 0 := (div_pos (by linarith) (by linarith)).ne'
  have l2 : (q.e + q.z) / (q.e - q.z) ≠ 0 := (div_pos (by linarith) (by linarith)).ne'
  have hc : ContinuousAt F (p.vec, q.vec) := by
    have r1 : ContinuousAt (fun v : (ℝ × ℝ × ℝ × ℝ) × (ℝ × ℝ × ℝ × ℝ) => log ((v.1.2.2.2 + v.1.2.2.1) / (v.1.2.2.2 - v.1.2.2.1)))
        (p.vec, q.vec) := ContinuousAt.log (ContinuousAt.div (by fun_prop) (by fun_prop) m1) l1
    have r2 : ContinuousAt (fun v : (ℝ × ℝ × ℝ × ℝ) × (ℝ × ℝ × ℝ × ℝ) => log ((v.2.2.2.2 + v.2.2.2.1) / (v.2.2.2.2 - v.2.2.2.1)))
        (p.vec, q.vec) := ContinuousAt.log (ContinuousAt.div (by fun_prop) (by fun_prop) m2) l2
    refine ContinuousAt.sqrt (ContinuousAt.add (ContinuousAt.pow (ContinuousAt.sub (continuousAt_const.mul r1)
      (continuousAt_const.mul r2)) 2) (ContinuousAt.pow ?_ 2))
    · exact continuous_arccos.continuousAt.comp (ContinuousAt.div (by fun_prop) (c1.mul c2) (mul_ne_zero n1 n2))
  have := hc.tendsto.comp (hf.prodMk_nhds hg)
  rw [hF] at this
  exact this.congr fun x => hF _ _

theorem tends_sum {α ι : Type} {L : Filter α} {f : α → ι → ℝ} {c : ι → ℝ} : ∀ l : List ι, (∀ j ∈ l, Tendsto (fun x => f x j) L (𝓝 (c j))) →
    Tendsto (fun x => (l.map (f x)).sum) L (𝓝 (l.map c).sum)
  | [], _ => by simpa using tendsto_const_nhds
  | j :: l, h => by
    simp only [List.map_cons, List.sum_cons]
    exact (h j List.mem_cons_self).add (tends_sum l fun k hk => h k (List.mem_cons_of_mem _ hk))

theorem tends_var {α : Type} {L : Filter α} {f : α → Nat → ℝ} {c : Nat → ℝ} (m : Nat) (h : ∀ j, j < m → Tendsto (fun x => f x j) L (𝓝 (c j))) :
    Tendsto (fun x => popVar ((List.range m).map (f x))) L (𝓝 (popVar ((List.range m).map c))) := by
  unfold popVar
  simp only [List.map_map, List.length_map, Function.comp_def]
  exact ((tends_sum (f := fun x j => f x j ^ 2) _ fun j hj => (h j (List.mem_range.1 hj)).pow 2).div_const _).sub
    (((tends_sum _ fun j hj => h j (List.mem_range.1 hj)).div_const _).pow 2)

theorem tends_cost {α : Type} {L : Filter α} {D : α → Nat → Nat → ℝ} {D0 : Nat → Nat → ℝ} {a b : α → Nat → ℝ} {a0 b0 : Nat → ℝ} {m : Nat}
    {i j : Nat} (hj : j < m) (hD : ∀ j, j < m → Tendsto (fun x => D x i j) L (𝓝 (D0 i j))) (ha : Tendsto (fun x => a x i) L (𝓝 (a0 i)))
    (hb : ∀ j, j < m → Tendsto (fun x => b x j) L (𝓝 (b0 j))) (v1 : popVar ((List.range m).map (D0 i)) ≠ 0)
    (v2 : popVar ((List.range m).map b0) ≠ 0) :
    Tendsto (fun x => assignCost (D x) (a x) (b x) m i j) L (𝓝 (assignCost D0 a0 b0 m i j)) := by
  unfold assignCost
  refine (tendsto_const_nhds.sub (Tendsto.rexp ?_)).add (tendsto_const_nhds.sub (Tendsto.rexp ?_))
  · exact (((hD j hj).pow 2).neg).div ((tends_var m hD).const_mul 2) (mul_ne_zero two_ne_zero v1)
  · exact (((ha.sub (hb j hj)).pow 2).neg).div ((tends_var m hb).const_mul 2) (mul_ne_zero two_ne_zero v2)


theorem nth_get {l : List P4} {i : Nat} {p : P4} (h : l[i]? = some p) : nthP l i = p := by
  unfold nthP
  rw [List.getD_eq_getElem?_getD, h, Option.getD_some]

theorem nth_mem {l : List P4} {i : Nat} (h : i < l.length) : nthP l i ∈ l := by
  rw [nth_get (List.getElem?_eq_getElem h)]
  exact List.getElem_mem h

theorem nth_pt {l : List P4} {i : Nat} (h : i < l.length) : (l.map P4.pt).getD i 0 = (nthP l i).pt := by
  rw [nth_get (List.getElem?_eq_getElem h), List.getD_eq_getElem?_getD, List.getElem?_map, List.getElem?_eq_getElem h]
  rfl

theorem range_pt (l : List P4) : (List.range l.length).map (fun j => (nthP l j).pt) = l.map P4.pt := by
  apply List.ext_getElem
  · simp
  · intro i h1 h2
    simp only [List.getElem_map, List.getElem_range]
    rw [nth_get (List.getElem?_eq_getElem (by simpa using h2))]

/-- The costs of giving candidates of `qs` to members of `ps`. -/
noncomputable def costsOf (ps qs : List P4) : Nat → Nat → ℝ :=
  assignCost (fun i j => rapAng (nthP ps i) (nthP qs j)) (fun i => (nthP ps i).pt) (fun j => (nthP qs j).pt) qs.length

theorem tends_pt {L : Filter (List P4 × List P4)} {f : List P4 × List P4 → P4} {p : P4} (hf : Tendsto (fun x => (f x).vec) L (𝓝 p.vec)) :
    Tendsto (fun x => (f x).pt) L (𝓝 p.pt) := by
  have := (cont_pt.tendsto p.vec).comp hf
  rw [show √(p.vec.1 ^ 2 + p.vec.2.1 ^ 2) = p.pt from (pt_eq p).symm] at this
  exact this.congr fun x => (pt_eq (f x)).symm

theorem tends_gap {L : Filter (List P4 × List P4)} {f : List P4 × List P4 → P4} {p : P4} (hf : Tendsto (fun x => (f x).vec) L (𝓝 p.vec)) :
    Tendsto (fun x => (f x).e - |(f x).z|) L (𝓝 (p.e - |p.z|)) := by
  have hc : Continuous (fun v : ℝ × ℝ × ℝ × ℝ => v.2.2.2 - |v.2.2.1|) := by fun_prop
  exact (hc.tendsto p.vec).comp hf

/-- The conditions for a result, and what is best, survive a little noise. -/
theorem best_stays (tol : ℝ) (ht : 0 ≤ tol) (ps qs : List P4) (hp : ∀ p ∈ ps, 0 < p.pt ∧ tol < p.e - |p.z|)
    (hq : ∀ q ∈ qs, 0 < q.pt ∧ tol < q.e - |q.z|) (D : Nat → Nat → ℝ)
    (hD : ∀ (i j : Nat) (p q : P4), ps[i]? = some p → qs[j]? = some q →
      deltaRCell (p.rapidity tol) (q.rapidity tol) p.xyPol q.xyPol = .fin (D i j))
    (hpt : popVar (qs.map P4.pt) ≠ 0)
    (hrow : ∀ i : Nat, i < ps.length → popVar ((List.range qs.length).map (D i)) ≠ 0) (cols : List Nat)
    (hsole : ∀ rows cols', Assignment ps.length qs.length rows cols' → Optimal ps.length qs.length (assignCost D
      (fun i => (ps.map P4.pt).getD i 0) (fun j => (qs.map P4.pt).getD j 0) qs.length) rows cols' → cols' = cols) :
    ∃ δ > 0, ∀ ps' qs' : List P4, List.Forall₂ (Off δ) ps' ps → List.Forall₂ (Off δ) qs' qs → ∃ D' : Nat → Nat → ℝ,
      (∀ (i j : Nat) (p q : P4), ps'[i]? = some p → qs'[j]? = some q →
        deltaRCell (p.rapidity tol) (q.rapidity tol) p.xyPol q.xyPol = .fin (D' i j)) ∧ popVar (qs'.map P4.pt) ≠ 0 ∧
      (∀ i : Nat, i < ps'.length → popVar ((List.range qs'.length).map (D' i)) ≠ 0) ∧
      ∀ rows cols', Assignment ps'.length qs'.length rows cols' → Optimal ps'.length qs'.length (assignCost D'
        (fun i => (ps'.map P4.pt).getD i 0) (fun j => (qs'.map P4.pt).getD j 0) qs'.length) rows cols' → cols' = cols := by
  have e1 : ∀ i j, i < ps.length → j < qs.length → D i j = rapAng (nthP ps i) (nthP qs j) := by
    intro i j hi hj
    have := hD i j _ _ (List.getElem?_eq_getElem hi) (List.getElem?_eq_getElem hj)
    rw [separation_rapAng ht (hp _ (List.getElem_mem hi)) (hq _ (List.getElem_mem hj))] at this
    rw [nth_get (List.getElem?_eq_getElem hi), nth_get (List.getElem?_eq_getElem hj)]
    exact (Fl.fin.inj this).symm
  have erow : ∀ i, i < ps.length → (List.range qs.length).map (D i) = (List.range qs.length).map (fun j => rapAng (nthP ps i) (nthP qs j)) :=
    fun i hi => List.map_congr_left fun j hj => e1 i j hi (List.mem_range.1 hj)
  have cost_eq : ∀ (ps qs : List P4) (D : Nat → Nat → ℝ), (∀ i j, i < ps.length → j < qs.length → D i j = rapAng (nthP ps i) (nthP qs j)) →
      ∀ i j, i < ps.length → j < qs.length → assignCost D (fun i => (ps.map P4.pt).getD i 0) (fun j => (qs.map P4.pt).getD j 0) qs.length i j =
        costsOf ps qs i j := by
    intro ps qs D e1 i j hi hj
    unfold costsOf assignCost
    rw [e1 i j hi hj, List.map_congr_left (f := D i) (g := fun j => rapAng (nthP ps i) (nthP qs j))
      fun j hj => e1 i j hi (List.mem_range.1 hj)]
    simp only [nth_pt hi, nth_pt hj]
    rw [List.map_congr_left (f := fun j => (qs.map P4.pt).getD j 0) (g := fun j => (nthP qs j).pt)
      fun j hj => nth_pt (List.mem_range.1 hj)]
  -- a best assignment of the original, and those that are worse
  obtain ⟨r0, c0, hA0, hO0⟩ := exists_optimal ps.length qs.length (costsOf ps qs)
  have fin : {p : List Nat × List Nat | Assignment ps.length qs.length p.1 p.2}.Finite := by
    refine ((finite_lists (min ps.length qs.length) ps.length).prod (finite_lists (min ps.length qs.length) qs.length)).subset ?_
    rintro ⟨r, c⟩ ⟨h1, h2, h3, h4, h5, h6⟩
    exact ⟨⟨h1, h4⟩, ⟨h2, h6⟩⟩
  have len : ∀ᶠ x in nearLists ps qs, x.1.length = ps.length ∧ x.2.length = qs.length :=
    nearLists_iff.2 ⟨1, one_pos, fun x a b => ⟨a.length_eq, b.length_eq⟩⟩
  have tD : ∀ i, i < ps.length → ∀ j, j < qs.length → Tendsto (fun x : List P4 × List P4 => rapAng (nthP x.1 i) (nthP x.2 j)) (nearLists ps qs)
      (𝓝 (rapAng (nthP ps i) (nthP qs j))) := by
    intro i hi j hj
    have h1 := hp _ (nth_mem hi)
    have h2 := hq _ (nth_mem hj)
    exact tends_rapAng ⟨h1.1, by linarith⟩ ⟨h2.1, by linarith⟩ (tends_vec1 ps qs i) (tends_vec2 ps qs j)
  have tP : ∀ j, Tendsto (fun x : List P4 × List P4 => (nthP x.2 j).pt) (nearLists ps qs) (𝓝 (nthP qs j).pt) :=
    fun j => tends_pt (tends_vec2 ps qs j)
  have tC : ∀ i, i < ps.length → ∀ j, j < qs.length → Tendsto (fun x : List P4 × List P4 => assignCost
      (fun i j => rapAng (nthP x.1 i) (nthP x.2 j)) (fun i => (nthP x.1 i).pt) (fun j => (nthP x.2 j).pt) qs.length i j) (nearLists ps qs)
      (𝓝 (costsOf ps qs i j)) := by
    intro i hi j hj
    refine tends_cost hj (tD i hi) (tends_pt (tends_vec1 ps qs i)) (fun j _ => tP j) ?_ ?_
    · rw [← erow i hi]
      exact hrow i hi
    · rw [range_pt]
      exact hpt
  have tT : ∀ r c, Assignment ps.length qs.length r c → Tendsto (fun x : List P4 × List P4 => totalCost (assignCost
      (fun i j => rapAng (nthP x.1 i) (nthP x.2 j)) (fun i => (nthP x.1 i).pt) (fun j => (nthP x.2 j).pt) qs.length) r c) (nearLists ps qs)
      (𝓝 (totalCost (costsOf ps qs) r c)) := by
    intro r c hA
    unfold totalCost
    refine tends_sum (c := fun p : Nat × Nat => costsOf ps qs p.1 p.2) _ ?_
    rintro ⟨i, j⟩ hij
    exact tC i (hA.2.2.2.1 i (List.of_mem_zip hij).1) j (hA.2.2.2.2.2 j (List.of_mem_zip hij).2)
  have better : ∀ᶠ x in nearLists ps qs, ∀ p ∈ {p : List Nat × List Nat | Assignment ps.length qs.length p.1 p.2},
      totalCost (costsOf ps qs) r0 c0 < totalCost (costsOf ps qs) p.1 p.2 →
      totalCost (assignCost (fun i j => rapAng (nthP x.1 i) (nthP x.2 j)) (fun i => (nthP x.1 i).pt) (fun j => (nthP x.2 j).pt) qs.length) r0 c0 <
      totalCost (assignCost (fun i j => rapAng (nthP x.1 i) (nthP x.2 j)) (fun i => (nthP x.1 i).pt) (fun j => (nthP x.2 j).pt) qs.length) p.1 p.2 := by
    refine (eventually_all_finite fin).2 ?_
    rintro ⟨r, c⟩ hA
    by_cases hlt : totalCost (costsOf ps qs) r0 c0 < totalCost (costsOf ps qs) r c
    · filter_upwards [(tT r0 c0 hA0).eventually_lt (tT r c hA) hlt] with x hx _
      exact hx
    · exact Eventually.of_forall fun x h => absurd h hlt
  have good1 : ∀ᶠ x in nearLists ps qs, ∀ i ∈ Finset.range ps.length, 0 < (nthP x.1 i).pt ∧ tol < (nthP x.1 i).e - |(nthP x.1 i).z| := by
    refine (eventually_all_finset _).2 fun i hi => ?_
    have h1 := hp _ (nth_mem (Finset.mem_range.1 hi))
    filter_upwards [(tends_pt (tends_vec1 ps qs i)).eventually_const_lt h1.1, (tends_gap (tends_vec1 ps qs i)).eventually_const_lt h1.2] with x a b
    exact ⟨a, b⟩
  have good2 : ∀ᶠ x in nearLists ps qs, ∀ i ∈ Finset.range qs.length, 0 < (nthP x.2 i).pt ∧ tol < (nthP x.2 i).e - |(nthP x.2 i).z| := by
    refine (eventually_all_finset _).2 fun i hi => ?_
    have h1 := hq _ (nth_mem (Finset.mem_range.1 hi))
    filter_upwards [(tends_pt (tends_vec2 ps qs i)).eventually_const_lt h1.1, (tends_gap (tends_vec2 ps qs i)).eventually_const_lt h1.2] with x a b
    exact ⟨a, b⟩
  have var1 : ∀ᶠ x in nearLists ps qs, ∀ i ∈ Finset.range ps.length,
      popVar ((List.range qs.length).map (fun j => rapAng (nthP x.1 i) (nthP x.2 j))) ≠ 0 := by
    refine (eventually_all_finset _).2 fun i hi => ?_
    have hi := Finset.mem_range.1 hi
    refine (tends_var qs.length (tD i hi)).eventually_ne ?_
    rw [← erow i hi]
    exact hrow i hi
  have var2 : ∀ᶠ x in nearLists ps qs, popVar ((List.range qs.length).map (fun j => (nthP x.2 j).pt)) ≠ 0 := by
    refine (tends_var qs.length fun j _ => tP j).eventually_ne ?_
    rw [range_pt]
    exact hpt
  obtain ⟨δ, hδ, H⟩ := nearLists_iff.1 (len.and (better.and (good1.and (good2.and (var1.and var2)))))
  refine ⟨δ, hδ, fun ps' qs' op oq => ?_⟩
  obtain ⟨⟨l1, l2⟩, b, g1, g2, v1, v2⟩ := H (ps', qs') op oq
  simp only at l1 l2 b g1 g2 v1 v2
  refine ⟨fun i j => rapAng (nthP ps' i) (nthP qs' j), ?_, by rw [← range_pt, l2]; exact v2, ?_, ?_⟩
  · intro i j p q hi hj
    have hi' := (List.getElem?_eq_some_iff.1 hi).1
    have hj' := (List.getElem?_eq_some_iff.1 hj).1
    have m1 := g1 i (Finset.mem_range.2 (l1 ▸ hi'))
    have m2 := g2 j (Finset.mem_range.2 (l2 ▸ hj'))
    dsimp only
    rw [nth_get hi] at m1 ⊢
    rw [nth_get hj] at m2 ⊢
    exact separation_rapAng ht m1 m2
  · intro i hi
    rw [l2]
    exact v1 i (Finset.mem_range.2 (l1 ▸ hi))
  intro rows cols' k2 k3
  rw [l1, l2] at k2 k3
  refine hsole rows cols' k2 ?_
  have ce := cost_eq ps' qs' (fun i j => rapAng (nthP ps' i) (nthP qs' j)) (fun _ _ _ _ => rfl)
  rw [l1, l2] at ce
  have hle : totalCost (costsOf ps qs) rows cols' ≤ totalCost (costsOf ps qs) r0 c0 := by
    by_contra hlt
    have h1 := b (rows, cols') k2 (not_le.1 hlt)
    have h2 := k3 r0 c0 hA0
    rw [totalCost_congr ce k2, totalCost_congr ce hA0] at h2
    unfold costsOf at h2
    rw [l2] at h2
    exact absurd h1 (not_lt.2 h2)
  intro r c hA
  rw [totalCost_congr (cost_eq ps qs D e1) k2, totalCost_congr (cost_eq ps qs D e1) hA]
  exact hle.trans (hO0 r c hA)

/-- **C169** `arg_closest` when the best assignment is the only one to give the candidates `cols`, no particle moves along
the beam, and there is a result at all (see `C57_returns_iff`): for every focus and candidates whose momenta differ by
little enough it returns, and returns `cols`, whatever the schedule, the number of threads and the solver.  The two
arguments may be the same object. -/
theorem C169_arg_closest (tol : ℝ) (ht : 0 ≤ tol) (ps qs : List P4) (hp : ∀ p ∈ ps, 0 < p.pt ∧ tol < p.e - |p.z|)
    (hq : ∀ q ∈ qs, 0 < q.pt ∧ tol < q.e - |q.z|) (D : Nat → Nat → ℝ)
    (hD : ∀ (i j : Nat) (p q : P4), ps[i]? = some p → qs[j]? = some q →
      deltaRCell (p.rapidity tol) (q.rapidity tol) p.xyPol q.xyPol = .fin (D i j))
    (hpt : popVar (qs.map P4.pt) ≠ 0)
    (hrow : ∀ i : Nat, i < ps.length → popVar ((List.range qs.length).map (D i)) ≠ 0) (cols : List Nat)
    (hsole : ∀ rows cols', Assignment ps.length qs.length rows cols' → Optimal ps.length qs.length (assignCost D
      (fun i => (ps.map P4.pt).getD i 0) (fun j => (qs.map P4.pt).getD j 0) qs.length) rows cols' → cols' = cols) :
    ∃ δ > 0, ∀ ps' qs' : List P4, List.Forall₂ (Off δ) ps' ps → List.Forall₂ (Off δ) qs' qs →
      ∀ (limit : Int) (sched : List (List Write) → List Write) (init : Nat × Nat → Fl) (lsa : List (List Fl) → Py (List Nat))
        (h : Heap) (focus candidate : Nat) (threads : Int), IsSchedule sched → IsLSA lsa → Coherent tol (h focus) →
        Coherent tol (h candidate) → (h focus).data = ps' → (h candidate).data = qs' → 1 ≤ threads ∧ threads ≤ limit →
        (argClosest limit sched init lsa tol h focus candidate threads).1 = .ok cols := by
  obtain ⟨δ, hδ, H⟩ := best_stays tol ht ps qs hp hq D hD hpt hrow cols hsole
  refine ⟨δ, hδ, fun ps' qs' op oq limit sched init lsa h focus candidate threads hs hlsa hf hc hps hqs hth => ?_⟩
  obtain ⟨D', b1, b2, b3, b4⟩ := H ps' qs' op oq
  obtain ⟨rows, cols', k1, k2, k3, -⟩ := C57_assignment limit sched hs init lsa hlsa tol h focus candidate threads hf hc hth ps' qs' hps hqs
    D' b1 b2 b3
  rw [k1, b4 rows cols' k2 k3]

theorem totalCost_one (C : Nat → Nat → ℝ) (a b : Nat) : totalCost C [a] [b] = C a b := by simp [totalCost]

/-- One focus and two candidates, the second of which is the focus itself. -/
theorem exBest : (∀ p ∈ [(⟨1, 0, 0, 2⟩ : P4)], 0 < p.pt ∧ 0 < p.e - |p.z|) ∧
    (∀ p ∈ [(⟨0, 2, 0, 5⟩ : P4), ⟨1, 0, 0, 2⟩], 0 < p.pt ∧ 0 < p.e - |p.z|) ∧ ∃ D : Nat → Nat → ℝ,
    (∀ (i j : Nat) (p q : P4), [(⟨1, 0, 0, 2⟩ : P4)][i]? = some p → [(⟨0, 2, 0, 5⟩ : P4), ⟨1, 0, 0, 2⟩][j]? = some q →
      deltaRCell (p.rapidity 0) (q.rapidity 0) p.xyPol q.xyPol = .fin (D i j)) ∧
    popVar ([(⟨0, 2, 0, 5⟩ : P4), ⟨1, 0, 0, 2⟩].map P4.pt) ≠ 0 ∧ (∀ i : Nat, i < 1 → popVar ((List.range 2).map (D i)) ≠ 0) ∧
    ∀ rows cols, Assignment 1 2 rows cols → Optimal 1 2 (assignCost D (fun i => ([(⟨1, 0, 0, 2⟩ : P4)].map P4.pt).getD i 0)
      (fun j => ([(⟨0, 2, 0, 5⟩ : P4), ⟨1, 0, 0, 2⟩].map P4.pt).getD j 0) 2) rows cols → cols = [1] := by
  have t1 : (⟨1, 0, 0, 2⟩ : P4).pt = 1 := by rw [pt_eq]; norm_num
  have t2 : (⟨0, 2, 0, 5⟩ : P4).pt = 2 := by
    rw [pt_eq, show ((0 : ℝ) ^ 2 + 2 ^ 2) = 2 ^ 2 by norm_num]
    exact sqrt_sq (by norm_num)
  have g1 : 0 < (⟨1, 0, 0, 2⟩ : P4).pt ∧ (0 : ℝ) < (⟨1, 0, 0, 2⟩ : P4).e - |(⟨1, 0, 0, 2⟩ : P4).z| := by rw [t1]; norm_num
  have g2 : 0 < (⟨0, 2, 0, 5⟩ : P4).pt ∧ (0 : ℝ) < (⟨0, 2, 0, 5⟩ : P4).e - |(⟨0, 2, 0, 5⟩ : P4).z| := by rw [t2]; norm_num
  have d1 : rapAng ⟨1, 0, 0, 2⟩ ⟨1, 0, 0, 2⟩ = 0 := by unfold rapAng; rw [t1]; norm_num
  have d2 : rapAng ⟨1, 0, 0, 2⟩ ⟨0, 2, 0, 5⟩ = π / 2 := by
    unfold rapAng
    rw [t1, t2]
    norm_num
    exact sqrt_sq (by positivity)
  have v : popVar ((List.range 2).map (fun j => if j = 0 then π / 2 else 0)) ≠ 0 := by
    simp only [List.range_succ_eq_map, List.range_zero, List.map_cons, List.map_nil]
    rw [popVar_two]
    have := pi_pos
    simp
  have w : popVar ([(⟨0, 2, 0, 5⟩ : P4), ⟨1, 0, 0, 2⟩].map P4.pt) ≠ 0 := by
    rw [List.map_cons, List.map_cons, List.map_nil, popVar_two, t1, t2]
    norm_num
  refine ⟨by simpa using g1, ?_, fun _ j => if j = 0 then π / 2 else 0, ?_, w, fun _ _ => v, ?_⟩
  · intro q hq
    simp only [List.mem_cons, List.not_mem_nil, or_false] at hq
    rcases hq with rfl | rfl
    · exact g2
    · exact g1
  · intro i j p q hi hj
    match i, j with
    | 0, 0 =>
      simp only [List.getElem?_cons_zero, Option.some.injEq] at hi hj
      subst hi hj
      rw [separation_rapAng le_rfl g1 g2, d2]
      rfl
    | 0, 1 =>
      simp only [List.getElem?_cons_zero, List.getElem?_cons_succ, Option.some.injEq] at hi hj
      subst hi hj
      rw [separation_rapAng le_rfl g1 g1, d1]
      rfl
    | 0, j + 2 => simp at hj
    | i + 1, _ => simp at hi
  · intro rows cols hA hO
    obtain ⟨k1, k2, k3, k4, k5, k6⟩ := hA
    obtain ⟨r, rfl⟩ := List.length_eq_one_iff.1 (k1.trans (by norm_num))
    obtain ⟨c, rfl⟩ := List.length_eq_one_iff.1 (k2.trans (by norm_num))
    have hr : r = 0 := by have := k4 r (by simp); omega
    have hc : c < 2 := by have := k6 c (by simp); omega
    subst hr
    have hm : (List.range 2).map (fun j => ([(⟨0, 2, 0, 5⟩ : P4), ⟨1, 0, 0, 2⟩].map P4.pt).getD j 0) =
        [(⟨0, 2, 0, 5⟩ : P4), ⟨1, 0, 0, 2⟩].map P4.pt := by
      simp [List.range_succ_eq_map]
    have cost := fun j => C57_cost (fun _ j => if j = 0 then π / 2 else 0) (fun i => ([(⟨1, 0, 0, 2⟩ : P4)].map P4.pt).getD i 0)
      (fun j => ([(⟨0, 2, 0, 5⟩ : P4), ⟨1, 0, 0, 2⟩].map P4.pt).getD j 0) 2 0 j (by rw [hm]; exact w) v
    have h1 := hO [0] [1] ⟨by simp, by simp, by simp, by simp, by simp, by simp⟩
    rw [totalCost_one, totalCost_one] at h1
    have h2 := (cost 1).2.2.2 ⟨by simp, by simp⟩
    have h3 := ((cost c).2.2.1 (le_antisymm (h1.trans h2.le) (cost c).1)).1
    by_cases h0 : c = 0
    · simp [h0, pi_ne_zero] at h3
    · congr 1
      omega


/-- A case for `C169_arg_closest`: of two candidates, one is the focus itself. -/
example : ∃ δ > 0, ∀ ps' qs' : List P4, List.Forall₂ (Off δ) ps' [⟨1, 0, 0, 2⟩] → List.Forall₂ (Off δ) qs' [⟨0, 2, 0, 5⟩, ⟨1, 0, 0, 2⟩] →
    ∀ (limit : Int) (sched : List (List Write) → List Write) (init : Nat × Nat → Fl) (lsa : List (List Fl) → Py (List Nat))
      (h : Heap) (focus candidate : Nat) (threads : Int), IsSchedule sched → IsLSA lsa → Coherent 0 (h focus) →
      Coherent 0 (h candidate) → (h focus).data = ps' → (h candidate).data = qs' → 1 ≤ threads ∧ threads ≤ limit →
      (argClosest limit sched init lsa 0 h focus candidate threads).1 = .ok [1] := by
  obtain ⟨g1, g2, D, h1, h2, h3, h4⟩ := exBest
  exact C169_arg_closest 0 le_rfl _ _ g1 g2 D h1 h2 h3 [1] h4

/-! ## `monte_carlo_tag` -/

theorem selected_off {δ : ℝ} {a b : List P4} (h : List.Forall₂ (Off δ) a b) (m : List Bool) (hm : m.length = b.length) :
    List.Forall₂ (Off δ) (selected a m) (selected b m) := by
  rw [← gather_eq_selected b m hm, ← gather_eq_selected a m (hm.trans h.length_eq.symm)]
  exact gather_forall2 h _

theorem selected_length_le {α : Type} (a : List α) (m : List Bool) (h : m.length = a.length) : (selected a m).length ≤ a.length := by
  rw [C20_mask_length a m h, ← h]
  exact List.count_le_length

theorem zip_take {α β : Type} : ∀ (r : List α) (n : Nat) (l : List β), r.length ≤ n → r.zip (l.take n) = r.zip l
  | [], _, _, _ => rfl
  | _ :: _, 0, _, h => by simp at h
  | _ :: _, _ + 1, [], _ => rfl
  | x :: r, n + 1, y :: l, h => by
    rw [List.take_succ_cons, List.zip_cons_cons, List.zip_cons_cons, zip_take r n l (by simpa using h)]

theorem totalCost_take (C : Nat → Nat → ℝ) (n : Nat) (l : List Nat) : totalCost C (List.range n) (l.take n) = totalCost C (List.range n) l := by
  unfold totalCost
  rw [zip_take _ _ _ (by simp)]

theorem clustered_off {δ : ℝ} (p : TagParticles) (a : TagArgs) (hl : p.final.length = p.pmu.length) {pmu' : List P4} {c' : Option (List P4)}
    (h : List.Forall₂ (Off δ) pmu' p.pmu) (hc : Option.Rel (List.Forall₂ (Off δ)) c' a.clusteredPmu) :
    List.Forall₂ (Off δ) (clusteredMomenta { p with pmu := pmu' } { a with clusteredPmu := c' }) (clusteredMomenta p a) := by
  unfold clusteredMomenta
  generalize a.clusteredPmu = c0 at hc
  cases hc with
  | none => exact selected_off h p.final hl
  | some h => exact h

/-- **C169** `monte_carlo_tag`, under the conditions of `C58_returns`: if no selected parton and no cluster moves along the
beam, and all cheapest assignments give the partons the same clusters, then there is a group that is returned for every event
and all clustered momenta that differ by little enough, whatever the schedule, the number of threads and the solver. -/
theorem C169_tag (tol : ℝ) (ht : 0 ≤ tol) (nm : Int → String) (p : TagParticles) (a : TagArgs) (hd : p.pdg.length = p.status.length)
    (hp : p.pmu.length = p.status.length) (hf : p.final.length = p.status.length)
    (hmin : minI32 ∉ p.pdg) (hnm : ∀ c, ':' ∉ (nm c).toList) (hoi : a.outgoing = true ∨ a.intermediate = true)
    (hq : ¬ (Given a.blacklist ∧ a.whitelist ≠ none))
    (hlens : ∀ m ∈ a.clusterMasks, m.length = (clusteredMomenta p a).length)
    (hne : tagPositions p.pdg p.status a ≠ [])
    (hle : (tagPositions p.pdg p.status a).length ≤ a.clusterMasks.length)
    (hg1 : ∀ x ∈ gather p.pmu (tagPositions p.pdg p.status a), 0 < x.pt ∧ tol < x.e - |x.z|)
    (hg2 : ∀ x ∈ a.clusterMasks.map (fun m => total (selected (clusteredMomenta p a) m)), 0 < x.pt ∧ tol < x.e - |x.z|)
    (D : Nat → Nat → ℝ)
    (hD : ∀ (i j : Nat) (x q : P4), (gather p.pmu (tagPositions p.pdg p.status a))[i]? = some x →
      (a.clusterMasks.map (fun m => total (selected (clusteredMomenta p a) m)))[j]? = some q →
      deltaRCell (x.rapidity tol) (q.rapidity tol) x.xyPol q.xyPol = .fin (D i j))
    (hpt : popVar ((a.clusterMasks.map (fun m => total (selected (clusteredMomenta p a) m))).map P4.pt) ≠ 0)
    (hrow : ∀ i : Nat, i < (tagPositions p.pdg p.status a).length → popVar ((List.range a.clusterMasks.length).map (D i)) ≠ 0)
    (idxs : List Nat)
    (hsole : ∀ rows idxs', Assignment (tagPositions p.pdg p.status a).length a.clusterMasks.length rows idxs' →
      Optimal (tagPositions p.pdg p.status a).length a.clusterMasks.length (assignCost D
        (fun i => ((gather p.pmu (tagPositions p.pdg p.status a)).map P4.pt).getD i 0)
        (fun j => ((a.clusterMasks.map (fun m => total (selected (clusteredMomenta p a) m))).map P4.pt).getD j 0) a.clusterMasks.length)
        rows idxs' → idxs' = idxs) :
    ∃ out, ∃ δ > 0, ∀ (pmu' : List P4) (clustered' : Option (List P4)), List.Forall₂ (Off δ) pmu' p.pmu →
      Option.Rel (List.Forall₂ (Off δ)) clustered' a.clusteredPmu →
      ∀ (limit : Int) (sched : List (List Write) → List Write) (init : Nat × Nat → Fl) (lsa : List (List Fl) → Py (List Nat)),
        1 ≤ limit → IsSchedule sched → IsLSA lsa →
        monteCarloTag limit sched init lsa tol nm { p with pmu := pmu' } { a with clusteredPmu := clustered' } = .ok out := by
  set S := tagPositions p.pdg p.status a with hS
  set ps := gather p.pmu S with hps
  set cm := clusteredMomenta p a with hcm
  set qs := a.clusterMasks.map (fun m => total (selected cm m)) with hqs
  have hSlt : ∀ i ∈ S, i < p.pmu.length := by
    intro i hi
    rw [hp]
    exact List.mem_range.1 (List.mem_of_mem_filter hi)
  have lps : ps.length = S.length := gather_length p.pmu S hSlt
  have lqs : qs.length = a.clusterMasks.length := List.length_map _
  obtain ⟨d, hd0, H⟩ := best_stays tol ht ps qs hg1 hg2 D hD hpt (by rw [lps, lqs]; exact hrow) idxs (by rw [lps, lqs]; exact hsole)
  -- what is returned close by
  have hn : (0 : ℝ) < cm.length + 1 := by positivity
  have hδ : 0 < d / (cm.length + 1) := div_pos hd0 hn
  have hδd : d / (cm.length + 1) ≤ d := div_le_self hd0.le (by linarith [Nat.cast_nonneg (α := ℝ) cm.length])
  have key : ∀ (pmu' : List P4) (clustered' : Option (List P4)), List.Forall₂ (Off (d / (cm.length + 1))) pmu' p.pmu →
      Option.Rel (List.Forall₂ (Off (d / (cm.length + 1)))) clustered' a.clusteredPmu →
      ∀ (limit : Int) (sched : List (List Write) → List Write) (init : Nat × Nat → Fl) (lsa : List (List Fl) → Py (List Nat)),
        1 ≤ limit → IsSchedule sched → IsLSA lsa → ∃ out,
        monteCarloTag limit sched init lsa tol nm { p with pmu := pmu' } { a with clusteredPmu := clustered' } = .ok out ∧
        out.length = S.length ∧ ∀ k, k < S.length → ∃ key j m, partonKey (namesAt nm p.pdg S) k = some key ∧
          idxs[k]? = some j ∧ a.clusterMasks[j]? = some m ∧ out[k]? = some (key, m) := by
    intro pmu' clustered' ho hc limit sched init lsa hlim hs hlsa
    have hl := ho.length_eq
    have hcl : List.Forall₂ (Off (d / (cm.length + 1))) (clusteredMomenta { p with pmu := pmu' } { a with clusteredPmu := clustered' }) cm :=
      clustered_off p a (hf.trans hp.symm) ho hc
    set cm' := clusteredMomenta { p with pmu := pmu' } { a with clusteredPmu := clustered' } with hcm'
    have hlens' : ∀ m ∈ a.clusterMasks, m.length = cm'.length := fun m hm => (hlens m hm).trans hcl.length_eq.symm
    have oq : List.Forall₂ (Off d) (a.clusterMasks.map (fun m => total (selected cm' m))) qs := by
      rw [hqs, List.forall₂_map_left_iff, List.forall₂_map_right_iff, List.forall₂_same]
      intro m hm
      refine off_mono ?_ (off_total hδ (selected_off hcl m (hlens m hm)))
      have : ((selected cm m).length : ℝ) ≤ cm.length := by exact_mod_cast selected_length_le cm m (hlens m hm)
      calc (((selected cm m).length : ℝ) + 1) * (d / (cm.length + 1)) ≤ (cm.length + 1) * (d / (cm.length + 1)) := by gcongr
        _ = d := mul_div_cancel₀ _ hn.ne'
    obtain ⟨D', b1, b2, b3, b4⟩ := H (gather pmu' S) _ (gather_forall2 (ho.imp fun _ _ => off_mono hδd) S) oq
    have lps' : (gather pmu' S).length = S.length := gather_length pmu' S (by rw [hl]; exact hSlt)
    rw [lps', List.length_map] at b3 b4
    obtain ⟨out, hout⟩ := C58_returns limit hlim sched hs init lsa hlsa tol nm { p with pmu := pmu' } { a with clusteredPmu := clustered' }
      hd (hl.trans hp) hf hmin hoi hq hlens' hne hle D' b1 b2 b3
    have hT := C58_tags limit sched hs init lsa hlsa tol nm { p with pmu := pmu' } { a with clusteredPmu := clustered' }
      hd (hl.trans hp) hf hmin hnm (fun h => hq ⟨h.1, by rw [h.2]; simp⟩) out hout
    obtain ⟨⟨l, t1, t2, -, t4, D'', t5, t6⟩, -⟩ := hT
    refine ⟨out, hout, t2, fun k hk => ?_⟩
    have hlen : S.length ≤ l.length := by
      by_contra hlt
      obtain ⟨key, j, m, -, h2, -⟩ := t4 l.length (S[l.length]'(by omega)) (List.getElem?_eq_getElem _)
      simp at h2
    have hA : Assignment S.length a.clusterMasks.length (List.range S.length) (l.take S.length) := by
      refine ⟨by simp [hle], by simp [hle, hlen], List.pairwise_lt_range, fun r hr => List.mem_range.1 hr,
        t1.sublist (List.take_sublist _ _), ?_⟩
      intro c hc
      obtain ⟨i, hi⟩ := List.mem_iff_getElem?.1 hc
      have hi' : i < S.length := by
        have := (List.getElem?_eq_some_iff.1 hi).1
        rw [List.length_take] at this
        omega
      rw [List.getElem?_take_of_lt hi'] at hi
      obtain ⟨key, j, m, -, h2, h3, -⟩ := t4 i (S[i]) (List.getElem?_eq_getElem hi')
      have h2 : l[i]? = some j := h2
      rw [hi] at h2
      injection h2 with h2
      subst h2
      exact (List.getElem?_eq_some_iff.1 h3).1
    have eD : ∀ i j, i < S.length → j < a.clusterMasks.length → D'' i j = D' i j := by
      intro i j hi hj
      have x1 := List.getElem?_eq_getElem (show i < (gather pmu' S).length by omega)
      have x2 := List.getElem?_eq_getElem (show j < (a.clusterMasks.map (fun m => total (selected cm' m))).length by simpa using hj)
      have y1 := t5 i j _ _ x1 x2
      have y2 := b1 i j _ _ x1 x2
      rw [y1] at y2
      exact Fl.fin.inj y2
    have eC : ∀ i j, i < S.length → j < a.clusterMasks.length →
        assignCost D'' (fun i => ((gather pmu' S).map P4.pt).getD i 0)
          (fun j => ((a.clusterMasks.map (fun m => total (selected cm' m))).map P4.pt).getD j 0) a.clusterMasks.length i j =
        assignCost D' (fun i => ((gather pmu' S).map P4.pt).getD i 0)
          (fun j => ((a.clusterMasks.map (fun m => total (selected cm' m))).map P4.pt).getD j 0) a.clusterMasks.length i j := by
      intro i j hi hj
      unfold assignCost
      rw [eD i j hi hj, List.map_congr_left (f := D'' i) (g := D' i) fun j hj => eD i j hi (List.mem_range.1 hj)]
    have hO : l.take S.length = idxs := by
      refine b4 _ _ hA fun r c hA' => ?_
      have t6' : Optimal S.length (a.clusterMasks.map (fun m => total (selected cm' m))).length (assignCost D''
        (fun i => ((gather pmu' S).map P4.pt).getD i 0) (fun j => ((a.clusterMasks.map (fun m => total (selected cm' m))).map P4.pt).getD j 0)
        (a.clusterMasks.map (fun m => total (selected cm' m))).length) (List.range S.length) l := t6
      have h1 := t6' r c (by simpa only [List.length_map] using hA')
      simp only [List.length_map] at h1
      rw [totalCost_congr eC hA'] at h1
      rw [← totalCost_congr eC hA, totalCost_take]
      exact h1
    obtain ⟨key, j, m, h1, h2, h3, h4⟩ := t4 k (S[k]) (List.getElem?_eq_getElem hk)
    refine ⟨key, j, m, h1, ?_, h3, h4⟩
    rw [← hO, List.getElem?_take_of_lt hk]
    exact h2
  obtain ⟨lsa0, hlsa0⟩ := exists_lsa
  have self : Option.Rel (List.Forall₂ (Off (d / (cm.length + 1)))) a.clusteredPmu a.clusteredPmu := by
    cases a.clusteredPmu with
    | none => exact .none
    | some l => exact .some (List.forall₂_same.2 fun p _ => off_self hδ p)
  obtain ⟨out, -, o1, o2⟩ := key p.pmu a.clusteredPmu (List.forall₂_same.2 fun p _ => off_self hδ p) self 1 List.flatten (fun _ => .nan) lsa0
    le_rfl (fun its => interleave_serial its) hlsa0
  refine ⟨out, _, hδ, fun pmu' clustered' ho hc limit sched init lsa hlim hs hlsa => ?_⟩
  obtain ⟨out', e, o1', o2'⟩ := key pmu' clustered' ho hc limit sched init lsa hlim hs hlsa
  rw [e]
  congr 1
  apply List.ext_getElem?
  intro k
  by_cases hk : k < S.length
  · obtain ⟨_, _, _, h1, h2, h3, h4⟩ := o2 k hk
    obtain ⟨_, _, _, h1', h2', h3', h4'⟩ := o2' k hk
    rw [h1] at h1'
    rw [h2] at h2'
    injection h1' with h1'
    injection h2' with h2'
    subst h1' h2'
    rw [h3] at h3'
    injection h3' with h3'
    rw [h4, h4', h3']
  · rw [List.getElem?_eq_none (by omega), List.getElem?_eq_none (by omega)]

/-- A case for `C169_tag`: one outgoing parton and two final particles, each a cluster. -/
example (nm : Int → String) (hnm : ∀ c, ':' ∉ (nm c).toList) : ∃ out, ∃ δ > 0, ∀ (pmu' : List P4) (clustered' : Option (List P4)),
    List.Forall₂ (Off δ) pmu' [⟨1, 0, 0, 2⟩, ⟨0, 2, 0, 5⟩, ⟨1, 0, 0, 2⟩] → Option.Rel (List.Forall₂ (Off δ)) clustered' none →
      ∀ (limit : Int) (sched : List (List Write) → List Write) (init : Nat × Nat → Fl) (lsa : List (List Fl) → Py (List Nat)),
        1 ≤ limit → IsSchedule sched → IsLSA lsa →
        monteCarloTag limit sched init lsa 0 nm { pmu := pmu', pdg := [5, 211, 211], status := [-23, 1, 1], final := [false, true, true] }
          { clusterMasks := [[true, false], [false, true]], clusteredPmu := clustered' } = .ok out := by
  let p : TagParticles := { pmu := [⟨1, 0, 0, 2⟩, ⟨0, 2, 0, 5⟩, ⟨1, 0, 0, 2⟩], pdg := [5, 211, 211], status := [-23, 1, 1],
                            final := [false, true, true] }
  let a : TagArgs := { clusterMasks := [[true, false], [false, true]] }
  obtain ⟨g1, g2, D, h1, h2, h3, h4⟩ := exBest
  have hS : tagPositions p.pdg p.status a = [0] := by decide +kernel
  have hcm : clusteredMomenta p a = [⟨0, 2, 0, 5⟩, ⟨1, 0, 0, 2⟩] := by simp [clusteredMomenta, p, a, selected]
  have hps : gather p.pmu [0] = [⟨1, 0, 0, 2⟩] := by simp [gather, p]
  have hj : a.clusterMasks.map (fun m => total (selected (clusteredMomenta p a) m)) = [⟨0, 2, 0, 5⟩, ⟨1, 0, 0, 2⟩] := by
    rw [hcm]
    simp [a, selected, total]
  refine C169_tag 0 le_rfl nm p a rfl rfl rfl (by decide) hnm (.inl rfl) (by rintro ⟨⟨_, _, h⟩, -⟩; cases h)
    (by rw [hcm]; simp [a]) (by rw [hS]; simp) (by rw [hS]; simp [a]) ?_ ?_ D ?_ ?_ ?_ [1] ?_
  · rw [hS, hps]; exact g1
  · rw [hj]; exact g2
  · rw [hS, hps, hj]; exact h1
  · rw [hj]; exact h2
  · rw [hS]; exact h3
  · rw [hS, hps, hj]; exact h4

end Gcl
