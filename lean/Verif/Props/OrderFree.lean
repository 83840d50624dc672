import Verif.Props.SymHier
import Verif.Props.Centroid
import Verif.Props.EventShape
import Verif.Props.Cluster
import Verif.Props.Prune
import Verif.Props.Rotation
import Verif.Props.MaskC
import Verif.Model.Optimise
/-! # C126: quantities computed from a set of particles do not depend on their order -/
namespace Gcl
set_option autoImplicit false
open Real Spec

theorem total_perm {ps qs : List P4} (h : ps.Perm qs) : total ps = total qs := by
  simp only [total, (h.map P4.x).sum_eq, (h.map P4.y).sum_eq, (h.map P4.z).sum_eq, (h.map P4.e).sum_eq]

theorem addF_left_comm (a b c : Fl) : a.addF (b.addF c) = b.addF (a.addF c) := by
  cases a <;> cases b <;> cases c <;> simp [Fl.addF, add_left_comm]

theorem flSum_perm {l l' : List Fl} (h : l.Perm l') : flSum l = flSum l' := by
  induction h with
  | nil => rfl
  | cons a _ ih => simp [flSum, ih]
  | swap a b l => simp [flSum, addF_left_comm]
  | trans _ _ ih1 ih2 => exact ih1.trans ih2

theorem thrustWithGrad_perm (φ θ : ℝ) {ps qs : List P4} (h : ps.Perm qs) :
    thrustWithGrad φ θ ps = thrustWithGrad φ θ qs := by
  unfold thrustWithGrad
  by_cases hm : ∀ p ∈ ps, Moving p
  · rw [thrustLoop_ok φ θ ps _ hm, thrustLoop_ok φ θ qs _ (fun p hp => hm p (h.mem_iff.2 hp))]
    simp only [sumOf_perm _ h]
  · push Not at hm
    obtain ⟨p, hp, hn⟩ := hm
    rw [thrustLoop_err φ θ ps _ ⟨p, hp, hn⟩, thrustLoop_err φ θ qs _ ⟨p, h.mem_iff.1 hp, hn⟩]

theorem spherocityWithGrad_perm (φ θ : ℝ) {ps qs : List P4} (h : ps.Perm qs) :
    spherocityWithGrad φ θ ps = spherocityWithGrad φ θ qs := by
  by_cases hm : ∀ p ∈ ps, offAxis φ θ p ≠ 0
  · have pos : ∀ p ∈ ps, 0 < offAxis φ θ p := fun p hp => lt_of_le_of_ne (sqrt_nonneg _) (Ne.symm (hm p hp))
    unfold spherocityWithGrad
    rw [sphLoop_ok φ θ ps _ pos, sphLoop_ok φ θ qs _ (fun p hp => pos p (h.mem_iff.2 hp))]
    simp only [sumOf_perm _ h]
  · have hm' : ¬ ∀ p ∈ qs, offAxis φ θ p ≠ 0 := fun h' => hm (fun p hp => h' p (h.mem_iff.1 hp))
    have key : ∀ rs : List P4, (¬ ∀ p ∈ rs, offAxis φ θ p ≠ 0) →
        spherocityWithGrad φ θ rs = .error .zeroDivisionError := by
      intro rs hr
      obtain ⟨-, -, c, d⟩ := C76_exact φ θ rs
      cases hv : spherocityWithGrad φ θ rs with
      | ok r => exact absurd (c.1 ⟨r, hv⟩).2 hr
      | error e => rw [d e (Or.inr (Or.inr hv))]
    rw [key ps hm, key qs hm']

/-- **C126** The mass, the direction of the sum, the centroid, the C-parameter, the thrust and the spherocity of a set of
particles do not depend on their order: the same value, axis or exception for every arrangement, every optimiser and
starting point. -/
theorem C126_values (ps qs : List P4) (h : ps.Perm qs) :
    combinedMass qs = combinedMass ps ∧
    (∀ (tol : ℝ) (pseudo : Bool), resultantCoords tol qs pseudo = resultantCoords tol ps pseudo ∧
      weightedCentroid tol qs pseudo = weightedCentroid tol ps pseudo) ∧
    cParameter qs = cParameter ps ∧
    (∀ (minimize : ℝ × ℝ → Opt) (guess : ℝ × ℝ) (axis : Bool),
      thrust minimize guess axis qs = thrust minimize guess axis ps ∧
      spherocity minimize guess axis qs = spherocity minimize guess axis ps) := by
  refine ⟨?_, fun tol pseudo => ⟨?_, ?_⟩, ?_, fun mi g ax => ⟨?_, ?_⟩⟩
  · unfold combinedMass; rw [total_perm h]
  · unfold resultantCoords; rw [total_perm h]
  · unfold weightedCentroid
    simp only [(h.map P4.pt).sum_eq, flSum_perm (h.map _)]
  · by_cases hm : ps ≠ [] ∧ ∀ p ∈ ps, Moving p
    · have hm' : qs ≠ [] ∧ ∀ p ∈ qs, Moving p :=
        ⟨fun hq => hm.1 (by subst hq; exact h.eq_nil), fun p hp => hm.2 p (h.mem_iff.2 hp)⟩
      rw [(C71_value ps hm.1 hm.2).1, (C71_value qs hm'.1 hm'.2).1,
        (C71_invariant ps qs 1 one_pos id (fun _ _ => rfl)).1 h]
    · have hm' : ¬ (qs ≠ [] ∧ ∀ p ∈ qs, Moving p) := fun h' => hm
        ⟨fun hq => h'.1 (by subst hq; exact h.symm.eq_nil), fun p hp => h'.2 p (h.mem_iff.1 hp)⟩
      have key : ∀ rs : List P4, ¬ (rs ≠ [] ∧ ∀ p ∈ rs, Moving p) → cParameter rs = .error .zeroDivisionError := by
        intro rs hr
        obtain ⟨-, c, -, d⟩ := C76_exact 0 0 rs
        cases hv : cParameter rs with
        | ok r => exact absurd (c.1 ⟨r, hv⟩) hr
        | error e => rw [d e (Or.inr (Or.inl hv))]
      rw [key ps hm, key qs hm']
  · unfold thrust; simp only [thrustWithGrad_perm _ _ h]
  · unfold spherocity; simp only [spherocityWithGrad_perm _ _ h]

section
variable {n : Nat} {idxs : List Nat}

theorem gather_reorder {α : Type} (hperm : idxs.Perm (List.range n)) {a : List α} (ha : a.length = n) :
    (gather a idxs).Perm a := by
  have : (gather a idxs).Perm (gather a (List.range n)) := hperm.filterMap _
  rwa [← ha, gather_range] at this

theorem zip_gather {α β : Type} (a : List α) (b : List β) (h : a.length = b.length) :
    (gather a idxs).zip (gather b idxs) = gather (a.zip b) idxs := by
  simp only [List.zip_eq_zipWith, gather_zipWith _ a b h]

theorem selected_perm {α : Type} (hperm : idxs.Perm (List.range n)) {a : List α} {m : List Bool} (ha : a.length = n)
    (hm : m.length = n) : (selected (gather a idxs) (gather m idxs)).Perm (selected a m) := by
  unfold selected
  rw [zip_gather a m (ha.trans hm.symm)]
  exact ((gather_reorder hperm (by simp [ha, hm])).filter _).map _

theorem jaccardLoop_zip (u v : List Bool) (w : List ℝ) (a b : ℝ) :
    jaccardLoop (a, b) u v w =
      (a + ((u.zip (v.zip w)).map (fun t => timesBool t.2.2 ((t.1 || t.2.1) && (t.1 != t.2.1)))).sum,
       b + ((u.zip (v.zip w)).map (fun t => timesBool t.2.2 (t.1 || t.2.1))).sum) := by
  induction u generalizing v w a b with
  | nil => simp [jaccardLoop]
  | cons x u ih =>
    cases v with
    | nil => simp [jaccardLoop]
    | cons y v =>
      cases w with
      | nil => simp [jaccardLoop]
      | cons z w => simp only [jaccardLoop, ih, List.zip_cons_cons, List.map_cons, List.sum_cons, add_assoc]

/-- **C126** Quantities with masks or weights over the particles: reordering the particles together with them changes
neither the weighted mass, the momenta aggregated by each mask nor the Jaccard distance of two masks, and reorders the
mask `centroid_prune` returns. -/
theorem C126_masks (hperm : idxs.Perm (List.range n)) (ps : List P4) (hp : ps.length = n) :
    (∀ ws : List P4, ws.length = n → combinedMassW (gather ps idxs) (gather ws idxs) = combinedMassW ps ws) ∧
    (∀ ms : List (List Bool), (∀ m ∈ ms, m.length = n) →
      aggregateMomenta (gather ps idxs) (ms.map (fun m => gather m idxs)) = aggregateMomenta ps ms) ∧
    (∀ (u v : List Bool) (w : Option (List ℝ)), u.length = n → v.length = n → (∀ l ∈ w, l.length = n) →
      jaccardDistance (.ndarray (gather u idxs)) (.ndarray (gather v idxs)) (w.map (fun l => gather l idxs)) =
        jaccardDistance (.ndarray u) (.ndarray v) w) ∧
    (∀ (tol radius : ℝ) (mask : Option (List Bool)) (centre : Option (Fl × Fl)), (∀ m ∈ mask, m.length = n) →
      ∃ out, centroidPrune tol ps radius mask centre = .ok out ∧
        centroidPrune tol (gather ps idxs) radius (mask.map (fun m => gather m idxs)) centre =
          .ok (gather out idxs)) := by
  refine ⟨fun ws hw => ?_, fun ms hms => ?_, fun u v w hu hv hw => ?_, fun tol radius mask centre hmask => ?_⟩
  · unfold combinedMassW bcast2
    rw [if_pos (by rw [gather_len hperm hw, gather_len hperm hp]), if_pos (hw.trans hp.symm),
      ← gather_zipWith _ ws ps (hw.trans hp.symm)]
    simp only
    have hz : (List.zipWith (fun w p : P4 => (⟨w.x * p.x, w.y * p.y, w.z * p.z, w.e * p.e⟩ : P4)) ws ps).length = n := by
      simp [hw, hp]
    rw [(C126_values _ _ (gather_reorder hperm hz)).1.symm]
  · rw [(C68_aggregate ps ms).1 (fun m hm => (hms m hm).trans hp.symm), (C68_aggregate _ _).1]
    · rw [List.map_map]
      congr 1
      refine List.map_congr_left (fun m hm => ?_)
      exact total_perm (selected_perm hperm hp (hms m hm))
    · intro m hm
      obtain ⟨m', hm', rfl⟩ := List.mem_map.1 hm
      rw [gather_len hperm (hms m' hm'), gather_len hperm hp]
  · simp only [jaccardDistance, jaccardArg]
    congr 1
    have key : ∀ l : List ℝ, l.length = n →
        jaccardLoop (0, 0) (gather u idxs) (gather v idxs) (gather l idxs) = jaccardLoop (0, 0) u v l := by
      intro l hl
      rw [jaccardLoop_zip, jaccardLoop_zip, zip_gather v l (hv.trans hl.symm),
        zip_gather u _ (by simp [hu, hv, hl])]
      have hpm := gather_reorder (idxs := idxs) hperm (a := u.zip (v.zip l)) (by simp [hu, hv, hl])
      rw [(hpm.map _).sum_eq, (hpm.map _).sum_eq]
    unfold jaccardKernel
    cases w with
    | some l => simp only [Option.map_some, key l (hw l rfl)]
    | none =>
      simp only [Option.map_none]
      have : List.replicate (gather u idxs).length (1 : ℝ) = gather (List.replicate u.length 1) idxs := by
        have hall : ∀ x ∈ gather (List.replicate u.length (1 : ℝ)) idxs, x = 1 := fun x hx =>
          List.eq_of_mem_replicate (mem_of_mem_gather hx)
        rw [List.eq_replicate_of_mem hall, gather_len hperm hu, gather_len hperm (by simp [hu])]
      rw [this, key _ (by simp [hu])]
  · cases mask with
    | none =>
      refine ⟨_, rfl, ?_⟩
      simp only [Option.map_none, centroidPrune, isWithin]
      congr 1
      rw [gather_map]
      cases centre with
      | some c => rfl
      | none => simp only [← (C126_values _ _ (gather_reorder hperm hp)).2.1 tol true |>.1]
    | some m =>
      have hm : m.length = n := hmask m rfl
      obtain ⟨out, o1, o2, o3⟩ := C55_masked tol ps radius m centre (hm.trans hp.symm)
      obtain ⟨out', p1, p2, p3⟩ := C55_masked tol (gather ps idxs) radius (gather m idxs) centre
        (by rw [gather_len hperm hm, gather_len hperm hp])
      refine ⟨out, o1, ?_⟩
      rw [Option.map_some, p1]
      congr 1
      have hc : centreUsed tol (selected (gather ps idxs) (gather m idxs)) centre = centreUsed tol (selected ps m) centre := by
        unfold centreUsed
        rw [total_perm (selected_perm hperm hp hm)]
      have hol : out.length = n := o2.trans hm
      refine bools_ext (by rw [p2, gather_len hperm hm, gather_len hperm hol]) (fun k hk => ?_)
      have hkl : k < idxs.length := by rw [(perm_facts hperm).2.2.2]; rw [p2, gather_len hperm hm] at hk; exact hk
      have hi : idxs[k]? = some idxs[k] := List.getElem?_eq_getElem hkl
      generalize idxs[k] = i at hi
      rw [p3 k, gather_at hperm hol hi, o3 i, gather_at hperm hm hi, gather_at hperm hp hi, hc]

/-- **C126** Pairwise distances, for every schedule of the parallel loops: the matrix of the reordered particles is the
matrix with rows and columns reordered. -/
theorem C126_distances (hperm : idxs.Perm (List.range n)) (ps : List P4) (hp : ps.length = n) (pseudo : Bool)
    (tol : ℝ) (tr tr' : List Write) (mem mem' : Nat × Nat → Fl)
    (h : Interleave (deltaRLoop true (cloudOf pseudo tol ps) (cloudOf pseudo tol ps)) tr)
    (h' : Interleave (deltaRLoop true (cloudOf pseudo tol (gather ps idxs)) (cloudOf pseudo tol (gather ps idxs))) tr')
    (a b i j : Nat) (ha : idxs[a]? = some i) (hb : idxs[b]? = some j) :
    runWrites mem' tr' (a, b) = runWrites mem tr (i, j) := by
  have hci : ∀ (a i : Nat), idxs[a]? = some i → ∃ c, (cloudOf pseudo tol ps)[i]? = some c ∧
      (cloudOf pseudo tol (gather ps idxs))[a]? = some c := by
    intro a i ha
    have hi : i < ps.length := by rw [hp]; exact (perm_facts hperm).1 i (List.mem_of_getElem? ha)
    refine ⟨_, by simp only [cloudOf, List.getElem?_map, List.getElem?_eq_getElem hi, Option.map_some]; rfl, ?_⟩
    simp only [cloudOf, List.getElem?_map, gather_at hperm hp ha, List.getElem?_eq_getElem hi, Option.map_some]
  obtain ⟨c, c1, c2⟩ := hci a i ha
  obtain ⟨d, d1, d2⟩ := hci b j hb
  rw [(C66_schedule true _ _ (fun _ => rfl) tr h mem).2.2.1 i j c d c1 d1,
    (C66_schedule true _ _ (fun _ => rfl) tr' h' mem').2.2.1 a b c d c2 d2]

/-- **C126** The clustering coefficients of the reordered particles are the reordered coefficients. -/
theorem C126_coeffs (ps : List P4) (hperm : idxs.Perm (List.range ps.length)) (pseudo : Bool)
    (tol radius : ℝ) (tr tr' : List Write) (mem mem' : Nat × Nat → Fl)
    (h : Interleave (deltaRLoop true (cloudOf pseudo tol ps) (cloudOf pseudo tol ps)) tr)
    (h' : Interleave (deltaRLoop true (cloudOf pseudo tol (gather ps idxs)) (cloudOf pseudo tol (gather ps idxs))) tr')
    (a : Fin (gather ps idxs).length) (i : Fin ps.length) (hai : idxs[a.val]? = some i.val) :
    clusterCoeffDistbn (gather ps idxs) radius mem' tr' a = clusterCoeffDistbn ps radius mem tr i := by
  obtain ⟨f1, f2, f3, f4⟩ := perm_facts hperm
  obtain ⟨adj, x1, -, x3⟩ := C73_distbn ps pseudo tol radius mem tr h
  obtain ⟨adj', y1, -, y3⟩ := C73_distbn (gather ps idxs) pseudo tol radius mem' tr' h'
  have hl : (gather ps idxs).length = idxs.length := by rw [gather_len hperm rfl, f4]
  let σ : Fin (gather ps idxs).length → Fin ps.length := fun a =>
    ⟨idxs[a.val]'(hl ▸ a.isLt), f1 _ (List.getElem_mem _)⟩
  have hσ : ∀ a : Fin (gather ps idxs).length, idxs[a.val]? = some (σ a).val := fun a =>
    List.getElem?_eq_getElem (hl ▸ a.isLt)
  have hinj : Function.Injective σ := by
    intro a b hab
    have : idxs[a.val]'(hl ▸ a.isLt) = idxs[b.val]'(hl ▸ b.isLt) := congrArg Fin.val hab
    exact Fin.ext ((f3.getElem_inj_iff).1 this)
  have hsurj : Function.Surjective σ := by
    intro i
    obtain ⟨k, hk⟩ := List.getElem?_of_mem (f2 i.val i.isLt)
    have hkl : k < idxs.length := (List.getElem?_eq_some_iff.1 hk).1
    refine ⟨⟨k, hl ▸ hkl⟩, Fin.ext ?_⟩
    exact (List.getElem?_eq_some_iff.1 hk).2
  have hg : ∀ a : Fin (gather ps idxs).length, (gather ps idxs)[a] = ps[σ a] := by
    intro a
    have := gather_at hperm (a := ps) rfl (hσ a)
    rw [List.getElem?_eq_getElem a.isLt, List.getElem?_eq_getElem (σ a).isLt] at this
    exact Option.some.inj this
  have hadj : ∀ a b, adj' a b = adj (σ a) (σ b) := by
    intro a b
    rw [Bool.eq_iff_iff, y1, x1, hg, hg, hinj.ne_iff]
  have hai' : i = σ a := Fin.ext (Option.some.inj (hai.symm.trans (hσ a)))
  subst hai'
  have e1 : (neighbours adj' a).card = (neighbours adj (σ a)).card := by
    refine Finset.card_bij (fun b _ => σ b) (fun b hb => ?_) (fun b _ c _ hbc => hinj hbc) (fun c hc => ?_)
    · simp only [neighbours, Finset.mem_filter, Finset.mem_univ, true_and] at hb ⊢
      rw [← hadj]; exact hb
    · obtain ⟨b, rfl⟩ := hsurj c
      simp only [neighbours, Finset.mem_filter, Finset.mem_univ, true_and] at hc
      exact ⟨b, by simp only [neighbours, Finset.mem_filter, Finset.mem_univ, true_and, hadj]; exact hc, rfl⟩
  have e2 : (linkedPairs adj' a).card = (linkedPairs adj (σ a)).card := by
    refine Finset.card_bij (fun b _ => (σ b.1, σ b.2)) (fun b hb => ?_) (fun b _ c _ hbc => ?_) (fun c hc => ?_)
    · simp only [linkedPairs, neighbourPairs, neighbours, Finset.mem_filter, Finset.mem_offDiag, Finset.mem_univ,
        true_and, hadj] at hb ⊢
      exact ⟨⟨hb.1.1, hb.1.2.1, fun h => hb.1.2.2 (hinj h)⟩, hb.2⟩
    · exact Prod.ext (hinj (congrArg Prod.fst hbc)) (hinj (congrArg Prod.snd hbc))
    · obtain ⟨b1, hb1⟩ := hsurj c.1
      obtain ⟨b2, hb2⟩ := hsurj c.2
      refine ⟨(b1, b2), ?_, Prod.ext hb1 hb2⟩
      simp only [linkedPairs, neighbourPairs, neighbours, Finset.mem_filter, Finset.mem_offDiag, Finset.mem_univ,
        true_and, hadj] at hc ⊢
      rw [← hb1, ← hb2] at hc
      exact ⟨⟨hc.1.1, hc.1.2.1, fun h => hc.1.2.2 (by rw [h])⟩, hc.2⟩
  have e3 : (neighbourPairs adj' a).card = (neighbourPairs adj (σ a)).card := by
    simp only [neighbourPairs, Finset.offDiag_card, e1]
  rw [(y3 a).1, (x3 (σ a)).1, e1, e2, e3]
end

/-- Three particles, the first two swapped, and the schedules of a single thread. -/
example : ([1, 0, 2] : List Nat).Perm (List.range 3) ∧
    gather ([⟨1, 0, 0, 1⟩, ⟨0, 2, 0, 2⟩, ⟨0, 0, 3, 3⟩] : List P4) [1, 0, 2] = [⟨0, 2, 0, 2⟩, ⟨1, 0, 0, 1⟩, ⟨0, 0, 3, 3⟩] ∧
    gather [true, false, false] [1, 0, 2] = [false, true, false] ∧
    ∀ (pseudo : Bool) (tol : ℝ) (ps : List P4), ∃ tr,
      Interleave (deltaRLoop true (cloudOf pseudo tol ps) (cloudOf pseudo tol ps)) tr :=
  ⟨by decide, rfl, rfl, fun _ _ _ => ⟨_, interleave_serial _⟩⟩
end Gcl
