import Verif.Props.Frames
import Verif.Props.Clusters
import Verif.Props.SymPipe
import Verif.Props.ClustersMem
/-! # C133: color_singlets and clusters under symmetries -/
namespace Gcl
set_option autoImplicit false
open Spec Real

theorem compress_map {α β : Type} (f : α → β) : ∀ (l : List α) (m : List Bool), compress (l.map f) m = (compress l m).map f
  | [], _ => by simp [compress]
  | _ :: _, [] => by simp [compress]
  | x :: xs, b :: bs => by
    have ih := compress_map f xs bs
    unfold compress at *
    cases b <;> simp_all

theorem compress_sub {α : Type} {l : List α} {m : List Bool} {x : α} (h : x ∈ compress l m) : x ∈ l := by
  unfold compress at h
  obtain ⟨⟨y, b⟩, hy, hx⟩ := List.mem_filterMap.1 h
  simp only at hx
  split at hx
  · cases hx; exact (List.of_mem_zip hy).1
  · cases hx

theorem combos_sub {α : Type} : ∀ (k : Nat) (l : List α) (c : List α), c ∈ combos k l → ∀ x ∈ c, x ∈ l
  | 0, l, c, h, x, hx => by
    simp only [combos, List.mem_singleton] at h
    subst h; cases hx
  | _ + 1, [], c, h, x, hx => by simp [combos] at h
  | k + 1, y :: ys, c, h, x, hx => by
    simp only [combos, List.mem_append, List.mem_map] at h
    rcases h with ⟨c', h, rfl⟩ | h
    · rcases List.mem_cons.1 hx with rfl | hx
      · exact List.mem_cons_self
      · exact List.mem_cons_of_mem _ (combos_sub k ys c' h x hx)
    · exact List.mem_cons_of_mem _ (combos_sub (k + 1) ys c h x hx)

/-- A change of the colours that keeps what is colourless and which groups are neutral keeps the singlets. -/
theorem singletParts_color (F : Int × Int → Int × Int) (leaves : Dict (List Bool)) (status : List Int)
    (color : List (Int × Int)) (h0 : ∀ c ∈ color, (F c != ((0 : Int), (0 : Int))) = (c != ((0 : Int), (0 : Int))))
    (h1 : ∀ l : List (String × (Int × Int)), (∀ p ∈ l, p.2 ∈ color) →
      isSinglet (l.map (fun p => (p.1, F p.2))) = isSinglet l) :
    singletParts leaves status (color.map F) = singletParts leaves status color := by
  unfold singletParts
  cases outgoingMask status with
  | error e => rfl
  | ok hard =>
    simp only
    cases andAll hard (leaves.map Prod.snd) with
    | error e => rfl
    | ok masks =>
      simp only
      have hc : (masks.map (compress (color.map F))).flatten = (masks.map (compress color)).flatten.map F := by
        rw [List.map_flatten, List.map_map]
        congr 1
        apply List.map_congr_left
        intro m _
        exact compress_map F color m
      have hsub : ∀ c ∈ (masks.map (compress color)).flatten, c ∈ color := by
        intro c hc
        obtain ⟨l, hl, hcl⟩ := List.mem_flatten.1 hc
        obtain ⟨m, -, rfl⟩ := List.mem_map.1 hl
        exact compress_sub hcl
      rw [hc]
      have hm : ((masks.map (compress color)).flatten.map F).map (fun c => c != ((0 : Int), (0 : Int))) =
          (masks.map (compress color)).flatten.map (fun c => c != ((0 : Int), (0 : Int))) := by
        rw [List.map_map]
        exact List.map_congr_left (fun c hc => h0 c (hsub c hc))
      rw [hm, compress_map]
      generalize hcm : (masks.map (compress color)).flatten.map (fun c => c != ((0 : Int), (0 : Int))) = cm
      have hz : ∀ (ks : List String) (cs : List (Int × Int)), ks.zip (cs.map F) = (ks.zip cs).map (fun p => (p.1, F p.2)) := by
        intro ks cs
        rw [List.zip_map_right]
        rfl
      rw [hz, combos_map, combos_map, ← List.map_append, List.filter_map, List.map_map]
      have hmem : ∀ c ∈ combos 2 ((compress (Dict.keys leaves) cm).zip (compress (masks.map (compress color)).flatten cm)) ++
          combos 3 ((compress (Dict.keys leaves) cm).zip (compress (masks.map (compress color)).flatten cm)),
          ∀ p ∈ c, p.2 ∈ color := by
        intro c hc p hp
        have : p ∈ (compress (Dict.keys leaves) cm).zip (compress (masks.map (compress color)).flatten cm) := by
          rcases List.mem_append.1 hc with h | h
          · exact combos_sub _ _ _ h p hp
          · exact combos_sub _ _ _ h p hp
        exact hsub _ (compress_sub (List.of_mem_zip this).2)
      have hfil : (combos 2 ((compress (Dict.keys leaves) cm).zip (compress (masks.map (compress color)).flatten cm)) ++
          combos 3 ((compress (Dict.keys leaves) cm).zip (compress (masks.map (compress color)).flatten cm))).filter
          (isSinglet ∘ List.map (fun p : String × (Int × Int) => (p.1, F p.2))) =
          (combos 2 ((compress (Dict.keys leaves) cm).zip (compress (masks.map (compress color)).flatten cm)) ++
          combos 3 ((compress (Dict.keys leaves) cm).zip (compress (masks.map (compress color)).flatten cm))).filter isSinglet := by
        apply List.filter_congr
        intro c hc
        exact h1 c (hmem c hc)
      rw [hfil]
      congr 2
      apply List.map_congr_left
      intro c _
      simp [Function.comp]

/-- **C133** Which groups of partons `color_singlets` lists, or with `invert=True` leaves over, depends only on which
colours are equal and which are zero: renaming the colour lines changes nothing. -/
theorem C133_labels (f : Int → Int) (setIter : List String → List String) (leaves : Dict (List Bool)) (status : List Int)
    (color : List (Int × Int)) (invert : Bool)
    (hf : ∀ a b : Int, (a = 0 ∨ ∃ c ∈ color, a = c.1 ∨ a = c.2) → (b = 0 ∨ ∃ c ∈ color, b = c.1 ∨ b = c.2) → f a = f b → a = b)
    (h0 : f 0 = 0) :
    colorSinglets setIter leaves status (color.map (fun c => (f c.1, f c.2))) invert =
      colorSinglets setIter leaves status color invert := by
  unfold colorSinglets
  rw [singletParts_color (fun c => (f c.1, f c.2))]
  · intro c hc
    have e : ∀ a : Int, (∃ c ∈ color, a = c.1 ∨ a = c.2) → (f a = 0 ↔ a = 0) := fun a ha =>
      ⟨fun h => hf a 0 (Or.inr ha) (Or.inl rfl) (h.trans h0.symm), fun h => by rw [h, h0]⟩
    rw [Bool.eq_iff_iff]
    simp only [bne_iff_ne, ne_eq, Prod.ext_iff, e c.1 ⟨c, hc, Or.inl rfl⟩, e c.2 ⟨c, hc, Or.inr rfl⟩]
  · intro l hl
    unfold isSinglet
    rw [Bool.eq_iff_iff]
    simp only [setEq, Bool.and_eq_true, List.all_eq_true, List.contains_iff_mem, List.map_map, List.mem_map, Function.comp]
    have key : ∀ (s t : String × (Int × Int) → Int), (∀ p ∈ l, ∃ c ∈ color, s p = c.1 ∨ s p = c.2) →
        (∀ p ∈ l, ∃ c ∈ color, t p = c.1 ∨ t p = c.2) →
        ((∀ x, (∃ a ∈ l, f (s a) = x) → ∃ a ∈ l, f (t a) = x) ↔ ∀ x, (∃ a ∈ l, s a = x) → ∃ a ∈ l, t a = x) := by
      intro s t hs ht
      constructor
      · rintro h _ ⟨a, ha, rfl⟩
        obtain ⟨b, hb, e⟩ := h _ ⟨a, ha, rfl⟩
        exact ⟨b, hb, hf _ _ (Or.inr (ht b hb)) (Or.inr (hs a ha)) e⟩
      · rintro h _ ⟨a, ha, rfl⟩
        obtain ⟨b, hb, e⟩ := h _ ⟨a, ha, rfl⟩
        exact ⟨b, hb, by rw [e]⟩
    exact and_congr
      (key (fun p => p.2.1) (fun p => p.2.2) (fun p hp => ⟨_, hl p hp, Or.inl rfl⟩) (fun p hp => ⟨_, hl p hp, Or.inr rfl⟩))
      (key (fun p => p.2.2) (fun p => p.2.1) (fun p hp => ⟨_, hl p hp, Or.inr rfl⟩) (fun p hp => ⟨_, hl p hp, Or.inl rfl⟩))

/-- **C133** Exchanging colours and anticolours changes nothing either. -/
theorem C133_conjugate (setIter : List String → List String) (leaves : Dict (List Bool)) (status : List Int)
    (color : List (Int × Int)) (invert : Bool) :
    colorSinglets setIter leaves status (color.map Prod.swap) invert = colorSinglets setIter leaves status color invert := by
  unfold colorSinglets
  rw [singletParts_color Prod.swap]
  · intro c _
    rw [Bool.eq_iff_iff]
    simp only [bne_iff_ne, ne_eq, Prod.ext_iff, Prod.fst_swap, Prod.snd_swap]
    tauto
  · intro l _
    have e1 : (l.map (fun p => (p.1, Prod.swap p.2))).map (fun p => p.2.1) = l.map (fun p => p.2.2) := by
      rw [List.map_map]; rfl
    have e2 : (l.map (fun p => (p.1, Prod.swap p.2))).map (fun p => p.2.2) = l.map (fun p => p.2.1) := by
      rw [List.map_map]; rfl
    unfold isSinglet
    rw [e1, e2]
    unfold setEq
    exact Bool.and_comm _ _

/-- **C133** Hence `clusters` depends on neither the names of colours nor which of the two is the anticolour. -/
theorem C133_clusters_colour {R : Type} [LT R] [DecidableLT R] (dist : P4 → P4 → R) (setIter : List String → List String)
    (nm : Int → String) (tol radius : ℝ) (g : ClusterGraph) (f : Int → Int) (h0 : f 0 = 0) (hf : Function.Injective f) :
    clusters dist setIter nm tol radius { g with color := g.color.map (fun c => (f c.1, f c.2)) } =
      clusters dist setIter nm tol radius g ∧
    clusters dist setIter nm tol radius { g with color := g.color.map Prod.swap } = clusters dist setIter nm tol radius g := by
  unfold clusters clusterRest
  simp only [C133_conjugate, C133_labels f setIter _ _ g.color true (fun a b _ _ h => hf h) h0, and_self]

/-! ## Rotations and boosts -/

/-- `f` keeps who is within the radius of whom. -/
def Spec.KeepsNear (tol radius : ℝ) (pmu : List P4) (f : P4 → P4) : Prop :=
  ∀ q ∈ pmu, ∀ p ∈ pmu, withinCentre radius ((f q).eta, (f q).phi tol) (f p) = withinCentre radius (q.eta, q.phi tol) p

theorem pruneLoop_congr (tol radius : ℝ) (pmu : List P4) (f : P4 → P4) (hn : KeepsNear tol radius pmu f)
    (hard : List Bool) (leaves : Dict (List String)) : ∀ (ks : List String) (hier : Mask),
    pruneLoop tol (pmu.map f) radius hard leaves ks hier = pruneLoop tol pmu radius hard leaves ks hier
  | [], _ => rfl
  | k :: ks, hier => by
    unfold pruneLoop
    cases Dict.get? leaves k with
    | none => rfl
    | some path =>
      simp only
      cases hier.leafAt path with
      | none => rfl
      | some leaf =>
        simp only [leafCentre]
        cases bcast2 (· && ·) hard leaf with
        | error e => rfl
        | ok m =>
          simp only
          rw [apply_map]
          cases hm : (Key.mask m).apply pmu with
          | error e => rfl
          | ok sel =>
            simp only [Except.map]
            match sel, hm with
            | [], _ => rfl
            | _ :: _ :: _, _ => rfl
            | [q], hm =>
              have hq : q ∈ pmu := apply_mem hm (List.mem_singleton.2 rfl)
              simp only [List.map_cons, List.map_nil, centroidPrune]
              rw [apply_map]
              cases hl : (Key.mask leaf).apply pmu with
              | error e => rfl
              | ok sub =>
                simp only [Except.map]
                have hw : isWithin tol (sub.map f) radius (some ((f q).eta, (f q).phi tol)) =
                    isWithin tol sub radius (some (q.eta, q.phi tol)) := by
                  simp only [isWithin, List.map_map]
                  apply List.map_congr_left
                  intro p hp
                  exact hn q hq p (apply_mem hl hp)
                rw [hw]
                cases setMaskVals (List.replicate leaf.length false) leaf
                    (isWithin tol sub radius (some (q.eta, q.phi tol))) with
                | error e => rfl
                | ok d => exact pruneLoop_congr tol radius pmu f hn hard leaves ks _

theorem clusters_congr {R : Type} [LT R] [DecidableLT R] (dist : P4 → P4 → R) (setIter : List String → List String)
    (nm : Int → String) (tol radius : ℝ) (g : ClusterGraph) (f : P4 → P4) (hn : KeepsNear tol radius g.pmu f)
    (hd : ∀ a ∈ g.pmu, ∀ b ∈ g.pmu, ∀ c ∈ g.pmu, (dist (f a) (f c) < dist (f b) (f c) ↔ dist a c < dist b c)) :
    clusters dist setIter nm tol radius { g with pmu := g.pmu.map f } = clusters dist setIter nm tol radius g := by
  unfold clusters
  simp only [partition_congr dist dist f g.pmu _ _ _ _ hd]
  cases hierarchy nm g.pdg g.status g.final g.edges none with
  | error e => rfl
  | ok hier0 =>
    simp only
    cases partitionDescendants dist g.pmu g.final g.status g.edges hier0 with
    | error e => rfl
    | ok hier =>
      simp only [clusterRest, pruneLoop_congr tol radius g.pmu f hn]

theorem within_rotated {tol : ℝ} (ht : 0 ≤ tol) (radius s : ℝ) (q p : P4) :
    withinCentre radius ((q.shiftPhi s).eta, (q.shiftPhi s).phi tol) (p.shiftPhi s) =
      withinCentre radius (q.eta, q.phi tol) p := by
  unfold withinCentre
  simp only
  rw [eta_shiftPhi, eta_shiftPhi]
  congr 2
  have hpt := (C62_invariants s q q).2.2.1
  unfold P4.phi
  rw [hpt]
  split
  · rfl
  · rename_i hq
    have hq0 : 0 < q.pt := by
      have := abs_of_nonneg (pt_nonneg q)
      rw [this] at hq
      linarith [not_le.1 hq]
    have hz : q.xyPol ≠ 0 := by
      intro h
      have : q.pt = ‖q.xyPol‖ := rfl
      rw [this, h, norm_zero] at hq0
      exact lt_irrefl _ hq0
    have harg : ∀ w : ℂ, w ≠ 0 → Complex.exp (w.arg * Complex.I) = w / ‖w‖ := by
      intro w hw
      have h := Complex.norm_mul_exp_arg_mul_I w
      have hn : (‖w‖ : ℂ) ≠ 0 := by exact_mod_cast norm_ne_zero_iff.2 hw
      field_simp
      linear_combination h
    simp only [angleFrom]
    congr 2
    have he : Complex.exp (s * Complex.I) ≠ 0 := Complex.exp_ne_zero _
    have hne : Complex.exp (s * Complex.I) * q.xyPol ≠ 0 := mul_ne_zero he hz
    rw [shiftPhi_xyPol, shiftPhi_xyPol, harg _ hne, harg _ hz, norm_mul, Complex.norm_exp_ofReal_mul_I, one_mul,
      map_div₀, map_div₀, map_mul]
    have h1 : Complex.exp (s * Complex.I) * (starRingEnd ℂ) (Complex.exp (s * Complex.I)) = 1 := by
      rw [Complex.mul_conj, Complex.normSq_eq_norm_sq, Complex.norm_exp_ofReal_mul_I]; simp
    rw [mul_div_assoc', mul_div_assoc']
    congr 1
    linear_combination (p.xyPol * (starRingEnd ℂ) q.xyPol) * h1

/-- **C133** `clusters` is the same after a rotation of all momenta about the beam. -/
theorem C133_clusters_rotated (ptExp s : ℝ) (setIter : List String → List String) (nm : Int → String) {tol : ℝ}
    (ht : 0 ≤ tol) (radius : ℝ) (g : ClusterGraph) :
    clusters (weightedDist ptExp) setIter nm tol radius { g with pmu := g.pmu.map (P4.shiftPhi s) } =
      clusters (weightedDist ptExp) setIter nm tol radius g := by
  apply clusters_congr
  · intro q _ p _
    exact within_rotated ht radius s q p
  · intro a _ b _ c _
    have e : ∀ p h : P4, weightedDist ptExp (p.shiftPhi s) (h.shiftPhi s) = weightedDist ptExp p h := by
      intro p h
      unfold weightedDist
      rw [(C62_invariants s p p).2.2.1, (C65_invariant (le_refl 0) s p h).1]
    rw [e, e]

/-- **C133** And after a boost of all momenta along the beam, if none has mass or is along the beam. -/
theorem C133_clusters_boosted (ptExp s : ℝ) (setIter : List String → List String) (nm : Int → String) (tol radius : ℝ)
    (g : ClusterGraph) (hl : ∀ p ∈ g.pmu, Light p) :
    clusters (weightedDist ptExp) setIter nm tol radius { g with pmu := g.pmu.map (P4.shiftRapidity s) } =
      clusters (weightedDist ptExp) setIter nm tol radius g := by
  have hx : ∀ p : P4, (p.shiftRapidity s).xyPol = p.xyPol := fun p => rfl
  apply clusters_congr
  · intro q hq p hp
    obtain ⟨y, e1, e2⟩ := light_eta s q (hl q hq)
    obtain ⟨y', e1', e2'⟩ := light_eta s p (hl p hp)
    have hphi : (q.shiftRapidity s).phi tol = q.phi tol := by
      unfold P4.phi; rw [(C61_invariants s q q).2.2.1, hx]
    unfold withinCentre
    rw [hphi, hx]
    simp only [e1, e2, e1', e2', Fl.sub]
    congr 3
    ring
  · intro a ha b hb c hc
    have e : ∀ p ∈ g.pmu, ∀ h ∈ g.pmu,
        weightedDist ptExp (p.shiftRapidity s) (h.shiftRapidity s) = weightedDist ptExp p h := by
      intro p hp h hh
      obtain ⟨y, e1, e2⟩ := light_eta s p (hl p hp)
      obtain ⟨y', e1', e2'⟩ := light_eta s h (hl h hh)
      unfold weightedDist deltaRCell
      rw [(C61_invariants s p p).2.2.1, e1, e2, e1', e2', hx, hx]
      simp [Fl.sub]
    rw [e a ha c hc, e b hb c hc]

end Gcl
