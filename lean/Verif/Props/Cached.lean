import Verif.Spec.Cached
import Verif.Lemmas.Basic
/-! # Property C85: derived quantities follow the data (as far as they do) -/
namespace Gcl
set_option autoImplicit false
open Spec

/-- What is stored for an attribute. -/
def stored (o : CacheObj) : Qty → Option (List Fl)
  | .pt => none
  | .eta => o.eta
  | .rapidity => o.rapidity
  | .phi => o.phi
  | .theta => o.theta
  | .mass => o.mass
  | .massT => o.massT

/-- The stored moduli are those of the records `fam`. -/
structure CInv (o : CacheObj) (fam : Option (List P4)) : Prop where
  zt : o.zt = fam.map (fun s => s.map P4.ztPol)
  mag : o.mag = none ∨ ∃ s, fam = some s ∧ o.mag = some (s.map P4.spatialMag)
  none : fam = none → o.eta = none ∧ o.phi = none ∧ o.theta = none ∧ o.mass = none

theorem readZt_spec {o : CacheObj} {fam : Option (List P4)} (h : CInv o fam) :
    o.readZt = ({ o with zt := some ((fam.getD o.data).map P4.ztPol) }, (fam.getD o.data).map P4.ztPol) := by
  have hz := h.zt
  cases fam with
  | none => rw [CacheObj.readZt, hz]; rfl
  | some s =>
    rw [CacheObj.readZt, hz]
    simp only [Option.map_some, Option.getD_some]
    cases o
    simp only at hz
    subst hz
    rfl

theorem readMag_spec {o : CacheObj} {fam : Option (List P4)} (h : CInv o fam) :
    o.readMag = ({ o with zt := some ((fam.getD o.data).map P4.ztPol),
                          mag := some ((fam.getD o.data).map P4.spatialMag) },
      (fam.getD o.data).map P4.spatialMag) := by
  unfold CacheObj.readMag
  rcases h.mag with hm | ⟨s, hs, hm⟩
  · rw [hm, readZt_spec h]
    simp only [List.map_map]
    rfl
  · have hz := h.zt
    subst hs
    rw [hm]
    simp only [Option.getD_some]
    cases o
    simp only at hz hm
    subst hz; subst hm
    rfl

theorem pt_of_zt (s : List P4) : (s.map P4.ztPol).map Complex.im = s.map P4.pt := by
  rw [List.map_map]; rfl

/-- One read. -/
theorem maskPhi_eq (tol : ℝ) (cur snap : List P4) :
    maskPhi tol (snap.map P4.pt) (cur.map (fun p => p.xyPol.arg)) = mixedPhi tol cur snap := by
  unfold maskPhi mixedPhi
  have hc : (snap.map P4.pt).any (fun x => decide (|x| ≤ tol)) = true ↔ ∃ s ∈ snap, |s.pt| ≤ tol := by
    simp [List.any_eq_true]
  by_cases h : ∃ s ∈ snap, |s.pt| ≤ tol
  · rw [if_pos h, if_pos (hc.2 h)]
    simp only [List.length_map]
    by_cases hl : cur.length = snap.length
    · rw [if_pos hl, if_pos hl.symm]
      congr 1
      rw [List.zipWith_map, List.zipWith_comm]
    · rw [if_neg hl, if_neg (fun h => hl h.symm)]
  · rw [if_neg h, if_neg (fun hh => h (hc.1 hh)), List.map_map]
    rfl

theorem read_spec {o : CacheObj} {fam : Option (List P4)} (h : CInv o fam) (tol : ℝ) (q : Qty) :
    CInv (o.read tol q).1 (if usesModulus q then some (fam.getD o.data) else fam) ∧
    (o.read tol q).1.data = o.data ∧
    (∀ q', q' ≠ q → stored (o.read tol q).1 q' = stored o q') ∧
    (stored o q = none → (o.read tol q).2 = mixed tol q o.data (fam.getD o.data)) ∧
    (∀ v, stored o q = some v → o.read tol q = (o, .ok v)) ∧
    (∀ v, q ≠ .pt → (o.read tol q).2 = .ok v → stored (o.read tol q).1 q = some v) := by
  have hz := readZt_spec h
  have hm := readMag_spec h
  -- when something is stored for a quantity using the modulus, the moduli are stored too
  have hfam : ∀ q v, usesModulus q → stored o q = some v → some (fam.getD o.data) = fam := by
    intro q v hq hv
    cases fam with
    | some s => rfl
    | none =>
      obtain ⟨h1, h2, h3, h4⟩ := h.none rfl
      cases q <;> simp_all [stored, usesModulus]
  have hinv : ∀ o' : CacheObj, o'.zt = some ((fam.getD o.data).map P4.ztPol) →
      (o'.mag = o.mag ∨ o'.mag = some ((fam.getD o.data).map P4.spatialMag)) →
      CInv o' (some (fam.getD o.data)) := by
    intro o' h1 h2
    refine ⟨h1, ?_, by simp⟩
    rcases h2 with h2 | h2
    · rw [h2]
      rcases h.mag with h3 | ⟨s, h3, h4⟩
      · exact Or.inl h3
      · refine Or.inr ⟨fam.getD o.data, rfl, ?_⟩
        rw [h4, h3]; rfl
    · exact Or.inr ⟨_, rfl, h2⟩
  cases q with
  | pt =>
    simp only [CacheObj.read, hz]
    refine ⟨hinv _ rfl (Or.inl rfl), trivial, ?_, ?_, ?_, ?_⟩
    · intro q' _; cases q' <;> rfl
    · intro _; simp only [mixed, List.map_map]; rfl
    · intro v hv; cases hv
    · intro v hv; exact absurd rfl hv
  | theta =>
    simp only [CacheObj.read, CacheObj.readTheta]
    cases ho : o.theta with
    | some v =>
      have := hfam .theta v (by decide) ho
      refine ⟨?_, rfl, fun _ _ => rfl, ?_, ?_, ?_⟩
      · rw [if_pos (by decide), this]; exact h
      · intro h0; simp only [stored, ho] at h0; cases h0
      · intro v' hv'; simp only [stored, ho, Option.some.injEq] at hv'; subst hv'; rfl
      · intro v' _ hv'; simp only [Except.ok.injEq] at hv'; subst hv'; exact ho
    | none =>
      simp only [hz]
      refine ⟨hinv _ rfl (Or.inl rfl), trivial, ?_, ?_, ?_, ?_⟩
      · intro q' hq; cases q' <;> first | rfl | exact absurd rfl hq
      · intro _; simp only [mixed, List.map_map]; rfl
      · intro v hv; simp only [stored, ho] at hv; cases hv
      · intro v _ hv; simp only [Except.ok.injEq] at hv; subst hv; rfl
  | rapidity =>
    simp only [CacheObj.read, CacheObj.readRapidity]
    cases ho : o.rapidity with
    | some v =>
      refine ⟨by rw [if_neg (by decide)]; exact h, rfl, fun _ _ => rfl, ?_, ?_, ?_⟩
      · intro h0; simp only [stored, ho] at h0; cases h0
      · intro v' hv'; simp only [stored, ho, Option.some.injEq] at hv'; subst hv'; rfl
      · intro v' _ hv'; simp only [Except.ok.injEq] at hv'; subst hv'; exact ho
    | none =>
      refine ⟨by rw [if_neg (by decide)]; exact ⟨h.zt, h.mag, h.none⟩, rfl, ?_, ?_, ?_, ?_⟩
      · intro q' hq; cases q' <;> first | rfl | exact absurd rfl hq
      · intro _; rfl
      · intro v hv; simp only [stored, ho] at hv; cases hv
      · intro v _ hv; simp only [Except.ok.injEq] at hv; subst hv; rfl
  | massT =>
    simp only [CacheObj.read, CacheObj.readMassT]
    cases ho : o.massT with
    | some v =>
      refine ⟨by rw [if_neg (by decide)]; exact h, rfl, fun _ _ => rfl, ?_, ?_, ?_⟩
      · intro h0; simp only [stored, ho] at h0; cases h0
      · intro v' hv'; simp only [stored, ho, Option.some.injEq] at hv'; subst hv'; rfl
      · intro v' _ hv'; simp only [Except.ok.injEq] at hv'; subst hv'; exact ho
    | none =>
      refine ⟨by rw [if_neg (by decide)]; exact ⟨h.zt, h.mag, h.none⟩, rfl, ?_, ?_, ?_, ?_⟩
      · intro q' hq; cases q' <;> first | rfl | exact absurd rfl hq
      · intro _; rfl
      · intro v hv; simp only [stored, ho] at hv; cases hv
      · intro v _ hv; simp only [Except.ok.injEq] at hv; subst hv; rfl
  | eta =>
    simp only [CacheObj.read, CacheObj.readEta]
    cases ho : o.eta with
    | some v =>
      have := hfam .eta v (by decide) ho
      refine ⟨?_, rfl, fun _ _ => rfl, ?_, ?_, ?_⟩
      · rw [if_pos (by decide), this]; exact h
      · intro h0; simp only [stored, ho] at h0; cases h0
      · intro v' hv'; simp only [stored, ho, Option.some.injEq] at hv'; subst hv'; rfl
      · intro v' _ hv'; simp only [Except.ok.injEq] at hv'; subst hv'; exact ho
    | none =>
      simp only [hm]
      cases hb : bcast2 etaOf (o.data.map P4.z) ((fam.getD o.data).map P4.spatialMag) with
      | error e =>
        refine ⟨hinv _ rfl (Or.inr rfl), rfl, ?_, ?_, ?_, ?_⟩
        · intro q' hq; cases q' <;> rfl
        · intro _; simp only [mixed, hb]
        · intro v hv; simp only [stored, ho] at hv; cases hv
        · intro v _ hv; cases hv
      | ok w =>
        refine ⟨hinv _ rfl (Or.inr rfl), rfl, ?_, ?_, ?_, ?_⟩
        · intro q' hq; cases q' <;> first | rfl | exact absurd rfl hq
        · intro _; simp only [mixed, hb]
        · intro v hv; simp only [stored, ho] at hv; cases hv
        · intro v _ hv; simp only [Except.ok.injEq] at hv; subst hv; rfl
  | mass =>
    simp only [CacheObj.read, CacheObj.readMass]
    cases ho : o.mass with
    | some v =>
      have := hfam .mass v (by decide) ho
      refine ⟨?_, rfl, fun _ _ => rfl, ?_, ?_, ?_⟩
      · rw [if_pos (by decide), this]; exact h
      · intro h0; simp only [stored, ho] at h0; cases h0
      · intro v' hv'; simp only [stored, ho, Option.some.injEq] at hv'; subst hv'; rfl
      · intro v' _ hv'; simp only [Except.ok.injEq] at hv'; subst hv'; exact ho
    | none =>
      simp only [hm]
      cases hb : bcast2 (fun e m => Fl.fin (rootDiffTwoSquares e m)) (o.data.map P4.e)
          ((fam.getD o.data).map P4.spatialMag) with
      | error e =>
        refine ⟨hinv _ rfl (Or.inr rfl), rfl, ?_, ?_, ?_, ?_⟩
        · intro q' hq; cases q' <;> rfl
        · intro _; simp only [mixed, hb]
        · intro v hv; simp only [stored, ho] at hv; cases hv
        · intro v _ hv; cases hv
      | ok w =>
        refine ⟨hinv _ rfl (Or.inr rfl), rfl, ?_, ?_, ?_, ?_⟩
        · intro q' hq; cases q' <;> first | rfl | exact absurd rfl hq
        · intro _; simp only [mixed, hb]
        · intro v hv; simp only [stored, ho] at hv; cases hv
        · intro v _ hv; simp only [Except.ok.injEq] at hv; subst hv; rfl
  | phi =>
    simp only [CacheObj.read, CacheObj.readPhi]
    cases ho : o.phi with
    | some v =>
      have := hfam .phi v (by decide) ho
      refine ⟨?_, rfl, fun _ _ => rfl, ?_, ?_, ?_⟩
      · rw [if_pos (by decide), this]; exact h
      · intro h0; simp only [stored, ho] at h0; cases h0
      · intro v' hv'; simp only [stored, ho, Option.some.injEq] at hv'; subst hv'; rfl
      · intro v' _ hv'; simp only [Except.ok.injEq] at hv'; subst hv'; exact ho
    | none =>
      simp only [hz, pt_of_zt, maskPhi_eq]
      cases hb : mixedPhi tol o.data (fam.getD o.data) with
      | error e =>
        refine ⟨hinv _ rfl (Or.inl rfl), rfl, ?_, ?_, ?_, ?_⟩
        · intro q' hq; cases q' <;> rfl
        · intro _; simp only [mixed, hb]
        · intro v hv; simp only [stored, ho] at hv; cases hv
        · intro v _ hv; cases hv
      | ok w =>
        refine ⟨hinv _ rfl (Or.inl rfl), rfl, ?_, ?_, ?_, ?_⟩
        · intro q' hq; cases q' <;> first | rfl | exact absurd rfl hq
        · intro _; simp only [mixed, hb]
        · intro v hv; simp only [stored, ho] at hv; cases hv
        · intro v _ hv; simp only [Except.ok.injEq] at hv; subst hv; rfl

/-- The moduli kept after one operation. -/
def famAfter (d : List P4) (fam : Option (List P4)) : COp → Option (List P4)
  | .read q => if usesModulus q then some (fam.getD d) else fam
  | .write _ => fam

theorem run_inv {o : CacheObj} {fam : Option (List P4)} (h : CInv o fam) (tol : ℝ) (op : COp) :
    CInv (op.run tol o) (famAfter o.data fam op) := by
  cases op with
  | read q => exact (read_spec h tol q).1
  | write d => exact ⟨h.zt, h.mag, h.none⟩

theorem history_inv (tol : ℝ) (hist : List COp) (o : CacheObj) (fam : Option (List P4)) (h : CInv o fam) :
    ∃ fam', CInv (runCache tol o hist) fam' ∧ (runCache tol o hist).data = current o.data hist ∧
      fam'.getD (current o.data hist) = fam.getD (snapshot o.data hist) ∧
      ∀ q, COp.read q ∉ hist → stored (runCache tol o hist) q = stored o q := by
  induction hist generalizing o fam with
  | nil => exact ⟨fam, h, rfl, rfl, fun _ _ => rfl⟩
  | cons op hist ih =>
    obtain ⟨fam', i1, i2, i3, i4⟩ := ih (op.run tol o) (famAfter o.data fam op) (run_inv h tol op)
    cases op with
    | read q =>
      obtain ⟨-, r2, r3, -⟩ := read_spec h tol q
      have hd : (COp.run tol o (.read q)).data = o.data := r2
      rw [hd] at i2 i3
      refine ⟨fam', i1, i2, ?_, ?_⟩
      · rw [show current o.data (.read q :: hist) = current o.data hist from rfl, i3]
        simp only [famAfter, snapshot]
        by_cases hq : usesModulus q
        · rw [if_pos hq, if_pos hq]; rfl
        · rw [if_neg hq, if_neg hq]
      · intro q' hq'
        rw [runCache, i4 q' (fun hm => hq' (by simp [hm]))]
        exact r3 q' (fun hc => hq' (by simp [hc]))
    | write d =>
      refine ⟨fam', i1, i2, i3, ?_⟩
      intro q' hq'
      rw [runCache, i4 q' (fun hm => hq' (by simp [hm]))]
      cases q' <;> rfl

theorem fresh_inv (d : List P4) : CInv { data := d } none := ⟨rfl, Or.inl rfl, fun _ => ⟨rfl, rfl, rfl, rfl⟩⟩

/-- C85, complete account of first reads: after any history on a new array, the first read of a quantity combines
the current records with the moduli of the records there were when a quantity using them was first read. -/
theorem C85_first_read (tol : ℝ) (d : List P4) (hist : List COp) (q : Qty) (hq : COp.read q ∉ hist) :
    ((runCache tol { data := d } hist).read tol q).2 = mixed tol q (current d hist) (snapshot d hist) := by
  obtain ⟨fam', i1, i2, i3, i4⟩ := history_inv tol hist { data := d } none (fresh_inv d)
  obtain ⟨-, -, -, r4, -⟩ := read_spec i1 tol q
  have hs : stored (runCache tol { data := d } hist) q = none := by
    rw [i4 q hq]; cases q <;> rfl
  rw [r4 hs, i2]
  simp only at i3
  rw [i3]
  rfl

/-- C85, complete account of later reads: once a quantity has been read, every later read gives the same array,
whatever has been written in between. -/
theorem C85_later_read (tol : ℝ) (d : List P4) (pre hist : List COp) (q : Qty) (v : List Fl)
    (hv : ((runCache tol { data := d } pre).read tol q).2 = .ok v) :
    ((runCache tol { data := d } (pre ++ .read q :: hist)).read tol q).2 = .ok v := by
  have happ : ∀ (a b : List COp) (o : CacheObj), runCache tol o (a ++ b) = runCache tol (runCache tol o a) b := by
    intro a
    induction a with
    | nil => intro b o; rfl
    | cons x a ih => intro b o; exact ih b _
  rw [happ]
  obtain ⟨fam', i1, -, -, -⟩ := history_inv tol pre { data := d } none (fresh_inv d)
  obtain ⟨r1, r2, -, r4, r5, r6⟩ := read_spec i1 tol q
  generalize hO : runCache tol { data := d } pre = O at *
  rw [runCache]
  change ((runCache tol (O.read tol q).1 hist).read tol q).2 = .ok v
  by_cases hpt : q = .pt
  · subst hpt
    rw [if_pos (by decide)] at r1
    have hv' : v = (fam'.getD O.data).map (fun p => Fl.fin p.pt) := by
      have := r4 rfl
      rw [hv] at this
      simpa [mixed] using this
    have key : ∀ (hist : List COp) (o : CacheObj) (s : List P4), CInv o (some s) →
        ((runCache tol o hist).read tol .pt).2 = .ok (s.map (fun p => Fl.fin p.pt)) := by
      intro hist o s ho
      obtain ⟨f, j1, j2, j3, j4⟩ := history_inv tol hist o (some s) ho
      have := (read_spec j1 tol .pt).2.2.2.1 rfl
      rw [this, j2, j3]
      rfl
    rw [hv']
    exact key hist _ _ r1
  · have hst := r6 v hpt hv
    have key : ∀ (hist : List COp) (o : CacheObj) (fam : Option (List P4)), CInv o fam → stored o q = some v →
        ((runCache tol o hist).read tol q).2 = .ok v := by
      intro hist
      induction hist with
      | nil =>
        intro o fam ho hs
        rw [runCache, (read_spec ho tol q).2.2.2.2.1 v hs]
      | cons op hist ih =>
        intro o fam ho hs
        refine ih _ _ (run_inv ho tol op) ?_
        cases op with
        | write d => rw [← hs]; cases q <;> rfl
        | read q' =>
          obtain ⟨-, -, s3, -, s5, -⟩ := read_spec ho tol q'
          by_cases hqq : q = q'
          · subst hqq
            change stored (o.read tol q).1 q = some v
            rw [s5 v hs]
            exact hs
          · exact (s3 q hqq).trans hs
    exact key hist _ _ r1 hst

theorem mixed_same (tol : ℝ) (q : Qty) (d : List P4) : mixed tol q d d = .ok (d.map (quantity tol q)) := by
  have hz : ∀ {β γ : Type} (f : β → γ → Fl) (a : P4 → β) (b : P4 → γ),
      List.zipWith f (d.map a) (d.map b) = d.map (fun p => f (a p) (b p)) := by
    intro β γ f a b
    induction d with
    | nil => rfl
    | cons p d ih => simp [ih]
  cases q with
  | pt => rfl
  | theta => rfl
  | rapidity => rfl
  | massT => rfl
  | eta =>
    rw [mixed, bcast2_eq_length _ (by simp), hz]
    rfl
  | mass =>
    rw [mixed, bcast2_eq_length _ (by simp), hz]
    rfl
  | phi =>
    rw [mixed, ← maskPhi_eq, maskPhi]
    split
    · rw [if_pos (by simp), hz]; rfl
    · next hany =>
      congr 1
      rw [List.map_map]
      apply List.map_congr_left
      intro p hp
      have : ¬ |p.pt| ≤ tol := by
        intro hc
        apply hany
        rw [List.any_eq_true]
        exact ⟨p.pt, List.mem_map.2 ⟨p, hp, rfl⟩, by simpa using hc⟩
      simp [quantity, P4.phi, this]

theorem snapshot_append (d : List P4) (a b : List COp) (h : ∀ q, COp.read q ∈ a → ¬ usesModulus q) :
    snapshot d (a ++ b) = snapshot (current d a) b := by
  induction a generalizing d with
  | nil => rfl
  | cons op a ih =>
    have h' : ∀ q, COp.read q ∈ a → ¬ usesModulus q := fun q hq => h q (by simp [hq])
    cases op with
    | read q =>
      have := h q (by simp)
      simp only [List.cons_append, snapshot, if_neg this, current]
      exact ih d h'
    | write d' => exact ih d' h'

theorem snapshot_reads (d : List P4) (b : List COp) (h : ∀ d', COp.write d' ∉ b) :
    snapshot d b = d ∧ current d b = d := by
  induction b generalizing d with
  | nil => exact ⟨rfl, rfl⟩
  | cons op b ih =>
    have h' : ∀ d', COp.write d' ∉ b := fun d' hd => h d' (by simp [hd])
    cases op with
    | read q =>
      simp only [snapshot, current]
      refine ⟨?_, (ih d h').2⟩
      split
      · rfl
      · exact (ih d h').1
    | write d' => exact absurd (by simp) (h d')

theorem current_append (d : List P4) (a b : List COp) : current d (a ++ b) = current (current d a) b := by
  induction a generalizing d with
  | nil => rfl
  | cons op a ih => cases op <;> exact ih _

/-- C85, when the current data are shown: if no write follows the first read of the quantity, or of another one using the modulus
when this one does, a read gives the quantity of every current record. -/
theorem C85_follows (tol : ℝ) (d : List P4) (q : Qty) (pre post : List COp)
    (hpre : ∀ q', COp.read q' ∈ pre → q' ≠ q ∧ ¬ (usesModulus q ∧ usesModulus q'))
    (hpost : ∀ d', COp.write d' ∉ post) :
    ((runCache tol { data := d } (pre ++ post)).read tol q).2 =
      .ok ((current d (pre ++ post)).map (quantity tol q)) := by
  have main : ∀ post', (∀ d', COp.write d' ∉ post') → COp.read q ∉ post' →
      ((runCache tol { data := d } (pre ++ post')).read tol q).2 =
        .ok ((current d (pre ++ post')).map (quantity tol q)) := by
    intro post' hw hq
    rw [C85_first_read tol d (pre ++ post') q (by
      intro hm
      rcases List.mem_append.1 hm with hm | hm
      · exact (hpre q hm).1 rfl
      · exact hq hm)]
    by_cases hu : usesModulus q
    · rw [snapshot_append d pre post' (fun q' hq' hc => (hpre q' hq').2 ⟨hu, hc⟩), current_append,
        (snapshot_reads _ post' hw).1, (snapshot_reads _ post' hw).2]
      exact mixed_same tol q _
    · have hi : ∀ a b : List P4, mixed tol q a b = mixed tol q a a := by
        intro a b
        cases q <;> first | rfl | exact absurd (by decide) hu
      rw [hi]
      exact mixed_same tol q _
  by_cases hm : COp.read q ∈ post
  · obtain ⟨p1, p2, rfl, h1⟩ := List.eq_append_cons_of_mem hm
    have hw1 : ∀ d', COp.write d' ∉ p1 := fun d' hd => hpost d' (by simp [hd])
    have h2 := main p1 hw1 h1
    have h3 := C85_later_read tol d (pre ++ p1) p2 q _ h2
    rw [← List.append_assoc, h3, current_append, current_append, current_append]
    have e1 := (snapshot_reads (current (current d pre) p1) (.read q :: p2) (fun d' hd => hpost d' (by
      rw [List.mem_append]; exact Or.inr hd))).2
    rw [e1]
  · exact main post hpost hm

/-- Copies and selections start afresh: every quantity of a copy, or of the selected records, follows the data
whatever had been stored in the original. -/
theorem C85_copy (tol : ℝ) (o : CacheObj) (q : Qty) :
    (o.copy.read tol q).2 = .ok (o.data.map (quantity tol q)) ∧
    ∀ (k : Key) (o' : CacheObj), o.getitem k = .ok o' →
      k.apply o.data = .ok o'.data ∧ (o'.read tol q).2 = .ok (o'.data.map (quantity tol q)) := by
  have main : ∀ d : List P4, ((⟨d, none, none, none, none, none, none, none, none⟩ : CacheObj).read tol q).2 =
      .ok (d.map (quantity tol q)) := by
    intro d
    have := C85_follows tol d q [] [] (by simp) (by simp)
    simpa [runCache, current] using this
  refine ⟨main o.data, ?_⟩
  intro k o' h
  rw [CacheObj.getitem] at h
  split at h
  · cases h
  · next d hd =>
    cases h
    exact ⟨hd, main d⟩

/-- C85: the expectation that reads follow the data is refuted: whenever two data sets of the same length differ in a quantity, reading it, writing the
second and reading again shows the quantity of the first. -/
theorem C85_false (tol : ℝ) (q : Qty) (d d' : List P4) (hne : d.map (quantity tol q) ≠ d'.map (quantity tol q)) :
    let o := runCache tol { data := d } [.read q, .write d']
    o.data = d' ∧ (o.read tol q).2 = .ok (d.map (quantity tol q)) ∧
      (o.read tol q).2 ≠ .ok (o.data.map (quantity tol q)) := by
  intro o
  have h0 := C85_follows tol d q [] [] (by simp) (by simp)
  simp only [List.append_nil, current] at h0
  have h1 : (o.read tol q).2 = .ok (d.map (quantity tol q)) := C85_later_read tol d [] [.write d'] q _ h0
  have h2 : o.data = d' := by
    obtain ⟨-, -, i2, -⟩ := history_inv tol [.read q, .write d'] { data := d } none (fresh_inv d)
    exact i2
  refine ⟨h2, h1, ?_⟩
  rw [h1, h2]
  intro hc
  simp only [Except.ok.injEq] at hc
  exact hne hc

/-- A mixture: after reading `pt` and then writing, `eta` is computed from the new longitudinal momentum and the
old modulus. -/
theorem C85_mixture (tol : ℝ) (d d' : List P4) (hl : d'.length = d.length) :
    ((runCache tol { data := d } [.read .pt, .write d']).read tol .eta).2 =
      .ok (List.zipWith (fun p' p => etaOf p'.z p.spatialMag) d' d) := by
  rw [C85_first_read tol d _ .eta (by simp)]
  simp only [current, snapshot, if_pos (show usesModulus .pt by decide), mixed]
  rw [bcast2_eq_length _ (by simp [hl]), List.zipWith_map]

/-! ## Concrete case -/

/-- A history of reads and writes satisfying the hypotheses of `C85_follows` for `mass`. -/
example : ∀ q', COp.read q' ∈ [COp.read .rapidity, .write [⟨0, 0, 3, 5⟩]] →
    q' ≠ Qty.mass ∧ ¬ (usesModulus .mass ∧ usesModulus q') := by
  intro q' h
  simp at h
  subst h
  decide

/-- Two records with different transverse mass, as needed for `C85_false`. -/
example : [(⟨0, 0, 0, 1⟩ : P4)].map (quantity 0 .massT) ≠ [(⟨0, 0, 0, 4⟩ : P4)].map (quantity 0 .massT) := by
  intro h
  simp only [List.map_cons, List.map_nil, List.cons.injEq, and_true, quantity, Fl.fin.injEq, P4.massT] at h
  have h1 : rootDiffTwoSquares 1 0 = 1 := by simp [rootDiffTwoSquares, copysign]
  have h4 : rootDiffTwoSquares 4 0 = 4 := by
    have : Real.sqrt 4 = 2 := by
      rw [show (4 : ℝ) = 2 ^ 2 by norm_num]
      exact Real.sqrt_sq (by norm_num)
    norm_num [rootDiffTwoSquares, copysign, this]
  rw [h1, h4] at h
  norm_num at h

end Gcl
