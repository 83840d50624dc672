import Verif.Model.DeltaRCall
import Verif.Spec.DeltaRCall
import Verif.Props.DeltaR
import Verif.Props.Cached
import Verif.Spec.Assign
/-!
# C124: the method `delta_R`
-/
namespace Gcl
set_option autoImplicit false
open Real Spec

theorem readZt_data (o : CacheObj) : o.readZt.1.data = o.data := by
  unfold CacheObj.readZt; split <;> rfl

theorem readMag_data (o : CacheObj) : o.readMag.1.data = o.data := by
  unfold CacheObj.readMag
  split
  · rfl
  · exact readZt_data o

theorem read_data (tol : ℝ) (o : CacheObj) (pseudo : Bool) : (o.read tol (rapAttr pseudo)).1.data = o.data := by
  cases pseudo
  · simp only [rapAttr, CacheObj.read, CacheObj.readRapidity, Bool.false_eq_true, if_false]
    split <;> rfl
  · simp only [rapAttr, CacheObj.read, CacheObj.readEta, if_true]
    split
    · rfl
    · split
      · exact readMag_data o
      · exact readMag_data o

theorem read_idem (tol : ℝ) (o : CacheObj) (pseudo : Bool) (v : List Fl)
    (h : (o.read tol (rapAttr pseudo)).2 = .ok v) :
    (o.read tol (rapAttr pseudo)).1.read tol (rapAttr pseudo) = ((o.read tol (rapAttr pseudo)).1, .ok v) := by
  cases pseudo
  · simp only [rapAttr, CacheObj.read, Bool.false_eq_true, if_false] at h ⊢
    rcases hr : o.rapidity with _ | r
    · simp only [CacheObj.readRapidity, hr] at h ⊢
      cases h; rfl
    · have e : o.readRapidity tol = (o, .ok r) := by simp only [CacheObj.readRapidity, hr]
      rw [e] at h ⊢
      cases h
      exact e
  · simp only [rapAttr, CacheObj.read, if_true] at h ⊢
    rcases hr : o.eta with _ | r
    · rcases hb : bcast2 etaOf (o.data.map P4.z) o.readMag.2 with e | w
      · simp only [CacheObj.readEta, hr, hb] at h
        cases h
      · have e : o.readEta = ({ o.readMag.1 with eta := some w }, .ok w) := by simp only [CacheObj.readEta, hr, hb]
        rw [e] at h ⊢
        cases h
        rfl
    · have e : o.readEta = (o, .ok r) := by simp only [CacheObj.readEta, hr]
      rw [e] at h ⊢
      cases h
      exact e

theorem getRapidity_eq (tol : ℝ) (pseudo : Bool) (h : CHeap) (o : Nat) :
    getRapidity tol pseudo h o =
      (h.put o ((h o).read tol (rapAttr pseudo)).1, ((h o).read tol (rapAttr pseudo)).2) := by
  cases pseudo <;> rfl

/-- the argument of `w₁ · conj w₂` is the azimuthal difference -/
theorem azimuthDiff_arg (p q : P4) : AzimuthDiff p q (p.xyPol * (starRingEnd ℂ) q.xyPol).arg := by
  have hn : ∀ p : P4, ‖p.xyPol‖ = sqrt (p.x ^ 2 + p.y ^ 2) := by
    intro p
    rw [Complex.norm_def, Complex.normSq_mk]
    congr 1; simp only [P4.xyPol]; ring
  have hmul : ‖p.xyPol * (starRingEnd ℂ) q.xyPol‖ = sqrt (p.x ^ 2 + p.y ^ 2) * sqrt (q.x ^ 2 + q.y ^ 2) := by
    rw [norm_mul, Complex.norm_conj, hn, hn]
  refine ⟨Complex.neg_pi_lt_arg _, Complex.arg_le_pi _, ?_, ?_, ?_⟩
  · rw [← hmul, Complex.norm_mul_cos_arg]
    simp [P4.xyPol]
  · rw [← hmul, Complex.norm_mul_sin_arg]
    simp [P4.xyPol]; ring
  · rintro (⟨h1, h2⟩ | ⟨h1, h2⟩)
    · have : p.xyPol = 0 := Complex.ext h1 h2
      simp [this]
    · have : q.xyPol = 0 := Complex.ext h1 h2
      simp [this]

theorem distanceIs_cell (r1 r2 : Fl) (w1 w2 : ℂ) :
    DistanceIs r1 r2 (w1 * (starRingEnd ℂ) w2).arg (deltaRCell r1 r2 w1 w2) := by
  unfold DistanceIs deltaRCell
  cases r1 <;> cases r2 <;> simp [Fl.sub, hypotFl, sqrt_sq_eq_abs]

theorem cloudWith_length (junk : Nat → ℂ) (raps : List Fl) (ps : List P4) :
    (cloudWith junk raps ps).length = raps.length := by simp [cloudWith]

theorem cloudWith_get {junk : Nat → ℂ} {raps : List Fl} {ps : List P4} {i : Nat} {r : Fl} {p : P4}
    (h1 : raps[i]? = some r) (h2 : ps[i]? = some p) : (cloudWith junk raps ps)[i]? = some (r, p.xyPol) := by
  simp [cloudWith, List.getElem?_map, List.getElem?_zipIdx, h1, h2]

/-- the entries of the matrix, in terms of the kernel's formula -/
theorem deltaRCall_cells (limit : Int) (sched : List (List Write) → List Write) (hs : IsSchedule sched)
    (init : Nat × Nat → Fl) (junk : Nat → Nat → ℂ) (tol : ℝ) (h : CHeap) (self other : Nat) (pseudo : Bool)
    (threads : Int) (ht : 1 ≤ threads ∧ threads ≤ limit) (rap1 rap2 : List Fl)
    (h1 : ((h self).read tol (rapAttr pseudo)).2 = .ok rap1)
    (h2 : ((h other).read tol (rapAttr pseudo)).2 = .ok rap2)
    (hl1 : rap1.length ≤ (h self).data.length) (hl2 : rap2.length ≤ (h other).data.length) :
    ∃ M, (deltaRCall limit sched init junk tol h self other pseudo threads).2 = .ok M ∧
      MatrixOf (fun i j r1 r2 x => ∃ p q, (h self).data[i]? = some p ∧ (h other).data[j]? = some q ∧
        x = deltaRCell r1 r2 p.xyPol q.xyPol) rap1 rap2 M := by
  have hth : setNumThreads limit threads = .ok threads := if_pos ht
  -- both reads
  have key : ∃ hp : CHeap, (∀ o, (hp o).data = (h o).data) ∧
      (deltaRCall limit sched init junk tol h self other pseudo threads).2 =
        .ok ((List.range rap1.length).map (rowOf (runWrites init (sched (deltaRLoop (self == other)
          (cloudWith (junk self) rap1 (hp self).data) (cloudWith (junk other) rap2 (hp other).data)))) rap2.length)) := by
    by_cases hso : self = other
    · subst hso
      rw [h1] at h2
      cases h2
      refine ⟨(h.put self ((h self).read tol (rapAttr pseudo)).1).put self ((h self).read tol (rapAttr pseudo)).1, ?_, ?_⟩
      · intro o
        simp only [CHeap.put]
        split
        · next e => subst e; exact read_data _ _ _
        · rfl
      · unfold deltaRCall
        simp only [getRapidity_eq, h1, CHeap.put, if_true, read_idem tol (h self) pseudo rap1 h1, hth]
    · refine ⟨(h.put self ((h self).read tol (rapAttr pseudo)).1).put other ((h other).read tol (rapAttr pseudo)).1, ?_, ?_⟩
      · intro o
        simp only [CHeap.put]
        split
        · next e => subst e; exact read_data _ _ _
        · split
          · next e => subst e; exact read_data _ _ _
          · rfl
      · unfold deltaRCall
        have hos : ¬ other = self := fun e => hso e.symm
        simp only [getRapidity_eq, h1, CHeap.put, if_neg hos, h2, hth]
  obtain ⟨hp, hd, hM⟩ := key
  rw [hd, hd] at hM
  refine ⟨_, hM, by simp, ?_⟩
  intro i r hr
  have hi : i < rap1.length := (List.getElem?_eq_some_iff.1 hr).1
  refine ⟨_, by rw [List.getElem?_map, List.getElem?_range hi]; rfl, by simp [rowOf], ?_⟩
  intro j c hc
  have hj : j < rap2.length := (List.getElem?_eq_some_iff.1 hc).1
  refine ⟨_, by rw [rowOf, List.getElem?_map, List.getElem?_range hj]; rfl, ?_⟩
  obtain ⟨p, hp'⟩ : ∃ p, (h self).data[i]? = some p := ⟨_, List.getElem?_eq_getElem (by omega)⟩
  obtain ⟨q, hq'⟩ : ∃ q, (h other).data[j]? = some q := ⟨_, List.getElem?_eq_getElem (by omega)⟩
  refine ⟨p, q, hp', hq', ?_⟩
  exact (C66_schedule (self == other) (cloudWith (junk self) rap1 (h self).data)
    (cloudWith (junk other) rap2 (h other).data) (by
      intro e
      have e : self = other := by simpa using e
      subst e
      rw [h1] at h2
      cases h2; rfl) _ (hs _) init).2.2.1 i j _ _ (cloudWith_get hr hp') (cloudWith_get hc hq')

/-- **C124** The matrix: if reading the attribute used of the two objects gives `rap1` and `rap2` (current or not), with
as many records at least as (pseudo)rapidities, then for every schedule and every admissible number of threads, and
whether or not both are the same object, the matrix has one row for each of `rap1` and one column for each of `rap2`,
and entry `(i, j)` is the distance for these (pseudo)rapidities and the azimuths of the current records. -/
theorem C124_matrix (limit : Int) (sched : List (List Write) → List Write) (hs : IsSchedule sched)
    (init : Nat × Nat → Fl) (junk : Nat → Nat → ℂ) (tol : ℝ) (h : CHeap) (self other : Nat) (pseudo : Bool)
    (threads : Int) (ht : 1 ≤ threads ∧ threads ≤ limit) (rap1 rap2 : List Fl)
    (h1 : ((h self).read tol (rapAttr pseudo)).2 = .ok rap1)
    (h2 : ((h other).read tol (rapAttr pseudo)).2 = .ok rap2)
    (hl1 : rap1.length ≤ (h self).data.length) (hl2 : rap2.length ≤ (h other).data.length) :
    ∃ M, (deltaRCall limit sched init junk tol h self other pseudo threads).2 = .ok M ∧
      MatrixOf (fun i j r1 r2 x => ∃ p q a, (h self).data[i]? = some p ∧ (h other).data[j]? = some q ∧
        AzimuthDiff p q a ∧ DistanceIs r1 r2 a x) rap1 rap2 M := by
  obtain ⟨M, m1, m2, m3⟩ := deltaRCall_cells limit sched hs init junk tol h self other pseudo threads ht rap1 rap2 h1 h2
    hl1 hl2
  refine ⟨M, m1, m2, fun i r hr => ?_⟩
  obtain ⟨row, r1, r2, r3⟩ := m3 i r hr
  refine ⟨row, r1, r2, fun j c hc => ?_⟩
  obtain ⟨x, x1, p, q, x2, x3, rfl⟩ := r3 j c hc
  exact ⟨_, x1, p, q, _, x2, x3, azimuthDiff_arg p q, distanceIs_cell _ _ _ _⟩

/-- an object that has only been read shows the quantities of its records -/
theorem read_unwritten (tol : ℝ) (d : List P4) (reads : List COp) (hw : ∀ d', COp.write d' ∉ reads) (q : Qty) :
    ((runCache tol { data := d } reads).read tol q).2 = .ok (d.map (quantity tol q)) := by
  have := C85_follows tol d q [] reads (by simp) hw
  rw [List.nil_append] at this
  rw [this]
  congr 2
  clear this
  induction reads with
  | nil => rfl
  | cons op rest ih =>
    cases op with
    | read q' => exact ih (fun d' h => hw d' (by simp [h]))
    | write d' => exact absurd (by simp) (hw d')

theorem runCache_data (tol : ℝ) (d : List P4) (reads : List COp) (hw : ∀ d', COp.write d' ∉ reads) :
    (runCache tol { data := d } reads).data = d := by
  obtain ⟨fam, hinv⟩ : ∃ fam, CInv (runCache tol { data := d } []) fam := ⟨_, fresh_inv d⟩
  have hgen : ∀ (reads : List COp) (o : CacheObj) (fam : Option (List P4)), CInv o fam → (∀ d', COp.write d' ∉ reads) →
      (runCache tol o reads).data = o.data := by
    intro reads
    induction reads with
    | nil => intros; rfl
    | cons op rest ih =>
      intro o fam ho hw
      cases op with
      | write d' => exact absurd (by simp) (hw d')
      | read q =>
        have hr := read_spec ho tol q
        exact (ih _ _ hr.1 (fun d' h => hw d' (by simp [h]))).trans hr.2.1
  exact hgen reads _ _ (fresh_inv d) hw

/-- **C124** For arrays that have been read as much as one likes since they were made, but not written to: the matrix
has one row for each record of the one and one column for each record of the other, and entry `(i, j)` is the distance
of record `i` from record `j`; by their pseudorapidities, or with `pseudo=False` by their rapidities. -/
theorem C124_unwritten (limit : Int) (sched : List (List Write) → List Write) (hs : IsSchedule sched)
    (init : Nat × Nat → Fl) (junk : Nat → Nat → ℂ) (tol : ℝ) (h : CHeap) (self other : Nat) (pseudo : Bool)
    (threads : Int) (ht : 1 ≤ threads ∧ threads ≤ limit) (ps qs : List P4) (reads1 reads2 : List COp)
    (hw1 : ∀ d, COp.write d ∉ reads1) (hw2 : ∀ d, COp.write d ∉ reads2)
    (h1 : h self = runCache tol { data := ps } reads1) (h2 : h other = runCache tol { data := qs } reads2) :
    ∃ M, (deltaRCall limit sched init junk tol h self other pseudo threads).2 = .ok M ∧
      MatrixOf (fun _ _ p q x => ∃ a, AzimuthDiff p q a ∧
        (pseudo = true → DistanceIs p.eta q.eta a x) ∧
        (pseudo = false → DistanceIs (p.rapidity tol) (q.rapidity tol) a x)) ps qs M := by
  have hd1 : (h self).data = ps := by rw [h1]; exact runCache_data tol ps reads1 hw1
  have hd2 : (h other).data = qs := by rw [h2]; exact runCache_data tol qs reads2 hw2
  obtain ⟨M, m1, m2, m3⟩ := C124_matrix limit sched hs init junk tol h self other pseudo threads ht _ _
    (by rw [h1]; exact read_unwritten tol ps reads1 hw1 _) (by rw [h2]; exact read_unwritten tol qs reads2 hw2 _)
    (by rw [hd1]; simp) (by rw [hd2]; simp)
  refine ⟨M, m1, by simpa using m2, fun i p hp => ?_⟩
  obtain ⟨row, r1, r2, r3⟩ := m3 i (quantity tol (rapAttr pseudo) p) (by rw [List.getElem?_map, hp]; rfl)
  refine ⟨row, r1, by simpa using r2, fun j q hq => ?_⟩
  obtain ⟨x, x1, p', q', a, x2, x3, x4, x5⟩ := r3 j (quantity tol (rapAttr pseudo) q) (by rw [List.getElem?_map, hq]; rfl)
  rw [hd1, hp] at x2
  rw [hd2, hq] at x3
  cases x2; cases x3
  refine ⟨x, x1, a, x4, ?_, ?_⟩
  · rintro rfl; exact x5
  · rintro rfl; exact x5

/-- **C124** Exchanging the two arrays transposes the matrix, whatever has been stored in them, and for any two schedules
and numbers of threads. -/
theorem C124_transpose (limit : Int) (sched sched' : List (List Write) → List Write) (hs : IsSchedule sched)
    (hs' : IsSchedule sched') (init init' : Nat × Nat → Fl) (junk junk' : Nat → Nat → ℂ) (tol : ℝ) (h : CHeap)
    (self other : Nat) (pseudo : Bool) (threads threads' : Int) (ht : 1 ≤ threads ∧ threads ≤ limit)
    (ht' : 1 ≤ threads' ∧ threads' ≤ limit) (rap1 rap2 : List Fl)
    (h1 : ((h self).read tol (rapAttr pseudo)).2 = .ok rap1)
    (h2 : ((h other).read tol (rapAttr pseudo)).2 = .ok rap2)
    (hl1 : rap1.length ≤ (h self).data.length) (hl2 : rap2.length ≤ (h other).data.length) :
    ∃ M M', (deltaRCall limit sched init junk tol h self other pseudo threads).2 = .ok M ∧
      (deltaRCall limit sched' init' junk' tol h other self pseudo threads').2 = .ok M' ∧
      MatrixOf (fun i j _ _ x => ∃ row, M'[j]? = some row ∧ row[i]? = some x) rap1 rap2 M := by
  obtain ⟨M, m1, m2, m3⟩ := deltaRCall_cells limit sched hs init junk tol h self other pseudo threads ht rap1 rap2 h1 h2
    hl1 hl2
  obtain ⟨M', n1, n2, n3⟩ := deltaRCall_cells limit sched' hs' init' junk' tol h other self pseudo threads' ht' rap2 rap1
    h2 h1 hl2 hl1
  refine ⟨M, M', m1, n1, m2, fun i r hr => ?_⟩
  obtain ⟨row, r1, r2, r3⟩ := m3 i r hr
  refine ⟨row, r1, r2, fun j c hc => ?_⟩
  obtain ⟨x, x1, p, q, x2, x3, rfl⟩ := r3 j c hc
  obtain ⟨row', s1, s2, s3⟩ := n3 j c hc
  obtain ⟨y, y1, q', p', y2, y3, rfl⟩ := s3 i r hr
  rw [x3] at y2; cases y2
  rw [x2] at y3; cases y3
  exact ⟨_, x1, row', s1, by rw [y1, C65_symm]⟩

/-- **C124** The distances among the particles of one array, `p.delta_R(p)`: zero on the diagonal and symmetric,
whatever has been stored; and the triangle inequality for particles with transverse momentum and a (pseudo)rapidity
that is a number. -/
theorem C124_self (limit : Int) (sched : List (List Write) → List Write) (hs : IsSchedule sched)
    (init : Nat × Nat → Fl) (junk : Nat → Nat → ℂ) (tol : ℝ) (h : CHeap) (self : Nat) (pseudo : Bool)
    (threads : Int) (ht : 1 ≤ threads ∧ threads ≤ limit) (raps : List Fl)
    (h1 : ((h self).read tol (rapAttr pseudo)).2 = .ok raps) (hl : raps.length ≤ (h self).data.length) :
    ∃ (M : List (List Fl)) (d : Nat → Nat → Fl),
      (deltaRCall limit sched init junk tol h self self pseudo threads).2 = .ok M ∧
      MatrixOf (fun i j _ _ x => x = d i j) raps raps M ∧
      (∀ i, i < raps.length → d i i = .fin 0) ∧
      (∀ i j, i < raps.length → j < raps.length → d i j = d j i) ∧
      (∀ i j, i < raps.length → j < raps.length → d i j = .pinf ∨ ∃ x, d i j = .fin x ∧ 0 ≤ x) ∧
      ∀ i j k, i < raps.length → j < raps.length → k < raps.length →
        (∀ l ∈ [i, j, k], raps[l]? ≠ some .nan ∧ ∀ p, (h self).data[l]? = some p → p.x ≠ 0 ∨ p.y ≠ 0) →
        FlLe (d i k) (flAdd (d i j) (d j k)) := by
  obtain ⟨M, m1, m2, m3⟩ := deltaRCall_cells limit sched hs init junk tol h self self pseudo threads ht raps raps h1 h1
    hl hl
  set d : Nat → Nat → Fl := fun i j => deltaRCell (raps.getD i .nan) (raps.getD j .nan)
    (((h self).data.map P4.xyPol).getD i 0) (((h self).data.map P4.xyPol).getD j 0) with hd
  have hget : ∀ i, i < raps.length → ∃ p, (h self).data[i]? = some p ∧ ((h self).data.map P4.xyPol).getD i 0 = p.xyPol ∧
      raps[i]? = some (raps.getD i .nan) := by
    intro i hi
    have : i < (h self).data.length := by omega
    refine ⟨(h self).data[i], List.getElem?_eq_getElem this, ?_, ?_⟩
    · simp [List.getD_eq_getElem?_getD, List.getElem?_map, List.getElem?_eq_getElem this]
    · simp [List.getD_eq_getElem?_getD, List.getElem?_eq_getElem hi]
  refine ⟨M, d, m1, ⟨m2, fun i r hr => ?_⟩, fun i _ => C65_self _ _, fun i j _ _ => C65_symm _ _ _ _,
    fun i j _ _ => C65_nonneg _ _ _ _, ?_⟩
  · obtain ⟨row, r1, r2, r3⟩ := m3 i r hr
    refine ⟨row, r1, r2, fun j c hc => ?_⟩
    obtain ⟨x, x1, p, q, x2, x3, rfl⟩ := r3 j c hc
    refine ⟨_, x1, ?_⟩
    simp [hd, List.getD_eq_getElem?_getD, List.getElem?_map, hr, hc, x2, x3]
  · intro i j k hi hj hk hall
    have hne : ∀ l, l < raps.length → l ∈ [i, j, k] →
        ((h self).data.map P4.xyPol).getD l 0 ≠ 0 ∧ raps.getD l .nan ≠ .nan := by
      intro l hl' hm
      obtain ⟨p, p1, p2, p3⟩ := hget l hl'
      obtain ⟨q1, q2⟩ := hall l hm
      refine ⟨?_, fun e => q1 (by rw [p3, e])⟩
      rw [p2]
      intro e
      have hx : p.x = 0 := congrArg Complex.re e
      have hy : p.y = 0 := congrArg Complex.im e
      rcases q2 p p1 with h | h
      · exact h hx
      · exact h hy
    obtain ⟨a1, a2⟩ := hne i hi (by simp)
    obtain ⟨b1, b2⟩ := hne j hj (by simp)
    obtain ⟨c1, c2⟩ := hne k hk (by simp)
    exact C65_triangle _ _ _ _ _ _ a1 b1 c1 a2 b2 c2

/-- **C124** What the call leaves behind, whatever its outcome: no record changes, no object other than the two changes
at all, and these are as they were or as reading the attribute leaves them. -/
theorem C124_frame (limit : Int) (sched : List (List Write) → List Write) (init : Nat × Nat → Fl)
    (junk : Nat → Nat → ℂ) (tol : ℝ) (h : CHeap) (self other : Nat) (pseudo : Bool) (threads : Int) :
    let h' := (deltaRCall limit sched init junk tol h self other pseudo threads).1
    (∀ o, (h' o).data = (h o).data) ∧ (∀ o, o ≠ self → o ≠ other → h' o = h o) ∧
    (∀ o, h' o = h o ∨ h' o = ((h o).read tol (rapAttr pseudo)).1) := by
  intro h'
  have hcases : (∀ o, h' o = h o ∨ h' o = ((h o).read tol (rapAttr pseudo)).1) ∧
      ∀ o, o ≠ self → o ≠ other → h' o = h o := by
    simp only [h']
    unfold deltaRCall
    simp only [getRapidity_eq]
    rcases he : ((h self).read tol (rapAttr pseudo)).2 with e | rap1
    · simp only [CHeap.put]
      refine ⟨fun o => ?_, fun o ho _ => if_neg ho⟩
      split
      · next e => subst e; exact Or.inr rfl
      · exact Or.inl rfl
    · have hput : ∀ o, (((h.put self ((h self).read tol (rapAttr pseudo)).1).put other
          (((h.put self ((h self).read tol (rapAttr pseudo)).1) other).read tol (rapAttr pseudo)).1) o = h o ∨
        ((h.put self ((h self).read tol (rapAttr pseudo)).1).put other
          (((h.put self ((h self).read tol (rapAttr pseudo)).1) other).read tol (rapAttr pseudo)).1) o =
            ((h o).read tol (rapAttr pseudo)).1) := by
        intro o
        simp only [CHeap.put]
        by_cases ho : o = other
        · subst ho
          rw [if_pos rfl]
          right
          by_cases hs : o = self
          · subst hs
            rw [if_pos rfl, read_idem tol (h o) pseudo rap1 he]
          · rw [if_neg hs]
        · rw [if_neg ho]
          split
          · next e => subst e; exact Or.inr rfl
          · exact Or.inl rfl
      have hother : ∀ o, o ≠ self → o ≠ other → ((h.put self ((h self).read tol (rapAttr pseudo)).1).put other
          (((h.put self ((h self).read tol (rapAttr pseudo)).1) other).read tol (rapAttr pseudo)).1) o = h o := by
        intro o h1 h2
        simp only [CHeap.put, if_neg h1, if_neg h2]
      simp only
      rcases he2 : (((h.put self ((h self).read tol (rapAttr pseudo)).1) other).read tol (rapAttr pseudo)).2 with e | rap2
      · exact ⟨hput, hother⟩
      · rcases setNumThreads limit threads with e | t
        · exact ⟨hput, hother⟩
        · exact ⟨hput, hother⟩
  refine ⟨fun o => ?_, hcases.2, hcases.1⟩
  rcases hcases.1 o with e | e
  · rw [e]
  · rw [e]; exact read_data _ _ _

/-- **C124** Errors: that of reading the attribute of the first array, else of the second, else `ValueError` for a number
of threads that is not admissible - only then the (pseudo)rapidities have been stored in both. -/
theorem C124_errors (limit : Int) (sched : List (List Write) → List Write) (init : Nat × Nat → Fl)
    (junk : Nat → Nat → ℂ) (tol : ℝ) (h : CHeap) (self other : Nat) (pseudo : Bool) (threads : Int) :
    (∀ e, ((h self).read tol (rapAttr pseudo)).2 = .error e →
      (deltaRCall limit sched init junk tol h self other pseudo threads).2 = .error e) ∧
    (∀ e r, ((h self).read tol (rapAttr pseudo)).2 = .ok r → ((h other).read tol (rapAttr pseudo)).2 = .error e →
      (deltaRCall limit sched init junk tol h self other pseudo threads).2 = .error e) ∧
    (∀ r1 r2, ((h self).read tol (rapAttr pseudo)).2 = .ok r1 → ((h other).read tol (rapAttr pseudo)).2 = .ok r2 →
      ¬ (1 ≤ threads ∧ threads ≤ limit) →
      (deltaRCall limit sched init junk tol h self other pseudo threads).2 = .error .valueError ∧
      ∀ o, o = self ∨ o = other → (deltaRCall limit sched init junk tol h self other pseudo threads).1 o =
        ((h o).read tol (rapAttr pseudo)).1) := by
  refine ⟨?_, ?_, ?_⟩
  · intro e he
    unfold deltaRCall
    simp only [getRapidity_eq, he]
  · intro e r hr he
    have hso : ¬ other = self := by
      rintro rfl
      rw [hr] at he; cases he
    unfold deltaRCall
    simp only [getRapidity_eq, hr, CHeap.put, if_neg hso, he]
  · intro r1 r2 hr1 hr2 ht
    have hth : setNumThreads limit threads = .error .valueError := if_neg ht
    by_cases hso : other = self
    · subst hso
      unfold deltaRCall
      simp only [getRapidity_eq, hr1, CHeap.put, if_true, read_idem tol (h other) pseudo r1 hr1, hth]
      refine ⟨trivial, ?_⟩
      rintro o (rfl | rfl) <;> simp
    · unfold deltaRCall
      simp only [getRapidity_eq, hr1, CHeap.put, if_neg hso, hr2, hth]
      refine ⟨trivial, ?_⟩
      rintro o (rfl | rfl)
      · rw [if_neg (fun e => hso e.symm)]; simp
      · simp

/-- **C124** The expectation that an array is at distance zero from its copy is refuted: read `eta`, change the
longitudinal momentum in place, and `p.delta_R(p.copy())` is not zero, while `p.delta_R(p)` is. -/
theorem C124_copy_false (limit : Int) (hlim : 1 ≤ limit) (sched : List (List Write) → List Write) (hs : IsSchedule sched)
    (init : Nat × Nat → Fl) (junk : Nat → Nat → ℂ) (tol : ℝ) :
    ∃ h : CHeap, (h 0 = runCache tol { data := [⟨1, 0, 0, 2⟩] } [.read .eta, .write [⟨1, 0, 3 / 4, 2⟩]]) ∧
      h 1 = (h 0).copy ∧ (deltaRCall limit sched init junk tol h 0 0 true 1).2 = .ok [[.fin 0]] ∧
      ∃ x, (deltaRCall limit sched init junk tol h 0 1 true 1).2 = .ok [[x]] ∧ x ≠ .fin 0 := by
  set o := runCache tol { data := [⟨1, 0, 0, 2⟩] } [.read .eta, .write [⟨1, 0, 3 / 4, 2⟩]] with ho
  have hdat : o.data = [⟨1, 0, 3 / 4, 2⟩] := rfl
  have hold : (o.read tol .eta).2 = .ok [P4.eta ⟨1, 0, 0, 2⟩] := by
    have := C85_later_read tol [⟨1, 0, 0, 2⟩] [] [.write [⟨1, 0, 3 / 4, 2⟩]] .eta [P4.eta ⟨1, 0, 0, 2⟩]
      (read_unwritten tol [⟨1, 0, 0, 2⟩] [] (by simp) .eta)
    exact this
  have hnew : (o.copy.read tol .eta).2 = .ok [P4.eta ⟨1, 0, 3 / 4, 2⟩] := by
    have := (C85_copy tol o .eta).1
    rw [hdat] at this
    exact this
  refine ⟨fun i => if i = 0 then o else o.copy, rfl, rfl, ?_, ?_⟩
  · obtain ⟨M, d, m1, ⟨m2, m3⟩, m4, -⟩ := C124_self limit sched hs init junk tol (fun i => if i = 0 then o else o.copy) 0
      true 1 ⟨le_refl _, hlim⟩ _ hold (by rw [if_pos rfl, hdat]; simp)
    obtain ⟨row, r1, r2, r3⟩ := m3 0 _ rfl
    obtain ⟨x, x1, rfl⟩ := r3 0 _ rfl
    rw [m4 0 (by simp)] at x1
    rw [m1]
    congr 1
    match M, row, m2, r1, r2, x1 with
    | [a], [b], _, r1, _, x1 =>
      simp only [List.getElem?_cons_zero, Option.some.injEq] at r1 x1
      rw [r1, x1]
  · obtain ⟨M, m1, m2, m3⟩ := deltaRCall_cells limit sched hs init junk tol (fun i => if i = 0 then o else o.copy) 0 1
      true 1 ⟨le_refl _, hlim⟩ _ _ hold hnew (by rw [if_pos rfl, hdat]; simp) (by
        change _ ≤ o.copy.data.length
        change _ ≤ o.data.length
        rw [hdat]; simp)
    obtain ⟨row, r1, r2, r3⟩ := m3 0 _ rfl
    obtain ⟨x, x1, p, q, x2, x3, x4⟩ := r3 0 _ rfl
    refine ⟨x, ?_, ?_⟩
    · rw [m1]
      congr 1
      match M, row, m2, r1, r2, x1 with
      | [a], [b], _, r1, _, x1 =>
        simp only [List.getElem?_cons_zero, Option.some.injEq] at r1 x1
        rw [r1, x1]
    · have hpt : ∀ z : ℝ, 0 < P4.pt ⟨1, 0, z, 2⟩ := fun z => by rw [pt_eq]; exact sqrt_pos.2 (by norm_num)
      obtain ⟨y1, e1, f1, -⟩ := (C89_eta ⟨1, 0, 0, 2⟩).1 (hpt 0)
      obtain ⟨y2, e2, f2, -⟩ := (C89_eta ⟨1, 0, 3 / 4, 2⟩).1 (hpt _)
      have g1 : y1 = 0 := by
        have : sinh y1 = 0 := by
          rcases mul_eq_zero.1 f1.symm with h | h
          · exact absurd h (hpt 0).ne'
          · exact h
        exact sinh_eq_zero.1 this
      have g2 : y2 ≠ 0 := by
        rintro rfl
        rw [sinh_zero, mul_zero] at f2
        norm_num at f2
      obtain ⟨a, ha, -⟩ := C65_value y1 y2 p.xyPol q.xyPol
      rw [x4, e1, e2, ha, g1]
      intro hc
      have hc : sqrt ((0 - y2) ^ 2 + a ^ 2) = 0 := by simpa using hc
      have : 0 < (0 - y2) ^ 2 + a ^ 2 := by
        have : 0 < (0 - y2) ^ 2 := by rw [zero_sub, neg_sq]; positivity
        positivity
      exact absurd hc (sqrt_pos.2 this).ne'

/-- **C124** With fewer records than stored (pseudo)rapidities the kernels read past the end of the records: what happens
to be in memory there decides the distances. -/
theorem C124_overrun_false (limit : Int) (hlim : 1 ≤ limit) (sched : List (List Write) → List Write) (hs : IsSchedule sched)
    (init : Nat × Nat → Fl) (tol : ℝ) :
    ∃ (h : CHeap) (junk junk' : Nat → Nat → ℂ) (M M' : List (List Fl)),
      h 0 = runCache tol { data := [⟨1, 0, 0, 2⟩, ⟨1, 0, 0, 2⟩] } [.read .eta, .write [⟨1, 0, 0, 2⟩]] ∧
      (deltaRCall limit sched init junk tol h 0 0 true 1).2 = .ok M ∧
      (deltaRCall limit sched init junk' tol h 0 0 true 1).2 = .ok M' ∧ M ≠ M' := by
  set o := runCache tol { data := [⟨1, 0, 0, 2⟩, ⟨1, 0, 0, 2⟩] } [.read .eta, .write [⟨1, 0, 0, 2⟩]] with ho
  have hdat : o.data = [⟨1, 0, 0, 2⟩] := rfl
  have hold : (o.read tol .eta).2 = .ok [P4.eta ⟨1, 0, 0, 2⟩, P4.eta ⟨1, 0, 0, 2⟩] :=
    C85_later_read tol [⟨1, 0, 0, 2⟩, ⟨1, 0, 0, 2⟩] [] [.write [⟨1, 0, 0, 2⟩]] .eta _
      (read_unwritten tol [⟨1, 0, 0, 2⟩, ⟨1, 0, 0, 2⟩] [] (by simp) .eta)
  have hth : setNumThreads limit 1 = .ok 1 := if_pos ⟨le_refl _, hlim⟩
  have hcall : ∀ junk : Nat → Nat → ℂ, ∃ M row, (deltaRCall limit sched init junk tol (fun _ => o) 0 0 true 1).2 = .ok M ∧
      M[0]? = some row ∧ row[1]? = some (.fin |(P4.xyPol ⟨1, 0, 0, 2⟩ * (starRingEnd ℂ) (junk 0 1)).arg|) := by
    intro junk
    have hid := read_idem tol o true _ hold
    let mem := runWrites init (sched (deltaRLoop true
      (cloudWith (junk 0) [P4.eta ⟨1, 0, 0, 2⟩, P4.eta ⟨1, 0, 0, 2⟩] o.data)
      (cloudWith (junk 0) [P4.eta ⟨1, 0, 0, 2⟩, P4.eta ⟨1, 0, 0, 2⟩] o.data)))
    refine ⟨(List.range 2).map (rowOf mem 2), rowOf mem 2 0, ?_, rfl, ?_⟩
    · unfold deltaRCall
      change (o.read tol (rapAttr true)).2 = _ at hold
      simp only [getRapidity_eq, hold, CHeap.put, if_true, hid, hth]
      rw [read_data]
      rfl
    · simp only [rowOf, List.getElem?_map, List.getElem?_range (show 1 < 2 by omega), Option.map_some, mem]
      rw [(C66_schedule true _ _ (fun _ => rfl) _ (hs _) init).2.2.1 0 1
        (P4.eta ⟨1, 0, 0, 2⟩, P4.xyPol ⟨1, 0, 0, 2⟩) (P4.eta ⟨1, 0, 0, 2⟩, junk 0 1) (by rw [hdat]; rfl) (by rw [hdat]; rfl)]
      obtain ⟨y, e, -⟩ := (C89_eta ⟨1, 0, 0, 2⟩).1 (by rw [pt_eq]; exact sqrt_pos.2 (by norm_num))
      rw [e]
      simp [deltaRCell, Fl.sub, hypotFl, sqrt_sq_eq_abs]
  obtain ⟨M, row, m1, m2, m3⟩ := hcall (fun _ _ => 1)
  obtain ⟨M', row', n1, n2, n3⟩ := hcall (fun _ _ => -1)
  refine ⟨fun _ => o, fun _ _ => 1, fun _ _ => -1, M, M', rfl, m1, n1, ?_⟩
  rintro rfl
  rw [m2] at n2
  cases n2
  rw [m3] at n3
  have hx : P4.xyPol ⟨1, 0, 0, 2⟩ = 1 := rfl
  rw [hx] at n3
  simp at n3
  exact absurd n3 (by positivity)

section Example
/-- A schedule: one iteration after the other. -/
example : IsSchedule (fun its => its.flatten) := by
  intro its
  induction its with
  | nil => exact .done _ (by simp)
  | cons t ts ih =>
    have hadd : ∀ (t : List Write) (pre : List (List Write)) (tr : List Write), Interleave ([] :: pre) tr →
        Interleave (t :: pre) (t ++ tr) := by
      intro t
      induction t with
      | nil => intro pre tr h; exact h
      | cons w t iht => intro pre tr h; exact .step [] pre w t _ (iht pre tr h)
    have hnil : ∀ (its : List (List Write)) (tr : List Write), Interleave its tr → Interleave ([] :: its) tr := by
      intro its tr h
      induction h with
      | done its h => exact .done _ (by simpa using h)
      | step pre post w t tr _ ih => exact .step ([] :: pre) post w t tr ih
    exact hadd t ts _ (hnil _ _ ih)
-- two particles, one along the beam: reading `eta` succeeds, with one entry per record
example : ((CacheObj.mk [⟨3, 4, 0, 6⟩, ⟨0, 0, 1, 1⟩] none none none none none none none none).read 0 (rapAttr true)).2 =
    .ok [P4.eta ⟨3, 4, 0, 6⟩, P4.eta ⟨0, 0, 1, 1⟩] := read_unwritten 0 [⟨3, 4, 0, 6⟩, ⟨0, 0, 1, 1⟩] [] (by simp) .eta
-- a quarter turn
example : AzimuthDiff ⟨0, 2, 5, 7⟩ ⟨3, 0, 1, 9⟩ (π / 2) := by
  refine ⟨by linarith [pi_pos], by linarith [pi_pos], by simp, ?_, by simp⟩
  rw [sin_pi_div_two, show ((0:ℝ) ^ 2 + 2 ^ 2) = 2 ^ 2 by norm_num, show ((3:ℝ) ^ 2 + 0 ^ 2) = 3 ^ 2 by norm_num,
    sqrt_sq (by norm_num), sqrt_sq (by norm_num)]
  norm_num
end Example

end Gcl
