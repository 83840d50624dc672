import Verif.Props.DeltaR
import Verif.Props.Composite
import Verif.Model.PdgProps
import Verif.Props.Cached
import Verif.Props.MaskC
/-!
# Quantities of a selection are the selected quantities
-/
namespace Gcl
set_option autoImplicit false
open Spec

/-- Subscripting commutes with any elementwise function. -/
theorem key_apply_map {α β : Type} (f : α → β) (k : Key) (a : List α) :
    k.apply (a.map f) = (k.apply a).map (List.map f) := by
  unfold Key.apply
  rw [List.length_map]
  cases k.resolve a.length with
  | error e => rfl
  | ok is =>
    show Except.ok _ = Except.ok _
    rw [map_gather]
    unfold gather
    simp only [List.getElem?_map]

theorem apply_error_iff {α β : Type} (k : Key) (a : List α) (b : List β) (h : a.length = b.length) (e : PyErr) :
    k.apply a = .error e ↔ k.apply b = .error e := by
  unfold Key.apply
  rw [h]
  cases k.resolve b.length <;> simp

theorem runCache_now (tol : ℝ) (d : List P4) (hist : List COp) :
    (runCache tol { data := d } hist).data = current d hist := by
  obtain ⟨fam', -, i2, -⟩ := history_inv tol hist { data := d } none (fresh_inv d)
  exact i2

theorem apply_all {α : Type} (a : List α) : (Key.slice none none none).apply a = .ok a := by
  have h : sliceIdxs a.length none none none = .ok (List.range a.length) := by
    simp only [sliceIdxs, Option.getD_none]
    rw [if_neg (by decide)]
    congr 1
    have hn : sliceLen (if (1 : Int) < 0 then (a.length : Int) - 1 else 0) (if (1 : Int) < 0 then -1 else (a.length : Int)) 1 =
        a.length := by
      simp only [sliceLen, show ¬ ((1 : Int) < 0) by decide, if_false]
      split_ifs <;> omega
    rw [hn]
    simp

  have hr : (Key.slice none none none).resolve a.length = .ok (List.range a.length) := h
  unfold Key.apply
  rw [hr]
  show Except.ok _ = Except.ok _
  congr 1
  apply List.ext_getElem?
  intro i
  rw [gather_getElem? _ _ (by simp)]
  by_cases hi : i < a.length <;> simp [hi]

/-- **C143** Every kinematic quantity of a selection of momenta is the same selection of the quantity, for every
subscript (which raises the same error on both), and after any history of reads and writes in which no write follows the
first read of that quantity (or of another one which shares its stored moduli). -/
theorem C143_quantity (tol : ℝ) (d : List P4) (q : Qty) (pre post : List COp)
    (hpre : ∀ q', COp.read q' ∈ pre → q' ≠ q ∧ ¬ (usesModulus q ∧ usesModulus q'))
    (hpost : ∀ d', COp.write d' ∉ post) (k : Key) :
    ∃ v, ((runCache tol { data := d } (pre ++ post)).read tol q).2 = .ok v ∧
      (∀ o', (runCache tol { data := d } (pre ++ post)).getitem k = .ok o' → (o'.read tol q).2 = k.apply v) ∧
      ∀ e, (runCache tol { data := d } (pre ++ post)).getitem k = .error e ↔ k.apply v = .error e := by
  refine ⟨_, C85_follows tol d q pre post hpre hpost, ?_, ?_⟩
  · intro o' ho
    obtain ⟨h1, h2⟩ := (C85_copy tol (runCache tol { data := d } (pre ++ post)) q).2 k o' ho
    rw [h2, key_apply_map]
    rw [runCache_now] at h1
    rw [h1]; rfl
  · intro e
    rw [key_apply_map, CacheObj.getitem, runCache_now]
    cases k.apply (current d (pre ++ post)) <;> simp [Except.map]

/-- **C143** The condition is needed: if a quantity has been read and different momenta were then written, the quantity
of the whole selection `pmu[:]` differs from the selected quantity. -/
theorem C143_quantity_false (tol : ℝ) (q : Qty) (d d' : List P4)
    (hne : d.map (quantity tol q) ≠ d'.map (quantity tol q)) :
    ∃ o' v, (runCache tol { data := d } [.read q, .write d']).getitem (.slice none none none) = .ok o' ∧
      ((runCache tol { data := d } [.read q, .write d']).read tol q).2 = .ok v ∧
      (o'.read tol q).2 ≠ (Key.slice none none none).apply v := by
  obtain ⟨h1, h2, h3⟩ := C85_false tol q d d' hne
  refine ⟨{ data := d' }, _, ?_, h2, ?_⟩
  · unfold CacheObj.getitem
    rw [h1, apply_all]
  · rw [apply_all]
    have := (C85_copy tol { data := d' } q).1
    rw [show CacheObj.copy { data := d' } = { data := d' } from rfl] at this
    rw [this]
    intro h
    exact hne (Except.ok.inj h).symm

/-- **C143** Selections by code: the mask of a selection of PDG codes is the selected mask, for every target,
`blacklist` and `sign_sensitive`; the same holds for ranges of status codes; and the looked-up properties. -/
theorem C143_codes (k : Key) (codes target : List Int) (blacklist sgn : Bool) (lo : Int) (hi : Option Int)
    (t : PdgTable) (tp : TextProp) (np : NumProp) (bp : BoundProp) :
    k.apply (pdgMask codes target blacklist sgn) = (k.apply codes).map (fun c => pdgMask c target blacklist sgn) ∧
    k.apply (inRange codes lo hi sgn) = (k.apply codes).map (fun c => inRange c lo hi sgn) ∧
    k.apply (pdgText t codes tp) = (k.apply codes).map (fun c => pdgText t c tp) ∧
    k.apply (pdgNum t codes np) = (k.apply codes).map (fun c => pdgNum t c np) ∧
    k.apply (pdgBounds t codes bp) = (k.apply codes).map (fun c => pdgBounds t c bp) := by
  have key : ∀ {β : Type} (F : List Int → List β), (∃ f : Int → β, ∀ l, F l = l.map f) →
      k.apply (F codes) = (k.apply codes).map F := by
    intro β F ⟨f, hF⟩
    rw [hF, key_apply_map]
    cases k.apply codes with
    | error e => rfl
    | ok c => show Except.ok _ = Except.ok _; rw [hF]
  refine ⟨?_, ?_, ?_, ?_, ?_⟩
  · refine key (fun c => pdgMask c target blacklist sgn)
      ⟨fun x => (target.contains (if sgn then x else absWrap 32 x)) != blacklist, fun l => ?_⟩
    cases sgn <;> simp [pdgMask, isin]
  · refine key (fun c => inRange c lo hi sgn) ⟨fun x => decide (lo ≤ if sgn then x else absWrap 16 x) &&
      (match hi with | none => true | some h => decide ((if sgn then x else absWrap 16 x) ≤ h)), fun l => ?_⟩
    cases sgn <;> cases hi <;> simp [inRange, List.zipWith_map, List.zipWith_self]
  · refine key (fun c => pdgText t c tp) ⟨fun c => (pdgText t [c] tp).headD none, fun l => ?_⟩
    cases tp <;> rfl
  · refine key (fun c => pdgNum t c np) ⟨fun c => (pdgNum t [c] np).headD none, fun l => ?_⟩
    cases np <;> simp [pdgNum, getNum]
  · refine key (fun c => pdgBounds t c bp) ⟨fun c => (pdgBounds t [c] bp).headD (none, none), fun l => ?_⟩
    cases bp <;> simp [pdgBounds, scaleRange, getRange]

/-- **C143** The hard-process masks of a selection of statuses are the selected masks, name by name. -/
theorem C143_hard (k : Key) (codes sel : List Int) (h : k.apply codes = .ok sel) :
    ∃ op ms ms', hardMask codes = .grp op ms ∧ hardMask sel = .grp op ms' ∧
      List.Forall₂ (fun a b => a.1 = b.1 ∧ ∃ x y, a.2 = .arr x ∧ b.2 = .arr y ∧ k.apply x = .ok y) ms ms' := by
  have key : ∀ c : Int, k.apply ((codes.map (absWrap 16)).map (fun x => x == c)) =
      .ok ((sel.map (absWrap 16)).map (fun x => x == c)) := by
    intro c
    rw [key_apply_map, key_apply_map, h]; rfl
  refine ⟨_, _, _, rfl, rfl, ?_⟩
  refine .cons ⟨rfl, _, _, rfl, rfl, key _⟩ (.cons ⟨rfl, _, _, rfl, rfl, key _⟩ (.cons ⟨rfl, _, _, rfl, rfl, key _⟩
    (.cons ⟨rfl, _, _, rfl, rfl, key _⟩ .nil)))

/-- **C143** The distances between selections are rows and columns of the matrix of distances: if `k` picks the positions
`is` of the first array and `l` the positions `js` of the second, then entry `(i, j)` of `a[k].delta_R(b[l])` is entry
`(is[i], js[j])` of `a.delta_R(b)`, whichever kernels are used and in whatever order the threads run. -/
theorem C143_distance (pseudo : Bool) (tol : ℝ) (k l : Key) (a b a' b' : List P4) (is js : List Nat)
    (hk : k.resolve a.length = .ok is) (hl : l.resolve b.length = .ok js)
    (ha : k.apply a = .ok a') (hb : l.apply b = .ok b')
    (same same' : Bool) (hs : same = true → b = a) (hs' : same' = true → b' = a') (tr tr' : List Write)
    (h : Interleave (deltaRLoop same (cloudOf pseudo tol a) (cloudOf pseudo tol b)) tr)
    (h' : Interleave (deltaRLoop same' (cloudOf pseudo tol a') (cloudOf pseudo tol b')) tr')
    (mem mem' : Nat × Nat → Fl) :
    a'.length = is.length ∧ b'.length = js.length ∧
    ∀ (i j x y : Nat), is[i]? = some x → js[j]? = some y →
      runWrites mem' tr' (i, j) = runWrites mem tr (x, y) := by
  have ea : a' = gather a is := by simpa [Key.apply, hk] using ha.symm
  have eb : b' = gather b js := by simpa [Key.apply, hl] using hb.symm
  have la := resolve_lt k _ _ hk
  have lb := resolve_lt l _ _ hl
  refine ⟨by rw [ea, gather_length _ _ la], by rw [eb, gather_length _ _ lb], ?_⟩
  intro i j x y hi hj
  have hx : x < a.length := la x (List.mem_of_getElem? hi)
  have hy : y < b.length := lb y (List.mem_of_getElem? hj)
  have hai : a'[i]? = some a[x] := by
    rw [ea, gather_getElem? _ _ la, hi]; simp [hx]
  have hbj : b'[j]? = some b[y] := by
    rw [eb, gather_getElem? _ _ lb, hj]; simp [hy]
  rw [(C66_schedule same' _ _ (fun h => by rw [hs' h]) tr' h' mem').2.2.1 i j _ _
      (by rw [cloudOf, List.getElem?_map, hai]; rfl) (by rw [cloudOf, List.getElem?_map, hbj]; rfl),
    (C66_schedule same _ _ (fun h => by rw [hs h]) tr h mem).2.2.1 x y _ _
      (by rw [cloudOf, List.getElem?_map, List.getElem?_eq_getElem hx]; rfl)
      (by rw [cloudOf, List.getElem?_map, List.getElem?_eq_getElem hy]; rfl)]

/-- **C143** Shifts of a selection are the selected shifts: by a number, and by an array subscripted alike. -/
theorem C143_shift (f : ℝ → P4 → P4) (k : Key) (ps qs : List P4) (h : k.apply ps = .ok qs) :
    (∀ s, ∃ out, applyShift f (.scalar s) ps = .ok out ∧ applyShift f (.scalar s) qs = k.apply out) ∧
    (∀ ss ss', ss.length = ps.length → k.apply ss = .ok ss' →
      ∃ out, applyShift f (.array ss) ps = .ok out ∧ applyShift f (.array ss') qs = k.apply out) := by
  constructor
  · intro s
    refine ⟨_, rfl, ?_⟩
    rw [key_apply_map, h]; rfl
  · intro ss ss' hl hs
    refine ⟨_, by simp [applyShift, hl]; rfl, ?_⟩
    unfold Key.apply at h hs ⊢
    rw [hl] at hs
    have : (List.zipWith f ss ps).length = ps.length := by simp [hl]
    rw [this]
    cases hr : k.resolve ps.length with
    | error e => rw [hr] at h; cases h
    | ok is =>
      rw [hr] at h hs
      simp only [Except.ok.injEq] at h hs
      have lb := resolve_lt k _ _ hr
      have e1 : ss'.length = qs.length := by
        rw [← h, ← hs, gather_length _ _ lb, gather_length _ _ (by rwa [hl])]
      simp only [applyShift, e1, if_true]
      rw [← h, ← hs, gather_zipWith _ _ _ hl]

example (d d' : List P4) : (∀ q', COp.read q' ∈ [COp.write d', .read .rapidity] →
    q' ≠ .pt ∧ ¬ (usesModulus .pt ∧ usesModulus q')) ∧ ∀ d'', COp.write d'' ∉ [COp.read .pt, .read .eta] := by
  constructor
  · intro q' h
    simp at h
    subst h
    simp [usesModulus]
  · simp
example : (Key.ints [-1, 0]).resolve 3 = .ok [2, 0] ∧ (Key.slice none none (some (-1))).resolve 2 = .ok [1, 0] := by
  decide
example (p q : P4) : (Key.mask [true, false]).apply [p, q] = .ok [p] ∧ [(1 : ℝ), 2].length = [p, q].length := ⟨rfl, rfl⟩

end Gcl
