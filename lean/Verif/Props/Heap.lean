import Verif.Lemmas.HeapDrop
import Verif.Props.MaskB
/-!
# Properties C13 and C14: copies and in-place updates

Masks are objects in a heap (`Model/Heap.lean`); `ShowsMask h a m` (`Spec/Heap.lean`) says that a user who reads
the object at `a` sees the masks `m`.
-/
namespace Gcl
set_option autoImplicit false
open Spec

/-- C13, the copy: `a.copy()` shows what `a` shows, is a new object, and no existing object is changed. -/
theorem C13_same (h : MHeap) (a : Nat) (m : Mask) (hs : ShowsMask h a m) :
    ∃ N, ∀ fuel, N ≤ fuel → ∃ h1 b, copyObj fuel h a = .ok (h1, b) ∧ h.length ≤ b ∧ ShowsMask h1 b m ∧
      ShowsMask h1 a m ∧ ∀ x, x < h.length → h1[x]? = h[x]? := by
  obtain ⟨N, hN⟩ := copyObj_shows hs
  refine ⟨N, fun fuel hf => ?_⟩
  obtain ⟨h1, b, c1, c2⟩ := hN fuel hf h (List.prefix_refl h)
  obtain ⟨e, e2, -⟩ := copyObj_extends fuel h a h1 b c1
  refine ⟨h1, b, c1, e2, c2, showsMask_prefix e.pre hs, fun x hx => ?_⟩
  rw [List.getElem?_eq_getElem hx]
  exact getElem?_prefix e.pre (List.getElem?_eq_getElem hx)

/-- No dangling references, and nothing is below variables of both users. -/
structure Apart (s : HState) : Prop where
  closed : Closed s.heap
  bound : ∀ t, ∀ r ∈ s.vars t, r < s.heap.length
  apart : ∀ r ∈ s.vars false, ∀ q ∈ s.vars true, ∀ x, Reaches s.heap r x → Reaches s.heap q x → False

theorem Apart.symm {s : HState} (hs : Apart s) (t : Bool) :
    ∀ r ∈ s.vars t, ∀ q ∈ s.vars (!t), ∀ x, Reaches s.heap r x → Reaches s.heap q x → False := by
  cases t with
  | false => exact hs.apart
  | true => exact fun r hr q hq x h1 h2 => hs.apart q hq r hr x h2 h1

theorem apart_of_symm {s : HState} (t : Bool) (hc : Closed s.heap)
    (hb : ∀ t, ∀ r ∈ s.vars t, r < s.heap.length)
    (hs : ∀ r ∈ s.vars t, ∀ q ∈ s.vars (!t), ∀ x, Reaches s.heap r x → Reaches s.heap q x → False) : Apart s := by
  refine ⟨hc, hb, ?_⟩
  cases t with
  | false => exact hs
  | true => exact fun r hr q hq x h1 h2 => hs q hq r hr x h2 h1

/-- A step of one user keeps the two apart and changes nothing below the other's variables. -/
theorem apart_step {s : HState} (hs : Apart s) (t : Bool) (st : HStep) :
    Apart (st.run s t) ∧ (st.run s t).vars (!t) = s.vars (!t) ∧
      ∀ q ∈ s.vars (!t), ∀ x, Reaches s.heap q x → (st.run s t).heap[x]? = s.heap[x]? := by
  cases st with
  | take i path =>
    simp only [HStep.run]
    split
    · next r hr =>
      split
      · next x hx =>
        have hrx := navigate_reaches _ _ _ _ hx
        have hrm := List.mem_of_getElem? hr
        refine ⟨apart_of_symm t hs.closed ?_ ?_, by simp, fun _ _ _ _ => rfl⟩
        · intro t' r' hr'
          dsimp only at hr' ⊢
          split at hr'
          · rcases List.mem_append.1 hr' with h1 | h1
            · exact hs.bound _ _ h1
            · rw [List.mem_singleton.1 h1]
              exact closed_reaches hs.closed (hs.bound t r hrm) hrx
          · exact hs.bound _ _ hr'
        · intro r' hr' q hq y h1 h2
          simp only [if_true] at hr'
          simp only [Bool.not_eq_eq_eq_not, Bool.eq_not_self, if_false] at hq
          rcases List.mem_append.1 hr' with h3 | h3
          · exact hs.symm t r' h3 q hq y h1 h2
          · rw [List.mem_singleton.1 h3] at h1
            exact hs.symm t r hrm q hq y (hrx.trans h1) h2
      · exact ⟨hs, rfl, fun _ _ _ _ => rfl⟩
    · exact ⟨hs, rfl, fun _ _ _ _ => rfl⟩
  | update i j op =>
    simp only [HStep.run]
    split
    · next r q hr hq =>
      have hrm := List.mem_of_getElem? hr
      have hqm := List.mem_of_getElem? hq
      have hreg : Region (fun x => (∃ r ∈ s.vars t, Reaches s.heap r x) ∨ s.heap.length ≤ x) s.heap := by
        refine ⟨fun x o hx ho y hy => ?_, hs.closed⟩
        rcases hx with ⟨r', h1, h2⟩ | hx
        · exact Or.inl ⟨r', h1, h2.step ho hy⟩
        · have := (List.getElem?_eq_some_iff.1 ho).1
          omega
      have hst := run_stays hreg (fun x hx => Or.inr hx) (Or.inl ⟨r, hrm, .here⟩) (hs.bound t r hrm)
        (Or.inl ⟨q, hqm, .here⟩) (hs.bound t q hqm) op
      have hother : ∀ q' ∈ s.vars (!t), ∀ x, Reaches s.heap q' x →
          ¬ ((∃ r ∈ s.vars t, Reaches s.heap r x) ∨ s.heap.length ≤ x) := by
        rintro q' hq' x hx (⟨r', h1, h2⟩ | hl)
        · exact hs.symm t r' h1 q' hq' x h2 hx
        · have := closed_reaches hs.closed (hs.bound _ q' hq') hx
          omega
      have hsame : ∀ q' ∈ s.vars (!t), ∀ x, Reaches s.heap q' x → (op.run s.heap r q)[x]? = s.heap[x]? :=
        fun q' hq' x hx => hst.same x (hother q' hq' x hx)
      refine ⟨apart_of_symm t hst.region.closed ?_ ?_, rfl, hsame⟩
      · intro t' r' hr'
        exact Nat.lt_of_lt_of_le (hs.bound t' r' hr') hst.len
      · intro r' hr' q' hq' x h1 h2
        have h3 := hst.region.reaches (Or.inl ⟨r', hr', .here⟩) h1
        exact hother q' hq' x ((reaches_congr (hsame q' hq') x).1 h2) h3
    · exact ⟨hs, rfl, fun _ _ _ _ => rfl⟩

theorem apart_history {s : HState} (hs : Apart s) (hist : List (Bool × HStep)) : Apart (runHistory s hist) := by
  induction hist generalizing s with
  | nil => exact hs
  | cons e hist ih => exact ih (apart_step hs e.1 e.2).1

theorem copy_apart {h : MHeap} (hc : Closed h) {fuel a : Nat} {h1 : MHeap} {b : Nat}
    (hcp : copyObj fuel h a = .ok (h1, b)) : Apart ⟨h1, fun t => if t then [b] else [a]⟩ := by
  obtain ⟨e, e2, e3⟩ := copyObj_extends fuel h a h1 b hcp
  have ha := copyObj_lt fuel h a (h1, b) hcp
  have hl := e.pre.length_le
  refine ⟨e.closed hc, ?_, ?_⟩
  · intro t r hr
    cases t <;> simp at hr <;> subst hr <;> dsimp only <;> omega
  · intro r hr q hq x hx1 hx2
    simp only [Bool.false_eq_true, if_false, if_true, List.mem_singleton] at hr hq hx1 hx2
    subst hr; subst hq
    have k1 : x < h.length := by
      have hreg : ∀ y, Reaches h r y → h1[y]? = h[y]? := by
        intro y hy
        have := closed_reaches hc ha hy
        rw [List.getElem?_eq_getElem this]
        exact getElem?_prefix e.pre (List.getElem?_eq_getElem this)
      exact closed_reaches hc ha ((reaches_congr hreg x).1 hx1)
    have k2 : h.length ≤ x := by
      clear hx1 k1
      induction hx2 with
      | here => exact e2
      | step _ g1 g2 ih => exact (e.fresh _ _ ih g1 _ g2).1
    omega

/-- C13, isolation: after `b = a.copy()`, one user works with `a` and everything reached from it, another with
`b` and everything reached from it.  After any history of steps of the two, no further step of one user changes
what any variable of the other shows. -/
theorem C13_isolated (h : MHeap) (hc : Closed h) (fuel a : Nat) (h1 : MHeap) (b : Nat)
    (hcp : copyObj fuel h a = .ok (h1, b)) (hist : List (Bool × HStep)) (side : Bool) (st : HStep) :
    let s := runHistory ⟨h1, fun t => if t then [b] else [a]⟩ hist
    (st.run s side).vars (!side) = s.vars (!side) ∧
    ∀ q ∈ s.vars (!side), ∀ m, ShowsMask (st.run s side).heap q m ↔ ShowsMask s.heap q m := by
  intro s
  obtain ⟨-, h2, h3⟩ := apart_step (apart_history (copy_apart hc hcp) hist) side st
  exact ⟨h2, fun q hq m => showsMask_congr_iff m (h3 q hq)⟩

/-- C13, the whole effect: if only one side has been used, the other side's object shows what it showed when the
copy was made. -/
theorem C13_one_sided (h : MHeap) (hc : Closed h) (fuel a : Nat) (h1 : MHeap) (b : Nat)
    (hcp : copyObj fuel h a = .ok (h1, b)) (side : Bool) (sts : List HStep) (m : Mask) :
    ShowsMask (runHistory ⟨h1, fun t => if t then [b] else [a]⟩ (sts.map (fun st => (side, st)))).heap
      (if side then a else b) m ↔ ShowsMask h1 (if side then a else b) m := by
  have key : ∀ (sts : List HStep) (s : HState), Apart s → ∀ q ∈ s.vars (!side),
      (ShowsMask (runHistory s (sts.map (fun st => (side, st)))).heap q m ↔ ShowsMask s.heap q m) := by
    intro sts
    induction sts with
    | nil => intro s _ q _; exact Iff.rfl
    | cons st sts ih =>
      intro s hs q hq
      obtain ⟨k1, k2, k3⟩ := apart_step hs side st
      rw [List.map_cons, runHistory, ih _ k1 q (by rw [k2]; exact hq)]
      exact showsMask_congr_iff m (k3 q hq)
  refine key sts _ (copy_apart hc hcp) _ ?_
  cases side <;> simp

/-! ## C14 -/

/-- C14, not in place: whatever happens (any object graph, also a cyclic one running into `RecursionError`),
`recursive_drop(key)` changes no object that existed before. -/
theorem C14_original_untouched (h : MHeap) (hc : Closed h) (fuel : Nat) (key : String) (a : Nat) :
    ∀ x, x < h.length → (recursiveDropH fuel key false h a).1[x]? = h[x]? := by
  intro x hx
  simp only [recursiveDropH, Bool.false_eq_true, if_false]
  split
  · rfl
  · next h1 b hcp =>
    obtain ⟨e, e2, e3⟩ := copyObj_extends fuel h a h1 b hcp
    have hreg : Region (fun y => h.length ≤ y) h1 :=
      ⟨fun y o hy ho z hz => (e.fresh y o hy ho z hz).1, e.closed hc⟩
    have hst := dropInPlace_stays fuel key h1 b hreg e2
    have h1x : h1[x]? = h[x]? := by
      rw [List.getElem?_eq_getElem hx]
      exact getElem?_prefix e.pre (List.getElem?_eq_getElem hx)
    have := hst.same x (by omega)
    rw [h1x] at this
    split
    · next h2 hd => rw [hd] at this; exact this
    · next h2 _ hd => rw [hd] at this; exact this

/-- C14, not in place: the result is a new object showing the group without `key` at any level, and the
original shows what it did. -/
theorem C14_copy (h : MHeap) (hc : Closed h) (key : String) (a : Nat) (op : Agg) (ks : List (String × Mask))
    (hs : ShowsMask h a (.grp op ks)) :
    ∃ N, ∀ fuel, N ≤ fuel → ∃ h2 b, recursiveDropH fuel key false h a = (h2, .ok b) ∧ h.length ≤ b ∧
      ShowsMask h2 b ((Mask.grp op ks).drop key) ∧ ShowsMask h2 a (.grp op ks) := by
  obtain ⟨N, hN⟩ := C13_same h a _ hs
  -- the copy is the same at every sufficient recursion depth
  obtain ⟨h1, b, c1, c2, c3, -, -⟩ := hN N (Nat.le_refl _)
  obtain ⟨N', hN'⟩ := dropInPlace_dropped key c3
  have hb : ∃ op es, h1[b]? = some (.group op es) := by
    cases c3 with
    | grp g1 _ _ => exact ⟨_, _, g1⟩
  refine ⟨max N N', fun fuel hf => ?_⟩
  have c1' : copyObj fuel h a = .ok (h1, b) := copyObj_mono N fuel (by omega) _ _ _ c1
  obtain ⟨h2, d1, d2⟩ := hN' fuel (by omega) hb _ h1 (DroppedOn.none key h1)
  refine ⟨h2, b, ?_, c2, dropped_shows d2 c3 (fun x hx => Or.inr hx), ?_⟩
  · simp only [recursiveDropH, Bool.false_eq_true, if_false, c1', d1]
  · have hu := C14_original_untouched h hc fuel key a
    have he : (recursiveDropH fuel key false h a).1 = h2 := by
      simp only [recursiveDropH, Bool.false_eq_true, if_false, c1', d1]
    rw [he] at hu
    have ha := copyObj_lt fuel h a (h1, b) c1'
    exact (showsMask_congr_iff _ (fun x hx => hu x (closed_reaches hc ha hx))).2 hs

/-- C14: a mask array has no `recursive_drop`: the call is an `AttributeError`, in place or not, and no object changes. -/
theorem C14_array (h : MHeap) (hc : Closed h) (fuel : Nat) (key : String) (inplace : Bool) (a : Nat) (d : List Bool)
    (ha : ShowsMask h a (.arr d)) :
    (recursiveDropH (fuel + 1) key inplace h a).2 = .error .attributeError ∧
    ∀ x, x < h.length → (recursiveDropH (fuel + 1) key inplace h a).1[x]? = h[x]? := by
  cases ha with
  | arr h1 h2 =>
    cases inplace with
    | true => simp [recursiveDropH, dropInPlace, h1]
    | false =>
      refine ⟨?_, C14_original_untouched h hc (fuel + 1) key a⟩
      simp [recursiveDropH, dropInPlace, copyObj, h1, h2]

/-- C14, in place: the group itself is returned and shows the masks without `key` at any level.  The group and
the groups nested in it (not below `key`) lose the entry `key`; every other object is unchanged, so arrays, and
groups outside, keep their contents. -/
theorem C14_inplace (h : MHeap) (key : String) (a : Nat) (op : Agg) (ks : List (String × Mask))
    (hs : ShowsMask h a (.grp op ks)) :
    ∃ N, ∀ fuel, N ≤ fuel → ∃ h', recursiveDropH fuel key true h a = (h', .ok a) ∧
      ShowsMask h' a ((Mask.grp op ks).drop key) ∧
      (∀ x, NestedGroup h key a x → h'[x]? = (h[x]?).map (HObj.without key)) ∧
      (∀ x, ¬ NestedGroup h key a x → h'[x]? = h[x]?) := by
  obtain ⟨N, hN⟩ := dropInPlace_dropped key hs
  have hb : ∃ op es, h[a]? = some (.group op es) := by
    cases hs with
    | grp g1 _ _ => exact ⟨_, _, g1⟩
  refine ⟨N, fun fuel hf => ?_⟩
  obtain ⟨h2, d1, d2⟩ := hN fuel hf hb _ h (DroppedOn.none key h)
  refine ⟨h2, by simp only [recursiveDropH, if_true, d1], dropped_shows d2 hs (fun x hx => Or.inr hx), ?_, ?_⟩
  · exact fun x hx => d2.on x (Or.inr hx)
  · exact fun x hx => d2.off x (by simpa using hx)

/-! ## Concrete cases -/

/-- A group with a leaf used twice (`"x"` and `"g"/"latent"`) and a nested group `"g"`. -/
def exHeap : MHeap :=
  [.buf [true, false], .mask 0, .group .and [("latent", 1), ("y", 1)], .group .or [("x", 1), ("g", 2), ("latent", 2)]]

def exShown : Mask :=
  .grp .or [("x", .arr [true, false]), ("g", .grp .and [("latent", .arr [true, false]), ("y", .arr [true, false])]),
    ("latent", .grp .and [("latent", .arr [true, false]), ("y", .arr [true, false])])]

example : Closed exHeap := by
  intro x o ho y hy
  have hx : x < 4 := (List.getElem?_eq_some_iff.1 ho).1
  have : x = 0 ∨ x = 1 ∨ x = 2 ∨ x = 3 := by omega
  rcases this with rfl | rfl | rfl | rfl <;>
    simp only [exHeap, List.getElem?_cons_zero, List.getElem?_cons_succ, Option.some.injEq] at ho <;>
    subst ho <;> simp [refs] at hy <;> simp [exHeap] <;> omega

theorem exHeap_shows : ShowsMask exHeap 3 exShown := by
  have l : ShowsMask exHeap 1 (.arr [true, false]) := .arr (b := 0) rfl rfl
  have g : ShowsMask exHeap 2 (.grp .and [("latent", .arr [true, false]), ("y", .arr [true, false])]) := by
    refine .grp (es := [("latent", 1), ("y", 1)]) rfl rfl ?_
    refine ((corresponds_iff _ _ _).2 ?_).2
    exact .cons ⟨rfl, l⟩ (.cons ⟨rfl, l⟩ .nil)
  refine .grp (es := [("x", 1), ("g", 2), ("latent", 2)]) rfl rfl ?_
  refine ((corresponds_iff _ _ _).2 ?_).2
  exact .cons ⟨rfl, l⟩ (.cons ⟨rfl, g⟩ (.cons ⟨rfl, g⟩ .nil))

/-- The copy exists, and a write through the original's leaf changes the shared leaf of the original only. -/
example : ∃ h1, copyObj 5 exHeap 3 = .ok (h1, 16) ∧
    ((HOp.write ["x"] [false, true]).run h1 3 3)[0]? = some (.buf [false, true]) := by
  exact ⟨_, rfl, rfl⟩

/-- In place, the nested group is changed too, and through sharing also what `"latent"` pointed to. -/
example : (recursiveDropH 5 "latent" true exHeap 3).1 =
    [.buf [true, false], .mask 0, .group .and [("y", 1)], .group .or [("x", 1), ("g", 2)]] := by rfl

end Gcl
