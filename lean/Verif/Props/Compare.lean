import Verif.Spec.Compare
import Verif.Spec.Convert
import Verif.Props.Convert
import Verif.Props.Composite
/-! # C92, C93: `==` and `!=` on arrays, edge lists and events -/
namespace Gcl
set_option autoImplicit false
open Spec

/-! ## Helpers -/

theorem recEq_iff {α : Type} (beq : α → α → Bool) (r s : List α) :
    recEq beq r s = true ↔ SameRecord beq r s := by
  unfold recEq SameRecord
  simp only [Bool.and_eq_true, beq_iff_eq]
  refine and_congr_right fun hl => ?_
  induction r generalizing s with
  | nil => simp
  | cons a r ih =>
    cases s with
    | nil => simp at hl
    | cons b s =>
      have := ih s (by simpa using hl)
      simp only [List.zipWith_cons_cons, List.all_cons, id, Bool.and_eq_true, this]
      constructor
      · rintro ⟨h0, h⟩ j x y hx hy
        cases j with
        | zero => simp at hx hy; subst hx hy; exact h0
        | succ j => exact h j x y (by simpa using hx) (by simpa using hy)
      · intro h
        exact ⟨h 0 a b rfl rfl, fun j x y hx hy => h (j + 1) x y (by simpa using hx) (by simpa using hy)⟩

theorem bcastLen_ok {n q N : Nat} (h : Comparable n q N) : bcastLen n q = .ok N := by
  unfold bcastLen
  rcases h with ⟨h1, h2⟩ | ⟨h1, h2⟩ | ⟨h1, h2⟩ <;> subst h2 <;> grind

theorem bcastLen_err {n q : Nat} (h : ∀ N, ¬ Comparable n q N) : bcastLen n q = .error .valueError := by
  unfold bcastLen
  split
  · next e => exact absurd (Or.inl ⟨e, rfl⟩) (h n)
  split
  · next e => exact absurd (Or.inr (Or.inl ⟨e, rfl⟩)) (h q)
  split
  · next e => exact absurd (Or.inr (Or.inr ⟨e, rfl⟩)) (h n)
  · rfl

theorem length_stretch {β : Type} {N : Nat} {l : List β} (h : l.length = N ∨ l.length = 1) :
    (stretch N l).length = N := by
  unfold stretch
  split
  · assumption
  · match l, h with
    | [x], _ => simp
    | [], h => simp at h; subst h; rfl
    | _ :: _ :: _, h => simp at h; simp_all

theorem getElem?_stretch {β : Type} {N : Nat} {l : List β} (h : l.length = N ∨ l.length = 1) {i : Nat}
    (hi : i < N) : ∃ x, (stretch N l)[i]? = some x ∧ partner l i = some x := by
  unfold stretch partner
  match l, h with
  | [x], _ =>
    by_cases hN : N = 1
    · subst hN
      have : i = 0 := by omega
      subst this
      exact ⟨x, by simp, by simp⟩
    · refine ⟨x, ?_, by simp⟩
      rw [if_neg (by simpa using fun h => hN h.symm)]
      simp [hi]
  | [], h => simp at h; omega
  | a :: b :: t, h =>
    have hl : (a :: b :: t).length = N := by simp at h ⊢; omega
    rw [if_pos hl, if_neg (by simp)]
    obtain ⟨x, hx⟩ : ∃ x, (a :: b :: t)[i]? = some x := ⟨_, List.getElem?_eq_getElem (by omega)⟩
    exact ⟨x, hx, hx⟩

theorem comparable_sides {n q N : Nat} (h : Comparable n q N) :
    (n = N ∨ n = 1) ∧ (q = N ∨ q = 1) := by
  rcases h with ⟨h1, h2⟩ | ⟨h1, h2⟩ | ⟨h1, h2⟩ <;> subst h2 <;> grind

theorem npCompare_flat {α : Type} (beq : α → α → Bool) (neg : Bool) (xs ys : List (List α)) {N : Nat}
    (h : Comparable xs.length ys.length N) :
    ∃ m, toMask (npCompare (fun x y => xor neg (recEq beq x y)) xs [ys.length] ys) = .ok m ∧
      ComparedTo beq xs ys N (m.map (xor neg)) := by
  obtain ⟨s1, s2⟩ := comparable_sides h
  refine ⟨List.zipWith (fun x y => xor neg (recEq beq x y)) (stretch N xs) (stretch N ys), ?_, ?_, ?_⟩
  · simp [npCompare, bcastLen_ok h, toMask, construct, convertNd, isFlat, Kind.cols]
  · simp [length_stretch s1, length_stretch s2]
  · intro i hi
    obtain ⟨x, hx, px⟩ := getElem?_stretch s1 hi
    obtain ⟨y, hy, py⟩ := getElem?_stretch s2 hi
    refine ⟨x, y, recEq beq x y, px, py, ?_, recEq_iff beq x y⟩
    simp [List.getElem?_zipWith, hx, hy]

theorem npCompare_flat_err {β : Type} (f : β → β → Bool) (xs ys : List β)
    (h : ∀ N, ¬ Comparable xs.length ys.length N) :
    toMask (npCompare f xs [ys.length] ys) = .error .valueError := by
  simp [npCompare, bcastLen_err h, toMask]

theorem stretch_map {β γ : Type} (f : β → γ) (N : Nat) (l : List β) :
    stretch N (l.map f) = (stretch N l).map f := by
  unfold stretch
  rw [List.length_map]
  split
  · rfl
  · match l with
    | [] => rfl
    | a :: t => simp

theorem npCompare_singletons {α : Type} (beq : α → α → Bool) (neg : Bool) (xs ys : List α) :
    npCompare (fun x y => xor neg (beq x y)) xs [ys.length] ys =
      npCompare (fun x y => xor neg (recEq beq x y)) (xs.map (fun x => [x])) [(ys.map (fun x => [x])).length]
        (ys.map (fun x => [x])) := by
  simp only [npCompare, List.length_map, stretch_map, List.zipWith_map]
  split <;> simp [recEq]

theorem records_scalar {α : Type} (a : Nd α) : records .scalar a = a.flat.map (fun x => [x]) := by
  have hrec : ∀ l : List α, chunks 1 l.length l = l.map (fun x => [x]) := by
    intro l
    induction l with
    | nil => rfl
    | cons x l ih => simpa [chunks] using ih
  simpa [records, Kind.cols] using hrec a.flat

theorem compare_wrapped {α : Type} (beq : α → α → Bool) (neg : Bool) (k : Kind) (hk : k ≠ .edges) (a b : Nd α) :
    arrayCompare beq neg k a (.wrapped b) =
      toMask (npCompare (fun x y => xor neg (recEq beq x y)) (records k a) [(records k b).length]
        (records k b)) := by
  cases k with
  | scalar =>
    simp only [arrayCompare, prepScalar, unrelatedLen]
    rw [npCompare_singletons, records_scalar, records_scalar]
  | momentum => simp [arrayCompare, prepFields]
  | color => simp [arrayCompare, prepFields]
  | edges => exact absurd rfl hk

theorem map_xor_false (m : List Bool) : m.map (xor false) = m := by
  induction m <;> simp_all

/-! ## C92 -/

/-- **C92** (two arrays of one class): with equally many records, or one record on one side, `==` is the mask that
says for each pair of records whether all components are equal; any other lengths are `ValueError`. -/
theorem C92_same_class {α : Type} (beq : α → α → Bool) (k : Kind) (hk : k ≠ .edges) (a b : Nd α) :
    (∀ N, Comparable (records k a).length (records k b).length N →
      ∃ m, arrayEq beq k a (.wrapped b) = .ok m ∧ ComparedTo beq (records k a) (records k b) N m) ∧
    ((∀ N, ¬ Comparable (records k a).length (records k b).length N) →
      arrayEq beq k a (.wrapped b) = .error .valueError) := by
  unfold arrayEq
  rw [compare_wrapped beq false k hk]
  refine ⟨fun N h => ?_, npCompare_flat_err _ _ _⟩
  obtain ⟨m, h1, h2⟩ := npCompare_flat beq false _ _ h
  exact ⟨m, h1, by rwa [map_xor_false] at h2⟩

theorem npCompare_not {β : Type} (f : β → β → Bool) (xs : List β) (s : List Nat) (ys : List β) :
    npCompare (fun x y => xor true (f x y)) xs s ys =
      match npCompare (fun x y => xor false (f x y)) xs s ys with
      | .error e => .error e
      | .ok r => .ok ⟨r.shape, r.flat.map (!·)⟩ := by
  have hz : ∀ (u v : List β), List.zipWith (fun x y => xor true (f x y)) u v =
      (List.zipWith (fun x y => xor false (f x y)) u v).map (!·) := by
    intro u v
    rw [List.map_zipWith]
    congr
    funext x y
    cases f x y <;> rfl
  unfold npCompare
  split
  · simp [List.map_flatMap, Function.comp_def]
  · split
    · rfl
    · simp only [hz]
  · split
    · rfl
    · simp only [hz, List.map_flatMap]

theorem toMask_not (r : Py (Nd Bool)) :
    toMask (match r with
      | .error e => .error e
      | .ok r => .ok ⟨r.shape, r.flat.map (!·)⟩) =
      match toMask r with
      | .error e => .error e
      | .ok m => .ok (m.map (!·)) := by
  cases r with
  | error e => rfl
  | ok r =>
    obtain ⟨shape, flat⟩ := r
    match shape with
    | [] => simp [toMask, construct, convertNd, Kind.cols, isFlat]
    | [n] => simp [toMask, construct, convertNd, Kind.cols, isFlat]
    | n :: c :: t =>
      by_cases hc : c = 1
      · simp [toMask, construct, convertNd, Kind.cols, isFlat, hc]
      · by_cases hn : n = 0
        · simp [toMask, construct, convertNd, Kind.cols, isFlat, hc, hn]
        · simp [toMask, construct, convertNd, Kind.cols, isFlat, hc, hn]

/-- **C92** (`!=`): for every operand, `!=` is the elementwise complement of `==`, and fails exactly when `==`
does. -/
theorem C92_not_equal {α : Type} (beq : α → α → Bool) (k : Kind) (a : Nd α) (o : EqOpd α) :
    (∀ e, arrayEq beq k a o = .error e → arrayNe beq k a o = .error e) ∧
    (∀ m, arrayEq beq k a o = .ok m → arrayNe beq k a o = .ok (m.map (!·))) := by
  have key : arrayNe beq k a o = match arrayEq beq k a o with
      | .error e => .error e
      | .ok m => .ok (m.map (!·)) := by
    unfold arrayNe arrayEq arrayCompare
    split
    · split
      · rfl
      · simp [toMask, construct, convertNd, isFlat, Kind.cols]
      · split
        · rfl
        · rw [npCompare_not, toMask_not]
    · split
      · rfl
      · rw [npCompare_not, toMask_not]
  refine ⟨fun e h => by rw [key, h], fun m h => by rw [key, h]⟩

/-- **C92** (one record): momenta, colours and edges can be compared with one record given as a sequence of numbers,
which is compared with every record; a sequence of any other length is `ValueError`. -/
theorem C92_record {α : Type} (beq : α → α → Bool) (k : Kind) (hk : k ≠ .scalar) (a : Nd α) (l : List α) :
    (l.length = k.cols → ∃ m, arrayEq beq k a (.sequence l) = .ok m ∧ m.length = (records k a).length ∧
      ∀ (i : Nat) (r : List α), (records k a)[i]? = some r → ∃ b, m[i]? = some b ∧
        (b = true ↔ SameRecord beq r l)) ∧
    (l.length ≠ k.cols → arrayEq beq k a (.sequence l) = .error .valueError) := by
  have hpos : 0 < k.cols := by cases k <;> simp [Kind.cols]
  have hu : arrayEq beq k a (.sequence l) = match prepFields k (.sequence l) with
      | .error e => .error e
      | .ok (shape, ys) =>
        toMask (npCompare (fun x y => xor false (recEq beq x y)) (records k a) shape ys) := by
    cases k <;> first | rfl | exact absurd rfl hk
  constructor
  · intro hl
    have hv : prepFields k (.sequence l) = .ok ([1], [l]) := by
      simp only [prepFields, hl, ne_eq, not_true, if_false, viewFields, Nat.mod_self, if_true, Nat.div_self hpos]
      simp [chunks, ← hl]
    have hc : Comparable (records k a).length ([l] : List (List α)).length (records k a).length :=
      Or.inr (Or.inr ⟨rfl, rfl⟩)
    obtain ⟨m, h1, h2, h3⟩ := npCompare_flat beq false (records k a) [l] hc
    rw [map_xor_false] at h2 h3
    refine ⟨m, by rw [hu, hv]; exact h1, h2, fun i r hr => ?_⟩
    have hi : i < (records k a).length := (List.getElem?_eq_some_iff.mp hr).1
    obtain ⟨x, y, b, px, py, hb, hiff⟩ := h3 i hi
    have hx : x = r := by
      unfold partner at px
      split at px
      · have : i = 0 := by omega
        subst this
        rw [hr] at px; exact (Option.some.inj px).symm
      · rw [hr] at px; exact (Option.some.inj px).symm
    have hy : y = l := by simpa [partner] using py.symm
    subst hx hy
    exact ⟨b, hb, hiff⟩
  · intro hl
    rw [hu]
    simp [prepFields, hl]

/-- **C92** (classes of plain numbers): a `PdgArray`, `HelicityArray` or `StatusArray` can be compared with a number,
which is compared with every element, and with a sequence or 1-D array of numbers like with an array of the same
class. -/
theorem C92_numbers {α : Type} (beq : α → α → Bool) (a : Nd α) :
    (∀ x, arrayEq beq .scalar a (.number x) = .ok (a.flat.map (fun y => beq y x))) ∧
    (∀ l, arrayEq beq .scalar a (.sequence l) = arrayEq beq .scalar a (.wrapped ⟨[l.length], l⟩)) ∧
    (∀ l, arrayEq beq .scalar a (.array ⟨[l.length], l⟩) = arrayEq beq .scalar a (.wrapped ⟨[l.length], l⟩)) := by
  refine ⟨fun x => ?_, fun l => rfl, fun l => rfl⟩
  simp [arrayEq, arrayCompare, prepScalar, unrelatedLen, npCompare, toMask, construct, convertNd, isFlat, Kind.cols,
    List.map_eq_flatMap]

/-- **C92** (equality decides equality): if element equality is genuine equality, all elements of `a == b` are `True`
exactly when the two arrays have the same records; and `==` is symmetric. -/
theorem C92_decides {α : Type} (beq : α → α → Bool) (hb : ∀ x y, beq x y = true ↔ x = y) (k : Kind)
    (hk : k ≠ .edges) (a b : Nd α) (hl : (records k a).length = (records k b).length) :
    (∃ m, arrayEq beq k a (.wrapped b) = .ok m ∧
      ((∀ v ∈ m, v = true) ↔ records k a = records k b)) ∧
    arrayEq beq k a (.wrapped b) = arrayEq beq k b (.wrapped a) := by
  have hsame : ∀ r s : List α, SameRecord beq r s ↔ r = s := by
    intro r s
    constructor
    · rintro ⟨h1, h2⟩
      apply List.ext_getElem? 
      intro j
      by_cases hj : j < r.length
      · have e1 := List.getElem?_eq_getElem hj
        have e2 := List.getElem?_eq_getElem (h1 ▸ hj : j < s.length)
        rw [e1, e2, (hb _ _).1 (h2 j _ _ e1 e2)]
      · rw [List.getElem?_eq_none (by omega), List.getElem?_eq_none (by omega)]
    · rintro rfl
      refine ⟨rfl, fun j x y h1 h2 => (hb _ _).2 ?_⟩
      rw [h1] at h2; exact Option.some.inj h2
  have hpart : ∀ (l : List (List α)) (i : Nat), i < l.length → partner l i = l[i]? := by
    intro l i hi
    unfold partner
    split
    · next h => have : i = 0 := by omega
                rw [this]
    · rfl
  obtain ⟨m, hm, h1, h2⟩ := (C92_same_class beq k hk a b).1 _ (Or.inl ⟨hl, rfl⟩)
  obtain ⟨m', hm', h1', h2'⟩ := (C92_same_class beq k hk b a).1 _ (Or.inl ⟨hl.symm, rfl⟩)
  refine ⟨⟨m, hm, ?_⟩, ?_⟩
  · constructor
    · intro h
      apply List.ext_getElem? 
      intro i
      by_cases hi : i < (records k a).length
      · obtain ⟨x, y, c, px, py, hc, hiff⟩ := h2 i hi
        rw [hpart _ _ hi] at px
        rw [hpart _ _ (hl ▸ hi)] at py
        rw [px, py, (hsame x y).1 (hiff.1 (h c (List.mem_of_getElem? hc)))]
      · rw [List.getElem?_eq_none (by omega), List.getElem?_eq_none (by omega)]
    · intro h v hv
      obtain ⟨i, hi⟩ := List.mem_iff_getElem?.mp hv
      have hi' : i < (records k a).length := by rw [← h1]; exact (List.getElem?_eq_some_iff.mp hi).1
      obtain ⟨x, y, c, px, py, hc, hiff⟩ := h2 i hi'
      rw [h, py] at px
      rw [hi] at hc
      rw [Option.some.inj hc]
      exact hiff.2 ((hsame x y).2 (Option.some.inj px).symm)
  · rw [hm, hm']
    congr 1
    apply List.ext_getElem? 
    intro i
    by_cases hi : i < (records k a).length
    · obtain ⟨x, y, c, px, py, hc, hiff⟩ := h2 i hi
      obtain ⟨x', y', c', px', py', hc', hiff'⟩ := h2' i (hl ▸ hi)
      rw [px] at py'; rw [py] at px'
      obtain rfl := Option.some.inj py'
      obtain rfl := Option.some.inj px'
      rw [hc, hc']
      rw [hsame] at hiff hiff'
      congr 1
      rw [Bool.eq_iff_iff, hiff, hiff']
      exact eq_comm
    · rw [List.getElem?_eq_none (by omega), List.getElem?_eq_none (by omega)]

example : arrayEq (· == ·) .momentum (⟨[2, 4], [1, 2, 3, 4, 5, 6, 7, 8]⟩ : Nd Int)
    (.wrapped ⟨[2, 4], [1, 2, 3, 4, 5, 6, 7, 9]⟩) = .ok [true, false] := by decide
example : arrayNe (· == ·) .color (⟨[2, 2], [1, 2, 3, 4]⟩ : Nd Int) (.sequence [3, 4]) = .ok [true, false] := by
  decide
example : Comparable 3 1 3 ∧ ¬ Comparable 3 2 3 := by simp [Comparable]

/-! ## C93 -/

/-- **C93** (arrays): comparing momenta, colours or edges with any `ndarray` (with or without fields), with a number
or with an unrelated object is `ValueError`, whatever the shapes and contents. -/
theorem C93_ndarray {α : Type} (beq : α → α → Bool) (k : Kind) (hk : k ≠ .scalar) (a : Nd α) :
    (∀ b, arrayEq beq k a (.array b) = .error .valueError) ∧
    (∀ b, arrayEq beq k a (.fields b) = .error .valueError) ∧
    (∀ x, arrayEq beq k a (.number x) = .error .valueError) ∧
    arrayEq beq k a .other = .error .valueError := by
  cases k with
  | scalar => exact absurd rfl hk
  | _ => exact ⟨fun _ => rfl, fun _ => rfl, fun _ => rfl, rfl⟩

theorem chunks_edges (es : List (Int × Int)) :
    chunks 2 es.length (es.flatMap (fun e => [e.1, e.2])) = es.map (fun e => [e.1, e.2]) := by
  induction es with
  | nil => rfl
  | cons e es ih => simp [chunks, ih]

theorem records_edges (es : List (Int × Int)) :
    records .edges (edgeBuffer es) = es.map (fun e => [e.1, e.2]) := by
  unfold records edgeBuffer
  have : (es.flatMap (fun e => [e.1, e.2])).length / Kind.edges.cols = es.length := by
    have : (es.flatMap (fun e => [e.1, e.2])).length = es.length * 2 := by
      induction es with
      | nil => rfl
      | cons e es ih => simp only [List.flatMap_cons, List.length_append, ih, List.length_cons]; simp; omega
    rw [this]; simp [Kind.cols]
  rw [this]
  exact chunks_edges es

/-- **C93** (unrelated objects): codes, helicities and statuses differ from every unrelated object (`None`, a string,
a mapping): `==` is all `False`, `!=` all `True`, of the length of the array. -/
theorem C93_unrelated {α : Type} (beq : α → α → Bool) (a : Nd α) :
    arrayEq beq .scalar a .other = .ok (List.replicate a.flat.length false) ∧
    arrayNe beq .scalar a .other = .ok (List.replicate a.flat.length true) := by
  constructor <;>
    simp [arrayEq, arrayNe, arrayCompare, unrelatedLen, toMask, construct, convertNd, isFlat, Kind.cols]

/-- **C93** (structured arrays): nor do they equal any record of a numpy array with fields.  `==` is all `False`, `!=` all `True`, of
the common length if both have one, of the other's if one of them has a single element, and otherwise it is `ValueError`. -/
theorem C93_structured {α : Type} (beq : α → α → Bool) (a : Nd α) (b : Structured α) (n m : Nat) (hn : a.flat.length = n)
    (hm : b.records.length = m) :
    (∀ N, (n = m ∧ N = n) ∨ (n = 1 ∧ N = m) ∨ (m = 1 ∧ N = n) →
      arrayEq beq .scalar a (.fields b) = .ok (List.replicate N false) ∧
      arrayNe beq .scalar a (.fields b) = .ok (List.replicate N true)) ∧
    (n ≠ m → n ≠ 1 → m ≠ 1 →
      arrayEq beq .scalar a (.fields b) = .error .valueError ∧ arrayNe beq .scalar a (.fields b) = .error .valueError) := by
  subst hn hm
  constructor
  · intro N h
    have : bcastLen a.flat.length b.records.length = .ok N := by
      unfold bcastLen
      rcases h with ⟨h, rfl⟩ | ⟨h, rfl⟩ | ⟨h, rfl⟩
      · rw [if_pos h]
      · by_cases e : a.flat.length = b.records.length
        · rw [if_pos e, e]
        · rw [if_neg e, if_pos h]
      · by_cases e : a.flat.length = b.records.length
        · rw [if_pos e]
        · rw [if_neg e]
          by_cases e1 : a.flat.length = 1
          · exact absurd (e1.trans h.symm) e
          · rw [if_neg e1, if_pos h]
    constructor <;>
      simp [arrayEq, arrayNe, arrayCompare, unrelatedLen, this, toMask, construct, convertNd, isFlat, Kind.cols]
  · intro h1 h2 h3
    have : bcastLen a.flat.length b.records.length = .error .valueError := by
      simp [bcastLen, h1, h2, h3]
    constructor <;> simp [arrayEq, arrayNe, arrayCompare, unrelatedLen, this]

/-- **C93** (edge lists): comparing two `AdjacencyList`s is `ValueError` for all pairs but one kind: a list with a
single edge compared with a list of two edges gives a mask of length two, the single edge compared with each. -/
theorem C93_edges (es fs : List (Int × Int)) :
    (∀ e f g, es = [e] → fs = [f, g] →
      arrayEq (· == ·) .edges (edgeBuffer es) (.wrapped (edgeBuffer fs)) = .ok [decide (e = f), decide (e = g)]) ∧
    (¬ (es.length = 1 ∧ fs.length = 2) →
      arrayEq (· == ·) .edges (edgeBuffer es) (.wrapped (edgeBuffer fs)) = .error .valueError) := by
  constructor
  · rintro e f g rfl rfl
    obtain ⟨e1, e2⟩ := e
    obtain ⟨f1, f2⟩ := f
    obtain ⟨g1, g2⟩ := g
    simp [arrayEq, arrayCompare, prepFields, edgeBuffer, Nd.len, viewFields, Kind.cols, records, chunks, npCompare,
      bcastLen, toMask, construct, convertNd, isFlat, stretch, recEq, Prod.ext_iff, Bool.decide_and]
    exact ⟨rfl, rfl⟩
  · intro h
    by_cases hf : fs.length = 2
    · have he : es.length ≠ 1 := fun e => h ⟨e, hf⟩
      have hd : ∀ (d : Nd Int), d = edgeBuffer fs →
          prepFields .edges (.wrapped d) = .ok ([2, 1], chunks 2 2 (edgeBuffer fs).flat) := by
        rintro d rfl
        simp [prepFields, edgeBuffer, Nd.len, viewFields, Kind.cols, hf]
      simp only [arrayEq, arrayCompare, hd _ rfl, records_edges, npCompare, List.length_map]
      have hb : bcastLen es.length 1 = .ok es.length := by simp [bcastLen, he]
      simp only [hb, toMask, construct, convertNd, isFlat, Kind.cols]
      simp [he]
    · simp [arrayEq, arrayCompare, prepFields, edgeBuffer, Nd.len, hf]

theorem chunks_each {β : Type} (l : List β) : chunks 1 l.length l = l.map (fun x => [x]) := by
  induction l with
  | nil => rfl
  | cons x l ih => simpa [chunks] using ih

/-- **C93** (lists of records): comparing momenta, colours or edges with a list of records is `ValueError`, however many
records the list has and also if it holds exactly the records of the array, unless the array has a single record and
the list as many records as a record has components: then the single record is compared with each. -/
theorem C93_rows {α : Type} (beq : α → α → Bool) (k : Kind) (hk : k ≠ .scalar) (a : Nd α) (rs : List (List α))
    (hw : ∀ r ∈ rs, r.length = k.cols) :
    (∀ r0, records k a = [r0] → rs.length = k.cols → ∃ m, arrayEq beq k a (.rows k.cols rs) = .ok m ∧
      m.length = rs.length ∧
      ∀ (i : Nat) (r : List α), rs[i]? = some r → ∃ b, m[i]? = some b ∧ (b = true ↔ SameRecord beq r0 r)) ∧
    (¬ ((records k a).length = 1 ∧ rs.length = k.cols) →
      arrayEq beq k a (.rows k.cols rs) = .error .valueError) := by
  have hpos : 2 ≤ k.cols := by cases k <;> simp [Kind.cols] at hk ⊢
  have hu : arrayEq beq k a (.rows k.cols rs) = match prepFields k (.rows k.cols rs) with
      | .error e => .error e
      | .ok (shape, ys) =>
        toMask (npCompare (fun x y => xor false (recEq beq x y)) (records k a) shape ys) := by
    cases k <;> first | rfl | exact absurd rfl hk
  have hv : rs.length = k.cols → prepFields k (.rows k.cols rs) = .ok ([rs.length, 1], rs) := by
    intro hl
    simp only [prepFields, hl, ne_eq, not_true, if_false, viewFields, Nat.mod_self, if_true,
      Nat.div_self (by omega : 0 < k.cols), Nat.mul_one]
    have := chunks_flatten k.cols rs hw
    rw [hl] at this
    rw [this.1]
  constructor
  · intro r0 h0 hl
    refine ⟨rs.map (recEq beq r0), ?_, by simp, ?_⟩
    · rw [hu, hv hl, h0]
      simp only [npCompare, List.length_singleton, bcastLen, if_true, chunks_each, toMask, construct, convertNd, isFlat,
        Kind.cols, stretch, Bool.false_xor, List.flatMap_map, List.zipWith_cons_cons, List.zipWith_nil_left]
      have hf : ∀ l : List (List α), l.flatMap (fun r => [recEq beq r0 r]) = l.map (recEq beq r0) := by
        intro l
        induction l <;> simp_all
      simp [hf]
    · intro i r hr
      exact ⟨_, by simp [hr], recEq_iff beq r0 r⟩
  · intro h
    by_cases hl : rs.length = k.cols
    · have h1 : (records k a).length ≠ 1 := fun e => h ⟨e, hl⟩
      rw [hu, hv hl]
      have hb : bcastLen (records k a).length 1 = .ok (records k a).length := by simp [bcastLen, h1]
      simp only [npCompare, hb, toMask, construct, convertNd, isFlat, Kind.cols]
      have hm : rs.length ≠ 1 := by omega
      simp [h1, show rs.length ≠ 0 by omega]
    · rw [hu]
      simp [prepFields, hl]

example : arrayEq (· == ·) .color (⟨[2, 2], [1, 2, 3, 4]⟩ : Nd Int) (.rows 2 [[1, 2], [3, 4]]) = .error .valueError := by
  decide

/-- **C93** (events): if the comparison of the particles is truthy, `==` on two events raises `ValueError`, whatever
their edges, unless the first has one edge and the second two.  In particular an event whose particle attributes are
all filled can never be compared with a copy of itself. -/
theorem C93_events {M W : Type} (g h : Graph M W) (hp : g.particles.eqTruth h.particles = .ok true) :
    (¬ (g.adj.edges.length = 1 ∧ h.adj.edges.length = 2) → g.eqTruth h = .error .valueError) ∧
    (g.adj.edges.length = 1 → h.adj.edges.length = 2 → g.eqTruth h = .ok true) := by
  unfold Graph.eqTruth
  rw [hp]
  simp only [pyAnd]
  constructor
  · intro hne
    rw [(C93_edges _ _).2 hne]
  · intro h1 h2
    obtain ⟨e, he⟩ := List.length_eq_one_iff.mp h1
    obtain ⟨f, f', hf⟩ := List.length_eq_two.mp h2
    rw [(C93_edges _ _).1 e f f' he hf]
    rfl

/-- The hypothesis of `C93_events` is met by an event and its copy. -/
example : let g : Graph Nat Nat := ⟨⟨[1], [1], [(0, 0)], [0], [1], [true]⟩, ⟨[(1, -2)], []⟩⟩
    g.particles.eqTruth g.copy.particles = .ok true ∧ g.eqTruth g.copy = .error .valueError := by
  decide

end Gcl
