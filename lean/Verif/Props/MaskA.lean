import Verif.Lemmas.Mask
/-! # C01–C03: mask algebra and aggregation -/
namespace Gcl
set_option autoImplicit false
open Spec

/-- A concrete nested group used in the non-vacuity examples. -/
def exTree : Mask :=
  .grp .or [("top", .grp .and [("b", .arr [true, false, true]), ("W", .arr [true, true, false])]),
            ("q", .arr [false, false, true])]

theorem exTree_data : exTree.data = .ok [true, false, true] := by decide
theorem exTree_unique : UniqueKeys exTree := by
  refine uniqueKeys_grp (by decide) ?_
  intro k m h
  simp only [List.mem_cons, Prod.mk.injEq, List.not_mem_nil, or_false] at h
  rcases h with ⟨rfl, rfl⟩ | ⟨rfl, rfl⟩
  · refine uniqueKeys_grp (by decide) ?_
    intro k m h
    simp only [List.mem_cons, Prod.mk.injEq, List.not_mem_nil, or_false] at h
    rcases h with ⟨rfl, rfl⟩ | ⟨rfl, rfl⟩ <;> exact uniqueKeys_arr _
  · exact uniqueKeys_arr _
theorem exTree_aggregable : Aggregable 3 exTree := (data_ok_isAggregate exTree_data).1

theorem data_of_isAggregate {m : Mask} {d : List Bool} (h : IsAggregate m d) : m.data = .ok d := by
  obtain ⟨d', h1, h2⟩ := aggregable_data h.1
  rw [h1, isAggregate_unique (data_ok_isAggregate h1) h2 h]

theorem data_of_shows {b : Operand} {d : List Bool} (h : Shows b d) : b.data = .ok d := by
  cases b with
  | mask m => exact data_of_isAggregate h
  | ndarray d' => simp only [Shows] at h; simp [Operand.data, h]
  | foreign => exact h.elim

theorem bcast2_spec (f : Bool → Bool → Bool) (x y : List Bool)
    (hb : Broadcastable x.length y.length) :
    ∃ z, bcast2 f x y = .ok z ∧ Elementwise f x y z := by
  unfold bcast2
  by_cases hl : x.length = y.length
  · refine ⟨_, by rw [if_pos hl], ?_, ?_⟩
    · unfold bcastLen; split <;> simp <;> omega
    · intro i hi
      simp only [List.length_zipWith, ← hl, Nat.min_self] at hi
      have hy : i < y.length := by omega
      refine ⟨x[i], y[i], ?_, ?_, ?_⟩
      · unfold stretched; split
        · have : i = 0 := by omega
          subst this; simp [List.getElem?_eq_getElem hi]
        · simp [List.getElem?_eq_getElem hi]
      · unfold stretched; split
        · have : i = 0 := by omega
          subst this; simp [List.getElem?_eq_getElem hy]
        · simp [List.getElem?_eq_getElem hy]
      · simp [List.getElem?_zipWith, List.getElem?_eq_getElem hi, List.getElem?_eq_getElem hy]
  · rw [if_neg hl]
    have hcase : x.length = 1 ∨ y.length = 1 := by
      rcases hb with h | h | h
      · exact absurd h hl
      · exact .inl h
      · exact .inr h
    by_cases hx : x.length = 1
    · obtain ⟨v, rfl⟩ := List.length_eq_one_iff.1 hx
      refine ⟨_, rfl, by simp [bcastLen], ?_⟩
      intro i hi
      simp only [List.length_map] at hi
      have hy1 : y.length ≠ 1 := by simp at hl; omega
      exact ⟨v, y[i], by simp [stretched], by simp [stretched, hy1, List.getElem?_eq_getElem hi],
        by simp [List.getElem?_eq_getElem hi]⟩
    · have hy : y.length = 1 := hcase.resolve_left hx
      obtain ⟨v, rfl⟩ := List.length_eq_one_iff.1 hy
      refine ⟨x.map (fun p => f p v), ?_, by simp [bcastLen, hx], ?_⟩
      · match x, hx with
        | [], _ => rfl
        | [a], h => simp at h
        | a :: b :: t, _ => rfl
      intro i hi
      simp only [List.length_map] at hi
      exact ⟨x[i], v, by simp [stretched, hx, List.getElem?_eq_getElem hi], by simp [stretched],
        by simp [List.getElem?_eq_getElem hi]⟩

theorem bcast2_err (f : Bool → Bool → Bool) (x y : List Bool)
    (hb : ¬ Broadcastable x.length y.length) : bcast2 f x y = .error .valueError := by
  simp only [Broadcastable, not_or] at hb
  unfold bcast2
  rw [if_neg hb.1]
  match x, y, hb with
  | [_], _, h => simp at h
  | [], [_], h => simp at h
  | _ :: _ :: _, [_], h => simp at h
  | [], [], h => simp at h
  | [], _ :: _ :: _, _ => rfl
  | _ :: _ :: _, [], _ => rfl
  | _ :: _ :: _, _ :: _ :: _, _ => rfl

/-- **C01** (`&`): for a mask and an operand that show `x` and `y`, the result is elementwise
conjunction (with numpy's broadcasting of a length-one operand), and any other pair of lengths
raises `ValueError`. -/
theorem C01_and (a : Mask) (b : Operand) (x y : List Bool) (ha : IsAggregate a x)
    (hb : Shows b y) :
    (Broadcastable x.length y.length → ∃ z, a.band b = .ok z ∧ Elementwise (· && ·) x y z) ∧
    (¬ Broadcastable x.length y.length → a.band b = .error .valueError) := by
  have e : a.band b = bcast2 (· && ·) x y := by
    simp [Mask.band, data_of_isAggregate ha, data_of_shows hb]
  rw [e]
  exact ⟨bcast2_spec _ x y, bcast2_err _ x y⟩

/-- **C01** (`|`). -/
theorem C01_or (a : Mask) (b : Operand) (x y : List Bool) (ha : IsAggregate a x)
    (hb : Shows b y) :
    (Broadcastable x.length y.length → ∃ z, a.bor b = .ok z ∧ Elementwise (· || ·) x y z) ∧
    (¬ Broadcastable x.length y.length → a.bor b = .error .valueError) := by
  have e : a.bor b = bcast2 (· || ·) x y := by
    simp [Mask.bor, data_of_isAggregate ha, data_of_shows hb]
  rw [e]
  exact ⟨bcast2_spec _ x y, bcast2_err _ x y⟩

/-- **C01** (`~`). -/
theorem C01_invert (a : Mask) (x : List Bool) (ha : IsAggregate a x) :
    ∃ z, a.inv = .ok z ∧ z.length = x.length ∧
      ∀ (i : Nat) (h : i < x.length), z[i]? = some (!x[i]) := by
  refine ⟨x.map (!·), by simp [Mask.inv, data_of_isAggregate ha], by simp, ?_⟩
  intro i h
  simp [List.getElem?_eq_getElem h]

/-- **C01**: operands that are neither graphicle masks nor numpy arrays raise `ValueError`. -/
theorem C01_foreign (a : Mask) :
    a.band .foreign = .error .valueError ∧ a.bor .foreign = .error .valueError := ⟨rfl, rfl⟩

/-- **C01** on two `MaskArray`s of equal length, in the plainest form. -/
theorem C01_arrays (x y : List Bool) (h : x.length = y.length) :
    (∃ z, (Mask.arr x).band (.mask (.arr y)) = .ok z ∧ z.length = x.length ∧
      ∀ (i : Nat) (hi : i < x.length), z[i]? = some (x[i] && y[i])) ∧
    (∃ z, (Mask.arr x).bor (.mask (.arr y)) = .ok z ∧ z.length = x.length ∧
      ∀ (i : Nat) (hi : i < x.length), z[i]? = some (x[i] || y[i])) := by
  constructor
  · refine ⟨List.zipWith (· && ·) x y, ?_, by simp [h], ?_⟩
    · simp [Mask.band, Operand.data, Mask.data, bcast2, h]
    · intro i hi
      have hy : i < y.length := by omega
      simp [List.getElem?_zipWith, List.getElem?_eq_getElem hi, List.getElem?_eq_getElem hy]
  · refine ⟨List.zipWith (· || ·) x y, ?_, by simp [h], ?_⟩
    · simp [Mask.bor, Operand.data, Mask.data, bcast2, h]
    · intro i hi
      have hy : i < y.length := by omega
      simp [List.getElem?_zipWith, List.getElem?_eq_getElem hi, List.getElem?_eq_getElem hy]

-- hypotheses are met by a nested group and an array of its length, and by a length-one array
example : IsAggregate exTree [true, false, true] ∧ Shows (.ndarray [true, true, false]) [true, true, false] ∧
    Broadcastable 3 3 := ⟨data_ok_isAggregate exTree_data, rfl, .inl rfl⟩
example : exTree.band (.ndarray [true, true, false]) = .ok [true, false, false] := by decide
example : exTree.bor (.ndarray [true]) = .ok [true, true, true] := by decide
example : ¬ Broadcastable 3 2 := by simp [Broadcastable]
example : exTree.band (.ndarray [true, true]) = .error .valueError := by decide

/-- **C02**: for masks `a`, `b` showing `x`, `y`: `==` and `!=` raise `ValueError` if the lengths differ.  For equal
lengths: a `MaskGroup` and a `MaskArray` cannot be compared, `TypeError`, in whatever order, except with `==` and the
`MaskArray` on the left; otherwise `==` says at each position whether the entries agree and `!=` whether they differ. -/
theorem C02_eq_ne (a : Mask) (b : Operand) (x y : List Bool) (ha : IsAggregate a x)
    (hb : Shows b y) :
    (x.length ≠ y.length →
      a.eqMask b = .error .valueError ∧ a.neMask b = .error .valueError) ∧
    (x.length = y.length →
      (IsGroup a → IsMaskArray b → a.eqMask b = .error .typeError ∧ a.neMask b = .error .typeError) ∧
      (¬ IsGroup a → IsMaskGroup b → a.neMask b = .error .typeError) ∧
      (¬ (IsGroup a ∧ IsMaskArray b) → ∃ e, a.eqMask b = .ok e ∧ e.length = x.length ∧
        ∀ (i : Nat) (h : i < x.length) (h' : i < y.length),
          (e[i]? = some true ↔ x[i] = y[i]) ∧ (e[i]? = some false ↔ x[i] ≠ y[i])) ∧
      (¬ (IsGroup a ∧ IsMaskArray b) → ¬ (¬ IsGroup a ∧ IsMaskGroup b) →
        ∃ n, a.neMask b = .ok n ∧ n.length = x.length ∧
        ∀ (i : Nat) (h : i < x.length) (h' : i < y.length),
          (n[i]? = some true ↔ x[i] ≠ y[i]) ∧ (n[i]? = some false ↔ x[i] = y[i]))) := by
  have key : ∀ (f : Bool → Bool → Bool) (k : MaskArg), maskCompare f k (.ok x) b =
      if x.length = y.length then
        (match k, b with
          | .array, .mask (.grp _ _) => .error .typeError
          | .group, .mask (.arr _) => .error .typeError
          | _, _ => .ok (List.zipWith f x y))
      else .error .valueError := by
    intro f k
    cases b with
    | foreign => exact hb.elim
    | mask m =>
      have hy : m.data = .ok y := data_of_shows (b := .mask m) hb
      simp only [maskCompare, hy]
      cases m <;> cases k <;> rfl
    | ndarray d =>
      have hy : y = d := hb
      subst hy
      simp only [maskCompare]
      cases k <;> rfl
  have point : ∀ f : Bool → Bool → Bool, x.length = y.length → (List.zipWith f x y).length = x.length ∧
      ∀ (i : Nat) (h : i < x.length) (h' : i < y.length), (List.zipWith f x y)[i]? = some (f x[i] y[i]) := by
    intro f h
    refine ⟨by simp [h], fun i hx hy => ?_⟩
    rw [List.getElem?_zipWith, List.getElem?_eq_getElem hx, List.getElem?_eq_getElem hy]
  have hx := data_of_isAggregate ha
  refine ⟨fun h => ?_, fun h => ?_⟩
  · cases a with
    | arr d =>
      cases hx
      simp only [Mask.eqMask, Mask.neMask, Mask.data, key, if_neg h, and_self]
    | grp op ks => simp only [Mask.eqMask, Mask.neMask, hx, key, if_neg h, and_self]
  · obtain ⟨l1, p1⟩ := point (fun p q => p == q) h
    obtain ⟨l2, p2⟩ := point (fun p q => p != q) h
    have fin1 : ∃ e, (Except.ok (List.zipWith (fun p q => p == q) x y) : Py (List Bool)) = .ok e ∧
        e.length = x.length ∧ ∀ (i : Nat) (h : i < x.length) (h' : i < y.length),
          (e[i]? = some true ↔ x[i] = y[i]) ∧ (e[i]? = some false ↔ x[i] ≠ y[i]) :=
      ⟨_, rfl, l1, fun i hi hi' => by rw [p1 i hi hi']; simp⟩
    have fin2 : ∃ e, (Except.ok (List.zipWith (fun p q => p != q) x y) : Py (List Bool)) = .ok e ∧
        e.length = x.length ∧ ∀ (i : Nat) (h : i < x.length) (h' : i < y.length),
          (e[i]? = some true ↔ x[i] ≠ y[i]) ∧ (e[i]? = some false ↔ x[i] = y[i]) :=
      ⟨_, rfl, l2, fun i hi hi' => by rw [p2 i hi hi']; simp⟩
    cases a with
    | arr d =>
      cases hx
      simp only [Mask.eqMask, Mask.neMask, Mask.data, Mask.argKind, key, if_pos h, IsGroup]
      cases b with
      | foreign => exact hb.elim
      | ndarray d' => exact ⟨fun h => h.elim, fun _ h => h.elim, fun _ => fin1, fun _ _ => fin2⟩
      | mask m =>
        cases m with
        | arr _ => exact ⟨fun h => h.elim, fun _ h => h.elim, fun _ => fin1, fun _ _ => fin2⟩
        | grp _ _ => exact ⟨fun h => h.elim, fun _ _ => rfl, fun _ => fin1, fun _ h => (h ⟨id, trivial⟩).elim⟩
    | grp op ks =>
      simp only [Mask.eqMask, Mask.neMask, hx, Mask.argKind, key, if_pos h, IsGroup]
      cases b with
      | foreign => exact hb.elim
      | ndarray d' => exact ⟨fun _ h => h.elim, fun h => (h trivial).elim, fun _ => fin1, fun _ _ => fin2⟩
      | mask m =>
        cases m with
        | arr _ => exact ⟨fun _ _ => ⟨rfl, rfl⟩, fun h => (h trivial).elim, fun h => (h ⟨trivial, trivial⟩).elim,
            fun h => (h ⟨trivial, trivial⟩).elim⟩
        | grp _ _ => exact ⟨fun _ h => h.elim, fun h => (h trivial).elim, fun _ => fin1, fun _ _ => fin2⟩

/-- **C02**: where both are defined, `!=` is the complement of `==`. -/
theorem C02_complement (a : Mask) (b : Operand) (e n : List Bool) (he : a.eqMask b = .ok e)
    (hn : a.neMask b = .ok n) : n = e.map (!·) := by
  have key : ∀ (f g : Bool → Bool → Bool) (k k' : MaskArg) (x : Py (List Bool)),
      (∀ p q, g p q = !(f p q)) → maskCompare f k x b = .ok e → maskCompare g k' x b = .ok n → n = e.map (!·) := by
    intro f g k k' x hfg he hn
    have fin : ∀ u v : List Bool, List.zipWith g u v = (List.zipWith f u v).map (!·) := by
      intro u
      induction u with
      | nil => intro v; rfl
      | cons p u ih => intro v; cases v with
        | nil => rfl
        | cons q v => simp only [List.zipWith_cons_cons, List.map_cons, ih, hfg]
    have uf : ∀ j u v, maskUfunc f k j u v = .ok e → maskUfunc g k' j u v = .ok n → n = e.map (!·) := by
      intro j u v he hn
      have e1 : List.zipWith f u v = e := by cases k <;> cases j <;> simp_all [maskUfunc]
      have e2 : List.zipWith g u v = n := by cases k' <;> cases j <;> simp_all [maskUfunc]
      rw [← e1, ← e2, fin]
    cases b with
    | foreign => simp [maskCompare] at he
    | ndarray y =>
      cases x with
      | error er => simp [maskCompare] at he
      | ok x =>
        simp only [maskCompare] at he hn
        split at he
        · rename_i h
          rw [if_pos h] at hn
          exact uf _ _ _ he hn
        · cases he
    | mask m =>
      cases x with
      | error er => simp [maskCompare] at he
      | ok x =>
        simp only [maskCompare] at he hn
        cases hm : m.data with
        | error er => rw [hm] at he; cases he
        | ok y =>
          simp only [hm] at he hn
          split at he
          · rename_i h
            rw [if_pos h] at hn
            exact uf _ _ _ he hn
          · cases he
  have hb : ∀ p q : Bool, (p != q) = !(p == q) := by decide
  cases a with
  | arr d => exact key (fun p q => p == q) (fun p q => p != q) .ndarray .array (.ok d) hb he hn
  | grp op ks => exact key (fun p q => p == q) (fun p q => p != q) .group .group (Mask.grp op ks).data hb he hn

/-- **C02**: foreign operands. -/
theorem C02_foreign (a : Mask) :
    a.eqMask .foreign = .error .valueError ∧ a.neMask .foreign = .error .valueError := by
  cases a <;> exact ⟨rfl, rfl⟩

/-- **C02**: it is not so that any two masks of equal length can be compared, nor that `a == b` is `b == a`. -/
theorem C02_false : ∃ (g : Mask) (d : List Bool), IsAggregate g d ∧
    g.eqMask (.mask (.arr d)) = .error .typeError ∧ (Mask.arr d).neMask (.mask g) = .error .typeError ∧
    (Mask.arr d).eqMask (.mask g) = .ok (d.map (fun _ => true)) :=
  ⟨exTree, [true, false, true], data_ok_isAggregate exTree_data, by decide, by decide, by decide⟩

example : exTree.eqMask (.ndarray [true, true, false]) = .ok [true, false, false] := by decide
example : exTree.neMask (.ndarray [true, true, false]) = .ok [false, true, true] := by decide
example : exTree.neMask (.mask exTree) = .ok [false, false, false] := by decide

/-- **C03**: reading `data` succeeds exactly when the tree has an aggregate (all leaves of one
length, no empty group, no group with `agg_op` none), and then it is that aggregate: position `i`
is `True` iff it is selected by all (`and`) / at least one (`or`) of the children, recursively. -/
theorem C03_aggregate (m : Mask) (d : List Bool) : m.data = .ok d ↔ IsAggregate m d :=
  ⟨data_ok_isAggregate, data_of_isAggregate⟩

/-- **C03**: existence of the aggregate. -/
theorem C03_defined (m : Mask) : (∃ d, m.data = .ok d) ↔ ∃ n, Aggregable n m := by
  constructor
  · rintro ⟨d, h⟩; exact ⟨_, (data_ok_isAggregate h).1⟩
  · rintro ⟨n, h⟩; obtain ⟨d, hd, _⟩ := aggregable_data h; exact ⟨d, hd⟩

/-- **C03**: a group with `agg_op` none has no aggregate: `ValueError`. -/
theorem C03_none (ks : List (String × Mask)) :
    (Mask.grp .none ks).data = .error .valueError := by
  simp [Mask.data]

/-- **C03**: an empty group raises. -/
theorem C03_empty (op : Agg) : ∃ e, (Mask.grp op []).data = .error e := by
  cases op <;> exact ⟨_, rfl⟩

/-- **C03**: children that show arrays of different lengths make the group raise `ValueError`. -/
theorem C03_ragged (op : Agg) (ks : List (String × Mask))
    (hall : ∀ k m, (k, m) ∈ ks → ∃ n, Aggregable n m)
    (k1 k2 : String) (m1 m2 : Mask) (n1 n2 : Nat) (h1 : (k1, m1) ∈ ks) (h2 : (k2, m2) ∈ ks)
    (a1 : Aggregable n1 m1) (a2 : Aggregable n2 m2) (hne : n1 ≠ n2) :
    (Mask.grp op ks).data = .error .valueError := by
  have hrows : ∃ rows, Mask.dataKids ks = .ok rows := by
    clear h1 h2
    induction ks with
    | nil => exact ⟨[], rfl⟩
    | cons p ks ih =>
      obtain ⟨k, m⟩ := p
      obtain ⟨n, hn⟩ := hall k m (by simp)
      obtain ⟨d, hd, _⟩ := aggregable_data hn
      obtain ⟨rows, hr⟩ := ih (fun k' m' h => hall k' m' (by simp [h]))
      exact ⟨d :: rows, by simp [Mask.dataKids, hd, hr]⟩
  obtain ⟨rows, hr⟩ := hrows
  have hf := (dataKids_ok_iff ks rows).1 hr
  obtain ⟨r1, hr1, hd1⟩ := forall₂_mem_left hf h1
  obtain ⟨r2, hr2, hd2⟩ := forall₂_mem_left hf h2
  obtain ⟨d1, hd1', hl1⟩ := aggregable_data a1
  obtain ⟨d2, hd2', hl2⟩ := aggregable_data a2
  simp only at hd1 hd2
  rw [hd1'] at hd1; rw [hd2'] at hd2
  cases hd1; cases hd2
  have key : ∀ f : Bool → Bool → Bool, reduceRows f rows = .error .valueError := by
    intro f
    cases rows with
    | nil => cases hr1
    | cons r rs =>
      simp only [reduceRows]
      rw [if_neg]
      intro hc
      simp only [List.all_eq_true, beq_iff_eq] at hc
      have g : ∀ x ∈ r :: rs, x.length = r.length := by
        intro x hx
        rcases List.mem_cons.1 hx with rfl | hx
        · rfl
        · exact hc x hx
      have := g _ hr1
      have := g _ hr2
      omega
  cases op with
  | none => simp [Mask.data]
  | and => simp [Mask.data, hr, key]
  | or => simp [Mask.data, hr, key]

theorem Spec.AllAgg.kid {op op' : Agg} {ks : List (String × Mask)} (hu : UniqueKeys (.grp op' ks))
    (h : AllAgg op (.grp op' ks)) {k : String} {m : Mask} (hm : (k, m) ∈ ks) : AllAgg op m := by
  intro p op'' ks' hp
  refine h (k :: p) op'' ks' ?_
  rw [look_cons, child_grp, Dict.get?_of_mem hu.keys hm]
  exact hp

/-- **C03**: if every group of the tree is `and`, position `i` is selected exactly when every leaf
is `True` at `i`. -/
theorem C03_all_and (m : Mask) (d : List Bool) (hu : UniqueKeys m) (h : AllAgg .and m)
    (hd : m.data = .ok d) (i : Nat) (hi : i < d.length) :
    d[i] = true ↔ ∀ p x, look m p = some (.leaf x) → x[i]? = some true := by
  rw [(data_ok_isAggregate hd).2 i hi]
  clear hd hi
  induction m using Mask.ind with
  | ha x =>
    constructor
    · intro hh p y hp
      cases hh with
      | leaf hx =>
        cases p with
        | nil => simp only [look_nil, node, Option.some.injEq, Node.leaf.injEq] at hp; rwa [← hp]
        | cons k p => simp [look_cons, child] at hp
    · intro hh; exact .leaf (hh [] x rfl)
  | hg op ks ih =>
    have hop : op = .and := h [] op _ rfl
    subst hop
    constructor
    · intro hh p y hp
      cases hh with
      | all hall =>
        cases p with
        | nil => simp [look_nil, node] at hp
        | cons k p =>
          rw [look_cons, child_grp] at hp
          cases hg : Dict.get? ks k with
          | none => simp [hg] at hp
          | some c =>
            simp only [hg, Option.bind_some] at hp
            have hc := Dict.mem_of_get? hg
            exact (ih k c hc (hu.kid hc) (h.kid hu hc)).1 (hall k c hc) p y hp
    · intro hh
      refine .all (fun k c hc => (ih k c hc (hu.kid hc) (h.kid hu hc)).2 (fun p x hp => ?_))
      refine hh (k :: p) x ?_
      rw [look_cons, child_grp, Dict.get?_of_mem hu.keys hc]
      exact hp

/-- **C03**: if every group of the tree is `or`, position `i` is selected exactly when at least one
leaf is `True` at `i`. -/
theorem C03_all_or (m : Mask) (d : List Bool) (hu : UniqueKeys m) (h : AllAgg .or m)
    (hd : m.data = .ok d) (i : Nat) (hi : i < d.length) :
    d[i] = true ↔ ∃ p x, look m p = some (.leaf x) ∧ x[i]? = some true := by
  rw [(data_ok_isAggregate hd).2 i hi]
  clear hd hi
  induction m using Mask.ind with
  | ha x =>
    constructor
    · intro hh
      cases hh with
      | leaf hx => exact ⟨[], x, rfl, hx⟩
    · rintro ⟨p, y, hp, hy⟩
      cases p with
      | nil => simp only [look_nil, node, Option.some.injEq, Node.leaf.injEq] at hp; exact .leaf (by rwa [hp])
      | cons k p => simp [look_cons, child] at hp
  | hg op ks ih =>
    have hop : op = .or := h [] op _ rfl
    subst hop
    constructor
    · intro hh
      cases hh with
      | @any _ k c hc hcc =>
        obtain ⟨p, y, hp, hy⟩ := (ih k c hc (hu.kid hc) (h.kid hu hc)).1 hcc
        refine ⟨k :: p, y, ?_, hy⟩
        rw [look_cons, child_grp, Dict.get?_of_mem hu.keys hc]
        exact hp
    · rintro ⟨p, y, hp, hy⟩
      cases p with
      | nil => simp [look_nil, node] at hp
      | cons k p =>
        rw [look_cons, child_grp] at hp
        cases hg : Dict.get? ks k with
        | none => simp [hg] at hp
        | some c =>
          simp only [hg, Option.bind_some] at hp
          have hc := Dict.mem_of_get? hg
          exact .any hc ((ih k c hc (hu.kid hc) (h.kid hu hc)).2 ⟨p, y, hp, hy⟩)

/-- **C03**: the methods `bitwise_or()` / `bitwise_and()` aggregate the children with that
operation, whatever the group's `agg_op` is. -/
theorem C03_methods (ks : List (String × Mask)) :
    groupOr ks = (Mask.grp .or ks).data ∧ groupAnd ks = (Mask.grp .and ks).data :=
  ⟨rfl, rfl⟩

/-- **C03**: truth value of a mask: an array is false exactly if it is empty, a group if it has no keys or its
aggregate is empty; a group with keys and no aggregate has no truth value. -/
theorem C03_bool (op : Agg) (ks : List (String × Mask)) :
    (∀ d : List Bool, (Mask.arr d).truthy = .ok (decide (d ≠ []))) ∧
    (ks = [] → (Mask.grp op ks).truthy = .ok false) ∧
    (∀ d, ks ≠ [] → IsAggregate (.grp op ks) d → (Mask.grp op ks).truthy = .ok (decide (d ≠ []))) ∧
    (∀ e, ks ≠ [] → (Mask.grp op ks).data = .error e → (Mask.grp op ks).truthy = .error e) := by
  refine ⟨fun d => ?_, ?_, ?_, ?_⟩
  · cases d <;> simp [Mask.truthy]
  · rintro rfl; rfl
  · intro d hne h
    have h0 : ks.length ≠ 0 := fun h => hne (List.length_eq_zero_iff.1 h)
    simp only [Mask.truthy, h0, if_false, data_of_isAggregate h]
    cases d <;> simp
  · intro e hne h
    have h0 : ks.length ≠ 0 := fun h => hne (List.length_eq_zero_iff.1 h)
    simp only [Mask.truthy, h0, if_false, h]

example : IsAggregate exTree [true, false, true] := data_ok_isAggregate exTree_data
example : exTree.truthy = .ok true := by decide
/-- A concrete tree of `and` groups. -/
def exAnd : Mask :=
  .grp .and [("a", .grp .and [("b", .arr [true, false])]), ("c", .arr [true, true])]
theorem exAnd_all : AllAgg .and exAnd := by
  refine allAgg_grp ?_
  simp only [List.mem_cons, Prod.mk.injEq, List.not_mem_nil, or_false]
  rintro k m (⟨-, rfl⟩ | ⟨-, rfl⟩)
  · refine allAgg_grp ?_
    simp only [List.mem_cons, Prod.mk.injEq, List.not_mem_nil, or_false]
    rintro k m ⟨-, rfl⟩
    exact allAgg_arr _
  · exact allAgg_arr _
example : exAnd.data = .ok [true, false] := by decide

end Gcl
