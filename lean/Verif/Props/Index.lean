import Mathlib.Data.List.Basic
import Mathlib.Data.List.Forall2
import Mathlib.Tactic.Linarith
import Mathlib.Tactic.Ring
import Verif.Model.Basic
import Verif.Spec.Index
/-! # C20, C21: subscripts -/
namespace Gcl
set_option autoImplicit false
open Spec

theorem selected_cons {α : Type} (x : α) (a : List α) (b : Bool) (m : List Bool) :
    selected (x :: a) (b :: m) = if b then x :: selected a m else selected a m := by
  cases b <;> simp [selected]

theorem gather_trueIdxs {α : Type} (pre a : List α) (m : List Bool) :
    gather (pre ++ a) (trueIdxs m pre.length) = selected a m := by
  induction m generalizing pre a with
  | nil => simp [trueIdxs, gather, selected]
  | cons b m ih =>
    cases a with
    | nil =>
      have : ∀ (off : Nat) (m : List Bool), pre.length ≤ off → gather pre (trueIdxs m off) = [] := by
        intro off m
        induction m generalizing off with
        | nil => intro _; rfl
        | cons b m ih2 =>
          intro h
          have h1 : pre[off]? = none := List.getElem?_eq_none h
          cases b
          · exact ih2 (off + 1) (by omega)
          · unfold trueIdxs gather
            rw [List.filterMap_cons, h1]
            exact ih2 (off + 1) (by omega)
      simp only [List.append_nil]
      rw [this _ _ (Nat.le_refl _)]
      simp [selected]
    | cons x a =>
      have h := ih (pre ++ [x]) a
      simp only [List.append_assoc, List.singleton_append, List.length_append, List.length_cons,
        List.length_nil, Nat.zero_add] at h
      rw [selected_cons]
      cases b
      · simpa [trueIdxs] using h
      · simp only [trueIdxs, if_true]
        unfold gather at *
        rw [List.filterMap_cons]
        simp only [List.getElem?_append_right (Nat.le_refl _), Nat.sub_self, List.getElem?_cons_zero]
        rw [h]

/-- **C20** (mask): keeps exactly the records where the mask is `True`, in order, and raises
`IndexError` exactly when the lengths differ. -/
theorem C20_mask {α : Type} (a : List α) (m : List Bool) :
    (m.length = a.length → (Key.mask m).apply a = .ok (selected a m)) ∧
    (m.length ≠ a.length → (Key.mask m).apply a = .error .indexError) := by
  constructor
  · intro h
    have := gather_trueIdxs [] a m
    simp only [List.nil_append, List.length_nil] at this
    simp [Key.apply, Key.resolve, h, this]
  · intro h; simp [Key.apply, Key.resolve, h]

/-- **C20** (mask): the result has one record per `True`. -/
theorem C20_mask_length {α : Type} (a : List α) (m : List Bool) (h : m.length = a.length) :
    (selected a m).length = m.count true := by
  induction m generalizing a with
  | nil => simp [selected]
  | cons b m ih =>
    cases a with
    | nil => simp at h
    | cons x a =>
      rw [selected_cons]
      have := ih a (by simpa using h)
      cases b <;> simp [this]

theorem normIdx_ok_iff (n : Nat) (i : Int) (j : Nat) : normIdx n i = .ok j ↔ Denotes n i j := by
  unfold normIdx Denotes
  split
  · simp only [Except.ok.injEq]; omega
  · split
    · simp only [Except.ok.injEq]; omega
    · simp only [reduceCtorEq, false_iff]; omega

theorem normIdx_err (n : Nat) (i : Int) (e : PyErr) (h : normIdx n i = .error e) :
    e = .indexError ∧ ¬ (-(n : Int) ≤ i ∧ i < n) := by
  unfold normIdx at h
  split at h
  · cases h
  · split at h
    · cases h
    · cases h
      refine ⟨rfl, ?_⟩
      omega

theorem normIdxs_spec (n : Nat) (is : List Int) :
    ((∀ i ∈ is, -(n : Int) ≤ i ∧ i < n) →
      ∃ js, normIdxs n is = .ok js ∧ List.Forall₂ (Denotes n) is js) ∧
    (¬ (∀ i ∈ is, -(n : Int) ≤ i ∧ i < n) → normIdxs n is = .error .indexError) := by
  induction is with
  | nil => exact ⟨fun _ => ⟨[], rfl, .nil⟩, fun h => absurd (by simp) h⟩
  | cons i is ih =>
    obtain ⟨ih1, ih2⟩ := ih
    constructor
    · intro h
      obtain ⟨js, h1, h2⟩ := ih1 (fun i' hi' => h i' (by simp [hi']))
      have hi := h i (by simp)
      cases hn : normIdx n i with
      | error e => exact absurd hi (normIdx_err n i e hn).2
      | ok j => exact ⟨j :: js, by simp [normIdxs, hn, h1], .cons ((normIdx_ok_iff n i j).1 hn) h2⟩
    · intro h
      cases hn : normIdx n i with
      | error e => simp [normIdxs, hn, (normIdx_err n i e hn).1]
      | ok j =>
        have hj := (normIdx_ok_iff n i j).1 hn
        have : ¬ ∀ i ∈ is, -(n : Int) ≤ i ∧ i < n := by
          intro hc
          apply h
          intro i' hi'
          rcases List.mem_cons.1 hi' with rfl | hi'
          · unfold Denotes at hj; omega
          · exact hc i' hi'
        simp [normIdxs, hn, ih2 this]

theorem gather_forall₂ {α : Type} (a : List α) (js : List Nat) (h : ∀ j ∈ js, j < a.length) :
    List.Forall₂ (fun j x => a[j]? = some x) js (gather a js) := by
  induction js with
  | nil => exact .nil
  | cons j js ih =>
    have hj := h j (by simp)
    unfold gather
    rw [List.filterMap_cons, List.getElem?_eq_getElem hj]
    exact .cons (List.getElem?_eq_getElem hj) (ih (fun j' hj' => h j' (by simp [hj'])))

/-- **C20** (integers): gathers the listed records, negative indices counting from the end, and
raises `IndexError` exactly when some index is out of range. -/
theorem C20_ints {α : Type} (a : List α) (is : List Int) :
    ((∀ i ∈ is, -(a.length : Int) ≤ i ∧ i < a.length) →
      ∃ r, (Key.ints is).apply a = .ok r ∧
        List.Forall₂ (fun i x => ∃ j, Denotes a.length i j ∧ a[j]? = some x) is r) ∧
    (¬ (∀ i ∈ is, -(a.length : Int) ≤ i ∧ i < a.length) →
      (Key.ints is).apply a = .error .indexError) := by
  obtain ⟨h1, h2⟩ := normIdxs_spec a.length is
  constructor
  · intro h
    obtain ⟨js, hj, hf⟩ := h1 h
    refine ⟨gather a js, by simp [Key.apply, Key.resolve, hj], ?_⟩
    have hlt : ∀ j ∈ js, j < a.length := by
      clear h1 h2 h hj
      intro j hj
      induction hf with
      | nil => cases hj
      | cons hd _ ih =>
        rcases List.mem_cons.1 hj with rfl | hj
        · exact hd.1
        · exact ih hj
    have hg := gather_forall₂ a js hlt
    clear h1 h2 h hlt hj
    revert hg
    generalize gather a js = r
    intro hg
    induction hf generalizing r with
    | nil => cases hg; exact .nil
    | cons hd _ ih =>
      cases hg with
      | cons hx hr => exact .cons ⟨_, hd, hx⟩ (ih _ hr)
  · intro h; simp [Key.apply, Key.resolve, h2 h]

/-- A slice with step 0 raises `ValueError`. -/
theorem C20_slice_zero {α : Type} (a : List α) (start stop : Option Int) :
    (Key.slice start stop (some 0)).apply a = .error .valueError := by
  simp [Key.apply, Key.resolve, sliceIdxs]

theorem clamp_pos (n : Nat) (st b : Int) (h : 0 < st) : clampBound n st b = bound n 0 n b := by
  unfold clampBound bound
  have : ¬ st < 0 := by omega
  simp only [this, if_false]
  split <;> split <;> omega

theorem clamp_neg (n : Nat) (st b : Int) (h : st < 0) :
    clampBound n st b = bound n (-1) (n - 1) b := by
  unfold clampBound bound
  simp only [h, if_true]
  split <;> split <;> omega

theorem sliceLen_pos (a z st : Int) (h : 0 < st) (k : Nat) :
    k < sliceLen a z st ↔ a + k * st < z := by
  unfold sliceLen
  have : ¬ st < 0 := by omega
  simp only [this, if_false]
  split
  · rename_i haz
    have e1 : (z - a - 1) / st + 1 = ((z - a - 1) / st).toNat + 1 := by
      have : 0 ≤ (z - a - 1) / st := Int.ediv_nonneg (by omega) (by omega)
      omega
    rw [e1]
    have h0 : 0 ≤ (z - a - 1) / st := Int.ediv_nonneg (by omega) (by omega)
    have h2 : k < ((((z - a - 1) / st).toNat : Int) + 1).toNat ↔ (k : Int) ≤ (z - a - 1) / st := by
      omega
    rw [h2, Int.le_ediv_iff_mul_le h]
    constructor <;> intro hh <;> linarith
  · rename_i haz
    have : 0 ≤ (k : Int) * st := Int.mul_nonneg (by omega) (by omega)
    constructor
    · intro h; omega
    · intro h; omega

theorem sliceLen_neg (a z st : Int) (h : st < 0) (k : Nat) :
    k < sliceLen a z st ↔ z < a + k * st := by
  have e : sliceLen a z st = sliceLen (-a) (-z) (-st) := by
    unfold sliceLen
    have h1 : ¬ (-st < 0) := by omega
    simp only [h, h1, if_true, if_false]
    have h2 : (-a < -z) ↔ z < a := by omega
    simp only [h2]
    congr 3
    congr 1
    omega
  rw [e, sliceLen_pos _ _ _ (by omega)]
  constructor <;> intro hh <;> linarith

/-- Positions of a slice with positive step in closed form. -/
theorem sliceIdxs_pos (n : Nat) (start stop step : Option Int) (hst : 0 < step.getD 1) :
    sliceIdxs n start stop step = .ok ((List.range (sliceLen ((start.map (bound n 0 n)).getD 0)
      ((stop.map (bound n 0 n)).getD n) (step.getD 1))).map
      (fun (k : Nat) => ((start.map (bound n 0 n)).getD 0 + (k : Int) * step.getD 1).toNat)) := by
  have h0 : ¬ step.getD 1 = 0 := by omega
  have hneg : ¬ step.getD 1 < 0 := by omega
  unfold sliceIdxs
  cases start <;> cases stop <;> simp only [h0, hneg, if_false, clamp_pos n _ _ hst, Option.map_some,
    Option.map_none, Option.getD_some, Option.getD_none]

/-- Positions of a slice with negative step in closed form. -/
theorem sliceIdxs_neg (n : Nat) (start stop step : Option Int) (hst : step.getD 1 < 0) :
    sliceIdxs n start stop step = .ok ((List.range (sliceLen
      ((start.map (bound n (-1) (n - 1))).getD (n - 1))
      ((stop.map (bound n (-1) (n - 1))).getD (-1)) (step.getD 1))).map
      (fun (k : Nat) =>
        ((start.map (bound n (-1) (n - 1))).getD (n - 1) + (k : Int) * step.getD 1).toNat)) := by
  have h0 : ¬ step.getD 1 = 0 := by omega
  unfold sliceIdxs
  cases start <;> cases stop <;> simp only [h0, hst, if_false, if_true, clamp_neg n _ _ hst,
    Option.map_some, Option.map_none, Option.getD_some, Option.getD_none]

/-- **C20** (slice, positive step): exactly the positions Python slicing selects, ascending. -/
theorem C20_slice_up {α : Type} (a : List α) (start stop step : Option Int)
    (hst : 0 < step.getD 1) :
    ∃ js, (Key.slice start stop step).apply a = .ok (gather a js) ∧
      js.Pairwise (· < ·) ∧
      (∀ i, i ∈ js ↔ InSliceUp a.length start stop (step.getD 1) i) ∧
      List.Forall₂ (fun j x => a[j]? = some x) js (gather a js) := by
  set st := step.getD 1 with hstd
  set n := a.length with hn
  let A : Int := (start.map (bound n 0 n)).getD 0
  let Z : Int := (stop.map (bound n 0 n)).getD n
  have hA0 : 0 ≤ A := by
    show 0 ≤ (start.map (bound n 0 n)).getD 0
    cases start with
    | none => simp
    | some b => simp [bound]
  have hZ : Z ≤ n := by
    show (stop.map (bound n 0 n)).getD n ≤ n
    cases stop with
    | none => simp
    | some b => simp only [Option.map_some, Option.getD_some, bound]; omega
  have hres : (Key.slice start stop step).resolve n =
      .ok ((List.range (sliceLen A Z st)).map (fun (k : Nat) => (A + (k : Int) * st).toNat)) := by
    simpa only [Key.resolve] using sliceIdxs_pos n start stop step hst
  refine ⟨(List.range (sliceLen A Z st)).map (fun (k : Nat) => (A + (k : Int) * st).toNat),
    by simp only [Key.apply, ← hn, hres], ?_, ?_, ?_⟩
  · rw [List.pairwise_map]
    refine List.Pairwise.imp ?_ (List.pairwise_lt_range)
    intro i j hij
    have h1 : (i : Int) * st + st ≤ j * st := by
      have : ((i : Int) + 1) * st ≤ j * st := Int.mul_le_mul_of_nonneg_right (by omega) (by omega)
      linarith
    have h2 : 0 ≤ (i : Int) * st := Int.mul_nonneg (by omega) (by omega)
    omega
  · intro i
    simp only [List.mem_map, List.mem_range, sliceLen_pos A Z st hst, InSliceUp]
    show _ ↔ A ≤ i ∧ (i : Int) < Z ∧ st ∣ (i : Int) - A
    constructor
    · rintro ⟨k, hk, rfl⟩
      have h2 : 0 ≤ (k : Int) * st := Int.mul_nonneg (by omega) (by omega)
      have e : ((A + k * st).toNat : Int) = A + k * st := by omega
      rw [e]
      exact ⟨by omega, hk, ⟨k, by ring⟩⟩
    · rintro ⟨h1, h2, ⟨q, hq⟩⟩
      have hq0 : 0 ≤ q := by
        by_contra hc
        have : q ≤ -1 := by omega
        have : st * q ≤ st * (-1) := Int.mul_le_mul_of_nonneg_left this (by omega)
        omega
      refine ⟨q.toNat, ?_, ?_⟩
      · have : ((q.toNat : Nat) : Int) = q := by omega
        rw [this]; linarith
      · have : ((q.toNat : Nat) : Int) = q := by omega
        rw [this]
        have : A + q * st = i := by linarith
        rw [this]; simp
  · refine gather_forall₂ a _ ?_
    intro j hj
    simp only [List.mem_map, List.mem_range, sliceLen_pos A Z st hst] at hj
    obtain ⟨k, hk, rfl⟩ := hj
    have h2 : 0 ≤ (k : Int) * st := Int.mul_nonneg (by omega) (by omega)
    omega

/-- **C20** (slice, negative step): exactly the positions Python slicing selects, descending. -/
theorem C20_slice_down {α : Type} (a : List α) (start stop step : Option Int)
    (hst : step.getD 1 < 0) :
    ∃ js, (Key.slice start stop step).apply a = .ok (gather a js) ∧
      js.Pairwise (· > ·) ∧
      (∀ i, i ∈ js ↔ InSliceDown a.length start stop (step.getD 1) i) ∧
      List.Forall₂ (fun j x => a[j]? = some x) js (gather a js) := by
  set st := step.getD 1 with hstd
  set n := a.length with hn
  let A : Int := (start.map (bound n (-1) (n - 1))).getD (n - 1)
  let Z : Int := (stop.map (bound n (-1) (n - 1))).getD (-1)
  have hA0 : A ≤ n - 1 := by
    show (start.map (bound n (-1) (n - 1))).getD (n - 1) ≤ n - 1
    cases start with
    | none => simp
    | some b => simp only [Option.map_some, Option.getD_some, bound]; omega
  have hZ : -1 ≤ Z := by
    show -1 ≤ (stop.map (bound n (-1) (n - 1))).getD (-1)
    cases stop with
    | none => simp
    | some b => simp [bound]
  have hres : (Key.slice start stop step).resolve n =
      .ok ((List.range (sliceLen A Z st)).map (fun (k : Nat) => (A + (k : Int) * st).toNat)) := by
    simpa only [Key.resolve] using sliceIdxs_neg n start stop step hst
  refine ⟨(List.range (sliceLen A Z st)).map (fun (k : Nat) => (A + (k : Int) * st).toNat),
    by simp only [Key.apply, ← hn, hres], ?_, ?_, ?_⟩
  · rw [List.pairwise_map]
    have hp : (List.range (sliceLen A Z st)).Pairwise
        (fun i j => i < j ∧ j < sliceLen A Z st) := by
      have h1 := List.pairwise_lt_range (n := sliceLen A Z st)
      refine List.Pairwise.imp_of_mem ?_ h1
      intro a b _ hb hab
      exact ⟨hab, by simpa using hb⟩
    refine List.Pairwise.imp ?_ hp
    rintro i j ⟨hij, hj⟩
    rw [sliceLen_neg A Z st hst] at hj
    have h1 : (j : Int) * st ≤ i * st + st := by
      have : (j : Int) * st ≤ ((i : Int) + 1) * st :=
        Int.mul_le_mul_of_nonpos_right (by omega) (by omega)
      linarith
    show (A + (j : Int) * st).toNat < (A + (i : Int) * st).toNat
    omega
  · intro i
    simp only [List.mem_map, List.mem_range, sliceLen_neg A Z st hst, InSliceDown]
    show _ ↔ Z < i ∧ (i : Int) ≤ A ∧ st ∣ (i : Int) - A
    constructor
    · rintro ⟨k, hk, rfl⟩
      have h2 : (k : Int) * st ≤ 0 := Int.mul_nonpos_of_nonneg_of_nonpos (by omega) (by omega)
      have e : ((A + k * st).toNat : Int) = A + k * st := by omega
      rw [e]
      exact ⟨hk, by omega, ⟨k, by ring⟩⟩
    · rintro ⟨h1, h2, ⟨q, hq⟩⟩
      have hq0 : 0 ≤ q := by
        by_contra hc
        have h3 : q ≤ -1 := by omega
        have : st * (-1) ≤ st * q := Int.mul_le_mul_of_nonpos_left (by omega) h3
        omega
      have hqn : ((q.toNat : Nat) : Int) = q := by omega
      refine ⟨q.toNat, ?_, ?_⟩
      · rw [hqn]; linarith
      · rw [hqn]
        have : A + q * st = i := by linarith
        rw [this]; simp
  · refine gather_forall₂ a _ ?_
    intro j hj
    simp only [List.mem_map, List.mem_range, sliceLen_neg A Z st hst] at hj
    obtain ⟨k, hk, rfl⟩ := hj
    have h2 : (k : Int) * st ≤ 0 := Int.mul_nonpos_of_nonneg_of_nonpos (by omega) (by omega)
    omega

example : (Key.mask [true, false, true]).apply [10, 20, 30] = .ok [10, 30] := by decide
example : (Key.mask [true, false]).apply [10, 20, 30] = .error .indexError := by decide
example : (Key.ints [-1, 0, 0]).apply [10, 20, 30] = .ok [30, 10, 10] := by decide
example : (Key.ints [3]).apply [10, 20, 30] = .error .indexError := by decide
example : (Key.slice (some (-2)) none none).apply [10, 20, 30] = .ok [20, 30] := by decide
example : (Key.slice none none (some (-2))).apply [10, 20, 30] = .ok [30, 10] := by decide

/-! ## Composition of masks -/

theorem selected_refine {α : Type} (a : List α) (m1 m2 : List Bool) (h1 : m1.length = a.length)
    (h2 : m2.length = m1.count true) :
    selected (selected a m1) m2 = selected a (refineMask m1 m2) ∧
      (refineMask m1 m2).length = a.length := by
  induction m1 generalizing a m2 with
  | nil =>
    cases a with
    | nil => simp [selected, refineMask]
    | cons x a => simp at h1
  | cons b m1 ih =>
    cases a with
    | nil => simp at h1
    | cons x a =>
      simp only [List.length_cons, Nat.add_right_cancel_iff] at h1
      cases b with
      | false =>
        have := ih a m2 h1 (by simpa using h2)
        simp only [refineMask, selected_cons, Bool.false_eq_true, if_false, this.1,
          List.length_cons, this.2, and_self]
      | true =>
        cases m2 with
        | nil => simp at h2
        | cons c m2 =>
          have := ih a m2 h1 (by simpa using h2)
          simp only [refineMask, selected_cons, if_true, this.1, List.length_cons, this.2, and_true]

/-- **C21**: `array[m1][m2]` equals `array[m]` where `m` is `m1` with its `True` positions replaced
by `m2`. -/
theorem C21_compose {α : Type} (a : List α) (m1 m2 : List Bool) (h1 : m1.length = a.length)
    (h2 : m2.length = m1.count true) :
    ∃ b c, (Key.mask m1).apply a = .ok b ∧ (Key.mask m2).apply b = .ok c ∧
      (Key.mask (refineMask m1 m2)).apply a = .ok c := by
  obtain ⟨e1, e2⟩ := selected_refine a m1 m2 h1 h2
  refine ⟨selected a m1, selected (selected a m1) m2, (C20_mask a m1).1 h1, ?_, ?_⟩
  · refine (C20_mask _ m2).1 ?_
    rw [C20_mask_length a m1 h1, h2]
  · rw [(C20_mask a _).1 e2, e1]

/-- **C21**: `array[m1 & m2]` equals `array[m1][m2[m1]]`, and masks commute. -/
theorem C21_and {α : Type} (a : List α) (m1 m2 : List Bool) (h1 : m1.length = a.length)
    (h2 : m2.length = a.length) :
    ∃ b m c, (Key.mask m1).apply a = .ok b ∧ (Key.mask m1).apply m2 = .ok m ∧
      (Key.mask m).apply b = .ok c ∧
      (Key.mask (List.zipWith (· && ·) m1 m2)).apply a = .ok c ∧
      (Key.mask (List.zipWith (· && ·) m2 m1)).apply a = .ok c := by
  have key : ∀ (a : List α) (m1 m2 : List Bool), m1.length = a.length → m2.length = a.length →
      selected (selected a m1) (selected m2 m1) = selected a (List.zipWith (· && ·) m1 m2) := by
    intro a m1 m2 h1 h2
    induction m1 generalizing a m2 with
    | nil => simp [selected]
    | cons b m1 ih =>
      cases a with
      | nil => simp at h1
      | cons x a =>
        cases m2 with
        | nil => simp at h2
        | cons c m2 =>
          simp only [List.length_cons, Nat.add_right_cancel_iff] at h1 h2
          have := ih a m2 h1 h2
          cases b <;> cases c <;>
            simp [selected_cons, this]
  have hl : ((Key.mask m1).apply m2 : Py (List Bool)) = .ok (selected m2 m1) :=
    (C20_mask m2 m1).1 (by omega)
  refine ⟨_, _, selected (selected a m1) (selected m2 m1), (C20_mask a m1).1 h1, hl, ?_, ?_, ?_⟩
  · refine (C20_mask _ _).1 ?_
    rw [C20_mask_length a m1 h1, C20_mask_length m2 m1 (by omega)]
  · rw [(C20_mask a _).1 (by simp; omega), key a m1 m2 h1 h2]
  · have : List.zipWith (· && ·) m2 m1 = List.zipWith (· && ·) m1 m2 := by
      rw [List.zipWith_comm]
      congr 1
      funext x y
      exact Bool.and_comm y x
    rw [this, (C20_mask a _).1 (by simp; omega), key a m1 m2 h1 h2]

example : refineMask [true, false, true, true] [false, true, true] = [false, false, true, true] := by
  decide

end Gcl
