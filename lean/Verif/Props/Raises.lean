import Verif.Props.MaskC
import Verif.Props.Compare
/-!
# C53, C93: what can be raised
-/
namespace Gcl
set_option autoImplicit false
open Spec

theorem pairChecks_error (ps : List (List Bool × List Bool)) (e : PyErr) (h : pairChecks ps = .error e) :
    e = .valueError := by
  induction ps with
  | nil => cases h
  | cons p ps ih =>
    obtain ⟨x, y⟩ := p
    rw [pairChecks] at h
    cases hb : bcast2 (· && ·) x y with
    | error e' =>
      rw [hb] at h
      cases h
      unfold bcast2 at hb
      split at hb
      · cases hb
      · split at hb
        · cases hb
        · cases hb
        · exact (Except.error.inj hb).symm
    | ok z =>
      rw [hb] at h
      simp only at h
      cases hr : pairChecks ps with
      | error e' => rw [hr] at h; cases h; exact ih hr
      | ok zs => rw [hr] at h; cases h

/-- **C53** For an object that keeps two or more masks in its attribute `dict`, `any_overlap` raises nothing but
`ValueError`, and this only if the masks are not all of one length. -/
theorem C53_lengths (attrs : List String) (ha : "dict" ∈ attrs) (ms : List (List Bool)) (h2 : 2 ≤ ms.length)
    (e : PyErr) (h : anyOverlapDuck attrs ms = .error e) :
    e = .valueError ∧ ¬ ∃ n, ∀ x ∈ ms, x.length = n := by
  refine ⟨?_, fun ⟨n, hn⟩ => ?_⟩
  · unfold anyOverlapDuck at h
    rw [if_pos (by simpa using ha)] at h
    unfold overlapOf at h
    split at h
    · rename_i hq
      match ms, h2, hq with
      | a :: b :: l, _, hq => simp [pairs2] at hq
    · split at h
      · rename_i e' hc
        rw [← Except.error.inj h]
        exact pairChecks_error _ _ hc
      · cases h
      · split at h
        · cases h
        · exact (Except.error.inj h).symm
  · obtain ⟨b, hb, -⟩ := (C53_overlap attrs ha ms).2 n hn h2
    rw [hb] at h
    cases h

/-- **C53** Two masks of length one and one of another length do not compare: the results of the pairs have different
lengths. -/
theorem C53_singles (attrs : List String) (ha : "dict" ∈ attrs) (a b : Bool) (x : List Bool) (hx : x.length ≠ 1) :
    anyOverlapDuck attrs [[a], [b], x] = .error .valueError := by
  unfold anyOverlapDuck
  rw [if_pos (by simpa using ha)]
  match x, hx with
  | [], _ => simp [overlapOf, pairs2, pairChecks, bcast2]
  | _ :: _ :: l, _ => simp [overlapOf, pairs2, pairChecks, bcast2]

example : anyOverlapDuck ["dict"] [[true], [false], [true, false]] = .error .valueError := by decide

theorem bcastLen_error (n q : Nat) (e : PyErr) (h : bcastLen n q = .error e) : e = .valueError := by
  unfold bcastLen at h
  split_ifs at h
  exact (Except.error.inj h).symm

theorem npCompare_shape {β : Type} (f : β → β → Bool) (xs : List β) (s : List Nat) (ys : List β) :
    (∀ e, npCompare f xs s ys = .error e → e = .valueError) ∧ ∀ a, npCompare f xs s ys = .ok a → a.shape ≠ [] := by
  match s with
  | [] =>
    refine ⟨fun e h => (by cases h), fun a h => ?_⟩
    cases h
    simp
  | [q] =>
    rw [npCompare]
    cases hb : bcastLen xs.length q with
    | error e' => exact ⟨fun e h => by cases h; exact bcastLen_error _ _ _ hb, fun a h => by cases h⟩
    | ok N => exact ⟨fun e h => (by cases h), fun a h => by cases h; simp⟩
  | m :: q :: r =>
    rw [npCompare]
    cases hb : bcastLen xs.length q with
    | error e' => exact ⟨fun e h => by cases h; exact bcastLen_error _ _ _ hb, fun a h => by cases h⟩
    | ok N => exact ⟨fun e h => (by cases h), fun a h => by cases h; simp⟩

theorem npCompare_error {β : Type} (f : β → β → Bool) (xs : List β) (s : List Nat) (ys : List β) (e : PyErr)
    (h : toMask (npCompare f xs s ys) = .error e) : e = .valueError := by
  obtain ⟨h1, h2⟩ := npCompare_shape f xs s ys
  cases hn : npCompare f xs s ys with
  | error e' => rw [hn, toMask] at h; cases h; exact h1 _ hn
  | ok a =>
    have := h2 a hn
    obtain ⟨shape, flat⟩ := a
    cases shape with
    | nil => exact absurd rfl this
    | cons n rest =>
      rw [hn] at h
      simp only [toMask, construct, convertNd] at h
      split_ifs at h <;> first | exact (Except.error.inj h).symm | cases h

/-- **C93** Whatever it is compared with, an array of records raises nothing but `ValueError`. -/
theorem C93_errors {α : Type} (beq : α → α → Bool) (k : Kind) (hk : k ≠ .scalar) (a : Nd α) (o : EqOpd α) (e : PyErr)
    (h : arrayEq beq k a o = .error e) : e = .valueError := by
  have hp : ∀ e, prepFields k o = .error e → e = .valueError := by
    intro e h
    unfold prepFields viewFields at h
    revert h
    repeat' split
    all_goals first | (intro h; exact (Except.error.inj h).symm) | (intro h; cases h)
  have hu : arrayEq beq k a o = match prepFields k o with
      | .error e => .error e
      | .ok (shape, ys) =>
        toMask (npCompare (fun x y => xor false (recEq beq x y)) (records k a) shape ys) := by
    cases k <;> first | rfl | exact absurd rfl hk
  rw [hu] at h
  cases hq : prepFields k o with
  | error e' => rw [hq] at h; cases h; exact hp _ hq
  | ok r => rw [hq] at h; exact npCompare_error _ _ _ _ _ h

end Gcl
