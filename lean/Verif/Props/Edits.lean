import Verif.Lemmas.Edits
import Verif.Spec.Mask
import Verif.Props.Heap
/-! # Property C119: a copy of a mask behaves as a value under in-place updates -/
namespace Gcl
set_option autoImplicit false
open Spec

theorem child_onKey (op : Agg) (k k' : String) (f : Mask → Mask) (ks : List (String × Mask)) :
    child (.grp op (onKey k f ks)) k' = if k' = k then (child (.grp op ks) k').map f else child (.grp op ks) k' := by
  simp only [child]
  induction ks with
  | nil => simp [onKey]
  | cons p ks ih =>
    obtain ⟨j, m⟩ := p
    simp only [onKey]
    by_cases hj : j = k
    · rw [if_pos hj]
      subst hj
      by_cases hk : k' = j
      · simp [hk]
      · simp [List.find?_cons, hk, Ne.symm hk]
    · rw [if_neg hj]
      by_cases hk : j = k'
      · subst hk; simp [hj]
      · have : (j == k') = false := by simpa using hk
        simp only [List.find?_cons, this]
        exact ih

theorem onKey_same (op : Agg) (k : String) (f : Mask → Mask) (ks : List (String × Mask))
    (hf : ∀ c, child (.grp op ks) k = some c → f c = c) : onKey k f ks = ks := by
  induction ks with
  | nil => rfl
  | cons p ks ih =>
    obtain ⟨j, m⟩ := p
    simp only [onKey]
    by_cases hj : j = k
    · rw [if_pos hj, hf m (by simp [child, hj])]
    · rw [if_neg hj, ih]
      intro c hc
      refine hf c ?_
      have : (j == k) = false := by simpa using hj
      simpa only [child, List.find?_cons, this] using hc

theorem onKey_keys (k : String) (f : Mask → Mask) (ks : List (String × Mask)) :
    (onKey k f ks).map Prod.fst = ks.map Prod.fst := by
  induction ks with
  | nil => rfl
  | cons p ks ih =>
    obtain ⟨j, m⟩ := p
    simp only [onKey]
    split <;> simp [ih]

/-- **C119** (what the updates mean) Changing a mask at a path changes what is found at the path and below it as the
update says, and nothing that is found anywhere else; where there is nothing at the path, nothing changes. -/
theorem C119_meaning (f : Mask → Mask) (p : List String) (m : Mask) :
    (∀ q, at? (onPath f p m) (p ++ q) = (at? m p).bind (fun part => at? (f part) q)) ∧
    (∀ q, ¬ p <+: q → look (onPath f p m) q = look m q) ∧
    (at? m p = none → onPath f p m = m) := by
  induction p generalizing m with
  | nil =>
    refine ⟨fun q => rfl, fun q hq => absurd (List.nil_prefix) hq, fun h => ?_⟩
    cases m <;> simp [at?] at h
  | cons k p ih =>
    cases m with
    | arr d => exact ⟨fun q => rfl, fun q _ => rfl, fun _ => rfl⟩
    | grp op ks =>
      refine ⟨fun q => ?_, fun q hq => ?_, fun h => ?_⟩
      · simp only [onPath, List.cons_append, at?, child_onKey, if_true]
        cases child (.grp op ks) k with
        | none => rfl
        | some c => exact (ih c).1 q
      · cases q with
        | nil => simp [look, at?, onPath, node, onKey_keys]
        | cons k' q =>
          simp only [onPath, look, at?, child_onKey]
          by_cases hk : k' = k
          · subst hk
            rw [if_pos rfl]
            cases child (.grp op ks) k' with
            | none => rfl
            | some c => exact (ih c).2.1 q (fun hpq => hq (List.cons_prefix_cons.2 ⟨rfl, hpq⟩))
          · rw [if_neg hk]
      · simp only [onPath, Mask.grp.injEq, true_and]
        refine onKey_same op k _ ks (fun c hc => (ih c).2.2 ?_)
        simpa [at?, hc] using h

/-- **C119** Let `b` be a copy of a mask showing `m`. Then after any series of updates through `b` - assignments to
leaves at any depth, new members, deletions, aggregation settings, `recursive_drop` - what `b` shows is the series of
these updates done on the value `m`, everything that existed before the copy is as it was, and `b` reaches nothing of
it, whatever sharing there was in the original. -/
theorem C119_copy {fuel : Nat} {h : MHeap} {a : Nat} {m : Mask} (hs : ShowsMask h a m) {h1 : MHeap} {b : Nat}
    (hc : copyObj fuel h a = .ok (h1, b)) (ops : List HOp) (hp : Plain ops m) :
    ShowsMask (ops.foldl (fun h op => op.run h b b) h1) b (ops.foldl (fun m op => edit op m) m) ∧
    (∀ i < h.length, (ops.foldl (fun h op => op.run h b b) h1)[i]? = h[i]?) ∧
    (∀ x, Reaches (ops.foldl (fun h op => op.run h b b) h1) b x → h.length ≤ x) := by
  obtain ⟨p, hm⟩ := copyObj_owned fuel h a h1 b hc
  obtain ⟨F, o, l⟩ := hm m hs
  obtain ⟨w, N, F', o', s⟩ := runs_owned o b ops hp
  have hlen := p.length_le
  refine ⟨owned_shows o', fun i hi => ?_, fun x hx => ?_⟩
  · rw [w.2 i (lt_of_lt_of_le hi hlen) (fun hf => by have := l i hf; omega)]
    obtain ⟨t, rfl⟩ := p
    exact List.getElem?_append_left hi
  · rcases s x (owned_reaches o' x hx) with c | c
    · exact l x c
    · omega

/-- **C119** The same for a mask built from new arrays and groups. -/
theorem C119_new (h : MHeap) (m : Mask) (ops : List HOp) (hp : Plain ops m) :
    ShowsMask (ops.foldl (fun g op => op.run g (allocMask m h).2 (allocMask m h).2) (allocMask m h).1) (allocMask m h).2
      (ops.foldl (fun m op => edit op m) m) ∧
    (∀ i < h.length, (ops.foldl (fun g op => op.run g (allocMask m h).2 (allocMask m h).2) (allocMask m h).1)[i]? = h[i]?) := by
  obtain ⟨F, o, l⟩ := allocMask_owned m h
  obtain ⟨w, N, F', o', s⟩ := runs_owned o (allocMask m h).2 ops hp
  have p := (allocMask_extends m h).1.pre
  have hlen := p.length_le
  refine ⟨owned_shows o', fun i hi => ?_⟩
  rw [w.2 i (lt_of_lt_of_le hi hlen) (fun hf => by have := l i hf; omega)]
  obtain ⟨t, ht⟩ := p
  rw [← ht]
  exact List.getElem?_append_left hi

/-- **C119** Without the copy this is false: `group["x"] = mask; group["y"] = mask` makes a group in which assigning to
`group["x"]` changes `group["y"]`. -/
theorem C119_false : ∃ (h : MHeap) (a : Nat) (m : Mask) (op : HOp), ShowsMask h a m ∧ Plain [op] m ∧
    at? m ["y"] = some (.arr [true]) ∧ at? (edit op m) ["y"] = some (.arr [true]) ∧
    ∃ m', ShowsMask (op.run h a a) a m' ∧ at? m' ["y"] = some (.arr [false]) := by
  have shows : ∀ d, ShowsMask [.buf d, .mask 0, .group .and [("x", 1), ("y", 1)]] 2
      (.grp .and [("x", .arr d), ("y", .arr d)]) := by
    intro d
    have l : ShowsMask [.buf d, .mask 0, .group .and [("x", 1), ("y", 1)]] 1 (.arr d) := .arr (b := 0) rfl rfl
    refine .grp (es := [("x", 1), ("y", 1)]) rfl rfl ?_
    exact ((corresponds_iff _ _ _).2 (.cons ⟨rfl, l⟩ (.cons ⟨rfl, l⟩ .nil))).2
  exact ⟨_, 2, _, .write ["x"] [false], shows [true], trivial, rfl, rfl, _, shows [false], rfl⟩

/-! ## Non-vacuity: a group in which one mask is used four times -/

/-- Assignment, deletion, a new nested group, `recursive_drop`. -/
def exEdits : List HOp :=
  [.write ["x"] [false, false], .del ["g"] "y", .addNew ["g"] "z" (.grp .or [("w", .arr [true, true])]),
   .setAgg ["g", "z"] .and, .rebind ["g", "z", "w"] [true, false], .drop [] "latent" 9]

example : ∃ h1 b, copyObj 9 exHeap 3 = .ok (h1, b) ∧
    ShowsMask (exEdits.foldl (fun h op => op.run h b b) h1) b
      (.grp .or [("x", .arr [false, false]), ("g", .grp .and [("z", .grp .and [("w", .arr [true, false])])])]) := by
  refine ⟨_, _, rfl, ?_⟩
  exact (C119_copy (fuel := 9) exHeap_shows rfl exEdits (by simp [exEdits, Plain]; decide)).1

end Gcl
