import Mathlib.Tactic.Linarith
import Mathlib.Data.Fintype.Basic
import Mathlib.Data.List.FinRange
import Mathlib.Data.Finset.Card
import Mathlib.Algebra.Order.Ring.Int
import Mathlib.Algebra.GroupWithZero.Basic
import Verif.Spec.Matrix
/-!
# C77–C79: adjacency matrices
-/
namespace Gcl
set_option autoImplicit false
open Spec

section Cut
variable {n m : Nat} {R : Type} [LT R] [DecidableLT R] [DecidableEq R] [Zero R] [One R]

/-- **C77** `cut_adj` with `weighted=False`, for every kind of number, nan and infinities included: off the diagonal
`True` exactly where the affinity compares as below (`'max'`) or above (`'min'`) the cut; on the diagonal `False` with
`self_loop=False` and `True` otherwise. -/
theorem C77_binary (h01 : (1 : R) ≠ 0) (matrix : Arr2 n m R) (cut : R) (sl : Flag) :
    (∃ a, cutAdj matrix cut "max" sl false = .ok (.bools a) ∧
      ∀ (i : Fin n) (j : Fin m), (i.val ≠ j.val → (a i j = true ↔ matrix i j < cut)) ∧
        (i.val = j.val → (a i j = true ↔ sl ≠ .fls))) ∧
    (∃ a, cutAdj matrix cut "min" sl false = .ok (.bools a) ∧
      ∀ (i : Fin n) (j : Fin m), (i.val ≠ j.val → (a i j = true ↔ cut < matrix i j)) ∧
        (i.val = j.val → (a i j = true ↔ sl ≠ .fls))) := by
  constructor
  · refine ⟨_, by simp [cutAdj, Flag.ofBool]; rfl, fun i j => ⟨fun h => ?_, fun h => ?_⟩⟩ <;>
      cases sl <;> simp [fillDiagonal, h, h01]
  · refine ⟨_, by simp [cutAdj, Flag.ofBool]; rfl, fun i j => ⟨fun h => ?_, fun h => ?_⟩⟩ <;>
      cases sl <;> simp [fillDiagonal, h, h01]

/-- **C77** `cut_adj` with `weighted=True`: off the diagonal the affinity itself where it passes the
cut, zero elsewhere (so never nan); on the diagonal zero with `self_loop=False` and one otherwise. -/
theorem C77_weighted (matrix : Arr2 n m R) (cut : R) (sl : Flag) :
    (∃ a, cutAdj matrix cut "max" sl true = .ok (.floats a) ∧
      ∀ (i : Fin n) (j : Fin m),
        (i.val ≠ j.val → (matrix i j < cut → a i j = matrix i j) ∧ (¬ matrix i j < cut → a i j = 0)) ∧
        (i.val = j.val → a i j = if sl = .fls then 0 else 1)) ∧
    (∃ a, cutAdj matrix cut "min" sl true = .ok (.floats a) ∧
      ∀ (i : Fin n) (j : Fin m),
        (i.val ≠ j.val → (cut < matrix i j → a i j = matrix i j) ∧ (¬ cut < matrix i j → a i j = 0)) ∧
        (i.val = j.val → a i j = if sl = .fls then 0 else 1)) := by
  constructor
  · refine ⟨_, by simp [cutAdj, Flag.ofBool]; rfl, fun i j => ⟨fun h => ⟨fun h' => ?_, fun h' => ?_⟩, fun h => ?_⟩⟩ <;>
      cases sl <;> simp [fillDiagonal, h, *]
  · refine ⟨_, by simp [cutAdj, Flag.ofBool]; rfl, fun i j => ⟨fun h => ⟨fun h' => ?_, fun h' => ?_⟩, fun h => ?_⟩⟩ <;>
      cases sl <;> simp [fillDiagonal, h, *]

/-- **C77** Any other mode raises `ValueError`, and so does a `weighted` that is neither `True` nor `False`; nothing
else does. -/
theorem C77_mode (matrix : Arr2 n m R) (cut : R) (mode : String) (sl w : Flag) :
    (mode ≠ "max" → mode ≠ "min" → cutAdj matrix cut mode sl w = .error .valueError) ∧
    cutAdj matrix cut mode sl .other = .error .valueError ∧
    (mode = "max" ∨ mode = "min" → w ≠ .other → ∃ a, cutAdj matrix cut mode sl w = .ok a) := by
  refine ⟨fun h1 h2 => by simp [cutAdj, h1, h2], by simp [cutAdj], ?_⟩
  intro hm hw
  cases w with
  | other => exact absurd rfl hw
  | tru => rcases hm with rfl | rfl <;> exact ⟨_, by simp [cutAdj]; rfl⟩
  | fls => rcases hm with rfl | rfl <;> exact ⟨_, by simp [cutAdj]; rfl⟩

/-- **C77** Symmetric affinities give a symmetric adjacency (in every mode, weighted or not). -/
theorem C77_symmetric {n : Nat} {R : Type} [LT R] [DecidableLT R] [DecidableEq R] [Zero R] [One R]
    (matrix : Arr2 n n R) (hsym : ∀ i j, matrix i j = matrix j i)
    (cut : R) (mode : String) (sl w : Flag) (a : AdjMat n n R)
    (h : cutAdj matrix cut mode sl w = .ok a) (i j : Fin n) :
    (∀ b, a = .bools b → b i j = b j i) ∧ (∀ f, a = .floats f → f i j = f j i) ∧ (Edge a i j ↔ Edge a j i) := by
  have key : ∀ (z : R) (f : Arr2 n n R), f i j = f j i → fillDiagonal f z i j = fillDiagonal f z j i := by
    intro z f hf
    simp only [fillDiagonal, hf, eq_comm (a := i.val)]
  have keyB : ∀ (z : R) (f : Arr2 n n R), f i j = f j i →
      decide (fillDiagonal f z i j ≠ 0) = decide (fillDiagonal f z j i ≠ 0) := by
    intro z f hf
    simp only [key z f hf]
  have main : (∃ b, a = .bools b ∧ b i j = b j i) ∨ (∃ f, a = .floats f ∧ f i j = f j i) := by
    unfold cutAdj at h
    simp only at h
    split at h
    · cases w <;> simp only at h <;> cases h
      · right; refine ⟨_, rfl, ?_⟩; split <;> refine key _ _ ?_ <;> simp only [hsym i j]
      · left; refine ⟨_, rfl, ?_⟩; split <;> refine keyB _ _ ?_ <;> simp only [hsym i j]
    · split at h
      · cases w <;> simp only at h <;> cases h
        · right; refine ⟨_, rfl, ?_⟩; split <;> refine key _ _ ?_ <;> simp only [hsym i j]
        · left; refine ⟨_, rfl, ?_⟩; split <;> refine keyB _ _ ?_ <;> simp only [hsym i j]
      · cases h
  rcases main with ⟨b, rfl, hb⟩ | ⟨f, rfl, hf⟩
  · exact ⟨fun c hc => by cases hc; exact hb, fun f hf => (by cases hf), by simp [Edge, hb]⟩
  · exact ⟨fun c hc => (by cases hc), fun g hg => (by cases hg; exact hf), by simp [Edge, hf]⟩

/-- **C77** Raising the cut never removes a `'max'` edge and never adds a `'min'` edge. -/
theorem C77_monotone (h01 : (1 : R) ≠ 0) (matrix : Arr2 n m R) (c c' : R) (hc : ∀ x, x < c → x < c')
    (hc' : ∀ x, c' < x → c < x) (sl w : Flag) (a a' : AdjMat n m R) (i : Fin n) (j : Fin m) :
    (cutAdj matrix c "max" sl w = .ok a → cutAdj matrix c' "max" sl w = .ok a' →
      Edge a i j → Edge a' i j) ∧
    (cutAdj matrix c "min" sl w = .ok a → cutAdj matrix c' "min" sl w = .ok a' →
      Edge a' i j → Edge a i j) := by
  have e2 : ¬ ("min" = "max") := by decide
  constructor
  · intro h1 h2
    unfold cutAdj at h1 h2
    simp only [if_true] at h1 h2
    by_cases h : i.val = j.val
    · cases sl <;> cases w <;> cases h1 <;> cases h2 <;> simp [Edge, fillDiagonal, h]
    · cases sl <;> cases w <;> cases h1 <;> cases h2 <;> simp [Edge, fillDiagonal, h] <;> grind
  · intro h1 h2
    unfold cutAdj at h1 h2
    simp only [if_true, if_neg e2] at h1 h2
    by_cases h : i.val = j.val
    · cases sl <;> cases w <;> cases h1 <;> cases h2 <;> simp [Edge, fillDiagonal, h]
    · cases sl <;> cases w <;> cases h1 <;> cases h2 <;> simp [Edge, fillDiagonal, h] <;> grind

/-- **C77** The expectation that the flag goes by its truth value is refuted: `self_loop=0` (or `numpy.False_`) puts ones
on the diagonal like `self_loop=True`, and `weighted=1` raises. -/
theorem C77_flags_false : ∃ (matrix : Arr2 2 2 Int) (cut : Int) (falsy truthy : Flag) (a : Arr2 2 2 Bool),
    falsy = .other ∧ truthy = .other ∧ cutAdj matrix cut "max" falsy false = .ok (.bools a) ∧ a 0 0 = true ∧
    cutAdj matrix cut "max" false truthy = .error .valueError :=
  ⟨fun _ _ => 5, 1, .other, .other, fun i j => decide (i = j), rfl, rfl, by
    simp only [cutAdj, Flag.ofBool, if_true]
    congr 2
    funext i j
    revert i j
    decide, by decide, by simp [cutAdj]⟩

end Cut

/-- A concrete symmetric affinity array for the examples. -/
def exAff : Arr2 3 3 Int := fun i j => if i = j then 0 else (i.val + j.val : Nat)

-- non-vacuity of C77: edges and non-edges both occur
example : ∃ a, cutAdj exAff 3 "max" true false = .ok (.bools a) ∧ a 0 1 = true ∧ a 1 2 = false ∧
    a 2 2 = true := ⟨_, rfl, by decide, by decide, by decide⟩
example : ∀ i j, exAff i j = exAff j i := by decide

/-- Numbers with a nan, which compares as below and above nothing. -/
private inductive ExNum where
  | nan | num (i : Int)
  deriving DecidableEq
private def ExNum.lt : ExNum → ExNum → Bool
  | .num i, .num j => decide (i < j)
  | _, _ => false
private instance : LT ExNum := ⟨fun a b => ExNum.lt a b = true⟩
private instance : DecidableLT ExNum := fun a b => inferInstanceAs (Decidable (ExNum.lt a b = true))
private instance : Zero ExNum := ⟨.num 0⟩
private instance : One ExNum := ⟨.num 1⟩
-- the hypotheses of C77_binary and C77_monotone hold there, and a nan is no edge
example : (1 : ExNum) ≠ 0 := by decide
example : (∀ x : ExNum, x < .num 2 → x < .num 4) ∧ ∀ x : ExNum, .num 4 < x → .num 2 < x := by
  constructor <;> intro x <;> cases x <;> intro h <;> first | cases h | skip
  all_goals
    have h := of_decide_eq_true h
    exact decide_eq_true (by omega)
example : ∃ a, cutAdj (fun i j : Fin 2 => if i < j then ExNum.nan else .num 3) (.num 4) "max" false true =
    .ok (.floats a) ∧ a 0 1 = .num 0 ∧ a 1 0 = .num 3 := ⟨_, rfl, by decide, by decide⟩

/-- **C79** `fc_adj(n)` has zeros exactly on the diagonal with `self_loop=False`, and ones elsewhere; with any other
`self_loop` ones everywhere; a negative `n` is a `ValueError`. -/
theorem C79_complete {R : Type} [Zero R] [One R] (n : Int) (sl : Flag) :
    (n < 0 → fcAdj (R := R) n sl = .error .valueError) ∧
    (0 ≤ n → ∃ a, fcAdj (R := R) n sl = .ok a ∧ ∀ i j : Fin n.toNat,
      ((i ≠ j ∨ sl ≠ .fls) → a i j = 1) ∧ (i = j → sl = .fls → a i j = 0)) := by
  constructor
  · intro h; simp [fcAdj, h]
  · intro h
    unfold fcAdj
    rw [if_neg (by omega)]
    cases sl <;> simp [fillDiagonal, Fin.ext_iff] <;> (try grind)

example : ∃ a : Arr2 3 3 Nat, fcAdj 3 false = .ok a ∧ a 0 1 = 1 ∧ a 1 1 = 0 := ⟨_, rfl, by decide, by decide⟩

/-! ## C78 -/

private theorem putRows_spec {n : Nat} {R : Type} (ws : List (Fin n × R)) :
    ∀ (col : Fin n → R) (i : Fin n), (ws.map Prod.fst).Nodup →
      (∀ w, (i, w) ∈ ws → putRows col ws i = w) ∧
      ((∀ w, (i, w) ∉ ws) → putRows col ws i = col i) := by
  induction ws with
  | nil => intro col i _; exact ⟨fun w h => by simp at h, fun _ => rfl⟩
  | cons p rest ih =>
    obtain ⟨a, b⟩ := p
    intro col i hnd
    simp only [List.map_cons, List.nodup_cons] at hnd
    obtain ⟨i1, i2⟩ := ih (fun r => if r = a then b else col r) i hnd.2
    simp only [putRows]
    constructor
    · intro w hw
      rcases List.mem_cons.1 hw with h | h
      · injection h with h1 h2
        subst h1; subst h2
        rw [i2]
        · simp
        · intro w hw'
          exact hnd.1 (List.mem_map.2 ⟨_, hw', rfl⟩)
      · exact i1 w h
    · intro hw
      rw [i2 (fun w hm => hw w (List.mem_cons_of_mem _ hm))]
      have : i ≠ a := by rintro rfl; exact hw b List.mem_cons_self
      simp [this]

theorem putRows_near {n : Nat} {S : Type} (l : List (Fin n)) (hnd : l.Nodup) (z : S)
    (f : Fin n → S) (i : Fin n) :
    putRows (fun _ => z) (l.map (fun i => (i, f i))) i = if i ∈ l then f i else z := by
  have h2 : ((l.map (fun i => (i, f i))).map Prod.fst).Nodup := by
    simp only [List.map_map, Function.comp_def, List.map_id']; exact hnd
  obtain ⟨p1, p2⟩ := putRows_spec _ (fun _ => z) i h2
  split
  · next h => exact p1 _ (List.mem_map.2 ⟨i, h, rfl⟩)
  · next h => exact p2 (by intro w hw; obtain ⟨x, hx, he⟩ := List.mem_map.1 hw; cases he; exact h hx)

private theorem nearest_take {n : Nat} {R : Type} [LinearOrder R] {col : Fin n → R} {kth : Fin n}
    {out : List (Fin n)} (h : IsArgpartition col kth out) :
    NearestSet col kth (out.take kth).toFinset := by
  have hlen : out.length = n := by
    have : out.toFinset = Finset.univ := by ext i; simp [h.complete i]
    have h2 := List.toFinset_card_of_nodup h.nodup
    rw [this, Finset.card_univ, Fintype.card_fin] at h2
    exact h2.symm
  constructor
  · rw [List.toFinset_card_of_nodup (h.nodup.sublist (List.take_sublist _ _))]
    simp [hlen, kth.isLt.le]
  · intro i hi i' hi'
    rw [List.mem_toFinset] at hi hi'
    obtain ⟨p, hp, rfl⟩ := List.mem_iff_getElem.1 hi
    obtain ⟨q, hq, rfl⟩ := List.mem_iff_getElem.1 (h.complete i')
    simp only [List.length_take] at hp
    rw [List.getElem_take]
    have hk : kth.val < out.length := by rw [hlen]; exact kth.isLt
    have hb := h.before p out[p] out[kth.val] (by omega) (by simp) (by simp)
    rcases Nat.lt_trichotomy q kth.val with hlt | heq | hgt
    · exact absurd (List.mem_take_iff_getElem.2 ⟨q, by omega, rfl⟩) hi'
    · subst heq; exact hb
    · exact le_trans hb (h.after q out[q] out[kth.val] hgt (by simp) (by simp))

/-- The position `kth` that `knn_adj` asks for: `k`, plus one with `self_loop=False`, counted from the end if negative. -/
private theorem near_ok {n : Nat} (hn : n ≠ 0) (k : Int) (sl : Flag) (kth : Nat) (hk : kth < n)
    (hkth : (kth : Int) = k + (if sl = .fls then 1 else 0) ∨
      (k + (if sl = .fls then 1 else 0) < 0 ∧ (kth : Int) = k + (if sl = .fls then 1 else 0) + n)) :
    normIdx n (if sl = .fls then k + 1 else k) = .ok kth := by
  simp only [normIdx]
  cases sl <;> simp at hkth ⊢ <;> grind

section Knn
variable {n : Nat} {R : Type} [LinearOrder R] [Zero R] [One R]

/-- **C78** What `knn_adj` computes: let `kth` be `k`, plus one with `self_loop=False`; counted from the end if that is
negative. For every node `j` there is a set
`S j` of `kth` nodes nearest to `j` (by the affinities in **column** `j` of the input); the edges of node
`j` - row `j` of the output with `row=False`, column `j` otherwise - are those to the members of
`S j`, other than `j` itself with `self_loop=False`; a weighted edge carries its affinity. Any `weighted` but `True`
gives unweighted edges. -/
theorem C78_edges (argpart : (Fin n → R) → Fin n → List (Fin n))
    (hap : ∀ col k, IsArgpartition col k (argpart col k)) (A : Arr2 n n R) (k : Int) (sl row : Flag) (kth : Nat)
    (hk : kth < n) (hkth : (kth : Int) = k + (if sl = .fls then 1 else 0) ∨
      (k + (if sl = .fls then 1 else 0) < 0 ∧ (kth : Int) = k + (if sl = .fls then 1 else 0) + n)) :
    ∃ S : Fin n → Finset (Fin n),
      (∀ j, NearestSet (fun i => A i j) kth (S j)) ∧
      (∃ a, (∀ d w, w ≠ .tru → knnAdj argpart A k sl w row d = .ok (.bools a)) ∧
        ∀ i j, (if row = .fls then a j i else a i j) = decide (i ∈ S j ∧ (sl ≠ .fls ∨ i ≠ j))) ∧
      (∃ a, (∀ d, d ≠ .other → knnAdj argpart A k sl .tru row d = .ok (.floats a)) ∧
        ∀ i j, (if row = .fls then a j i else a i j) = if i ∈ S j ∧ (sl ≠ .fls ∨ i ≠ j) then A i j else 0) := by
  have hn : n ≠ 0 := by omega
  have hnorm := near_ok hn k sl kth hk hkth
  let K : Fin n := ⟨kth, hk⟩
  have hb : ∃ a, (∀ d w, w ≠ .tru → knnAdj argpart A k sl w row d = .ok (.bools a)) ∧
        ∀ i j, (if row = .fls then a j i else a i j) =
          decide (i ∈ ((argpart (fun i => A i j) K).take K.val).toFinset ∧ (sl ≠ .fls ∨ i ≠ j)) := by
    refine ⟨_, fun d w hw => by
      unfold knnAdj; simp only [hnorm, if_neg hn]; rw [dif_pos hk]; simp only; rw [if_neg hw], ?_⟩
    intro i j
    have key : ∀ j i, putRows (fun _ => false) (((argpart (fun i => A i j) K).take K.val).map
        (fun i => (i, true))) i = if i ∈ (argpart (fun i => A i j) K).take K.val then true else false :=
      fun j i => putRows_near _ ((hap (fun i => A i j) K).nodup.sublist (List.take_sublist _ _)) _
        (fun i => true) i
    simp only [List.mem_toFinset]
    cases sl <;> cases row <;> simp only [fillDiagonal, if_true, reduceCtorEq, if_false] <;>
      simp only [K] at key ⊢ <;> simp only [key] <;>
      by_cases hij : i = j <;> simp [hij, Fin.ext_iff, eq_comm (a := j.val)] <;> simp [Fin.ext_iff] at hij <;> simp [hij]
  have hw : ∃ a, (∀ d, d ≠ .other → knnAdj argpart A k sl .tru row d = .ok (.floats a)) ∧
        ∀ i j, (if row = .fls then a j i else a i j) =
          if i ∈ ((argpart (fun i => A i j) K).take K.val).toFinset ∧ (sl ≠ .fls ∨ i ≠ j)
          then A i j else 0 := by
    refine ⟨_, fun d hd => by
      unfold knnAdj; simp only [hnorm, if_neg hn]; rw [dif_pos hk]; simp only [if_true]; rw [if_neg hd], ?_⟩
    intro i j
    have key : ∀ j i, putRows (fun _ => 0) (((argpart (fun i => A i j) K).take K.val).map
        (fun i => (i, A i j))) i = if i ∈ (argpart (fun i => A i j) K).take K.val then A i j else 0 :=
      fun j i => putRows_near _ ((hap (fun i => A i j) K).nodup.sublist (List.take_sublist _ _)) _
        (fun i => A i j) i
    simp only [List.mem_toFinset]
    cases sl <;> cases row <;> simp only [fillDiagonal, if_true, reduceCtorEq, if_false] <;>
      simp only [K] at key ⊢ <;> simp only [key] <;>
      by_cases hij : i = j <;> simp [hij, Fin.ext_iff, eq_comm (a := j.val)] <;> simp [Fin.ext_iff] at hij <;> simp [hij]
  obtain ⟨a, a1, a2⟩ := hb
  obtain ⟨b, b1, b2⟩ := hw
  exact ⟨fun j => ((argpart (fun i => A i j) K).take K.val).toFinset,
    fun j => nearest_take (hap (fun i => A i j) K), ⟨a, a1, a2⟩, ⟨b, b1, b2⟩⟩

/-- **C78** Hence with `self_loop=True` every node has exactly `k` edges, to a set of `k` nearest nodes;
with `self_loop=False` a node strictly nearer to itself than all others are has exactly `k` edges, to
`k` others none of which is further than an other one left out. -/
theorem C78_count (argpart : (Fin n → R) → Fin n → List (Fin n))
    (hap : ∀ col k, IsArgpartition col k (argpart col k)) (A : Arr2 n n R) (k : Nat) (sl row : Bool)
    (hk : k + (if sl then 0 else 1) < n) (d : DTypeArg) (j : Fin n)
    (hself : sl = false → ∀ i, i ≠ j → A j j < A i j) :
    ∃ (a : Arr2 n n Bool) (T : Finset (Fin n)), knnAdj argpart A k sl false row d = .ok (.bools a) ∧
      (∀ i, (if row then a i j else a j i) = true ↔ i ∈ T) ∧ T.card = k ∧ (sl = false → j ∉ T) ∧
      ∀ i ∈ T, ∀ i', i' ∉ T → (sl = true ∨ i' ≠ j) → A i j ≤ A i' j := by
  obtain ⟨S, h1, ⟨a, a1, a2⟩, _⟩ := C78_edges argpart hap A k sl row (k + (if sl then 0 else 1)) hk
    (by cases sl <;> simp [Flag.ofBool])
  have a2 : ∀ i j, (if row then a i j else a j i) = decide (i ∈ S j ∧ (sl = true ∨ i ≠ j)) := by
    intro i j
    have := a2 i j
    cases sl <;> cases row <;> simpa [Flag.ofBool] using this
  have a1 := a1 d (Flag.ofBool false) (by decide)
  obtain ⟨c1, c2⟩ := h1 j
  cases sl with
  | true =>
    refine ⟨a, S j, a1, fun i => by rw [a2]; simp, by simpa using c1, by simp, fun i hi i' hi' _ => c2 i hi i' hi'⟩
  | false =>
    have hj : j ∈ S j := by
      by_contra hj
      obtain ⟨i, hi⟩ : (S j).Nonempty := by
        rw [← Finset.card_pos, c1]; simp
      have : i ≠ j := fun h => hj (h ▸ hi)
      exact absurd (hself rfl i this) (not_lt.2 (c2 i hi j hj))
    refine ⟨a, (S j).erase j, a1, fun i => by rw [a2]; simp [and_comm], ?_, by simp, ?_⟩
    · rw [Finset.card_erase_of_mem hj, c1]; simp
    · intro i hi i' hi' hne
      simp at hne
      exact c2 i (Finset.mem_of_mem_erase hi) i' (fun h => hi' (Finset.mem_erase.2 ⟨hne, h⟩))

/-- **C78** `knn_adj` raises `ValueError`, and nothing else, exactly when there are nodes and `k` (plus one with
`self_loop=False`) is not a position of the axis, counted from either end, or a non-floating dtype is asked for weighted
edges.  In particular all `n - 1` neighbours of every node cannot be asked for. -/
theorem C78_error (argpart : (Fin n → R) → Fin n → List (Fin n)) (A : Arr2 n n R) (k : Int)
    (sl w row : Flag) (d : DTypeArg) :
    (knnAdj argpart A k sl w row d = .error .valueError ↔
      (n ≠ 0 ∧ ¬ (-(n : Int) ≤ k + (if sl = .fls then 1 else 0) ∧ k + (if sl = .fls then 1 else 0) < n)) ∨
      (w = .tru ∧ d = .other)) ∧
    ∀ e, knnAdj argpart A k sl w row d = .error e → e = .valueError := by
  by_cases hn : n = 0
  · subst hn
    unfold knnAdj
    simp only [if_true]
    cases w <;> cases d <;> simp
  · have hnorm : normIdx n (if sl = .fls then k + 1 else k) =
        if -(n : Int) ≤ k + (if sl = .fls then 1 else 0) ∧ k + (if sl = .fls then 1 else 0) < n then
          .ok (if k + (if sl = .fls then 1 else 0) < 0 then (k + (if sl = .fls then 1 else 0) + n).toNat
            else (k + (if sl = .fls then 1 else 0)).toNat) else .error .indexError := by
      simp only [normIdx]
      cases sl <;> simp <;> grind
    unfold knnAdj
    simp only [hnorm, if_neg hn]
    by_cases h : -(n : Int) ≤ k + (if sl = .fls then 1 else 0) ∧ k + (if sl = .fls then 1 else 0) < n
    · have hlt : (if k + (if sl = .fls then 1 else 0) < 0 then (k + (if sl = .fls then 1 else 0) + n).toNat
            else (k + (if sl = .fls then 1 else 0)).toNat) < n := by
        generalize k + (if sl = .fls then (1 : Int) else 0) = K at h ⊢
        split <;> omega
      rw [if_pos h]
      simp only
      rw [dif_pos hlt]
      cases w <;> cases d <;> simp [h]
    · rw [if_neg h]
      simp [hn, h]

end Knn

/-- An insertion sort of row numbers by value: one legal `argpartition`. -/
def exPart {n : Nat} (col : Fin n → Int) (_ : Fin n) : List (Fin n) :=
  (List.finRange n).mergeSort (fun a b => decide (col a ≤ col b))

def exKnn : Arr2 4 4 Int := fun i j =>
  (([[0, 1, 1, 1], [1, 0, 5, 6], [1, 5, 0, 7], [1, 6, 7, 0]] : List (List Int)).getD i []).getD j 0

/-- **C78** The documentation is refuted: "If `row` is `True` outward edges are given by rows": false, node `j`'s
`k` nearest neighbours are in **column** `j`.  For the star-shaped affinities `exKnn` with `k = 1`, every
legal `argpartition` gives row 0 three edges and row 1 none. -/
theorem C78_false :
    ∃ A : Arr2 4 4 Int, ∀ argpart : (Fin 4 → Int) → Fin 4 → List (Fin 4),
      (∀ col k, IsArgpartition col k (argpart col k)) →
      ∃ a, knnAdj argpart A 1 false false true .absent = .ok (.bools a) ∧
        (a 0 1 = true ∧ a 0 2 = true ∧ a 0 3 = true) ∧
        ∀ i j : Fin 4, i ≠ 0 → j ≠ 0 → a i j = false := by
  refine ⟨exKnn, fun argpart hap => ?_⟩
  have key : ∀ j : Fin 4, j ≠ 0 → ∃ (a : Arr2 4 4 Bool) (T : Finset (Fin 4)),
      knnAdj argpart exKnn 1 false false true .absent = .ok (.bools a) ∧
      (∀ i, a i j = true ↔ i ∈ T) ∧ T = {0} := by
    intro j hj
    obtain ⟨a, T, t1, t2, t3, t4, t5⟩ := C78_count argpart hap exKnn 1 false true (by decide) .absent j
      (by intro _ i hi; revert i j; decide)
    refine ⟨a, T, t1, by simpa using t2, ?_⟩
    obtain ⟨x, rfl⟩ := Finset.card_eq_one.1 t3
    have hx : x ≠ j := fun h => t4 rfl (by simp [h])
    by_contra hne
    have h0 : (0 : Fin 4) ∉ ({x} : Finset (Fin 4)) := by
      intro h; apply hne; simp at h; rw [h]
    have := t5 x (by simp) 0 h0 (Or.inr hj.symm)
    have hx0 : x ≠ 0 := by rintro rfl; exact h0 (by simp)
    clear t5 t2 t4 t3 hne h0 t1
    revert x j; decide
  obtain ⟨a, T1, q1, q2, q3⟩ := key 1 (by decide)
  obtain ⟨b, T2, r1, r2, r3⟩ := key 2 (by decide)
  obtain ⟨c, T3, s1, s2, s3⟩ := key 3 (by decide)
  have e1 : a = b := by rw [q1] at r1; cases r1; rfl
  have e2 : a = c := by rw [q1] at s1; cases s1; rfl
  subst e1; subst e2; subst q3; subst r3; subst s3
  refine ⟨a, q1, ⟨by simp [q2], by simp [r2], by simp [s2]⟩, fun i j hi hj => ?_⟩
  have : j = 1 ∨ j = 2 ∨ j = 3 := by revert j; decide
  rcases this with rfl | rfl | rfl
  · have := q2 i; simp [hi] at this; exact this
  · have := r2 i; simp [hi] at this; exact this
  · have := s2 i; simp [hi] at this; exact this

/-- **C78** The expectation that a node gets `k` edges from distances is refuted: of three coincident particles one may
get two edges for `k = 1`, since not itself need be among the nearest. -/
theorem C78_ties_false : ∃ (A : Arr2 3 3 Int) (argpart : (Fin 3 → Int) → Fin 3 → List (Fin 3)) (a : Arr2 3 3 Bool),
    (∀ i, A i i = 0) ∧ (∀ i j, A i j = A j i) ∧ (∀ i j, 0 ≤ A i j) ∧ IsArgpartition (fun i => A i 0) 2 (argpart (fun i => A i 0) 2) ∧
    knnAdj argpart A 1 false false true .absent = .ok (.bools a) ∧ a 1 0 = true ∧ a 2 0 = true := by
  refine ⟨fun _ _ => 0, fun _ _ => [1, 2, 0], _, fun _ => rfl, fun _ _ => rfl, fun _ _ => le_refl _,
    ⟨by decide, by decide, fun _ _ _ _ _ _ => le_refl _, fun _ _ _ _ _ _ => le_refl _⟩, rfl, by decide, by decide⟩

-- non-vacuity: a legal `argpartition` exists (sorting is one) and the hypotheses of `C78_count` hold
example : ∀ j i : Fin 4, i ≠ j → exKnn j j < exKnn i j := by decide

/-- Sorting the row numbers by value is a legal `argpartition`. -/
theorem exPart_ok {n : Nat} (col : Fin n → Int) (k : Fin n) : IsArgpartition col k (exPart col k) := by
  have hp : (exPart col k).Perm (List.finRange n) := List.mergeSort_perm _ _
  have hs : (exPart col k).Pairwise (fun a b => col a ≤ col b) := by
    have := List.pairwise_mergeSort (le := fun a b : Fin n => decide (col a ≤ col b))
      (by intro a b c; simp; intro h1 h2; exact le_trans h1 h2)
      (by intro a b; simp; exact le_total _ _) (List.finRange n)
    exact this.imp (by simp)
  refine ⟨hp.nodup_iff.2 (List.nodup_finRange n), fun i => hp.mem_iff.2 (List.mem_finRange i), ?_, ?_⟩
  · intro p i c hpk h1 h2
    obtain ⟨g1, rfl⟩ := List.getElem?_eq_some_iff.1 h1
    obtain ⟨g2, rfl⟩ := List.getElem?_eq_some_iff.1 h2
    exact List.pairwise_iff_getElem.1 hs _ _ g1 g2 hpk
  · intro p i c hpk h1 h2
    obtain ⟨g1, rfl⟩ := List.getElem?_eq_some_iff.1 h1
    obtain ⟨g2, rfl⟩ := List.getElem?_eq_some_iff.1 h2
    exact List.pairwise_iff_getElem.1 hs _ _ g2 g1 hpk

end Gcl
