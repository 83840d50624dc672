import Mathlib.Logic.Equiv.Fintype
import Verif.Props.Matrix
import Verif.Props.Adj
import Verif.Props.OrderFree
/-! # C134: graphs of affinities under renumbering of the nodes, and how they grow -/
namespace Gcl
set_option autoImplicit false
open Spec

/-- The array with its nodes numbered anew: node `i` is what was node `σ i`. -/
def Spec.renumber {n : Nat} {R : Type} (σ : Fin n → Fin n) : AdjMat n n R → AdjMat n n R
  | .bools b => .bools (fun i j => b (σ i) (σ j))
  | .floats f => .floats (fun i j => f (σ i) (σ j))

/-- For every node there is only one set of `m` nodes nearest to it. -/
def Spec.OneNearest {n : Nat} {R : Type} [LE R] (A : Arr2 n n R) (m : Nat) : Prop :=
  ∀ (j : Fin n) (S S' : Finset (Fin n)), NearestSet (fun i => A i j) m S → NearestSet (fun i => A i j) m S' → S = S'

section Cut
variable {n : Nat} {R : Type} [LT R] [DecidableLT R] [DecidableEq R] [Zero R] [One R]

theorem fillDiagonal_renumber {S : Type} (σ : Fin n → Fin n) (hσ : Function.Injective σ) (a : Arr2 n n S) (x : S) :
    fillDiagonal (fun i j => a (σ i) (σ j)) x = fun i j => fillDiagonal a x (σ i) (σ j) := by
  funext i j
  unfold fillDiagonal
  by_cases h : i = j
  · subst h; simp
  · have h2 : σ i ≠ σ j := fun e => h (hσ e)
    rw [if_neg (fun e => h (Fin.ext e)), if_neg (fun e => h2 (Fin.ext e))]

/-- **C134** `cut_adj` of the affinities of renumbered nodes is the renumbered graph, or the same error. -/
theorem C134_cut (A : Arr2 n n R) (cut : R) (mode : String) (sl w : Flag) (σ : Fin n → Fin n) (hσ : Function.Injective σ) :
    cutAdj (fun i j => A (σ i) (σ j)) cut mode sl w = (cutAdj A cut mode sl w).map (renumber σ) := by
  have f0 := fun x : R => fillDiagonal_renumber σ hσ (fun i j => if A i j < cut then (1 : R) else 0) x
  have f1 := fun x : R => fillDiagonal_renumber σ hσ (fun i j => if A i j < cut then A i j else 0) x
  have f2 := fun x : R => fillDiagonal_renumber σ hσ (fun i j => if cut < A i j then (1 : R) else 0) x
  have f3 := fun x : R => fillDiagonal_renumber σ hσ (fun i j => if cut < A i j then A i j else 0) x
  unfold cutAdj
  by_cases h1 : mode = "max"
  · subst h1
    cases w <;> cases sl <;> simp [Except.map, renumber, f0, f1]
  · by_cases h2 : mode = "min"
    · subst h2
      cases w <;> cases sl <;> simp [Except.map, renumber, f2, f3]
    · simp [h1, h2, Except.map]

/-- **C134** Only the order of the affinities matters for unweighted edges: a strictly increasing function of affinities
and cut gives the same graph. -/
theorem C134_cut_scale {R' : Type} [LT R'] [DecidableLT R'] [DecidableEq R'] [Zero R'] [One R'] (h01 : (1 : R) ≠ 0)
    (h01' : (1 : R') ≠ 0) (f : R → R') (A : Arr2 n n R) (cut : R)
    (hf : ∀ i j, (f (A i j) < f cut ↔ A i j < cut) ∧ (f cut < f (A i j) ↔ cut < A i j))
    (mode : String) (sl : Flag) (a : Arr2 n n Bool) :
    cutAdj (fun i j => f (A i j)) (f cut) mode sl false = .ok (.bools a) ↔ cutAdj A cut mode sl false = .ok (.bools a) := by
  by_cases h1 : mode = "max"
  · subst h1
    obtain ⟨⟨b, b1, b2⟩, -⟩ := C77_binary h01 A cut sl
    obtain ⟨⟨b', b1', b2'⟩, -⟩ := C77_binary h01' (fun i j => f (A i j)) (f cut) sl
    rw [b1, b1']
    have : b' = b := by
      funext i j
      rw [Bool.eq_iff_iff]
      by_cases h : i.val = j.val
      · rw [(b2 i j).2 h, (b2' i j).2 h]
      · rw [(b2 i j).1 h, (b2' i j).1 h]; exact (hf i j).1
    rw [this]
    simp
  · by_cases h2 : mode = "min"
    · subst h2
      obtain ⟨-, ⟨b, b1, b2⟩⟩ := C77_binary h01 A cut sl
      obtain ⟨-, ⟨b', b1', b2'⟩⟩ := C77_binary h01' (fun i j => f (A i j)) (f cut) sl
      rw [b1, b1']
      have : b' = b := by
        funext i j
        rw [Bool.eq_iff_iff]
        by_cases h : i.val = j.val
        · rw [(b2 i j).2 h, (b2' i j).2 h]
        · rw [(b2 i j).1 h, (b2' i j).1 h]; exact (hf i j).2
      rw [this]
      simp
    · rw [(C77_mode A cut mode sl false).1 h1 h2, (C77_mode _ (f cut) mode sl false).1 h1 h2]
      simp
end Cut

section Knn
variable {n : Nat} {R : Type} [LinearOrder R] [Zero R] [One R]

omit [Zero R] [One R] in
theorem nearestSet_map (σ : Equiv.Perm (Fin n)) (col : Fin n → R) (m : Nat) (S : Finset (Fin n)) :
    NearestSet (fun i => col (σ i)) m S ↔ NearestSet col m (S.map σ.toEmbedding) := by
  unfold NearestSet
  rw [Finset.card_map]
  refine and_congr_right fun _ => ?_
  constructor
  · intro h i hi i' hi'
    obtain ⟨x, hx, rfl⟩ := Finset.mem_map.1 hi
    have := h x hx (σ.symm i') (fun h' => hi' (Finset.mem_map.2 ⟨_, h', by simp⟩))
    simpa using this
  · intro h i hi i' hi'
    exact h (σ i) (Finset.mem_map.2 ⟨i, hi, rfl⟩) (σ i') (fun h' => by
      obtain ⟨x, hx, e⟩ := Finset.mem_map.1 h'
      exact hi' (by rw [← σ.injective e]; exact hx))

omit [Zero R] [One R] in
/-- Affinities that differ within every column leave no choice. -/
theorem C134_distinct (A : Arr2 n n R) (h : ∀ j, Function.Injective (fun i => A i j)) (m : Nat) : OneNearest A m := by
  intro j S S' h1 h2
  apply Finset.eq_of_subset_of_card_le _ (by rw [h1.1, h2.1])
  intro x hx
  by_contra hx'
  obtain ⟨y, hy⟩ : (S' \ S).Nonempty := by
    rw [Finset.nonempty_iff_ne_empty]
    intro he
    have hsub : S' ⊆ S := Finset.sdiff_eq_empty_iff_subset.1 he
    have := Finset.eq_of_subset_of_card_le hsub (by rw [h1.1, h2.1])
    exact hx' (this ▸ hx)
  obtain ⟨hy1, hy2⟩ := Finset.mem_sdiff.1 hy
  have := h j (le_antisymm (h1.2 x hx y hy2) (h2.2 y hy1 x hx'))
  exact hy2 (this ▸ hx)

/-- The edges of a nearest-neighbour graph, if there is no choice. -/
theorem knn_determined (argpart argpart' : (Fin n → R) → Fin n → List (Fin n))
    (hap : ∀ col k, IsArgpartition col k (argpart col k)) (hap' : ∀ col k, IsArgpartition col k (argpart' col k))
    (A : Arr2 n n R) (σ : Equiv.Perm (Fin n)) (k : Int) (sl w row : Flag) (d : DTypeArg) (kth : Nat) (hk : kth < n)
    (hkth : (kth : Int) = k + (if sl = .fls then 1 else 0) ∨
      (k + (if sl = .fls then 1 else 0) < 0 ∧ (kth : Int) = k + (if sl = .fls then 1 else 0) + n))
    (hone : OneNearest A kth) :
    knnAdj argpart' (fun i j => A (σ i) (σ j)) k sl w row d = (knnAdj argpart A k sl w row d).map (renumber σ) := by
  obtain ⟨S, s1, ⟨a, a1, a2⟩, ⟨b, b1, b2⟩⟩ := C78_edges argpart hap A k sl row kth hk hkth
  obtain ⟨S', s1', ⟨a', a1', a2'⟩, ⟨b', b1', b2'⟩⟩ := C78_edges argpart' hap' (fun i j => A (σ i) (σ j)) k sl row kth hk hkth
  have hS : ∀ i j, i ∈ S' j ↔ σ i ∈ S (σ j) := by
    intro i j
    have := (nearestSet_map σ (fun i => A i (σ j)) kth (S' j)).1 (s1' j)
    rw [← hone (σ j) _ _ this (s1 (σ j)), Finset.mem_map]
    exact ⟨fun h => ⟨i, h, rfl⟩, fun ⟨x, hx, e⟩ => by rw [← σ.injective e]; exact hx⟩
  by_cases hw : w = .tru
  · subst hw
    by_cases hd : d = .other
    · have e1 := ((C78_error argpart A k sl .tru row d).1).2 (Or.inr ⟨rfl, hd⟩)
      have e2 := ((C78_error argpart' (fun i j => A (σ i) (σ j)) k sl .tru row d).1).2 (Or.inr ⟨rfl, hd⟩)
      rw [e1, e2]; rfl
    · rw [b1 d hd, b1' d hd]
      simp only [Except.map, renumber]
      congr 2
      have key : ∀ i j, (if row = .fls then b' j i else b' i j) = if row = .fls then b (σ j) (σ i) else b (σ i) (σ j) := by
        intro i j
        rw [b2', b2]
        simp only [hS, ne_eq, σ.injective.eq_iff]
      funext i j
      by_cases hr : row = .fls
      · simpa [hr] using key j i
      · simpa [hr] using key i j
  · rw [a1 d w hw, a1' d w hw]
    simp only [Except.map, renumber]
    congr 2
    have key : ∀ i j, (if row = .fls then a' j i else a' i j) = if row = .fls then a (σ j) (σ i) else a (σ i) (σ j) := by
      intro i j
      rw [a2', a2]
      simp only [hS, ne_eq, σ.injective.eq_iff]
    funext i j
    by_cases hr : row = .fls
    · simpa [hr] using key j i
    · simpa [hr] using key i j

/-- The number of nearest nodes looked up, if `k` is a position of the axis. -/
def Spec.Position (n : Nat) (k : Int) (sl : Flag) (kth : Nat) : Prop :=
  kth < n ∧ ((kth : Int) = k + (if sl = .fls then 1 else 0) ∨
    (k + (if sl = .fls then 1 else 0) < 0 ∧ (kth : Int) = k + (if sl = .fls then 1 else 0) + n))

/-- **C134** `knn_adj` of the affinities of renumbered nodes is the renumbered graph, or the same error, if no node has to
choose between equally near ones; whichever way numpy arranges the columns. -/
theorem C134_knn (argpart argpart' : (Fin n → R) → Fin n → List (Fin n))
    (hap : ∀ col k, IsArgpartition col k (argpart col k)) (hap' : ∀ col k, IsArgpartition col k (argpart' col k))
    (A : Arr2 n n R) (σ : Equiv.Perm (Fin n)) (k : Int) (sl w row : Flag) (d : DTypeArg)
    (hone : ∀ kth, Position n k sl kth → OneNearest A kth) :
    knnAdj argpart' (fun i j => A (σ i) (σ j)) k sl w row d = (knnAdj argpart A k sl w row d).map (renumber σ) := by
  by_cases hpos : ∃ kth, Position n k sl kth
  · obtain ⟨kth, h1, h2⟩ := hpos
    exact knn_determined argpart argpart' hap hap' A σ k sl w row d kth h1 h2 (hone kth ⟨h1, h2⟩)
  · rcases Nat.eq_zero_or_pos n with h0 | h0
    · subst h0
      have e : (fun i j => A (σ i) (σ j)) = A := by funext i; exact i.elim0
      rw [e]
      have e2 : argpart' = argpart := by funext col k; exact k.elim0
      rw [e2]
      cases h : knnAdj argpart A k sl w row d with
      | error _ => rfl
      | ok a =>
        simp only [Except.map]
        congr 1
        cases a with
        | bools b => simp only [renumber]; congr 1; funext i; exact i.elim0
        | floats b => simp only [renumber]; congr 1; funext i; exact i.elim0
    · have hbad : n ≠ 0 ∧ ¬ (-(n : Int) ≤ k + (if sl = .fls then 1 else 0) ∧ k + (if sl = .fls then 1 else 0) < n) := by
        refine ⟨by omega, fun ⟨h1, h2⟩ => hpos ?_⟩
        by_cases hneg : k + (if sl = .fls then 1 else 0) < 0
        · exact ⟨(k + (if sl = .fls then 1 else 0) + n).toNat, by omega, Or.inr ⟨hneg, by omega⟩⟩
        · exact ⟨(k + (if sl = .fls then 1 else 0)).toNat, by omega, Or.inl (by omega)⟩
      rw [((C78_error argpart A k sl w row d).1).2 (Or.inl hbad),
        ((C78_error argpart' (fun i j => A (σ i) (σ j)) k sl w row d).1).2 (Or.inl hbad)]
      rfl

/-- **C134** With ties, what may come out for renumbered nodes is what may come out, renumbered. -/
theorem C134_knn_ties (argpart : (Fin n → R) → Fin n → List (Fin n))
    (hap : ∀ col k, IsArgpartition col k (argpart col k)) (σ : Equiv.Perm (Fin n)) :
    ∃ argpart' : (Fin n → R) → Fin n → List (Fin n), (∀ col k, IsArgpartition col k (argpart' col k)) ∧
      ∀ (A : Arr2 n n R) (k : Int) (sl w row : Flag) (d : DTypeArg),
        knnAdj argpart' (fun i j => A (σ i) (σ j)) k sl w row d = (knnAdj argpart A k sl w row d).map (renumber σ) := by
  refine ⟨fun col k => (argpart (fun i => col (σ.symm i)) k).map σ.symm, ?_, ?_⟩
  · intro col k
    have h := hap (fun i => col (σ.symm i)) k
    refine ⟨h.nodup.map σ.symm.injective, fun i => List.mem_map.2 ⟨σ i, h.complete _, by simp⟩, ?_, ?_⟩
    · intro p i c hp hi hc
      rw [List.getElem?_map] at hi hc
      obtain ⟨i', hi', rfl⟩ := Option.map_eq_some_iff.1 hi
      obtain ⟨c', hc', rfl⟩ := Option.map_eq_some_iff.1 hc
      exact h.before p i' c' hp hi' hc'
    · intro p i c hp hi hc
      rw [List.getElem?_map] at hi hc
      obtain ⟨i', hi', rfl⟩ := Option.map_eq_some_iff.1 hi
      obtain ⟨c', hc', rfl⟩ := Option.map_eq_some_iff.1 hc
      exact h.after p i' c' hp hi' hc'
  · intro A k sl w row d
    have hmem : ∀ (l : List (Fin n)) (i : Fin n), i ∈ l.map σ.symm ↔ σ i ∈ l := by
      intro l i
      rw [List.mem_map]
      exact ⟨fun ⟨x, hx, e⟩ => by rw [← e]; simpa using hx, fun h => ⟨_, h, by simp⟩⟩
    have hput : ∀ (S : Type) (z : S) (v : Fin n → S) (l : List (Fin n)) (i : Fin n), l.Nodup →
        putRows (fun _ => z) ((l.map σ.symm).map (fun i => (i, v (σ i)))) i =
          putRows (fun _ => z) (l.map (fun i => (i, v i))) (σ i) := by
      intro S z v l i hl
      rw [putRows_near _ (hl.map σ.symm.injective) _ (fun i => v (σ i)) i, putRows_near _ hl _ v (σ i)]
      simp only [hmem]
    unfold knnAdj
    by_cases hn : n = 0
    · subst hn
      simp only [if_true]
      cases w <;> cases d <;> simp [Except.map, renumber] <;> funext i <;> exact i.elim0
    · simp only [if_neg hn]
      cases normIdx n (if sl = Flag.fls then k + 1 else k) with
      | error e => rfl
      | ok kth =>
        simp only
        by_cases hk : kth < n
        · rw [dif_pos hk, dif_pos hk]
          simp only [Equiv.apply_symm_apply, ← List.map_take]
          have hnd : ∀ j, ((argpart (fun i => A i j) ⟨kth, hk⟩).take kth).Nodup := fun j =>
            (hap (fun i => A i j) ⟨kth, hk⟩).nodup.sublist (List.take_sublist _ _)
          have p1 : ∀ i j, putRows (fun _ => false) (((argpart (fun i => A i (σ j)) ⟨kth, hk⟩).take kth |>.map σ.symm).map
              (fun i => (i, true))) i = putRows (fun _ => false) (((argpart (fun i => A i (σ j)) ⟨kth, hk⟩).take kth).map
              (fun i => (i, true))) (σ i) := fun i j => hput Bool false (fun _ => true) _ i (hnd (σ j))
          have p2 : ∀ i j, putRows (fun _ => (0 : R)) (((argpart (fun i => A i (σ j)) ⟨kth, hk⟩).take kth |>.map σ.symm).map
              (fun i => (i, A (σ i) (σ j)))) i = putRows (fun _ => 0) (((argpart (fun i => A i (σ j)) ⟨kth, hk⟩).take kth).map
              (fun i => (i, A i (σ j)))) (σ i) := fun i j => hput R 0 (fun i => A i (σ j)) _ i (hnd (σ j))
          have fd := fun (S : Type) (a : Arr2 n n S) (x : S) => fillDiagonal_renumber σ σ.injective a x
          simp only [p1, p2]
          cases w <;> cases d <;> cases sl <;> cases row <;> simp [Except.map, renumber] <;>
            (try (funext i j; unfold fillDiagonal; by_cases hij : i = j
                  · subst hij; simp
                  · have h2 : σ i ≠ σ j := fun e => hij (σ.injective e)
                    simp [Fin.val_inj, hij]))
        · rw [dif_neg hk, dif_neg hk]
          rfl

/-- **C134** Asking for one more neighbour only adds edges, if no node has to choose between equally near ones. -/
theorem C134_grow (argpart argpart' : (Fin n → R) → Fin n → List (Fin n))
    (hap : ∀ col k, IsArgpartition col k (argpart col k)) (hap' : ∀ col k, IsArgpartition col k (argpart' col k))
    (A : Arr2 n n R) (k : Nat) (sl w row : Flag) (d : DTypeArg)
    (hone : OneNearest A (k + (if sl = .fls then 1 else 0))) (a a' : AdjMat n n R)
    (h : knnAdj argpart A k sl w row d = .ok a) (h' : knnAdj argpart' A (k + 1 : Nat) sl w row d = .ok a') (i j : Fin n)
    (he : Edge a i j) : Edge a' i j := by
  have hn : n ≠ 0 := by rintro rfl; exact i.elim0
  have hlt : k + 1 + (if sl = .fls then 1 else 0) < n := by
    by_contra hge
    have := ((C78_error argpart' A (k + 1 : Nat) sl w row d).1).2 (Or.inl ⟨hn, by
      rintro ⟨-, h2⟩
      apply hge
      split <;> rename_i hs <;> simp [hs] at h2 ⊢ <;> omega⟩)
    rw [this] at h'
    cases h'
  obtain ⟨S, s1, ⟨b, b1, b2⟩, ⟨f, f1, f2⟩⟩ := C78_edges argpart hap A k sl row (k + (if sl = .fls then 1 else 0)) (by omega)
    (by left; split <;> push_cast <;> rfl)
  obtain ⟨S', s1', ⟨b', b1', b2'⟩, ⟨f', f1', f2'⟩⟩ := C78_edges argpart' hap' A (k + 1 : Nat) sl row
    (k + 1 + (if sl = .fls then 1 else 0)) hlt (by left; split <;> push_cast <;> rfl)
  have hsub : ∀ j, S j ⊆ S' j := by
    intro j x hx
    by_contra hx'
    obtain ⟨c1, c2⟩ := s1 j
    obtain ⟨c1', c2'⟩ := s1' j
    obtain ⟨y, hy⟩ : (S' j \ S j).Nonempty := by
      rw [← Finset.card_pos]
      have := Finset.le_card_sdiff (S j) (S' j)
      omega
    obtain ⟨hy1, hy2⟩ := Finset.mem_sdiff.1 hy
    have hxy : x ≠ y := fun e => hx' (e ▸ hy1)
    have heq : A x j = A y j := le_antisymm (c2 x hx y hy2) (c2' y hy1 x hx')
    have hother : NearestSet (fun i => A i j) (k + (if sl = .fls then 1 else 0)) (insert y ((S j).erase x)) := by
      refine ⟨?_, ?_⟩
      · rw [Finset.card_insert_of_notMem (fun h => hy2 (Finset.mem_of_mem_erase h)), Finset.card_erase_of_mem hx, c1]
        have : 0 < (S j).card := Finset.card_pos.2 ⟨x, hx⟩
        omega
      · intro i hi i' hi'
        simp only [Finset.mem_insert, Finset.mem_erase, not_or, not_and_or, not_not] at hi hi'
        have hle : A i j ≤ A x j := by
          rcases hi with rfl | ⟨-, hi⟩
          · exact heq.ge
          · exact (c2 i hi y hy2).trans heq.ge
        rcases hi'.2 with rfl | h'
        · exact hle
        · exact hle.trans (c2 x hx i' h')
    have := hone j _ _ hother (s1 j)
    have hmem : y ∈ S j := this ▸ Finset.mem_insert_self _ _
    exact hy2 hmem
  by_cases hw : w = .tru
  · subst hw
    have hd : d ≠ .other := by
      rintro rfl
      rw [((C78_error argpart A k sl .tru row .other).1).2 (Or.inr ⟨rfl, rfl⟩)] at h
      cases h
    rw [f1 d hd] at h; rw [f1' d hd] at h'
    cases h; cases h'
    simp only [Edge] at he ⊢
    have key : ∀ i j, (if row = .fls then f j i else f i j) ≠ 0 → (if row = .fls then f' j i else f' i j) ≠ 0 := by
      intro i j hne
      rw [f2] at hne
      rw [f2']
      split at hne
      · rename_i hc
        rw [if_pos ⟨hsub j hc.1, hc.2⟩]; exact hne
      · exact absurd rfl hne
    by_cases hr : row = .fls
    · have := key j i
      simp only [hr, if_true] at this
      exact this he
    · have := key i j
      simp only [hr, if_false] at this
      exact this he
  · rw [b1 d w hw] at h; rw [b1' d w hw] at h'
    cases h; cases h'
    simp only [Edge] at he ⊢
    have key : ∀ i j, (if row = .fls then b j i else b i j) = true → (if row = .fls then b' j i else b' i j) = true := by
      intro i j hne
      rw [b2, decide_eq_true_eq] at hne
      rw [b2', decide_eq_true_eq]
      exact ⟨hsub j hne.1, hne.2⟩
    by_cases hr : row = .fls
    · have := key j i
      simp only [hr, if_true] at this
      exact this he
    · have := key i j
      simp only [hr, if_false] at this
      exact this he
end Knn

/-! ## From affinities to the edge list -/

/-- The rows of an array, as the list `AdjacencyList.from_matrix` takes. -/
def Spec.nestedRows {n m : Nat} {S : Type} (a : Arr2 n m S) : List (List S) :=
  (List.finRange n).map (fun i => (List.finRange m).map (a i))

theorem entry_nestedRows {n m : Nat} {S : Type} (a : Arr2 n m S) (i : Fin n) (j : Fin m) :
    entry (nestedRows a) i j = some (a i j) := by
  unfold entry nestedRows
  rw [List.getElem?_map, List.getElem?_eq_getElem (by simp)]
  simp

/-- **C134** `AdjacencyList.from_matrix(cut_adj(A, cut))`: node pairs are edges, once each, exactly where the affinity
passes the cut; and nodes have edges to themselves exactly unless `self_loop=False`. -/
theorem C134_cut_edges {n : Nat} {R : Type} [LT R] [DecidableLT R] [DecidableEq R] [Zero R] [One R] (h01 : (1 : R) ≠ 0)
    (A : Arr2 n n R) (cut : R) (sl : Flag) (i j : Fin n) :
    (∃ a, cutAdj A cut "max" sl false = .ok (.bools a) ∧
      (fromMatrix (nestedRows (fun i j => (a i j).toInt)) false false).edges.count ((i.val : Int), (j.val : Int)) =
        if (i ≠ j ∧ A i j < cut) ∨ (i = j ∧ sl ≠ .fls) then 1 else 0) ∧
    (∃ a, cutAdj A cut "min" sl false = .ok (.bools a) ∧
      (fromMatrix (nestedRows (fun i j => (a i j).toInt)) false false).edges.count ((i.val : Int), (j.val : Int)) =
        if (i ≠ j ∧ cut < A i j) ∨ (i = j ∧ sl ≠ .fls) then 1 else 0) := by
  obtain ⟨⟨a, a1, a2⟩, ⟨b, b1, b2⟩⟩ := C77_binary h01 A cut sl
  have hv : ∀ b : Bool, b.toInt ≠ 0 ↔ b = true := by decide
  refine ⟨⟨a, a1, ?_⟩, ⟨b, b1, ?_⟩⟩
  · rw [(C36_edges _ i.val j.val).1, entry_nestedRows]
    simp only [Option.some.injEq, exists_eq_left', hv]
    obtain ⟨c1, c2⟩ := a2 i j
    by_cases h : i = j
    · subst h; simp [c2 rfl]
    · have h' : i.val ≠ j.val := fun e => h (Fin.ext e)
      simp [c1 h', h]
  · rw [(C36_edges _ i.val j.val).1, entry_nestedRows]
    simp only [Option.some.injEq, exists_eq_left', hv]
    obtain ⟨c1, c2⟩ := b2 i j
    by_cases h : i = j
    · subst h; simp [c2 rfl]
    · have h' : i.val ≠ j.val := fun e => h (Fin.ext e)
      simp [c1 h', h]

/-- **C134** `AdjacencyList.from_matrix(knn_adj(A, k))` of affinities smallest of each node to itself: every node has
edges to `k` other nodes, none further than a node left out. -/
theorem C134_knn_edges {n : Nat} {R : Type} [LinearOrder R] [Zero R] [One R]
    (argpart : (Fin n → R) → Fin n → List (Fin n)) (hap : ∀ col k, IsArgpartition col k (argpart col k))
    (A : Arr2 n n R) (k : Nat) (row : Bool) (hk : k + 1 < n) (d : DTypeArg) (j : Fin n) (hself : ∀ i, i ≠ j → A j j < A i j) :
    ∃ (a : Arr2 n n Bool) (T : Finset (Fin n)), knnAdj argpart A k false false row d = .ok (.bools a) ∧
      (∀ i : Fin n, (fromMatrix (nestedRows (fun i j => (a i j).toInt)) false false).edges.count
        (if row then ((i.val : Int), (j.val : Int)) else ((j.val : Int), (i.val : Int))) = if i ∈ T then 1 else 0) ∧
      T.card = k ∧ j ∉ T ∧ ∀ i ∈ T, ∀ i', i' ∉ T → i' ≠ j → A i j ≤ A i' j := by
  obtain ⟨a, T, t1, t2, t3, t4, t5⟩ := C78_count argpart hap A k false row (by simpa using hk) d j (fun _ => hself)
  have hv : ∀ b : Bool, b.toInt ≠ 0 ↔ b = true := by decide
  refine ⟨a, T, t1, fun i => ?_, t3, t4 rfl, fun i hi i' hi' h => t5 i hi i' hi' (Or.inr h)⟩
  have := t2 i
  cases row
  · simp only [Bool.false_eq_true, if_false] at this ⊢
    rw [(C36_edges _ j.val i.val).1, entry_nestedRows]
    simp only [Option.some.injEq, exists_eq_left', hv, this]
  · simp only [if_true] at this ⊢
    rw [(C36_edges _ i.val j.val).1, entry_nestedRows]
    simp only [Option.some.injEq, exists_eq_left', hv, this]

/-- **C134** `delta_R` (and `delta_R_aff`) of reordered particles, cut into a graph: the renumbered graph (whatever the schedules of the
parallel loops; distances in any number type that represents them). -/
theorem C134_particles {R : Type} [LT R] [DecidableLT R] [DecidableEq R] [Zero R] [One R] (num : Fl → R)
    (ps : List P4) (idxs : List Nat) (hperm : idxs.Perm (List.range ps.length)) (pseudo : Bool) (tol : ℝ)
    (tr tr' : List Write) (mem mem' : Nat × Nat → Fl)
    (h : Interleave (deltaRLoop true (cloudOf pseudo tol ps) (cloudOf pseudo tol ps)) tr)
    (h' : Interleave (deltaRLoop true (cloudOf pseudo tol (gather ps idxs)) (cloudOf pseudo tol (gather ps idxs))) tr')
    (cut : R) (mode : String) (sl w : Flag) :
    ∃ σ : Fin ps.length → Fin ps.length, Function.Injective σ ∧ (∀ a, idxs[a.val]? = some (σ a).val) ∧
      cutAdj (fun a b : Fin ps.length => num (runWrites mem' tr' (a, b))) cut mode sl w =
        (cutAdj (fun i j : Fin ps.length => num (runWrites mem tr (i, j))) cut mode sl w).map (renumber σ) := by
  have hlen : idxs.length = ps.length := by rw [hperm.length_eq, List.length_range]
  have hlt : ∀ a : Fin ps.length, idxs[a.val]'(by omega) < ps.length := fun a =>
    List.mem_range.1 (hperm.mem_iff.1 (List.getElem_mem _))
  have hnd : idxs.Nodup := hperm.nodup_iff.2 List.nodup_range
  refine ⟨fun a => ⟨idxs[a.val]'(by omega), hlt a⟩, ?_, fun a => List.getElem?_eq_getElem _, ?_⟩
  · intro a b e
    have := Fin.mk.inj_iff.1 e
    exact Fin.ext ((hnd.getElem_inj_iff).1 this)
  · rw [← C134_cut _ _ _ _ _ _ (by
      intro a b e
      have := Fin.mk.inj_iff.1 e
      exact Fin.ext ((hnd.getElem_inj_iff).1 this))]
    congr 1
    funext a b
    exact congrArg num (C126_distances hperm ps rfl pseudo tol tr tr' mem mem' h h' a b _ _
      (List.getElem?_eq_getElem _) (List.getElem?_eq_getElem _))

-- non-vacuity
example : ∃ a, cutAdj exAff 3 "max" false false = .ok (.bools a) ∧ a 0 1 = true ∧ a 1 2 = false := ⟨_, rfl, by decide, by decide⟩
example : cutAdj (fun i j => exAff (Fin.rev i) (Fin.rev j)) 3 "max" false false ≠ cutAdj exAff 3 "max" false false := by
  intro h
  have h1 : (fun i j : Fin 3 => if exAff (Fin.rev i) (Fin.rev j) < 3 then (1 : Int) else 0) 0 1 = 0 := by decide
  simp only [cutAdj, Flag.ofBool] at h
  have h2 := congrArg (fun r : Py (AdjMat 3 3 Int) => match r with | .ok (.bools b) => b 0 1 | _ => false) h
  revert h2
  decide
example : ∀ m, OneNearest (fun i j : Fin 3 => ((i.val : Int) - j.val - 1) * ((i.val : Int) - j.val - 1) * 2 + i.val) m :=
  C134_distinct _ (by
    intro j x y
    revert x y j
    decide)
example (argpart' : (Fin 3 → Int) → Fin 3 → List (Fin 3)) (hap' : ∀ col k, IsArgpartition col k (argpart' col k)) :
    ∃ a, knnAdj exPart (fun i j : Fin 3 => (2 * (i.val : Int) + j.val)) 1 false false true .absent = .ok a ∧
      knnAdj argpart' (fun i j : Fin 3 => (2 * ((Equiv.swap (0 : Fin 3) 1 i).val : Int) + (Equiv.swap (0 : Fin 3) 1 j).val)) 1 false false
        true .absent = .ok (renumber (Equiv.swap 0 1) a) := by
  have h := C134_knn exPart argpart' exPart_ok hap' (fun i j : Fin 3 => (2 * (i.val : Int) + j.val)) (Equiv.swap 0 1) 1 false false
    true .absent (fun kth _ => C134_distinct _ (by intro j x y h; simp at h; omega) _)
  refine ⟨_, rfl, ?_⟩
  exact h
example : ∀ j i : Fin 4, i ≠ j → exKnn j j < exKnn i j := by decide

end Gcl
