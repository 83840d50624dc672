import Mathlib.Data.List.Nodup
import Mathlib.Tactic.Linarith
import Verif.Spec.Adj
/-! # Lemmas on relabelling -/
namespace Gcl
set_option autoImplicit false
open Spec

theorem mem_insertUniq (x y : Int) (l : List Int) : y ∈ insertUniq x l ↔ y = x ∨ y ∈ l := by
  induction l with
  | nil => simp [insertUniq]
  | cons z l ih =>
    unfold insertUniq
    split
    · simp
    · split
      · next h => subst h; simp
      · simp [ih]; tauto

theorem insertUniq_sorted (x : Int) (l : List Int) (h : l.Pairwise (· < ·)) :
    (insertUniq x l).Pairwise (· < ·) := by
  induction l with
  | nil => simp [insertUniq]
  | cons z l ih =>
    rw [List.pairwise_cons] at h
    unfold insertUniq
    split
    · next hlt =>
      rw [List.pairwise_cons]
      refine ⟨?_, List.pairwise_cons.2 h⟩
      intro y hy
      rcases List.mem_cons.1 hy with rfl | hy
      · exact hlt
      · exact lt_trans hlt (h.1 y hy)
    · split
      · exact List.pairwise_cons.2 h
      · rw [List.pairwise_cons]
        refine ⟨?_, ih h.2⟩
        intro y hy
        rcases (mem_insertUniq x y l).1 hy with rfl | hy
        · omega
        · exact h.1 y hy

theorem npUnique_sorted (l : List Int) : (npUnique l).Pairwise (· < ·) := by
  unfold npUnique
  induction l with
  | nil => simp
  | cons x l ih => exact insertUniq_sorted x _ ih

theorem mem_npUnique (l : List Int) (v : Int) : v ∈ npUnique l ↔ v ∈ l := by
  unfold npUnique
  induction l with
  | nil => simp
  | cons x l ih => simp [mem_insertUniq, ih]

theorem npUnique_nodup (l : List Int) : (npUnique l).Nodup :=
  (npUnique_sorted l).imp (fun h => ne_of_lt h)

theorem mem_flatIds (es : List (Int × Int)) (v : Int) : v ∈ flatIds es ↔ IsVertex es v := by
  simp only [flatIds, List.mem_flatMap, IsVertex, List.mem_cons, List.not_mem_nil, or_false]
  constructor
  · rintro ⟨e, he, h | h⟩
    · exact ⟨e, he, Or.inl h.symm⟩
    · exact ⟨e, he, Or.inr h.symm⟩
  · rintro ⟨e, he, h | h⟩
    · exact ⟨e, he, Or.inl h.symm⟩
    · exact ⟨e, he, Or.inr h.symm⟩

/-- The ascending distinct vertex ids. -/
abbrev vs (es : List (Int × Int)) : List Int := npUnique (flatIds es)

theorem vs_vertexList (es : List (Int × Int)) : VertexList es (vs es) :=
  ⟨npUnique_sorted _, fun v => by rw [mem_npUnique, mem_flatIds]⟩

theorem vertexList_unique {es : List (Int × Int)} {ns ns' : List Int} (h : VertexList es ns)
    (h' : VertexList es ns') : ns = ns' := by
  have hp : ns.Perm ns' := by
    rw [List.perm_ext_iff_of_nodup (h.1.imp ne_of_lt) (h'.1.imp ne_of_lt)]
    intro v; rw [h.2, h'.2]
  exact hp.eq_of_pairwise (fun a b _ _ h1 h2 => absurd (lt_trans h1 h2) (lt_irrefl _)) h.1 h'.1

theorem idxOf_vs_inj (es : List (Int × Int)) {x y : Int} (hx : IsVertex es x)
    (h : (vs es).idxOf x = (vs es).idxOf y) : x = y := by
  have hx' : x ∈ vs es := ((vs_vertexList es).2 x).2 hx
  exact (List.idxOf_inj hx').1 h

theorem idxOf_vs_lt (es : List (Int × Int)) {x : Int} (hx : IsVertex es x) :
    (vs es).idxOf x < (vs es).length := by
  rw [List.idxOf_lt_length_iff]; exact ((vs_vertexList es).2 x).2 hx

theorem foldl_max_ge (rs : List (Nat × Nat)) (m : Nat) :
    m ≤ rs.foldl (fun m r => max m (max r.1 r.2)) m ∧
    ∀ r ∈ rs, r.1 ≤ rs.foldl (fun m r => max m (max r.1 r.2)) m ∧
      r.2 ≤ rs.foldl (fun m r => max m (max r.1 r.2)) m := by
  induction rs generalizing m with
  | nil => simp
  | cons r rs ih =>
    obtain ⟨h1, h2⟩ := ih (max m (max r.1 r.2))
    simp only [List.foldl_cons]
    refine ⟨by omega, ?_⟩
    intro s hs
    rcases List.mem_cons.1 hs with rfl | hs
    · omega
    · exact h2 s hs

theorem foldl_max_le (rs : List (Nat × Nat)) (m b : Nat) (hm : m ≤ b)
    (h : ∀ r ∈ rs, r.1 ≤ b ∧ r.2 ≤ b) : rs.foldl (fun m r => max m (max r.1 r.2)) m ≤ b := by
  induction rs generalizing m with
  | nil => simpa
  | cons r rs ih =>
    have := h r (by simp)
    exact ih _ (by show max m (max r.1 r.2) ≤ b; omega) (fun s hs => h s (by simp [hs]))

theorem sparseSize_relabel (es : List (Int × Int)) (hne : es ≠ []) :
    sparseSize (relabel es) = .ok (vs es).length := by
  obtain ⟨e, es', rfl⟩ := List.exists_cons_of_ne_nil hne
  set es := e :: es' with hes
  have hcons : relabel es = ((vs es).idxOf e.1, (vs es).idxOf e.2) ::
      es'.map (fun e => ((vs es).idxOf e.1, (vs es).idxOf e.2)) := rfl
  have hform : sparseSize (relabel es) =
      .ok ((relabel es).foldl (fun m r => max m (max r.1 r.2)) 0 + 1) := by
    rw [hcons]; rfl
  rw [hform]
  congr 1
  have hup : (relabel es).foldl (fun m r => max m (max r.1 r.2)) 0 ≤ (vs es).length - 1 := by
    apply foldl_max_le _ _ _ (by omega)
    intro r hr
    simp only [relabel, List.mem_map] at hr
    obtain ⟨e', he', rfl⟩ := hr
    have h1 := idxOf_vs_lt es (x := e'.1) ⟨e', he', Or.inl rfl⟩
    have h2 := idxOf_vs_lt es (x := e'.2) ⟨e', he', Or.inr rfl⟩
    constructor
    · exact Nat.le_sub_one_of_lt h1
    · exact Nat.le_sub_one_of_lt h2
  -- the last vertex occurs
  have hpos : 0 < (vs es).length := lt_of_le_of_lt (Nat.zero_le _)
    (idxOf_vs_lt es (x := e.1) ⟨e, by simp [hes], Or.inl rfl⟩)
  have hlast : (vs es)[(vs es).length - 1] ∈ vs es := List.getElem_mem _
  obtain ⟨e', he', hv⟩ := ((vs_vertexList es).2 _).1 hlast
  have hidx : (vs es).idxOf (vs es)[(vs es).length - 1] = (vs es).length - 1 :=
    (npUnique_nodup _).idxOf_getElem _ _
  have hmem : ((vs es).idxOf e'.1, (vs es).idxOf e'.2) ∈ relabel es := by
    simp only [relabel, List.mem_map]; exact ⟨e', he', rfl⟩
  have hge := (foldl_max_ge (relabel es) 0).2 _ hmem
  have : (vs es).length - 1 ≤ (relabel es).foldl (fun m r => max m (max r.1 r.2)) 0 := by
    rcases hv with hv | hv
    · have h1 := hge.1
      simp only [hv, hidx] at h1; exact h1
    · have h1 := hge.2
      simp only [hv, hidx] at h1; exact h1
  omega

theorem relabel_length (es : List (Int × Int)) : (relabel es).length = es.length := by
  simp [relabel]

theorem relabel_zip (es : List (Int × Int)) :
    List.zipWith (fun r (e : Int × Int) => ((r : Nat × Nat).1, r.2, decide (0 < e.2))) (relabel es) es =
      es.map (fun e => ((vs es).idxOf e.1, (vs es).idxOf e.2, decide (0 < e.2))) := by
  unfold relabel
  rw [List.zipWith_map_left]
  simp [List.zipWith_self]

theorem toSparse_ok (es : List (Int × Int)) (hne : es ≠ []) :
    toSparse es = .ok ((vs es).length,
      es.map (fun e => ((vs es).idxOf e.1, (vs es).idxOf e.2, decide (0 < e.2)))) := by
  unfold toSparse
  rw [sparseSize_relabel es hne]
  simp only [relabel_zip]

theorem toSparse_nil : toSparse [] = .error .valueError := rfl

end Gcl
