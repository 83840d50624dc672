import Mathlib.Algebra.BigOperators.Group.Finset.Piecewise
import Mathlib.Algebra.BigOperators.Group.Finset.Basic
import Verif.Spec.Flow
import Verif.Props.HardDesc
import Verif.Props.Kinematics
import Verif.Props.Descend
import Verif.Props.Adj
import Verif.Props.Prune
/-! # C137: momentum flows through the graph

If momentum is conserved at the vertices, the final descendants of a vertex carry what enters its shower from
outside. -/
namespace Gcl
set_option autoImplicit false
open Spec

open Classical in
/-- One component of `totalOf`. -/
noncomputable def csum (f : P4 → ℝ) (l : List ((Int × Int) × P4)) (P : Int × Int → Prop) : ℝ :=
  (l.map (fun r => if P r.1 then f r.2 else 0)).sum

theorem csum_filter (f : P4 → ℝ) (l : List ((Int × Int) × P4)) (P : Int × Int → Prop) [DecidablePred P] :
    (((l.filter (fun r => decide (P r.1))).map Prod.snd).map f).sum = csum f l P := by
  induction l with
  | nil => rfl
  | cons r l ih =>
    unfold csum at ih ⊢
    by_cases h : P r.1
    · rw [List.filter_cons_of_pos (by simpa using h)]
      simp only [List.map_cons, List.sum_cons, ih, if_pos h]
    · rw [List.filter_cons_of_neg (by simpa using h)]
      simp only [List.map_cons, List.sum_cons, ih, if_neg h, zero_add]

theorem totalOf_eq (es : List (Int × Int)) (pmu : List P4) (P : Int × Int → Prop) :
    totalOf es pmu P = ⟨csum P4.x (es.zip pmu) P, csum P4.y (es.zip pmu) P, csum P4.z (es.zip pmu) P,
      csum P4.e (es.zip pmu) P⟩ := by
  classical
  unfold totalOf Gcl.total
  congr 1 <;> exact csum_filter _ _ _

theorem csum_congr (f : P4 → ℝ) {l : List ((Int × Int) × P4)} {P Q : Int × Int → Prop}
    (h : ∀ r ∈ l, (P r.1 ↔ Q r.1)) : csum f l P = csum f l Q := by
  unfold csum
  congr 1
  apply List.map_congr_left
  intro r hr
  by_cases hp : P r.1
  · simp [hp, (h r hr).1 hp]
  · have hq : ¬ Q r.1 := fun hq => hp ((h r hr).2 hq)
    simp [hp, hq]

theorem csum_split (f : P4 → ℝ) (l : List ((Int × Int) × P4)) (P Q : Int × Int → Prop) :
    csum f l P = csum f l (fun e => P e ∧ Q e) + csum f l (fun e => P e ∧ ¬ Q e) := by
  unfold csum
  induction l with
  | nil => simp
  | cons r l ih =>
    simp only [List.map_cons, List.sum_cons, ih]
    by_cases hp : P r.1 <;> by_cases hq : Q r.1 <;> simp [hp, hq] <;> ring

open Classical in
theorem csum_finset (f : P4 → ℝ) (l : List ((Int × Int) × P4)) (g : Int × Int → Int) (U : Finset Int) :
    ∑ u ∈ U, csum f l (fun e => g e = u) = csum f l (fun e => g e ∈ U) := by
  unfold csum
  induction l with
  | nil => simp
  | cons r l ih =>
    simp only [List.map_cons, List.sum_cons, Finset.sum_add_distrib, ih]
    congr 1
    have := Finset.sum_ite_eq U (g r.1) (fun _ => f r.2)
    convert this using 2
    congr

/-- The balance of a set of conserving vertices: what leaves them is what enters them. -/
theorem csum_balance (f : P4 → ℝ) (l : List ((Int × Int) × P4)) (U : Finset Int)
    (h : ∀ u ∈ U, csum f l (fun e => e.2 = u) = csum f l (fun e => e.1 = u)) :
    csum f l (fun e => e.1 ∈ U) = csum f l (fun e => e.2 ∈ U) := by
  rw [← csum_finset f l Prod.fst, ← csum_finset f l Prod.snd]
  exact (Finset.sum_congr rfl h).symm

theorem conserved_comp {es : List (Int × Int)} {pmu : List P4} {u : Int} (h : ConservedAt es pmu u) :
    ∀ f ∈ [P4.x, P4.y, P4.z, P4.e], csum f (es.zip pmu) (fun e => e.2 = u) = csum f (es.zip pmu) (fun e => e.1 = u) := by
  unfold ConservedAt at h
  rw [totalOf_eq, totalOf_eq] at h
  injection h with h1 h2 h3 h4
  intro f hf
  simp only [List.mem_cons, List.not_mem_nil, or_false] at hf
  rcases hf with rfl | rfl | rfl | rfl <;> assumption

theorem totalOf_congr_comp {es : List (Int × Int)} {pmu : List P4} {P Q : Int × Int → Prop}
    (h : ∀ f ∈ [P4.x, P4.y, P4.z, P4.e], csum f (es.zip pmu) P = csum f (es.zip pmu) Q) :
    totalOf es pmu P = totalOf es pmu Q := by
  rw [totalOf_eq, totalOf_eq, h P4.x (by simp), h P4.y (by simp), h P4.z (by simp), h P4.e (by simp)]

theorem totalOf_congr {es : List (Int × Int)} {pmu : List P4} {P Q : Int × Int → Prop}
    (h : ∀ e ∈ es, (P e ↔ Q e)) : totalOf es pmu P = totalOf es pmu Q :=
  totalOf_congr_comp (fun f _ => csum_congr f (fun r hr => h r.1 (List.of_mem_zip hr).1))

/-- Selecting with a mask that is true where `P` holds sums the particles with `P`. -/
theorem total_selected (es : List (Int × Int)) (pmu : List P4) (m : List Bool) (P : Int × Int → Prop)
    (hl : pmu.length = es.length) (hm : m.length = es.length)
    (h : ∀ (i : Nat) e, es[i]? = some e → (m[i]? = some true ↔ P e)) :
    total (selected pmu m) = totalOf es pmu P := by
  classical
  have : selected pmu m = ((es.zip pmu).filter (fun r => decide (P r.1))).map Prod.snd := by
    induction es generalizing pmu m with
    | nil =>
      rw [List.length_nil, List.length_eq_zero_iff] at hl hm
      subst hl; subst hm; rfl
    | cons e es ih =>
      obtain ⟨p, pmu, rfl⟩ := List.exists_cons_of_length_eq_add_one hl
      obtain ⟨b, m, rfl⟩ := List.exists_cons_of_length_eq_add_one hm
      have h0 := h 0 e rfl
      simp only [List.getElem?_cons_zero, Option.some.injEq] at h0
      have hr := ih pmu m (by simpa using hl) (by simpa using hm)
        (fun i e' he => by simpa using h (i + 1) e' (by simpa using he))
      rw [selected_cons, hr, List.zip_cons_cons]
      by_cases hp : P e
      · rw [List.filter_cons_of_pos (by simpa using hp), h0.2 hp]; rfl
      · have hb : b = false := by
          cases b with
          | false => rfl
          | true => exact absurd (h0.1 rfl) hp
        rw [List.filter_cons_of_neg (by simpa using hp), hb]; rfl
  rw [this]
  unfold totalOf
  congr 1

/-- `pmu[mask_a & mask_b]`, summed. -/
theorem total_both (es : List (Int × Int)) (pmu : List P4) (a b : List Bool) (P Q : Int × Int → Prop)
    (hl : pmu.length = es.length) (ha : a.length = es.length) (hb : b.length = es.length)
    (h : ∀ (i : Nat) e, es[i]? = some e → (a[i]? = some true ↔ P e))
    (h' : ∀ (i : Nat) e, es[i]? = some e → (b[i]? = some true ↔ Q e)) :
    ∃ both sel, bcast2 (· && ·) a b = .ok both ∧ (Key.mask both).apply pmu = .ok sel ∧
      total sel = totalOf es pmu (fun e => P e ∧ Q e) := by
  refine ⟨_, _, bcast2_eq_length _ (by omega), (C20_mask pmu _).1 (by simp; omega), ?_⟩
  refine total_selected es pmu _ _ hl (by simp; omega) ?_
  intro i e he
  rw [← h i e he, ← h' i e he, List.getElem?_zipWith]
  rcases a[i]? with _ | x <;> rcases b[i]? with _ | y <;> simp

/-- The balance of a shower: the momentum of the leaves below `v` is what enters from outside. -/
theorem shower_balance (es : List (Int × Int)) (pmu : List P4) (v : Int)
    (hc : ∀ u, Reach es v u → HasOut es u → ConservedAt es pmu u) :
    totalOf es pmu (fun e => Reach es v e.1 ∧ ¬ HasOut es e.2) =
      totalOf es pmu (fun e => (¬ Reach es v e.1 ∧ Reach es v e.2) ∧ HasOut es e.2) := by
  classical
  apply totalOf_congr_comp
  intro f hf
  set l := es.zip pmu with hldef
  have hmem : ∀ r ∈ l, r.1 ∈ es := fun r hr => (List.of_mem_zip hr).1
  let U : Finset Int := ((es.map Prod.fst).toFinset).filter (fun u => Reach es v u)
  have hU : ∀ u, u ∈ U ↔ Reach es v u ∧ HasOut es u := by
    intro u
    simp only [U, Finset.mem_filter, List.mem_toFinset, List.mem_map, HasOut]
    constructor
    · rintro ⟨⟨e, he, rfl⟩, h2⟩; exact ⟨h2, e.2, he⟩
    · rintro ⟨h2, w, hw⟩; exact ⟨⟨_, hw, rfl⟩, h2⟩
  have hb := csum_balance f l U (fun u hu => conserved_comp (hc u ((hU u).1 hu).1 ((hU u).1 hu).2) f hf)
  -- edges leaving the vertices
  have e1 : csum f l (fun e => e.1 ∈ U) = csum f l (fun e => Reach es v e.1) :=
    csum_congr f (fun r hr => ⟨fun h => ((hU _).1 h).1, fun h => (hU _).2 ⟨h, r.1.2, hmem r hr⟩⟩)
  rw [e1, csum_split f l (fun e => Reach es v e.1) (fun e => HasOut es e.2),
    csum_split f l (fun e => e.2 ∈ U) (fun e => Reach es v e.1)] at hb
  have e2 : csum f l (fun e => e.2 ∈ U ∧ Reach es v e.1) = csum f l (fun e => Reach es v e.1 ∧ HasOut es e.2) :=
    csum_congr f (fun r hr => ⟨fun h => ⟨h.2, ((hU _).1 h.1).2⟩,
      fun h => ⟨(hU _).2 ⟨h.1.tail (hmem r hr), h.2⟩, h.1⟩⟩)
  have e3 : csum f l (fun e => e.2 ∈ U ∧ ¬ Reach es v e.1) =
      csum f l (fun e => (¬ Reach es v e.1 ∧ Reach es v e.2) ∧ HasOut es e.2) :=
    csum_congr f (fun r _ => ⟨fun h => ⟨⟨h.2, ((hU _).1 h.1).1⟩, ((hU _).1 h.1).2⟩,
      fun h => ⟨(hU _).2 ⟨h.1.2, h.2⟩, h.1.1⟩⟩)
  rw [e2, e3] at hb
  linarith

/-- **C137** If momentum is conserved at every vertex of the shower of `v` that has outgoing edges, the momenta of
`vertex_descendants(adj, v) & adj.leaves` add up to what enters the shower from outside: the particles that end in a
vertex with outgoing edges reached from `v` without starting in one. For every graph, cyclic ones included. -/
theorem C137_shower (es : List (Int × Int)) (pmu : List P4) (v : Int) (hl : pmu.length = es.length)
    (hv : HasOut es v) (hc : ∀ u, Reach es v u → HasOut es u → ConservedAt es pmu u) :
    ∃ desc leaf both sel, vertexDescendants es v = .ok desc ∧ leaves es = .ok leaf ∧
      bcast2 (· && ·) desc leaf = .ok both ∧ (Key.mask both).apply pmu = .ok sel ∧
      total sel = totalOf es pmu (fun e => (¬ Reach es v e.1 ∧ Reach es v e.2) ∧ HasOut es e.2) := by
  have hne : es ≠ [] := by obtain ⟨w, hw⟩ := hv; exact List.ne_nil_of_mem hw
  obtain ⟨desc, d1, d2, d3⟩ := C39_descendants es v
  obtain ⟨leaf, l1, l2, l3⟩ := C34_leaves es hne
  obtain ⟨both, sel, b1, b2, b3⟩ := total_both es pmu desc leaf (fun e => Reach es v e.1) (fun e => ¬ HasOut es e.2) hl
    d2 l2 (fun i e he => (d3 i e he).1 hv) (fun i e he => by
      rw [l3 i e he]
      constructor
      · rintro h ⟨w, hw⟩; exact h _ hw rfl
      · rintro h ⟨a, b⟩ he' rfl; exact h ⟨b, he'⟩)
  exact ⟨desc, leaf, both, sel, d1, l1, b1, b2, b3.trans (shower_balance es pmu v hc)⟩

/-- Only one record satisfies `P`. -/
theorem totalOf_single (es : List (Int × Int)) (pmu : List P4) (P : Int × Int → Prop) (i : Nat) (p : P4)
    (hp : pmu[i]? = some p) (hl : pmu.length = es.length)
    (h : ∀ (j : Nat) e, es[j]? = some e → (P e ↔ j = i)) : totalOf es pmu P = p := by
  have hi : i < pmu.length := (List.getElem?_eq_some_iff.1 hp).1
  rw [← total_selected es pmu ((List.range es.length).map (fun j => decide (j = i))) P hl (by simp)
    (fun j e he => by
      have hj : j < es.length := (List.getElem?_eq_some_iff.1 he).1
      rw [h j e he]; simp [hj])]
  have : selected pmu ((List.range es.length).map (fun j => decide (j = i))) = [p] := by
    rw [← gather_eq_selected _ _ (by simp [hl]), trueIdxs_eq_filter]
    have hf : (List.range ((List.range es.length).map (fun j => decide (j = i))).length).filter
        (fun k => (((List.range es.length).map (fun j => decide (j = i)))[k]?.getD false)) = [i] := by
      rw [List.length_map, List.length_range]
      have : ∀ n, i < n → (List.range n).filter (fun k => decide (k = i)) = [i] := by
        intro n hn
        induction n with
        | zero => omega
        | succ n ih =>
          rw [List.range_succ, List.filter_append]
          by_cases hin : i < n
          · rw [ih hin]
            have : n ≠ i := by omega
            simp [this]
          · have : n = i := by omega
            subst this
            have : (List.range n).filter (fun k => decide (k = n)) = [] := by
              rw [List.filter_eq_nil_iff]; intro a ha; simp at ha ⊢; omega
            rw [this]; simp
      rw [← this es.length (by omega)]
      apply List.filter_congr
      intro k hk
      have hk : k < es.length := by simpa using hk
      simp [hk]
    rw [hf]
    simp [gather, hp]
  rw [this]
  simp [total]

/-- **C137** So if the only particle entering the shower of its end vertex from outside is the particle at position `i`
itself, its final descendants add up to its momentum, and have its mass as `combined_mass` (zero if that is negative).
The final flags are the leaves of the graph; the mask is the one `hard_descendants` gives for the particle, or
`edge_descendants`. -/
theorem C137_parton (es : List (Int × Int)) (pmu : List P4) (i : Nat) (u v : Int) (p : P4) (d final : List Bool)
    (hl : pmu.length = es.length) (hi : es[i]? = some (u, v)) (hp : pmu[i]? = some p) (hv : HasOut es v)
    (hc : ∀ w, Reach es v w → HasOut es w → ConservedAt es pmu w)
    (hin : ∀ (j : Nat) e, es[j]? = some e → HasOut es e.2 → ((¬ Reach es v e.1 ∧ Reach es v e.2) ↔ j = i))
    (hd : d.length = es.length)
    (hd' : ∀ (j : Nat) (e : Int × Int), es[j]? = some e → (d[j]? = some true ↔ j = i ∨ Descends es v e))
    (hf : leaves es = .ok final) :
    ∃ both sel, bcast2 (· && ·) d final = .ok both ∧ (Key.mask both).apply pmu = .ok sel ∧ total sel = p ∧
      combinedMass sel = max 0 p.mass := by
  have hne : es ≠ [] := by obtain ⟨w, hw⟩ := hv; exact List.ne_nil_of_mem hw
  obtain ⟨leaf, l1, l2, l3⟩ := C34_leaves es hne
  rw [hf] at l1
  cases l1
  have hleaf : ∀ (j : Nat) e, es[j]? = some e → (final[j]? = some true ↔ ¬ HasOut es e.2) := by
    intro j e he
    rw [l3 j e he]
    constructor
    · rintro h ⟨w, hw⟩; exact h _ hw rfl
    · rintro h ⟨a, b⟩ he' rfl; exact h ⟨b, he'⟩
  refine ⟨_, _, bcast2_eq_length _ (by omega), (C20_mask pmu _).1 (by simp; omega), ?_⟩
  have key : total (selected pmu (List.zipWith (· && ·) d final)) = p := by
    rw [total_selected es pmu _ (fun e => Reach es v e.1 ∧ ¬ HasOut es e.2) hl (by simp; omega), shower_balance es pmu v hc]
    · apply totalOf_single es pmu _ i p hp hl
      intro j e he
      constructor
      · rintro ⟨h1, h2⟩; exact (hin j e he h2).1 h1
      · rintro rfl
        rw [hi] at he
        cases he
        exact ⟨(hin j (u, v) hi hv).2 rfl, hv⟩
    · intro j e he
      have hand : ((List.zipWith (· && ·) d final)[j]? = some true) ↔ d[j]? = some true ∧ final[j]? = some true := by
        rw [List.getElem?_zipWith]
        rcases d[j]? with _ | x <;> rcases final[j]? with _ | y <;> simp
      rw [hand, hleaf j e he, hd' j e he]
      constructor
      · rintro ⟨rfl | h1, h2⟩
        · rw [hi] at he; cases he; exact absurd hv h2
        · rcases h1 with ⟨-, h1⟩ | ⟨h1, -⟩
          · exact ⟨h1, h2⟩
          · exact absurd hv h1
      · rintro ⟨h1, h2⟩; exact ⟨Or.inr (Or.inl ⟨hv, h1⟩), h2⟩
  exact ⟨key, by rw [(C67_combined _).1, key]⟩

/-- **C137** The final particles of the whole event carry the momentum of the incoming ones: if momentum is conserved at
every vertex with incoming and outgoing edges, `pmu[adj.leaves]` and `pmu[adj.roots]` have the same sum. -/
theorem C137_event (es : List (Int × Int)) (pmu : List P4) (hne : es ≠ []) (hl : pmu.length = es.length)
    (hc : ∀ u, HasIn es u → HasOut es u → ConservedAt es pmu u) :
    ∃ root leaf sel sel', roots es = .ok root ∧ leaves es = .ok leaf ∧ (Key.mask root).apply pmu = .ok sel ∧
      (Key.mask leaf).apply pmu = .ok sel' ∧ total sel' = total sel ∧ combinedMass sel' = combinedMass sel := by
  classical
  obtain ⟨root, r1, r2, r3⟩ := C34_roots es hne
  obtain ⟨leaf, l1, l2, l3⟩ := C34_leaves es hne
  have key : total (selected pmu leaf) = total (selected pmu root) := by
    rw [total_selected es pmu leaf (fun e => ¬ HasOut es e.2) hl l2, total_selected es pmu root (fun e => ¬ HasIn es e.1)
      hl r2]
    · apply totalOf_congr_comp
      intro f hf
      set l := es.zip pmu with hldef
      have hmem : ∀ r ∈ l, r.1 ∈ es := fun r hr => (List.of_mem_zip hr).1
      let U : Finset Int := ((es.map Prod.fst).toFinset).filter (fun u => HasIn es u)
      have hU : ∀ u, u ∈ U ↔ HasIn es u ∧ HasOut es u := by
        intro u
        simp only [U, Finset.mem_filter, List.mem_toFinset, List.mem_map, HasOut]
        constructor
        · rintro ⟨⟨e, he, rfl⟩, h2⟩; exact ⟨h2, e.2, he⟩
        · rintro ⟨h2, w, hw⟩; exact ⟨⟨_, hw, rfl⟩, h2⟩
      have hb := csum_balance f l U (fun u hu => conserved_comp (hc u ((hU u).1 hu).1 ((hU u).1 hu).2) f hf)
      have s1 := csum_split f l (fun _ => True) (fun e => HasIn es e.1)
      have s2 := csum_split f l (fun _ => True) (fun e => HasOut es e.2)
      have e1 : csum f l (fun e => e.1 ∈ U) = csum f l (fun e => True ∧ HasIn es e.1) :=
        csum_congr f (fun r hr => ⟨fun h => ⟨trivial, ((hU _).1 h).1⟩, fun h => (hU _).2 ⟨h.2, r.1.2, hmem r hr⟩⟩)
      have e2 : csum f l (fun e => e.2 ∈ U) = csum f l (fun e => True ∧ HasOut es e.2) :=
        csum_congr f (fun r hr => ⟨fun h => ⟨trivial, ((hU _).1 h).2⟩, fun h => (hU _).2 ⟨⟨r.1.1, hmem r hr⟩, h.2⟩⟩)
      have e3 : csum f l (fun e => True ∧ ¬ HasIn es e.1) = csum f l (fun e => ¬ HasIn es e.1) :=
        csum_congr f (fun r _ => by simp)
      have e4 : csum f l (fun e => True ∧ ¬ HasOut es e.2) = csum f l (fun e => ¬ HasOut es e.2) :=
        csum_congr f (fun r _ => by simp)
      rw [e1, e2] at hb
      rw [e3] at s1
      rw [e4] at s2
      linarith
    · intro i e he
      rw [r3 i e he]
      constructor
      · rintro h ⟨w, hw⟩; exact h _ hw rfl
      · rintro h ⟨a, b⟩ he' rfl; exact h ⟨a, he'⟩
    · intro i e he
      rw [l3 i e he]
      constructor
      · rintro h ⟨w, hw⟩; exact h _ hw rfl
      · rintro h ⟨a, b⟩ he' rfl; exact h ⟨b, he'⟩
  exact ⟨root, leaf, _, _, r1, l1, (C20_mask pmu _).1 (by omega), (C20_mask pmu _).1 (by omega), key,
    by rw [(C67_combined _).1, (C67_combined _).1, key]⟩

/-- **C137** The same through `edge_descendants(adj, (u, v))`. -/
theorem C137_edge (es : List (Int × Int)) (pmu : List P4) (i : Nat) (u v : Int) (p : P4)
    (hl : pmu.length = es.length) (hi : es[i]? = some (u, v)) (hp : pmu[i]? = some p) (hv : HasOut es v)
    (hc : ∀ w, Reach es v w → HasOut es w → ConservedAt es pmu w)
    (hin : ∀ (j : Nat) e, es[j]? = some e → HasOut es e.2 → ((¬ Reach es v e.1 ∧ Reach es v e.2) ↔ j = i)) :
    ∃ d leaf both sel, edgeDescendants es (u, v) = .ok d ∧ leaves es = .ok leaf ∧ bcast2 (· && ·) d leaf = .ok both ∧
      (Key.mask both).apply pmu = .ok sel ∧ total sel = p ∧ combinedMass sel = max 0 p.mass := by
  have hne : es ≠ [] := by obtain ⟨w, hw⟩ := hv; exact List.ne_nil_of_mem hw
  obtain ⟨d, d1, d2, d3⟩ := C40_reach es u v
  obtain ⟨leaf, l1, -⟩ := C34_leaves es hne
  obtain ⟨both, sel, h⟩ := C137_parton es pmu i u v p d leaf hl hi hp hv hc hin d2 (fun j e he => by
    rw [(d3 j e he).1 hv, or_comm]
    constructor
    · rintro (rfl | h)
      · exact Or.inl ((hin j (u, v) he hv).1 ((hin i (u, v) hi hv).2 rfl))
      · exact Or.inr (Or.inl ⟨hv, h⟩)
    · rintro (rfl | ⟨-, h⟩ | ⟨h, -⟩)
      · rw [hi] at he; cases he; exact Or.inl rfl
      · exact Or.inr h
      · exact absurd hv h) l1
  exact ⟨d, leaf, both, sel, d1, l1, h⟩

/-- **C137** And through `hard_descendants(graph)`: the masks of the hard partons whose showers take in nothing else
select, among the final particles, momenta adding up to the parton's. -/
theorem C137_hard (nm : Int → String) (pdg status : List Int) (es : List (Int × Int)) (pmu : List P4)
    (h1 : pdg.length = es.length) (h2 : status.length = es.length) (hl : pmu.length = es.length)
    (hcol : ∀ c ∈ pdg, ':' ∉ (nm c).toList) (ss strict : Bool) (k i : Nat) (u v : Int) (p : P4)
    (hk : (partons status)[k]? = some i) (hi : es[i]? = some (u, v)) (hp : pmu[i]? = some p) (hv : HasOut es v)
    (hc : ∀ w, Reach es v w → HasOut es w → ConservedAt es pmu w)
    (hin : ∀ (j : Nat) e, es[j]? = some e → HasOut es e.2 → ((¬ Reach es v e.1 ∧ Reach es v e.2) ↔ j = i)) :
    ∃ out key d leaf both sel, hardDescendants nm pdg status es none ss strict = .ok out ∧ out[k]? = some (key, d) ∧
      leaves es = .ok leaf ∧ bcast2 (· && ·) d leaf = .ok both ∧ (Key.mask both).apply pmu = .ok sel ∧ total sel = p ∧
      combinedMass sel = max 0 p.mass := by
  have hne : es ≠ [] := by obtain ⟨w, hw⟩ := hv; exact List.ne_nil_of_mem hw
  obtain ⟨out, o1, -, o3⟩ := C44_all nm pdg status es h1 h2 hcol ss strict
  obtain ⟨key, d, k1, -, k3, k4⟩ := o3 k i hk
  obtain ⟨leaf, l1, -⟩ := C34_leaves es hne
  obtain ⟨both, sel, h⟩ := C137_parton es pmu i u v p d leaf hl hi hp hv hc hin k3 (fun j e he => k4 j e (u, v) he hi) l1
  exact ⟨out, key, d, leaf, both, sel, o1, k1, l1, h⟩

/-- Two quarks hadronising together. -/
def exFlowEdges : List (Int × Int) := [(1, 3), (2, 3), (3, 4)]
noncomputable def exFlowPmu : List P4 := [⟨0, 0, 1, 1⟩, ⟨0, 0, 2, 2⟩, ⟨0, 0, 3, 3⟩]

/-- **C137** That nothing else enters the shower is needed: momentum is conserved here at every inner vertex, and yet the
final descendants of the first quark do not carry its momentum. -/
theorem C137_false : (∀ u, HasIn exFlowEdges u → HasOut exFlowEdges u → ConservedAt exFlowEdges exFlowPmu u) ∧
    ∃ d leaf both sel, edgeDescendants exFlowEdges (1, 3) = .ok d ∧ leaves exFlowEdges = .ok leaf ∧
      bcast2 (· && ·) d leaf = .ok both ∧ (Key.mask both).apply exFlowPmu = .ok sel ∧
      exFlowPmu[0]? = some ⟨0, 0, 1, 1⟩ ∧ total sel ≠ ⟨0, 0, 1, 1⟩ := by
  constructor
  · rintro u ⟨w, hw⟩ ⟨w', hw'⟩
    simp only [exFlowEdges, List.mem_cons, Prod.mk.injEq, List.not_mem_nil, or_false] at hw hw'
    have : u = 3 := by omega
    subst this
    unfold ConservedAt
    rw [totalOf_eq, totalOf_eq]
    norm_num [csum, exFlowEdges, exFlowPmu]
  · refine ⟨[true, false, true], [false, false, true], [false, false, true], [⟨0, 0, 3, 3⟩], rfl, rfl, rfl, rfl, rfl, ?_⟩
    simp [total]

/-- A particle decaying twice, and a spectator. -/
def exFlowEdges2 : List (Int × Int) := [(1, 2), (2, 3), (2, 4), (3, 5), (3, 6), (7, 8)]
noncomputable def exFlowPmu2 : List P4 :=
  [⟨0, 0, 3, 6⟩, ⟨1, 0, 1, 4⟩, ⟨-1, 0, 2, 2⟩, ⟨1, 1, 0, 2⟩, ⟨0, -1, 1, 2⟩, ⟨0, 0, 9, 9⟩]

theorem exFlow2_conserved : ∀ u, HasIn exFlowEdges2 u → HasOut exFlowEdges2 u → ConservedAt exFlowEdges2 exFlowPmu2 u := by
  rintro u ⟨w, hw⟩ ⟨w', hw'⟩
  simp only [exFlowEdges2, List.mem_cons, Prod.mk.injEq, List.not_mem_nil, or_false] at hw hw'
  have : u = 2 ∨ u = 3 := by omega
  rcases this with rfl | rfl <;>
  · unfold ConservedAt
    rw [totalOf_eq, totalOf_eq]
    norm_num [csum, exFlowEdges2, exFlowPmu2]

theorem exFlow2_reach {u : Int} (h : Reach exFlowEdges2 2 u) : u = 2 ∨ u = 3 ∨ u = 4 ∨ u = 5 ∨ u = 6 := by
  induction h with
  | refl => simp
  | tail _ hs ih =>
    have hs' : _ ∈ exFlowEdges2 := hs
    simp only [exFlowEdges2, List.mem_cons, Prod.mk.injEq, List.not_mem_nil, or_false] at hs'
    omega

-- the hypotheses of `C137_edge` hold for the decaying particle at position 0
example : ∃ d leaf both sel, edgeDescendants exFlowEdges2 (1, 2) = .ok d ∧ leaves exFlowEdges2 = .ok leaf ∧
    bcast2 (· && ·) d leaf = .ok both ∧ (Key.mask both).apply exFlowPmu2 = .ok sel ∧ total sel = ⟨0, 0, 3, 6⟩ ∧
    combinedMass sel = max 0 (⟨0, 0, 3, 6⟩ : P4).mass := by
  have h23 : Reach exFlowEdges2 2 3 := .single (by simp [Spec.Step, exFlowEdges2])
  refine C137_edge exFlowEdges2 exFlowPmu2 0 1 2 _ rfl rfl rfl ⟨3, by decide⟩ (fun w hw ho => ?_) ?_
  · refine exFlow2_conserved w ?_ ho
    obtain ⟨y, hy⟩ := ho
    simp only [exFlowEdges2, List.mem_cons, Prod.mk.injEq, List.not_mem_nil, or_false] at hy
    have := exFlow2_reach hw
    have : w = 2 ∨ w = 3 := by omega
    rcases this with rfl | rfl
    · exact ⟨1, by decide⟩
    · exact ⟨2, by decide⟩
  · rintro j e he ⟨y, hy⟩
    simp only [exFlowEdges2, List.mem_cons, Prod.mk.injEq, List.not_mem_nil, or_false] at hy
    have hj : j < 6 := by simpa [exFlowEdges2] using (List.getElem?_eq_some_iff.1 he).1
    have hr := @exFlow2_reach
    have hjj : j = 0 ∨ j = 1 ∨ j = 2 ∨ j = 3 ∨ j = 4 ∨ j = 5 := by omega
    rcases hjj with rfl | rfl | rfl | rfl | rfl | rfl <;> simp only [exFlowEdges2, List.getElem?_cons_zero, List.getElem?_cons_succ, Option.some.injEq] at he <;>
      subst he <;> simp only at hy ⊢
    · refine ⟨fun _ => trivial, fun _ => ⟨fun h => ?_, .refl⟩⟩
      have := hr h; omega
    · exact ⟨fun h => absurd .refl h.1, fun h => by omega⟩
    all_goals omega

end Gcl
