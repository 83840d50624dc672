import Verif.Props.HierMem
/-! # C48: `hierarchy` with unsuitable descendant masks -/
namespace Gcl
set_option autoImplicit false
open Spec

theorem sliceAll_err (m : List Bool) (desc : Dict (List Bool)) (h : ∃ p ∈ desc, p.2.length ≠ m.length) :
    sliceAll m desc = .error .indexError := by
  induction desc with
  | nil => obtain ⟨p, hp, -⟩ := h; cases hp
  | cons q desc ih =>
    obtain ⟨k, d⟩ := q
    unfold sliceAll
    by_cases hd : d.length = m.length
    · simp only [Key.apply, Key.resolve, hd, if_true]
      obtain ⟨p, hp, hne⟩ := h
      rcases List.mem_cons.1 hp with rfl | hp
      · exact absurd hd hne
      · rw [ih ⟨p, hp, hne⟩]
    · have : ¬ m.length = d.length := fun h => hd h.symm
      simp [Key.apply, Key.resolve, this]

theorem selectNames_err (g : Dict (List Bool)) (names : List String) (h : ∃ x ∈ names, x ∉ g.map Prod.fst)
    (acc : Dict (List Bool)) : selectNames g acc names = .error .keyError := by
  induction names generalizing acc with
  | nil => obtain ⟨p, hp, -⟩ := h; cases hp
  | cons k names ih =>
    unfold selectNames
    cases hk : Dict.get? g k with
    | none => rfl
    | some d =>
      obtain ⟨x, hx, hne⟩ := h
      rcases List.mem_cons.1 hx with rfl | hx
      · exact absurd (List.mem_map.2 ⟨_, Dict.mem_of_get? hk, rfl⟩) hne
      · exact ih ⟨x, hx, hne⟩ _

/-- **C48** Masks passed by the caller: without an intermediate hard parton they come back as they are, whatever they
are; with one, a mask of another length than the event raises `IndexError`, and otherwise a missing mask of some hard
parton raises `KeyError`. -/
theorem C48_given_errors (nm : Int → String) (pdg status : List Int) (final : List Bool)
    (es : List (Int × Int)) (h1 : pdg.length = es.length) (h2 : status.length = es.length)
    (desc : Dict (List Bool)) (names : List String)
    (hnames : ∀ k : Nat, names[k]? = partonKey (namesAt nm pdg (partons status)) k) :
    ((∀ s ∈ status, s.natAbs ≠ 22) →
      hierarchy nm pdg status final es (some desc) = .ok (desc.map (fun p => (p.1, Mask.arr p.2)))) ∧
    ((∃ s ∈ status, s.natAbs = 22) → (∃ p ∈ desc, p.2.length ≠ es.length) →
      hierarchy nm pdg status final es (some desc) = .error .indexError) ∧
    ((∃ s ∈ status, s.natAbs = 22) → (∀ p ∈ desc, p.2.length = es.length) → (∃ x ∈ names, x ∉ desc.map Prod.fst) →
      hierarchy nm pdg status final es (some desc) = .error .keyError) := by
  have hhl : (hardBools status).length = es.length := by simp [hardBools, h2]
  have hnm : (gather pdg (partons status)).map nm = namesAt nm pdg (partons status) := by
    rw [map_gather]; rfl
  have hne : names = pdgsToKeys ((gather pdg (partons status)).map nm) := by
    apply List.ext_getElem?
    intro k
    rw [hnames, (C43_keys _).2 k, hnm]
  have hpd : (Key.mask (hardBools status)).apply pdg = .ok (gather pdg (partons status)) := by
    simp only [Key.apply, Key.resolve, h1, hhl, if_true, trueIdxs_hard]
  have hgd : givenDesc nm pdg status es (some desc) = .ok desc := rfl
  have hany : (status.map (fun s => decide (s.natAbs = 22))).any id = true ↔ ∃ s ∈ status, s.natAbs = 22 := by
    rw [List.any_map, List.any_eq_true]
    simp
  rw [hierarchy_given]
  simp only [hpd, hgd, ← hne]
  refine ⟨fun hf => ?_, fun hi hl => ?_, fun hi hl hx => ?_⟩
  · rw [if_pos]
    rw [Bool.not_eq_true', ← Bool.not_eq_true, hany]
    rintro ⟨s, hs, hs'⟩; exact hf s hs hs'
  · rw [if_neg (by simpa using hany.2 hi)]
    unfold hierarchyTree
    rw [sliceAll_err _ _ (by rw [hhl]; exact hl)]
  · rw [if_neg (by simpa using hany.2 hi)]
    unfold hierarchyTree
    rw [sliceAll_ok _ _ (fun p hp => (hl p hp).trans hhl.symm)]
    simp only
    rw [selectNames_err]
    simpa [Function.comp_def] using hx

/-- A hard parton missing from the given masks. -/
example : hierarchy exNames exPdg exStatus exFinal exEdges (some (exDesc.filter (fun p => p.1 != "u"))) =
    .error .keyError := by rfl
example : hierarchy exNames exPdg exStatus exFinal exEdges (some (("x", [true]) :: exDesc)) = .error .indexError := by rfl
end Gcl
