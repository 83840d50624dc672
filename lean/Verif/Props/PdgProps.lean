import Verif.Spec.PdgProps
import Verif.Props.Index
import Mathlib.Tactic.Linarith
/-! # C103: particle properties of `PdgArray` -/
namespace Gcl
set_option autoImplicit false
open Spec

/-- **C103** Every property lists one entry per code, in order: the one of the table for that code, with masses, widths
and their bounds divided by 1000; missing entries stay missing. -/
theorem C103_entries (t : PdgTable) (codes : List Int) (i : Nat) :
    (∀ q, (pdgText t codes q).length = codes.length ∧
      (pdgText t codes q)[i]? = codes[i]?.map (fun c => t.text c (textColumn q))) ∧
    (∀ q, (pdgNum t codes q).length = codes.length ∧
      (pdgNum t codes q)[i]? = codes[i]?.map (fun c => (t.num c (numColumn q).1).map (fun x => x * (numColumn q).2))) ∧
    (∀ q, (pdgBounds t codes q).length = codes.length ∧
      (pdgBounds t codes q)[i]? = codes[i]?.map (fun c =>
        ((t.num c (boundColumns q).1).map (fun x => x / 1000), (t.num c (boundColumns q).2).map (fun x => x / 1000)))) := by
  have hid : ∀ o : Option Rat, o.map (fun x => x * 1) = o := fun o => by cases o <;> simp
  have hdiv : (fun x : Rat => x / 1000) = (fun x => x * megaToGiga) := by
    funext x; simp [megaToGiga, div_eq_mul_inv]
  refine ⟨fun q => ?_, fun q => ?_, fun q => ?_⟩
  · cases q <;> simp [pdgText, getText, textColumn]
  · cases q <;> simp [pdgNum, getNum, numColumn, megaToGiga, Option.map_map, Function.comp_def]
  · rw [hdiv]
    cases q <;> simp only [pdgBounds, scaleRange, getRange, boundColumns, List.length_map, List.getElem?_map,
      Option.map_map, Function.comp_def, true_and] <;> rfl

/-- **C103** Hence every property commutes with every subscript: the property of the selected codes is the selection of
the property. -/
theorem C103_subscript (t : PdgTable) (codes : List Int) (k : Key) :
    (∀ q, (k.apply codes).map (fun c => pdgText t c q) = k.apply (pdgText t codes q)) ∧
    (∀ q, (k.apply codes).map (fun c => pdgNum t c q) = k.apply (pdgNum t codes q)) ∧
    (∀ q, (k.apply codes).map (fun c => pdgBounds t c q) = k.apply (pdgBounds t codes q)) := by
  have key : ∀ {β : Type} (f : Int → β), (k.apply codes).map (fun c => c.map f) = k.apply (codes.map f) := by
    intro β f
    unfold Key.apply
    rw [List.length_map]
    cases k.resolve codes.length with
    | error e => rfl
    | ok idxs =>
      simp only [Except.map, Except.ok.injEq]
      unfold gather
      rw [List.map_filterMap]
      simp
  refine ⟨fun q => ?_, fun q => ?_, fun q => ?_⟩
  · cases q <;> exact key _
  · cases q <;> simp only [pdgNum, getNum, List.map_map] <;> exact key _
  · cases q <;> simp only [pdgBounds, scaleRange, getRange, List.map_map] <;> exact key _

/-- **C103** If the table's mass lies within its bounds, so does the mass shown within the bounds shown (and likewise the
width): they are in the same unit. -/
theorem C103_within (t : PdgTable) (codes : List Int) (i : Nat) (m lo hi : Rat) :
    ((pdgNum t codes .mass)[i]? = some (some m) → (pdgBounds t codes .mass)[i]? = some (some lo, some hi) →
      ∀ c m' lo' hi', codes[i]? = some c → t.num c "mass" = some m' → t.num c "masslower" = some lo' →
        t.num c "massupper" = some hi' → (lo ≤ m ↔ lo' ≤ m') ∧ (m ≤ hi ↔ m' ≤ hi')) ∧
    ((pdgNum t codes .width)[i]? = some (some m) → (pdgBounds t codes .width)[i]? = some (some lo, some hi) →
      ∀ c m' lo' hi', codes[i]? = some c → t.num c "width" = some m' → t.num c "widthlower" = some lo' →
        t.num c "widthupper" = some hi' → (lo ≤ m ↔ lo' ≤ m') ∧ (m ≤ hi ↔ m' ≤ hi')) := by
  have h := C103_entries t codes i
  constructor <;>
  · intro h1 h2 c m' lo' hi' hc hm hl hh
    have e1 := (h.2.1 _).2 ▸ h1
    have e2 := (h.2.2 _).2 ▸ h2
    simp only [hc, Option.map_some, numColumn, boundColumns, hm, hl, hh, Option.some.injEq, Prod.mk.injEq] at e1 e2
    obtain ⟨e3, e4⟩ := e2
    subst e1; subst e3; subst e4
    constructor <;> constructor <;> intro h <;> linarith

-- a table with two particles, one entry missing
example : let t : PdgTable := ⟨fun c f => if c = 11 ∧ f = "name" then some "e-" else none,
      fun c f => if c = 11 ∧ f = "mass" then some 511 else if c = 11 ∧ f = "charge" then some (-1) else none⟩
    pdgText t [11, 99] .name = [some "e-", none] ∧ pdgNum t [11, 99, 11] .charge = [some (-1), none, some (-1)] := by
  intro t
  constructor <;> decide

example : Key.apply (.slice (some 1) none none) ([11, 22, 13] : List Int) = .ok [22, 13] := by decide

end Gcl
