import Mathlib.Data.EReal.Basic
import Verif.Model.Momentum
/-! # Specification vocabulary for weighted distances -/
namespace Gcl.Spec
set_option autoImplicit false
open Gcl

/-- Rank of a floating point number where nan comes before all others. -/
noncomputable def flRank : Fl → WithBot EReal
  | .nan => ⊥
  | .ninf => ((⊥ : EReal) : WithBot EReal)
  | .fin x => ((x : EReal) : WithBot EReal)
  | .pinf => ((⊤ : EReal) : WithBot EReal)

theorem flRank_injective : Function.Injective flRank := by
  intro a b h
  cases a <;> cases b <;> simp_all [flRank]

/-- The order of the floating point numbers with nan before all others. -/
noncomputable instance nanFirst : LinearOrder Fl := LinearOrder.lift' flRank flRank_injective

/-- It is what its name says. -/
theorem nanFirst_spec :
    (∀ a, Fl.nan ≤ a) ∧ (∀ a, a ≤ Fl.nan → a = Fl.nan) ∧ (∀ x y : ℝ, Fl.fin x < Fl.fin y ↔ x < y) ∧
    (∀ x : ℝ, Fl.ninf < Fl.fin x ∧ Fl.fin x < Fl.pinf) := by
  refine ⟨fun a => ?_, fun a h => ?_, fun x y => ?_, fun x => ⟨?_, ?_⟩⟩
  · show flRank .nan ≤ flRank a
    simp [flRank]
  · have h' : flRank a ≤ flRank .nan := h
    apply flRank_injective
    simpa [flRank] using h'
  · show flRank (.fin x) < flRank (.fin y) ↔ _
    simp [flRank]
  · show flRank .ninf < flRank (.fin x)
    simp [flRank]
  · show flRank (.fin x) < flRank .pinf
    exact WithBot.coe_lt_coe.2 (EReal.coe_lt_top x)

end Gcl.Spec
