import Verif.Model.Cached
/-! # Specification vocabulary for cached attributes -/
namespace Gcl.Spec
set_option autoImplicit false
open Gcl

/-- The quantity of one record. -/
noncomputable def quantity (tol : ℝ) (q : Qty) (p : P4) : Fl :=
  match q with
  | .pt => .fin p.pt
  | .eta => p.eta
  | .rapidity => p.rapidity tol
  | .phi => p.phi tol
  | .theta => .fin p.theta
  | .mass => .fin p.mass
  | .massT => .fin p.massT

/-- The records after a history: those of the last write. -/
def current (d : List P4) : List COp → List P4
  | [] => d
  | .read _ :: rest => current d rest
  | .write d' :: rest => current d' rest

/-- Quantities computed from the modulus of the momentum or its transverse part, which are kept from the first
time one of these quantities is read. -/
def usesModulus (q : Qty) : Prop := q ≠ .rapidity ∧ q ≠ .massT

instance (q : Qty) : Decidable (usesModulus q) := inferInstanceAs (Decidable (_ ∧ _))

/-- The records at the first read of a quantity that uses the modulus (the current ones if there was none). -/
def snapshot (d : List P4) : List COp → List P4
  | [] => d
  | .read q :: rest => if usesModulus q then d else snapshot d rest
  | .write d' :: rest => snapshot d' rest

open Classical in
/-- The azimuths, when the current records are `cur` and the transverse momenta those of `snap`: where a transverse
momentum is negligible there is none; numpy applies the condition record by record, and raises `IndexError` if there
is anything to apply and the numbers of records differ. -/
noncomputable def mixedPhi (tol : ℝ) (cur snap : List P4) : Py (List Fl) :=
  if ∃ s ∈ snap, |s.pt| ≤ tol then
    if cur.length = snap.length then
      .ok (List.zipWith (fun c s => if |s.pt| ≤ tol then Fl.nan else .fin c.xyPol.arg) cur snap)
    else .error .indexError
  else .ok (cur.map (fun c => .fin c.xyPol.arg))

/-- What the first read of a quantity gives, when the current records are `cur` and the moduli are those of
`snap`. -/
noncomputable def mixed (tol : ℝ) (q : Qty) (cur snap : List P4) : Py (List Fl) :=
  match q with
  | .pt => .ok (snap.map (fun p => .fin p.pt))
  | .theta => .ok (snap.map (fun p => .fin p.theta))
  | .rapidity => .ok (cur.map (P4.rapidity tol))
  | .massT => .ok (cur.map (fun p => .fin p.massT))
  | .eta => bcast2 etaOf (cur.map P4.z) (snap.map P4.spatialMag)
  | .mass => bcast2 (fun e m => .fin (rootDiffTwoSquares e m)) (cur.map P4.e) (snap.map P4.spatialMag)
  | .phi => mixedPhi tol cur snap

end Gcl.Spec
