import Verif.Spec.Adj
import Verif.Spec.Mask
/-! # Specification vocabulary for the hard process -/
namespace Gcl.Spec
set_option autoImplicit false

/-- The key of the `i`-th parton, given all particle names: the bare name when no other parton has
it, otherwise the name, a colon and the number of earlier partons of that name. -/
def partonKey (names : List String) (i : Nat) : Option String :=
  names[i]?.map (fun x =>
    if names.count x = 1 then x else x ++ ":" ++ toString ((names.take i).count x))

/-- Record positions of the hard partons that are not incoming (absolute status 22, 23 or 24), in
record order. -/
def partons (status : List Int) : List Nat :=
  (List.range status.length).filter (fun i =>
    match status[i]? with
    | some s => s.natAbs = 22 || s.natAbs = 23 || s.natAbs = 24
    | none => false)

/-- Edge `e` descends from vertex `v`: its source can be reached from `v`; if no edge leaves `v`, the
edges ending in `v` are meant. -/
def Descends (es : List (Int × Int)) (v : Int) (e : Int × Int) : Prop :=
  ((∃ w, (v, w) ∈ es) ∧ Reach es v e.1) ∨ ((¬ ∃ w, (v, w) ∈ es) ∧ e.2 = v)

/-- PDG code `c` matches the requested codes: listed itself, or (sign-insensitively) listed up to
sign. -/
def codeMatches (target : List Int) (signSensitive : Bool) (c : Int) : Bool :=
  if signSensitive then target.any (fun t => t = c) else target.any (fun t => t = c || t = -c)

/-- Record positions of the hard partons whose code matches, in record order. -/
def targeted (pdg status : List Int) (target : List Int) (signSensitive : Bool) : List Nat :=
  (partons status).filter (fun p =>
    match pdg[p]? with
    | some c => codeMatches target signSensitive c
    | none => false)

/-- The particle names of the records at the given positions. -/
def namesAt (nm : Int → String) (pdg : List Int) (ps : List Nat) : List String :=
  ps.filterMap (fun p => pdg[p]?.map nm)

end Gcl.Spec
