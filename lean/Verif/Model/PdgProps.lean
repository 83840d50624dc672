import Verif.Model.Pdg
import Mathlib.Data.Rat.Defs
/-!
# Model of the particle properties of `PdgArray`

graphicle/data.py:1232-1297.  The table (`mcpid.lookup.PdgRecords`) is a parameter: for a code and the name of a column
it gives a text or a number, or nothing.  Assumed of `properties(codes, columns)`: a new record array with one record
per code, in order, holding the entries of the columns.  Numbers are exact.
-/
namespace Gcl
set_option autoImplicit false

/-- The table of particle data (graphicle/data.py:1232-1239). -/
structure PdgTable where
  text : Int → String → Option String
  num : Int → String → Option Rat

/-- A property of `PdgArray` with text values: its column (graphicle/data.py:1241-1249, 1267-1269). -/
inductive TextProp where
  | name | latex | quarks
  deriving DecidableEq

/-- A property of `PdgArray` with numbers as values (graphicle/data.py:1251-1258, 1271-1274, 1283-1297). -/
inductive NumProp where
  | charge | mass | width | isospin | gParity | spaceParity | chargeParity
  deriving DecidableEq

/-- A property of `PdgArray` with bounds as values (graphicle/data.py:1260-1265, 1276-1281). -/
inductive BoundProp where
  | mass | width
  deriving DecidableEq

/-- `__mega_to_giga` (graphicle/data.py:1138). -/
def megaToGiga : Rat := 1 / 1000

/-- `__get_prop` for a column of texts (graphicle/data.py:1232-1234). -/
def getText (t : PdgTable) (codes : List Int) (field : String) : List (Option String) :=
  codes.map (fun c => t.text c field)

/-- `__get_prop` for a column of numbers (graphicle/data.py:1232-1234). -/
def getNum (t : PdgTable) (codes : List Int) (field : String) : List (Option Rat) :=
  codes.map (fun c => t.num c field)

/-- `__get_prop_range` (graphicle/data.py:1236-1239): records with a lower and an upper entry. -/
def getRange (t : PdgTable) (codes : List Int) (field : String) : List (Option Rat × Option Rat) :=
  codes.map (fun c => (t.num c (field ++ "lower"), t.num c (field ++ "upper")))

/-- `name`, `latex`, `quarks` (graphicle/data.py:1241-1249, 1267-1269). -/
def pdgText (t : PdgTable) (codes : List Int) : TextProp → List (Option String)
  | .name => getText t codes "name"
  | .latex => getText t codes "latex"
  | .quarks => getText t codes "quarks"

/-- `charge`, `mass`, `width`, `isospin`, `g_parity`, `space_parity`, `charge_parity`
(graphicle/data.py:1251-1258, 1271-1274, 1283-1297). -/
def pdgNum (t : PdgTable) (codes : List Int) : NumProp → List (Option Rat)
  | .charge => getNum t codes "charge"
  | .mass => (getNum t codes "mass").map (fun x => x.map (· * megaToGiga))
  | .width => (getNum t codes "width").map (fun x => x.map (· * megaToGiga))
  | .isospin => getNum t codes "i"
  | .gParity => getNum t codes "g"
  | .spaceParity => getNum t codes "p"
  | .chargeParity => getNum t codes "c"

/-- The loop `for name in range_arr.dtype.names: range_arr[name] *= …` (graphicle/data.py:1262-1265, 1278-1281). -/
def scaleRange (r : List (Option Rat × Option Rat)) : List (Option Rat × Option Rat) :=
  let lower := r.map (fun p => (p.1.map (· * megaToGiga), p.2))
  lower.map (fun p => (p.1, p.2.map (· * megaToGiga)))

/-- `mass_bounds`, `width_bounds` (graphicle/data.py:1260-1265, 1276-1281). -/
def pdgBounds (t : PdgTable) (codes : List Int) : BoundProp → List (Option Rat × Option Rat)
  | .mass => scaleRange (getRange t codes "mass")
  | .width => scaleRange (getRange t codes "width")

end Gcl
