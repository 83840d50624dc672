import Verif.Model.Mask
/-!
# Model of `PdgArray` and `StatusArray` selection

graphicle/data.py:1092-1131 (`from_name`), 1195-1230 (`mask`), 1232-1245 (`name`), 2090-2124
(`in_range`), 2126-2143 (`hard_mask`).  Codes are mathematical integers; the one place where the
fixed width of the stored integers matters, `np.abs` of the most negative value, is modelled.
-/
namespace Gcl
set_option autoImplicit false

/-- `np.abs` on `w`-bit signed integers: the most negative value is its own absolute value.
Helper of `pdgMask` (graphicle/data.py:1195-1230). -/
def absWrap (w : Nat) (x : Int) : Int :=
  if x = -(2 ^ (w - 1) : Int) then x else if x < 0 then -x else x

/-- `np.isin(data, target, invert=invert)` for one-dimensional data.
Helper of `pdgMask` (graphicle/data.py:1195-1230). -/
def isin (data target : List Int) (invert : Bool) : List Bool :=
  data.map (fun x => (target.contains x) != invert)

/-- `PdgArray.mask`, graphicle/data.py:1195-1230 (`_types.int` is 32 bits wide). -/
def pdgMask (data target : List Int) (blacklist signSensitive : Bool) : List Bool :=
  let data := if signSensitive then data else data.map (absWrap 32)
  isin data target blacklist

/-- `StatusArray.in_range`, graphicle/data.py:2090-2124 (statuses are 16 bits wide). -/
def inRange (data : List Int) (lo : Int) (hi : Option Int) (signSensitive : Bool) : List Bool :=
  let array := if signSensitive then data else data.map (absWrap 16)
  let moreThan := array.map (fun x => decide (lo ≤ x))
  match hi with
  | none => moreThan
  | some h =>
    let lessThan := array.map (fun x => decide (x ≤ h))
    List.zipWith (· && ·) moreThan lessThan

/-- `StatusArray.hard_mask`, graphicle/data.py:2126-2143. -/
def hardMask (data : List Int) : Mask :=
  let data := data.map (absWrap 16)
  .grp .or
    [("incoming", .arr (data.map (fun x => x == 21))),
     ("intermediate", .arr (data.map (fun x => x == 22))),
     ("outgoing", .arr (data.map (fun x => x == 23))),
     ("outgoing_nonperturbative_diffraction", .arr (data.map (fun x => x == 24)))]

/-- `table["name"].reset_index().set_index("name").loc[names]`, graphicle/data.py:1125-1132: for each
requested name in turn, every code the table lists under it; an unknown name is `KeyError`, reported
as `ValueError` (data.py:1133-1134).  The table (package `mcpid`) is a parameter. -/
def fromName (table : List (Int × String)) (names : List String) : Py (List Int) :=
  if names.all (fun n => table.any (fun r => r.2 == n)) then
    .ok (names.flatMap (fun n => (table.filter (fun r => r.2 == n)).map Prod.fst))
  else .error .valueError

/-- `PdgArray.name`, graphicle/data.py:1232-1245: look each code up in the table (`mcpid`; codes
absent from the table give an empty entry). -/
def pdgNames (table : List (Int × String)) (codes : List Int) : List (Option String) :=
  codes.map (fun c => (table.find? (fun r => r.1 == c)).map Prod.snd)

end Gcl
