import Verif.Model.Momentum
/-!
# Model of `MomentumArray` as an object with cached attributes

graphicle/data.py:1436-1595: `_zt_pol`, `_spatial_mag`, `eta`, `rapidity`, `phi`, `theta`, `mass` and `mass_t`
are `functools.cached_property`: computed on the first read, stored in the instance, and never dropped.  `pt` is a
plain property reading `_zt_pol`.  Writing the records, through the setter of `data` (data.py:1444-1446) or in place
through the views `x`, `y`, `z`, `energy` (data.py:1503-1520), leaves what is stored.

Simplifications: exact arithmetic as in `Model/Momentum.lean`; the setter is given `(n, 4)` arrays; the arrays
returned by the attributes are not written to by the user (see C59 for a function that does).
-/
namespace Gcl
set_option autoImplicit false
open Real

/-- A `MomentumArray`: its records and what is stored for the cached attributes.
Helper of `the cached attributes` (graphicle/data.py:1487-1584). -/
structure CacheObj where
  data : List P4
  zt : Option (List ℂ) := none
  mag : Option (List ℝ) := none
  eta : Option (List Fl) := none
  rapidity : Option (List Fl) := none
  phi : Option (List Fl) := none
  theta : Option (List Fl) := none
  mass : Option (List Fl) := none
  massT : Option (List Fl) := none

/-- The attributes a user reads.
Helper of `the cached attributes` (graphicle/data.py:1487-1584). -/
inductive Qty where
  | pt | eta | rapidity | phi | theta | mass | massT
  deriving DecidableEq

/-- Reading `_zt_pol` (data.py:1487-1496). -/
noncomputable def CacheObj.readZt (o : CacheObj) : CacheObj × List ℂ :=
  match o.zt with
  | some v => (o, v)
  | none => ({ o with zt := some (o.data.map P4.ztPol) }, o.data.map P4.ztPol)

/-- Reading `_spatial_mag` (data.py:1498-1500). -/
noncomputable def CacheObj.readMag (o : CacheObj) : CacheObj × List ℝ :=
  match o.mag with
  | some v => (o, v)
  | none =>
    let r := o.readZt
    let v := r.2.map (fun w => ‖w‖)
    ({ r.1 with mag := some v }, v)

/-- `np.arctanh(z / mag)` (data.py:1535-1537), with numpy's conventions. -/
noncomputable def etaOf (z mag : ℝ) : Fl :=
  if mag = 0 then .nan
  else
    let r := z / mag
    if r = 1 then .pinf
    else if r = -1 then .ninf
    else if -1 < r ∧ r < 1 then .fin (artanh r)
    else .nan

/-- Reading `eta` (data.py:1527-1538). -/
noncomputable def CacheObj.readEta (o : CacheObj) : CacheObj × Py (List Fl) :=
  match o.eta with
  | some v => (o, .ok v)
  | none =>
    let r := o.readMag
    match bcast2 etaOf (o.data.map P4.z) r.2 with
    | .error e => (r.1, .error e)
    | .ok v => ({ r.1 with eta := some v }, .ok v)

/-- Reading `rapidity` (data.py:1540-1548). -/
noncomputable def CacheObj.readRapidity (tol : ℝ) (o : CacheObj) : CacheObj × Py (List Fl) :=
  match o.rapidity with
  | some v => (o, .ok v)
  | none =>
    let v := o.data.map (fun p => rapidityOf tol p.e p.z)
    ({ o with rapidity := some v }, .ok v)

/-- `phi_[invalid] = np.nan` (data.py:1559-1571): done only if some entry is invalid. -/
noncomputable def maskPhi (tol : ℝ) (pt : List ℝ) (angle : List ℝ) : Py (List Fl) :=
  if pt.any (fun x => decide (|x| ≤ tol)) then
    if pt.length = angle.length then
      .ok (List.zipWith (fun x a => if |x| ≤ tol then Fl.nan else Fl.fin a) pt angle)
    else .error .indexError
  else .ok (angle.map Fl.fin)

/-- Reading `phi` (data.py:1550-1572). -/
noncomputable def CacheObj.readPhi (tol : ℝ) (o : CacheObj) : CacheObj × Py (List Fl) :=
  match o.phi with
  | some v => (o, .ok v)
  | none =>
    let r := o.readZt
    match maskPhi tol (r.2.map Complex.im) (o.data.map (fun p => p.xyPol.arg)) with
    | .error e => (r.1, .error e)
    | .ok v => ({ r.1 with phi := some v }, .ok v)

/-- Reading `theta` (data.py:1574-1577). -/
noncomputable def CacheObj.readTheta (o : CacheObj) : CacheObj × Py (List Fl) :=
  match o.theta with
  | some v => (o, .ok v)
  | none =>
    let r := o.readZt
    let v := r.2.map (fun w => Fl.fin w.arg)
    ({ r.1 with theta := some v }, .ok v)

/-- Reading `mass` (data.py:1579-1584). -/
noncomputable def CacheObj.readMass (o : CacheObj) : CacheObj × Py (List Fl) :=
  match o.mass with
  | some v => (o, .ok v)
  | none =>
    let r := o.readMag
    match bcast2 (fun e m => Fl.fin (rootDiffTwoSquares e m)) (o.data.map P4.e) r.2 with
    | .error e => (r.1, .error e)
    | .ok v => ({ r.1 with mass := some v }, .ok v)

/-- Reading `mass_t` (data.py:1586-1595). -/
noncomputable def CacheObj.readMassT (o : CacheObj) : CacheObj × Py (List Fl) :=
  match o.massT with
  | some v => (o, .ok v)
  | none =>
    let v := o.data.map (fun p => Fl.fin (rootDiffTwoSquares p.e p.z))
    ({ o with massT := some v }, .ok v)

/-- Reading an attribute: the object afterwards and the array returned.
Helper of `the cached attributes` (graphicle/data.py:1487-1584). -/
noncomputable def CacheObj.read (tol : ℝ) (o : CacheObj) : Qty → CacheObj × Py (List Fl)
  | .pt => let r := o.readZt; (r.1, .ok (r.2.map (fun w => Fl.fin w.im)))
  | .eta => o.readEta
  | .rapidity => o.readRapidity tol
  | .phi => o.readPhi tol
  | .theta => o.readTheta
  | .mass => o.readMass
  | .massT => o.readMassT

/-- What a user does with the object.
Helper of `writes, copies and reads of a MomentumArray` (graphicle/data.py:1438-1463, 1487-1584). -/
inductive COp where
  /-- read an attribute -/
  | read (q : Qty)
  /-- change the records, through the setter of `data` or in place -/
  | write (d : List P4)

/-- The object after one operation.
Helper of `writes, copies and reads of a MomentumArray` (graphicle/data.py:1438-1463, 1487-1584). -/
noncomputable def COp.run (tol : ℝ) (o : CacheObj) : COp → CacheObj
  | .read q => (o.read tol q).1
  | .write d => { o with data := d }

/-- The object after a history.
Helper of `writes, copies and reads of a MomentumArray` (graphicle/data.py:1438-1463, 1487-1584). -/
noncomputable def runCache (tol : ℝ) (o : CacheObj) : List COp → CacheObj
  | [] => o
  | op :: rest => runCache tol (op.run tol o) rest

/-- `copy` (data.py:1478-1480): a new instance of the records, nothing stored. -/
def CacheObj.copy (o : CacheObj) : CacheObj := { data := o.data }

/-- `__getitem__` (data.py:1460-1463): a new instance of the selected records, nothing stored. -/
def CacheObj.getitem (o : CacheObj) (k : Key) : Py CacheObj :=
  match k.apply o.data with
  | .error e => .error e
  | .ok d => .ok { data := d }

end Gcl
