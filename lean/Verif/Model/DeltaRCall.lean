import Verif.Model.Cached
import Verif.Model.ArgClosest
/-!
# Model of the method `MomentumArray.delta_R` (graphicle/data.py:1742-1797)

The call itself, on objects with identity and stored attributes: it reads `eta` or `rapidity` of both (which are stored
from then on, and may have been stored before the records were changed), sets the number of threads, and runs the
symmetric kernel if both are the same object and the general kernel otherwise.  The kernels take their sizes from the
(pseudo)rapidities and do not check indices; what they read past the end of the transverse momenta is a parameter.

Simplifications: exact arithmetic; records have shape `(n, 4)`.
-/
namespace Gcl
set_option autoImplicit false

/-- Objects by identity, with all stored attributes.
Helper of `delta_R` (graphicle/data.py:1742-1797). -/
abbrev CHeap := Nat → CacheObj

/-- Store an object.
Helper of `delta_R` (graphicle/data.py:1789-1792). -/
def CHeap.put (h : CHeap) (o : Nat) (c : CacheObj) : CHeap := fun o' => if o' = o then c else h o'

/-- `get_rapidity(obj)` (graphicle/data.py:1789-1792). -/
noncomputable def getRapidity (tol : ℝ) (pseudo : Bool) (h : CHeap) (o : Nat) : CHeap × Py (List Fl) :=
  let r := if pseudo then (h o).read tol .eta else (h o).read tol .rapidity
  (h.put o r.1, r.2)

/-- The point cloud the kernels read (graphicle/calculate.py:287-296): one point per (pseudo)rapidity; `junk` is what is
found in memory past the end of the transverse momenta. -/
noncomputable def cloudWith (junk : Nat → ℂ) (raps : List Fl) (ps : List P4) : Cloud :=
  raps.zipIdx.map (fun q => (q.1, match ps[q.2]? with | some p => p.xyPol | none => junk q.2))

/-- `self.delta_R(other, pseudo, threads)` (graphicle/data.py:1742-1797): the heap afterwards and the matrix. -/
noncomputable def deltaRCall (limit : Int) (sched : List (List Write) → List Write) (init : Nat × Nat → Fl)
    (junk : Nat → Nat → ℂ) (tol : ℝ) (h : CHeap) (self other : Nat) (pseudo : Bool) (threads : Int) :
    CHeap × Py (List (List Fl)) :=
  match getRapidity tol pseudo h self with
  | (h1, .error e) => (h1, .error e)
  | (h1, .ok rap1) =>
    match getRapidity tol pseudo h1 other with
    | (h2, .error e) => (h2, .error e)
    | (h2, .ok rap2) =>
      match setNumThreads limit threads with
      | .error e => (h2, .error e)
      | .ok _ =>
        let c1 := cloudWith (junk self) rap1 (h2 self).data
        let c2 := cloudWith (junk other) rap2 (h2 other).data
        let mem := runWrites init (sched (deltaRLoop (self == other) c1 c2))
        (h2, .ok ((List.range rap1.length).map (rowOf mem rap2.length)))

end Gcl
