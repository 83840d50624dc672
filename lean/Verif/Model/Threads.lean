import Verif.Model.Cached
import Verif.Model.AdjCache
import Mathlib.Logic.Function.Basic
/-!
# Model of several threads reading cached attributes

The `functools.cached_property` attributes of `MomentumArray` (graphicle/data.py:1487-1595) and `AdjacencyList`
(data.py:2486-2503), read by several Python threads at once, in any interleaving.  Before Python 3.12
`functools.cached_property` looks in the instance, and if nothing is stored takes a lock which belongs to the attribute
of the class (not of the instance), looks again, computes, stores, and lets go of the lock; from Python 3.12 on there is
no lock, so that several threads may compute and the last one's value stays.  graphicle allows both (pyproject.toml:15).

Simplifications: nothing is written to the arrays meanwhile (see `Model/Cached.lean`, `Model/AdjCache.lean` for writes);
looking into the instance, computing from values already read, storing, taking and releasing a lock are one step each
(their order is that of the source; finer steps only read arrays nobody writes); warnings are in `Model/Warnings.lean`.
-/
namespace Gcl
set_option autoImplicit false
open Real

/-- A class with cached attributes: which attribute the computation of an attribute reads first, and what it computes
from that (graphicle/data.py:1487-1595, 2486-2503: none reads more than one). -/
structure CachedClass (Obj Attr V : Type) where
  dep : Attr → Option Attr
  compute : Obj → Attr → Option V → Py V

/-- What a thread has left to do for the attribute it is reading.
Helper of `thrStep` (graphicle/data.py:1487-1595, 2486-2503). -/
inductive Ins (Obj Attr : Type) where
  /-- look in the instance -/
  | get (o : Obj) (a : Attr)
  /-- wait for the lock of the attribute -/
  | acquire (o : Obj) (a : Attr)
  /-- look in the instance once more -/
  | relook (o : Obj) (a : Attr)
  /-- compute from the value of the attribute read before -/
  | comp (o : Obj) (a : Attr)
  /-- store in the instance -/
  | store (o : Obj) (a : Attr)
  /-- let go of the lock -/
  | release (a : Attr)
  /-- hand the value, or the exception, to the caller -/
  | ret
  deriving DecidableEq

/-- A thread: the rest of the current read, the value (or exception) it got last, the reads to come and what it got so
far.  Helper of `thrStep` (graphicle/data.py:1487-1595, 2486-2503). -/
structure Thr (Obj Attr V : Type) where
  cur : List (Ins Obj Attr) := []
  reg : Option (Py V) := none
  todo : List (Obj × Attr) := []
  out : List (Py V) := []

/-- All threads, what is stored in the instances, who holds the locks, and which computations have succeeded.
Helper of `thrStep` (graphicle/data.py:1487-1595, 2486-2503). -/
structure World (Obj Attr V : Type) where
  thr : Nat → Thr Obj Attr V
  cache : Obj → Attr → Option V
  lock : Attr → Option Nat
  log : List (Obj × Attr) := []

/-- An exception ends the computation: nothing more is done but letting go of the locks.
Helper of `thrStep` (graphicle/data.py:1487-1595, 2486-2503). -/
def unwind {Obj Attr : Type} (c : List (Ins Obj Attr)) : List (Ins Obj Attr) :=
  c.filter (fun i => match i with | .release _ => true | .ret => true | _ => false)

variable {Obj Attr V : Type} [DecidableEq Obj] [DecidableEq Attr]

/-- The function a `cached_property` wraps, and the storing of its value (graphicle/data.py:1487-1595, 2486-2503). -/
def attrBody (C : CachedClass Obj Attr V) (o : Obj) (a : Attr) : List (Ins Obj Attr) :=
  match C.dep a with
  | none => [.comp o a, .store o a]
  | some d => [.get o d, .comp o a, .store o a]

/-- The value the computation of `a` starts from (graphicle/data.py:1487-1595, 2486-2503). -/
def argOf (C : CachedClass Obj Attr V) (a : Attr) (reg : Option (Py V)) : Option V :=
  match C.dep a, reg with
  | some _, some (.ok v) => some v
  | _, _ => none

/-- One step of thread `i`; nothing happens if it has finished or waits for a lock.  `locked` is `functools` before
Python 3.12 (graphicle/data.py:1487-1595, 2486-2503). -/
def thrStep (locked : Bool) (C : CachedClass Obj Attr V) (w : World Obj Attr V) (i : Nat) : World Obj Attr V :=
  let t := w.thr i
  let put := fun t' => Function.update w.thr i t'
  match t.cur with
  | [] =>
    match t.todo with
    | [] => w
    | (o, a) :: rest => { w with thr := put { t with cur := [.get o a, .ret], reg := none, todo := rest } }
  | .get o a :: c =>
    match w.cache o a with
    | some v => { w with thr := put { t with cur := c, reg := some (.ok v) } }
    | none =>
      if locked then { w with thr := put { t with cur := .acquire o a :: c } }
      else { w with thr := put { t with cur := attrBody C o a ++ c } }
  | .acquire o a :: c =>
    match w.lock a with
    | some _ => w
    | none =>
      { w with thr := put { t with cur := .relook o a :: .release a :: c }, lock := Function.update w.lock a (some i) }
  | .relook o a :: c =>
    match w.cache o a with
    | some v => { w with thr := put { t with cur := c, reg := some (.ok v) } }
    | none => { w with thr := put { t with cur := attrBody C o a ++ c } }
  | .comp o a :: c =>
    match C.compute o a (argOf C a t.reg) with
    | .ok v => { w with thr := put { t with cur := c, reg := some (.ok v) }, log := (o, a) :: w.log }
    | .error e => { w with thr := put { t with cur := unwind c, reg := some (.error e) } }
  | .store o a :: c =>
    match t.reg with
    | some (.ok v) =>
      { w with thr := put { t with cur := c },
               cache := Function.update w.cache o (Function.update (w.cache o) a (some v)) }
    | _ => { w with thr := put { t with cur := c } }
  | .release a :: c => { w with thr := put { t with cur := c }, lock := Function.update w.lock a none }
  | .ret :: c =>
    match t.reg with
    | some r => { w with thr := put { t with cur := c, out := t.out ++ [r] } }
    | none => { w with thr := put { t with cur := c } }

/-- The threads run in the order given by the schedule (graphicle/data.py:1487-1595, 2486-2503). -/
def thrRun (locked : Bool) (C : CachedClass Obj Attr V) (w : World Obj Attr V) : List Nat → World Obj Attr V
  | [] => w
  | i :: sched => thrRun locked C (thrStep locked C w i) sched

/-- At the start: every thread has its list of reads, nothing is stored, no lock is held
(graphicle/data.py:1487-1595, 2486-2503). -/
def thrStart (progs : Nat → List (Obj × Attr)) : World Obj Attr V where
  thr := fun i => { todo := progs i }
  cache := fun _ _ => none
  lock := fun _ => none

/-- The cached attributes of `MomentumArray` (graphicle/data.py:1487-1595). -/
inductive MAttr where
  | zt | mag | eta | rapidity | phi | theta | mass | massT
  deriving DecidableEq

/-- The arrays stored for them (graphicle/data.py:1487-1595). -/
inductive MVal where
  | zt (v : List ℂ)
  | mag (v : List ℝ)
  | fl (v : List Fl)

/-- `MomentumArray` (graphicle/data.py:1487-1595); `data o` are the records of the instance `o`. -/
noncomputable def momClass (tol : ℝ) (data : Nat → List P4) : CachedClass Nat MAttr MVal where
  dep := fun a => match a with
    | .zt => none
    | .mag => some .zt
    | .eta => some .mag
    | .rapidity => none
    | .phi => some .zt
    | .theta => some .zt
    | .mass => some .mag
    | .massT => none
  compute := fun o a d => match a, d with
    | .zt, _ => .ok (.zt ((data o).map P4.ztPol))
    | .mag, some (.zt v) => .ok (.mag (v.map (fun w => ‖w‖)))
    | .eta, some (.mag v) => (bcast2 etaOf ((data o).map P4.z) v).map .fl
    | .rapidity, _ => .ok (.fl ((data o).map (fun p => rapidityOf tol p.e p.z)))
    | .phi, some (.zt v) => (maskPhi tol (v.map Complex.im) ((data o).map (fun p => p.xyPol.arg))).map .fl
    | .theta, some (.zt v) => .ok (.fl (v.map (fun w => Fl.fin w.arg)))
    | .mass, some (.mag v) =>
      (bcast2 (fun e m => Fl.fin (rootDiffTwoSquares e m)) ((data o).map P4.e) v).map .fl
    | .massT, _ => .ok (.fl ((data o).map (fun p => Fl.fin (rootDiffTwoSquares p.e p.z))))
    | _, _ => .error .typeError

/-- The cached attributes of `AdjacencyList` (graphicle/data.py:2486-2503). -/
inductive AAttr where
  | relab | signed | unsigned | csr
  deriving DecidableEq

/-- The arrays stored for them (graphicle/data.py:2486-2503). -/
inductive AVal where
  | relab (v : List (Nat × Nat))
  | signed (v : Nat × List (Nat × Nat × Bool))
  | unsigned (v : Nat × List (Nat × Nat))
  deriving DecidableEq

/-- `AdjacencyList` (graphicle/data.py:2486-2503, 2626-2652); `edges o` are the edges of the instance `o`. -/
def adjClass (edges : Nat → List (Int × Int)) : CachedClass Nat AAttr AVal where
  dep := fun a => match a with
    | .relab => none
    | .signed => some .relab
    | .unsigned => some .signed
    | .csr => some .signed
  compute := fun o a d => match a, d with
    | .relab, _ => .ok (.relab (relabel (edges o)))
    | .signed, some (.relab r) =>
      match sparseSize r with
      | .error e => .error e
      | .ok n =>
        if ((edges o).map (fun e => decide (0 < e.2))).length = r.length then
          .ok (.signed (n, List.zipWith (fun c b => (c.1, c.2, b)) r ((edges o).map (fun e => decide (0 < e.2)))))
        else .error .valueError
    | .unsigned, some (.signed s) => .ok (.unsigned (s.1, s.2.map (fun t => (t.1, t.2.1))))
    | .csr, some (.signed s) => .ok (.signed s)
    | _, _ => .error .typeError

end Gcl
