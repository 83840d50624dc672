import Verif.Model.Momentum
import Mathlib.Logic.Function.Basic
/-!
# Model of the warning filters under threads

`combined_mass` (graphicle/calculate.py:183-189) relies on warnings being turned into exceptions, and the first read of
`MomentumArray.eta` (data.py:1535-1537) on their being ignored.  Both change the list `warnings.filters`, of which there
is one for all threads of the process, inside `warnings.catch_warnings()`: on entry a copy of the list takes its place,
and on exit the list found on entry is put back (standard library; no thread-safety is claimed for it).  The first read of
`phi` (data.py:1559-1571) warns if a transverse momentum is negligible.

The threads take turns between the following steps: entry, adding a filter, the numpy operations that may warn, exit.
Simplifications: exact arithmetic, so that only a negative squared mass, a particle at rest and one along the beam make
numpy warn; every read of `eta` and `phi` is the first one of its array (later ones compute nothing, see
`Model/Cached.lean`); filters apply by category only; a warning that is shown is shown each time; the warning context is
the process, not the thread (the default of all Python versions with a global interpreter lock).
-/
namespace Gcl
set_option autoImplicit false
open Real

/-- What a filter does with a warning.  Helper of `WFilter` (graphicle/calculate.py:184, data.py:1536). -/
inductive WAct where
  | error | ignore | present
  deriving DecidableEq

/-- The categories of warnings that occur: numpy's `RuntimeWarning`, and `NumericalStabilityWarning`
(graphicle/base.py:286). -/
inductive WCat where
  | runtime | stability
  deriving DecidableEq

/-- An entry of `warnings.filters`: what it does, and which categories it applies to
(graphicle/calculate.py:184, data.py:1536). -/
structure WFilter where
  act : WAct
  runtime : Bool
  stability : Bool
  deriving DecidableEq

/-- Whether the filter applies.  Helper of `actionFor` (graphicle/calculate.py:184, data.py:1536). -/
def WFilter.covers (f : WFilter) : WCat → Bool
  | .runtime => f.runtime
  | .stability => f.stability

/-- What happens to a warning: the first filter that applies decides; without one the warning is shown.
Helper of `warnStep` (graphicle/calculate.py:184, data.py:1536, 1564). -/
def actionFor (fs : List WFilter) (c : WCat) : WAct :=
  match fs.find? (fun f => f.covers c) with
  | some f => f.act
  | none => .present

/-- `warnings.filterwarnings(act)` or `warnings.simplefilter(act)`: an entry for all warnings comes first, and an equal
one is removed (graphicle/calculate.py:184, data.py:1536). -/
def addFilter (act : WAct) (fs : List WFilter) : List WFilter := ⟨act, true, true⟩ :: fs.erase ⟨act, true, true⟩

/-- What a thread calls (graphicle/calculate.py:135-189, data.py:1527-1538, 1550-1572). -/
inductive WCall where
  | combinedMass (ps : List P4)
  | eta (ps : List P4)
  | phi (ps : List P4)

/-- What it gets: a number; an array, and whether a warning was shown; a warning raised as an exception.
Helper of `warnStep` (graphicle/calculate.py:183-189, data.py:1535-1538, 1559-1572). -/
inductive WRes where
  | number (x : Fl)
  | array (v : List Fl) (shown : Bool)
  | raised (c : WCat)

/-- The steps of a call.  Helper of `warnStep` (graphicle/calculate.py:183-189, data.py:1535-1538, 1559-1572). -/
inductive WIns where
  /-- `warnings.catch_warnings().__enter__` -/
  | enter
  | filter (act : WAct)
  | mass (ps : List P4)
  | eta (ps : List P4)
  | phi (ps : List P4)
  /-- `warnings.catch_warnings().__exit__` -/
  | leave
  | ret

/-- A call as steps (graphicle/calculate.py:183-189, data.py:1535-1538, 1559-1572). -/
def WCall.code : WCall → List WIns
  | .combinedMass ps => [.enter, .filter .error, .mass ps, .leave, .ret]
  | .eta ps => [.enter, .filter .ignore, .eta ps, .leave, .ret]
  | .phi ps => [.phi ps, .ret]

/-- A thread: the rest of the call it is in, the list of filters to put back, the result, the calls to come and the
results so far.  Helper of `warnStep` (graphicle/calculate.py:183-189, data.py:1535-1538, 1559-1572). -/
structure WThr where
  code : List WIns := []
  saved : Option Nat := none
  reg : Option WRes := none
  todo : List WCall := []
  out : List WRes := []

/-- All threads; the lists of filters there are, by number; the number of the next one; and the one in force.
Helper of `warnStep` (graphicle/calculate.py:183-189, data.py:1535-1538, 1559-1572). -/
structure WWorld where
  thr : Nat → WThr
  lists : Nat → List WFilter
  next : Nat
  now : Nat

/-- Squared mass as computed by `combined_mass` (graphicle/calculate.py:180-186). -/
noncomputable def massSq (ps : List P4) : ℝ :=
  (total ps).x ^ 2 * (-1) + (total ps).y ^ 2 * (-1) + (total ps).z ^ 2 * (-1) + (total ps).e ^ 2 * 1

/-- `mass = np.sqrt(...)` with `except RuntimeWarning: mass = 0.0` (graphicle/calculate.py:185-188): the root of a
negative number is nan, of which numpy warns. -/
noncomputable def massUnder (fs : List WFilter) (ps : List P4) : WRes :=
  if massSq ps < 0 then
    match actionFor fs .runtime with
    | .error => .number (.fin 0)
    | .ignore => .number .nan
    | .present => .number .nan
  else .number (.fin (sqrt (massSq ps)))

open Classical in
/-- `np.arctanh(self.z / self._spatial_mag)` (graphicle/data.py:1537): numpy warns of `0 / 0` for a particle at rest and of
`arctanh(±1)` for one along the beam. -/
noncomputable def etaUnder (fs : List WFilter) (ps : List P4) : WRes :=
  if ∃ p ∈ ps, ∀ y, p.eta ≠ .fin y then
    match actionFor fs .runtime with
    | .error => .raised .runtime
    | .ignore => .array (ps.map P4.eta) false
    | .present => .array (ps.map P4.eta) true
  else .array (ps.map P4.eta) false

open Classical in
/-- The computation of `phi` and its warning (graphicle/data.py:1559-1572). -/
noncomputable def phiUnder (tol : ℝ) (fs : List WFilter) (ps : List P4) : WRes :=
  if ∃ p ∈ ps, |p.pt| ≤ tol then
    match actionFor fs .stability with
    | .error => .raised .stability
    | .ignore => .array (ps.map (P4.phi tol)) false
    | .present => .array (ps.map (P4.phi tol)) true
  else .array (ps.map (P4.phi tol)) false

/-- One step of thread `i` (graphicle/calculate.py:183-189, data.py:1535-1538, 1559-1572). -/
noncomputable def warnStep (tol : ℝ) (w : WWorld) (i : Nat) : WWorld :=
  let t := w.thr i
  let put := fun t' => Function.update w.thr i t'
  match t.code with
  | [] =>
    match t.todo with
    | [] => w
    | c :: rest => { w with thr := put { t with code := c.code, reg := none, todo := rest } }
  | .enter :: c =>
    { thr := put { t with code := c, saved := some w.now }
      lists := Function.update w.lists w.next (w.lists w.now)
      next := w.next + 1
      now := w.next }
  | .filter act :: c =>
    { w with thr := put { t with code := c }, lists := Function.update w.lists w.now (addFilter act (w.lists w.now)) }
  | .mass ps :: c => { w with thr := put { t with code := c, reg := some (massUnder (w.lists w.now) ps) } }
  | .eta ps :: c => { w with thr := put { t with code := c, reg := some (etaUnder (w.lists w.now) ps) } }
  | .phi ps :: c => { w with thr := put { t with code := c, reg := some (phiUnder tol (w.lists w.now) ps) } }
  | .leave :: c =>
    match t.saved with
    | some r => { w with thr := put { t with code := c, saved := none }, now := r }
    | none => { w with thr := put { t with code := c } }
  | .ret :: c =>
    match t.reg with
    | some r => { w with thr := put { t with code := c, out := t.out ++ [r] } }
    | none => { w with thr := put { t with code := c } }

/-- The threads run in the order given by the schedule (graphicle/calculate.py:183-189, data.py:1535-1538, 1559-1572). -/
noncomputable def warnRun (tol : ℝ) (w : WWorld) : List Nat → WWorld
  | [] => w
  | i :: sched => warnRun tol (warnStep tol w i) sched

/-- At the start: every thread has its calls, and the filters are `base`
(graphicle/calculate.py:183-189, data.py:1535-1538, 1559-1572). -/
def warnStart (base : List WFilter) (progs : Nat → List WCall) : WWorld where
  thr := fun i => { todo := progs i }
  lists := fun _ => base
  next := 1
  now := 0

end Gcl
