import Verif.Model.ShiftEta
/-!
# Model of `MomentumArray.delta_R` and its two parallel kernels

The kernels are loops whose outer iterations may run concurrently (`numba.prange`).  An iteration is
the list of the writes it makes to the (uninitialised) result; running the loop in parallel is running
the writes in some interleaving of these lists.
-/
namespace Gcl
set_option autoImplicit false
open Real

/-- `np.hypot(drap, dphi)` after `drap` was replaced by zero where nan (calculate.py:293-296). -/
noncomputable def hypotFl (drap : Fl) (dphi : ℝ) : Fl :=
  match drap with
  | .nan => .fin (sqrt (0 ^ 2 + dphi ^ 2))
  | .fin d => .fin (sqrt (d ^ 2 + dphi ^ 2))
  | .pinf => .pinf
  | .ninf => .pinf

/-- One distance (calculate.py:292-296, 329-333): `r` are (pseudo)rapidities, `w` transverse momenta
as complex numbers. -/
noncomputable def deltaRCell (r1 r2 : Fl) (w1 w2 : ℂ) : Fl :=
  hypotFl (r1.sub r2) (w1 * (starRingEnd ℂ) w2).arg

/-- A write to a cell of the result.
Helper of `generalIter` (graphicle/calculate.py:290-296). -/
abbrev Write := (Nat × Nat) × Fl

/-- The point cloud as the kernels see it: (pseudo)rapidities and transverse momenta.
Helper of `cloudOf` (graphicle/data.py:1785-1797). -/
abbrev Cloud := List (Fl × ℂ)

/-- `MomentumArray` to kernel input (data.py:1785-1797): `eta` or `rapidity`, and `_xy_pol`. -/
noncomputable def cloudOf (pseudo : Bool) (tol : ℝ) (ps : List P4) : Cloud :=
  ps.map (fun p => (if pseudo then p.eta else p.rapidity tol, p.xyPol))

/-- Iteration `i` of `_delta_R` (calculate.py:290-296). -/
noncomputable def generalIter (c1 c2 : Cloud) (i : Nat) : List Write :=
  match c1[i]? with
  | none => []
  | some (r1, w1) => c2.zipIdx.map (fun q => ((i, q.2), deltaRCell r1 q.1.1 w1 q.1.2))

/-- Iteration `i` of `_delta_R_symmetric` (calculate.py:327-333). -/
noncomputable def symmetricIter (c : Cloud) (i : Nat) : List Write :=
  match c[i]? with
  | none => []
  | some (r1, w1) =>
    ((i, i), .fin 0) ::
      ((c.zipIdx.drop (i + 1)).flatMap (fun q =>
        let d := deltaRCell r1 q.1.1 w1 q.1.2
        [((i, q.2), d), ((q.2, i), d)]))

/-- Perform a sequence of writes on a memory.
Helper of `generalIter` (graphicle/calculate.py:290-296). -/
def runWrites (mem : Nat × Nat → Fl) : List Write → Nat × Nat → Fl
  | [] => mem
  | w :: ws => runWrites (fun c => if c = w.1 then w.2 else mem c) ws

/-- `tr` is an interleaving of the writes of the iterations: each step takes the next write of some
iteration that is not finished.
Helper of `the numba prange loops` (graphicle/calculate.py:290-296, 326-333, 932-940). -/
inductive Interleave : List (List Write) → List Write → Prop where
  | done (its : List (List Write)) (h : ∀ t ∈ its, t = []) : Interleave its []
  | step (pre post : List (List Write)) (w : Write) (t : List Write) (tr : List Write)
      (h : Interleave (pre ++ t :: post) tr) : Interleave (pre ++ (w :: t) :: post) (w :: tr)

/-- `delta_R` (data.py:1742-1797): the parallel loop that is run. `same` says that both operands are
the same object. -/
noncomputable def deltaRLoop (same : Bool) (c1 c2 : Cloud) : List (List Write) :=
  if same then (List.range c1.length).map (symmetricIter c1)
  else (List.range c1.length).map (generalIter c1 c2)

end Gcl
