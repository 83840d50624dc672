import Verif.Model.Mask
import Verif.Model.DeltaR
import Verif.Model.Matrix
/-!
# Model of `jaccard_distance`, clustering coefficients and the thread scope (calculate.py)

Exact arithmetic; the float32 rounding of clustering coefficients is not modelled.
-/
namespace Gcl
set_option autoImplicit false
open Real

/-- `weight * flag` for a boolean flag.
Helper of `jaccardLoop` (graphicle/calculate.py:873-877). -/
noncomputable def timesBool (w : ℝ) (b : Bool) : ℝ := w * (if b then 1 else 0)

/-- The loop of `_jaccard_distance` (calculate.py:873-877) over `zip(u, v, w)`, which stops at the
shortest array; accumulators are `(difference_sum, union_sum)`. -/
noncomputable def jaccardLoop : ℝ × ℝ → List Bool → List Bool → List ℝ → ℝ × ℝ
  | (dif, uni), u :: us, v :: vs, w :: ws =>
    let nonzero := u || v
    let unequalNonzero := nonzero && (u != v)
    jaccardLoop (dif + timesBool w unequalNonzero, uni + timesBool w nonzero) us vs ws
  | acc, _, _, _ => acc

/-- `_jaccard_distance` (calculate.py:848-880). -/
noncomputable def jaccardKernel (u v : List Bool) (w : Option (List ℝ)) : ℝ :=
  let w := match w with
    | some w => w
    | none => List.replicate u.length 1
  let r := jaccardLoop (0, 0) u v w
  if r.2 = 0 then 0 else r.1 / r.2

/-- An argument of `jaccard_distance` that is not a numpy array must have a `.data` attribute
(calculate.py:908-911): graphicle masks do, other objects raise `AttributeError`. -/
def jaccardArg : Operand → Py (List Bool)
  | .mask m => m.data
  | .ndarray d => .ok d
  | .foreign => .error .attributeError

/-- `jaccard_distance` (calculate.py:883-912). -/
noncomputable def jaccardDistance (mask1 mask2 : Operand) (weights : Option (List ℝ)) : Py ℝ :=
  match jaccardArg mask1 with
  | .error e => .error e
  | .ok u =>
    match jaccardArg mask2 with
    | .error e => .error e
    | .ok v => .ok (jaccardKernel u v weights)

/-! ## Clustering coefficients -/

/-- One iteration of the parallel loop of `_clust_coeffs` (calculate.py:341-349): the value written to
`coefs[node_idx]`. -/
def clustCoeff {n : Nat} (adj : Arr2 n n Bool) (node : Fin n) : ℚ :=
  let neibs := (List.finRange n).filter (fun j => adj node j)
  let numNeibs := neibs.length
  if numNeibs < 2 then 0
  else
    let interlinks2 : Nat :=
      (neibs.map (fun a => (neibs.map (fun b => if adj a b then 1 else 0)).sum)).sum
    (interlinks2 : ℚ) / ((numNeibs : ℚ) * ((numNeibs : ℚ) - 1))

/-- `_clust_coeffs` (calculate.py:336-350).  Iterations write to distinct cells, so the order in which
they run is irrelevant. -/
def clustCoeffs {n : Nat} (adj : Arr2 n n Bool) : Fin n → ℚ := fun i => clustCoeff adj i

/-- `distance < radius` for an extended floating-point distance.
Helper of `radiusAdj` (graphicle/calculate.py:386-387). -/
def Fl.ltR : Fl → ℝ → Prop
  | .fin d, r => d < r
  | .ninf, _ => True
  | .pinf, _ => False
  | .nan, _ => False

open Classical in
/-- The adjacency matrix of `cluster_coeff_distbn` (calculate.py:386-387) from the contents `mem` of the
distance matrix. -/
noncomputable def radiusAdj (n : Nat) (mem : Nat × Nat → Fl) (radius : ℝ) : Arr2 n n Bool :=
  fillDiagonal (fun i j => decide ((mem (i.val, j.val)).ltR radius)) false

/-- `cluster_coeff_distbn` (calculate.py:352-390): `init` is the uninitialised distance matrix and `tr`
the sequence of writes of the parallel distance kernel (`pmu.delta_R(pmu)`: same object). -/
noncomputable def clusterCoeffDistbn (ps : List P4) (radius : ℝ) (init : Nat × Nat → Fl)
    (tr : List Write) : Fin ps.length → ℚ :=
  clustCoeffs (radiusAdj ps.length (runWrites init tr) radius)

/-! ## Thread scope -/

/-- Programs using `_thread_scope`: nested `with` blocks, kernels that read the number of threads, and
exceptions.
Helper of `TProg.run` (graphicle/calculate.py:392-399). -/
inductive TProg where
  | ret
  | fail (e : PyErr)
  | kernel (next : TProg)
  | scope (n : Int) (body next : TProg)

/-- What happened: the exception if any, the thread count afterwards and the thread counts the kernels
ran with.
Helper of `TProg.run` (graphicle/calculate.py:392-399). -/
structure TRun where
  err : Option PyErr
  threads : Int
  seen : List Int

/-- `nb.set_num_threads(n)` of numba: `ValueError` outside `1..limit`, else the new count.
Helper of `TProg.run` (graphicle/calculate.py:392-399). -/
def setNumThreads (limit n : Int) : Py Int :=
  if 1 ≤ n ∧ n ≤ limit then .ok n else .error .valueError

/-- Running a program with `_thread_scope` (calculate.py:392-399) with a given current thread count:
the previous count is read, the new one is set *before* `try`, and `finally` sets the previous one. -/
def TProg.run (limit : Int) : TProg → Int → TRun
  | .ret, t => ⟨none, t, []⟩
  | .fail e, t => ⟨some e, t, []⟩
  | .kernel next, t =>
    let r := next.run limit t
    ⟨r.err, r.threads, t :: r.seen⟩
  | .scope n body next, t =>
    let prev := t
    match setNumThreads limit n with
    | .error e => ⟨some e, t, []⟩
    | .ok t1 =>
      let r := body.run limit t1
      match setNumThreads limit prev with
      | .error e => ⟨some e, r.threads, r.seen⟩
      | .ok t2 =>
        match r.err with
        | some e => ⟨some e, t2, r.seen⟩
        | none =>
          let r' := next.run limit t2
          ⟨r'.err, r'.threads, r.seen ++ r'.seen⟩

/-- `delta_R(..., threads)` (data.py:1793-1797): one kernel in a scope. -/
def deltaRProg (threads : Int) (next : TProg) : TProg := .scope threads (.kernel .ret) next

/-- `cluster_coeff_distbn(..., threads)` (calculate.py:386-390). -/
def clusterCoeffProg (threads : Int) (next : TProg) : TProg :=
  deltaRProg threads (.scope threads (.kernel .ret) next)

/-- `arg_closest(..., num_threads)` (select.py:1225-1231). -/
def argClosestProg (threads : Int) (next : TProg) : TProg := .scope threads (.kernel .ret) next

end Gcl
