import Verif.Model.Centroid
import Verif.Model.DeltaR
import Verif.Model.Cluster
import Verif.Model.Hard
/-!
# Model of `arg_closest` and `monte_carlo_tag` (graphicle/select.py:1165-1396, calculate.py:915-941)

Objects matter here: the cost kernel overwrites the cached rapidities of `candidate`, which may be the
same object as `focus`.  A heap maps object identities to `MomentumArray` objects with their cache.
`scipy.optimize.linear_sum_assignment` is a parameter.  Parallel loops run under an arbitrary schedule
`sched`, which turns the writes of the iterations into one sequence.

Simplifications: exact arithmetic; the variance of an empty array is taken to be nan; a division by a zero
variance inside the parallel loop is taken to raise `ZeroDivisionError` as it does outside (numba does not
document what happens there); an iteration of the second loop is represented by the writes it makes given
the contents of its row at the start of the loop (it reads and writes its own row only).
-/
namespace Gcl
set_option autoImplicit false
open Real

/-- A `MomentumArray` object: its records and its cached rapidities (`cached_property`,
data.py:1540-1548). -/
structure MomObj where
  data : List P4
  rapidity : Option (List Fl) := none

/-- Objects by identity.
Helper of `readRapidity` (graphicle/data.py:1540-1548). -/
abbrev Heap := Nat → MomObj

/-- Store an object.
Helper of `readRapidity` (graphicle/data.py:1540-1548). -/
def Heap.put (h : Heap) (o : Nat) (m : MomObj) : Heap := fun o' => if o' = o then m else h o'

/-- Reading the attribute `rapidity` (data.py:1540-1548): the cached array, else it is computed and
cached. -/
noncomputable def readRapidity (tol : ℝ) (h : Heap) (o : Nat) : List Fl × Heap :=
  match (h o).rapidity with
  | some r => (r, h)
  | none =>
    let r := (h o).data.map (P4.rapidity tol)
    (r, h.put o { h o with rapidity := some r })

/-- `np.var` of finite values.
Helper of `varRecip` (graphicle/calculate.py:930, 935). -/
noncomputable def variance (l : List ℝ) : ℝ :=
  let mean := l.sum / l.length
  (l.map (fun x => (x - mean) ^ 2)).sum / l.length

/-- The values, if all are finite.
Helper of `varRecip` (graphicle/calculate.py:930, 935). -/
def allFin : List Fl → Option (List ℝ)
  | [] => some []
  | .fin x :: rest =>
    match allFin rest with
    | some xs => some (x :: xs)
    | none => none
  | _ :: _ => none

/-- `1.0 / np.var(l)` (calculate.py:930, 935): nan if an entry is not finite or there is none,
`ZeroDivisionError` if the variance is zero. -/
noncomputable def varRecip (l : List Fl) : Py Fl :=
  match allFin l with
  | none => .ok .nan
  | some [] => .ok .nan
  | some xs => if variance xs = 0 then .error .zeroDivisionError else .ok (.fin (1 / variance xs))

/-- `math.expm1(-0.5 * recip * d * d)` (calculate.py:938-939). -/
noncomputable def gaussCost (recip d : Fl) : Fl :=
  match recip, d with
  | .fin r, .fin x => .fin (exp (-0.5 * r * x * x) - 1)
  | _, _ => .nan

/-- `-(dR_cost + pt_cost)` (calculate.py:940). -/
noncomputable def negSum (a b : Fl) : Fl :=
  match a, b with
  | .fin x, .fin y => .fin (-(x + y))
  | _, _ => .nan

/-- The row `i` of a matrix with `m` columns.
Helper of `costIter` (graphicle/calculate.py:932-940). -/
def rowOf (mem : Nat × Nat → Fl) (m i : Nat) : List Fl := (List.range m).map (fun j => mem (i, j))

/-- One iteration of the second parallel loop (calculate.py:932-940): its writes. -/
noncomputable def costIter (mem : Nat × Nat → Fl) (pt2 : List Fl) (varPtRecip : Fl) (i : Nat) (pt1 : ℝ) :
    Py (List Write) :=
  let row := rowOf mem pt2.length i
  match varRecip row with
  | .error e => .error e
  | .ok varDRRecip =>
    .ok (((row.zip pt2).zipIdx).map (fun q =>
      let dpt := (Fl.fin pt1).sub q.1.2
      ((i, q.2), negSum (gaussCost varDRRecip q.1.1) (gaussCost varPtRecip dpt))))

/-- All iterations, from row `i` on (calculate.py:931-940). -/
noncomputable def costIters (mem : Nat × Nat → Fl) (pt2 : List Fl) (varPtRecip : Fl) :
    Nat → List P4 → Py (List (List Write))
  | _, [] => .ok []
  | i, p :: ps =>
    match costIter mem pt2 varPtRecip i ‖p.xyPol‖ with
    | .error e => .error e
    | .ok w =>
      match costIters mem pt2 varPtRecip (i + 1) ps with
      | .error e => .error e
      | .ok ws => .ok (w :: ws)

/-- `_assignment_cost` (calculate.py:915-941) after the rapidities were read: the cost matrix, and the
new contents of the buffer `rapidity_2`. -/
noncomputable def assignmentCost (sched : List (List Write) → List Write) (init : Nat × Nat → Fl)
    (rap1 rap2 : List Fl) (ps qs : List P4) : Py (Nat × Nat → Fl) × List Fl :=
  let c1 : Cloud := rap1.zip (ps.map P4.xyPol)
  let c2 : Cloud := rap2.zip (qs.map P4.xyPol)
  let mem := runWrites init (sched (deltaRLoop false c1 c2))
  let pt2 := qs.map (fun q => Fl.fin ‖q.xyPol‖)
  match varRecip pt2 with
  | .error e => (.error e, pt2)
  | .ok varPtRecip =>
    match costIters mem pt2 varPtRecip 0 ps with
    | .error e => (.error e, pt2)
    | .ok its => (.ok (runWrites mem (sched its)), pt2)

/-- `arg_closest` (graphicle/select.py:1165-1234): the result and the heap afterwards. `limit` is the
number of threads numba was started with; `lsa` gives the column indices of
`linear_sum_assignment`. -/
noncomputable def argClosest (limit : Int) (sched : List (List Write) → List Write)
    (init : Nat × Nat → Fl) (lsa : List (List Fl) → Py (List Nat)) (tol : ℝ) (h : Heap)
    (focus candidate : Nat) (numThreads : Int) : Py (List Nat) × Heap :=
  match setNumThreads limit numThreads with
  | .error e => (.error e, h)
  | .ok _ =>
    let (rap1, h1) := readRapidity tol h focus
    let (rap2, h2) := readRapidity tol h1 candidate
    let ps := (h2 focus).data
    let qs := (h2 candidate).data
    let (cost, buffer) := assignmentCost sched init rap1 rap2 ps qs
    let h3 := h2.put candidate { h2 candidate with rapidity := some buffer }
    match cost with
    | .error e => (.error e, h3)
    | .ok mem =>
      let h4 := h3.put candidate { h3 candidate with rapidity := none }
      (lsa ((List.range ps.length).map (rowOf mem qs.length)), h4)

/-! ## monte_carlo_tag -/

/-- Arguments of `monte_carlo_tag` (graphicle/select.py:1237-1246) besides the particles. -/
structure TagArgs where
  clusterMasks : List (List Bool)
  clusteredPmu : Option (List P4) := none
  intermediate : Bool := false
  outgoing : Bool := true
  signSensitive : Bool := false
  blacklist : Option (List Int) := none
  whitelist : Option (List Int) := none

/-- The particle data used: `particles.pmu`, `.pdg`, `.status`, `.final`.
Helper of `clusteredOf` (graphicle/select.py:1376-1379). -/
structure TagParticles where
  pmu : List P4
  pdg : List Int
  status : List Int
  final : List Bool

/-- `portions` (graphicle/select.py:1352-1360). -/
def portionNames (outgoing intermediate : Bool) : List String :=
  (if outgoing then ["outgoing"] else []) ++ (if intermediate then ["intermediate"] else [])

/-- `particles.status.hard_mask[portions].data` (graphicle/select.py:1361). -/
def portionMask (status : List Int) (portions : List String) : Py (List Bool) :=
  match hardMask status with
  | .arr _ => .error .keyError
  | .grp _ ks =>
    match groupSelect ks portions with
    | .error e => .error e
    | .ok sel => groupOr sel

/-- Truth value of an optional list: `None` and the empty list are falsy.
Helper of `orList` (graphicle/select.py:1366). -/
def truthyList (l : Option (List Int)) : Bool :=
  match l with
  | some (_ :: _) => true
  | _ => false

/-- `blacklist or whitelist` (graphicle/select.py:1366). -/
def orList (blacklist whitelist : Option (List Int)) : Option (List Int) :=
  if truthyList blacklist then blacklist else whitelist

/-- The filter on the codes (graphicle/select.py:1364-1375): momenta and codes left. -/
noncomputable def tagFilter (a : TagArgs) (hardPmu : List P4) (hardPdg : List Int) : Py (List P4 × List Int) :=
  if truthyList a.blacklist && truthyList a.whitelist then .error .valueError
  else
    match orList a.blacklist a.whitelist with
    | none => .ok (hardPmu, hardPdg)
    | some [] => .ok (hardPmu, hardPdg)
    | some (c :: cs) =>
      let pdg' := if a.signSensitive then hardPdg else hardPdg.map (absWrap 32)
      let list' := if a.signSensitive then c :: cs else (c :: cs).map (fun x => (x.natAbs : Int))
      let hardMask := isin pdg' list' a.whitelist.isNone
      if !(hardMask.any id) then .error .indexError
      else
        match (Key.mask hardMask).apply hardPmu with
        | .error e => .error e
        | .ok pmu =>
          match (Key.mask hardMask).apply hardPdg with
          | .error e => .error e
          | .ok pdg => .ok (pmu, pdg)

/-- The momenta the clusters are over (graphicle/select.py:1376-1379). -/
noncomputable def clusteredOf (a : TagArgs) (p : TagParticles) : Py (List P4) :=
  match a.clusteredPmu with
  | some ps => .ok ps
  | none => (Key.mask p.final).apply p.pmu

/-- `MaskGroup(dict(zip(names, tagged_clusters)))` (graphicle/select.py:1392-1396); `itemgetter()` with no
index is a `TypeError`. -/
def tagGroup (nm : Int → String) (pdg : List Int) (masks : List (List Bool)) (idxs : List Nat) :
    Py (Dict (List Bool)) :=
  match idxs with
  | [] => .error .typeError
  | _ =>
    if idxs.all (fun i => decide (i < masks.length)) then
      .ok (Dict.ofPairs ((pdgsToKeys (pdg.map nm)).zip (gather masks idxs)))
    else .error .indexError

/-- `monte_carlo_tag` (graphicle/select.py:1237-1396), the entries of the resulting group (whose `agg_op`
is `or`).  `nm` is the particle name table. -/
noncomputable def monteCarloTag (limit : Int) (sched : List (List Write) → List Write)
    (init : Nat × Nat → Fl) (lsa : List (List Fl) → Py (List Nat)) (tol : ℝ) (nm : Int → String)
    (p : TagParticles) (a : TagArgs) : Py (Dict (List Bool)) :=
  match a.clusterMasks with
  | [] => .error .valueError
  | m0 :: _ =>
    match portionNames a.outgoing a.intermediate with
    | [] => .error .valueError
    | portions@(_ :: _) =>
      match portionMask p.status portions with
      | .error e => .error e
      | .ok pm =>
        match (Key.mask pm).apply p.pmu with
        | .error e => .error e
        | .ok hardPmu0 =>
          match (Key.mask pm).apply p.pdg with
          | .error e => .error e
          | .ok hardPdg0 =>
            match tagFilter a hardPmu0 hardPdg0 with
            | .error e => .error e
            | .ok (hardPmu, hardPdg) =>
              match clusteredOf a p with
              | .error e => .error e
              | .ok clustered =>
                if a.clusterMasks.length < hardPmu.length then .error .valueError
                else if clustered.length ≠ m0.length then .error .valueError
                else
                  match aggregateMomenta clustered a.clusterMasks with
                  | .error e => .error e
                  | .ok jets =>
                    let h : Heap := fun o => if o = 0 then ⟨hardPmu, none⟩ else ⟨jets, none⟩
                    match (argClosest limit sched init lsa tol h 0 1 1).1 with
                    | .error e => .error e
                    | .ok idxs => tagGroup nm hardPdg a.clusterMasks idxs

end Gcl
