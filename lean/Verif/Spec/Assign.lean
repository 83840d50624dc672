import Verif.Model.ArgClosest
import Verif.Spec.Physics
import Verif.Spec.Hard
import Verif.Spec.Index
/-! # Specification vocabulary for `arg_closest` and `monte_carlo_tag` -/
namespace Gcl.Spec
set_option autoImplicit false
open Gcl

/-- Population variance: mean of the squares minus square of the mean. -/
noncomputable def popVar (l : List ℝ) : ℝ :=
  (l.map (fun x => x ^ 2)).sum / l.length - (l.sum / l.length) ^ 2

/-- Cost of giving candidate `j` of `m` to focus `i`: `D` are the distances in the rapidity-azimuth plane,
`pt1`, `pt2` the transverse momenta.  Each of the two terms `1 - exp(-x²/2σ²)` grows with the
discrepancy `x`; `σ²` is the variance among the candidates. -/
noncomputable def assignCost (D : Nat → Nat → ℝ) (pt1 pt2 : Nat → ℝ) (m : Nat) (i j : Nat) : ℝ :=
  (1 - Real.exp (-(D i j) ^ 2 / (2 * popVar ((List.range m).map (D i))))) +
  (1 - Real.exp (-(pt1 i - pt2 j) ^ 2 / (2 * popVar ((List.range m).map pt2))))

/-- `rows[k]` is given `cols[k]`: as many pairs as possible, no row or column twice. -/
def Assignment (n m : Nat) (rows cols : List Nat) : Prop :=
  rows.length = min n m ∧ cols.length = min n m ∧ rows.Pairwise (· < ·) ∧ (∀ r ∈ rows, r < n) ∧
  cols.Nodup ∧ ∀ c ∈ cols, c < m

/-- Total cost of an assignment. -/
noncomputable def totalCost (C : Nat → Nat → ℝ) (rows cols : List Nat) : ℝ :=
  ((rows.zip cols).map (fun p => C p.1 p.2)).sum

/-- No assignment is cheaper. -/
def Optimal (n m : Nat) (C : Nat → Nat → ℝ) (rows cols : List Nat) : Prop :=
  ∀ rows' cols', Assignment n m rows' cols' → totalCost C rows cols ≤ totalCost C rows' cols'

/-- The matrix with the entries `C`. -/
def matrixOf (n m : Nat) (C : Nat → Nat → ℝ) : List (List Fl) :=
  (List.range n).map (fun i => (List.range m).map (fun j => Fl.fin (C i j)))

/-- Contract of SciPy's `linear_sum_assignment` (column indices): an optimal assignment for a finite
matrix, `ValueError` for a matrix with a nan. -/
def IsLSA (lsa : List (List Fl) → Py (List Nat)) : Prop :=
  (∀ (n m : Nat) (C : Nat → Nat → ℝ), ∃ rows cols, lsa (matrixOf n m C) = .ok cols ∧
    Assignment n m rows cols ∧ Optimal n m C rows cols) ∧
  ∀ M : List (List Fl), (∃ r ∈ M, Fl.nan ∈ r) → lsa M = .error .valueError

/-- `sched` executes the iterations of a parallel loop in some interleaving. -/
def IsSchedule (sched : List (List Write) → List Write) : Prop := ∀ its, Interleave its (sched its)

/-- Cached rapidities, if any, are those of the records. -/
def Coherent (tol : ℝ) (m : MomObj) : Prop :=
  m.rapidity = none ∨ m.rapidity = some (m.data.map (P4.rapidity tol))

/-- A parton with code `c` passes the filters; an absent or empty list filters nothing. -/
def codeKept (blacklist whitelist : Option (List Int)) (signSensitive : Bool) (c : Int) : Bool :=
  (match blacklist with
    | some (b :: bs) => !codeMatches (b :: bs) signSensitive c
    | _ => true) &&
  (match whitelist with
    | some (w :: ws) => codeMatches (w :: ws) signSensitive c
    | _ => true)

/-- Record positions of the partons to be tagged, in record order: outgoing (absolute status 23) and
intermediate (22) ones as requested, with a code that passes the filters. -/
def tagPositions (pdg status : List Int) (a : TagArgs) : List Nat :=
  (List.range status.length).filter (fun i =>
    match status[i]?, pdg[i]? with
    | some s, some c =>
      ((a.outgoing && s.natAbs == 23) || (a.intermediate && s.natAbs == 22)) &&
        codeKept a.blacklist a.whitelist a.signSensitive c
    | _, _ => false)

/-- A list of codes was given. -/
def Given (l : Option (List Int)) : Prop := ∃ c cs, l = some (c :: cs)

/-- The momenta the cluster masks are over: those given, else those of the final particles. -/
noncomputable def clusteredMomenta (p : TagParticles) (a : TagArgs) : List P4 :=
  match a.clusteredPmu with
  | some ps => ps
  | none => selected p.pmu p.final

end Gcl.Spec
