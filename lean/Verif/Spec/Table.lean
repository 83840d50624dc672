import Verif.Model.Table
/-! # Specification of the printed tables -/
namespace Gcl.Spec
set_option autoImplicit false
open Gcl

/-- The cells of record `i` of a particle set: one for each quantity of each attribute that has a record `i`. -/
def particleCells {α : Type} (name : Int → String) (p : PSet (α × α × α × α)) (i : Nat) : List (Cell α) :=
  (match p.pdg[i]? with | some c => [.text (name c)] | none => []) ++
  (match p.pmu[i]? with | some (x, y, z, e) => [.num x, .num y, .num z, .num e] | none => []) ++
  (match p.color[i]? with | some (c, a) => [.int c, .int a] | none => []) ++
  (match p.helicity[i]? with | some c => [.int c] | none => []) ++
  (match p.status[i]? with | some c => [.int c] | none => []) ++
  (match p.final[i]? with | some c => [.bool c] | none => [])

/-- The cells of record `i` of a graph: those of the particle, then the ends of its edge. -/
def recordCells {α W : Type} (name : Int → String) (g : Graph (α × α × α × α) W) (i : Nat) : List (Cell α) :=
  particleCells name g.particles i ++
  (match g.adj.edges[i]? with | some (s, d) => [.int s, .int d] | none => [])

/-- The column titles: those of the attributes present. -/
def titles {α W : Type} (g : Graph (α × α × α × α) W) : List String :=
  (if g.particles.pdg = [] then [] else ["name"]) ++
  (if g.particles.pmu = [] then [] else ["px", "py", "pz", "energy"]) ++
  (if g.particles.color = [] then [] else ["color", "anticolor"]) ++
  (if g.particles.helicity = [] then [] else ["helicity"]) ++
  (if g.particles.status = [] then [] else ["status"]) ++
  (if g.particles.final = [] then [] else ["final"]) ++
  (if g.adj.edges = [] then [] else ["src", "dst"])

/-- A table for `n` records with cells `cell i`: all of them if there are at most sixty, otherwise the first
five, a row of ellipses, and the last five; the line below states `n` and the number of columns. -/
structure ShowsRecords {α : Type} (t : Shown α) (titles : List String) (n : Nat) (cell : Nat → List (Cell α))
    (html : Bool) : Prop where
  headers : t.headers = titles
  format : t.html = html
  short : n ≤ 60 → t.rows = (List.range n).map cell
  long : 60 < n → t.rows = [cell 0, cell 1, cell 2, cell 3, cell 4, List.replicate titles.length .missing,
    cell (n - 5), cell (n - 4), cell (n - 3), cell (n - 2), cell (n - 1)]
  footer : t.footer = (if html then "" else "[") ++ toString n ++ " particles × " ++ toString titles.length ++
    " attributes" ++ (if html then "" else "]")

end Gcl.Spec
