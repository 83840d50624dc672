import Verif.Model.Select
import Verif.Spec.Physics
/-! # Specification vocabulary for `color_singlets`, `centroid_prune` and `fastjet_clusters` -/
namespace Gcl.Spec
set_option autoImplicit false
open Gcl

/-- Particle `i` is an outgoing parton of the hard process: status code `±23`. -/
def Outgoing (status : List Int) (i : Nat) : Prop := ∃ s, status[i]? = some s ∧ |s| = 23

/-- Every leaf holds exactly one outgoing parton, and `cols` are the colours of these partons. -/
def OneParton (leaves : Dict (List Bool)) (status : List Int) (color cols : List (Int × Int)) : Prop :=
  List.Forall₂ (fun (kv : String × List Bool) (c : Int × Int) =>
    ∃ i : Nat, kv.2[i]? = some true ∧ Outgoing status i ∧ color[i]? = some c ∧
      ∀ i' : Nat, kv.2[i']? = some true → Outgoing status i' → i' = i) leaves cols

/-- The colours of the outgoing partons of the first leaf, in record order, then those of the second leaf, and
so on. -/
def partonColours (leaves : Dict (List Bool)) (status : List Int) (color : List (Int × Int)) : List (Int × Int) :=
  leaves.flatMap (fun kv => (List.range status.length).filterMap (fun i =>
    if kv.2[i]? = some true ∧ |status.getD i 0| = 23 then color[i]? else none))

/-- `L` lists the `k`-element subsets of `{0, …, n-1}`, each as an increasing list, in lexicographic
order. -/
def IsCombos (n k : Nat) (L : List (List Nat)) : Prop :=
  L.Pairwise (List.Lex (· < ·)) ∧
  ∀ c : List Nat, c ∈ L ↔ c.length = k ∧ c.Pairwise (· < ·) ∧ ∀ i ∈ c, i < n

/-- The leaves at positions `c` are coloured, and their colours are, as a set, their anticolours. -/
def Neutral (cols : List (Int × Int)) (c : List Nat) : Prop :=
  (∀ j ∈ c, ∃ q, cols[j]? = some q ∧ q ≠ (0, 0)) ∧
  ∀ x : Int, (∃ j ∈ c, ∃ q, cols[j]? = some q ∧ q.1 = x) ↔ (∃ j ∈ c, ∃ q, cols[j]? = some q ∧ q.2 = x)

/-- Particle `p` is at a distance below `radius` of the centre: its pseudorapidity is finite, the centre's
coordinates are, and with `a ∈ (-π, π]` the difference in azimuth,
`(η - η₀)² + a² < radius²`. -/
def Near (radius : ℝ) (centre : Fl × Fl) (p : P4) : Prop :=
  ∃ η η0 φ0 a : ℝ, p.eta = .fin η ∧ centre = (.fin η0, .fin φ0) ∧
    -Real.pi < a ∧ a ≤ Real.pi ∧ AngleEq p.xyPol.arg (φ0 + a) ∧
    0 < radius ∧ (η - η0) ^ 2 + a ^ 2 < radius ^ 2

/-- `np.argsort`: the positions, in an order that makes the values non-decreasing. -/
def IsArgsortR (argsort : List ℝ → List Nat) : Prop :=
  ∀ l : List ℝ, (argsort l).Perm (List.range l.length) ∧
    ∀ i j : Nat, i < j → ∀ a b : Nat, (argsort l)[i]? = some a → (argsort l)[j]? = some b →
      ∀ x y : ℝ, l[a]? = some x → l[b]? = some y → x ≤ y

/-- The mask is true exactly at the positions listed. -/
def IsMaskOf (n : Nat) (idxs : List Nat) (m : List Bool) : Prop :=
  m.length = n ∧ ∀ i : Nat, m[i]? = some true ↔ i ∈ idxs

/-- The centre used: the one given, or the direction of the summed momentum of the particles
considered. -/
noncomputable def centreUsed (tol : ℝ) (ps : List P4) (centre : Option (Fl × Fl)) : Fl × Fl :=
  match centre with
  | some c => c
  | none => ((total ps).eta, (total ps).phi tol)

/-- The jets kept by the pseudorapidity cut. -/
def EtaOk (etaCut : Option ℝ) (j : Jet) : Prop :=
  ∀ cut, etaCut = some cut → ∃ η, j.pmu.eta = .fin η ∧ |η| < cut

/-- The arguments that are refused. -/
def FjBadArgs (radius : ℝ) (ptCut etaCut : Option ℝ) (topK : TopK) : Prop :=
  (∃ c, ptCut = some c ∧ c < 0) ∨ radius < 0 ∨ (∃ c, etaCut = some c ∧ c < 0) ∨
    (∃ k, topK = .int k ∧ k < 1) ∨ topK = .other

/-- The algorithm FastJet is asked to run: named for the exponents -1, 0 and 1, generalised otherwise. -/
def AlgoFor (p : ℝ) (a : FjAlgo) : Prop :=
  (p = -1 → a = .antikt) ∧ (p = 0 → a = .cambridge) ∧ (p = 1 → a = .kt) ∧
  (p ≠ -1 → p ≠ 0 → p ≠ 1 → a = .genkt p)

/-- The first `top_k` items. -/
def firstK {α : Type} : TopK → List α → List α
  | .int k, l => l.take k.toNat
  | _, l => l

end Gcl.Spec
