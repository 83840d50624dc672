import Verif.Model.GenKt
import Mathlib.Logic.Relation
/-! # When the jet algorithm has a choice -/
namespace Gcl.Spec
set_option autoImplicit false
open Gcl

/-- One step of the jet algorithm: a pseudojet nearest to the beam is taken away, or the two nearest to each other are joined. -/
inductive KtStep (S : KtRule) (R : ℝ) : List Jet → List Jet → Prop where
  | beam {act rest : List Jet} {i : Jet} (h : act.Perm (i :: rest)) (least : S.Least R act (S.scale i.pmu)) : KtStep S R act rest
  | pair {act rest : List Jet} {i j : Jet} (h : act.Perm (i :: j :: rest)) (least : S.Least R act (S.pair R i j))
      (near : S.dist i.pmu j.pmu < R) : KtStep S R act (i.join j :: rest)

/-- If two pseudojets nearer than the radius have the smallest distance of all, none is as near to the beam, and no two others
nearer than the radius have the same distance.  (Equal distances from the beam are allowed.) -/
def NoTie (S : KtRule) (R : ℝ) (act : List Jet) : Prop :=
  ∀ i j rest, act.Perm (i :: j :: rest) → S.Least R act (S.pair R i j) → S.dist i.pmu j.pmu < R →
    (∀ a ∈ act, S.pair R i j < S.scale a.pmu) ∧
    ∀ k l rest', act.Perm (k :: l :: rest') → S.dist k.pmu l.pmu < R → S.pair R k l = S.pair R i j →
      (k = i ∧ l = j) ∨ (k = j ∧ l = i)

/-- There is no tie at any stage the algorithm can come to. -/
def NoTies (S : KtRule) (R : ℝ) (act : List Jet) : Prop :=
  ∀ act', Relation.ReflTransGen (KtStep S R) act act' → NoTie S R act'

end Gcl.Spec
