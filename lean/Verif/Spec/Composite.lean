import Verif.Model.Composite
/-! # Specification vocabulary for events -/
namespace Gcl.Spec
set_option autoImplicit false
open Gcl

/-- An attribute of the subscripted event: empty stays empty, otherwise it is the subscripted
attribute. -/
def SubCol {α : Type} (k : Key) (a b : List α) : Prop :=
  (a = [] ∧ b = []) ∨ (a ≠ [] ∧ k.apply a = .ok b)

/-- Records of `b` are the records of `a` at positions `js`; an empty attribute stays empty. -/
def Picked {α : Type} (js : List Nat) (a b : List α) : Prop :=
  (a = [] → b = []) ∧ (a ≠ [] → b.map some = js.map (fun j => a[j]?))

/-- `P` holds of every attribute's list of records. -/
def EachCol {M W : Type} (P : ∀ {α : Type}, List α → Prop) (g : Graph M W) : Prop :=
  P g.particles.pdg ∧ P g.particles.pmu ∧ P g.particles.color ∧ P g.particles.helicity ∧
  P g.particles.status ∧ P g.particles.final ∧ P g.adj.edges

/-- `P` holds between corresponding attributes. -/
def EachCol2 {M W : Type} (P : ∀ {α : Type}, List α → List α → Prop) (g h : Graph M W) : Prop :=
  P g.particles.pdg h.particles.pdg ∧ P g.particles.pmu h.particles.pmu ∧
  P g.particles.color h.particles.color ∧ P g.particles.helicity h.particles.helicity ∧
  P g.particles.status h.particles.status ∧ P g.particles.final h.particles.final ∧
  P g.adj.edges h.adj.edges

/-- Every non-empty attribute has `n` records. -/
def Aligned {M W : Type} (n : Nat) (g : Graph M W) : Prop :=
  EachCol (fun a => a = [] ∨ a.length = n) g

/-- The number of records of each attribute, in order. -/
def colLengths {M W : Type} (g : Graph M W) : List Nat :=
  [g.particles.pdg.length, g.particles.pmu.length, g.particles.color.length,
   g.particles.helicity.length, g.particles.status.length, g.particles.final.length,
   g.adj.edges.length]

/-- The documented translation of Les Houches status codes. -/
def lheStatus (x : Int) : Int :=
  if x = -1 then -21 else if x = 1 then -23 else if x = -2 ∨ x = 2 ∨ x = 3 then -22
  else if x = -9 then -12 else x

/-- The numbers of records of the attributes of two particle sets, in the order in which `==` compares them, with a mark
on the attributes for which one record may be compared with many. -/
def sizes {M : Type} (p q : PSet M) : List (Bool × Nat × Nat) :=
  [(true, p.pdg.length, q.pdg.length), (true, p.pmu.length, q.pmu.length), (true, p.color.length, q.color.length),
   (true, p.helicity.length, q.helicity.length), (true, p.status.length, q.status.length),
   (false, p.final.length, q.final.length)]

/-- The numbers of records do not allow a comparison. -/
def Mismatch (s : Bool × Nat × Nat) : Prop := s.2.1 ≠ s.2.2 ∧ (s.1 = true → s.2.1 ≠ 1 ∧ s.2.2 ≠ 1)

/-- Both attributes have records, in comparable numbers. -/
def BothFilled (s : Bool × Nat × Nat) : Prop := ¬ Mismatch s ∧ s.2.1 ≠ 0 ∧ s.2.2 ≠ 0

end Gcl.Spec
