import Verif.Model.EventShape
/-!
# Model of `thrust` and `spherocity`

graphicle/calculate.py:571-627 and 744-797.  `scipy.optimize.minimize` is a parameter: a program that asks for the
objective and its gradient at points of its choice, one after the other, and finally stops with a point and a value.
The initial guess, drawn from `np.random.default_rng(seed)`, is a parameter.
-/
namespace Gcl
set_option autoImplicit false
open Real

/-- A run of the optimiser as a strategy: ask for value and gradient at a point and continue with the answer, or stop
with a point `optim.x` and a value `optim.fun`.
Helper of `thrust` (graphicle/calculate.py:571-627). -/
inductive Opt where
  | stop (x : ℝ × ℝ) (f : ℝ)
  | ask (x : ℝ × ℝ) (next : ℝ × ℝ × ℝ → Opt)

/-- Running it; an exception raised by the objective propagates.
Helper of `thrust` (graphicle/calculate.py:571-627). -/
def Opt.run (objective : ℝ → ℝ → Py (ℝ × ℝ × ℝ)) : Opt → Py ((ℝ × ℝ) × ℝ)
  | .stop x f => .ok (x, f)
  | .ask x next =>
    match objective x.1 x.2 with
    | .error e => .error e
    | .ok r => (next r).run objective

/-- `thrust` (graphicle/calculate.py:571-627): `minimize` is given the initial guess, `return_axis` decides whether the
axis is returned. -/
noncomputable def thrust (minimize : ℝ × ℝ → Opt) (guess : ℝ × ℝ) (returnAxis : Bool) (ps : List P4) :
    Py (ℝ × Option (ℝ × ℝ × ℝ)) :=
  match (minimize guess).run (fun φ θ => thrustWithGrad φ θ ps) with
  | .error e => .error e
  | .ok (x, f) => .ok (-f, if returnAxis then some (anglesToAxis x.1 x.2) else none)

/-- `spherocity` (graphicle/calculate.py:744-797). -/
noncomputable def spherocity (minimize : ℝ × ℝ → Opt) (guess : ℝ × ℝ) (returnAxis : Bool) (ps : List P4) :
    Py (ℝ × Option (ℝ × ℝ × ℝ)) :=
  match (minimize guess).run (fun φ θ => spherocityWithGrad φ θ ps) with
  | .error e => .error e
  | .ok (x, f) => .ok (f, if returnAxis then some (anglesToAxis x.1 x.2) else none)

end Gcl
