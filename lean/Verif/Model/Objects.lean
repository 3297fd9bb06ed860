import Mathlib.Analysis.InnerProductSpace.PiL2
import Verif.Model.Loss
import Verif.Model.Constraint
import Verif.Model.Penalty
import Verif.Model.TVProx

/-!
# The loss, penalty and constraint objects as arguments of the solvers

The examples of the library pass `f.f_grad` (with `jac=True`), `pen.prox` and `cons.lmo` of the classes of copt/loss.py,
copt/penalty.py and copt/constraint.py to the solvers.  The solvers of Verif/Model run in `EuclideanSpace ℝ (Fin d)`; the
vectors are converted on the way in and out.
-/

namespace Copt

variable {n d : ℕ}

/-- An object of one of the loss classes of loss.py (`LogLoss` with `intercept=False`). -/
inductive LossObj (n d : ℕ) where
  | log (f : LogLoss n d)
  | square (f : SquareLoss n d)
  | huber (f : HuberLoss n d)

namespace LossObj

/-- `f.f_grad`, loss.py:76-97, 236-243, 279-293. -/
noncomputable def fGrad : LossObj n d → (Fin d → ℝ) → ℝ × (Fin d → ℝ)
  | log f => f.fGrad
  | square f => f.fGrad
  | huber f => f.fGrad

/-- `f.lipschitz`, loss.py:198-201, 252-255, 295-298; `s` is the result of `svds(A, k=1)`. -/
noncomputable def lipschitz : LossObj n d → ℝ → ℝ
  | log f => f.lipschitz
  | square f => f.lipschitz
  | huber f => f.lipschitz

/-- `f.f_grad` as the first argument of a solver. -/
noncomputable def oracle (f : LossObj n d) (x : EuclideanSpace ℝ (Fin d)) : ℝ × EuclideanSpace ℝ (Fin d) :=
  ((f.fGrad (WithLp.ofLp x)).1, WithLp.toLp 2 (f.fGrad (WithLp.ofLp x)).2)

end LossObj

/-- An object of one of the penalty classes of penalty.py or constraint classes of constraint.py whose `prox` is computed
exactly on vectors.  `junk` is what the calls of `prox_tv1d` find in uninitialised memory. -/
inductive PenObj (d : ℕ) where
  | l1Norm (alpha : ℝ)
  | groupL1 (alpha : ℝ) (groups : List (List ℕ))
  | fusedLasso (alpha : ℝ) (junk : (Fin d → ℝ) → ℝ → TV1D.Junk d ℝ)
  | l1Ball (alpha : ℝ)
  | l2Ball (alpha : ℝ)
  | linfBall (alpha : ℝ)
  | simplex (s : ℝ)

namespace PenObj

/-- `pen.prox(x, step)`, penalty.py:25-34, 81-90, 161-165 and constraint.py:18-28, 43-57, 81-93, 176-177 (the projections ignore
the step). -/
noncomputable def prox : PenObj d → (Fin d → ℝ) → ℝ → Except PyErr (Fin d → ℝ)
  | l1Norm alpha, x, step => .ok (L1Norm.prox alpha x step)
  | groupL1 alpha groups, x, step => GroupL1.prox alpha groups x step
  | fusedLasso alpha junk, x, step => FusedLasso.prox true (junk x step) alpha x step
  | l1Ball alpha, x, _ => L1Ball.prox alpha x
  | l2Ball alpha, x, _ => .ok (L2Ball.prox alpha x)
  | linfBall alpha, x, _ => .ok (LinfBall.prox alpha x)
  | simplex s, x, _ => SimplexConstraint.prox s x

/-- `pen.prox` as an argument of a solver.  (The model of the solvers takes a total function: `C92_prox_exact` shows that with
admissible parameters no call with a positive step raises, so that the fallback `x` is never used.) -/
noncomputable def proxE (pen : PenObj d) (x : EuclideanSpace ℝ (Fin d)) (step : ℝ) : EuclideanSpace ℝ (Fin d) :=
  match pen.prox (WithLp.ofLp x) step with
  | .ok p => WithLp.toLp 2 p
  | .error _ => x

end PenObj

/-- `L1Ball(alpha).lmo` (constraint.py:95-128) as the `lmo` argument of `minimize_frank_wolfe`. -/
noncomputable def l1VanillaLmo (alpha : ℝ) (_it : ℕ) (u x : EuclideanSpace ℝ (Fin d))
    (_act : Option (ActiveSet (L1Rep ℝ d) ℝ)) : Except PyErr (LmoOut (EuclideanSpace ℝ (Fin d)) (L1Rep ℝ d) ℝ) :=
  (L1Ball.lmo alpha (WithLp.ofLp u) (WithLp.ofLp x)).map fun o => ⟨WithLp.toLp 2 o.dir, o.fwRep, o.awayRep, o.maxStep⟩

end Copt
