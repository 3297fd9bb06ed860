import Verif.Model.Objects
import Verif.Model.Trace

/-!
# The linear minimization oracles of constraint.py as arguments of the Frank-Wolfe solvers

`minimize_frank_wolfe` (frank_wolfe.py:252) and `minimize_sfw` (randomized.py:898, 911, 917) call
`lmo(-grad, x, active_set)`: three positional arguments.  Whether the call raises TypeError depends on the
parameter list of the method, so the parameter lists are modelled here.
-/

namespace Copt

/-- The value of a positional argument of an LMO: a vector or an active set (`None` or a dict). -/
inductive LmoArg (E Rep : Type) where
  | vec (v : E)
  | act (a : Option (ActiveSet Rep ℝ))

/-- A bound Python method: its parameters without `self`, the first `required` without default value and the rest with
the default values `defaults`, and its body on the full list of arguments. -/
structure PyMethod (A R : Type) where
  required : ℕ
  defaults : List A
  body : List A → Except PyErr R

/-- Python's rule for a call with positional arguments only: TypeError if an argument without default is missing or if there are
more arguments than parameters; missing trailing arguments are filled with their defaults. -/
def PyMethod.call {A R : Type} (m : PyMethod A R) (args : List A) : Except PyErr R :=
  if args.length < m.required then .error .typeError
  else if m.required + m.defaults.length < args.length then .error .typeError
  else m.body (args ++ m.defaults.drop (args.length - m.required))

/-- An object of constraint.py with an LMO on vectors of length `d`, with the method that is passed to the solver: `L1Ball.lmo`,
`L1Ball.lmo_pairwise`, `SimplexConstraint.lmo`. -/
inductive LmoMethod where
  | l1 (alpha : ℝ)
  | l1Pairwise (alpha : ℝ)
  | simplex (s : ℝ)

variable {d : ℕ}

/-- Representation of a vertex: a signed coordinate for the l1 ball; `SimplexConstraint.lmo` returns the bare index
`int(largest_coordinate)`, here with sign 1. -/
abbrev VRep (d : ℕ) := L1Rep ℝ d

/-- The method object, with the parameter lists of constraint.py:95 (`u, x, active_set=None`), 130 (`u, x, active_set`) and
179 (`u, x`).  Bodies: constraint.py:95-128, 130-169, 179-190.  (Arguments of the wrong kind, a dict in place of a vector, do not
occur in the calls of the solvers; they are a TypeError here.) -/
noncomputable def LmoMethod.method : LmoMethod →
    PyMethod (LmoArg (EuclideanSpace ℝ (Fin d)) (VRep d)) (LmoOut (EuclideanSpace ℝ (Fin d)) (VRep d) ℝ)
  | .l1 alpha => ⟨2, [.act none], fun
      | [.vec u, .vec x, .act a] => l1VanillaLmo alpha 0 u x a
      | _ => .error .typeError⟩
  | .l1Pairwise alpha => ⟨3, [], fun
      | [.vec u, .vec x, .act (some a)] => (L1Ball.lmoPairwise alpha (WithLp.ofLp u) (WithLp.ofLp x) a).map fun o =>
          ⟨WithLp.toLp 2 o.dir, o.fwRep, o.awayRep, o.maxStep⟩
      | [.vec _, .vec _, .act none] => .error .attributeError
      | _ => .error .typeError⟩
  | .simplex s => ⟨2, [], fun
      | [.vec u, .vec x] => (SimplexConstraint.lmo s (WithLp.ofLp u) (WithLp.ofLp x)).map fun o =>
          ⟨WithLp.toLp 2 o.dir, o.fwRep.map fun j => ((1 : ℝ), j), o.awayRep.map fun j => ((1 : ℝ), j), o.maxStep⟩
      | _ => .error .typeError⟩

/-- The method as the `lmo` argument of a solver: the call `lmo(-grad, x, active_set)`, frank_wolfe.py:252. -/
noncomputable def LmoMethod.arg (m : LmoMethod) (_it : ℕ) (u x : EuclideanSpace ℝ (Fin d)) (a : Option (ActiveSet (VRep d) ℝ)) :
    Except PyErr (LmoOut (EuclideanSpace ℝ (Fin d)) (VRep d) ℝ) :=
  m.method.call [.vec u, .vec x, .act a]

/-- `TraceBall(alpha, (M, N)).lmo` (constraint.py:306-326) as the `lmo` argument of `minimize_frank_wolfe`; `svds1` is
`splinalg.svds(., k=1)`. -/
noncomputable def traceLmo {M N : ℕ} (svds1 : Matrix (Fin M) (Fin N) ℝ → (Fin M → ℝ) × ℝ × (Fin N → ℝ)) (alpha : ℝ) (_it : ℕ)
    (u x : EuclideanSpace ℝ (Fin (M * N))) (_act : Option (ActiveSet Unit ℝ)) :
    Except PyErr (LmoOut (EuclideanSpace ℝ (Fin (M * N))) Unit ℝ) :=
  let o := TraceBall.lmo svds1 alpha (WithLp.ofLp u) (WithLp.ofLp x)
  .ok ⟨WithLp.toLp 2 o.dir, o.fwRep, o.awayRep, o.maxStep⟩

end Copt
