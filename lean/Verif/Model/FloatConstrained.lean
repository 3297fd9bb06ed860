import Verif.Model.FloatProxGrad

/-!
# Model of the proximal gradient method with rounded arithmetic and proximal operators that may raise

As `Verif/Model/FloatProxGrad.lean`, for all penalties and constraints on vectors but `FusedLasso`.
-/

namespace Copt

open Spec

variable {d : ℕ}

/-- Arguments of `minimize_proximal_gradient`; see `FlPGArgs`.  A call of `prox` may raise. -/
structure FlPGArgsE (d : ℕ) where
  grad : ℕ → (Fin d → ℝ) → Fin d → ℝ
  prox : ℕ → (Fin d → ℝ) → ℝ → Except PyErr (Fin d → ℝ)
  norm : ℕ → (Fin d → ℝ) → ℝ
  step : ℕ → ℝ
  x0 : Fin d → ℝ
  tol : ℝ
  maxIter : ℕ

open Classical in
/-- The loop, proximal_gradient.py:141-192; `m` is `max_iter - n_iterations`.  An exception of `prox` is not caught. -/
noncomputable def flPgLoopE (rd : ℝ → ℝ) (P : FlPGArgsE d) : ℕ → ℕ → (Fin d → ℝ) → Except PyErr (FlPGResult d)
  | m, nit, x => do
    let xNext ← P.prox nit (fun j => rd (x j - rd (P.step nit * P.grad nit x j))) (P.step nit)   -- line 148
    let cert := P.norm nit (fun j => rd (rd (x j - xNext j) / P.step nit))                       -- line 178
    if cert < P.tol then return ⟨xNext, true, cert, nit⟩                                          -- lines 185-187
    else match m with
      | 0 => return ⟨xNext, false, cert, nit⟩                                                     -- lines 189-190
      | m + 1 => flPgLoopE rd P m (nit + 1) xNext                                                 -- line 192

/-- `minimize_proximal_gradient`, proximal_gradient.py:9-282 (`accelerated=False`, a callable `step`, no callback). -/
noncomputable def flMinimizePGE (rd : ℝ → ℝ) (P : FlPGArgsE d) : Except PyErr (FlPGResult d) := flPgLoopE rd P P.maxIter 0 P.x0

/-- `res` is a possible result of `pen.prox(v, step)`, penalty.py:25-34, 81-90 and constraint.py:18-28, 43-57, 81-93, 176-177.  `FusedLasso.prox` is not modelled with rounding. -/
def PenObj.FlProxE (rd : ℝ → ℝ) (pen : PenObj d) (v : Fin d → ℝ) (step : ℝ) (res : Except PyErr (Fin d → ℝ)) : Prop :=
  match pen with
  | .l1Ball alpha => ∃ sum, FlSum rd (List.ofFn fun i => |v i|) sum ∧ res = L1Ball.flProx rd sum alpha v
  | .simplex s => ∃ sum, FlSum rd (List.ofFn v) sum ∧ res = SimplexConstraint.flProx rd sum s v
  | pen => ∃ p, pen.FlProx rd v step p ∧ res = .ok p

end Copt
