import Verif.Model.FloatProxGrad

/-!
# Model of the Frank-Wolfe method on the l1 ball with rounded arithmetic

`minimize_frank_wolfe` with `variant="vanilla"`, `lmo=L1Ball(alpha).lmo`, `step="sublinear"` or a callable step, `jac=True` or a callable `jac`, no callback.  Every operation on numbers is followed by
the rounding `rd`; results of BLAS calls are any value allowed by `Spec.FlDot`.  Overflow and nan are not modelled.
-/

namespace Copt

open Spec

variable {d : ℕ}

/-- Arguments, with the results of the oracles at iteration `k`: `grad k x` is the gradient computed at `x` (by the call of `func_and_grad` of the preceding iteration, which has the same argument, or by line 248),
`dot k v w` what `np.dot(v, w)` returns, `step k` the step size. -/
structure FlFWArgs (d : ℕ) where
  grad : ℕ → (Fin d → ℝ) → Fin d → ℝ
  dot : ℕ → (Fin d → ℝ) → (Fin d → ℝ) → ℝ
  step : ℕ → ℝ
  alpha : ℝ
  x0 : Fin d → ℝ
  tol : ℝ
  maxIter : ℕ

/-- Attributes of the result, frank_wolfe.py:308-309. -/
structure FlFWResult (d : ℕ) where
  x : Fin d → ℝ
  certificate : ℝ
  nit : ℕ

/-- `L1Ball.lmo(u, x)`, the update direction, constraint.py:118-124; the product with the sign is exact.  `np.argmax` raises for `d = 0`, which is not modelled. -/
noncomputable def flL1Lmo (rd : ℝ → ℝ) (alpha : ℝ) (u x : Fin d → ℝ) : Fin d → ℝ :=
  match (List.finRange d).argmax fun i => |u i| with
  | none => fun j => -x j
  | some i => fun j => if j = i then rd (-x j + alpha * SignType.sign (u i)) else -x j

/-- `update_direction` in iteration `k`, frank_wolfe.py:252. -/
noncomputable def flFwDir (rd : ℝ → ℝ) (P : FlFWArgs d) (k : ℕ) (x : Fin d → ℝ) : Fin d → ℝ := flL1Lmo rd P.alpha (fun j => -P.grad k x j) x

/-- `certificate`, frank_wolfe.py:254. -/
noncomputable def flFwCert (rd : ℝ → ℝ) (P : FlFWArgs d) (k : ℕ) (x : Fin d → ℝ) : ℝ := P.dot k (flFwDir rd P k x) fun j => -P.grad k x j

/-- `x += step_size * update_direction`, frank_wolfe.py:300. -/
noncomputable def flFwNext (rd : ℝ → ℝ) (P : FlFWArgs d) (k : ℕ) (x : Fin d → ℝ) : Fin d → ℝ :=
  fun j => rd (x j + rd (P.step k * flFwDir rd P k x j))

open Classical in
/-- The loop, frank_wolfe.py:251-305; `m` is `max_iter - 1 - it`.  The Lipschitz estimate of lines 256-264 is not used with these step sizes. -/
noncomputable def flFwLoop (rd : ℝ → ℝ) (P : FlFWArgs d) : ℕ → ℕ → (Fin d → ℝ) → FlFWResult d
  | m, it, x =>
    let cert := flFwCert rd P it x
    if cert ≤ P.tol then ⟨x, cert, it⟩                               -- lines 266-267
    else match m with
      | 0 => ⟨flFwNext rd P it x, cert, it⟩
      | m + 1 => flFwLoop rd P m (it + 1) (flFwNext rd P it x)

/-- `minimize_frank_wolfe`, frank_wolfe.py:115-309, in the case above with `max_iter ≥ 1`. -/
noncomputable def flMinimizeFW (rd : ℝ → ℝ) (P : FlFWArgs d) : FlFWResult d := flFwLoop rd P (P.maxIter - 1) 0 P.x0

end Copt
