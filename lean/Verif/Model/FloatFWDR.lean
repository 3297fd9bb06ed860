import Verif.Model.FloatFW

/-!
# Model of the Frank-Wolfe method on the l1 ball with the Demyanov-Rubinov step, in rounded arithmetic

`minimize_frank_wolfe` with `variant="vanilla"`, `lmo=L1Ball(alpha).lmo`, `step="DR"`, `lipschitz` given (otherwise the code raises, frank_wolfe.py:284-285), no callback.  Every operation on numbers is
followed by the rounding `rd`; results of BLAS calls and of the objective are parameters.  The values of the objective are not used by the code in this case.  Overflow and nan are not modelled.
-/

namespace Copt

open Spec

variable {d : ℕ}

/-- Arguments, with the results of the oracles.  `grad 0 x` is the gradient of line 248, `grad (k + 1) x` the one of line 289 in iteration `k`; `norm k`, `dot k` are `linalg.norm`, `np.dot` of lines 253-254. -/
structure FlFWDArgs (d : ℕ) where
  grad : ℕ → (Fin d → ℝ) → Fin d → ℝ
  dot : ℕ → (Fin d → ℝ) → (Fin d → ℝ) → ℝ
  norm : ℕ → (Fin d → ℝ) → ℝ
  alpha : ℝ
  x0 : Fin d → ℝ
  tol : ℝ
  maxIter : ℕ
  lipschitz : ℝ

/-- Attributes of the result, frank_wolfe.py:308-309. -/
structure FlFWDResult (d : ℕ) where
  x : Fin d → ℝ
  certificate : ℝ
  nit : ℕ

/-- `update_direction`, frank_wolfe.py:252, with `gr` the current gradient. -/
noncomputable def flFwdDir (rd : ℝ → ℝ) (P : FlFWDArgs d) (x gr : Fin d → ℝ) : Fin d → ℝ := flL1Lmo rd P.alpha (fun j => -gr j) x

/-- `norm_update_direction`, frank_wolfe.py:253. -/
noncomputable def flFwdNorm (rd : ℝ → ℝ) (P : FlFWDArgs d) (k : ℕ) (x gr : Fin d → ℝ) : ℝ := rd (P.norm k (flFwdDir rd P x gr) ^ 2)

/-- `certificate`, frank_wolfe.py:254. -/
noncomputable def flFwdCert (rd : ℝ → ℝ) (P : FlFWDArgs d) (k : ℕ) (x gr : Fin d → ℝ) : ℝ := P.dot k (flFwdDir rd P x gr) fun j => -gr j

open Classical in
/-- `min(certificate / (norm_update_direction * lipschitz_t), max_step_size)`, frank_wolfe.py:286-288; `L1Ball.lmo` returns 1 as maximal step (constraint.py:127).  A zero denominator gives numpy's `inf`
(the certificate is positive there). -/
noncomputable def flFwdStep (rd : ℝ → ℝ) (P : FlFWDArgs d) (k : ℕ) (x gr : Fin d → ℝ) : ℝ :=
  if rd (flFwdNorm rd P k x gr * P.lipschitz) = 0 then 1 else min (rd (flFwdCert rd P k x gr / rd (flFwdNorm rd P k x gr * P.lipschitz))) 1

/-- `x += step_size * update_direction`, frank_wolfe.py:300, and the point of line 289. -/
noncomputable def flFwdNext (rd : ℝ → ℝ) (P : FlFWDArgs d) (k : ℕ) (x gr : Fin d → ℝ) : Fin d → ℝ := fun j => rd (x j + rd (flFwdStep rd P k x gr * flFwdDir rd P x gr j))

open Classical in
/-- The loop, frank_wolfe.py:251-305; `m` is `max_iter - 1 - it`. -/
noncomputable def flFwdLoop (rd : ℝ → ℝ) (P : FlFWDArgs d) : ℕ → ℕ → (Fin d → ℝ) → (Fin d → ℝ) → FlFWDResult d
  | m, it, x, gr =>
    let cert := flFwdCert rd P it x gr
    if cert ≤ P.tol then ⟨x, cert, it⟩                  -- lines 266-267
    else
      let y := flFwdNext rd P it x gr
      match m with
      | 0 => ⟨y, cert, it⟩
      | m + 1 => flFwdLoop rd P m (it + 1) y (P.grad (it + 1) y)

/-- `minimize_frank_wolfe`, frank_wolfe.py:115-309, in the case above with `max_iter ≥ 1`. -/
noncomputable def flMinimizeFWD (rd : ℝ → ℝ) (P : FlFWDArgs d) : FlFWDResult d := flFwdLoop rd P (P.maxIter - 1) 0 P.x0 (P.grad 0 P.x0)

end Copt
