import Verif.Model.FloatConstrained

/-!
# Model of the accelerated proximal gradient method with rounded arithmetic

`minimize_proximal_gradient(accelerated=True)` with a callable `step` and no callback; every operation on numbers is followed by the rounding `rd`.
-/

namespace Copt

open Spec

variable {d : ℕ}

/-- Arguments; see `FlPGArgsE`.  `grad2` and `prox2` are the results of the calls made for the certificate, proximal_gradient.py:219-222. -/
structure FlAPGArgs (d : ℕ) extends FlPGArgsE d where
  grad2 : ℕ → (Fin d → ℝ) → Fin d → ℝ
  prox2 : ℕ → (Fin d → ℝ) → ℝ → Except PyErr (Fin d → ℝ)

/-- `t_next = (1 + np.sqrt(1 + 4 * tk * tk)) / 2`, proximal_gradient.py:213 and 216 (the same value twice). -/
noncomputable def flTNext (rd : ℝ → ℝ) (t : ℝ) : ℝ := rd (rd (1 + rd (Real.sqrt (rd (1 + rd (rd (4 * t) * t))))) / 2)

/-- `yk = x_next + ((tk - 1.0) / t_next) * (x_next - x)`, proximal_gradient.py:214 and 217. -/
noncomputable def flExtrapolate (rd : ℝ → ℝ) (t tNext : ℝ) (xNext x : Fin d → ℝ) : Fin d → ℝ :=
  fun j => rd (xNext j + rd (rd (rd (t - 1) / tNext) * rd (xNext j - x j)))

open Classical in
/-- The loop, proximal_gradient.py:203-267; `m` is `max_iter - n_iterations`.  An exception of `prox` is not caught. -/
noncomputable def flApgLoop (rd : ℝ → ℝ) (P : FlAPGArgs d) : ℕ → ℕ → (Fin d → ℝ) → (Fin d → ℝ) → ℝ → Except PyErr (FlPGResult d)
  | m, nit, x, y, t => do
    let xNext ← P.prox nit (fun j => rd (y j - rd (P.step nit * P.grad nit y j))) (P.step nit)               -- line 212
    let xProx ← P.prox2 nit (fun j => rd (xNext j - rd (P.step nit * P.grad2 nit xNext j))) (P.step nit)     -- lines 219-222
    let cert := P.norm nit (fun j => rd (rd (x j - xProx j) / P.step nit))                                   -- line 223
    if cert < P.tol then return ⟨xNext, true, cert, nit⟩                                                      -- lines 260-262
    else match m with
      | 0 => return ⟨xNext, false, cert, nit⟩                                                                 -- lines 264-265
      | m + 1 => flApgLoop rd P m (nit + 1) xNext (flExtrapolate rd t (flTNext rd t) xNext x) (flTNext rd t)  -- lines 213-217, 224-225, 267

/-- `minimize_proximal_gradient`, proximal_gradient.py:9-282 (`accelerated=True`, a callable `step`, no callback). -/
noncomputable def flMinimizeAccelerated (rd : ℝ → ℝ) (P : FlAPGArgs d) : Except PyErr (FlPGResult d) := flApgLoop rd P P.maxIter 0 P.x0 P.x0 1

end Copt
