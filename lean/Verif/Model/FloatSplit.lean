import Verif.Model.FloatConstrained

/-!
# Model of the three operator splitting with rounded arithmetic

`minimize_three_split` with `line_search=False`, a given `step_size` and no callback; every operation on numbers is followed by the rounding `rd`.
-/

namespace Copt

open Spec

variable {d : ℕ}

/-- Arguments of `minimize_three_split`.  The number passed first to `grad`, `prox1` and `prox2` counts the calls (0 before the loop, `it + 1` in iteration `it`): results need not be reproducible.
`norm` is `np.linalg.norm`. -/
structure FlTSArgs (d : ℕ) where
  grad : ℕ → (Fin d → ℝ) → Fin d → ℝ
  prox1 : ℕ → (Fin d → ℝ) → ℝ → Except PyErr (Fin d → ℝ)
  prox2 : ℕ → (Fin d → ℝ) → ℝ → Except PyErr (Fin d → ℝ)
  norm : ℕ → (Fin d → ℝ) → ℝ
  step : ℝ
  x0 : Fin d → ℝ
  tol : ℝ
  maxIter : ℕ

/-- `OptimizeResult`, splitting.py:169-171, without the step size. -/
structure FlTSResult (d : ℕ) where
  x : Fin d → ℝ
  success : Bool
  nit : ℕ
  certificate : ℝ

/-- `z - step_size * (u + grad_fk)`, splitting.py:130. -/
def flTsArg (rd : ℝ → ℝ) (step : ℝ) (grad z u : Fin d → ℝ) : Fin d → ℝ := fun j => rd (z j - rd (step * rd (u j + grad j)))

/-- `x + step_size * u`, splitting.py:149. -/
def flTsPoint (rd : ℝ → ℝ) (step : ℝ) (x u : Fin d → ℝ) : Fin d → ℝ := fun j => rd (x j + rd (step * u j))

/-- `u += (x - z) / step_size`, splitting.py:150. -/
noncomputable def flTsDual (rd : ℝ → ℝ) (step : ℝ) (u x z : Fin d → ℝ) : Fin d → ℝ := fun j => rd (u j + rd (rd (x j - z j) / step))

open Classical in
/-- The loop, splitting.py:127-167; `m` is `max_iter - 1 - it`.  An exception of a proximal operator is not caught. -/
noncomputable def flTsLoop (rd : ℝ → ℝ) (P : FlTSArgs d) : ℕ → ℕ → (Fin d → ℝ) → (Fin d → ℝ) → Except PyErr (FlTSResult d)
  | m, it, z, u => do
    let x ← P.prox1 (it + 1) (flTsArg rd P.step (P.grad (it + 1) z) z u) P.step   -- lines 129-130
    let cert := rd (P.norm it (fun j => rd (x j - z j)) / P.step)                 -- lines 131-132, 151
    let zNext ← P.prox2 (it + 1) (flTsPoint rd P.step x u) P.step                 -- line 149
    if 0 < it ∧ cert < P.tol then return ⟨x, true, it, cert⟩                       -- lines 165-167
    else match m with
      | 0 => return ⟨x, false, it, cert⟩
      | m + 1 => flTsLoop rd P m (it + 1) zNext (flTsDual rd P.step u x zNext)

/-- `minimize_three_split`, splitting.py:9-171 (`line_search=False`, a given `step_size`, no callback, `max_iter_backtracking > 0`).  The `x` of line 124 is overwritten, but its computation may raise;
with `max_iter=0` line 170 reads the unassigned `it`. -/
noncomputable def flMinimizeTS (rd : ℝ → ℝ) (P : FlTSArgs d) : Except PyErr (FlTSResult d) := do
  let z ← P.prox2 0 P.x0 P.step                                                                     -- line 120
  let _ ← P.prox1 0 (fun j => rd (z j - rd (P.step * P.grad 0 z j))) P.step                         -- lines 123-124
  match P.maxIter with
  | 0 => .error .unboundLocalError
  | m + 1 => flTsLoop rd P m 0 z 0

end Copt
