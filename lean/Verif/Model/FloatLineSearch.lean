import Verif.Model.FloatConstrained

/-!
# Model of the proximal gradient method with its line search and rounded arithmetic

`minimize_proximal_gradient` with `accelerated=False`, `step="backtracking"` (the default) and no callback; every operation on numbers is followed by the rounding `rd`.  The literals
`1e-3`, `1.1` and `1.8` are the roundings of these numbers.  `x0` is an array of floats.  Overflow is not modelled; the division of line 160 by a step size which has become zero gives `inf` or `nan`.
-/

namespace Copt

open Spec

variable {d : ℕ}

/-- Arguments of `minimize_proximal_gradient`, with the results of the oracles.  The first numbers count the calls: results need not be reproducible.  `fg k i` is call number `i` of `func_and_grad`
in the line search of iteration `k`, `prox k i` the call of `prox` which gives its argument, `dotG` and `dotD` the two dot products of the test; `init` and `start` are the calls of
`func_and_grad` by `init_lipschitz` and on line 140. -/
structure FlBtArgs (d : ℕ) where
  init : ℕ → (Fin d → ℝ) → ℝ × (Fin d → ℝ)
  start : (Fin d → ℝ) → ℝ × (Fin d → ℝ)
  fg : ℕ → ℕ → (Fin d → ℝ) → ℝ × (Fin d → ℝ)
  prox : ℕ → ℕ → (Fin d → ℝ) → ℝ → Except PyErr (Fin d → ℝ)
  dotG : ℕ → ℕ → (Fin d → ℝ) → (Fin d → ℝ) → ℝ
  dotD : ℕ → ℕ → (Fin d → ℝ) → (Fin d → ℝ) → ℝ
  norm : ℕ → (Fin d → ℝ) → ℝ
  x0 : Fin d → ℝ
  tol : ℝ
  maxIter : ℕ
  btIter : ℕ
  factor : ℝ

/-- Attributes of the result, proximal_gradient.py:275-282; `none` for a certificate which is nan. -/
structure FlBtResult (d : ℕ) where
  x : Fin d → ℝ
  success : Bool
  certificate : Option ℝ
  nit : ℕ
  stepSize : ℝ

/-- `x - t * g`, proximal_gradient.py:152, 168 and utils.py:174, 180. -/
def flStep (rd : ℝ → ℝ) (x g : Fin d → ℝ) (t : ℝ) : Fin d → ℝ := fun j => rd (x j - rd (t * g j))

open Classical in
/-- The loop of `init_lipschitz`, utils.py:176-181; `fT` is `f_tilde`, `i` the number of the next call of `f_grad`. -/
noncomputable def flInitLoop (rd : ℝ → ℝ) (P : FlBtArgs d) (f0 : ℝ) (grad0 : Fin d → ℝ) : ℕ → ℕ → ℝ → ℝ → ℝ
  | 0, _, L0, _ => L0
  | k + 1, i, L0, fT =>
    if fT ≤ f0 then L0
    else flInitLoop rd P f0 grad0 k (i + 1) (rd (L0 * 10)) (P.init i (flStep rd P.x0 grad0 (rd (1 / rd (L0 * 10))))).1

/-- `init_lipschitz`, utils.py:167-182, for dense arrays. -/
noncomputable def flInitLipschitz (rd : ℝ → ℝ) (P : FlBtArgs d) : ℝ :=
  let L0 := rd (1 / 1000)
  let fg0 := P.init 0 P.x0
  flInitLoop rd P fg0.1 fg0.2 100 2 L0 (P.init 1 (flStep rd P.x0 fg0.2 (rd (1 / L0)))).1

/-- `step_size = 1.8 / utils.init_lipschitz(func_and_grad, x0)`, proximal_gradient.py:130. -/
noncomputable def flInitStep (rd : ℝ → ℝ) (P : FlBtArgs d) : ℝ := rd (rd (18 / 10) / flInitLipschitz rd P)

/-- What the line search leaves behind: `x_next, step_size, f_next, grad_next`. -/
structure FlLsOut (d : ℕ) where
  xNext : Fin d → ℝ
  step : ℝ
  fNext : ℝ
  gradNext : Fin d → ℝ

open Classical in
/-- `f_next <= rhs`, proximal_gradient.py:157-162; `gd` and `dd` are the dot products.  When `2.0 * step_size` is zero, `rhs` is `inf` or `nan`. -/
def flLsTest (rd : ℝ → ℝ) (fNext fk gd dd step : ℝ) : Prop :=
  if rd (2 * step) = 0 then 0 < dd else fNext ≤ rd (rd (fk + gd) + rd (dd / rd (2 * step)))

open Classical in
/-- The line search loop, proximal_gradient.py:155-171, with `m + 1` iterations left; `i` is the number of the iteration.  When it is exhausted `f_next` and `grad_next` are those of the last
rejected point. -/
noncomputable def flLsLoop (rd : ℝ → ℝ) (P : FlBtArgs d) (k : ℕ) (x g : Fin d → ℝ) (fk : ℝ) : ℕ → ℕ → (Fin d → ℝ) → ℝ → Except PyErr (FlLsOut d)
  | m, i, xNext, step =>
    let next := P.fg k i xNext                                                                                     -- line 156
    let dir : Fin d → ℝ := fun j => rd (xNext j - x j)                                                             -- lines 153, 169
    if flLsTest rd next.1 fk (P.dotG k i g dir) (P.dotD k i dir dir) step then .ok ⟨xNext, step, next.1, next.2⟩    -- lines 157-164
    else do
      let step' := rd (step * P.factor)                                                                            -- line 167
      let xNext' ← P.prox k (i + 1) (flStep rd x g step') step'                                                    -- line 168
      match m with
      | 0 => return ⟨xNext', step', next.1, next.2⟩
      | m + 1 => flLsLoop rd P k x g fk m (i + 1) xNext' step'

/-- `np.linalg.norm((x - x_next) / step_size)`, proximal_gradient.py:178. -/
noncomputable def flBtCert (rd : ℝ → ℝ) (P : FlBtArgs d) (k : ℕ) (x xNext : Fin d → ℝ) (step : ℝ) : Option ℝ :=
  open Classical in if step = 0 then none else some (P.norm k (fun j => rd (rd (x j - xNext j) / step)))

open Classical in
/-- The loop, proximal_gradient.py:141-192; `m` is `max_iter - n_iterations`. -/
noncomputable def flBtLoop (rd : ℝ → ℝ) (P : FlBtArgs d) : ℕ → ℕ → (Fin d → ℝ) → ℝ → (Fin d → ℝ) → ℝ → Except PyErr (FlBtResult d)
  | m, nit, x, fk, g, step => do
    let xNext ← P.prox nit 0 (flStep rd x g step) step                                                             -- line 152
    let r ← flLsLoop rd P nit x g fk (P.btIter - 1) 0 xNext (rd (step * rd (11 / 10)))                              -- lines 154-171
    let cert := flBtCert rd P nit x r.xNext r.step                                                                  -- line 178
    if ∃ c, cert = some c ∧ c < P.tol then return ⟨r.xNext, true, cert, nit, r.step⟩                               -- lines 185-187
    else match m with
      | 0 => return ⟨r.xNext, false, cert, nit, r.step⟩                                                             -- lines 189-190
      | m + 1 => flBtLoop rd P m (nit + 1) r.xNext r.fNext r.gradNext r.step                                         -- lines 181-183, 192

/-- `minimize_proximal_gradient`, proximal_gradient.py:9-282, in the case above. -/
noncomputable def flMinimizeBt (rd : ℝ → ℝ) (P : FlBtArgs d) : Except PyErr (FlBtResult d) :=
  if P.btIter = 0 then .error .valueError                                                                          -- lines 113-114
  else flBtLoop rd P P.maxIter 0 P.x0 (P.start P.x0).1 (P.start P.x0).2 (flInitStep rd P)

end Copt
