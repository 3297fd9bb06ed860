import Mathlib.Analysis.InnerProductSpace.Basic
import Verif.Model.Utils

/-!
# Model of copt/proximal_gradient.py

Vectors live in an arbitrary real inner product space `E` and numbers are reals.  `fg` is the `func_and_grad` built by
`utils.build_func_grad` (see `Model/Utils`), a pure function.  The callback and a callable `step` are called at most once per
iteration, so making them functions of the iteration number covers stateful ones.  `max_iter` is a natural number
(a finite float `m >= 0` behaves as its ceiling; an infinite one is not modelled).  `store` is the conversion made
by the assignment `x[:] = x_next`: the identity when `x` holds floats, truncation when it holds integers.
Printing is not modelled.
-/

namespace Copt

open scoped InnerProductSpace

variable {E : Type} [NormedAddCommGroup E] [InnerProductSpace ℝ E]

/-- What the line search leaves behind: `x_next, step_size, f_next, grad_next`, whether it ended with `break`, and (ghost) the
step given to `prox` to compute `x_next`. -/
structure LsOut (E : Type) where
  xNext : E
  used : ℝ
  step : ℝ
  fNext : ℝ
  gradNext : E
  ok : Bool

open Classical in
/-- The sufficient decrease test, proximal_gradient.py:156-162 (and 231-236). A zero step gives numpy's `inf` (the test
passes) or `nan` (it fails). -/
def lsTest (fNext fk : ℝ) (grad d : E) (step : ℝ) : Prop :=
  if step = 0 then d ≠ 0 else fNext ≤ fk + ⟪grad, d⟫_ℝ + ⟪d, d⟫_ℝ / (2 * step)

open Classical in
/-- The line search loop, proximal_gradient.py:155-171, with `k + 1` iterations left.  When it is exhausted `f_next` and
`grad_next` are those of the last rejected point. -/
noncomputable def lsLoop (fg : E → ℝ × E) (prox : E → ℝ → E) (x grad : E) (fk factor : ℝ) : ℕ → E → ℝ → ℝ → LsOut E
  | k, xNext, used, step =>
    let next := fg xNext
    if lsTest next.1 fk grad (xNext - x) step then ⟨xNext, used, step, next.1, next.2, true⟩
    else
      let step' := step * factor
      let xNext' := prox (x - step' • grad) step'
      match k with
      | 0 => ⟨xNext', step', step', next.1, next.2, false⟩
      | k + 1 => lsLoop fg prox x grad fk factor k xNext' step' step'

/-- The backtracking branch, proximal_gradient.py:151-171; `btIter` is positive. -/
noncomputable def pgSearch (fg : E → ℝ × E) (prox : E → ℝ → E) (x grad : E) (fk factor : ℝ) (btIter : ℕ) (step : ℝ) : LsOut E :=
  lsLoop fg prox x grad fk factor (btIter - 1) (prox (x - step • grad) step) step (step * (11 / 10))

/-- Ghost record of one iteration: `x`, `x_next`, step given to `prox`, `step_size`, "line search succeeded". -/
structure PGEntry (E : Type) where
  x : E
  xNext : E
  used : ℝ
  step : ℝ
  ok : Bool

/-- Loop state (and what `locals()` shows): `x, fk, grad_fk, step_size, certificate (none: nan or inf), n_iterations,
certificate_list`; `log` and `warnLs` (line search warnings) are ghosts. -/
structure PGState (E : Type) where
  x : E
  fk : ℝ
  grad : E
  stepSize : Option ℝ
  certificate : Option ℝ
  nit : ℕ
  trace : List (Option ℝ)
  log : List (PGEntry E)
  warnLs : ℕ

/-- The `step` argument. -/
inductive PGStep (E : Type) where
  | callable (rule : ℕ → PGState E → ℝ)
  | str (s : String)

/-- Arguments, proximal_gradient.py:9-25. -/
structure PGArgs (E : Type) where
  fg : E → ℝ × E
  x0 : E
  prox : Option (E → ℝ → E)
  tol : ℝ
  maxIter : ℕ
  /-- Callback: `true` when it returns `False`. -/
  callback : Option (ℕ → PGState E → Bool)
  step : PGStep E
  btIter : ℤ
  factor : ℝ
  traceCert : Bool
  store : E → E

/-- How the loop ended. -/
inductive PGWhy where
  | success | exhausted | callback
  deriving DecidableEq

/-- Lines 116-121: a missing `prox` is the identity. -/
def PGArgs.proxFn (P : PGArgs E) : E → ℝ → E := P.prox.getD fun x _ => x

/-- `np.linalg.norm((x - x_next) / step_size)`, line 178; `none` is numpy's nan or inf for a zero step. -/
noncomputable def pgCert (x xNext : E) (step : ℝ) : Option ℝ :=
  open Classical in if step = 0 then none else some ‖step⁻¹ • (x - xNext)‖

/-- The step-size branches, lines 146-177: a `fixed` step multiplies `None` by an array. -/
noncomputable def pgStepBranch (P : PGArgs E) (st : PGState E) : Except PyErr (LsOut E) :=
  match P.step with
  | .callable rule =>
    let s := rule st.nit st
    let xNext := P.proxFn (st.x - s • st.grad) s
    .ok ⟨xNext, s, s, (P.fg xNext).1, (P.fg xNext).2, true⟩
  | .str s =>
    if s = "backtracking" then
      match st.stepSize with
      | none => .error .typeError
      | some t => .ok (pgSearch P.fg P.proxFn st.x st.grad st.fk P.factor P.btIter.toNat t)
    else if s = "fixed" then .error .typeError
    else .error .valueError

/-- Is the certificate below the tolerance?  Comparisons with nan are false. -/
def certLt (c : Option ℝ) (tol : ℝ) : Prop := ∃ r, c = some r ∧ r < tol

/-- The state after lines 178-183. -/
noncomputable def pgNext (P : PGArgs E) (st : PGState E) (r : LsOut E) : PGState E :=
  let c := pgCert st.x r.xNext r.step
  { x := P.store r.xNext, fk := r.fNext, grad := r.gradNext, stepSize := some r.step, certificate := c, nit := st.nit,
    trace := if P.traceCert then st.trace ++ [c] else st.trace,
    log := st.log ++ [⟨st.x, r.xNext, r.used, r.step, r.ok⟩],
    warnLs := if r.ok then st.warnLs else st.warnLs + 1 }

/-- The callback call, lines 142-144. -/
def pgCallback (P : PGArgs E) (st : PGState E) : PGState E × Bool :=
  match P.callback with
  | none => (st, false)
  | some cb => (st, cb st.nit st)

open Classical in
/-- One pass of the loop, lines 141-187. -/
noncomputable def pgBody (P : PGArgs E) (st : PGState E) : Except PyErr (PGState E × Option PGWhy) := do
  let cb := pgCallback P st
  if cb.2 then return (cb.1, some .callback)
  else
    let r ← pgStepBranch P cb.1
    let st' := pgNext P cb.1 r
    if certLt st'.certificate P.tol then return (st', some .success) else return (st', none)

/-- The loop, lines 141-192; the first argument is `max_iter - n_iterations`. -/
noncomputable def pgLoop (P : PGArgs E) : ℕ → PGState E → Except PyErr (PGState E × PGWhy)
  | rem, st => do
    let r ← pgBody P st
    match r.2 with
    | some why => return (r.1, why)
    | none =>
      match rem with
      | 0 => return (r.1, .exhausted)
      | rem + 1 => pgLoop P rem { r.1 with nit := r.1.nit + 1 }

/-- What the function returns; `warned` says whether the final RuntimeWarning was issued. -/
structure PGResult (E : Type) where
  x : E
  success : Bool
  certificate : Option ℝ
  nit : ℕ
  stepSize : Option ℝ
  trace : List (Option ℝ)
  warned : Bool
  why : PGWhy
  log : List (PGEntry E)
  warnLs : ℕ

/-- Initial step size, lines 129-133. -/
noncomputable def pgStep0 (P : PGArgs E) : Option ℝ :=
  match P.step with
  | .callable _ => none
  | .str s => if s = "backtracking" then some ((18 / 10) / (initLipschitz P.fg P.x0).1) else none

/-- State before the loop, lines 112-140. -/
noncomputable def pgInit (P : PGArgs E) : PGState E :=
  ⟨P.x0, (P.fg P.x0).1, (P.fg P.x0).2, pgStep0 P, none, 0, [], [], 0⟩

/-- `minimize_proximal_gradient(accelerated=False)`, proximal_gradient.py:112-197, 275-282.  The `else` clause of
`while True` (lines 193-197) is never executed: the loop is only left by `break`. -/
noncomputable def minimizeProximalGradient (P : PGArgs E) : Except PyErr (PGResult E) := do
  if P.btIter ≤ 0 then .error .valueError
  else
    let r ← pgLoop P P.maxIter (pgInit P)
    return { x := r.1.x, success := r.2 = .success, certificate := r.1.certificate, nit := r.1.nit,
             stepSize := r.1.stepSize, trace := r.1.trace, warned := false, why := r.2, log := r.1.log,
             warnLs := r.1.warnLs }

/-! ### The accelerated method -/

/-- Loop state of the accelerated method: `x, yk, tk, certificate, n_iterations, certificate_list`; `grad` is
`grad_fk`; `log` is a ghost: `(yk, x_next, step)` per iteration. -/
structure APGState (E : Type) where
  x : E
  yk : E
  tk : ℝ
  grad : E
  certificate : Option ℝ
  nit : ℕ
  trace : List (Option ℝ)
  log : List (E × E × ℝ)
  warnLs : ℕ

/-- The `step` argument of the accelerated method. -/
inductive APGStep (E : Type) where
  | callable (rule : ℕ → APGState E → ℝ)
  | str (s : String)

/-- Arguments of the accelerated method. -/
structure APGArgs (E : Type) where
  fg : E → ℝ × E
  x0 : E
  prox : Option (E → ℝ → E)
  tol : ℝ
  maxIter : ℕ
  callback : Option (ℕ → APGState E → Bool)
  step : APGStep E
  btIter : ℤ
  factor : ℝ
  traceCert : Bool

/-- Lines 116-121. -/
def APGArgs.proxFn (P : APGArgs E) : E → ℝ → E := P.prox.getD fun x _ => x

open Classical in
/-- The line search of the accelerated method, lines 230-246, with `k + 1` iterations left: `(x_next, current_step_size)` and
whether it ended with `break`. -/
noncomputable def apgSearch (fg : E → ℝ × E) (prox : E → ℝ → E) (yk grad : E) (factor : ℝ) : ℕ → E → ℝ → E × ℝ × Bool
  | k, xNext, step =>
    if lsTest (fg xNext).1 (fg yk).1 grad (xNext - yk) step then (xNext, step, true)
    else
      let step' := step * factor
      let xNext' := prox (yk - step' • grad) step'
      match k with
      | 0 => (xNext', step', false)
      | k + 1 => apgSearch fg prox yk grad factor k xNext' step'

/-- `t_next`, lines 213, 216 and 247. -/
noncomputable def tNext (tk : ℝ) : ℝ := (1 + Real.sqrt (1 + 4 * tk * tk)) / 2

/-- Lines 213-225 and 247-258: the momentum step from the accepted point `xNext`; the certificate compares the gradient
step from `xNext` with the previous `x`. -/
noncomputable def apgNext (P : APGArgs E) (st : APGState E) (xNext : E) (s : ℝ) (ok : Bool) (trace : Bool) : APGState E :=
  let t := tNext st.tk
  let xProx := P.proxFn (xNext - s • (P.fg xNext).2) s
  let c := pgCert st.x xProx s
  { x := xNext, yk := xNext + ((st.tk - 1) / t) • (xNext - st.x), tk := t, grad := st.grad, certificate := c,
    nit := st.nit, trace := if trace then st.trace ++ [c] else st.trace, log := st.log ++ [(st.yk, xNext, s)],
    warnLs := if ok then st.warnLs else st.warnLs + 1 }

/-- The step branches, lines 210-258.  An unknown strategy is silently ignored, and only the backtracking branch
appends to the certificate list. -/
noncomputable def apgStepBranch (P : APGArgs E) (step0 : ℝ) (st : APGState E) : APGState E :=
  match P.step with
  | .callable rule =>
    let s := rule st.nit st
    apgNext P st (P.proxFn (st.yk - s • st.grad) s) s true false
  | .str s =>
    if s = "backtracking" then
      let r := apgSearch P.fg P.proxFn st.yk st.grad P.factor (P.btIter.toNat - 1)
        (P.proxFn (st.yk - step0 • st.grad) step0) step0
      apgNext P st r.1 r.2.1 r.2.2 P.traceCert
    else st

/-- The callback of the accelerated method, lines 205-207: `true` when it returned `False`. -/
def apgCallback (P : APGArgs E) (st : APGState E) : Bool :=
  match P.callback with
  | none => false
  | some cb => cb st.nit st

open Classical in
/-- One pass of the loop, lines 203-262. -/
noncomputable def apgBody (P : APGArgs E) (step0 : ℝ) (st : APGState E) : APGState E × Option PGWhy :=
  let st := { st with grad := (P.fg st.yk).2 }
  if apgCallback P st then (st, some .callback)
  else
    let st' := apgStepBranch P step0 st
    if certLt st'.certificate P.tol then (st', some .success) else (st', none)

/-- The loop, lines 203-267; the first argument is `max_iter - n_iterations`. -/
noncomputable def apgLoop (P : APGArgs E) (step0 : ℝ) : ℕ → APGState E → APGState E × PGWhy
  | rem, st =>
    let r := apgBody P step0 st
    match r.2 with
    | some why => (r.1, why)
    | none =>
      match rem with
      | 0 => (r.1, .exhausted)
      | rem + 1 => apgLoop P step0 rem { r.1 with nit := r.1.nit + 1 }

/-- What the accelerated method returns. -/
structure APGResult (E : Type) where
  x : E
  success : Bool
  certificate : Option ℝ
  nit : ℕ
  stepSize : Option ℝ
  trace : List (Option ℝ)
  warned : Bool
  why : PGWhy
  log : List (E × E × ℝ)

/-- Initial step size, lines 129-133. -/
noncomputable def apgStep0 (P : APGArgs E) : Option ℝ :=
  match P.step with
  | .callable _ => none
  | .str s => if s = "backtracking" then some ((18 / 10) / (initLipschitz P.fg P.x0).1) else none

/-- State before the loop, lines 112-135, 199-202. -/
def apgInit (P : APGArgs E) : APGState E := ⟨P.x0, P.x0, 1, 0, none, 0, [], [], 0⟩

/-- `minimize_proximal_gradient(accelerated=True)`, proximal_gradient.py:112-135, 198-282: the final warning depends on
`n_iterations` only. -/
noncomputable def minimizeAccelerated (P : APGArgs E) : Except PyErr (APGResult E) :=
  if P.btIter ≤ 0 then .error .valueError
  else
    let r := apgLoop P ((apgStep0 P).getD 0) P.maxIter (apgInit P)
    .ok { x := r.1.x, success := r.2 = .success, certificate := r.1.certificate, nit := r.1.nit, stepSize := apgStep0 P,
          trace := r.1.trace, warned := decide (P.maxIter ≤ r.1.nit), why := r.2, log := r.1.log }

end Copt
