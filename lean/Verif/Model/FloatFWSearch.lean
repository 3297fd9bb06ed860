import Verif.Model.FloatFW
import Verif.Model.FrankWolfe

/-!
# Model of the Frank-Wolfe method on the l1 ball with its default line search, in rounded arithmetic

`minimize_frank_wolfe` with `variant="vanilla"`, `lmo=L1Ball(alpha).lmo`, `step="backtracking"` (the default), `lipschitz` given or estimated (the default), `jac=True` or a callable `jac`, no callback.
Every operation on numbers is followed by the rounding `rd`; results of BLAS calls and of the objective are parameters.  Overflow and nan are not modelled.
-/

namespace Copt

open Spec

variable {d : ℕ}

/-- Arguments, with the results of the oracles.  `value k i x`, `grad k i x` is what `func_and_grad(x)` returns: call `0, 0` is line 248, call `0, 1` is line 260 (only the gradient is used), call `k + 1, i`
is trial `i` of the line search of iteration `k`.  `norm k 0` is `linalg.norm` of line 253 in iteration `k`, `norm k 1` the one of line 261; `dot k` is `np.dot` of line 254. -/
structure FlFWSArgs (d : ℕ) where
  value : ℕ → ℕ → (Fin d → ℝ) → ℝ
  grad : ℕ → ℕ → (Fin d → ℝ) → Fin d → ℝ
  dot : ℕ → (Fin d → ℝ) → (Fin d → ℝ) → ℝ
  norm : ℕ → ℕ → (Fin d → ℝ) → ℝ
  alpha : ℝ
  x0 : Fin d → ℝ
  tol : ℝ
  maxIter : ℕ
  lipschitz : Option ℝ

/-- Local variables at the start of an iteration; `warned` records whether a `RuntimeWarning` was issued. -/
structure FlFWSState (d : ℕ) where
  x : Fin d → ℝ
  fT : ℝ
  grad : Fin d → ℝ
  oldF : Option ℝ
  lip : Option ℝ
  warned : Bool

/-- Attributes of the result, frank_wolfe.py:308-309, and whether the line search warned. -/
structure FlFWSResult (d : ℕ) where
  x : Fin d → ℝ
  certificate : ℝ
  nit : ℕ
  warned : Bool

/-- What `backtracking_step_size` returns, with the point `x + step_size * update_direction`. -/
structure FlFbOut (d : ℕ) where
  step : ℝ
  lip : ℝ
  x : Fin d → ℝ
  fNext : ℝ
  gradNext : Fin d → ℝ
  warned : Bool

/-- `certificate / (norm_update_direction * lipschitz_t)`, frank_wolfe.py:75. -/
noncomputable def flFbQuot (rd : ℝ → ℝ) (cert normD lip : ℝ) : ℝ := rd (cert / rd (normD * lip))

/-- The condition of frank_wolfe.py:76; a zero denominator gives numpy's `inf` (the certificate is positive when the routine is called). -/
def flFbShort (rd : ℝ → ℝ) (cert normD lip maxStep : ℝ) : Prop := rd (normD * lip) ≠ 0 ∧ flFbQuot rd cert normD lip < maxStep

open Classical in
/-- Step tried for the estimate `lip`, frank_wolfe.py:75-79. -/
noncomputable def flFbStep (rd : ℝ → ℝ) (cert normD lip maxStep : ℝ) : ℝ :=
  if flFbShort rd cert normD lip maxStep then flFbQuot rd cert normD lip else maxStep

open Classical in
/-- Right-hand side of the sufficient decrease test, frank_wolfe.py:76-83, in the order in which Python evaluates it. -/
noncomputable def flFbRhs (rd : ℝ → ℝ) (cert normD lip maxStep : ℝ) : ℝ :=
  if flFbShort rd cert normD lip maxStep then rd (rd (-(1 / 2) * flFbQuot rd cert normD lip) * cert)
  else rd (rd (-maxStep * cert) + rd (rd (rd (1 / 2 * rd (maxStep ^ 2)) * lip) * normD))

/-- `x + step_size * update_direction`, frank_wolfe.py:84 and 300. -/
def flFbPoint (rd : ℝ → ℝ) (x D : Fin d → ℝ) (s : ℝ) : Fin d → ℝ := fun j => rd (x j + rd (s * D j))

open Classical in
/-- The loop of `backtracking_step_size`, frank_wolfe.py:74-93, before trial `i`, with `k + 1` iterations left. -/
noncomputable def flFbLoop (rd : ℝ → ℝ) (value : ℕ → (Fin d → ℝ) → ℝ) (grad : ℕ → (Fin d → ℝ) → Fin d → ℝ) (x D : Fin d → ℝ) (fT cert normD maxStep : ℝ) : ℕ → ℕ → ℝ → FlFbOut d
  | k, i, lip =>
    let step := flFbStep rd cert normD lip maxStep
    let y := flFbPoint rd x D step
    if rd (value i y - fT) ≤ rd (flFbRhs rd cert normD lip maxStep + fwEPS) then ⟨step, lip, y, value i y, grad i y, false⟩
    else match k with
      | 0 => ⟨step, rd (lip * 2), y, value i y, grad i y, true⟩
      | k + 1 => flFbLoop rd value grad x D fT cert normD maxStep k (i + 1) (rd (lip * 2))

open Classical in
/-- Initial Lipschitz estimate of the line search, frank_wolfe.py:71-73.  A zero denominator gives numpy's `inf`. -/
noncomputable def flFbInit (rd : ℝ → ℝ) (oldF : Option ℝ) (fT cert normD lip : ℝ) : ℝ :=
  match oldF with
  | none => lip
  | some o =>
    let q := rd (rd (2 * rd (o - fT)) * normD)
    let m := if q = 0 then lip else min (rd (rd (cert ^ 2) / q)) lip
    max m (rd (lip * rd (9 / 10)))

/-- `update_direction` in a state, frank_wolfe.py:252; `L1Ball.lmo` returns 1 as maximal step (constraint.py:127). -/
noncomputable def flFwsDir (rd : ℝ → ℝ) (P : FlFWSArgs d) (st : FlFWSState d) : Fin d → ℝ := flL1Lmo rd P.alpha (fun j => -st.grad j) st.x

/-- `norm_update_direction`, frank_wolfe.py:253. -/
noncomputable def flFwsNorm (rd : ℝ → ℝ) (P : FlFWSArgs d) (k : ℕ) (st : FlFWSState d) : ℝ := rd (P.norm k 0 (flFwsDir rd P st) ^ 2)

/-- `certificate`, frank_wolfe.py:254. -/
noncomputable def flFwsCert (rd : ℝ → ℝ) (P : FlFWSArgs d) (k : ℕ) (st : FlFWSState d) : ℝ := P.dot k (flFwsDir rd P st) fun j => -st.grad j

/-- `lipschitz_t` after frank_wolfe.py:258-264: the estimate by a difference quotient if there is none yet.  The direction can be zero there, in which case the certificate is 0 and the value is not used. -/
noncomputable def flFwsLip (rd : ℝ → ℝ) (P : FlFWSArgs d) (k : ℕ) (st : FlFWSState d) : ℝ :=
  match st.lip with
  | some l => l
  | none =>
    let ge := P.grad 0 1 (flFbPoint rd st.x (flFwsDir rd P st) (rd (1 / 1000)))
    rd (P.norm k 1 (fun j => rd (st.grad j - ge j)) / rd (rd (1 / 1000) * rd (Real.sqrt (flFwsNorm rd P k st))))

/-- The call of `backtracking_step_size` in iteration `k`, frank_wolfe.py:272-282. -/
noncomputable def flFwsSearch (rd : ℝ → ℝ) (P : FlFWSArgs d) (k : ℕ) (st : FlFWSState d) : FlFbOut d :=
  flFbLoop rd (P.value (k + 1)) (P.grad (k + 1)) st.x (flFwsDir rd P st) st.fT (flFwsCert rd P k st) (flFwsNorm rd P k st) 1 99 0
    (flFbInit rd st.oldF st.fT (flFwsCert rd P k st) (flFwsNorm rd P k st) (flFwsLip rd P k st))

/-- State after an iteration, frank_wolfe.py:300-305. -/
noncomputable def flFwsNext (rd : ℝ → ℝ) (P : FlFWSArgs d) (k : ℕ) (st : FlFWSState d) : FlFWSState d :=
  let o := flFwsSearch rd P k st
  ⟨o.x, o.fNext, o.gradNext, some st.fT, some o.lip, st.warned || o.warned⟩

open Classical in
/-- The loop, frank_wolfe.py:251-305; `m` is `max_iter - 1 - it`. -/
noncomputable def flFwsLoop (rd : ℝ → ℝ) (P : FlFWSArgs d) : ℕ → ℕ → FlFWSState d → FlFWSResult d
  | m, it, st =>
    let cert := flFwsCert rd P it st
    if cert ≤ P.tol then ⟨st.x, cert, it, st.warned⟩                  -- lines 266-267
    else match m with
      | 0 => ⟨(flFwsNext rd P it st).x, cert, it, (flFwsNext rd P it st).warned⟩
      | m + 1 => flFwsLoop rd P m (it + 1) (flFwsNext rd P it st)

/-- State before the first iteration, frank_wolfe.py:229-249. -/
def flFwsStart (P : FlFWSArgs d) : FlFWSState d := ⟨P.x0, P.value 0 0 P.x0, P.grad 0 0 P.x0, none, P.lipschitz, false⟩

/-- `minimize_frank_wolfe`, frank_wolfe.py:115-309, in the case above with `max_iter ≥ 1`. -/
noncomputable def flMinimizeFWS (rd : ℝ → ℝ) (P : FlFWSArgs d) : FlFWSResult d := flFwsLoop rd P (P.maxIter - 1) 0 (flFwsStart P)

end Copt
