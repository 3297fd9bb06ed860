import Verif.Model.FloatFW
import Verif.Model.FrankWolfe

/-!
# Model of the pairwise Frank-Wolfe method on the l1 ball with rounded arithmetic

`minimize_frank_wolfe` with `variant="pairwise"` and `lmo=L1Ball(alpha).lmo_pairwise`, no callback.  Every operation on numbers is followed by the rounding `rd`; products with a sign are exact.
Overflow and nan are not modelled.
-/

namespace Copt

open Spec

variable {d : ℕ}

/-- Representation of a vertex, `(sign, largest_coordinate)`, constraint.py:126.  The sign returned by `np.sign` is one of `-1`, `0`, `1`. -/
abbrev FlRep (d : ℕ) := SignType × Fin d

/-- The vertex represented by `r`. -/
noncomputable def repVertex (alpha : ℝ) (r : FlRep d) : Fin d → ℝ := fun j => if j = r.2 then alpha * r.1 else 0

/-- What `lmo_pairwise` returns. -/
structure FlPfwOut (d : ℕ) where
  dir : Fin d → ℝ
  fw : FlRep d
  away : FlRep d
  maxStep : ℝ

/-- The direction for given vertices: `lmo(u, x)` (constraint.py:122-123), `update_direction += x` (line 157), `update_direction[idx] -= sign * self.alpha` (lines 167-168). -/
noncomputable def flPairDir (rd : ℝ → ℝ) (alpha : ℝ) (fw away : FlRep d) (x : Fin d → ℝ) : Fin d → ℝ := fun j =>
  let a := if j = fw.2 then rd (-x j + alpha * fw.1) else -x j
  let b := rd (a + x j)
  if j = away.2 then rd (b - away.1 * alpha) else b

/-- `L1Ball.lmo_pairwise`, constraint.py:130-169.  `np.argmax` and `min` raise ValueError on empty input. -/
noncomputable def flLmoPairwise (rd : ℝ → ℝ) (alpha : ℝ) (u x : Fin d → ℝ) (act : ActiveSet (FlRep d) ℝ) : Except PyErr (FlPfwOut d) :=
  match (List.finRange d).argmax fun i => |u i| with
  | none => .error .valueError
  | some i =>
    let fw : FlRep d := (SignType.sign (u i), i)
    match act.argmin fun item => (item.1.1 : ℝ) * u item.1.2 with
    | none => .error .valueError
    | some (away, maxStep) => .ok ⟨flPairDir rd alpha fw away x, fw, away, maxStep⟩

section Dict
variable {Rep : Type} [DecidableEq Rep]

/-- `active_set[k] += c` (reads, then writes). -/
noncomputable def flAdd (rd : ℝ → ℝ) (act : ActiveSet Rep ℝ) (k : Rep) (c : ℝ) : ActiveSet Rep ℝ :=
  (dTouch act k).map fun p => if p.1 = k then (p.1, rd (p.2 + c)) else p

open Classical in
/-- `update_active_set`, frank_wolfe.py:97-112; see `updateActiveSet`. -/
noncomputable def flUpdateActiveSet (rd : ℝ → ℝ) (act : ActiveSet Rep ℝ) (fw away : Rep) (step : ℝ) : Except PyErr (ActiveSet Rep ℝ) :=
  let act := dTouch act away                                    -- line 101
  let act := flAdd rd act fw step                               -- line 102
  let act := flAdd rd act away (-step)                          -- line 103
  let act := if dGet act away = 0 then dDel act away else act   -- lines 105-107
  let neg := dGet act away < 0                                  -- line 108
  let act := dTouch act away
  if neg then .error .valueError else .ok act

end Dict

/-- What the step size may depend on: the iterate, the active set, what the oracle returned, the certificate. -/
structure FlPfwLocals (d : ℕ) where
  x : Fin d → ℝ
  active : ActiveSet (FlRep d) ℝ
  out : FlPfwOut d
  certificate : ℝ

/-- Arguments; see `FlFWArgs`.  `step k l` is the step size of iteration `k`: anything the step rule or the line search comes up with. -/
structure FlPfwArgs (d : ℕ) where
  grad : ℕ → (Fin d → ℝ) → Fin d → ℝ
  dot : ℕ → (Fin d → ℝ) → (Fin d → ℝ) → ℝ
  step : ℕ → FlPfwLocals d → ℝ
  alpha : ℝ
  x0Rep : FlRep d
  tol : ℝ
  maxIter : ℕ

/-- Attributes of the result, frank_wolfe.py:308-309. -/
structure FlPfwResult (d : ℕ) where
  x : Fin d → ℝ
  certificate : ℝ
  nit : ℕ
  active : ActiveSet (FlRep d) ℝ

open Classical in
/-- `min(certificate / (norm_update_direction * lipschitz_t), max_step_size)`, frank_wolfe.py:286-288 (`step="DR"`) and the step of `backtracking_step_size`, lines 75-79.  A zero denominator
gives numpy's `inf`. -/
noncomputable def flDrStep (rd : ℝ → ℝ) (cert normD lip maxStep : ℝ) : ℝ :=
  if rd (normD * lip) = 0 then maxStep else min (rd (cert / rd (normD * lip))) maxStep

open Classical in
/-- The loop, frank_wolfe.py:251-305; `m` is `max_iter - 1 - it`. -/
noncomputable def flPfwLoop (rd : ℝ → ℝ) (P : FlPfwArgs d) : ℕ → ℕ → (Fin d → ℝ) → ActiveSet (FlRep d) ℝ → Except PyErr (FlPfwResult d)
  | m, it, x, act => do
    let o ← flLmoPairwise rd P.alpha (fun j => -P.grad it x j) x act                 -- line 252
    let cert := P.dot it o.dir fun j => -P.grad it x j                               -- line 254
    if cert ≤ P.tol then return ⟨x, cert, it, act⟩                                   -- lines 266-267
    else do
      let step := P.step it ⟨x, act, o, cert⟩
      let x' : Fin d → ℝ := fun j => rd (x j + rd (step * o.dir j))                  -- line 300
      let act' ← flUpdateActiveSet rd act o.fw o.away step                           -- lines 301-303
      match m with
      | 0 => return ⟨x', cert, it, act'⟩
      | m + 1 => flPfwLoop rd P m (it + 1) x' act'

open Classical in
/-- `minimize_frank_wolfe`, frank_wolfe.py:115-309, in the case above; the starting point is the vertex given by `x0_rep` (lines 235-236). -/
noncomputable def flMinimizePfw (rd : ℝ → ℝ) (P : FlPfwArgs d) : Except PyErr (FlPfwResult d) :=
  if P.tol < 0 then .error .valueError
  else match P.maxIter with
    | 0 => .error .unboundLocalError
    | m + 1 => flPfwLoop rd P m 0 (repVertex P.alpha P.x0Rep) [(P.x0Rep, 1)]

end Copt
