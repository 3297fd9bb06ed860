import Mathlib.Algebra.BigOperators.Group.Finset.Basic
import Mathlib.Algebra.Order.Field.Basic
import Mathlib.Data.Fintype.BigOperators
import Mathlib.Data.List.MinMax
import Mathlib.Analysis.Real.Sqrt
import Verif.Model.Py

/-!
# Model of `copt/constraint.py`

Numbers: an arbitrary linearly ordered field `K` (exact arithmetic), `ℝ` where a square root is taken.
-/

namespace Copt

variable {K : Type} [Field K] [LinearOrder K] {n : ℕ}

/-- `np.sign` on a scalar (used in constraint.py:120, 186, 270 and loss.py:292). -/
def npSign (x : K) : K := if 0 < x then 1 else if x < 0 then -1 else 0

/-- `np.argmax` of a vector: index of the first maximal entry; raises ValueError on an empty vector
(used in constraint.py:119 and 183). -/
def npArgmax (u : Fin n → K) : Except PyErr (Fin n) :=
  match (List.finRange n).argmax u with
  | some j => .ok j
  | none => .error .valueError

/-- `LinfBall.prox`, constraint.py:18-28: `x.clip(-alpha, alpha)`, i.e. `minimum(maximum(x, lo), hi)`. -/
def LinfBall.prox (alpha : K) (x : Fin n → K) : Fin n → K :=
  fun i => min (max (x i) (-alpha)) alpha

/-- `L2Ball.prox`, constraint.py:43-57. -/
noncomputable def L2Ball.prox (alpha : ℝ) (x : Fin n → ℝ) : Fin n → ℝ :=
  let norm := Real.sqrt (∑ i, x i ^ 2)
  if norm ≤ alpha then x else fun i => alpha * x i / norm

/-- `np.sort(v)[::-1]`, constraint.py:226. -/
def sortDesc (v : Fin n → K) : List K :=
  ((List.ofFn v).mergeSort (fun a b => decide (a ≤ b))).reverse

/-- Entry `k` of `np.cumsum(u)`, constraint.py:227. -/
def cumsumAt (u : List K) (k : ℕ) : K := (u.take (k + 1)).sum

/-- `np.nonzero(u * np.arange(1, n + 1) > (cssv - s))[0]`, constraint.py:229. -/
def simplexCandidates (u : List K) (s : K) : List ℕ :=
  (List.range u.length).filter (fun k => decide (u.getD k 0 * ((k : K) + 1) > cumsumAt u k - s))

/-- `euclidean_proj_simplex`, constraint.py:192-234.  `v` is 1-D by typing, so the shape check of
line 220 cannot fail. -/
def projSimplex (v : Fin n → K) (s : K) : Except PyErr (Fin n → K) :=
  if ¬ (0 < s) then .error .assertionError                       -- line 219
  else if ∑ i, v i = s ∧ ∀ i, 0 ≤ v i then .ok v                 -- lines 222-224
  else
    let u := sortDesc v                                          -- line 226
    match (simplexCandidates u s).getLast? with                  -- line 229: [0][-1]
    | none => .error .indexError
    | some rho =>
      let theta := (cumsumAt u rho - s) / ((rho : K) + 1)        -- line 231
      .ok (fun i => max (v i - theta) 0)                         -- line 233

/-- `euclidean_proj_l1ball`, constraint.py:237-271 (`v` is 1-D by typing, line 258). -/
def projL1Ball (v : Fin n → K) (s : K) : Except PyErr (Fin n → K) :=
  if ¬ (0 < s) then .error .assertionError                       -- line 257
  else
    let u : Fin n → K := fun i => |v i|                          -- line 261
    if ∑ i, u i ≤ s then .ok v                                   -- lines 263-265
    else do
      let w ← projSimplex u s                                    -- line 268
      return fun i => w i * npSign (v i)                         -- line 270

/-- `L1Ball.prox`, constraint.py:81-93. -/
def L1Ball.prox (alpha : K) (x : Fin n → K) : Except PyErr (Fin n → K) := projL1Ball x alpha

/-- `SimplexConstraint.prox`, constraint.py:176-177. -/
def SimplexConstraint.prox (s : K) (x : Fin n → K) : Except PyErr (Fin n → K) := projSimplex x s

/-- `L1Ball.__call__`, constraint.py:75-79: `none` stands for `np.inf`. -/
def L1Ball.call (alpha : K) (x : Fin n → K) : Option K :=
  if ∑ i, |x i| ≤ alpha then some 0 else none

/-- What a linear minimisation oracle returns: update direction, representation of the Frank-Wolfe
vertex, representation of the away vertex, maximal step size (e.g. constraint.py:128, 169, 190). -/
structure LmoOut (E V K : Type) where
  dir : E
  fwRep : Option V
  awayRep : Option V
  maxStep : K

/-- Hashable vertex representation `(sign, index)` used by `L1Ball`, constraint.py:126. -/
abbrev L1Rep (K : Type) (n : ℕ) := K × Fin n

/-- `L1Ball.lmo`, constraint.py:95-128. -/
def L1Ball.lmo (alpha : K) (u x : Fin n → K) : Except PyErr (LmoOut (Fin n → K) (L1Rep K n) K) := do
  let j ← npArgmax (fun i => |u i|)                              -- lines 118-119
  let sign := npSign (u j)                                       -- line 120
  let dir := Function.update (fun i => -x i) j (-x j + alpha * sign)  -- lines 122-123
  return { dir := dir, fwRep := some (sign, j), awayRep := none, maxStep := 1 }

/-- An active set: the insertion-ordered items of the Python dictionary. -/
abbrev ActiveSet (V K : Type) := List (V × K)

/-- `_correlation`, constraint.py:159-162. -/
def L1Ball.correlation (rep : L1Rep K n) (u : Fin n → K) : K := rep.1 * u rep.2

/-- `L1Ball.lmo_pairwise`, constraint.py:130-169.  Python's `min` returns the first minimal item and
raises ValueError on an empty dictionary. -/
def L1Ball.lmoPairwise (alpha : K) (u x : Fin n → K) (act : ActiveSet (L1Rep K n) K) :
    Except PyErr (LmoOut (Fin n → K) (L1Rep K n) K) := do
  let o ← L1Ball.lmo alpha u x                                   -- line 156
  let dir : Fin n → K := fun i => o.dir i + x i                  -- line 157
  match act.argmin (fun item => L1Ball.correlation item.1 u) with   -- lines 164-165
  | none => .error .valueError
  | some (away, maxStep) =>
    let dir := Function.update dir away.2 (dir away.2 - away.1 * alpha)  -- lines 167-168
    return { dir := dir, fwRep := o.fwRep, awayRep := some away, maxStep := maxStep }

/-- `SimplexConstraint.lmo`, constraint.py:179-190. -/
def SimplexConstraint.lmo (s : K) (u x : Fin n → K) :
    Except PyErr (LmoOut (Fin n → K) (Fin n) K) := do
  let j ← npArgmax u                                             -- line 183
  let dir := Function.update (fun i => -x i) j (-x j + s * npSign (u j))  -- lines 185-188
  return { dir := dir, fwRep := some j, awayRep := none, maxStep := 1 }

end Copt
