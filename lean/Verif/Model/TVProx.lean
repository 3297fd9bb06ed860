import Mathlib.Logic.Equiv.Fin.Basic
import Mathlib.Data.List.FinRange
import Mathlib.Data.Fintype.BigOperators
import Verif.Model.TV1D

/-! # Model of copt/tv_prox.py: wrappers, 2-D total variation, and `FusedLasso.prox` / `TotalVariation2D` -/

namespace Copt

variable {n R C : ℕ}

section

variable {K : Type} [Zero K] [Add K] [Sub K] [Div K] [NatCast K] [LE K] [DecidableLE K]

/-- Undefined behaviour of compiled code as an error value. -/
def fault {α : Type} : Option α → Except PyErr α
  | none => .error .memoryFault
  | some a => .ok a

/-- `prox_tv1d(w, step_size)`, tv_prox.py:14-42; `isFloat` is the dtype test of line 37. -/
def proxTv1d (isFloat : Bool) (junk : TV1D.Junk n K) (step : K) (w : Fin n → K) : Except PyErr (Fin n → K) :=
  if isFloat then fault (TV1D.lowLevel junk step w) else .error .valueError

/-- `FusedLasso.prox`, penalty.py:161-165. -/
def FusedLasso.prox [Mul K] (isFloat : Bool) (junk : TV1D.Junk n K) (alpha : K) (x : Fin n → K) (step : K) :
    Except PyErr (Fin n → K) := proxTv1d isFloat junk (step * alpha) x

/-- `a.reshape((n_rows, n_cols))` (row-major). -/
def reshape2 {K : Type} (R C : ℕ) (x : Fin (R * C) → K) : Fin R → Fin C → K := fun i j => x (finProdFinEquiv (i, j))

/-- `out.ravel()`. -/
def ravel2 {K : Type} (A : Fin R → Fin C → K) : Fin (R * C) → K :=
  fun p => A (finProdFinEquiv.symm p).1 (finProdFinEquiv.symm p).2

/-- Uninitialised memory met by one call of `prox_tv1d_cols` or `prox_tv1d_rows`: the output image and the scratch
buffers of each inner call. -/
structure TVJunk (R C m k : ℕ) (K : Type) where
  out : Fin R → Fin C → K
  inner : Fin m → TV1D.Junk k K

/-- Body of the loop of `prox_tv1d_cols`, tv_prox.py:145-146: column `i` of `out` is overwritten. -/
def colBody (junk : Fin C → TV1D.Junk R K) (step : K) (A : Fin R → Fin C → K) (out : Fin R → Fin C → K) (i : Fin C) :
    Option (Fin R → Fin C → K) := do
  let col ← TV1D.lowLevel { junk i with out := fun r => out r i } step (fun r => A r i)
  return fun r j => if j = i then col r else out r j

/-- `prox_tv1d_cols`, tv_prox.py:139-147. -/
def proxCols (junk : TVJunk R C C R K) (step : K) (a : Fin (R * C) → K) : Option (Fin (R * C) → K) := do
  let A := reshape2 R C a
  let out ← (List.finRange C).foldlM (colBody junk.inner step A) junk.out
  return ravel2 out

/-- Body of the loop of `prox_tv1d_rows`, tv_prox.py:156-157. -/
def rowBody (junk : Fin R → TV1D.Junk C K) (step : K) (A : Fin R → Fin C → K) (out : Fin R → Fin C → K) (i : Fin R) :
    Option (Fin R → Fin C → K) := do
  let row ← TV1D.lowLevel { junk i with out := out i } step (A i)
  return fun r => if r = i then row else out r

/-- `prox_tv1d_rows`, tv_prox.py:150-158. -/
def proxRows (junk : TVJunk R C R C K) (step : K) (a : Fin (R * C) → K) : Option (Fin (R * C) → K) := do
  let A := reshape2 R C a
  let out ← (List.finRange R).foldlM (rowBody junk.inner step A) junk.out
  return ravel2 out

end

variable {K : Type} [Field K] [LinearOrder K]

/-- `np.max(np.abs(v))`, tv_prox.py:180; ValueError on an empty array. -/
def npMaxAbs (v : Fin n → K) : Except PyErr K :=
  match List.ofFn fun i => |v i| with
  | [] => .error .valueError
  | a :: l => .ok (l.foldl max a)

/-- Result of `c_prox_tv2d` with the flag telling whether the non-convergence warning was issued. -/
structure TV2DOut (N : ℕ) (K : Type) where
  x : Fin N → K
  warned : Bool

/-- The loop variables `x`, `p`, `q` of `c_prox_tv2d`. -/
structure TV2DState (N : ℕ) (K : Type) where
  x : Fin N → K
  p : Fin N → K
  q : Fin N → K

/-- One iteration of the loop of `c_prox_tv2d`, tv_prox.py:172-180, returning also `accuracy`. -/
def tv2dStep (junkC : TVJunk R C C R K) (junkR : TVJunk R C R C K) (step : K) (st : TV2DState (R * C) K) :
    Except PyErr (TV2DState (R * C) K × K) := do
  let y ← fault (proxCols junkC step fun k => st.x k + st.p k)     -- lines 172-173
  let p : Fin (R * C) → K := fun k => st.p k + (st.x k - y k)      -- line 174
  let x ← fault (proxRows junkR step fun k => y k + st.q k)        -- lines 175-176
  let q : Fin (R * C) → K := fun k => st.q k + (y k - x k)         -- line 177
  let acc ← npMaxAbs (fun k => y k - x k)                          -- line 180
  return (⟨x, p, q⟩, acc)

/-- The loop of `c_prox_tv2d`, tv_prox.py:171-188, with `remaining` iterations to go at iteration `it`.  `acc` is the
local variable `accuracy`, unbound (`none`) until the first iteration ends. -/
def tv2dLoop (junkC : ℕ → TVJunk R C C R K) (junkR : ℕ → TVJunk R C R C K) (step tol : K) :
    ℕ → ℕ → Option K → TV2DState (R * C) K → Except PyErr (TV2DOut (R * C) K)
  | 0, _, none, _ => .error .unboundLocalError          -- lines 183-187 format `accuracy`
  | 0, _, some _, st => .ok ⟨st.x, true⟩
  | remaining + 1, it, _, st => do
    let r ← tv2dStep (junkC it) (junkR it) step st
    if r.2 < tol then .ok ⟨r.1.x, false⟩                -- lines 181-182
    else tv2dLoop junkC junkR step tol remaining (it + 1) (some r.2) r.1

/-- The loop variables of `c_prox_tv2d` after `k` iterations of its body (tv_prox.py:168-180), whatever the stopping test. -/
def tv2dIterate (junkC : ℕ → TVJunk R C C R K) (junkR : ℕ → TVJunk R C R C K) (step : K) (w : Fin (R * C) → K) :
    ℕ → Except PyErr (TV2DState (R * C) K)
  | 0 => .ok ⟨w, fun _ => 0, fun _ => 0⟩
  | k + 1 => do
    let st ← tv2dIterate junkC junkR step w k
    let r ← tv2dStep (junkC k) (junkR k) step st
    return r.1

/-- `prox_tv2d(w, step_size, n_rows, n_cols, max_iter, tol)`, tv_prox.py:191-225 (and lines 161-170). -/
def proxTv2d (junkC : ℕ → TVJunk R C C R K) (junkR : ℕ → TVJunk R C R C K) (w : Fin (R * C) → K) (step : K)
    (maxIter : ℕ) (tol : K) : Except PyErr (TV2DOut (R * C) K) :=
  tv2dLoop junkC junkR step tol maxIter 0 none ⟨w, fun _ => 0, fun _ => 0⟩

/-- `TotalVariation2D.prox`, penalty.py:296-307. -/
def TotalVariation2D.prox (junkC : ℕ → TVJunk R C C R K) (junkR : ℕ → TVJunk R C R C K) (alpha : K) (maxIter : ℕ) (tol : K)
    (x : Fin (R * C) → K) (step : K) : Except PyErr (TV2DOut (R * C) K) :=
  proxTv2d junkC junkR x (step * alpha) maxIter tol

/-- `TotalVariation2D.__call__`, penalty.py:290-294; `np.diff` along each axis. -/
def TotalVariation2D.call (R C : ℕ) (alpha : K) (x : Fin (R * C) → K) : K :=
  let img := reshape2 R C x
  let tmp1 : Fin (R - 1) → Fin C → K := fun i j => |img ⟨i + 1, by omega⟩ j - img ⟨i, by omega⟩ j|
  let tmp2 : Fin R → Fin (C - 1) → K := fun i j => |img i ⟨j + 1, by omega⟩ - img i ⟨j, by omega⟩|
  alpha * ((∑ i, ∑ j, tmp1 i j) + ∑ i, ∑ j, tmp2 i j)

/-- The image `np.zeros` with `1` at `(i, j)` and `-1` at `(i', j')`, raveled: tv_prox.py:246-248 and 252-254. -/
def diffRow (R C i j i' j' : ℕ) : Fin (R * C) → K :=
  ravel2 fun r c =>
    if r.val = i' ∧ c.val = j' then -1 else if r.val = i ∧ c.val = j then 1 else 0

/-- The rows appended for pixel `(i, j)`, tv_prox.py:245-255. -/
def diffRows (R C i j : ℕ) : List (Fin (R * C) → K) :=
  (if i + 1 < R then [diffRow R C i j (i + 1) j] else []) ++ (if j + 1 < C then [diffRow R C i j i (j + 1)] else [])

/-- The list `L` of `tv2d_linear_operator(n_rows, n_cols)`, tv_prox.py:242-255. -/
def tv2dRows (R C : ℕ) : List (Fin (R * C) → K) :=
  (List.range R).flatMap fun i => (List.range C).flatMap fun j => diffRows R C i j

/-- `tv2d_linear_operator(n_rows, n_cols) @ x`, tv_prox.py:256: `np.array([])` is a 1-D array of length 0, whose
product with a non-empty vector raises ValueError. -/
def tv2dApply (R C : ℕ) (x : Fin (R * C) → K) : Except PyErr (List K) :=
  if (tv2dRows (K := K) R C).isEmpty ∧ R * C ≠ 0 then .error .valueError
  else .ok ((tv2dRows R C).map fun row => ∑ k, row k * x k)

end Copt
