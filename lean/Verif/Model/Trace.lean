import Mathlib.Data.Matrix.Mul
import Mathlib.Logic.Equiv.Fin.Basic
import Verif.Model.Constraint
import Verif.Model.Penalty

/-!
# Model of `TraceBall` (copt/constraint.py) and `TraceNorm` (copt/penalty.py)

`scipy.linalg.svd` and `scipy.sparse.linalg.svds` are parameters; theorems assume their contract.
`reshape`/`ravel` are row-major.
-/

namespace Copt

open Matrix

variable {M N k : ℕ}

/-- `x.reshape(shape)`, constraint.py:298, 323 and penalty.py:261 (row-major). -/
def reshape (M N : ℕ) (x : Fin (M * N) → ℝ) : Matrix (Fin M) (Fin N) ℝ := fun i j => x (finProdFinEquiv (i, j))

/-- `A.ravel()`, constraint.py:301, 325 and penalty.py:266. -/
def ravel (A : Matrix (Fin M) (Fin N) ℝ) : Fin (M * N) → ℝ :=
  fun p => A (finProdFinEquiv.symm p).1 (finProdFinEquiv.symm p).2

/-- What `linalg.svd(X, full_matrices=False)` returns; `k = min(M, N)`. -/
structure SvdOut (M N k : ℕ) where
  U : Matrix (Fin M) (Fin k) ℝ
  s : Fin k → ℝ
  Vt : Matrix (Fin k) (Fin N) ℝ

/-- `(U * s_threshold).dot(Vt)`, constraint.py:301 and penalty.py:266: `U * t` scales the columns of `U`. -/
def scaleDot (U : Matrix (Fin M) (Fin k) ℝ) (t : Fin k → ℝ) (Vt : Matrix (Fin k) (Fin N) ℝ) :
    Matrix (Fin M) (Fin N) ℝ := (Matrix.of fun i j => U i j * t j) * Vt

/-- `TraceBall.prox`, constraint.py:297-301. -/
noncomputable def TraceBall.prox (svd : Matrix (Fin M) (Fin N) ℝ → SvdOut M N k) (alpha : ℝ)
    (x : Fin (M * N) → ℝ) : Except PyErr (Fin (M * N) → ℝ) := do
  let o := svd (reshape M N x)
  let t ← projL1Ball o.s alpha
  return ravel (scaleDot o.U t o.Vt)

/-- `TraceNorm.prox`, penalty.py:260-266. -/
noncomputable def TraceNorm.prox (svd : Matrix (Fin M) (Fin N) ℝ → SvdOut M N k) (alpha : ℝ)
    (x : Fin (M * N) → ℝ) (step : ℝ) : Fin (M * N) → ℝ :=
  let o := svd (reshape M N x)
  let t : Fin k → ℝ := fun i => max (o.s i - alpha * step) 0 - max (-o.s i - alpha * step) 0
  ravel (scaleDot o.U t o.Vt)

/-- `TraceNorm.__call__`, penalty.py:256-258. -/
noncomputable def TraceNorm.call (svd : Matrix (Fin M) (Fin N) ℝ → SvdOut M N k) (alpha : ℝ)
    (x : Fin (M * N) → ℝ) : ℝ := alpha * ∑ i, (svd (reshape M N x)).s i

/-- `TraceBall.__call__`, constraint.py:290-295: `none` stands for `np.inf`; `svdvals` is `linalg.svdvals` and
`2⁻²³` is `np.finfo(np.float32).eps`. -/
noncomputable def TraceBall.call (svdvals : Matrix (Fin M) (Fin N) ℝ → Fin k → ℝ) (alpha : ℝ) (x : Fin (M * N) → ℝ) : Option ℝ :=
  if ∑ i, svdvals (reshape M N x) i ≤ alpha + 2⁻¹ ^ 23 then some 0 else none

/-- `TraceBall.lmo`, constraint.py:306-326; `svds1` is `splinalg.svds(., k=1)`. -/
noncomputable def TraceBall.lmo (svds1 : Matrix (Fin M) (Fin N) ℝ → (Fin M → ℝ) × ℝ × (Fin N → ℝ)) (alpha : ℝ)
    (u x : Fin (M * N) → ℝ) : LmoOut (Fin (M * N) → ℝ) Unit ℝ :=
  let o := svds1 (reshape M N u)
  let vertex : Fin (M * N) → ℝ := fun p => alpha * ravel (Matrix.of fun i j => o.1 i * o.2.2 j) p
  { dir := fun p => vertex p - x p, fwRep := none, awayRep := none, maxStep := 1 }

end Copt
