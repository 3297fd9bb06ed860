import Verif.Model.Objects
import Verif.Model.Trace

/-!
# Proximal operators passed to the splitting solvers

The examples of examples/proximal_splitting pass to `minimize_three_split` and `minimize_primal_dual`, besides the penalties of
Verif/Model/Objects.lean, the trace norm (plot_sparse_nuclear_norm.py) and the column and row passes of the total variation
(plot_tv_deblurring.py).
-/

namespace Copt

/-- An argument `prox_1` or `prox_2` of a splitting solver on `d` variables. -/
inductive SplitObj : ℕ → Type where
  /-- `pen.prox` for the objects of `PenObj`. -/
  | pen {d : ℕ} (p : PenObj d) : SplitObj d
  /-- `lambda x, gamma: prox_tv1d_cols(gamma * beta, x, n_rows, n_cols)`, plot_tv_deblurring.py:54-55; `junk` is the
  uninitialised memory met by the call. -/
  | tvCols (R C : ℕ) (beta : ℝ) (junk : (Fin (R * C) → ℝ) → ℝ → TVJunk R C C R ℝ) : SplitObj (R * C)
  /-- `lambda x, gamma: prox_tv1d_rows(gamma * beta, x, n_rows, n_cols)`, plot_tv_deblurring.py:57-58. -/
  | tvRows (R C : ℕ) (beta : ℝ) (junk : (Fin (R * C) → ℝ) → ℝ → TVJunk R C R C ℝ) : SplitObj (R * C)
  /-- `TraceNorm(alpha, (M, N)).prox`, penalty.py:260-266; `svd` is `scipy.linalg.svd`. -/
  | traceNorm (M N k : ℕ) (svd : Matrix (Fin M) (Fin N) ℝ → SvdOut M N k) (alpha : ℝ) : SplitObj (M * N)

namespace SplitObj

/-- The call of the proximal operator. -/
noncomputable def prox : {d : ℕ} → SplitObj d → (Fin d → ℝ) → ℝ → Except PyErr (Fin d → ℝ)
  | _, pen p, x, step => p.prox x step
  | _, tvCols R C beta junk, x, step => fault (proxCols (junk x step) (step * beta) x)
  | _, tvRows R C beta junk, x, step => fault (proxRows (junk x step) (step * beta) x)
  | _, traceNorm M N k svd alpha, x, step => .ok (TraceNorm.prox svd alpha x step)

/-- The operator as an argument of a solver (see `PenObj.proxE` about the fallback, which `C102_prox_exact` shows unused). -/
noncomputable def proxE {d : ℕ} (o : SplitObj d) (x : EuclideanSpace ℝ (Fin d)) (step : ℝ) : EuclideanSpace ℝ (Fin d) :=
  match o.prox (WithLp.ofLp x) step with
  | .ok p => WithLp.toLp 2 p
  | .error _ => x

end SplitObj

/-- `aslinearoperator(A).matvec` for a real matrix `A`, splitting.py:257-259. -/
noncomputable def opMatvec {p d : ℕ} (A : Fin p → Fin d → ℝ) (x : EuclideanSpace ℝ (Fin d)) : EuclideanSpace ℝ (Fin p) :=
  WithLp.toLp 2 (matVec A (WithLp.ofLp x))

/-- `aslinearoperator(A).rmatvec` for a real matrix `A`: the product with the (conjugate) transpose. -/
noncomputable def opRmatvec {p d : ℕ} (A : Fin p → Fin d → ℝ) (y : EuclideanSpace ℝ (Fin p)) : EuclideanSpace ℝ (Fin d) :=
  WithLp.toLp 2 (matVecT A (WithLp.ofLp y))

/-- `sparse.eye(n_features, n_features)`, the default of the argument `L`, splitting.py:255-256. -/
noncomputable def eyeMat (d : ℕ) : Fin d → Fin d → ℝ := fun i j => if i = j then 1 else 0

/-- The matrix `tv2d_linear_operator(n_rows, n_cols)`, tv_prox.py:242-256. -/
noncomputable def tv2dMat (R C : ℕ) : Fin (tv2dRows (K := ℝ) R C).length → Fin (R * C) → ℝ := fun i => (tv2dRows (K := ℝ) R C)[i]

end Copt
