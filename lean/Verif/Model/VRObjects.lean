import Mathlib.Analysis.InnerProductSpace.PiL2
import Verif.Model.BlockPenalty
import Verif.Model.Loss

/-!
# Dense data, loss objects and penalty objects as arguments of the variance-reduced methods

The examples and tests of the library call `minimize_saga(f.partial_deriv, A, b, x0, step_size, prox=pen.prox_factory(n_features), alpha=alpha)` with a dense
array `A` (examples/plot_saga_vs_svrg.py:33-56, tests/test_randomized.py:54-66).
-/

namespace Copt

variable {n p : ℕ}

section Dense
variable {K : Type} [Field K] [DecidableEq K]

/-- The entries of row `i` that `scipy.sparse.csr_matrix` stores for a dense array: the nonzero ones, by increasing column. -/
def denseRow (A : Fin n → Fin p → K) (i : Fin n) : List (ℕ × K) := ((List.finRange p).filter fun c => A i c ≠ 0).map fun c => (c.val, A i c)

/-- The rows before row `i`, one after the other. -/
def denseUpTo (A : Fin n → Fin p → K) (i : ℕ) : List (ℕ × K) := ((List.finRange n).take i).flatMap (denseRow A)

/-- `sparse.csr_matrix(A)` of a dense array, randomized.py:135 (310, 517, 837). -/
def csrOfDense (A : Fin n → Fin p → K) : CsrMat K n p :=
  { nnz := (denseUpTo A n).length
    data := fun j => ((denseUpTo A n).get j).2
    indices := fun j => ((denseUpTo A n).get j).1
    indptr := fun i => (denseUpTo A i.val).length }

end Dense

/-- The loss classes that have a `partial_deriv`. -/
inductive VRLoss where
  | log
  | square

/-- `f_deriv(np.array([p]), np.array([b[i]]))[0]`, randomized.py:181, with `f_deriv = f.partial_deriv` (loss.py:179-196, 245-250). -/
noncomputable def VRLoss.deriv (l : VRLoss) (t y : ℝ) : ℝ :=
  match l with
  | .log => LogLoss.partialDeriv (n := 1) (fun _ => t) (fun _ => y) 0
  | .square => SquareLoss.partialDeriv (n := 1) (fun _ => t) (fun _ => y) 0

/-- `f.max_lipschitz`, loss.py:203-209, 257-263. -/
noncomputable def VRLoss.maxLipschitz (l : VRLoss) (A : Fin n → Fin p → ℝ) (b : Fin n → ℝ) (alpha : ℝ) : ℝ :=
  match l with
  | .log => LogLoss.maxLipschitz ⟨A, b, alpha, false⟩
  | .square => SquareLoss.maxLipschitz ⟨A, b, alpha⟩

/-- The argument `prox`: `None`, `L1Norm(beta).prox_factory(n_features)` or `GroupL1(beta, groups).prox_factory(n_features)`. -/
inductive VRPen where
  | none
  | l1Norm (beta : ℝ)
  | groupL1 (beta : ℝ) (groups : List (List ℕ))

/-- The routine and the block matrix used by the methods, randomized.py:141-151 and penalty.py:35-53, 92-143. -/
noncomputable def VRPen.factory (p : ℕ) : VRPen → Option (BlockMat × SparseProx ℝ p)
  | .none => some (BlockMat.eye p, noProx)
  | .l1Norm beta => some (BlockMat.eye p, L1Norm.sparse beta)
  | .groupL1 beta groups => (GroupL1.blocks groups p).map fun B => (B.mat, GroupL1.sparse beta B)

open Classical in
/-- The arguments of `minimize_saga` and `minimize_svrg` for a dense array, a loss and a penalty of the library. -/
noncomputable def vrCall (l : VRLoss) (A : Fin n → Fin p → ℝ) (b : Fin n → ℝ) (x0 : Fin p → ℝ) (step : Option ℝ) (pen : VRPen) (alpha : ℝ) (maxIter : ℕ)
    (tol : ℝ) (order : ℕ → List ℕ) : Option (VRArgs ℝ n p) :=
  (pen.factory p).map fun bp =>
    { A := csrOfDense A, b := b, deriv := l.deriv, alpha := alpha, x0 := x0, stepSize := step, blocks := bp.1, prox := bp.2,
      maxIter := maxIter, tol := tol, order := order }

end Copt
