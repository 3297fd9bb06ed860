import Mathlib.Algebra.Order.Field.Basic
import Mathlib.Algebra.BigOperators.Group.Finset.Basic
import Mathlib.Algebra.BigOperators.Fin
import Mathlib.Data.Fintype.Basic

/-! What "run epochs until the iterate moves by less than the tolerance, at most so many times" means, for any notion of epoch. -/

namespace Copt.Spec

/-- A finished run from `s0`: `states` are the states between epochs, epoch `k` leads from `states k` to `states (k + 1)`, the run ends with epoch
number `nit`, no earlier epoch moved the iterate by less than `tol`, and the run is a success exactly when the last one did. -/
structure EpochRun {σ V K : Type} [LT K] (epoch : ℕ → σ → Option σ) (point : σ → V) (dist : V → V → K) (tol : K) (maxIter : ℕ) (s0 : σ)
    (states : ℕ → σ) (nit : ℕ) (success : Bool) : Prop where
  start : states 0 = s0
  step : ∀ k ≤ nit, epoch k (states k) = some (states (k + 1))
  bound : nit < maxIter
  first : ∀ k < nit, ¬dist (point (states (k + 1))) (point (states k)) < tol
  success_iff : success = true ↔ dist (point (states (nit + 1))) (point (states nit)) < tol
  exhausted : success = false → nit + 1 = maxIter

/-- The distance the stopping tests use: the sum of the absolute differences. -/
def absDist {K : Type} [Field K] [LinearOrder K] {p : ℕ} (x y : Fin p → K) : K := ∑ c, |x c - y c|

end Copt.Spec
