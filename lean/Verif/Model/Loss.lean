import Mathlib.Analysis.SpecialFunctions.Log.Basic
import Verif.Model.Py
import Mathlib.Data.Fintype.BigOperators

/-!
# Model of copt/loss.py

Design matrices (dense or scipy.sparse) are `Fin n → Fin d → ℝ`; `safe_sparse_dot(A, x)` is the exact product.  All
arrays have matching lengths (the shape checks of numpy are not modelled, except the constructor of `LogLoss`).
-/

namespace Copt

open Finset

variable {n m d : ℕ}

/-- `safe_sparse_dot(A, x, dense_output=True).ravel()` / `A.dot(x)`. -/
def matVec (A : Fin n → Fin d → ℝ) (x : Fin d → ℝ) : Fin n → ℝ := fun i => ∑ j, A i j * x j

/-- `A.T.dot(u)`. -/
def matVecT (A : Fin n → Fin d → ℝ) (u : Fin n → ℝ) : Fin d → ℝ := fun j => ∑ i, A i j * u i

/-- `np.mean(v)` (NaN, here 0, on an empty array; theorems assume `0 < n`). -/
noncomputable def npMean (v : Fin n → ℝ) : ℝ := (∑ i, v i) / n

/-- Masked assignment `out[idx] = v[idx]`. -/
def maskSet {α : Type} (out : Fin n → α) (idx : Fin n → Prop) [DecidablePred idx] (v : Fin n → α) : Fin n → α :=
  fun i => if idx i then v i else out i

/-- Attributes of a `LogLoss` object (loss.py:31-38); `intercept` is set to False by the constructor. -/
structure LogLoss (n d : ℕ) where
  A : Fin n → Fin d → ℝ
  b : Fin n → ℝ
  alpha : ℝ
  intercept : Bool

namespace LogLoss

open Classical in
/-- The label check, loss.py:32-33.  `np.max` of an empty array also raises ValueError. -/
noncomputable def checkLabels (b : Fin m → ℝ) : Except PyErr Unit :=
  if m = 0 then .error .valueError
  else if (∃ i, b i > 1) ∨ (∃ i, b i < 0) then .error .valueError else .ok ()

/-- `LogLoss.__init__` with a matrix, loss.py:28-38. -/
noncomputable def init (A : Fin n → Fin d → ℝ) (b : Fin m → ℝ) (alpha : ℝ) : Except PyErr (LogLoss m d) := do
  checkLabels b
  if h : n = m then .ok ⟨fun i => A (Fin.cast h.symm i), b, alpha, false⟩ else .error .valueError

/-- `LogLoss.__init__` with `A=None`, loss.py:29-30: the identity matrix. -/
noncomputable def initNone (b : Fin m → ℝ) (alpha : ℝ) : Except PyErr (LogLoss m m) :=
  init (fun i j => if i = j then 1 else 0) b alpha

open Classical in
/-- `LogLoss.logsig`, loss.py:51-62: four masked assignments. -/
noncomputable def logsig (x : Fin n → ℝ) : Fin n → ℝ :=
  let out : Fin n → ℝ := fun _ => 0
  let out := maskSet out (fun i => x i < -33) x
  let out := maskSet out (fun i => x i ≥ -33 ∧ x i < -18) (fun i => x i - Real.exp (x i))
  let out := maskSet out (fun i => x i ≥ -18 ∧ x i < 37) (fun i => -Real.log (1 + Real.exp (-x i)))
  maskSet out (fun i => x i ≥ 37) (fun i => -Real.exp (-x i))

open Classical in
/-- `LogLoss.expit_b`, loss.py:64-74. -/
noncomputable def expitB (x b : Fin n → ℝ) : Fin n → ℝ :=
  let out : Fin n → ℝ := fun _ => 0
  let out := maskSet out (fun i => x i < 0) (fun i => ((1 - b i) * Real.exp (x i) - b i) / (1 + Real.exp (x i)))
  maskSet out (fun i => ¬ x i < 0) (fun i => ((1 - b i) - b i * Real.exp (-x i)) / (1 + Real.exp (-x i)))

open Classical in
/-- `LogLoss.partial_deriv`, loss.py:180-196; iteration `i` of the parallel loop writes `out[i]` only. -/
noncomputable def partialDeriv (p y : Fin n → ℝ) : Fin n → ℝ := fun i =>
  if p i < 0 then ((1 - y i) * Real.exp (p i) - y i) / (1 + Real.exp (p i))
  else ((1 - y i) - y i * Real.exp (-p i)) / (1 + Real.exp (-p i))

/-- The decision values `z`, loss.py:81; `c` is the intercept (0.0 when `intercept` is False). -/
def decision (f : LogLoss n d) (x : Fin d → ℝ) (c : ℝ) : Fin n → ℝ := fun i => matVec f.A x i + c

/-- The value computed at loss.py:82-84. -/
noncomputable def lossOf (f : LogLoss n d) (x : Fin d → ℝ) (c : ℝ) : ℝ :=
  let z := f.decision x c
  npMean (fun i => (1 - f.b i) * z i - logsig z i) + 0.5 * f.alpha * ∑ j, x j * x j

/-- The vector `grad` computed at loss.py:89-92. -/
noncomputable def gradOf (f : LogLoss n d) (x : Fin d → ℝ) (c : ℝ) : Fin d → ℝ :=
  let z0b := expitB (f.decision x c) f.b
  fun j => matVecT f.A z0b j / n + f.alpha * x j

/-- `LogLoss.f_grad` with `intercept=False`, loss.py:76-97. -/
noncomputable def fGrad (f : LogLoss n d) (x : Fin d → ℝ) : ℝ × (Fin d → ℝ) := (f.lossOf x 0, f.gradOf x 0)

/-- `LogLoss.__call__` with `intercept=False`, loss.py:40-41. -/
noncomputable def call (f : LogLoss n d) (x : Fin d → ℝ) : ℝ := f.lossOf x 0

/-- What `f_grad(x)` returns: a pair, or (with an intercept, loss.py:94-95) the gradient alone. -/
inductive FGradOut (d : ℕ) where
  | pair (loss : ℝ) (grad : Fin d → ℝ)
  | gradOnly (grad : Fin (d + 1) → ℝ)

/-- `LogLoss.f_grad` with `intercept=True`, loss.py:76-97; `x` has `d + 1` entries. -/
noncomputable def fGradIntercept (f : LogLoss n d) (x : Fin (d + 1) → ℝ) : FGradOut d :=
  let x' : Fin d → ℝ := fun j => x j.castSucc
  let c := x (Fin.last d)
  .gradOnly (Fin.snoc (f.gradOf x' c) (npMean (expitB (f.decision x' c) f.b)))

/-- `LogLoss.__call__` with `intercept=True`. -/
noncomputable def callIntercept (f : LogLoss n d) (x : Fin (d + 1) → ℝ) : ℝ :=
  f.lossOf (fun j => x j.castSucc) (x (Fin.last d))

/-- `d = z * (1 - z)` with `z = expit(A x + c)`, loss.py:108-111. -/
noncomputable def hessD (f : LogLoss n d) (x : Fin d → ℝ) (c : ℝ) : Fin n → ℝ := fun i =>
  let z := 1 / (1 + Real.exp (-(f.decision x c i)))
  z * (1 - z)

/-- `LogLoss.hessian_mv(x)(s)` with `intercept=False`, loss.py:99-137. -/
noncomputable def hessianMv (f : LogLoss n d) (x s : Fin d → ℝ) : Fin d → ℝ :=
  let dd := f.hessD x 0
  let dX : Fin n → Fin d → ℝ := fun i j => dd i * f.A i j
  fun j => (matVecT f.A (matVec dX s) j + f.alpha * s j) / n

/-- `LogLoss.hessian_trace(x)(s)`, loss.py:139-177, textually the same computation as `hessian_mv`. -/
noncomputable def hessianTrace (f : LogLoss n d) (x s : Fin d → ℝ) : Fin d → ℝ :=
  let dd := f.hessD x 0
  let dX : Fin n → Fin d → ℝ := fun i j => dd i * f.A i j
  fun j => (matVecT f.A (matVec dX s) j + f.alpha * s j) / n

/-- `LogLoss.hessian_mv(x)(s)` with `intercept=True`, loss.py:99-137. -/
noncomputable def hessianMvIntercept (f : LogLoss n d) (x s : Fin (d + 1) → ℝ) : Fin (d + 1) → ℝ :=
  let dd := f.hessD (fun j => x j.castSucc) (x (Fin.last d))
  let dX : Fin n → Fin d → ℝ := fun i j => dd i * f.A i j
  let s' : Fin d → ℝ := fun j => s j.castSucc
  let ddI : Fin d → ℝ := fun j => ∑ i, dX i j
  Fin.snoc (fun j => (matVecT f.A (matVec dX s') j + f.alpha * s' j + s (Fin.last d) * ddI j) / n)
    ((∑ j, ddI j * s' j + (∑ i, dd i) * s (Fin.last d)) / n)

/-- `LogLoss.lipschitz`, loss.py:198-201; `s` is the result of `svds(A, k=1)`. -/
noncomputable def lipschitz (f : LogLoss n d) (s : ℝ) : ℝ := 0.25 * (s * s) / n + f.alpha

/-- `row_norms(A, squared=True).max()`, loss.py:207; raises on a matrix without rows. -/
noncomputable def maxRowSq (A : Fin n → Fin d → ℝ) : ℝ :=
  if h : 0 < n then Finset.univ.sup' ⟨⟨0, h⟩, Finset.mem_univ _⟩ (fun i => ∑ j, A i j * A i j) else 0

/-- `LogLoss.max_lipschitz`, loss.py:203-209. -/
noncomputable def maxLipschitz (f : LogLoss n d) : ℝ := 0.25 * maxRowSq f.A + f.alpha

end LogLoss

/-- Attributes of a `SquareLoss`, loss.py:223-229. -/
structure SquareLoss (n d : ℕ) where
  A : Fin n → Fin d → ℝ
  b : Fin n → ℝ
  alpha : ℝ

namespace SquareLoss

/-- `SquareLoss.__call__`, loss.py:231-234. -/
noncomputable def call (f : SquareLoss n d) (x : Fin d → ℝ) : ℝ :=
  let z : Fin n → ℝ := fun i => matVec f.A x i - f.b i
  let pen := f.alpha * ∑ j, x j * x j
  0.5 * npMean (fun i => z i * z i) + 0.5 * pen

/-- `SquareLoss.f_grad`, loss.py:236-243. -/
noncomputable def fGrad (f : SquareLoss n d) (x : Fin d → ℝ) : ℝ × (Fin d → ℝ) :=
  let z : Fin n → ℝ := fun i => matVec f.A x i - f.b i
  let pen := f.alpha * ∑ j, x j * x j
  (0.5 * npMean (fun i => z i * z i) + 0.5 * pen, fun j => matVecT f.A z j / n + f.alpha * x j)

/-- `SquareLoss.partial_deriv`, loss.py:245-250. -/
def partialDeriv (p y : Fin n → ℝ) : Fin n → ℝ := fun i => p i - y i

/-- `SquareLoss.lipschitz`, loss.py:252-255. -/
noncomputable def lipschitz (f : SquareLoss n d) (s : ℝ) : ℝ := s * s / n + f.alpha

/-- `SquareLoss.max_lipschitz`, loss.py:257-263. -/
noncomputable def maxLipschitz (f : SquareLoss n d) : ℝ := LogLoss.maxRowSq f.A + f.alpha

end SquareLoss

/-- Attributes of a `HuberLoss`, loss.py:269-274. -/
structure HuberLoss (n d : ℕ) where
  A : Fin n → Fin d → ℝ
  b : Fin n → ℝ
  alpha : ℝ
  delta : ℝ

namespace HuberLoss

open Classical in
/-- `HuberLoss.f_grad`, loss.py:279-293; sums over `z[idx]` are sums over the indices in the mask. -/
noncomputable def fGrad (f : HuberLoss n d) (x : Fin d → ℝ) : ℝ × (Fin d → ℝ) :=
  let z : Fin n → ℝ := fun i => matVec f.A x i - f.b i
  let idx := univ.filter fun i => |z i| < f.delta
  let nidx := univ.filter fun i => ¬ |z i| < f.delta
  let loss := 0.5 * ∑ i ∈ idx, z i * z i
  let loss := loss + ∑ i ∈ nidx, f.delta * (|z i| - 0.5 * f.delta)
  let loss := loss / n + 0.5 * f.alpha * ∑ j, x j * x j
  let grad : Fin d → ℝ := fun j => (∑ i ∈ idx, f.A i j * z i) / n + f.alpha * x j
  let grad : Fin d → ℝ := fun j => grad j + (∑ i ∈ nidx, f.A i j * (f.delta * SignType.sign (z i))) / n
  (loss, grad)

/-- `HuberLoss.__call__`, loss.py:276-277. -/
noncomputable def call (f : HuberLoss n d) (x : Fin d → ℝ) : ℝ := (f.fGrad x).1

/-- `HuberLoss.lipschitz`, loss.py:295-298. -/
noncomputable def lipschitz (f : HuberLoss n d) (s : ℝ) : ℝ := s * s / n + f.alpha

end HuberLoss

end Copt
