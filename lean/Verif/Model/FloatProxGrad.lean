import Verif.Model.FloatProj
import Verif.Model.Objects

/-!
# Model of the proximal gradient method and of its oracles with rounded arithmetic

Every operation on numbers is followed by the rounding `rd`.  Results of BLAS calls (matrix products, norms) are any value allowed by `Spec.FlDot`: the order of the
operations is not specified and may change from one call to the next.  Overflow and nan are not modelled.
-/

namespace Copt

open Spec

variable {n d : ℕ}

/-- Arguments of `minimize_proximal_gradient` (`accelerated=False`, a callable `step`, no callback), with the results of the oracles at iteration `k`:
`grad k x` is the gradient computed at `x`, `prox k v s` what `prox(v, s)` returns, `norm k v` what `np.linalg.norm(v)` returns, `step k` the value of `step(locals())`. -/
structure FlPGArgs (d : ℕ) where
  grad : ℕ → (Fin d → ℝ) → Fin d → ℝ
  prox : ℕ → (Fin d → ℝ) → ℝ → Fin d → ℝ
  norm : ℕ → (Fin d → ℝ) → ℝ
  step : ℕ → ℝ
  x0 : Fin d → ℝ
  tol : ℝ
  maxIter : ℕ

/-- Attributes of the result, proximal_gradient.py:275-282. -/
structure FlPGResult (d : ℕ) where
  x : Fin d → ℝ
  success : Bool
  certificate : ℝ
  nit : ℕ

/-- `x_next = prox(x - step_size * grad_fk, step_size)`, proximal_gradient.py:148. -/
noncomputable def flPgNext (rd : ℝ → ℝ) (P : FlPGArgs d) (k : ℕ) (x : Fin d → ℝ) : Fin d → ℝ :=
  P.prox k (fun j => rd (x j - rd (P.step k * P.grad k x j))) (P.step k)

/-- `np.linalg.norm((x - x_next) / step_size)`, proximal_gradient.py:178. -/
noncomputable def flPgCert (rd : ℝ → ℝ) (P : FlPGArgs d) (k : ℕ) (x xNext : Fin d → ℝ) : ℝ :=
  P.norm k (fun j => rd (rd (x j - xNext j) / P.step k))

open Classical in
/-- The loop, proximal_gradient.py:141-192; `m` is `max_iter - n_iterations`. -/
noncomputable def flPgLoop (rd : ℝ → ℝ) (P : FlPGArgs d) : ℕ → ℕ → (Fin d → ℝ) → FlPGResult d
  | m, nit, x =>
    let xNext := flPgNext rd P nit x
    let cert := flPgCert rd P nit x xNext
    if cert < P.tol then ⟨xNext, true, cert, nit⟩                 -- lines 185-187
    else match m with
      | 0 => ⟨xNext, false, cert, nit⟩                             -- lines 189-190
      | m + 1 => flPgLoop rd P m (nit + 1) xNext                   -- line 192

/-- `minimize_proximal_gradient`, proximal_gradient.py:9-282, in the case above. -/
noncomputable def flMinimizePG (rd : ℝ → ℝ) (P : FlPGArgs d) : FlPGResult d := flPgLoop rd P P.maxIter 0 P.x0

/-- `L1Norm.prox`, penalty.py:25-34. -/
noncomputable def L1Norm.flProx (rd : ℝ → ℝ) (alpha : ℝ) (x : Fin d → ℝ) (stepSize : ℝ) : Fin d → ℝ :=
  let t := rd (alpha * stepSize)
  fun j => rd (max (rd (x j - t)) 0 - max (rd (-x j - t)) 0)

/-- `g` is a possible result of the gradient computation `A.T.dot(z) / n + alpha * x`, loss.py:91 and 242, where `z i` is computed from the `i`-th entry of `A.dot(x)` by `deriv i`. -/
def FlErmGrad (rd : ℝ → ℝ) (A : Fin n → Fin d → ℝ) (alpha : ℝ) (deriv : Fin n → ℝ → ℝ) (x g : Fin d → ℝ) : Prop :=
  ∃ (p : Fin n → ℝ) (q : Fin d → ℝ), (∀ i, FlDot rd (List.ofFn fun j => (A i j, x j)) (p i)) ∧
    (∀ j, FlDot rd (List.ofFn fun i => (A i j, deriv i (p i))) (q j)) ∧ ∀ j, g j = rd (rd (q j / n) + rd (alpha * x j))

/-- `SquareLoss.f_grad`, loss.py:236-243: the gradient; `z = A.dot(x) - b`. -/
def SquareLoss.FlGrad (rd : ℝ → ℝ) (f : SquareLoss n d) (x g : Fin d → ℝ) : Prop :=
  FlErmGrad rd f.A f.alpha (fun i p => rd (p - f.b i)) x g

open Classical in
/-- `LogLoss.expit_b`, loss.py:64-74, for one entry; `fexp` is the exponential of the library. -/
noncomputable def flExpitB (rd fexp : ℝ → ℝ) (b x : ℝ) : ℝ :=
  if x < 0 then
    let e := fexp x
    rd (rd (rd (rd (1 - b) * e) - b) / rd (1 + e))                -- lines 68-70
  else
    let e := fexp (-x)
    rd (rd (rd (1 - b) - rd (b * e)) / rd (1 + e))                -- lines 71-73

/-- `LogLoss.f_grad` with `intercept=False`, loss.py:76-97: the gradient; line 81 adds `c = 0.0`, which is exact. -/
def LogLoss.FlGrad (rd fexp : ℝ → ℝ) (f : LogLoss n d) (x g : Fin d → ℝ) : Prop :=
  FlErmGrad rd f.A f.alpha (fun i p => flExpitB rd fexp (f.b i) p) x g

/-- A dot product of two possibly empty arrays; `np.dot` of empty arrays is `0`. -/
def FlDot0 (rd : ℝ → ℝ) (l : List (ℝ × ℝ)) (r : ℝ) : Prop := (l = [] ∧ r = 0) ∨ FlDot rd l r

open Classical in
/-- `HuberLoss.f_grad`, loss.py:279-293: the gradient.  Rows `A[idx]` and `A[~idx]` are lists of indices. -/
def HuberLoss.FlGrad (rd : ℝ → ℝ) (f : HuberLoss n d) (x g : Fin d → ℝ) : Prop :=
  ∃ (p : Fin n → ℝ) (q q' : Fin d → ℝ), (∀ i, FlDot rd (List.ofFn fun j => (f.A i j, x j)) (p i)) ∧
    let z : Fin n → ℝ := fun i => rd (p i - f.b i)                                                                             -- line 280
    (∀ j, FlDot0 rd (((List.finRange n).filter fun i => |z i| < f.delta).map fun i => (f.A i j, z i)) (q j)) ∧                 -- line 290
    (∀ j, FlDot0 rd (((List.finRange n).filter fun i => ¬ |z i| < f.delta).map fun i => (f.A i j, rd (f.delta * SignType.sign (z i)))) (q' j)) ∧  -- line 292
    ∀ j, g j = rd (rd (rd (q j / n) + rd (f.alpha * x j)) + rd (q' j / n))

/-- `f.f_grad` of an object of one of the loss classes: the possible gradients. -/
def LossObj.FlGrad (rd fexp : ℝ → ℝ) : LossObj n d → (Fin d → ℝ) → (Fin d → ℝ) → Prop
  | .log f => LogLoss.FlGrad rd fexp f
  | .square f => SquareLoss.FlGrad rd f
  | .huber f => HuberLoss.FlGrad rd f

/-- `np.linalg.norm(v)`: the root of a dot product. -/
def FlNorm (rd : ℝ → ℝ) (v : Fin d → ℝ) (s : ℝ) : Prop := ∃ q, FlDot rd (List.ofFn fun j => (v j, v j)) q ∧ s = rd (Real.sqrt q)

open Classical in
/-- `L2Ball.prox`, constraint.py:43-57; `norm` is the computed value of `np.sqrt((x ** 2).sum())`. -/
noncomputable def L2Ball.flProx (rd : ℝ → ℝ) (norm alpha : ℝ) (x : Fin d → ℝ) : Fin d → ℝ :=
  if norm ≤ alpha then x else fun j => rd (rd (alpha * x j) / norm)

/-- `x[g]`, penalty.py:85; an index out of range raises, see `PenObj.FlProx`. -/
noncomputable def takeIdx (x : Fin d → ℝ) (g : List ℕ) : Fin g.length → ℝ := fun i => if h : g.get i < d then x ⟨g.get i, h⟩ else 0

open Classical in
/-- One iteration of the loop of `GroupL1.prox`, penalty.py:83-89; `norm` is the computed value of `np.linalg.norm(x[g])`. -/
noncomputable def GroupL1.flProxGroup (rd : ℝ → ℝ) (alpha step norm : ℝ) (out : Fin d → ℝ) (g : List ℕ) : Fin d → ℝ :=
  if norm > rd (alpha * step) then fun i => if i.val ∈ g then rd (out i - rd (rd (rd (step * alpha) * out i) / norm)) else out i
  else fun i => if i.val ∈ g then 0 else out i

/-- `GroupL1.prox`, penalty.py:81-90; `norm g` is the computed value of `np.linalg.norm(x[g])`. -/
noncomputable def GroupL1.flProx (rd : ℝ → ℝ) (alpha : ℝ) (norm : List ℕ → ℝ) (groups : List (List ℕ)) (x : Fin d → ℝ) (step : ℝ) : Fin d → ℝ :=
  groups.foldl (fun out g => GroupL1.flProxGroup rd alpha step (norm g) out g) x

/-- `p` is a possible result of `pen.prox(v, step)`.  `LinfBall.prox` only compares; the projections of constraint.py:81-93 and 176-177 are in Verif/Model/FloatProj.lean, since
they may raise; `FusedLasso.prox` is not modelled with rounding. -/
def PenObj.FlProx (rd : ℝ → ℝ) : PenObj d → (Fin d → ℝ) → ℝ → (Fin d → ℝ) → Prop
  | .l1Norm alpha, v, step, p => p = L1Norm.flProx rd alpha v step
  | .groupL1 alpha groups, v, step, p => (∀ g ∈ groups, ∀ i ∈ g, i < d) ∧
      ∃ norm : List ℕ → ℝ, (∀ g ∈ groups, FlNorm rd (takeIdx v g) (norm g)) ∧ p = GroupL1.flProx rd alpha norm groups v step
  | .linfBall alpha, v, _, p => p = LinfBall.prox alpha v
  | .l2Ball alpha, v, _, p => ∃ norm, FlNorm rd v norm ∧ p = L2Ball.flProx rd norm alpha v
  | _, _, _, _ => False

end Copt
