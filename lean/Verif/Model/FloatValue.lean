import Verif.Model.FloatProxGrad

/-!
# Model of the values of the losses with rounded arithmetic

`fexp` and `flog1p` are `np.exp` and `np.log1p`.  Sums and dot products may be computed in any order (`Spec.FlSum`, `Spec.FlDot`).  Overflow is not modelled: the hypotheses on `fexp`
in the theorems are restricted to the arguments that occur.
-/

namespace Copt

open Spec

variable {n d : ℕ}

open Classical in
/-- `LogLoss.logsig`, loss.py:51-62, for one entry. -/
noncomputable def flLogsig (rd fexp flog1p : ℝ → ℝ) (x : ℝ) : ℝ :=
  if x < -33 then x                                               -- lines 54-55
  else if x < -18 then rd (x - fexp x)                            -- lines 56-57
  else if x < 37 then -flog1p (fexp (-x))                         -- lines 58-59
  else -fexp (-x)                                                 -- lines 60-61

/-- A sum of a possibly empty array; `np.sum` of an empty array is `0`. -/
def FlSum0 (rd : ℝ → ℝ) (l : List ℝ) (r : ℝ) : Prop := (l = [] ∧ r = 0) ∨ FlSum rd l r

/-- `loss` in `LogLoss.f_grad` with `intercept=False`, loss.py:81-84; line 81 adds `c = 0.0`, which is exact. -/
def LogLoss.FlValue (rd fexp flog1p : ℝ → ℝ) (f : LogLoss n d) (x : Fin d → ℝ) (v : ℝ) : Prop :=
  ∃ (z : Fin n → ℝ) (s q : ℝ), (∀ i, FlDot rd (List.ofFn fun j => (f.A i j, x j)) (z i)) ∧                                      -- line 81
    FlSum rd (List.ofFn fun i => rd (rd (rd (1 - f.b i) * z i) - flLogsig rd fexp flog1p (z i))) s ∧                             -- line 82
    FlDot rd (List.ofFn fun j => (x j, x j)) q ∧                                                                                -- line 83
    v = rd (rd (s / n) + rd (rd (0.5 * f.alpha) * q))                                                                           -- lines 82, 84

/-- `loss` in `SquareLoss.f_grad` and the value of `SquareLoss.__call__`, loss.py:231-239. -/
def SquareLoss.FlValue (rd : ℝ → ℝ) (f : SquareLoss n d) (x : Fin d → ℝ) (v : ℝ) : Prop :=
  ∃ (p : Fin n → ℝ) (s q : ℝ), (∀ i, FlDot rd (List.ofFn fun j => (f.A i j, x j)) (p i)) ∧
    FlSum rd (List.ofFn fun i => rd (rd (p i - f.b i) * rd (p i - f.b i))) s ∧
    FlDot rd (List.ofFn fun j => (x j, x j)) q ∧
    v = rd (rd (0.5 * rd (s / n)) + rd (0.5 * rd (f.alpha * q)))

open Classical in
/-- `loss` in `HuberLoss.f_grad`, loss.py:279-287. -/
def HuberLoss.FlValue (rd : ℝ → ℝ) (f : HuberLoss n d) (x : Fin d → ℝ) (v : ℝ) : Prop :=
  ∃ (p : Fin n → ℝ) (s s' q : ℝ), (∀ i, FlDot rd (List.ofFn fun j => (f.A i j, x j)) (p i)) ∧
    let z : Fin n → ℝ := fun i => rd (p i - f.b i)                                                                             -- line 280
    FlSum0 rd (((List.finRange n).filter fun i => |z i| < f.delta).map fun i => rd (z i * z i)) s ∧                            -- line 282
    FlSum0 rd (((List.finRange n).filter fun i => ¬ |z i| < f.delta).map fun i => rd (f.delta * rd (|z i| - rd (0.5 * f.delta)))) s' ∧  -- line 283
    FlDot rd (List.ofFn fun j => (x j, x j)) q ∧
    v = rd (rd (rd (rd (0.5 * s) + s') / n) + rd (rd (0.5 * f.alpha) * q))                                                     -- lines 284-287

/-- The possible values of `f(x)`, for an object of one of the loss classes. -/
def LossObj.FlValue (rd fexp flog1p : ℝ → ℝ) : LossObj n d → (Fin d → ℝ) → ℝ → Prop
  | .log f => LogLoss.FlValue rd fexp flog1p f
  | .square f => SquareLoss.FlValue rd f
  | .huber f => HuberLoss.FlValue rd f

end Copt
