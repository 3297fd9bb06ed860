import Verif.Model.Constraint
import Verif.Spec.Rounding

/-!
# Model of the projections of `copt/constraint.py` with rounded arithmetic

Every addition, multiplication and division is followed by the rounding `rd`.  Comparisons, sorting, absolute values, products with a sign and the conversion of
the integers `1, …, n` to floating point are exact.  `v.sum()` is a parameter: numpy sums pairwise.  Overflow and nan are not modelled.
-/

namespace Copt

open Classical in
/-- Entry `k` of `np.cumsum(u)`, constraint.py:227, with rounded additions from left to right. -/
noncomputable def flCumsum (rd : ℝ → ℝ) (u : ℕ → ℝ) : ℕ → ℝ
  | 0 => u 0
  | k + 1 => rd (flCumsum rd u k + u (k + 1))

open Classical in
/-- `np.nonzero(u * np.arange(1, n + 1) > (cssv - s))[0]`, constraint.py:229. -/
noncomputable def flCandidates (rd : ℝ → ℝ) (u : List ℝ) (s : ℝ) : List ℕ :=
  (List.range u.length).filter fun k => decide (rd (u.getD k 0 * ((k : ℝ) + 1)) > rd (flCumsum rd (fun j => u.getD j 0) k - s))

open Classical in
/-- `euclidean_proj_simplex`, constraint.py:192-234; `sum` is the computed value of `v.sum()`. -/
noncomputable def flProjSimplex {n : ℕ} (rd : ℝ → ℝ) (sum : ℝ) (v : Fin n → ℝ) (s : ℝ) : Except PyErr (Fin n → ℝ) :=
  if ¬ (0 < s) then .error .assertionError                       -- line 219
  else if sum = s ∧ ∀ i, 0 ≤ v i then .ok v                      -- lines 222-224
  else
    let u := sortDesc v                                          -- line 226
    match (flCandidates rd u s).getLast? with                    -- line 229: [0][-1]
    | none => .error .indexError
    | some rho =>
      let theta := rd (rd (flCumsum rd (fun j => u.getD j 0) rho - s) / ((rho : ℝ) + 1))  -- line 231
      .ok (fun i => max (rd (v i - theta)) 0)                    -- line 233

open Classical in
/-- `euclidean_proj_l1ball`, constraint.py:237-271; `sum` is the computed value of `u.sum()` on line 263 and of `v.sum()` on line 222, which have the same argument. -/
noncomputable def flProjL1Ball {n : ℕ} (rd : ℝ → ℝ) (sum : ℝ) (v : Fin n → ℝ) (s : ℝ) : Except PyErr (Fin n → ℝ) :=
  if ¬ (0 < s) then .error .assertionError                       -- line 257
  else
    let u : Fin n → ℝ := fun i => |v i|                          -- line 261
    if sum ≤ s then .ok v                                        -- lines 263-265
    else do
      let w ← flProjSimplex rd sum u s                           -- line 268
      return fun i => rd (w i * npSign (v i))                    -- line 270

/-- `L1Ball.prox`, constraint.py:81-93. -/
noncomputable def L1Ball.flProx {n : ℕ} (rd : ℝ → ℝ) (sum alpha : ℝ) (x : Fin n → ℝ) : Except PyErr (Fin n → ℝ) := flProjL1Ball rd sum x alpha

/-- `SimplexConstraint.prox`, constraint.py:176-177. -/
noncomputable def SimplexConstraint.flProx {n : ℕ} (rd : ℝ → ℝ) (sum s : ℝ) (x : Fin n → ℝ) : Except PyErr (Fin n → ℝ) := flProjSimplex rd sum x s

end Copt
