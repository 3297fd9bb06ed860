import Verif.Model.FloatSplit
import Verif.Model.FloatLineSearch

/-!
# Model of the three operator splitting with its line search in rounded arithmetic

`minimize_three_split` with `h_Lipschitz` either `None` or `0` and no callback; every operation on numbers is followed by the rounding `rd`.  Step sizes that underflow to zero are not modelled.
-/

namespace Copt

open Spec

variable {d : ℕ}

/-- Arguments of `minimize_three_split`.  `init` are the calls of `f_grad` in `init_lipschitz`, `start` the call of line 123, `fg` those of line 129 (one in each iteration) and `fval` those of line 140;
`prox1 0 0` and `prox2 0` are the calls before the loop, `prox1 (it + 1) 0` is the call of line 130 and `prox1 (it + 1) (it_ls + 1)` the one of line 136.  `norm it 0` is line 132 and
`norm it (it_ls + 1)` line 138.  Results need not be reproducible.  `hZero` is `h_Lipschitz == 0`, against `None`. -/
structure FlTosArgs (d : ℕ) where
  init : ℕ → (Fin d → ℝ) → ℝ × (Fin d → ℝ)
  start : (Fin d → ℝ) → Fin d → ℝ
  fg : ℕ → (Fin d → ℝ) → ℝ × (Fin d → ℝ)
  fval : ℕ → ℕ → (Fin d → ℝ) → ℝ
  prox1 : ℕ → ℕ → (Fin d → ℝ) → ℝ → Except PyErr (Fin d → ℝ)
  prox2 : ℕ → (Fin d → ℝ) → ℝ → Except PyErr (Fin d → ℝ)
  norm : ℕ → ℕ → (Fin d → ℝ) → ℝ
  dot : ℕ → ℕ → (Fin d → ℝ) → (Fin d → ℝ) → ℝ
  x0 : Fin d → ℝ
  tol : ℝ
  maxIter : ℕ
  lineSearch : Bool
  step : Option ℝ
  lsIter : ℕ
  factor : ℝ
  hZero : Bool

/-- `OptimizeResult`, splitting.py:169-171. -/
structure FlTosResult (d : ℕ) where
  x : Fin d → ℝ
  success : Bool
  nit : ℕ
  certificate : ℝ
  stepSize : ℝ

open Classical in
/-- The loop of `init_lipschitz`, utils.py:176-181; `fT` is `f_tilde`, `i` the number of the next call of `f_grad`. -/
noncomputable def flTosInitLoop (rd : ℝ → ℝ) (P : FlTosArgs d) (f0 : ℝ) (grad0 : Fin d → ℝ) : ℕ → ℕ → ℝ → ℝ → ℝ
  | 0, _, L0, _ => L0
  | k + 1, i, L0, fT =>
    if fT ≤ f0 then L0
    else flTosInitLoop rd P f0 grad0 k (i + 1) (rd (L0 * 10)) (P.init i (flStep rd P.x0 grad0 (rd (1 / rd (L0 * 10))))).1

/-- `init_lipschitz`, utils.py:167-182, for dense arrays. -/
noncomputable def flTosInit (rd : ℝ → ℝ) (P : FlTosArgs d) : ℝ :=
  flTosInitLoop rd P (P.init 0 P.x0).1 (P.init 0 P.x0).2 100 2 (rd (1 / 1000)) (P.init 1 (flStep rd P.x0 (P.init 0 P.x0).2 (rd (1 / rd (1 / 1000))))).1

/-- What an iteration keeps of its line search: `x`, `norm_incr`, `step_size`. -/
structure FlTosTrial (d : ℕ) where
  x : Fin d → ℝ
  nrm : ℝ
  step : ℝ

/-- `ls_tol`, splitting.py:139-140; `gd` is `grad_fk.dot(incr)`, `nrm` is `norm_incr`. -/
noncomputable def flTosTest (rd : ℝ → ℝ) (fNext fk gd nrm step : ℝ) : ℝ := rd (fNext - rd (rd (fk + gd) + rd (rd (nrm * nrm) / rd (2 * step))))

open Classical in
/-- The line search, splitting.py:135-147; the first argument counts the remaining trials, `i` is `it_ls`, `fk` and `grad` are `fk` and `grad_fk`.  `LS_EPS` is `2^-52` (line 121).  When no trial is
accepted, the last one is kept with the next smaller step size. -/
noncomputable def flTosSearch (rd : ℝ → ℝ) (P : FlTosArgs d) (it : ℕ) (z u : Fin d → ℝ) (fk : ℝ) (grad : Fin d → ℝ) : ℕ → ℕ → FlTosTrial d → Except PyErr (FlTosTrial d)
  | 0, _, t => return t
  | k + 1, i, t => do
    let x ← P.prox1 (it + 1) (i + 1) (flTsArg rd t.step grad z u) t.step                                             -- line 136
    let incr : Fin d → ℝ := fun j => rd (x j - z j)                                                                   -- line 137
    let nrm := P.norm it (i + 1) incr                                                                                 -- line 138
    if flTosTest rd (P.fval it i x) fk (P.dot it i grad incr) nrm t.step ≤ 1 / 2 ^ 52 then return ⟨x, nrm, t.step⟩     -- lines 139-145
    else flTosSearch rd P it z u fk grad k (i + 1) ⟨x, nrm, rd (t.step * P.factor)⟩                                   -- line 147

open Classical in
/-- The first half of an iteration, splitting.py:129-147, with the flag `ls`. -/
noncomputable def flTosTrial (rd : ℝ → ℝ) (P : FlTosArgs d) (search : Bool) (it : ℕ) (z u : Fin d → ℝ) (step : ℝ) : Except PyErr (FlTosTrial d × Bool) := do
  let fg := P.fg it z                                                                                                 -- line 129
  let x ← P.prox1 (it + 1) 0 (flTsArg rd step fg.2 z u) step                                                          -- line 130
  let nrm := P.norm it 0 (fun j => rd (x j - z j))                                                                    -- lines 131-132
  if rd (1 / 10 ^ 7) < nrm ∧ search = true then                                                                       -- lines 133-134
    let t ← flTosSearch rd P it z u fg.1 fg.2 P.lsIter 0 ⟨x, nrm, step⟩
    return (t, true)
  else return (⟨x, nrm, step⟩, false)

open Classical in
/-- The loop, splitting.py:127-167; `m` is `max_iter - 1 - it`. -/
noncomputable def flTosLoop (rd : ℝ → ℝ) (P : FlTosArgs d) (search : Bool) : ℕ → ℕ → (Fin d → ℝ) → (Fin d → ℝ) → ℝ → Except PyErr (FlTosResult d)
  | m, it, z, u, step => do
    let t ← flTosTrial rd P search it z u step                                                                        -- lines 129-147
    let zNext ← P.prox2 (it + 1) (flTsPoint rd t.1.step t.1.x u) t.1.step                                             -- line 149
    let cert := rd (t.1.nrm / t.1.step)                                                                               -- line 151
    let stepNext := if t.2 = true ∧ P.hZero = true then rd (t.1.step * rd (102 / 100)) else t.1.step                  -- lines 153-155
    if 0 < it ∧ cert < P.tol then return ⟨t.1.x, true, it, cert, stepNext⟩                                            -- lines 165-167
    else match m with
      | 0 => return ⟨t.1.x, false, it, cert, stepNext⟩
      | m + 1 => flTosLoop rd P search m (it + 1) zNext (flTsDual rd t.1.step u t.1.x zNext) stepNext                 -- line 150

/-- `minimize_three_split`, splitting.py:9-171.  With `max_iter=0` line 170 reads the unassigned `it`. -/
noncomputable def flMinimizeTos (rd : ℝ → ℝ) (P : FlTosArgs d) : Except PyErr (FlTosResult d) := do
  if P.lsIter = 0 then .error .valueError else                                                                              -- lines 103-104
  let step := match P.step with
    | none => rd (1 / flTosInit rd P)                                                                                 -- line 118
    | some s => s
  let search := match P.step with
    | none => true                                                                                                    -- line 117
    | some _ => P.lineSearch
  let z ← P.prox2 0 P.x0 step                                                                                         -- line 120
  let _ ← P.prox1 0 0 (fun j => rd (z j - rd (step * P.start z j))) step                                              -- lines 123-124
  match P.maxIter with
  | 0 => .error .unboundLocalError
  | m + 1 => flTosLoop rd P search m 0 z 0 step

end Copt
