import Verif.Model.FloatPdSearch

/-!
# Model of the proximal gradient method and the three operator splitting in any arithmetic

`minimize_proximal_gradient` with `accelerated=False`, a callable step or the line search, and `minimize_three_split` with `h_Lipschitz` either `None` or `0`, both without callback, for numbers of any
kind (`FlOps`), in particular IEEE numbers with infinities and nan.
-/

namespace Copt

open Spec

variable {α : Type} {d : ℕ}

/-! ### Proximal gradient -/

/-- Arguments of `minimize_proximal_gradient`, as in `FlBtArgs`; `step` is a callable (which sees the iteration and `x`), or `none` for `"backtracking"`. -/
structure GpgArgs (α : Type) (d : ℕ) where
  init : ℕ → (Fin d → α) → α × (Fin d → α)
  start : (Fin d → α) → α × (Fin d → α)
  fg : ℕ → ℕ → (Fin d → α) → α × (Fin d → α)
  prox : ℕ → ℕ → (Fin d → α) → α → Except PyErr (Fin d → α)
  dotG : ℕ → ℕ → (Fin d → α) → (Fin d → α) → α
  dotD : ℕ → ℕ → (Fin d → α) → (Fin d → α) → α
  norm : ℕ → (Fin d → α) → α
  step : Option (ℕ → (Fin d → α) → α)
  x0 : Fin d → α
  tol : α
  maxIter : ℕ
  btIter : ℕ
  factor : α

/-- Attributes of the result, proximal_gradient.py:275-282. -/
structure GpgResult (α : Type) (d : ℕ) where
  x : Fin d → α
  success : Bool
  certificate : α
  nit : ℕ

/-- `x - t * g`, proximal_gradient.py:146, 152, 168 and utils.py:174, 180. -/
def gStep (O : FlOps α) (x g : Fin d → α) (t : α) : Fin d → α := fun j => O.sub (x j) (O.mul t (g j))

open Classical in
/-- The loop of `init_lipschitz`, utils.py:176-181; `f` are the calls of `f_grad`, `fT` is `f_tilde`, `i` the number of the next call. -/
noncomputable def gInitLoop (O : FlOps α) (f : ℕ → (Fin d → α) → α × (Fin d → α)) (x0 : Fin d → α) : ℕ → ℕ → α → α → α
  | 0, _, L0, _ => L0
  | k + 1, i, L0, fT =>
    if O.le fT (f 0 x0).1 then L0
    else gInitLoop O f x0 k (i + 1) (O.mul L0 (O.lit 10)) (f i (gStep O x0 (f 0 x0).2 (O.div (O.lit 1) (O.mul L0 (O.lit 10))))).1

/-- `init_lipschitz`, utils.py:167-182, for dense arrays. -/
noncomputable def gInitLipschitz (O : FlOps α) (f : ℕ → (Fin d → α) → α × (Fin d → α)) (x0 : Fin d → α) : α :=
  gInitLoop O f x0 100 2 (O.lit (1 / 1000)) (f 1 (gStep O x0 (f 0 x0).2 (O.div (O.lit 1) (O.lit (1 / 1000))))).1

/-- What an iteration leaves behind: `x_next, step_size, f_next, grad_next`. -/
structure GpgOut (α : Type) (d : ℕ) where
  xNext : Fin d → α
  step : α
  fNext : α
  gradNext : Fin d → α

open Classical in
/-- The line search loop, proximal_gradient.py:155-171, with `m + 1` iterations left; `i` is the number of the iteration.  When it is exhausted `f_next` and `grad_next` are those of the last
rejected point. -/
noncomputable def gpgSearch (O : FlOps α) (P : GpgArgs α d) (k : ℕ) (x g : Fin d → α) (fk : α) : ℕ → ℕ → (Fin d → α) → α → Except PyErr (GpgOut α d)
  | m, i, xNext, step =>
    let next := P.fg k i xNext                                                                                                   -- line 156
    let dir : Fin d → α := fun j => O.sub (xNext j) (x j)                                                                        -- lines 153, 169
    if O.le next.1 (O.add (O.add fk (P.dotG k i g dir)) (O.div (P.dotD k i dir dir) (O.mul (O.lit 2) step))) then
      .ok ⟨xNext, step, next.1, next.2⟩                                                                                          -- lines 157-164
    else do
      let xNext' ← P.prox k (i + 1) (gStep O x g (O.mul step P.factor)) (O.mul step P.factor)                                    -- lines 167-168
      match m with
      | 0 => return ⟨xNext', O.mul step P.factor, next.1, next.2⟩
      | m + 1 => gpgSearch O P k x g fk m (i + 1) xNext' (O.mul step P.factor)

/-- The new point of an iteration, proximal_gradient.py:144-171. -/
noncomputable def gpgNext (O : FlOps α) (P : GpgArgs α d) (k : ℕ) (x : Fin d → α) (fk : α) (g : Fin d → α) (step : α) : Except PyErr (GpgOut α d) :=
  match P.step with
  | some s => do
    let xNext ← P.prox k 0 (gStep O x g (s k x)) (s k x)                                                                         -- lines 145-146
    return ⟨xNext, s k x, (P.fg k 0 xNext).1, (P.fg k 0 xNext).2⟩                                                                -- line 148
  | none => do
    let xNext ← P.prox k 0 (gStep O x g step) step                                                                               -- line 152
    gpgSearch O P k x g fk (P.btIter - 1) 0 xNext (O.mul step (O.lit (11 / 10)))                                                 -- lines 154-171

open Classical in
/-- The loop, proximal_gradient.py:141-192; `m` is `max_iter - n_iterations`. -/
noncomputable def gpgLoop (O : FlOps α) (P : GpgArgs α d) : ℕ → ℕ → (Fin d → α) → α → (Fin d → α) → α → Except PyErr (GpgResult α d)
  | m, nit, x, fk, g, step => do
    let r ← gpgNext O P nit x fk g step
    let cert := P.norm nit (fun j => O.div (O.sub (x j) (r.xNext j)) r.step)                                                     -- line 178
    if O.lt cert P.tol then return ⟨r.xNext, true, cert, nit⟩                                                                    -- lines 185-187
    else match m with
      | 0 => return ⟨r.xNext, false, cert, nit⟩                                                                                  -- lines 189-190
      | m + 1 => gpgLoop O P m (nit + 1) r.xNext r.fNext r.gradNext r.step                                                       -- lines 181-183, 192

/-- `minimize_proximal_gradient`, proximal_gradient.py:9-282, in the cases above. -/
noncomputable def gpgRun (O : FlOps α) (P : GpgArgs α d) : Except PyErr (GpgResult α d) :=
  if P.btIter = 0 then .error .valueError                                                                                        -- lines 113-114
  else gpgLoop O P P.maxIter 0 P.x0 (P.start P.x0).1 (P.start P.x0).2 (O.div (O.lit (18 / 10)) (gInitLipschitz O P.init P.x0))   -- lines 130, 140

/-! ### Three operator splitting -/

/-- Arguments of `minimize_three_split`, as in `FlTosArgs`. -/
structure GtsArgs (α : Type) (d : ℕ) where
  init : ℕ → (Fin d → α) → α × (Fin d → α)
  start : (Fin d → α) → Fin d → α
  fg : ℕ → (Fin d → α) → α × (Fin d → α)
  fval : ℕ → ℕ → (Fin d → α) → α
  prox1 : ℕ → ℕ → (Fin d → α) → α → Except PyErr (Fin d → α)
  prox2 : ℕ → (Fin d → α) → α → Except PyErr (Fin d → α)
  norm : ℕ → ℕ → (Fin d → α) → α
  dot : ℕ → ℕ → (Fin d → α) → (Fin d → α) → α
  x0 : Fin d → α
  tol : α
  maxIter : ℕ
  lineSearch : Bool
  step : Option α
  lsIter : ℕ
  factor : α
  hZero : Bool

/-- `OptimizeResult`, splitting.py:169-171. -/
structure GtsResult (α : Type) (d : ℕ) where
  x : Fin d → α
  success : Bool
  nit : ℕ
  certificate : α
  stepSize : α

/-- `x`, `norm_incr`, `step_size` after the line search. -/
structure GtsTrial (α : Type) (d : ℕ) where
  x : Fin d → α
  nrm : α
  step : α

/-- `z - step_size * (u + grad_fk)`, splitting.py:130, 136. -/
def gtsArg (O : FlOps α) (step : α) (grad z u : Fin d → α) : Fin d → α := fun j => O.sub (z j) (O.mul step (O.add (u j) (grad j)))

open Classical in
/-- The line search, splitting.py:135-147; the first argument counts the remaining trials, `i` is `it_ls`. -/
noncomputable def gtsSearch (O : FlOps α) (P : GtsArgs α d) (it : ℕ) (z u : Fin d → α) (fk : α) (grad : Fin d → α) : ℕ → ℕ → GtsTrial α d → Except PyErr (GtsTrial α d)
  | 0, _, t => return t
  | k + 1, i, t => do
    let x ← P.prox1 (it + 1) (i + 1) (gtsArg O t.step grad z u) t.step                                                           -- line 136
    let incr : Fin d → α := fun j => O.sub (x j) (z j)                                                                            -- line 137
    let nrm := P.norm it (i + 1) incr                                                                                             -- line 138
    if O.le (O.sub (P.fval it i x) (O.add (O.add fk (P.dot it i grad incr)) (O.div (O.mul nrm nrm) (O.mul (O.lit 2) t.step)))) (O.lit (1 / 2 ^ 52)) then
      return ⟨x, nrm, t.step⟩                                                                                                     -- lines 139-145
    else gtsSearch O P it z u fk grad k (i + 1) ⟨x, nrm, O.mul t.step P.factor⟩                                                   -- line 147

open Classical in
/-- The first half of an iteration, splitting.py:129-147, with the flag `ls`. -/
noncomputable def gtsTrial (O : FlOps α) (P : GtsArgs α d) (search : Bool) (it : ℕ) (z u : Fin d → α) (step : α) : Except PyErr (GtsTrial α d × Bool) := do
  let x ← P.prox1 (it + 1) 0 (gtsArg O step (P.fg it z).2 z u) step                                                               -- lines 129-130
  let nrm := P.norm it 0 (fun j => O.sub (x j) (z j))                                                                             -- lines 131-132
  if O.lt (O.lit (1 / 10 ^ 7)) nrm ∧ search = true then                                                                           -- lines 133-134
    let t ← gtsSearch O P it z u (P.fg it z).1 (P.fg it z).2 P.lsIter 0 ⟨x, nrm, step⟩
    return (t, true)
  else return (⟨x, nrm, step⟩, false)

open Classical in
/-- The loop, splitting.py:127-167; `m` is `max_iter - 1 - it`. -/
noncomputable def gtsLoop (O : FlOps α) (P : GtsArgs α d) (search : Bool) : ℕ → ℕ → (Fin d → α) → (Fin d → α) → α → Except PyErr (GtsResult α d)
  | m, it, z, u, step => do
    let t ← gtsTrial O P search it z u step                                                                                       -- lines 129-147
    let zNext ← P.prox2 (it + 1) (fun j => O.add (t.1.x j) (O.mul t.1.step (u j))) t.1.step                                       -- line 149
    let cert := O.div t.1.nrm t.1.step                                                                                            -- line 151
    let stepNext := if t.2 = true ∧ P.hZero = true then O.mul t.1.step (O.lit (102 / 100)) else t.1.step                          -- lines 153-155
    if 0 < it ∧ O.lt cert P.tol then return ⟨t.1.x, true, it, cert, stepNext⟩                                                     -- lines 165-167
    else match m with
      | 0 => return ⟨t.1.x, false, it, cert, stepNext⟩
      | m + 1 => gtsLoop O P search m (it + 1) zNext (fun j => O.add (u j) (O.div (O.sub (t.1.x j) (zNext j)) t.1.step)) stepNext  -- line 150

/-- The first step size, splitting.py:116-118. -/
noncomputable def gtsStep (O : FlOps α) (P : GtsArgs α d) : α :=
  match P.step with
  | none => O.div (O.lit 1) (gInitLipschitz O P.init P.x0)
  | some s => s

/-- `line_search` after lines 116-117 of splitting.py. -/
def gtsFlag (P : GtsArgs α d) : Bool :=
  match P.step with
  | none => true
  | some _ => P.lineSearch

/-- `minimize_three_split`, splitting.py:9-171.  With `max_iter=0` line 170 reads the unassigned `it`. -/
noncomputable def gtsRun (O : FlOps α) (P : GtsArgs α d) : Except PyErr (GtsResult α d) := do
  if P.lsIter = 0 then .error .valueError else                                                                                    -- lines 103-104
  let z ← P.prox2 0 P.x0 (gtsStep O P)                                                                                            -- line 120
  let _ ← P.prox1 0 0 (gStep O z (P.start z) (gtsStep O P)) (gtsStep O P)                                                         -- lines 123-124
  match P.maxIter with
  | 0 => .error .unboundLocalError
  | m + 1 => gtsLoop O P (gtsFlag P) m 0 z (fun _ => O.lit 0) (gtsStep O P)                                                       -- line 125

end Copt
