import Mathlib.Analysis.InnerProductSpace.Basic
import Verif.Model.Utils

/-!
# Model of copt/splitting.py

Vectors live in real inner product spaces and numbers are reals.  `fg` is `f_grad`, a pure function; with
`return_gradient=False` it returns the first component.  Callbacks are called once per iteration, so making them functions
of the iteration number covers stateful ones.  `args_prox` is empty and printing is not modelled.
-/

namespace Copt

open scoped InnerProductSpace

/-! ### Three operator splitting -/

section ThreeSplit

variable {E : Type} [NormedAddCommGroup E] [InnerProductSpace ℝ E]

/-- `np.finfo(float).eps`, splitting.py:121. -/
noncomputable def lsEps : ℝ := 1 / 2 ^ 52

/-- What the line search leaves behind: `x`, (ghost) the step given to `prox_1` to compute it, `step_size`, `ls_tol` and whether it
ended with `break`. -/
structure TSSearch (E : Type) where
  x : E
  used : ℝ
  step : ℝ
  lsTol : ℝ
  ok : Bool

open Classical in
/-- The line search, splitting.py:135-147, with `k + 1` iterations left.  When it is exhausted the step size is reduced once more. -/
noncomputable def tsSearch (fg : E → ℝ × E) (prox1 : E → ℝ → E) (z u grad : E) (fk factor : ℝ) : ℕ → ℝ → TSSearch E
  | k, step =>
    let x := prox1 (z - step • (u + grad)) step
    let lsTol := (fg x).1 - (fk + ⟪grad, x - z⟫_ℝ + ‖x - z‖ ^ 2 / (2 * step))
    if lsTol ≤ lsEps then ⟨x, step, step, lsTol, true⟩
    else match k with
      | 0 => ⟨x, step, step * factor, lsTol, false⟩
      | k + 1 => tsSearch fg prox1 z u grad fk factor k (step * factor)

/-- Ghost record of one iteration: `z` and `u` at its start, `x`, the step given to `prox_1`, the step given to `prox_2`, and whether the
line search (if any) succeeded. -/
structure TSEntry (E : Type) where
  z : E
  u : E
  x : E
  used : ℝ
  step : ℝ
  ls : Bool
  ok : Bool

/-- Local variables at the end of an iteration.  `step = none` is a step size that is nan; then, and once a zero step size has been
used, the vectors hold nan and infinities: the flag `nan` records it and the vectors keep their last finite values. -/
structure TSState (E : Type) where
  x : E
  z : E
  u : E
  step : Option ℝ
  certificate : Option ℝ
  nan : Bool
  log : List (TSEntry E)

/-- Arguments of `minimize_three_split`; the callback returns `true` for Python's `False`. -/
structure TSArgs (E : Type) where
  fg : E → ℝ × E
  x0 : E
  prox1 : Option (E → ℝ → E)
  prox2 : Option (E → ℝ → E)
  tol : ℝ
  maxIter : ℕ
  callback : Option (ℕ → TSState E → Bool)
  lineSearch : Bool
  stepSize : Option ℝ
  btIter : ℤ
  factor : ℝ
  hLip : Option ℝ

/-- splitting.py:106-109. -/
def TSArgs.p1 (P : TSArgs E) : E → ℝ → E := P.prox1.getD fun x _ => x

/-- splitting.py:111-114. -/
def TSArgs.p2 (P : TSArgs E) : E → ℝ → E := P.prox2.getD fun x _ => x

/-- The initial step size, splitting.py:116-118. -/
noncomputable def TSArgs.step0 (P : TSArgs E) : ℝ :=
  match P.stepSize with
  | some s => s
  | none => 1 / (initLipschitz P.fg P.x0).1

/-- `line_search` after splitting.py:116-118. -/
def TSArgs.search (P : TSArgs E) : Bool := P.lineSearch || P.stepSize.isNone

open Classical in
/-- The growth of the step size, splitting.py:153-159: the square root of a negative number is nan (`none`), and so is Python's `min` with
a first argument that is nan. -/
noncomputable def tsGrow (ls : Bool) (hLip : Option ℝ) (step lsTol : ℝ) : Option ℝ :=
  match ls, hLip with
  | true, some h =>
    if h = 0 then some (step * (102 / 100))
    else
      let a := step ^ 2 + (2 * step / h ^ 2) * (-lsTol)
      if a < 0 then none else some (min (Real.sqrt a) (step * (102 / 100)))
  | _, _ => some step

open Classical in
/-- Lines 129-147: the first evaluation, and the line search if it runs. -/
noncomputable def tsStep (P : TSArgs E) (z u : E) (step : ℝ) : TSSearch E × Bool :=
  let fk := (P.fg z).1
  let grad := (P.fg z).2
  let x := P.p1 (z - step • (u + grad)) step
  let ls := decide (1 / 10 ^ 7 < ‖x - z‖) && P.search
  (if ls then tsSearch P.fg P.p1 z u grad fk P.factor (P.btIter.toNat - 1) step else ⟨x, step, step, 0, true⟩, ls)

open Classical in
/-- Lines 129-159 of one iteration.  A step size that is nan, or that is zero when line 150 divides by it, makes every later value
nan or infinite. -/
noncomputable def tsNext (P : TSArgs E) (st : TSState E) : TSState E :=
  match st.nan, st.step with
  | false, some step =>
    let r := (tsStep P st.z st.u step).1
    let ls := (tsStep P st.z st.u step).2
    if r.step = 0 then { st with nan := true, certificate := none }
    else
      let z := P.p2 (r.x + r.step • st.u) r.step
      { x := r.x, z := z, u := st.u + (r.step)⁻¹ • (r.x - z), step := tsGrow ls P.hLip r.step r.lsTol,
        certificate := some (‖r.x - st.z‖ / r.step), nan := false,
        log := st.log ++ [⟨st.z, st.u, r.x, r.used, r.step, ls, r.ok⟩] }
  | _, _ => { st with nan := true, certificate := none }

/-- Why the loop ended. -/
inductive TSWhy where
  | callback
  | success
  | exhausted
  deriving DecidableEq

/-- The callback, lines 161-163. -/
def tsCallback (P : TSArgs E) (it : ℕ) (st : TSState E) : Bool :=
  match P.callback with
  | none => false
  | some cb => cb it st

/-- The test of line 165; comparisons with nan and infinity are false. -/
def tsDone (P : TSArgs E) (it : ℕ) (st : TSState E) : Prop := 0 < it ∧ ∃ c, st.certificate = some c ∧ c < P.tol

open Classical in
/-- The loop, lines 127-167, with `rem + 1` iterations left, the next one being number `it`: the final state, `it` and why it ended. -/
noncomputable def tsLoop (P : TSArgs E) : ℕ → ℕ → TSState E → TSState E × ℕ × TSWhy
  | rem, it, st =>
    let st' := tsNext P st
    if tsCallback P it st' then (st', it, .callback)
    else if tsDone P it st' then (st', it, .success)
    else match rem with
      | 0 => (st', it, .exhausted)
      | rem + 1 => tsLoop P rem (it + 1) st'

/-- What `minimize_three_split` returns; `x` is `none` when the vectors hold nan. -/
structure TSResult (E : Type) where
  x : Option E
  success : Bool
  nit : ℕ
  certificate : Option ℝ
  stepSize : Option ℝ
  why : TSWhy
  log : List (TSEntry E)
  z : E
  u : E

/-- Lines 120-125. -/
noncomputable def tsInit (P : TSArgs E) : TSState E :=
  let z := P.p2 P.x0 P.step0
  { x := P.p1 (z - P.step0 • (P.fg z).2) P.step0, z := z, u := 0, step := some P.step0, certificate := none, nan := false, log := [] }

/-- `minimize_three_split`, splitting.py:102-171.  Without an iteration the name `it` is unbound. -/
noncomputable def minimizeThreeSplit (P : TSArgs E) : Except PyErr (TSResult E) :=
  if P.btIter ≤ 0 then .error .valueError
  else
    match P.maxIter with
    | 0 => .error .unboundLocalError
    | m + 1 =>
      let r := tsLoop P m 0 (tsInit P)
      .ok { x := if r.1.nan then none else some r.1.x, success := r.2.2 = .success, nit := r.2.1, certificate := r.1.certificate,
            stepSize := r.1.step, why := r.2.2, log := r.1.log, z := r.1.z, u := r.1.u }

end ThreeSplit

/-! ### Primal-dual hybrid gradient -/

section PrimalDual

variable {E F : Type} [NormedAddCommGroup E] [InnerProductSpace ℝ E] [NormedAddCommGroup F] [InnerProductSpace ℝ F]

/-- Local variables at the end of an iteration, and (ghost) the values of `x` and `y` before it. -/
structure PDState (E F : Type) where
  x : E
  y : F
  fk : ℝ
  grad : E
  theta : ℝ
  tau : ℝ
  sigma : ℝ
  normIncr : Option ℝ
  xOld : E
  yOld : F

/-- Arguments of `minimize_primal_dual`.  `L` is given by its `matvec` and `rmatvec`; both return fresh arrays.  `L = None` is the
identity.  Step sizes are nonzero. -/
structure PDArgs (E F : Type) where
  fg : E → ℝ × E
  x0 : E
  prox1 : Option (E → ℝ → E)
  prox2 : Option (F → ℝ → F)
  matvec : E → F
  rmatvec : F → E
  tol : ℝ
  maxIter : ℕ
  callback : Option (ℕ → PDState E F → Bool)
  stepSize : ℝ
  stepSize2 : Option ℝ
  lineSearch : Bool
  lsIter : ℤ

/-- splitting.py:265-268. -/
def PDArgs.p1 (P : PDArgs E F) : E → ℝ → E := P.prox1.getD fun x _ => x

/-- splitting.py:270-273. -/
def PDArgs.p2 (P : PDArgs E F) : F → ℝ → F := P.prox2.getD fun x _ => x

/-- `prox_2_conj`, splitting.py:276-277. -/
noncomputable def prox2Conj (prox2 : F → ℝ → F) (x : F) (ss : ℝ) : F := x - ss • prox2 (ss⁻¹ • x) (1 / ss)

/-- `tau`, splitting.py:282-288. -/
noncomputable def PDArgs.tau0 (P : PDArgs E F) : ℝ :=
  match P.stepSize2 with
  | none => 1 / 2 * P.stepSize
  | some t => t

/-- `ss_ratio`, splitting.py:282-288. -/
noncomputable def PDArgs.ratio (P : PDArgs E F) : ℝ :=
  match P.stepSize2 with
  | none => 1 / 2
  | some t => t / P.stepSize

/-- What an iteration computes before the assignments of lines 323-325. -/
structure PDStep (E F : Type) where
  xNext : E
  yNext : F
  theta : ℝ
  tau : ℝ
  sigma : ℝ

/-- The point tried by the line search with the candidate `tau_next`, lines 299-302. -/
noncomputable def pdTrial (P : PDArgs E F) (st : PDState E F) (yNext : F) (tauNext : ℝ) : E :=
  let theta := tauNext / st.tau
  let sigma := P.ratio * tauNext
  let yBar := yNext + theta • (yNext - st.y)
  P.p1 (st.x - sigma • (P.rmatvec yBar + st.grad)) sigma

/-- `incr_x`, line 303. -/
noncomputable def pdIncr (P : PDArgs E F) (st : PDState E F) (xNext : E) : ℝ := ‖P.matvec xNext - P.matvec st.x‖

/-- The first exit of the line search, line 305. -/
noncomputable def pdTiny (P : PDArgs E F) (st : PDState E F) (yNext : F) (tauNext : ℝ) : Prop :=
  pdIncr P st (pdTrial P st yNext tauNext) ≤ 1 / 10 ^ 10

/-- The second exit of the line search, lines 308-310 (`delta = 0.5`). -/
noncomputable def pdAccept (P : PDArgs E F) (st : PDState E F) (yNext : F) (tauNext : ℝ) : Prop :=
  let xNext := pdTrial P st yNext tauNext
  let sigma := P.ratio * tauNext
  (sigma * tauNext * pdIncr P st xNext ^ 2 + 2 * sigma * ((P.fg xNext).1 - st.fk - ⟪st.grad, xNext - st.x⟫_ℝ)) / (1 / 2) ≤
    pdIncr P st xNext ^ 2

open Classical in
/-- The `while True` loop, lines 298-314: the candidates are `tau_next * 0.9^m`; `none` when no candidate is ever accepted, that is when
the loop does not terminate. -/
noncomputable def pdSearch (P : PDArgs E F) (st : PDState E F) (yNext : F) (tauNext : ℝ) : Option (PDStep E F) :=
  if h : ∃ m : ℕ, pdTiny P st yNext (tauNext * (9 / 10) ^ m) ∨ pdAccept P st yNext (tauNext * (9 / 10) ^ m) then
    let t := tauNext * (9 / 10) ^ (Nat.find h)
    some { xNext := pdTrial P st yNext t, yNext := yNext, theta := t / st.tau,
           tau := if pdTiny P st yNext t then st.tau else t, sigma := P.ratio * t }
  else none

/-- Lines 295-318. -/
noncomputable def pdStep (P : PDArgs E F) (st : PDState E F) : Option (PDStep E F) :=
  let yNext := prox2Conj P.p2 (st.y + st.tau • P.matvec st.x) st.tau
  if P.lineSearch then pdSearch P st yNext (st.tau * (1 + Real.sqrt (1 + st.theta)) / 2)
  else
    let yBar := (2 : ℝ) • yNext - st.y
    some { xNext := P.p1 (st.x - st.sigma • (P.rmatvec yBar + st.grad)) st.sigma, yNext := yNext, theta := st.theta, tau := st.tau,
           sigma := st.sigma }

/-- Lines 295-325 of iteration `it`. -/
noncomputable def pdNext (P : PDArgs E F) (it : ℕ) (st : PDState E F) : Option (PDState E F) :=
  (pdStep P st).map fun r =>
    { x := r.xNext, y := r.yNext, fk := (P.fg r.xNext).1, grad := (P.fg r.xNext).2, theta := r.theta, tau := r.tau, sigma := r.sigma,
      normIncr := if it % 100 = 0 then some (‖r.xNext - st.x‖ + ‖r.yNext - st.y‖) else st.normIncr,
      xOld := st.x, yOld := st.y }

/-- The callback, lines 331-333. -/
def pdCallback (P : PDArgs E F) (it : ℕ) (st : PDState E F) : Bool :=
  match P.callback with
  | none => false
  | some cb => cb it st

/-- The test of line 327; `norm_incr` starts as infinity. -/
def pdDone (P : PDArgs E F) (st : PDState E F) : Prop := ∃ c, st.normIncr = some c ∧ c < P.tol

open Classical in
/-- The loop, lines 294-333, with `rem + 1` iterations left, the next one being number `it`; `none` when a line search does not
terminate. -/
noncomputable def pdLoop (P : PDArgs E F) : ℕ → ℕ → PDState E F → Option (PDState E F × ℕ × TSWhy)
  | rem, it, st =>
    match pdNext P it st with
    | none => none
    | some st' =>
      if pdDone P st' then some (st', it, .success)
      else if pdCallback P it st' then some (st', it, .callback)
      else match rem with
        | 0 => some (st', it, .exhausted)
        | rem + 1 => pdLoop P rem (it + 1) st'

/-- What `minimize_primal_dual` returns, whether it warned, and (ghost) the last two iterates. -/
structure PDResult (E F : Type) where
  x : E
  success : Bool
  nit : ℕ
  certificate : Option ℝ
  stepSize : ℝ
  warned : Bool
  why : TSWhy
  final : PDState E F

/-- Lines 252-292. -/
noncomputable def pdInit (P : PDArgs E F) : PDState E F :=
  { x := P.x0, y := P.matvec P.x0, fk := (P.fg P.x0).1, grad := (P.fg P.x0).2, theta := 1, tau := P.tau0, sigma := P.stepSize,
    normIncr := none, xOld := P.x0, yOld := P.matvec P.x0 }

/-- `minimize_primal_dual`, splitting.py:252-343, for a floating point `x0`: `none` when a line search does not terminate.  Without an
iteration the name `it` is unbound at line 335. -/
noncomputable def minimizePrimalDual (P : PDArgs E F) : Option (Except PyErr (PDResult E F)) :=
  if P.lsIter ≤ 0 then some (.error .valueError)
  else
    match P.maxIter with
    | 0 => some (.error .unboundLocalError)
    | m + 1 =>
      (pdLoop P m 0 (pdInit P)).map fun r =>
        .ok { x := r.1.x, success := r.2.2 = .success, nit := r.2.1, certificate := r.1.normIncr, stepSize := r.1.sigma,
              warned := decide (m + 1 ≤ r.2.1), why := r.2.2, final := r.1 }

end PrimalDual

end Copt
