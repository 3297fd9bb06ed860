import Mathlib.Analysis.InnerProductSpace.Basic
import Mathlib.Analysis.InnerProductSpace.PiL2
import Verif.Model.Constraint

/-!
# Model of copt/frank_wolfe.py

Vectors live in an arbitrary real inner product space `E` (`np.dot` is the inner product and `linalg.norm` its norm);
numbers are reals.  `fg` is the `func_and_grad` built by `utils.build_func_grad` (see `Model/Utils`).  The callback, a
callable `step` and the `lmo` are called at most once per iteration by the loop, so making them functions of the
iteration number (and of what they are given) covers stateful ones.  A callback that mutates the solver's local
variables is not modelled.
-/

namespace Copt

open scoped InnerProductSpace

variable {E Rep : Type} [NormedAddCommGroup E] [InnerProductSpace ℝ E]

/-- `EPS = np.finfo(np.float32).eps`, frank_wolfe.py:10. -/
noncomputable def fwEPS : ℝ := 2⁻¹ ^ 23

/-- What `backtracking_step_size` returns, and whether it warned. -/
structure BtOut (E : Type) where
  step : ℝ
  lip : ℝ
  fNext : ℝ
  gradNext : E
  warned : Bool

/-- `certificate / (norm_update_direction * lipschitz_t) < max_step_size`, frank_wolfe.py:75-76; a zero denominator
gives numpy's `inf` (the certificate is positive when the routine is called). -/
def btShort (cert normD lip maxStep : ℝ) : Prop := normD * lip ≠ 0 ∧ cert / (normD * lip) < maxStep

open Classical in
/-- Step tried for the estimate `lip`, frank_wolfe.py:75-79. -/
noncomputable def btStep (cert normD lip maxStep : ℝ) : ℝ :=
  if btShort cert normD lip maxStep then cert / (normD * lip) else maxStep

open Classical in
/-- Right-hand side of the sufficient decrease test, frank_wolfe.py:76-83. -/
noncomputable def btRhs (cert normD lip maxStep : ℝ) : ℝ :=
  if btShort cert normD lip maxStep then -(1 / 2) * (cert / (normD * lip)) * cert
  else -maxStep * cert + 1 / 2 * maxStep ^ 2 * lip * normD

open Classical in
/-- The loop of `backtracking_step_size`, frank_wolfe.py:74-93, with `k + 1` iterations left. -/
noncomputable def btLoop (fg : E → ℝ × E) (x d : E) (fT cert normD maxStep : ℝ) : ℕ → ℝ → BtOut E
  | k, lip =>
    let step := btStep cert normD lip maxStep
    let next := fg (x + step • d)
    if next.1 - fT ≤ btRhs cert normD lip maxStep + fwEPS then ⟨step, lip, next.1, next.2, false⟩
    else
      match k with
      | 0 => ⟨step, lip * 2, next.1, next.2, true⟩
      | k + 1 => btLoop fg x d fT cert normD maxStep k (lip * 2)

open Classical in
/-- Initial Lipschitz estimate of the line search, frank_wolfe.py:71-73.  A zero denominator gives numpy's `inf`. -/
noncomputable def btInit (oldF : Option ℝ) (fT cert normD lip : ℝ) : ℝ :=
  match oldF with
  | none => lip
  | some o =>
    let m := if 2 * (o - fT) * normD = 0 then lip else min (cert ^ 2 / (2 * (o - fT) * normD)) lip
    max m (lip * (9 / 10))

/-- `backtracking_step_size`, frank_wolfe.py:13-94. -/
noncomputable def backtrackingStepSize (x : E) (fT : ℝ) (oldF : Option ℝ) (fg : E → ℝ × E) (cert lip maxStep : ℝ)
    (d : E) (normD : ℝ) : BtOut E :=
  btLoop fg x d fT cert normD maxStep 99 (btInit oldF fT cert normD lip)

/-! ### The active set: a `defaultdict(float)` -/

section Dict
variable {K : Type} [Field K] [LinearOrder K] [DecidableEq Rep]

/-- Value of `active_set[k]` (0 if absent). -/
def dGet (act : ActiveSet Rep K) (k : Rep) : K := ((act.find? fun p => p.1 = k).map Prod.snd).getD 0

/-- Effect of reading `active_set[k]` on the dictionary: a missing key is inserted (at the end) with value 0. -/
def dTouch (act : ActiveSet Rep K) (k : Rep) : ActiveSet Rep K :=
  if k ∈ act.map Prod.fst then act else act ++ [(k, 0)]

/-- `active_set[k] += c` (reads, then writes). -/
def dAdd (act : ActiveSet Rep K) (k : Rep) (c : K) : ActiveSet Rep K :=
  (dTouch act k).map fun p => if p.1 = k then (p.1, p.2 + c) else p

/-- `del active_set[k]`. -/
def dDel (act : ActiveSet Rep K) (k : Rep) : ActiveSet Rep K := act.filter fun p => p.1 ≠ k

/-- `update_active_set`, frank_wolfe.py:97-112. -/
def updateActiveSet (act : ActiveSet Rep K) (fw away : Rep) (step : K) : Except PyErr (ActiveSet Rep K) :=
  let act := dTouch act away                                    -- line 101
  let act := dAdd act fw step                                   -- line 102
  let act := dAdd act away (-step)                              -- line 103
  let act := if dGet act away = 0 then dDel act away else act   -- lines 105-107
  let neg := dGet act away < 0                                  -- line 108: reads `active_set[away]` again
  let act := dTouch act away
  if neg then .error .valueError else .ok act

end Dict

/-! ### minimize_frank_wolfe -/

/-- The local variables shown to callbacks and callable steps (those relevant here). -/
structure FWLocals (E Rep : Type) where
  it : ℕ
  x : E
  fT : ℝ
  grad : E
  dir : E
  certificate : ℝ
  maxStep : ℝ
  lip : ℝ
  stepSize : Option ℝ
  active : Option (ActiveSet Rep ℝ)

/-- The `step` argument. -/
inductive FWStep (E Rep : Type) where
  | callable (rule : ℕ → FWLocals E Rep → ℝ)
  | str (s : String)

/-- Arguments of `minimize_frank_wolfe`, frank_wolfe.py:115-130. -/
structure FWArgs (E Rep : Type) where
  fg : E → ℝ × E
  x0 : E
  /-- LMO called in iteration `it` with `(-grad, x, active_set)`. -/
  lmo : ℕ → E → E → Option (ActiveSet Rep ℝ) → Except PyErr (LmoOut E Rep ℝ)
  x0Rep : Option Rep
  variant : String
  step : FWStep E Rep
  lipschitz : Option ℝ
  maxIter : ℕ
  tol : ℝ
  /-- Callback: `true` when it returns `False`. -/
  callback : Option (ℕ → FWLocals E Rep → Bool)

/-- Variables of the main loop. `cbs` (callback calls) and `iters` (value of `x` at the top of every iteration) are
recorded for the specification. -/
structure FWState (E Rep : Type) where
  x : E
  fT : ℝ
  grad : E
  oldF : Option ℝ
  lip : Option ℝ
  stepSize : Option ℝ
  active : Option (ActiveSet Rep ℝ)
  last : Option (FWLocals E Rep)
  cbs : List (FWLocals E Rep)
  iters : List E

/-- How the loop ended. -/
inductive FWWhy where
  | converged
  | callback
  | exhausted
  deriving DecidableEq

/-- Result: the fields of the OptimizeResult and the recorded histories. -/
structure FWResult (E Rep : Type) where
  x : E
  nit : ℕ
  certificate : ℝ
  active : Option (ActiveSet Rep ℝ)
  why : FWWhy
  cbs : List (FWLocals E Rep)
  iters : List E

/-- What the step-size branch sets: `step_size, lipschitz_t, f_next, grad_next`. -/
structure FWStepOut (E : Type) where
  step : ℝ
  lip : ℝ
  fNext : ℝ
  gradNext : E

/-- The step-size branches, frank_wolfe.py:268-296.  (The DR step `min(c, max_step_size)` is `btStep`.) -/
noncomputable def fwStepSize (P : FWArgs E Rep) (l : FWLocals E Rep) (oldF : Option ℝ) : Except PyErr (FWStepOut E) :=
  let normD := ‖l.dir‖ ^ 2
  match P.step with
  | .callable rule =>
    let s := rule l.it l
    .ok ⟨s, l.lip, (P.fg (l.x + s • l.dir)).1, (P.fg (l.x + s • l.dir)).2⟩
  | .str s =>
    if s = "backtracking" then
      let r := backtrackingStepSize l.x l.fT oldF P.fg l.certificate l.lip l.maxStep l.dir normD
      .ok ⟨r.step, r.lip, r.fNext, r.gradNext⟩
    else if s = "DR" then
      if P.lipschitz = none then .error .valueError
      else
        let s := btStep l.certificate normD l.lip l.maxStep
        .ok ⟨s, l.lip, (P.fg (l.x + s • l.dir)).1, (P.fg (l.x + s • l.dir)).2⟩
    else if s = "sublinear" then
      let s : ℝ := 2 / ((l.it : ℝ) + 2)
      .ok ⟨s, l.lip, (P.fg (l.x + s • l.dir)).1, (P.fg (l.x + s • l.dir)).2⟩
    else .error .valueError

/-- Update of the active set, frank_wolfe.py:301-303.  (LMOs that return no vertex representations together with the
pairwise variant are outside the model.) -/
def fwUpdateActive {K E Rep : Type} [Field K] [LinearOrder K] [DecidableEq Rep] (act : Option (ActiveSet Rep K)) (o : LmoOut E Rep K) (step : K) :
    Except PyErr (Option (ActiveSet Rep K)) :=
  match act, o.fwRep, o.awayRep with
  | some a, some fw, some away => (updateActiveSet a fw away step).map some
  | none, _, _ => .ok none
  | some _, _, _ => .error .typeError

/-- The Lipschitz estimate, frank_wolfe.py:258-264. (For a zero direction the code gets `nan`, but then the certificate
is 0 and the loop stops before using it.) -/
noncomputable def fwLip (P : FWArgs E Rep) (st : FWState E Rep) (d : E) : ℝ :=
  match st.lip with
  | some l => l
  | none => ‖st.grad - (P.fg (st.x + (1e-3 : ℝ) • d)).2‖ / (1e-3 * Real.sqrt (‖d‖ ^ 2))

/-- The local variables after the LMO call of iteration `it`. -/
noncomputable def fwLocals (P : FWArgs E Rep) (it : ℕ) (st : FWState E Rep) (o : LmoOut E Rep ℝ) : FWLocals E Rep :=
  ⟨it, st.x, st.fT, st.grad, o.dir, ⟪o.dir, -st.grad⟫_ℝ, o.maxStep, fwLip P st o.dir, st.stepSize, st.active⟩

/-- The part of an iteration after the tests, frank_wolfe.py:300-305. -/
noncomputable def fwMove [DecidableEq Rep] (st : FWState E Rep) (l : FWLocals E Rep) (o : LmoOut E Rep ℝ)
    (s : FWStepOut E) (cbs : List (FWLocals E Rep)) : Except PyErr (FWState E Rep) := do
  let act ← fwUpdateActive st.active o s.step
  return { x := st.x + s.step • o.dir, fT := s.fNext, grad := s.gradNext, oldF := some st.fT, lip := some s.lip,
           stepSize := some s.step, active := act, last := some { l with lip := s.lip, stepSize := some s.step },
           cbs := cbs, iters := st.iters ++ [st.x] }

/-- Callback call of iteration `it`, frank_wolfe.py:297-299: new history and "returned False". -/
def fwCallback (P : FWArgs E Rep) (it : ℕ) (l : FWLocals E Rep) (cbs : List (FWLocals E Rep)) :
    List (FWLocals E Rep) × Bool :=
  match P.callback with
  | none => (cbs, false)
  | some cb => (cbs ++ [l], cb it l)

open Classical in
/-- One iteration of the loop, frank_wolfe.py:251-305: the next state, and how the loop ended if it did. -/
noncomputable def fwBody [DecidableEq Rep] (P : FWArgs E Rep) (it : ℕ) (st : FWState E Rep) :
    Except PyErr (FWState E Rep × Option FWWhy) := do
  let o ← P.lmo it (-st.grad) st.x st.active
  let l := fwLocals P it st o
  if l.certificate ≤ P.tol then
    return ({ st with lip := some l.lip, last := some l }, some .converged)
  else
    let s ← fwStepSize P l st.oldF
    let l' := { l with lip := s.lip, stepSize := some s.step }
    let cb := fwCallback P it l' st.cbs
    if cb.2 then
      return ({ st with lip := some s.lip, stepSize := some s.step, last := some l', cbs := cb.1 }, some .callback)
    else do
      let st' ← fwMove st l o s cb.1
      return (st', none)

/-- The loop `for it in range(max_iter)`, with `fuel` iterations left. -/
noncomputable def fwLoop [DecidableEq Rep] (P : FWArgs E Rep) : ℕ → ℕ → FWState E Rep →
    Except PyErr (FWState E Rep × FWWhy)
  | 0, _, st => .ok (st, .exhausted)
  | fuel + 1, it, st => do
    let r ← fwBody P it st
    match r.2 with
    | some why => return (r.1, why)
    | none => fwLoop P fuel (it + 1) r.1

/-- Initial active set, frank_wolfe.py:232-239.  (A pairwise run without `x0_rep` fails in the LMO with
a TypeError; here it fails at once.) -/
def fwActive0 (P : FWArgs E Rep) : Except PyErr (Option (ActiveSet Rep ℝ)) :=
  if P.variant = "vanilla" then .ok none
  else if P.variant = "pairwise" then
    match P.x0Rep with
    | some r => .ok (some [(r, 1)])
    | none => .error .typeError
  else .error .valueError

/-- State before the loop, frank_wolfe.py:230, 241-249. -/
def fwInit (P : FWArgs E Rep) (act : Option (ActiveSet Rep ℝ)) : FWState E Rep :=
  ⟨P.x0, (P.fg P.x0).1, (P.fg P.x0).2, none, P.lipschitz, none, act, none, [], []⟩

/-- The end of the function, frank_wolfe.py:306-309: a last callback, then the result; `it` and `certificate` are
unbound when no iteration was made.  The final callback sees the locals of the last iteration with the current `x`. -/
def fwFinish (P : FWArgs E Rep) (r : FWState E Rep × FWWhy) : Except PyErr (FWResult E Rep) :=
  match r.1.last with
  | none => .error .unboundLocalError
  | some l =>
    let fin : FWLocals E Rep := { l with x := r.1.x, fT := r.1.fT, grad := r.1.grad, active := r.1.active }
    .ok { x := r.1.x, nit := l.it, certificate := l.certificate, active := r.1.active, why := r.2,
          cbs := match P.callback with
            | none => r.1.cbs
            | some _ => r.1.cbs ++ [fin],
          iters := r.1.iters ++ [r.1.x] }

open Classical in
/-- `minimize_frank_wolfe`, frank_wolfe.py:115-309. -/
noncomputable def minimizeFrankWolfe [DecidableEq Rep] (P : FWArgs E Rep) : Except PyErr (FWResult E Rep) := do
  if P.tol < 0 then .error .valueError
  else
    let act ← fwActive0 P
    let r ← fwLoop P P.maxIter 0 (fwInit P act)
    fwFinish P r

/-- `L1Ball(alpha).lmo_pairwise` (constraint.py:130-169) as the `lmo` argument: the vectors are converted to and from
the Euclidean space the solver runs in.  Without an active set (`None`) `active_set.items()` is an AttributeError. -/
noncomputable def l1PairwiseLmo {n : ℕ} (alpha : ℝ) (_it : ℕ) (u x : EuclideanSpace ℝ (Fin n))
    (act : Option (ActiveSet (L1Rep ℝ n) ℝ)) : Except PyErr (LmoOut (EuclideanSpace ℝ (Fin n)) (L1Rep ℝ n) ℝ) :=
  match act with
  | none => .error .attributeError
  | some a => (L1Ball.lmoPairwise alpha (WithLp.ofLp u) (WithLp.ofLp x) a).map fun o =>
      ⟨WithLp.toLp 2 o.dir, o.fwRep, o.awayRep, o.maxStep⟩

end Copt
