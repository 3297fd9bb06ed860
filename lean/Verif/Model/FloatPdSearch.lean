import Verif.Model.FloatPrimalDual

/-!
# Model of the primal-dual method with its line search in any arithmetic

`minimize_primal_dual` with `line_search=True` (the default) and no callback, for numbers of any kind: `FlOps` collects the operations.  `flReal rd` are reals where every operation is followed by the
rounding `rd`; `ieee rd Om` has infinities and nan as well.  The unbounded `while True` loop of lines 298-314 runs with fuel: `none` means that a line search has not ended after that many trials.
-/

namespace Copt

open Spec

variable {α : Type} {d p : ℕ}

/-- The operations of floating point numbers; `lit r` is the literal `r`. -/
structure FlOps (α : Type) where
  add : α → α → α
  sub : α → α → α
  mul : α → α → α
  div : α → α → α
  sqrt : α → α
  le : α → α → Prop
  lt : α → α → Prop
  lit : ℝ → α

/-- Rounded real arithmetic; a division by zero does not occur in the theorems. -/
noncomputable def flReal (rd : ℝ → ℝ) : FlOps ℝ :=
  ⟨fun a b => rd (a + b), fun a b => rd (a - b), fun a b => rd (a * b), fun a b => rd (a / b), fun a => rd (Real.sqrt a), fun a b => a ≤ b, fun a b => a < b, rd⟩

/-- IEEE numbers: a real, an infinity (negative or not), not a number.  Zero has no sign. -/
inductive Ieee where
  | fin (r : ℝ)
  | inf (neg : Bool)
  | nan

namespace Ieee

open Classical in
/-- The result of an operation whose exact value is `x`: numbers above `Om` are infinite. -/
noncomputable def round (rd : ℝ → ℝ) (Om x : ℝ) : Ieee := if |rd x| ≤ Om then fin (rd x) else inf (decide (x < 0))

def neg : Ieee → Ieee
  | fin a => fin (-a)
  | inf s => inf (!s)
  | nan => nan

noncomputable def add (rd : ℝ → ℝ) (Om : ℝ) : Ieee → Ieee → Ieee
  | fin a, fin b => round rd Om (a + b)
  | fin _, inf s => inf s
  | inf s, fin _ => inf s
  | inf s, inf t => if s = t then inf s else nan
  | _, _ => nan

open Classical in
noncomputable def mul (rd : ℝ → ℝ) (Om : ℝ) : Ieee → Ieee → Ieee
  | fin a, fin b => round rd Om (a * b)
  | fin a, inf s => if a = 0 then nan else inf (Bool.xor s (decide (a < 0)))
  | inf s, fin b => if b = 0 then nan else inf (Bool.xor s (decide (b < 0)))
  | inf s, inf t => inf (Bool.xor s t)
  | _, _ => nan

open Classical in
noncomputable def div (rd : ℝ → ℝ) (Om : ℝ) : Ieee → Ieee → Ieee
  | fin a, fin b => if b = 0 then (if a = 0 then nan else inf (decide (a < 0))) else round rd Om (a / b)
  | fin _, inf _ => fin 0
  | inf s, fin b => inf (Bool.xor s (decide (b < 0)))
  | inf _, inf _ => nan
  | _, _ => nan

open Classical in
noncomputable def sqrt (rd : ℝ → ℝ) (Om : ℝ) : Ieee → Ieee
  | fin a => if a < 0 then nan else round rd Om (Real.sqrt a)
  | inf s => if s then nan else inf false
  | nan => nan

/-- Comparisons with nan are false. -/
def le : Ieee → Ieee → Prop
  | fin a, fin b => a ≤ b
  | fin _, inf t => t = false
  | inf s, fin _ => s = true
  | inf s, inf t => s = true ∨ t = false
  | _, _ => False

def lt : Ieee → Ieee → Prop
  | fin a, fin b => a < b
  | fin _, inf t => t = false
  | inf s, fin _ => s = true
  | inf s, inf t => s = true ∧ t = false
  | _, _ => False

end Ieee

/-- IEEE arithmetic with rounding `rd` and largest number `Om`. -/
noncomputable def ieee (rd : ℝ → ℝ) (Om : ℝ) : FlOps Ieee :=
  ⟨Ieee.add rd Om, fun a b => Ieee.add rd Om a b.neg, Ieee.mul rd Om, Ieee.div rd Om, Ieee.sqrt rd Om, Ieee.le, Ieee.lt, fun r => Ieee.round rd Om r⟩

/-- `r` is a possible result of summing the non-empty list `l`, in any order and with any bracketing. -/
inductive OpsSum (O : FlOps α) : List α → α → Prop
  | single (x : α) : OpsSum O [x] x
  | add {l l' : List α} {a b : α} : OpsSum O l a → OpsSum O l' b → OpsSum O (l ++ l') (O.add a b)
  | perm {l l' : List α} {a : α} : l.Perm l' → OpsSum O l a → OpsSum O l' a

/-- `np.linalg.norm(v)`: the root of a sum of squares. -/
def OpsNorm (O : FlOps α) {m : ℕ} (v : Fin m → α) (s : α) : Prop := ∃ q, OpsSum O (List.ofFn fun i => O.mul (v i) (v i)) q ∧ s = O.sqrt q

/-- The product of a matrix with a vector, all entries of the matrix being stored. -/
def OpsMatvec (O : FlOps α) {m k : ℕ} (A : Fin k → Fin m → α) (v : Fin m → α) (r : Fin k → α) : Prop := ∀ i, OpsSum O (List.ofFn fun j => O.mul (A i j) (v j)) (r i)

/-- Arguments of `minimize_primal_dual`.  The first number passed to the functions is the iteration, the second one the trial of the line search: results need not be reproducible.  `matvec` is the
product of lines 259 and 295, `matvecT` that of line 303 (called twice), `norm` the norm of line 303, `dot` the dot product of line 309, `start` the call of `f_grad` on line 290. -/
structure PdsArgs (α : Type) (d p : ℕ) where
  start : (Fin d → α) → α × (Fin d → α)
  fg : ℕ → ℕ → (Fin d → α) → α × (Fin d → α)
  prox1 : ℕ → ℕ → (Fin d → α) → α → Except PyErr (Fin d → α)
  prox2 : ℕ → (Fin p → α) → α → Except PyErr (Fin p → α)
  matvec : ℕ → (Fin d → α) → Fin p → α
  matvecT : ℕ → ℕ → (Fin d → α) → Fin p → α
  rmatvec : ℕ → ℕ → (Fin p → α) → Fin d → α
  norm : ℕ → ℕ → (Fin p → α) → α
  dot : ℕ → ℕ → (Fin d → α) → (Fin d → α) → α
  normX : ℕ → (Fin d → α) → α
  normY : ℕ → (Fin p → α) → α
  stepSize : α
  stepSize2 : Option α
  x0 : Fin d → α
  tol : α
  maxIter : ℕ
  lsIter : ℤ

/-- Local variables between iterations; `none` for `norm_incr = np.inf`. -/
structure PdsState (α : Type) (d p : ℕ) where
  x : Fin d → α
  y : Fin p → α
  fk : α
  grad : Fin d → α
  theta : α
  tau : α
  sigma : α
  normIncr : Option α

/-- `OptimizeResult`, splitting.py:341-343. -/
structure PdsResult (α : Type) (d : ℕ) where
  x : Fin d → α
  success : Bool
  nit : ℕ
  certificate : Option α
  stepSize : α

/-- What the line search leaves behind. -/
structure PdsOut (α : Type) (d : ℕ) where
  xNext : Fin d → α
  fNext : α
  gradNext : Fin d → α
  theta : α
  tau : α
  sigma : α

/-- `tau`, splitting.py:282-288. -/
noncomputable def pdsTau0 (O : FlOps α) (P : PdsArgs α d p) : α :=
  match P.stepSize2 with
  | none => O.mul (O.lit (1 / 2)) P.stepSize
  | some t => t

/-- `ss_ratio`, splitting.py:282-288. -/
noncomputable def pdsRatio (O : FlOps α) (P : PdsArgs α d p) : α :=
  match P.stepSize2 with
  | none => O.lit (1 / 2)
  | some t => O.div t P.stepSize

/-- `x - sigma * (L.rmatvec(y_bar) + grad_fk)`, splitting.py:301-302; `my` is the product. -/
def pdsArg (O : FlOps α) (sigma : α) (x my grad : Fin d → α) : Fin d → α := fun j => O.sub (x j) (O.mul sigma (O.add (my j) (grad j)))

/-- `y_next + theta * (y_next - y)`, splitting.py:301. -/
def pdsBar (O : FlOps α) (theta : α) (yNext y : Fin p → α) : Fin p → α := fun a => O.add (yNext a) (O.mul theta (O.sub (yNext a) (y a)))

/-- `tmp / delta <= (incr_x ** 2)`, splitting.py:308-310; `slack` is `f_next - fk - grad_fk.dot(x_next - x)`. -/
noncomputable def pdsTest (O : FlOps α) (sigma tauNext incr slack : α) : Prop :=
  O.le (O.div (O.add (O.mul (O.mul sigma tauNext) (O.mul incr incr)) (O.mul (O.mul (O.lit 2) sigma) slack)) (O.lit (1 / 2))) (O.mul incr incr)

open Classical in
/-- The `while True` loop, splitting.py:298-314, for at most `fuel` trials; `i` is the number of the next one.  `max_iter_ls` plays no role. -/
noncomputable def pdsTrials (O : FlOps α) (P : PdsArgs α d p) (k : ℕ) (st : PdsState α d p) (yNext : Fin p → α) : ℕ → ℕ → α → Option (Except PyErr (PdsOut α d))
  | 0, _, _ => none
  | fuel + 1, i, tauNext =>
    let theta := O.div tauNext st.tau                                                                                                   -- line 299
    let sigma := O.mul (pdsRatio O P) tauNext                                                                                           -- line 300
    match P.prox1 k i (pdsArg O sigma st.x (P.rmatvec k i (pdsBar O theta yNext st.y)) st.grad) sigma with                              -- lines 301-302
    | .error e => some (.error e)
    | .ok xNext =>
      let incr := P.norm k i (fun a => O.sub (P.matvecT k i xNext a) (P.matvecT k i st.x a))                                            -- line 303
      let next := P.fg k i xNext                                                                                                        -- line 304
      if O.le incr (O.lit (1 / 10 ^ 10)) then some (.ok ⟨xNext, next.1, next.2, theta, st.tau, sigma⟩)                                   -- lines 305-306
      else if pdsTest O sigma tauNext incr (O.sub (O.sub next.1 st.fk) (P.dot k i st.grad (fun j => O.sub (xNext j) (st.x j)))) then
        some (.ok ⟨xNext, next.1, next.2, theta, tauNext, sigma⟩)                                                                        -- lines 308-312
      else pdsTrials O P k st yNext fuel (i + 1) (O.mul tauNext (O.lit (9 / 10)))                                                        -- line 314

/-- `y + tau * L.matvec(x)`, splitting.py:295. -/
def pdsPoint (O : FlOps α) (P : PdsArgs α d p) (k : ℕ) (st : PdsState α d p) : Fin p → α := fun a => O.add (st.y a) (O.mul st.tau (P.matvec (k + 1) st.x a))

/-- `tau * (1 + np.sqrt(1 + theta)) / 2`, splitting.py:297. -/
noncomputable def pdsFirst (O : FlOps α) (st : PdsState α d p) : α := O.div (O.mul st.tau (O.add (O.lit 1) (O.sqrt (O.add (O.lit 1) st.theta)))) (O.lit 2)

/-- One iteration, splitting.py:295-325. -/
noncomputable def pdsNext (O : FlOps α) (P : PdsArgs α d p) (fuel k : ℕ) (st : PdsState α d p) : Option (Except PyErr (PdsState α d p)) :=
  let v := pdsPoint O P k st
  match P.prox2 k (fun a => O.div (v a) st.tau) (O.div (O.lit 1) st.tau) with                                                            -- line 277
  | .error e => some (.error e)
  | .ok q =>
    let yNext : Fin p → α := fun a => O.sub (v a) (O.mul st.tau (q a))                                                                  -- lines 277, 295
    match pdsTrials O P k st yNext fuel 0 (pdsFirst O st) with
    | none => none
    | some (.error e) => some (.error e)
    | some (.ok r) =>
      let cert := if k % 100 = 0 then some (O.add (P.normX k (fun j => O.sub (r.xNext j) (st.x j))) (P.normY k (fun a => O.sub (yNext a) (st.y a)))) else st.normIncr  -- lines 320-321
      some (.ok ⟨r.xNext, yNext, r.fNext, r.gradNext, r.theta, r.tau, r.sigma, cert⟩)                                                    -- lines 323-325

open Classical in
/-- The loop, splitting.py:294-329; `m` is `max_iter - 1 - it`. -/
noncomputable def pdsLoop (O : FlOps α) (P : PdsArgs α d p) (fuel : ℕ) : ℕ → ℕ → PdsState α d p → Option (Except PyErr (PdsResult α d))
  | m, it, st =>
    match pdsNext O P fuel it st with
    | none => none
    | some (.error e) => some (.error e)
    | some (.ok st') =>
      if ∃ c, st'.normIncr = some c ∧ O.lt c P.tol then some (.ok ⟨st'.x, true, it, st'.normIncr, st'.sigma⟩)                             -- lines 327-329
      else match m with
        | 0 => some (.ok ⟨st'.x, false, it, st'.normIncr, st'.sigma⟩)
        | m + 1 => pdsLoop O P fuel m (it + 1) st'

/-- splitting.py:252-292. -/
noncomputable def pdsInit (O : FlOps α) (P : PdsArgs α d p) : PdsState α d p :=
  ⟨P.x0, P.matvec 0 P.x0, (P.start P.x0).1, (P.start P.x0).2, O.lit 1, pdsTau0 O P, P.stepSize, none⟩

/-- `minimize_primal_dual`, splitting.py:174-343 (`line_search=True`, no callback, `x0` an array of floats): `none` when some line search has not ended after `fuel` trials.  With `max_iter=0`
line 335 reads the unassigned `it`. -/
noncomputable def pdsRun (O : FlOps α) (P : PdsArgs α d p) (fuel : ℕ) : Option (Except PyErr (PdsResult α d)) :=
  if P.lsIter ≤ 0 then some (.error .valueError)                                                                                        -- lines 262-263
  else match P.maxIter with
    | 0 => some (.error .unboundLocalError)
    | m + 1 => pdsLoop O P fuel m 0 (pdsInit O P)

end Copt
