import Verif.Model.SFW
import Verif.Model.LmoObjects

/-! # `minimize_sfw` with an oracle that may raise

`Model/SFW` with the calls `lmo(-grad, x, active_set)` of randomized.py:898, 911 and 917 in the exception monad, so that the parameter lists and the
exceptions of the oracles of constraint.py can be passed through.  The field `lmo` of the arguments is not used here. -/

namespace Copt

section
variable {K : Type} [Field K] [LinearOrder K] {n p : ℕ} {V : Type}

/-- An oracle as it is called by `minimize_sfw`. -/
abbrev SfwOracle (K : Type) (p : ℕ) (V : Type) :=
  (Fin p → K) → (Fin p → K) → Option (ActiveSet V K) → Except PyErr (LmoOut (Fin p → K) V K)

/-- `sfwDual`, randomized.py:887-903; for LF the oracle is called (line 898) before `step_size_agg` is read (line 900). -/
def sfwDualE (lmo : SfwOracle K p V) (P : SfwArgs K n p V) (v : SfwVariant) (stepAgg : Option K) (st : SfwState K n p V) (batch : List (Fin n)) :
    Except PyErr ((Fin n → K) × (Fin n → K)) :=
  match v with
  | .SAG | .SAGA => .ok (assignAt st.dual batch fun i => 1 / (n : K) * P.deriv (sfwDot P st.x i) (P.b i), st.sigma)
  | .MHK =>
    match stepAgg with
    | some g => .ok (assignAt st.dual batch fun i => st.dual i + g * (P.deriv (sfwDot P st.x i) (P.b i) - st.dual i), st.sigma)
    | none => .error .unboundLocalError
  | .LF => do
    let o ← lmo (fun c => -st.gradAgg c) st.x st.active
    match stepAgg with
    | some g =>
      let extr : Fin p → K := fun c => o.dir c + st.x c
      let sigma := assignAt st.sigma batch fun i => st.sigma i + g * (sfwDot P extr i - st.sigma i)
      .ok (assignAt st.dual batch fun i => 1 / (n : K) * P.deriv (sigma i) (P.b i), sigma)
    | none => .error .unboundLocalError

/-- `sfwStep`, randomized.py:884-927. -/
def sfwStepE [DecidableEq V] (lmo : SfwOracle K p V) (P : SfwArgs K n p V) (v : SfwVariant) (step : ℕ) (st : SfwState K n p V) (batch : List (Fin n)) :
    Except PyErr (Option (SfwState K n p V)) :=
  if P.stepSize = .other then .error .unboundLocalError
  else do
    let s : Option (K × Option K) := if P.stepSize = .DR then none else some (stepSizeSfw P.cbrtSq v step n P.batchSize)
    let d ← sfwDualE lmo P v (s.bind Prod.snd) st batch
    let gradAgg : Fin p → K := fun c => st.gradAgg c + sfwDelta P batch st.dual d.1 c
    let o ← lmo (fun c => -sfwEstimate P v st batch d.1 c) st.x st.active
    let gamma : Option K := match s with
      | some s => some s.1
      | none => stepSizeDR (∑ c, -gradAgg c * o.dir c) (P.lipschitz.getD 0) o.maxStep o.dir
    match gamma with
    | none => return none
    | some g => do
      let active ← fwUpdateActive st.active o g
      return some { x := fun c => st.x c + g * o.dir c, dual := d.1, gradAgg := gradAgg, sigma := d.2, active := active }

/-- `sfwInner`, randomized.py:881-936. -/
def sfwInnerE [DecidableEq V] (lmo : SfwOracle K p V) (P : SfwArgs K n p V) (v : SfwVariant) :
    List (List (Fin n)) → SfwRun K n p V → Except PyErr (SfwRun K n p V)
  | [], r => .ok r
  | batch :: rest, r =>
    match r.st with
    | none => sfwInnerE lmo P v rest { r with step := r.step + 1 }
    | some st => do
      match ← sfwStepE lmo P v r.step st batch with
      | none => sfwInnerE lmo P v rest { r with st := none, step := r.step + 1 }
      | some st' =>
        if ∑ c, |st'.x c - st.x c| < P.tol then .ok { st := some st', step := r.step, success := true }
        else sfwInnerE lmo P v rest { st := some st', step := r.step + 1, success := r.success }

/-- `sfwLoop`, randomized.py:872-936. -/
def sfwLoopE [DecidableEq V] (lmo : SfwOracle K p V) (P : SfwArgs K n p V) (v : SfwVariant) : ℕ → ℕ → SfwRun K n p V → Except PyErr (SfwRun K n p V)
  | 0, _, r => .ok r
  | rem + 1, it, r => do
    let r ← sfwInnerE lmo P v (sfwBatches n P.batchSize (P.order it)) r
    sfwLoopE lmo P v rem (it + 1) r

/-- `minimize_sfw(..., lmo=lmo)`, randomized.py:824-939. -/
def minimizeSfwE [DecidableEq V] (lmo : SfwOracle K p V) (P : SfwArgs K n p V) : Except PyErr (SfwResult K n p V) :=
  match parseVariant P.variant with
  | none => .error .valueError
  | some v =>
    if ¬(P.lmoVariant = "vanilla" ∨ P.lmoVariant = "pairwise") then .error .valueError
    else if P.stepSize = .DR ∧ P.lipschitz = none then .error .valueError
    else match P.maxIter with
      | 0 => .error .unboundLocalError
      | k + 1 =>
        if P.batchSize = 0 then .error .zeroDivisionError
        else do
          let r ← sfwLoopE lmo P v (k + 1) 0 { st := some (sfwInit P), step := 0, success := false }
          return { x := r.st.map SfwState.x, success := r.success, nit := k, final := r }

end

/-- A method of constraint.py as the `lmo` argument of `minimize_sfw`: the call `lmo(-grad, x, active_set)`, randomized.py:898, 911, 917. -/
noncomputable def LmoMethod.sfwArg {p : ℕ} (m : LmoMethod) : SfwOracle ℝ p (VRep p) := fun u x a =>
  (m.method.call [.vec (WithLp.toLp 2 u), .vec (WithLp.toLp 2 x), .act a]).map fun o => ⟨WithLp.ofLp o.dir, o.fwRep, o.awayRep, o.maxStep⟩

end Copt
