import Verif.Model.Randomized
import Verif.Model.Splitting

/-! # The type of the iterate

`minimize_saga`, `minimize_svrg`, `minimize_vrtos` (randomized.py:133, 308, 498) and `minimize_primal_dual` (splitting.py:252) take over the type of the array
`x0`: every assignment to an entry of `x` converts the number to that type.  `store` is the conversion: `some` for a floating point array,
truncation for an integer array.  It may also fail, which serves to single out the runs in which no conversion loses anything. -/

namespace Copt

variable {K : Type} [Field K] {n p : ℕ}

/-- `x[b_j] -= step_size * (grad_tmp[b_j] + bias_term)` with the conversion, randomized.py:192-193, 385-386. -/
def stepBodyS {D : ℕ} (store : K → Option K) (d : Fin D → K) (avg tmp : Fin p → K) (alpha step : K) (h : ℕ) (x : Fin p → K) (j : ℕ) :
    Option (Fin p → K) := do
  let dh ← rd d h
  let a ← rd avg j
  let v ← rd x j
  let t ← rd tmp j
  let w ← store (v - step * (t + dh * (a + alpha * v)))
  wr x j w

/-- The conversion of every entry.  The penalties' routines write into `x`, hence the conversion of what they write; the conversion is
applied when they are done, in the code at each of their assignments. -/
def storeAll (store : K → Option K) (x : Fin p → K) : Option (Fin p → K) :=
  if h : ∀ j, (store (x j)).isSome then some fun j => (store (x j)).get (h j) else none

/-- `sagaStep` with the conversion, randomized.py:174-203. -/
def sagaStepS (store : K → Option K) (P : VRArgs K n p) (S : Support n P.blocks.nb) (step : K) (st : SagaState K n p) (i : ℕ) :
    Option (SagaState K n p) := do
  let row ← P.A.row i
  let dot ← rowDot st.x row
  let bi ← rd P.b i
  let gi := P.deriv dot bi
  let mi ← rd st.mem i
  let tmp ← rowScatter (gi - mi) row st.tmp
  let hs ← S.row i
  let x ← forBlocks P.blocks (stepBodyS store (supWeights n S.bs) st.avg tmp P.alpha step) hs st.x
  let x ← P.prox _ (supWeights n S.bs) step hs x
  let x ← storeAll store x
  let at' ← rowMemory n (gi - mi) row (st.avg, tmp)
  let mem ← wr st.mem i gi
  return { x, mem, avg := at'.1, tmp := at'.2 }

/-- `svrgStep` with the conversion, randomized.py:365-387. -/
def svrgStepS (store : K → Option K) (P : VRArgs K n p) (S : Support n P.blocks.nb) (step : K) (snap avg : Fin p → K) (st : SvrgState K p)
    (i : ℕ) : Option (SvrgState K p) := do
  let row ← P.A.row i
  let dot ← rowDot st.x row
  let dotOld ← rowDot snap row
  let bi ← rd P.b i
  let tmp ← rowScatter (P.deriv dot bi - P.deriv dotOld bi) row st.tmp
  let hs ← S.row i
  let x ← forBlocks P.blocks (stepBodyS store (supWeights n S.bs) avg tmp P.alpha step) hs st.x
  let x ← P.prox _ (supWeights n S.bs) step hs x
  let x ← storeAll store x
  return { x, tmp }

variable [LinearOrder K]

/-- `sagaLoop` with the conversion, randomized.py:213-223. -/
def sagaLoopS (store : K → Option K) (P : VRArgs K n p) (S : Support n P.blocks.nb) (step : K) :
    ℕ → ℕ → SagaState K n p → Option (VRResult K p (SagaState K n p))
  | rem, it, st => do
    let st' ← (P.order it).foldlM (sagaStepS store P S step) st
    if ∑ c, |st'.x c - st.x c| < P.tol then return ⟨st'.x, true, it, st'⟩
    else match rem with
      | 0 => return ⟨st'.x, false, it, st'⟩
      | rem + 1 => sagaLoopS store P S step rem (it + 1) st'

/-- `svrgLoop` with the conversion, randomized.py:394-404. -/
def svrgLoopS (store : K → Option K) (P : VRArgs K n p) (S : Support n P.blocks.nb) (step : K) :
    ℕ → ℕ → SvrgState K p → Option (VRResult K p (SvrgState K p))
  | rem, it, st => do
    let avg ← fullGrad P st.x
    let st' ← (P.order it).foldlM (svrgStepS store P S step st.x avg) st
    if ∑ c, |st'.x c - st.x c| < P.tol then return ⟨st'.x, true, it, st'⟩
    else match rem with
      | 0 => return ⟨st'.x, false, it, st'⟩
      | rem + 1 => svrgLoopS store P S step rem (it + 1) st'

/-- `minimize_saga` with an `x0` whose type converts by `store`, randomized.py:133-224. -/
def minimizeSagaS (store : K → Option K) (P : VRArgs K n p) : Except PyErr (VRResult K p (SagaState K n p)) :=
  match P.stepSize with
  | none => .error .valueError
  | some step => do
    let S ← orFault P.support
    if S.bs = [] then .error .valueError
    else match P.maxIter with
      | 0 => .error .unboundLocalError
      | k + 1 => orFault (sagaLoopS store P S step k 0 (sagaInit P))

/-- `minimize_svrg` with an `x0` whose type converts by `store`, randomized.py:308-406. -/
def minimizeSvrgS (store : K → Option K) (P : VRArgs K n p) : Except PyErr (VRResult K p (SvrgState K p)) :=
  match P.stepSize with
  | none => .error .valueError
  | some step => do
    let S ← orFault P.support
    if S.bs = [] then .error .valueError
    else match P.maxIter with
      | 0 => .error .unboundLocalError
      | k + 1 => orFault (svrgLoopS store P S step k 0 { x := P.x0, tmp := fun _ => 0 })

section Vrtos

/-- The update of `x1` with the conversion, randomized.py:633-638 and 653-658. -/
def vrtosBodyS {D : ℕ} (store : K → Option K) (d : Fin D → K) (avg tmp z y : Fin p → K) (alpha step : K) (h : ℕ) (x : Fin p → K) (j : ℕ) :
    Option (Fin p → K) := do
  let dh ← rd d h
  let a ← rd avg j
  let zj ← rd z j
  let yj ← rd y j
  let t ← rd tmp j
  let w ← store (2 * zj - yj - step * (1 / 2) * (t + dh * (a + alpha * zj)))
  wr x j w

/-- The update of `z` with the conversion, randomized.py:674-676 and 683-685. -/
def vrtosZS {D1 D2 l1 l2 : ℕ} (store : K → Option K) (d1 : Fin D1 → K) (d2 : Fin D2 → K) (r1 : Fin l1 → ℕ) (r2 : Fin l2 → ℕ)
    (y1 y2 : Fin p → K) (_h : ℕ) (z : Fin p → K) (j : ℕ) : Option (Fin p → K) := do
  let h1 ← rd r1 j
  let a ← rd d1 h1
  let h2 ← rd r2 j
  let b ← rd d2 h2
  let u ← rd y1 j
  let v ← rd y2 j
  let w ← store ((1 / a * u + 1 / b * v) / (1 / a + 1 / b))
  wr z j w

/-- `vrtosStep` with the conversion, randomized.py:615-693.  `x1` is the caller's `x0`, `x2` and `z` are copies of it (randomized.py:498, 525), so
that all three have its type; `Y` is `np.zeros`, a floating point array. -/
def vrtosStepS (store : K → Option K) (P : VrtosArgs K n p) (S1 : Support n P.blocks1.nb) (S2 : Support n P.blocks2.nb) (st : VrtosState K n p)
    (i : ℕ) : Option (VrtosState K n p) := do
  let row ← P.A.row i
  let dot ← rowDot st.z row
  let bi ← rd P.b i
  let gi := P.deriv dot bi
  let mi ← rd st.mem i
  let tmp ← rowScatter (gi - mi) row st.tmp
  let hs1 ← S1.row i
  let hs2 ← S2.row i
  let x1 ← forBlocks P.blocks1 (vrtosBodyS store (supWeights n S1.bs) st.avg tmp st.z st.y1 P.alpha P.stepSize) hs1 st.x1
  let x1 ← P.prox1 _ (supWeights n S1.bs) P.stepSize hs1 x1
  let x1 ← storeAll store x1
  let y1 ← forBlocks P.blocks1 (vrtosY x1 st.z) hs1 st.y1
  let x2 ← forBlocks P.blocks2 (vrtosBodyS store (supWeights n S2.bs) st.avg tmp st.z st.y2 P.alpha P.stepSize) hs2 st.x2
  let x2 ← P.prox2 _ (supWeights n S2.bs) P.stepSize hs2 x2
  let x2 ← storeAll store x2
  let y2 ← forBlocks P.blocks2 (vrtosY x2 st.z) hs2 st.y2
  let z ← forBlocks P.blocks1 (vrtosZS store (supWeights n S1.bs) (supWeights n S2.bs) P.rb1 P.rb2 y1 y2) hs1 st.z
  let z ← forBlocks P.blocks2 (vrtosZS store (supWeights n S1.bs) (supWeights n S2.bs) P.rb1 P.rb2 y1 y2) hs2 z
  let at' ← rowMemory n (gi - mi) row (st.avg, tmp)
  let mem ← wr st.mem i gi
  return { y1, y2, x1, x2, z, mem, avg := at'.1, tmp := at'.2 }

/-- `vrtosLoop` with the conversion, randomized.py:544-559. -/
def vrtosLoopS (store : K → Option K) (P : VrtosArgs K n p) (S1 : Support n P.blocks1.nb) (S2 : Support n P.blocks2.nb) :
    ℕ → ℕ → VrtosState K n p → Option (VrtosState K n p)
  | 0, _, st => some st
  | k + 1, it, st => do
    let st ← (P.order it).foldlM (vrtosStepS store P S1 S2) st
    vrtosLoopS store P S1 S2 k (it + 1) st

/-- `minimize_vrtos` with an `x0` whose type converts by `store`, randomized.py:481-563. -/
def minimizeVrtosS (store : K → Option K) (P : VrtosArgs K n p) : Except PyErr (VrtosResult K n p) :=
  if n ≠ P.bSize then .error .assertionError
  else if P.stepSize < 0 then .error .valueError
  else do
    let S1 ← orFault (supportMatrix P.A.indices P.A.indptr P.rb1 P.blocks1.nb)
    let S2 ← orFault (supportMatrix P.A.indices P.A.indptr P.rb2 P.blocks2.nb)
    if S1.bs = [] ∨ S2.bs = [] then .error .valueError
    else do
      let st ← orFault ([0].foldlM (vrtosStepS store P S1 S2) (vrtosInit P))
      match P.maxIter with
      | 0 => .error .unboundLocalError
      | k + 1 => do
        let st ← orFault (vrtosLoopS store P S1 S2 (k + 1) 0 st)
        return { x := st.z, success := false, nit := k, callerX0 := st.x1, final := st }

end Vrtos

section PrimalDual

variable {E F : Type} [NormedAddCommGroup E] [InnerProductSpace ℝ E] [NormedAddCommGroup F] [InnerProductSpace ℝ F]

open Classical in
/-- `pdLoop` with the conversion in `x[:] = x_next[:]`, splitting.py:294-333; the gradient kept for the next iteration is the one at
`x_next` (line 325).  `y` comes out of `L.matvec` and is taken to be of floating point type. -/
noncomputable def pdLoopS (store : E → Option E) (P : PDArgs E F) : ℕ → ℕ → PDState E F → Option (PDState E F × ℕ × TSWhy)
  | rem, it, st =>
    match (pdNext P it st).bind fun s => (store s.x).map fun x => { s with x := x } with
    | none => none
    | some st' =>
      if pdDone P st' then some (st', it, .success)
      else if pdCallback P it st' then some (st', it, .callback)
      else match rem with
        | 0 => some (st', it, .exhausted)
        | rem + 1 => pdLoopS store P rem (it + 1) st'

/-- `minimize_primal_dual` with an `x0` whose type converts by `store`, splitting.py:252-343. -/
noncomputable def minimizePrimalDualS (store : E → Option E) (P : PDArgs E F) : Option (Except PyErr (PDResult E F)) :=
  if P.lsIter ≤ 0 then some (.error .valueError)
  else
    match P.maxIter with
    | 0 => some (.error .unboundLocalError)
    | m + 1 =>
      (pdLoopS store P m 0 (pdInit P)).map fun r =>
        .ok { x := r.1.x, success := r.2.2 = .success, nit := r.2.1, certificate := r.1.normIncr, stepSize := r.1.sigma,
              warned := decide (m + 1 ≤ r.2.1), why := r.2.2, final := r.1 }

end PrimalDual

end Copt
