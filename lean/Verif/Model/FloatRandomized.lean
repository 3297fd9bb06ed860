import Verif.Model.VRObjects
import Verif.Model.FloatProxGrad

/-!
# Model of SAGA and SVRG with rounded arithmetic

As `Verif/Model/Randomized.lean`; every operation on numbers is followed by the rounding `fl`.  `P.deriv` and `P.prox` are the computed ones; `sum k v` is the computed value of `v.sum()` in
epoch `k`.  Overflow and nan are not modelled; the compiled loops do not use fused operations (no `fastmath`).
-/

namespace Copt

open Spec

variable {n p : ℕ}

/-- `n_samples / d[idx]`, randomized.py:166-169 (341-344); see `supWeights`. -/
noncomputable def flSupWeights (fl : ℝ → ℝ) (n : ℕ) (bs : List ℕ) : Fin (supWidth bs) → ℝ := fun h => fl (supWeights n bs h)

/-- `p += x[j_idx] * A_data[j]` over a row, randomized.py:177-180, 352-354, 371-372. -/
def flRowDot (fl : ℝ → ℝ) (x : Fin p → ℝ) (row : List (ℕ × ℝ)) : Option ℝ :=
  row.foldlM (fun acc e => do
    let v ← rd x e.1
    return fl (acc + fl (v * e.2))) 0

/-- `grad_tmp[j_idx] = g * A_data[j]` over a row, randomized.py:182-184, 376-378; `g` is the rounded difference. -/
def flRowScatter (fl : ℝ → ℝ) (g : ℝ) (row : List (ℕ × ℝ)) (tmp : Fin p → ℝ) : Option (Fin p → ℝ) :=
  row.foldlM (fun tmp e => wr tmp e.1 (fl (g * e.2))) tmp

/-- The coefficient update, randomized.py:192-193 and 385-386. -/
def flStepBody (fl : ℝ → ℝ) {D : ℕ} (d : Fin D → ℝ) (avg tmp : Fin p → ℝ) (alpha step : ℝ) (h : ℕ) (x : Fin p → ℝ) (j : ℕ) : Option (Fin p → ℝ) := do
  let dh ← rd d h
  let a ← rd avg j
  let v ← rd x j
  let t ← rd tmp j
  wr x j (fl (v - fl (step * fl (t + fl (dh * fl (a + fl (alpha * v)))))))

/-- The memory update, randomized.py:197-202. -/
noncomputable def flRowMemory (fl : ℝ → ℝ) (n : ℕ) (g : ℝ) (row : List (ℕ × ℝ)) (s : (Fin p → ℝ) × (Fin p → ℝ)) : Option ((Fin p → ℝ) × (Fin p → ℝ)) :=
  row.foldlM (fun s e => do
    let a ← rd s.1 e.1
    let avg ← wr s.1 e.1 (fl (a + fl (fl (g * e.2) / (n : ℝ))))
    let tmp ← wr s.2 e.1 0
    return (avg, tmp)) s

/-! ### SAGA -/

/-- One inner iteration of `_saga_epoch`, randomized.py:174-203. -/
noncomputable def flSagaStep (fl : ℝ → ℝ) (P : VRArgs ℝ n p) (S : Support n P.blocks.nb) (step : ℝ) (st : SagaState ℝ n p) (i : ℕ) : Option (SagaState ℝ n p) := do
  let row ← P.A.row i
  let dot ← flRowDot fl st.x row
  let bi ← rd P.b i
  let gi := P.deriv dot bi
  let mi ← rd st.mem i
  let tmp ← flRowScatter fl (fl (gi - mi)) row st.tmp
  let hs ← S.row i
  let x ← forBlocks P.blocks (flStepBody fl (flSupWeights fl n S.bs) st.avg tmp P.alpha step) hs st.x
  let x ← P.prox _ (flSupWeights fl n S.bs) step hs x
  let at' ← flRowMemory fl n (fl (gi - mi)) row (st.avg, tmp)
  let mem ← wr st.mem i gi
  return { x, mem, avg := at'.1, tmp := at'.2 }

/-- `_saga_epoch`, randomized.py:172-203. -/
noncomputable def flSagaEpoch (fl : ℝ → ℝ) (P : VRArgs ℝ n p) (S : Support n P.blocks.nb) (step : ℝ) (st : SagaState ℝ n p) (idx : List ℕ) : Option (SagaState ℝ n p) :=
  idx.foldlM (flSagaStep fl P S step) st

open Classical in
/-- The loop over epochs, randomized.py:213-223, with `rem + 1` epochs left. -/
noncomputable def flSagaLoop (fl : ℝ → ℝ) (sum : ℕ → (Fin p → ℝ) → ℝ) (P : VRArgs ℝ n p) (S : Support n P.blocks.nb) (step : ℝ) :
    ℕ → ℕ → SagaState ℝ n p → Option (VRResult ℝ p (SagaState ℝ n p))
  | rem, it, st => do
    let st' ← flSagaEpoch fl P S step st (P.order it)
    if sum it (fun c => |fl (st'.x c - st.x c)|) < P.tol then return ⟨st'.x, true, it, st'⟩
    else match rem with
      | 0 => return ⟨st'.x, false, it, st'⟩
      | rem + 1 => flSagaLoop fl sum P S step rem (it + 1) st'

/-- `minimize_saga`, randomized.py:133-224. -/
noncomputable def flMinimizeSaga (fl : ℝ → ℝ) (sum : ℕ → (Fin p → ℝ) → ℝ) (P : VRArgs ℝ n p) : Except PyErr (VRResult ℝ p (SagaState ℝ n p)) :=
  match P.stepSize with
  | none => .error .valueError
  | some step => do
    let S ← orFault P.support
    if S.bs = [] then .error .valueError
    else match P.maxIter with
      | 0 => .error .unboundLocalError
      | k + 1 => orFault (flSagaLoop fl sum P S step k 0 (sagaInit P))

/-! ### SVRG -/

/-- `full_grad`, randomized.py:347-359. -/
noncomputable def flFullGrad (fl : ℝ → ℝ) (P : VRArgs ℝ n p) (x : Fin p → ℝ) : Option (Fin p → ℝ) :=
  (List.range n).foldlM (fun grad i => do
    let row ← P.A.row i
    let dot ← flRowDot fl x row
    let bi ← rd P.b i
    row.foldlM (fun grad e => do
      let g ← rd grad e.1
      wr grad e.1 (fl (g + fl (fl (P.deriv dot bi * e.2) / (n : ℝ))))) grad) fun _ => 0

/-- One inner iteration of `_svrg_epoch`, randomized.py:365-387. -/
noncomputable def flSvrgStep (fl : ℝ → ℝ) (P : VRArgs ℝ n p) (S : Support n P.blocks.nb) (step : ℝ) (snap avg : Fin p → ℝ) (st : SvrgState ℝ p) (i : ℕ) :
    Option (SvrgState ℝ p) := do
  let row ← P.A.row i
  let dot ← flRowDot fl st.x row
  let dotOld ← flRowDot fl snap row
  let bi ← rd P.b i
  let tmp ← flRowScatter fl (fl (P.deriv dot bi - P.deriv dotOld bi)) row st.tmp
  let hs ← S.row i
  let x ← forBlocks P.blocks (flStepBody fl (flSupWeights fl n S.bs) avg tmp P.alpha step) hs st.x
  let x ← P.prox _ (flSupWeights fl n S.bs) step hs x
  return { x, tmp }

/-- `_svrg_epoch`, randomized.py:362-387. -/
noncomputable def flSvrgEpoch (fl : ℝ → ℝ) (P : VRArgs ℝ n p) (S : Support n P.blocks.nb) (step : ℝ) (snap avg : Fin p → ℝ) (st : SvrgState ℝ p) (idx : List ℕ) :
    Option (SvrgState ℝ p) := idx.foldlM (flSvrgStep fl P S step snap avg) st

open Classical in
/-- The loop over epochs, randomized.py:394-404. -/
noncomputable def flSvrgLoop (fl : ℝ → ℝ) (sum : ℕ → (Fin p → ℝ) → ℝ) (P : VRArgs ℝ n p) (S : Support n P.blocks.nb) (step : ℝ) :
    ℕ → ℕ → SvrgState ℝ p → Option (VRResult ℝ p (SvrgState ℝ p))
  | rem, it, st => do
    let avg ← flFullGrad fl P st.x
    let st' ← flSvrgEpoch fl P S step st.x avg st (P.order it)
    if sum it (fun c => |fl (st'.x c - st.x c)|) < P.tol then return ⟨st'.x, true, it, st'⟩
    else match rem with
      | 0 => return ⟨st'.x, false, it, st'⟩
      | rem + 1 => flSvrgLoop fl sum P S step rem (it + 1) st'

/-- `minimize_svrg`, randomized.py:308-406. -/
noncomputable def flMinimizeSvrg (fl : ℝ → ℝ) (sum : ℕ → (Fin p → ℝ) → ℝ) (P : VRArgs ℝ n p) : Except PyErr (VRResult ℝ p (SvrgState ℝ p)) :=
  match P.stepSize with
  | none => .error .valueError
  | some step => do
    let S ← orFault P.support
    if S.bs = [] then .error .valueError
    else match P.maxIter with
      | 0 => .error .unboundLocalError
      | k + 1 => orFault (flSvrgLoop fl sum P S step k 0 { x := P.x0, tmp := fun _ => 0 })

/-! ### Oracles of the library -/

/-- `f.partial_deriv` of the loss classes, loss.py:179-196, 245-250; `fexp` is the exponential of the library. -/
noncomputable def VRLoss.flDeriv (fl fexp : ℝ → ℝ) (l : VRLoss) (t y : ℝ) : ℝ :=
  match l with
  | .log => flExpitB fl fexp y t
  | .square => fl (t - y)

/-- `_prox_L1`, penalty.py:45-51. -/
noncomputable def L1Norm.flKernel {m : ℕ} (fl : ℝ → ℝ) (alpha : ℝ) (d : Fin m → ℝ) (step : ℝ) : List ℕ → (Fin p → ℝ) → Option (Fin p → ℝ)
  | [], x => some x
  | j :: row, x => do
    let xj ← rd x j
    let dj ← rd d j
    let t := fl (fl (alpha * dj) * step)
    let x ← wr x j (fl (max (fl (xj - t)) 0 - max (fl (-xj - t)) 0))
    L1Norm.flKernel fl alpha d step row x

/-- `norm += x[j_idx] ** 2` over a block, penalty.py:129-132. -/
noncomputable def flSumSqLoop (fl : ℝ → ℝ) (x : Fin p → ℝ) : List ℕ → ℝ → Option ℝ
  | [], acc => some acc
  | j :: js, acc => do
    let v ← rd x j
    flSumSqLoop fl x js (fl (acc + fl (v * v)))

open Classical in
/-- `_prox_gl`, penalty.py:122-141; see `GroupL1.kernel`. -/
noncomputable def GroupL1.flKernel {m : ℕ} (fl : ℝ → ℝ) (alpha : ℝ) (B : BlockState p) (d : Fin m → ℝ) (step : ℝ) : List ℕ → (Fin p → ℝ) → Option (Fin p → ℝ)
  | [], x => some x
  | h :: row, x => do
    if B.bp < h then none
    let start ← rd B.indptr h
    let flag ← rd B.data start
    if flag ≤ 0 then
      GroupL1.flKernel fl alpha B d step row x
    else
      if B.bp < h + 1 then none
      let stop ← rd B.indptr (h + 1)
      let dh ← rd d h
      let ss := fl (step * dh)
      let js := List.range' start (stop - start)
      let sq ← flSumSqLoop fl x js 0
      let norm := fl (Real.sqrt sq)
      let x ← if norm > fl (alpha * ss) then mapLoop (fun v => fl (v * fl (1 - fl (fl (alpha * ss) / norm)))) js x
              else mapLoop (fun _ => 0) js x
      GroupL1.flKernel fl alpha B d step row x

/-- The routine handed to the methods, see `VRPen.factory`. -/
noncomputable def VRPen.flFactory (fl : ℝ → ℝ) (p : ℕ) : VRPen → Option (BlockMat × SparseProx ℝ p)
  | .none => some (BlockMat.eye p, noProx)
  | .l1Norm beta => some (BlockMat.eye p, fun _ d step hs x => L1Norm.flKernel fl beta d step hs x)
  | .groupL1 beta groups => (GroupL1.blocks groups p).map fun B => (B.mat, fun _ d step hs x => GroupL1.flKernel fl beta B d step hs x)

open Classical in
/-- The arguments of `minimize_saga` and `minimize_svrg` for a dense array, a loss and a penalty of the library, with the computed derivative and proximal operator; see `vrCall`. -/
noncomputable def flVrCall (fl fexp : ℝ → ℝ) (l : VRLoss) (A : Fin n → Fin p → ℝ) (b : Fin n → ℝ) (x0 : Fin p → ℝ) (step : Option ℝ) (pen : VRPen) (alpha : ℝ) (maxIter : ℕ)
    (tol : ℝ) (order : ℕ → List ℕ) : Option (VRArgs ℝ n p) :=
  (pen.flFactory fl p).map fun bp =>
    { A := csrOfDense A, b := b, deriv := l.flDeriv fl fexp, alpha := alpha, x0 := x0, stepSize := step, blocks := bp.1, prox := bp.2,
      maxIter := maxIter, tol := tol, order := order }

end Copt
