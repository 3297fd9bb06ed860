import Mathlib.Data.List.Range
import Mathlib.Algebra.BigOperators.Group.Finset.Basic
import Mathlib.Algebra.Order.Group.Unbundled.Abs
import Mathlib.Data.Fintype.BigOperators
import Mathlib.Algebra.Order.Ring.Defs
import Mathlib.Algebra.Field.Defs
import Verif.Model.Mem

/-!
# Model of the variance-reduced methods of copt/randomized.py

The inner loops are compiled without bounds checks: array accesses are `rd`/`wr` and `none` is an access out of range.  The CSR arrays of the data
matrix never change, so a row is read once and then iterated on.  Numbers come from a field; `f_deriv` acts on one number at a time, as the
methods call it on arrays of length one.  The callback only observes (its return value is ignored by these functions) and is left out.
The random orders are arbitrary sequences of sample numbers.
-/

namespace Copt

/-! ### The support matrix -/

section Support
variable {nnz m r nb : ℕ}

/-- `BS_indices`, `seen_blocks` and `counter_indptr`, randomized.py:34-38. -/
structure SupState (nnz nb : ℕ) where
  bs : Fin nnz → ℕ
  seen : Fin nb → ℕ
  counter : ℕ

/-- Body of the loop over the entries of a row, randomized.py:42-49. -/
def supEntry (indices : Fin nnz → ℕ) (rblocks : Fin r → ℕ) (st : SupState nnz nb) (j : ℕ) : Option (SupState nnz nb) := do
  let c ← rd indices j
  let g ← rd rblocks c
  let s ← rd st.seen g
  if s = 0 then do
    let bs ← wr st.bs st.counter g
    let seen ← wr st.seen g 1
    return ⟨bs, seen, st.counter + 1⟩
  else return st

/-- Body of the cleanup loop, randomized.py:52-53. -/
def supClean (bs : Fin nnz → ℕ) (seen : Fin nb → ℕ) (j : ℕ) : Option (Fin nb → ℕ) := do
  let g ← rd bs j
  wr seen g 0

/-- Body of the loop over rows, randomized.py:39-53. -/
def supRow (indices : Fin nnz → ℕ) (indptr : Fin (m + 1) → ℕ) (rblocks : Fin r → ℕ)
    (acc : SupState nnz nb × (Fin (m + 1) → ℕ)) (i : ℕ) : Option (SupState nnz nb × (Fin (m + 1) → ℕ)) := do
  let low ← rd indptr i
  let high ← rd indptr (i + 1)
  let st ← (List.range' low (high - low)).foldlM (supEntry indices rblocks) acc.1
  let ptr ← wr acc.2 (i + 1) st.counter
  let lo ← rd ptr i
  let seen ← (List.range' lo (st.counter - lo)).foldlM (supClean st.bs) st.seen
  return (⟨st.bs, seen, st.counter⟩, ptr)

/-- What `_support_matrix` returns: `BS_indices[:counter]` and `BS_indptr` (`BS_data` is all ones); `seen` is the work array at the end. -/
structure Support (m nb : ℕ) where
  bs : List ℕ
  ptr : Fin (m + 1) → ℕ
  seen : Fin nb → ℕ

/-- `_support_matrix`, randomized.py:11-55. -/
def supportMatrix (indices : Fin nnz → ℕ) (indptr : Fin (m + 1) → ℕ) (rblocks : Fin r → ℕ) (nb : ℕ) : Option (Support m nb) := do
  let r ← (List.range m).foldlM (supRow indices indptr rblocks) (⟨fun _ => 0, fun _ => 0, 0⟩, fun _ => 0)
  return { bs := (List.ofFn r.1.bs).take r.1.counter, ptr := r.2, seen := r.1.seen }

/-- The blocks of sample `i`: `for h_j in range(bs_indptr[i], bs_indptr[i + 1]): h = bs_indices[h_j]`. -/
def Support.row (S : Support m nb) (i : ℕ) : Option (List ℕ) := do
  let lo ← rd S.ptr i
  let hi ← rd S.ptr (i + 1)
  (List.range' lo (hi - lo)).mapM fun j => S.bs[j]?

/-- The number of columns scipy infers in `sparse.csr_matrix((bs_data, bs_indices, bs_indptr))`, randomized.py:163: the largest index plus one. -/
def supWidth (bs : List ℕ) : ℕ := bs.foldr (fun h w => max (h + 1) w) 0

/-- The diagonal reweighting, randomized.py:166-169: column sums of the support matrix, inverted and scaled. -/
def supWeights {K : Type} [Field K] (n : ℕ) (bs : List ℕ) : Fin (supWidth bs) → K :=
  fun h => if bs.count h.val = 0 then 1 else (n : K) / (bs.count h.val : K)

end Support

/-! ### Blocks -/

/-- A block structure: a CSR matrix with one row per block. -/
structure BlockMat where
  nb : ℕ
  nz : ℕ
  ptr : Fin (nb + 1) → ℕ
  idx : Fin nz → ℕ

/-- `sparse.eye(n_features, n_features, format="csr")`, randomized.py:145. -/
def BlockMat.eye (p : ℕ) : BlockMat := { nb := p, nz := p, ptr := fun i => i, idx := fun i => i }

/-- How often the row of block `h` stores column `j`. -/
def BlockMat.count (B : BlockMat) (h : Fin B.nb) (j : ℕ) : ℕ :=
  (List.finRange B.nz).countP fun k => decide (B.ptr h.castSucc ≤ k.val ∧ k.val < B.ptr h.succ ∧ B.idx k = j)

/-- `blocks.T.tocsr().indices`, randomized.py:158: for every column in turn, the rows that store it. -/
def BlockMat.rblocks (B : BlockMat) (p : ℕ) : List ℕ :=
  (List.range p).flatMap fun j => (List.finRange B.nb).flatMap fun h => List.replicate (B.count h j) h.val

/-! ### Data -/

/-- The data matrix in CSR format, `n` samples and `p` features. -/
structure CsrMat (K : Type) (n p : ℕ) where
  nnz : ℕ
  data : Fin nnz → K
  indices : Fin nnz → ℕ
  indptr : Fin (n + 1) → ℕ

variable {K : Type} [Field K] {n p : ℕ}

/-- The pairs `(A_indices[j], A_data[j])` for `j in range(A_indptr[i], A_indptr[i + 1])`, randomized.py:178-180. -/
def CsrMat.row (A : CsrMat K n p) (i : ℕ) : Option (List (ℕ × K)) := do
  let lo ← rd A.indptr i
  let hi ← rd A.indptr (i + 1)
  (List.range' lo (hi - lo)).mapM fun j => do
    let c ← rd A.indices j
    let v ← rd A.data j
    return (c, v)

/-- The penalty's compiled routine: it is given `d`, the step size, the blocks of the sample and the vector it modifies. -/
abbrev SparseProx (K : Type) (p : ℕ) := (m : ℕ) → (Fin m → K) → K → List ℕ → (Fin p → K) → Option (Fin p → K)

/-- The default `prox`, randomized.py:147-151. -/
def noProx : SparseProx K p := fun _ _ _ _ x => some x

/-- `p += x[j_idx] * A_data[j]` over a row, randomized.py:177-180. -/
def rowDot (x : Fin p → K) (row : List (ℕ × K)) : Option K :=
  row.foldlM (fun acc e => do
    let v ← rd x e.1
    return acc + v * e.2) 0

/-- `grad_tmp[j_idx] = g * A_data[j]` over a row, randomized.py:182-184. -/
def rowScatter (g : K) (row : List (ℕ × K)) (tmp : Fin p → K) : Option (Fin p → K) :=
  row.foldlM (fun tmp e => wr tmp e.1 (g * e.2)) tmp

/-- Features inside the blocks `hs`: `for h_j in ...: for b_j in range(blocks_indptr[h], blocks_indptr[h + 1])`, randomized.py:188-193. -/
def forBlocks {σ : Type} (B : BlockMat) (body : ℕ → σ → ℕ → Option σ) (hs : List ℕ) (s : σ) : Option σ :=
  hs.foldlM (fun s h => do
    let lo ← rd B.ptr h
    let hi ← rd B.ptr (h + 1)
    (List.range' lo (hi - lo)).foldlM (body h) s) s

/-- The coefficient update of SAGA and SVRG, randomized.py:192-193 and 385-386. -/
def stepBody {D : ℕ} (d : Fin D → K) (avg tmp : Fin p → K) (alpha step : K) (h : ℕ) (x : Fin p → K) (j : ℕ) : Option (Fin p → K) := do
  let dh ← rd d h
  let a ← rd avg j
  let v ← rd x j
  let t ← rd tmp j
  wr x j (v - step * (t + dh * (a + alpha * v)))

/-- The memory update, randomized.py:197-202 and 688-692: `gradient_average[j_idx] += g * A_data[j] / n_samples; grad_tmp[j_idx] = 0`. -/
def rowMemory (n : ℕ) (g : K) (row : List (ℕ × K)) (s : (Fin p → K) × (Fin p → K)) : Option ((Fin p → K) × (Fin p → K)) :=
  row.foldlM (fun s e => do
    let a ← rd s.1 e.1
    let avg ← wr s.1 e.1 (a + g * e.2 / (n : K))
    let tmp ← wr s.2 e.1 0
    return (avg, tmp)) s

/-! ### SAGA -/

/-- Arguments shared by `minimize_saga` and `minimize_svrg`.  `stepSize = none` is Python's `None`; `prox` is the routine and `blocks` its
block structure after randomized.py:141-151 (316-326). -/
structure VRArgs (K : Type) (n p : ℕ) where
  A : CsrMat K n p
  b : Fin n → K
  deriv : K → K → K
  alpha : K
  x0 : Fin p → K
  stepSize : Option K
  blocks : BlockMat
  prox : SparseProx K p
  maxIter : ℕ
  tol : K
  order : ℕ → List ℕ

/-- The block number of every feature as an array, randomized.py:158. -/
def VRArgs.rblocks (P : VRArgs K n p) : Fin (P.blocks.rblocks p).length → ℕ := fun k => (P.blocks.rblocks p).get k

/-- The support matrix of the arguments, randomized.py:160-162. -/
def VRArgs.support (P : VRArgs K n p) : Option (Support n P.blocks.nb) :=
  supportMatrix P.A.indices P.A.indptr P.rblocks P.blocks.nb

/-- Local arrays of `_saga_epoch`. -/
structure SagaState (K : Type) (n p : ℕ) where
  x : Fin p → K
  mem : Fin n → K
  avg : Fin p → K
  tmp : Fin p → K

/-- One inner iteration of `_saga_epoch`, randomized.py:174-203, on sample `i`. -/
def sagaStep (P : VRArgs K n p) (S : Support n P.blocks.nb) (step : K) (st : SagaState K n p) (i : ℕ) : Option (SagaState K n p) := do
  let row ← P.A.row i
  let dot ← rowDot st.x row
  let bi ← rd P.b i
  let gi := P.deriv dot bi
  let mi ← rd st.mem i
  let tmp ← rowScatter (gi - mi) row st.tmp
  let hs ← S.row i
  let x ← forBlocks P.blocks (stepBody (supWeights n S.bs) st.avg tmp P.alpha step) hs st.x
  let x ← P.prox _ (supWeights n S.bs) step hs x
  let at' ← rowMemory n (gi - mi) row (st.avg, tmp)
  let mem ← wr st.mem i gi
  return { x, mem, avg := at'.1, tmp := at'.2 }

/-- `_saga_epoch`, randomized.py:172-203. -/
def sagaEpoch (P : VRArgs K n p) (S : Support n P.blocks.nb) (step : K) (st : SagaState K n p) (idx : List ℕ) : Option (SagaState K n p) :=
  idx.foldlM (sagaStep P S step) st

/-- Initial arrays, randomized.py:133, 206-208. -/
def sagaInit (P : VRArgs K n p) : SagaState K n p := { x := P.x0, mem := fun _ => 0, avg := fun _ => 0, tmp := fun _ => 0 }

/-- What the solvers of this module return; `x` is `res.x` and `final` the local arrays at the end. -/
structure VRResult (K : Type) (p : ℕ) (σ : Type) where
  x : Fin p → K
  success : Bool
  nit : ℕ
  final : σ

variable [LinearOrder K]

/-- The loop over epochs, randomized.py:213-223, with `rem + 1` epochs left. -/
def sagaLoop (P : VRArgs K n p) (S : Support n P.blocks.nb) (step : K) : ℕ → ℕ → SagaState K n p → Option (VRResult K p (SagaState K n p))
  | rem, it, st => do
    let st' ← sagaEpoch P S step st (P.order it)
    if ∑ c, |st'.x c - st.x c| < P.tol then return ⟨st'.x, true, it, st'⟩
    else match rem with
      | 0 => return ⟨st'.x, false, it, st'⟩
      | rem + 1 => sagaLoop P S step rem (it + 1) st'

/-- Turns an out-of-range access into an error. -/
def orFault {α : Type} : Option α → Except PyErr α
  | none => .error .memoryFault
  | some a => .ok a

/-- `minimize_saga`, randomized.py:133-224: no step size raises ValueError, and so does inferring the shape of an empty support matrix; without an
epoch the name `it` is unbound. -/
def minimizeSaga (P : VRArgs K n p) : Except PyErr (VRResult K p (SagaState K n p)) :=
  match P.stepSize with
  | none => .error .valueError
  | some step => do
    let S ← orFault P.support
    if S.bs = [] then .error .valueError
    else match P.maxIter with
      | 0 => .error .unboundLocalError
      | k + 1 => orFault (sagaLoop P S step k 0 (sagaInit P))

/-! ### SVRG -/

/-- Local arrays of `_svrg_epoch`. -/
structure SvrgState (K : Type) (p : ℕ) where
  x : Fin p → K
  tmp : Fin p → K

/-- `full_grad`, randomized.py:347-359. -/
def fullGrad (P : VRArgs K n p) (x : Fin p → K) : Option (Fin p → K) :=
  (List.range n).foldlM (fun grad i => do
    let row ← P.A.row i
    let dot ← rowDot x row
    let bi ← rd P.b i
    row.foldlM (fun grad e => do
      let g ← rd grad e.1
      wr grad e.1 (g + P.deriv dot bi * e.2 / (n : K))) grad) fun _ => 0

/-- One inner iteration of `_svrg_epoch`, randomized.py:365-387, on sample `i`.  The scratch array is not reset. -/
def svrgStep (P : VRArgs K n p) (S : Support n P.blocks.nb) (step : K) (snap avg : Fin p → K) (st : SvrgState K p) (i : ℕ) :
    Option (SvrgState K p) := do
  let row ← P.A.row i
  let dot ← rowDot st.x row
  let dotOld ← rowDot snap row
  let bi ← rd P.b i
  let tmp ← rowScatter (P.deriv dot bi - P.deriv dotOld bi) row st.tmp
  let hs ← S.row i
  let x ← forBlocks P.blocks (stepBody (supWeights n S.bs) avg tmp P.alpha step) hs st.x
  let x ← P.prox _ (supWeights n S.bs) step hs x
  return { x, tmp }

/-- `_svrg_epoch`, randomized.py:362-387. -/
def svrgEpoch (P : VRArgs K n p) (S : Support n P.blocks.nb) (step : K) (snap avg : Fin p → K) (st : SvrgState K p) (idx : List ℕ) :
    Option (SvrgState K p) := idx.foldlM (svrgStep P S step snap avg) st

/-- The loop over epochs, randomized.py:394-404. -/
def svrgLoop (P : VRArgs K n p) (S : Support n P.blocks.nb) (step : K) : ℕ → ℕ → SvrgState K p → Option (VRResult K p (SvrgState K p))
  | rem, it, st => do
    let avg ← fullGrad P st.x
    let st' ← svrgEpoch P S step st.x avg st (P.order it)
    if ∑ c, |st'.x c - st.x c| < P.tol then return ⟨st'.x, true, it, st'⟩
    else match rem with
      | 0 => return ⟨st'.x, false, it, st'⟩
      | rem + 1 => svrgLoop P S step rem (it + 1) st'

/-- `minimize_svrg`, randomized.py:308-406. -/
def minimizeSvrg (P : VRArgs K n p) : Except PyErr (VRResult K p (SvrgState K p)) :=
  match P.stepSize with
  | none => .error .valueError
  | some step => do
    let S ← orFault P.support
    if S.bs = [] then .error .valueError
    else match P.maxIter with
      | 0 => .error .unboundLocalError
      | k + 1 => orFault (svrgLoop P S step k 0 { x := P.x0, tmp := fun _ => 0 })

/-! ### VRTOS -/

/-- Arguments of `minimize_vrtos` after randomized.py:486-495 and 505-515; `b` has `bSize` entries. -/
structure VrtosArgs (K : Type) (n p : ℕ) where
  A : CsrMat K n p
  bSize : ℕ
  b : Fin bSize → K
  deriv : K → K → K
  alpha : K
  x0 : Fin p → K
  stepSize : K
  blocks1 : BlockMat
  blocks2 : BlockMat
  prox1 : SparseProx K p
  prox2 : SparseProx K p
  maxIter : ℕ
  tol : K
  order : ℕ → List ℕ

/-- Arrays of `epoch_iteration_template`.  `x1` is the caller's `x0`: the function passes its argument on, randomized.py:531 and 547. -/
structure VrtosState (K : Type) (n p : ℕ) where
  y1 : Fin p → K
  y2 : Fin p → K
  x1 : Fin p → K
  x2 : Fin p → K
  z : Fin p → K
  mem : Fin n → K
  avg : Fin p → K
  tmp : Fin p → K

/-- `x1[b_j] = 2 * z[b_j] - Y[0, b_j] - step_size * 0.5 * (grad_tmp[b_j] + bias_term)`, randomized.py:633-638 and 653-658. -/
def vrtosBody {D : ℕ} (d : Fin D → K) (avg tmp z y : Fin p → K) (alpha step : K) (h : ℕ) (x : Fin p → K) (j : ℕ) : Option (Fin p → K) := do
  let dh ← rd d h
  let a ← rd avg j
  let zj ← rd z j
  let yj ← rd y j
  let t ← rd tmp j
  wr x j (2 * zj - yj - step * (1 / 2) * (t + dh * (a + alpha * zj)))

/-- `Y[0, b_j] += x1[b_j] - z[b_j]`, randomized.py:646 and 666. -/
def vrtosY (x z : Fin p → K) (_h : ℕ) (y : Fin p → K) (j : ℕ) : Option (Fin p → K) := do
  let yj ← rd y j
  let xj ← rd x j
  let zj ← rd z j
  wr y j (yj + (xj - zj))

/-- The update of `z`, randomized.py:674-676 and 683-685; `r1` and `r2` are the arrays `rblocks_1_indices` and `rblocks_2_indices`. -/
def vrtosZ {D1 D2 l1 l2 : ℕ} (d1 : Fin D1 → K) (d2 : Fin D2 → K) (r1 : Fin l1 → ℕ) (r2 : Fin l2 → ℕ) (y1 y2 : Fin p → K) (_h : ℕ)
    (z : Fin p → K) (j : ℕ) : Option (Fin p → K) := do
  let h1 ← rd r1 j
  let a ← rd d1 h1
  let h2 ← rd r2 j
  let b ← rd d2 h2
  let u ← rd y1 j
  let v ← rd y2 j
  wr z j ((1 / a * u + 1 / b * v) / (1 / a + 1 / b))

/-- The array `rblocks_1_indices`, randomized.py:578. -/
def VrtosArgs.rb1 (P : VrtosArgs K n p) : Fin (P.blocks1.rblocks p).length → ℕ := fun k => (P.blocks1.rblocks p).get k

/-- The array `rblocks_2_indices`, randomized.py:584. -/
def VrtosArgs.rb2 (P : VrtosArgs K n p) : Fin (P.blocks2.rblocks p).length → ℕ := fun k => (P.blocks2.rblocks p).get k

/-- One inner iteration of `epoch_iteration_template`, randomized.py:615-693, on sample `i`. -/
def vrtosStep (P : VrtosArgs K n p) (S1 : Support n P.blocks1.nb) (S2 : Support n P.blocks2.nb) (st : VrtosState K n p) (i : ℕ) :
    Option (VrtosState K n p) := do
  let row ← P.A.row i
  let dot ← rowDot st.z row
  let bi ← rd P.b i
  let gi := P.deriv dot bi
  let mi ← rd st.mem i
  let tmp ← rowScatter (gi - mi) row st.tmp
  let hs1 ← S1.row i
  let hs2 ← S2.row i
  let x1 ← forBlocks P.blocks1 (vrtosBody (supWeights n S1.bs) st.avg tmp st.z st.y1 P.alpha P.stepSize) hs1 st.x1
  let x1 ← P.prox1 _ (supWeights n S1.bs) P.stepSize hs1 x1
  let y1 ← forBlocks P.blocks1 (vrtosY x1 st.z) hs1 st.y1
  let x2 ← forBlocks P.blocks2 (vrtosBody (supWeights n S2.bs) st.avg tmp st.z st.y2 P.alpha P.stepSize) hs2 st.x2
  let x2 ← P.prox2 _ (supWeights n S2.bs) P.stepSize hs2 x2
  let y2 ← forBlocks P.blocks2 (vrtosY x2 st.z) hs2 st.y2
  let z ← forBlocks P.blocks1 (vrtosZ (supWeights n S1.bs) (supWeights n S2.bs) P.rb1 P.rb2 y1 y2) hs1 st.z
  let z ← forBlocks P.blocks2 (vrtosZ (supWeights n S1.bs) (supWeights n S2.bs) P.rb1 P.rb2 y1 y2) hs2 z
  let at' ← rowMemory n (gi - mi) row (st.avg, tmp)
  let mem ← wr st.mem i gi
  return { y1, y2, x1, x2, z, mem, avg := at'.1, tmp := at'.2 }

/-- `epoch_iteration_template`, randomized.py:602-693. -/
def vrtosEpoch (P : VrtosArgs K n p) (S1 : Support n P.blocks1.nb) (S2 : Support n P.blocks2.nb) (st : VrtosState K n p) (idx : List ℕ) :
    Option (VrtosState K n p) := idx.foldlM (vrtosStep P S1 S2) st

/-- Initial arrays, randomized.py:497-498, 523-526. -/
def vrtosInit (P : VrtosArgs K n p) : VrtosState K n p :=
  { y1 := fun _ => 0, y2 := fun _ => 0, x1 := P.x0, x2 := P.x0, z := P.x0, mem := fun _ => 0, avg := fun _ => 0, tmp := fun _ => 0 }

/-- What `minimize_vrtos` returns and leaves behind: `callerX0` is the caller's array `x0` afterwards. The certificate is
`norm(x0 - z) + norm(x1 - z)`, a function of `final`. -/
structure VrtosResult (K : Type) (n p : ℕ) where
  x : Fin p → K
  success : Bool
  nit : ℕ
  callerX0 : Fin p → K
  final : VrtosState K n p

/-- All epochs, randomized.py:544-559, from epoch `it`. -/
def vrtosLoop (P : VrtosArgs K n p) (S1 : Support n P.blocks1.nb) (S2 : Support n P.blocks2.nb) : ℕ → ℕ → VrtosState K n p →
    Option (VrtosState K n p)
  | 0, _, st => some st
  | k + 1, it, st => do
    let st ← vrtosEpoch P S1 S2 st (P.order it)
    vrtosLoop P S1 S2 k (it + 1) st

/-- `minimize_vrtos`, randomized.py:481-563 with the set-up of `_factory_sparse_vrtos`, randomized.py:570-599. -/
def minimizeVrtos (P : VrtosArgs K n p) : Except PyErr (VrtosResult K n p) :=
  if n ≠ P.bSize then .error .assertionError
  else if P.stepSize < 0 then .error .valueError
  else do
    let S1 ← orFault (supportMatrix P.A.indices P.A.indptr P.rb1 P.blocks1.nb)
    let S2 ← orFault (supportMatrix P.A.indices P.A.indptr P.rb2 P.blocks2.nb)
    if S1.bs = [] ∨ S2.bs = [] then .error .valueError
    else do
      let st ← orFault (vrtosEpoch P S1 S2 (vrtosInit P) [0])
      match P.maxIter with
      | 0 => .error .unboundLocalError
      | k + 1 => do
        let st ← orFault (vrtosLoop P S1 S2 (k + 1) 0 st)
        return { x := st.z, success := false, nit := k, callerX0 := st.x1, final := st }

end Copt
