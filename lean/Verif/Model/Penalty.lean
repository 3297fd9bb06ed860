import Mathlib.Algebra.Order.Field.Basic
import Mathlib.Analysis.Real.Sqrt
import Mathlib.Data.Fintype.BigOperators
import Verif.Model.Py
import Verif.Model.Mem

/-!
# Model of `copt/penalty.py` (l1, group lasso and fused lasso; the SVD based penalty is in `Model/Trace`)
-/

namespace Copt

section L1
variable {K : Type} [Field K] [LinearOrder K] {n m : ℕ}

/-- `L1Norm.__call__`, penalty.py:22-23. -/
def L1Norm.call (alpha : K) (x : Fin n → K) : K := alpha * ∑ i, |x i|

/-- `L1Norm.prox`, penalty.py:25-34 (`fmax` is `max` on numbers). -/
def L1Norm.prox (alpha : K) (x : Fin n → K) (step : K) : Fin n → K :=
  fun i => max (x i - alpha * step) 0 - max (-x i - alpha * step) 0

/-- `_prox_L1`, penalty.py:45-51.  `row` is the slice `indices[indptr[i]:indptr[i+1]]`. -/
def L1Norm.kernel (alpha : K) (d : Fin m → K) (step : K) : List ℕ → (Fin n → K) → Option (Fin n → K)
  | [], x => some x
  | j :: row, x => do
    let xj ← rd x j
    let dj ← rd d j
    let a := xj - alpha * dj * step
    let b := -xj - alpha * dj * step
    let x ← wr x j (max a 0 - max b 0)
    L1Norm.kernel alpha d step row x

end L1

/-! ### Group lasso -/

/-- `np.all(np.diff(g) == 1)`, penalty.py:72 (differences of integers). -/
def diffAllOne : List ℕ → Bool
  | [] => true
  | [_] => true
  | a :: b :: l => ((b : ℤ) - (a : ℤ) == 1) && diffAllOne (b :: l)

/-- The loop of `GroupL1.__init__`, penalty.py:71-75; `prev` is `groups[i-1]` (`none` when `i = 0`).
`groups[i-1][-1]` and `g[0]` raise IndexError on empty groups. -/
def GroupL1.initLoop : Option (List ℕ) → List (List ℕ) → Except PyErr Unit
  | _, [] => .ok ()
  | prev, g :: gs =>
    if !diffAllOne g then .error .valueError                       -- lines 72-73
    else match prev with
      | none => GroupL1.initLoop (some g) gs
      | some p =>
        match p.getLast?, g.head? with
        | some a, some b => if a ≥ b then .error .valueError       -- lines 74-75
                            else GroupL1.initLoop (some g) gs
        | _, _ => .error .indexError

/-- `GroupL1.__init__`, penalty.py:68-76: returns the stored groups. -/
def GroupL1.init (groups : List (List ℕ)) : Except PyErr (List (List ℕ)) := do
  GroupL1.initLoop none groups
  return groups

/-- `np.linalg.norm(x[g])`, penalty.py:79 and 85; an index out of range raises IndexError. -/
noncomputable def fancyNorm {n : ℕ} (x : Fin n → ℝ) (g : List ℕ) : Except PyErr ℝ := do
  let sq ← g.mapM (fun i => do return (← rdE x i) ^ 2)
  return Real.sqrt sq.sum

/-- One iteration of the loop of `GroupL1.prox`, penalty.py:83-89. The vectorised assignments
`out[g] -= ...`, `out[g] = 0` set every coordinate listed in `g`. -/
noncomputable def GroupL1.proxGroup {n : ℕ} (alpha step : ℝ) (x out : Fin n → ℝ) (g : List ℕ) :
    Except PyErr (Fin n → ℝ) := do
  let norm ← fancyNorm x g
  if norm > alpha * step then
    return fun i => if i.val ∈ g then out i - step * alpha * out i / norm else out i
  else
    return fun i => if i.val ∈ g then 0 else out i

/-- `GroupL1.__call__`, penalty.py:78-79. -/
noncomputable def GroupL1.call {n : ℕ} (alpha : ℝ) (groups : List (List ℕ)) (x : Fin n → ℝ) :
    Except PyErr ℝ := do
  let norms ← groups.mapM (fancyNorm x)
  return alpha * norms.sum

/-- `GroupL1.prox`, penalty.py:81-90. -/
noncomputable def GroupL1.prox {n : ℕ} (alpha : ℝ) (groups : List (List ℕ)) (x : Fin n → ℝ) (step : ℝ) :
    Except PyErr (Fin n → ℝ) :=
  groups.foldlM (fun out g => GroupL1.proxGroup alpha step x out g) x

/-- State of the block construction in `GroupL1.prox_factory`, penalty.py:93-98. -/
structure BlockState (n : ℕ) where
  data : Fin n → ℤ
  indptr : Fin (n + 1) → ℕ
  fp : ℕ
  bp : ℕ

/-- Body shared by the two loops over unpenalised features, penalty.py:102-105 and 113-116. -/
def BlockState.single {n : ℕ} (st : BlockState n) : Option (BlockState n) := do
  let data ← wr st.data st.fp (-1)
  let v ← rd st.indptr st.bp
  let indptr ← wr st.indptr (st.bp + 1) (v + 1)
  return { data, indptr, fp := st.fp + 1, bp := st.bp + 1 }

/-- `for _ in g: ...`, penalty.py:107-110, `k` iterations. -/
def BlockState.fill {n : ℕ} : ℕ → BlockState n → Option (BlockState n)
  | 0, st => some st
  | k + 1, st => do
    let data ← wr st.data st.fp 1
    let v ← rd st.indptr (st.bp + 1)
    let indptr ← wr st.indptr (st.bp + 1) (v + 1)
    BlockState.fill k { st with data, indptr, fp := st.fp + 1 }

/-- `while feature_pointer < g[0]` / `for _ in range(feature_pointer, n_features)`: both run the body
`k = bound - feature_pointer` times, penalty.py:100-105 and 112-116. -/
def BlockState.singles {n : ℕ} : ℕ → BlockState n → Option (BlockState n)
  | 0, st => some st
  | k + 1, st => do BlockState.singles k (← st.single)

/-- Body of `for g in self.groups`, penalty.py:99-111.  `none` also stands for the IndexError of `g[0]`. -/
def BlockState.group {n : ℕ} (st : BlockState n) (g : List ℕ) : Option (BlockState n) := do
  let g0 ← g.head?
  let st ← BlockState.singles (g0 - st.fp) st
  let v ← rd st.indptr st.bp
  let indptr ← wr st.indptr (st.bp + 1) v                           -- line 106
  let st ← BlockState.fill g.length { st with indptr }
  return { st with bp := st.bp + 1 }

/-- The block structure built by `GroupL1.prox_factory`, penalty.py:92-118: `B_data`, `B_indptr` and the
number of blocks; `B_indices = arange(n_features)`. -/
def GroupL1.blocks (groups : List (List ℕ)) (n : ℕ) : Option (BlockState n) := do
  let st ← groups.foldlM BlockState.group { data := fun _ => 0, indptr := fun _ => 0, fp := 0, bp := 0 }
  BlockState.singles (n - st.fp) st

/-- `norm += x[j_idx] ** 2` over `range(B_indptr[h], B_indptr[h+1])`, penalty.py:129-132. -/
def sumSqLoop {n : ℕ} (x : Fin n → ℝ) : List ℕ → ℝ → Option ℝ
  | [], acc => some acc
  | j :: js, acc => do sumSqLoop x js (acc + (← rd x j) ^ 2)

/-- `x[j_idx] = f(x[j_idx])` over a list of indices, penalty.py:134-141. -/
def mapLoop {n : ℕ} (f : ℝ → ℝ) : List ℕ → (Fin n → ℝ) → Option (Fin n → ℝ)
  | [], x => some x
  | j :: js, x => do
    let v ← rd x j
    mapLoop f js (← wr x j (f v))

/-- `_prox_gl`, penalty.py:122-141; `row` is the slice `indices[indptr[i]:indptr[i+1]]` (block numbers).
`B_indptr` was truncated to `bp + 1` entries (line 118), so reads beyond are out of bounds. -/
noncomputable def GroupL1.kernel {n m : ℕ} (alpha : ℝ) (B : BlockState n) (d : Fin m → ℝ) (step : ℝ) :
    List ℕ → (Fin n → ℝ) → Option (Fin n → ℝ)
  | [], x => some x
  | h :: row, x => do
    if B.bp < h then none
    let start ← rd B.indptr h
    let flag ← rd B.data start                                        -- B_indices[k] = k
    if flag ≤ 0 then
      GroupL1.kernel alpha B d step row x
    else
      if B.bp < h + 1 then none
      let stop ← rd B.indptr (h + 1)
      let dh ← rd d h
      let ss := step * dh
      let js := List.range' start (stop - start)
      let sq ← sumSqLoop x js 0
      let norm := Real.sqrt sq
      let x ← if norm > alpha * ss then mapLoop (fun v => v * (1 - alpha * ss / norm)) js x
              else mapLoop (fun _ => 0) js x
      GroupL1.kernel alpha B d step row x

/-! ### Fused lasso -/

section Fused
variable {K : Type} [Field K] [LinearOrder K] {n m : ℕ}

/-- `FusedLasso.__call__`, penalty.py:158-159. -/
def FusedLasso.call (alpha : K) (x : Fin n → K) : K :=
  alpha * ∑ k : Fin (n - 1), |x ⟨k.val + 1, by omega⟩ - x ⟨k.val, by omega⟩|

/-- `np.arange(start, stop, step)` for natural numbers and `step > 0` (used at penalty.py:170 and 204). -/
def npArange (start stop step : ℕ) : List ℕ :=
  (List.range ((stop - start + (step - 1)) / step)).map (fun k => start + step * k)

/-- A block structure: `B_data`, `B_indptr` and the number of rows; `B_indices` is `arange(n_features)`. -/
structure PairBlocks (n : ℕ) where
  data : Fin n → ℤ
  indptr : List ℕ
  nBlocks : ℕ

/-- Block structure of `FusedLasso.prox_1_factory`, penalty.py:168-177. -/
def FusedLasso.blocks1 (n : ℕ) : PairBlocks n :=
  let indptr := npArange 0 (n + 1) 2                                     -- line 170
  if n % 2 = 1 then
    { data := fun j => if j.val + 1 = n then -1 else 1                   -- lines 168, 173
      indptr := indptr ++ [indptr.getLastD 0 + 1]                        -- line 172
      nBlocks := (n + 1) / 2 }
  else
    { data := fun _ => 1, indptr := indptr, nBlocks := (n + 1) / 2 }

/-- Block structure of `FusedLasso.prox_2_factory`, penalty.py:202-213 (`B_2_data[0] = -1` raises
IndexError for `n = 0`; the theorems assume `n ≥ 1`). -/
def FusedLasso.blocks2 (n : ℕ) : PairBlocks n :=
  let indptr := 0 :: npArange 1 (n + 2) 2                                -- lines 204-205
  if n % 2 = 0 then
    { data := fun j => if j.val + 1 = n then -1 else if j.val = 0 then -1 else 1   -- lines 206, 209
      indptr := indptr.dropLast ++ [indptr.getLastD 0 - 1]               -- line 208
      nBlocks := n / 2 + 1 }
  else
    { data := fun j => if j.val = 0 then -1 else 1
      indptr := indptr
      nBlocks := n / 2 + 1 }

/-- `_prox_1_fl` / `_prox_2_fl`, penalty.py:180-197 and 216-233 (identical code over the two block
structures); `row` is the slice `indices[indptr[i]:indptr[i+1]]`. -/
def FusedLasso.kernel (alpha : K) (B : PairBlocks n) (d : Fin m → K) (step : K) :
    List ℕ → (Fin n → K) → Option (Fin n → K)
  | [], x => some x
  | h :: row, x => do
    let j ← B.indptr[h]?
    let flag ← rd B.data j
    if flag ≤ 0 then
      FusedLasso.kernel alpha B d step row x
    else
      let dh ← rd d h
      let ss := step * dh * alpha
      let a ← rd x j
      let b ← rd x (j + 1)
      let x ←
        if a - ss ≥ b + ss then do
          wr (← wr x j (a - ss)) (j + 1) (b + ss)
        else if a + ss ≤ b - ss then do
          wr (← wr x j (a + ss)) (j + 1) (b - ss)
        else do
          wr (← wr x j ((a + b) / 2)) (j + 1) ((a + b) / 2)
      FusedLasso.kernel alpha B d step row x

end Fused

end Copt
