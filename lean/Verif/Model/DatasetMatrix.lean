import Verif.Model.Datasets
import Mathlib.Data.List.MinMax
import Mathlib.Data.List.GetD
import Mathlib.Algebra.BigOperators.Group.List.Basic

/-! # The matrices returned by `_load_dataset` (`datasets.py`)

`Model/Datasets` stops at the arrays that are read from the files; here they are assembled into CSR matrices.  Simplification: an index or pointer
array that was stored with another dtype (so that scipy would have to convert it) is a TypeError. -/

namespace Copt

variable {K : Type}

/-- A `scipy.sparse.csr_matrix`: shape and arrays. -/
structure LoadedCsr (K : Type) where
  rows : ℕ
  cols : ℕ
  data : List K
  indices : List ℕ
  indptr : List ℕ

/-- An array read by `np.load`: floating point or integer. -/
inductive NpArr (K : Type) where
  | floats (l : List K)
  | ints (l : List ℕ)

/-- `sparse.csr_matrix((data, indices, indptr))`, datasets.py:88 and 104.  No shape is passed: the number of rows is `len(indptr) - 1`, the number
of columns `max(indices) + 1`; scipy raises ValueError when the arrays are inconsistent or there is no index to take the maximum of. -/
def csrInfer (data : List K) (indices indptr : List ℕ) : Except PyErr (LoadedCsr K) :=
  match indices.max?, indptr.getLast? with
  | some top, some last =>
    if indptr.head? = some 0 ∧ data.length = indices.length ∧ last ≤ indices.length then
      .ok ⟨indptr.length - 1, top + 1, data, indices, indptr⟩
    else .error .valueError
  | _, _ => .error .valueError

/-- The arrays of one part, datasets.py:83-89 and 94-105: matrix and target. -/
def csrPart : List (NpArr K) → Except PyErr (LoadedCsr K × List K)
  | [.floats data, .ints indices, .ints indptr, .floats y] => do
    let A ← csrInfer data indices indptr
    return (A, y)
  | _ => .error .typeError

/-- `sparse.vstack((A, B))`, datasets.py:110: ValueError unless both have the same number of columns. -/
def csrStack (A B : LoadedCsr K) : Except PyErr (LoadedCsr K) :=
  if A.cols = B.cols then
    .ok ⟨A.rows + B.rows, A.cols, A.data.take (A.indptr.getLast?.getD 0) ++ B.data, A.indices.take (A.indptr.getLast?.getD 0) ++ B.indices,
      A.indptr ++ B.indptr.tail.map (· + A.indptr.getLast?.getD 0)⟩
  else .error .valueError

/-- `_load_dataset` from line 83 on, datasets.py:83-119: the matrix and the target of the requested subset. -/
def dsMatrix (decode : List UInt8 → Option (NpArr K)) (fs : DsFs) (subset : String) : Except PyErr (LoadedCsr K × List K) := do
  let train ← csrPart (← dsRead decode fs filesTrain)
  if subset = "train" then return train
  else
    let test ← csrPart (← dsRead decode fs filesTest)
    if subset = "test" then return test
    else if subset = "full" then do
      let A ← csrStack train.1 test.1
      return (A, train.2 ++ test.2)
    else .error .valueError

/-- `((y + 1) // 2).astype(int)` on labels that are integers, datasets.py:245 and 407. -/
def relabel (y : ℤ) : ℤ := (y + 1) / 2

end Copt
