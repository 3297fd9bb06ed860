import Mathlib.Logic.Function.Basic
import Mathlib.Data.Fin.Basic
import Verif.Model.Py

/-!
# Checked accesses to fixed-size buffers

The compiled (`njit`) routines of copt index numpy buffers without bounds checks.  A buffer of length `n`
is a function `Fin n → α`; `rd`/`wr` return `none` on an out-of-range index, so "the model returns
`some _`" is memory safety.
-/

namespace Copt

variable {α : Type} {n : ℕ}

/-- Checked read `a[i]` (every non-negative index expression of an `njit` function in /repo/copt). -/
def rd (a : Fin n → α) (i : ℕ) : Option α := if h : i < n then some (a ⟨i, h⟩) else none

/-- Checked write `a[i] = v`. -/
def wr (a : Fin n → α) (i : ℕ) (v : α) : Option (Fin n → α) :=
  if h : i < n then some (Function.update a ⟨i, h⟩ v) else none

/-- Read with Python's bounds check: IndexError out of range. -/
def rdE (a : Fin n → α) (i : ℕ) : Except PyErr α :=
  if h : i < n then .ok (a ⟨i, h⟩) else .error .indexError

/-- The slice `indices[indptr[i]:indptr[i+1]]` of a CSR structure, i.e. the column indices of row `i`
(`for j in range(indptr[i], indptr[i + 1]): j_idx = indices[j]`, e.g. penalty.py:46-47). -/
def csrRow (indptr indices : ℕ → ℕ) (i : ℕ) : List ℕ :=
  (List.range' (indptr i) (indptr (i + 1) - indptr i)).map indices

theorem rd_lt (a : Fin n → α) {i : ℕ} (h : i < n) : rd a i = some (a ⟨i, h⟩) := dif_pos h

theorem rdE_lt (a : Fin n → α) {i : ℕ} (h : i < n) : rdE a i = .ok (a ⟨i, h⟩) := dif_pos h

theorem wr_lt (a : Fin n → α) {i : ℕ} (h : i < n) (v : α) :
    wr a i v = some (Function.update a ⟨i, h⟩ v) := dif_pos h

end Copt
