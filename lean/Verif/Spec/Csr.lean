import Mathlib.Data.Fintype.BigOperators
import Mathlib.Algebra.Field.Basic

/-! # The matrix described by CSR arrays -/

namespace Copt.Spec

variable {K : Type} [Field K] {m nnz : ℕ}

/-- Well-formed CSR arrays of an `m x d` matrix. -/
structure GoodCsr (d : ℕ) (indptr : Fin (m + 1) → ℕ) (indices : Fin nnz → ℕ) : Prop where
  mono : ∀ i : Fin m, indptr i.castSucc ≤ indptr i.succ
  le_nnz : ∀ i, indptr i ≤ nnz
  col_lt : ∀ j, indices j < d

/-- Entry `(i, c)`: the sum of the stored values of row `i` whose column index is `c` (duplicates are summed). -/
def csrEntry (data : Fin nnz → K) (indptr : Fin (m + 1) → ℕ) (indices : Fin nnz → ℕ) (i : Fin m) (c : ℕ) : K :=
  ∑ j : Fin nnz, if indptr i.castSucc ≤ j.val ∧ j.val < indptr i.succ ∧ indices j = c then data j else 0

/-- Row `i` stores an entry of column `c` (possibly zero). -/
def StoresAt (indptr : Fin (m + 1) → ℕ) (indices : Fin nnz → ℕ) (i : Fin m) (c : ℕ) : Prop :=
  ∃ j : Fin nnz, indptr i.castSucc ≤ j.val ∧ j.val < indptr i.succ ∧ indices j = c

/-- No row stores a column twice. -/
def NoDuplicates (indptr : Fin (m + 1) → ℕ) (indices : Fin nnz → ℕ) : Prop :=
  ∀ (i : Fin m) (j k : Fin nnz), indptr i.castSucc ≤ j.val → j.val < indptr i.succ → indptr i.castSucc ≤ k.val → k.val < indptr i.succ →
    indices j = indices k → j = k

/-- `ptr` cuts `0, ..., p - 1` into consecutive blocks. -/
structure CutsInto {nb : ℕ} (p : ℕ) (ptr : Fin (nb + 1) → ℕ) : Prop where
  zero : ptr 0 = 0
  last : ptr (Fin.last nb) = p
  mono : ∀ h : Fin nb, ptr h.castSucc ≤ ptr h.succ

/-- Feature `c` belongs to block `h`. -/
def InBlock {nb : ℕ} (ptr : Fin (nb + 1) → ℕ) (h : Fin nb) (c : ℕ) : Prop := ptr h.castSucc ≤ c ∧ c < ptr h.succ

/-- Sample `i` touches block `h`: it stores a feature of the block. -/
def Touches {nb : ℕ} (indptr : Fin (m + 1) → ℕ) (indices : Fin nnz → ℕ) (ptr : Fin (nb + 1) → ℕ) (i : Fin m) (h : Fin nb) : Prop :=
  ∃ c, StoresAt indptr indices i c ∧ InBlock ptr h c

end Copt.Spec
