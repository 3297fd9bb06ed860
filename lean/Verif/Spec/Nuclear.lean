import Mathlib.Analysis.Real.Sqrt
import Mathlib.Data.Matrix.Mul
import Mathlib.LinearAlgebra.Matrix.Trace
import Mathlib.Logic.Equiv.Fin.Basic
import Verif.Spec.Basic

/-!
# Nuclear norm

The nuclear norm is defined by duality: the supremum of `⟨Y, Z⟩` over all contractions `Z`.
`nuc_eq_sum_of_isSvd` (in `Props/Trace`) shows that it is the sum of the singular values of any singular
value decomposition.
-/

namespace Copt.Spec

open Matrix

variable {M N k : ℕ}

/-- Frobenius inner product. -/
def frob (A B : Matrix (Fin M) (Fin N) ℝ) : ℝ := ∑ i, ∑ j, A i j * B i j

/-- `‖Z v‖ ≤ c ‖v‖` for all `v` (squared form, for `c ≥ 0`). -/
def OpBound (c : ℝ) (Z : Matrix (Fin M) (Fin N) ℝ) : Prop :=
  ∀ v, dot (Z *ᵥ v) (Z *ᵥ v) ≤ c ^ 2 * dot v v

/-- Nuclear norm, as the dual norm of the operator norm. -/
noncomputable def nuc (Y : Matrix (Fin M) (Fin N) ℝ) : ℝ := sSup {r | ∃ Z, OpBound 1 Z ∧ r = frob Y Z}

/-- Row-major reshape of a vector of length `M * N` into an `M × N` matrix. -/
def unravel (x : Fin (M * N) → ℝ) : Matrix (Fin M) (Fin N) ℝ := fun i j => x (finProdFinEquiv (i, j))

/-- Ball of radius `a` of the nuclear norm (raveled matrices). -/
def nucBall (M N : ℕ) (a : ℝ) : Set (Fin (M * N) → ℝ) := {x | nuc (unravel (M := M) (N := N) x) ≤ a}

/-- Thin singular value decomposition `X = U diag(s) Vt`. -/
structure IsSvd (X : Matrix (Fin M) (Fin N) ℝ) (U : Matrix (Fin M) (Fin k) ℝ) (s : Fin k → ℝ)
    (Vt : Matrix (Fin k) (Fin N) ℝ) : Prop where
  orthU : Uᵀ * U = 1
  orthV : Vt * Vtᵀ = 1
  nonneg : ∀ i, 0 ≤ s i
  eq : X = U * Matrix.diagonal s * Vt

/-- Leading singular triple: unit vectors with `X v = σ u`, where `σ` bounds the operator norm. -/
structure IsLeadingTriple (X : Matrix (Fin M) (Fin N) ℝ) (u : Fin M → ℝ) (σ : ℝ) (v : Fin N → ℝ) : Prop where
  unitU : dot u u = 1
  unitV : dot v v = 1
  nonneg : 0 ≤ σ
  eq : X *ᵥ v = σ • u
  top : OpBound σ X

end Copt.Spec
