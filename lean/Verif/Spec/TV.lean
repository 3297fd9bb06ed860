import Mathlib.Logic.Equiv.Fin.Basic
import Verif.Spec.Penalty

/-! # Specification of the 2-D total variation of row-major images -/

namespace Copt.Spec

variable {K : Type} [Field K] [LinearOrder K] {R C : ℕ}

/-- Pixel `(i, j)` of an image stored row by row. -/
def pix (x : Fin (R * C) → K) (i : Fin R) (j : Fin C) : K := x (finProdFinEquiv (i, j))

/-- Vertical variation: the 1-D total variation of every column. -/
def tvCols (R C : ℕ) (x : Fin (R * C) → K) : K := ∑ j : Fin C, tv1 (fun i : Fin R => pix x i j)

/-- Horizontal variation: the 1-D total variation of every row. -/
def tvRows (R C : ℕ) (x : Fin (R * C) → K) : K := ∑ i : Fin R, tv1 (fun j : Fin C => pix x i j)

/-- Anisotropic 2-D total variation. -/
def tv2 (R C : ℕ) (x : Fin (R * C) → K) : K := tvCols R C x + tvRows R C x

end Copt.Spec
