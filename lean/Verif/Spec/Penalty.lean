import Mathlib.Analysis.Real.Sqrt
import Verif.Spec.Basic

/-! # Specifications of penalties -/

namespace Copt.Spec

/-- Euclidean norm of the restriction of `y` to the features in `g`. -/
noncomputable def blockNorm {n : ℕ} (g : Finset (Fin n)) (y : Fin n → ℝ) : ℝ :=
  Real.sqrt (∑ i ∈ g, y i ^ 2)

/-- Weighted group-lasso penalty `∑ w_g ‖y_g‖`. -/
noncomputable def groupPen {n : ℕ} (L : List (ℝ × Finset (Fin n))) (y : Fin n → ℝ) : ℝ :=
  (L.map (fun wg => wg.1 * blockNorm wg.2 y)).sum

/-- The features listed in `g`. -/
def featSet {n : ℕ} (g : List ℕ) : Finset (Fin n) := Finset.univ.filter (fun i => i.val ∈ g)

/-- `|y_j - y_{j+1}|` (0 when `j + 1` is not an index of `y`). -/
def adjDiff {K : Type} [Field K] [LinearOrder K] {n : ℕ} (y : Fin n → K) (j : ℕ) : K :=
  if h : j + 1 < n then |y ⟨j, by omega⟩ - y ⟨j + 1, h⟩| else 0

/-- Weighted sum `∑ w |y_j - y_{j+1}|` over a list of pairs (weight, j). -/
def pairPen {K : Type} [Field K] [LinearOrder K] {n : ℕ} (L : List (K × ℕ)) (y : Fin n → K) : K :=
  (L.map (fun e => e.1 * adjDiff y e.2)).sum

/-- 1-D total variation `∑ |y_{k+1} - y_k|`. -/
def tv1 {K : Type} [Field K] [LinearOrder K] {n : ℕ} (y : Fin n → K) : K :=
  ∑ k : Fin (n - 1), |y ⟨k.val + 1, by omega⟩ - y ⟨k.val, by omega⟩|

end Copt.Spec
