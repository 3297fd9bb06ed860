import Mathlib.Analysis.SpecialFunctions.Log.Basic
import Mathlib.Analysis.SpecialFunctions.ExpDeriv
import Verif.Spec.Basic

/-! # Specifications of the losses of copt: documented values, gradients, Hessians, smoothness constants -/

namespace Copt.Spec

variable {n d : ℕ}

/-- Matrix-vector product. -/
noncomputable def mulVec (A : Fin n → Fin d → ℝ) (x : Fin d → ℝ) : Fin n → ℝ := fun i => dot (A i) x

/-- Euclidean norm. -/
noncomputable def norm2 (x : Fin d → ℝ) : ℝ := Real.sqrt (dot x x)

/-- The linear form `⟨g, ·⟩`. -/
noncomputable def dotL (g : Fin d → ℝ) : (Fin d → ℝ) →L[ℝ] ℝ := ∑ j, g j • ContinuousLinearMap.proj j

/-- `g` is the gradient of `f` at `x` (Fréchet). -/
def IsGrad (f : (Fin d → ℝ) → ℝ) (g : Fin d → ℝ) (x : Fin d → ℝ) : Prop := HasFDerivAt f (dotL g) x

/-- `H` is the Hessian of `f` at `x`: the derivative of every gradient field of `f`. -/
def IsHess (f : (Fin d → ℝ) → ℝ) (H : (Fin d → ℝ) →L[ℝ] (Fin d → ℝ)) (x : Fin d → ℝ) : Prop :=
  ∃ g : (Fin d → ℝ) → (Fin d → ℝ), (∀ y, IsGrad f (g y) y) ∧ HasFDerivAt g H x

/-- `g` is Lipschitz with constant `L` for the Euclidean norm. -/
def LipWith (L : ℝ) (g : (Fin d → ℝ) → (Fin d → ℝ)) : Prop := ∀ x y, norm2 (g x - g y) ≤ L * norm2 (x - y)

/-- `s` is the largest singular value of `A`. -/
def IsLargestSingular (A : Fin n → Fin d → ℝ) (s : ℝ) : Prop :=
  0 ≤ s ∧ (∀ v, norm2 (mulVec A v) ≤ s * norm2 v) ∧ ∃ v, v ≠ 0 ∧ norm2 (mulVec A v) = s * norm2 v

/-- The sigmoid. -/
noncomputable def sigmoid (t : ℝ) : ℝ := 1 / (1 + Real.exp (-t))

/-- Logistic loss of one sample, as documented: `-(b log σ(z) + (1 - b) log(1 - σ(z)))`. -/
noncomputable def logistic1 (b z : ℝ) : ℝ := -(b * Real.log (sigmoid z) + (1 - b) * Real.log (1 - sigmoid z))

/-- Huber function of threshold `delta`. -/
noncomputable def huber1 (delta z : ℝ) : ℝ := if |z| ≤ delta then z ^ 2 / 2 else delta * (|z| - delta / 2)

/-- Regularised empirical risk `(1/n) ∑ φ_i(⟨a_i, x⟩) + alpha/2 ‖x‖²`. -/
noncomputable def erm (A : Fin n → Fin d → ℝ) (alpha : ℝ) (phi : Fin n → ℝ → ℝ) (x : Fin d → ℝ) : ℝ :=
  (∑ i, phi i (dot (A i) x)) / n + alpha / 2 * dot x x

/-- Documented logistic loss (loss.py:12-19) with the `alpha/2 ‖x‖²` term. -/
noncomputable def logisticLoss (A : Fin n → Fin d → ℝ) (b : Fin n → ℝ) (alpha : ℝ) : (Fin d → ℝ) → ℝ :=
  erm A alpha fun i z => logistic1 (b i) z

/-- Documented squared loss (loss.py:215-218). -/
noncomputable def squareLoss (A : Fin n → Fin d → ℝ) (b : Fin n → ℝ) (alpha : ℝ) (x : Fin d → ℝ) : ℝ :=
  1 / (2 * n) * ∑ i, (dot (A i) x - b i) ^ 2 + 1 / 2 * alpha * ∑ j, x j ^ 2

/-- Huber loss of the residuals. -/
noncomputable def huberLoss (A : Fin n → Fin d → ℝ) (b : Fin n → ℝ) (alpha delta : ℝ) : (Fin d → ℝ) → ℝ :=
  erm A alpha fun i z => huber1 delta (z - b i)

end Copt.Spec

namespace Copt.Spec

/-- Logistic loss with an unpenalised intercept: the last entry of `w` is added to every decision value. -/
noncomputable def logisticLossIntercept {n d : ℕ} (A : Fin n → Fin d → ℝ) (b : Fin n → ℝ) (alpha : ℝ)
    (w : Fin (d + 1) → ℝ) : ℝ :=
  (∑ i, logistic1 (b i) (dot (A i) (fun j : Fin d => w j.castSucc) + w (Fin.last d))) / n +
    alpha / 2 * dot (fun j : Fin d => w j.castSucc) (fun j : Fin d => w j.castSucc)

end Copt.Spec
