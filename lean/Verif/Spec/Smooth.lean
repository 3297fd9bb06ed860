import Mathlib.Analysis.InnerProductSpace.Basic

/-! # Specifications of smooth and convex objectives on a real inner product space -/

namespace Copt.Spec

variable {E : Type} [NormedAddCommGroup E] [InnerProductSpace ℝ E]

open scoped InnerProductSpace

/-- Quadratic upper bound with constant `L` (what "`L`-smooth" provides; implied by an `L`-Lipschitz gradient). -/
def UpperQuad (f : E → ℝ) (g : E → E) (L : ℝ) : Prop :=
  ∀ x y, f y ≤ f x + ⟪g x, y - x⟫_ℝ + L / 2 * ‖y - x‖ ^ 2

/-- `f` is convex with (sub)gradient field `g`. -/
def ConvexGrad (f : E → ℝ) (g : E → E) : Prop := ∀ x y, f x + ⟪g x, y - x⟫_ℝ ≤ f y

/-- `f` is `mu`-strongly convex with gradient `g`. -/
def StrongGrad (f : E → ℝ) (g : E → E) (mu : ℝ) : Prop := ∀ x y, f x + ⟪g x, y - x⟫_ℝ + mu / 2 * ‖y - x‖ ^ 2 ≤ f y

end Copt.Spec
