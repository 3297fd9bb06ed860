import Mathlib.Analysis.Convex.Function
import Mathlib.Analysis.InnerProductSpace.Basic
import Verif.Spec.Smooth

/-! # Specifications: extended-valued convex functions, proximal points, subgradients -/

namespace Copt.Spec

variable {E : Type} [NormedAddCommGroup E] [InnerProductSpace ℝ E]

open scoped InnerProductSpace

/-- A function to `ℝ ∪ {+∞}`: it equals `val` on `dom` and `+∞` elsewhere. -/
structure ExtFun (E : Type) where
  dom : Set E
  val : E → ℝ

/-- Convexity of an extended-valued function. -/
def ExtFun.IsConvex (G : ExtFun E) : Prop := ConvexOn ℝ G.dom G.val

/-- `p` minimises `s * G y + ‖y - v‖²/2`. -/
def IsProxPt (G : ExtFun E) (s : ℝ) (v p : E) : Prop :=
  p ∈ G.dom ∧ ∀ y ∈ G.dom, s * G.val p + ‖p - v‖ ^ 2 / 2 ≤ s * G.val y + ‖y - v‖ ^ 2 / 2

/-- `v` is a subgradient of `G` at `x`. -/
def IsSubgrad (G : ExtFun E) (x v : E) : Prop := x ∈ G.dom ∧ ∀ y ∈ G.dom, G.val x + ⟪v, y - x⟫_ℝ ≤ G.val y

/-- `prox` is the proximal operator of `G`, for every positive step. -/
def IsProxOf (G : ExtFun E) (prox : E → ℝ → E) : Prop := ∀ v s, 0 < s → IsProxPt G s v (prox v s)

/-- The zero function. -/
def ExtFun.zero : ExtFun E := ⟨Set.univ, fun _ => 0⟩

/-- The indicator function of a set. -/
def ExtFun.indicator (C : Set E) : ExtFun E := ⟨C, fun _ => 0⟩

/-- `g` is `L`-Lipschitz. -/
def LipGrad (g : E → E) (L : ℝ) : Prop := ∀ x y, ‖g x - g y‖ ≤ L * ‖x - y‖

/-- The convex conjugate: finite where `⟪y, w⟫ - H w` is bounded above. -/
noncomputable def ExtFun.conj (H : ExtFun E) : ExtFun E :=
  ⟨{y | BddAbove ((fun w => ⟪y, w⟫_ℝ - H.val w) '' H.dom)}, fun y => sSup ((fun w => ⟪y, w⟫_ℝ - H.val w) '' H.dom)⟩

end Copt.Spec
