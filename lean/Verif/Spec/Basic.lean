import Mathlib.Algebra.BigOperators.Group.Finset.Basic
import Mathlib.Algebra.BigOperators.Ring.Finset
import Mathlib.Algebra.Order.BigOperators.Group.Finset
import Mathlib.Algebra.Order.Field.Basic
import Mathlib.Data.Fintype.BigOperators

/-!
# Specifications: unique minimisers, projections and proximal points of vectors

Nothing in this file mentions the code.  Vectors of length `n` over an ordered field `K` are functions
`Fin n → K`; `K = ℝ` is the intended reading of floating point numbers.
-/

namespace Copt.Spec

variable {K : Type} [Field K] [LinearOrder K] {n : ℕ}

/-- `p` is the unique minimiser of `F` over the set `C`. -/
def IsUniqueMin {α : Type*} (C : Set α) (F : α → K) (p : α) : Prop :=
  p ∈ C ∧ ∀ y ∈ C, y ≠ p → F p < F y

/-- Dot product of two vectors. -/
def dot (x y : Fin n → K) : K := ∑ i, x i * y i

/-- Squared Euclidean distance. -/
def sqDist (x y : Fin n → K) : K := ∑ i, (x i - y i) ^ 2

/-- l1 norm. -/
def norm1 (x : Fin n → K) : K := ∑ i, |x i|

/-- `p` is the Euclidean projection of `v` onto `C`. -/
def IsProj (C : Set (Fin n → K)) (v p : Fin n → K) : Prop :=
  IsUniqueMin C (fun y => sqDist y v) p

/-- `p` is the proximal point of `s * pen` at `v`: the unique minimiser of
`s * pen y + 1/2 ‖y - v‖²`. -/
def IsProx (pen : (Fin n → K) → K) (s : K) (v p : Fin n → K) : Prop :=
  IsUniqueMin Set.univ (fun y => s * pen y + sqDist y v / 2) p

/-- Ball of radius `a` for the max-norm. -/
def linfBall (a : K) : Set (Fin n → K) := {y | ∀ i, |y i| ≤ a}

/-- Ball of radius `a` for the l1 norm. -/
def l1Ball (a : K) : Set (Fin n → K) := {y | norm1 y ≤ a}

/-- Ball of radius `a` for the Euclidean norm (`‖y‖² ≤ a²`, for `a ≥ 0`). -/
def l2Ball (a : K) : Set (Fin n → K) := {y | dot y y ≤ a ^ 2}

/-- The scaled simplex `{y ≥ 0, ∑ y = s}`. -/
def simplex (s : K) : Set (Fin n → K) := {y | (∀ i, 0 ≤ y i) ∧ ∑ i, y i = s}

/-- The documented feasible set of `SimplexConstraint.lmo`: `{y ≥ 0, ‖y‖₁ ≤ s}`. -/
def cappedSimplex (s : K) : Set (Fin n → K) := {y | (∀ i, 0 ≤ y i) ∧ norm1 y ≤ s}

/-- The vertex `a * sign * e_j` of the l1 ball of radius `a` denoted by the pair `(sign, j)`. -/
def l1Vertex (a : K) (rep : K × Fin n) : Fin n → K := fun i => if i = rep.2 then a * rep.1 else 0

/-- `s` maximises the linear function `⟨u, ·⟩` over `C`. -/
def MaximisesOn (C : Set (Fin n → K)) (u s : Fin n → K) : Prop := s ∈ C ∧ ∀ y ∈ C, dot u y ≤ dot u s

end Copt.Spec

namespace Copt.Spec

/-- A run of consecutive integers. -/
def IsRun (g : List ℕ) : Prop := ∃ a, g = List.range' a g.length

/-- `h` starts strictly after the end of `g`. -/
def StartsAfter (g h : List ℕ) : Prop := ∀ a ∈ g.getLast?, ∀ b ∈ h.head?, a < b

/-- Well-formed groups: non-empty runs of consecutive integers, each starting after the previous one. -/
def GoodGroups (groups : List (List ℕ)) : Prop :=
  (∀ g ∈ groups, g ≠ [] ∧ IsRun g) ∧ groups.IsChain StartsAfter

end Copt.Spec
