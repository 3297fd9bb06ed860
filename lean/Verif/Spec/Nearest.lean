import Mathlib.Data.Real.Basic

/-! # Rounding to the nearest floating-point number

The arithmetic of IEEE 754 without overflow and underflow, for any rule that breaks ties. -/

namespace Copt.Spec

/-- Numbers with `p + 1` significant bits. -/
def IsFloat (p : ℕ) (y : ℝ) : Prop := ∃ m e : ℤ, |m| ≤ 2 ^ (p + 1) ∧ y = m * (2 : ℝ) ^ e

/-- `rd` rounds to a nearest number of `p + 1` bits, symmetrically. -/
structure Nearest (p : ℕ) (rd : ℝ → ℝ) : Prop where
  mem : ∀ x, IsFloat p (rd x)
  near : ∀ x y, IsFloat p y → |rd x - x| ≤ |y - x|
  neg : ∀ x, rd (-x) = -rd x

end Copt.Spec
