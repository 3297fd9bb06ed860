import Mathlib.Data.Real.Basic
import Mathlib.Algebra.Order.Round
import Mathlib.Algebra.BigOperators.Group.List.Basic

/-! # Rounded arithmetic

Standard model of floating-point arithmetic without overflow: each operation returns the rounding of its exact result. -/

namespace Copt.Spec

/-- `rd` rounds real numbers to a set of representable ones, with relative error at most `u` and, below the normal range, absolute error at most `eta`. -/
structure Rounding (rd : ℝ → ℝ) (u eta : ℝ) : Prop where
  mono : Monotone rd
  idem : ∀ x, rd (rd x) = rd x
  neg : ∀ x, rd (-x) = -rd x
  err : ∀ x, |rd x - x| ≤ u * |x| + eta
  u_nonneg : 0 ≤ u
  eta_nonneg : 0 ≤ eta

/-- `r` is a possible result of summing the non-empty list `l` with rounded additions, in any order and with any bracketing (numpy sums pairwise in blocks). -/
inductive FlSum (rd : ℝ → ℝ) : List ℝ → ℝ → Prop
  | single (x : ℝ) : FlSum rd [x] x
  | add {l l' : List ℝ} {a b : ℝ} : FlSum rd l a → FlSum rd l' b → FlSum rd (l ++ l') (rd (a + b))
  | perm {l l' : List ℝ} {a : ℝ} : l.Perm l' → FlSum rd l a → FlSum rd l' a

/-- `r` is a possible result of the dot product of the non-empty list of pairs `l`: rounded products summed in any order and with any bracketing, or fused multiply-add instructions. -/
inductive FlDot (rd : ℝ → ℝ) : List (ℝ × ℝ) → ℝ → Prop
  | single (x y : ℝ) : FlDot rd [(x, y)] (rd (x * y))
  | add {l l' : List (ℝ × ℝ)} {a b : ℝ} : FlDot rd l a → FlDot rd l' b → FlDot rd (l ++ l') (rd (a + b))
  | fma {l : List (ℝ × ℝ)} {a : ℝ} (x y : ℝ) : FlDot rd l a → FlDot rd ((x, y) :: l) (rd (x * y + a))
  | perm {l l' : List (ℝ × ℝ)} {a : ℝ} : l.Perm l' → FlDot rd l a → FlDot rd l' a

end Copt.Spec
