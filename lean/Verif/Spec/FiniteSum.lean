import Verif.Spec.Basic
import Verif.Spec.Csr
import Mathlib.Analysis.Calculus.Deriv.Basic

/-! # Specifications: regularised finite sums of losses of linear predictions, with block-separable penalties -/

namespace Copt.Spec

variable {K : Type} [Field K] {n p nb : ℕ}

/-- `(1/n) ∑ f(⟨a_i, x⟩, b_i) + alpha/2 ‖x‖²`. -/
def finiteSum (a : Fin n → Fin p → K) (b : Fin n → K) (f : K → K → K) (alpha : K) (x : Fin p → K) : K :=
  (∑ i, f (∑ c, a i c * x c) (b i)) / (n : K) + alpha / 2 * ∑ c, x c ^ 2

/-- `(1/n) ∑ f'(⟨a_i, x⟩, b_i) a_i + alpha x`. -/
def finiteSumGrad (a : Fin n → Fin p → K) (b : Fin n → K) (f' : K → K → K) (alpha : K) (x : Fin p → K) : Fin p → K := fun c =>
  (∑ i, f' (∑ j, a i j * x j) (b i) * a i c) / (n : K) + alpha * x c

/-- A convex penalty for every block, depending on the features of that block only. -/
structure IsBlockPenalty [LinearOrder K] (ptr : Fin (nb + 1) → ℕ) (pen : Fin nb → (Fin p → K) → K) : Prop where
  loc : ∀ h x y, (∀ c : Fin p, InBlock ptr h c → x c = y c) → pen h x = pen h y
  conv : ∀ h x y, ∀ t : K, 0 ≤ t → t ≤ 1 → pen h ((1 - t) • x + t • y) ≤ (1 - t) * pen h x + t * pen h y

/-- The penalties of the blocks listed in `hs`, weighted. -/
def listedPen (pen : Fin nb → (Fin p → K) → K) (w : ℕ → K) (hs : List ℕ) (y : Fin p → K) : K :=
  ∑ h : Fin nb, if h.val ∈ hs then w h.val * pen h y else 0

end Copt.Spec
