import Mathlib.Logic.Equiv.Fin.Basic
import Mathlib.Analysis.InnerProductSpace.PiL2
import Verif.Model.Py

/-! # `make_func_and_grad` (`utils_pytorch.py`)

A contiguous tensor of shape `s` is a function on the multi-indices of `s`.  Automatic differentiation is a parameter (the contents of `x_tensor.grad`
after `loss.backward()`), constrained in the theorems.  Left out: devices, the rounding by a `dtype` other than that of `x`, a `-1` in the shape. -/

namespace Copt

/-- Multi-indices of a tensor of the given shape. -/
def TIdx : List ℕ → Type
  | [] => Unit
  | d :: s => Fin d × TIdx s

/-- Row-major numbering of the entries of a contiguous tensor. -/
def tPos : (s : List ℕ) → TIdx s ≃ Fin s.prod
  | [] => ⟨fun _ => ⟨0, by simp⟩, fun _ => (), fun _ => rfl, fun i => Fin.ext (by have h : i.val < 1 := i.isLt; exact (Nat.lt_one_iff.mp h).symm)⟩
  | d :: s => ((Equiv.refl (Fin d)).prodCongr (tPos s)).trans (finProdFinEquiv.trans (finCongr (by rw [List.prod_cons])))

/-- `x_tensor.view(*shape)` for a 1-D tensor, utils_pytorch.py:25: RuntimeError when the sizes differ. -/
def torchView {m : ℕ} (s : List ℕ) (x : Fin m → ℝ) : Except PyErr (TIdx s → ℝ) :=
  if h : s.prod = m then .ok fun idx => x (Fin.cast h (tPos s idx)) else .error .runtimeError

/-- `.numpy().flatten()`, utils_pytorch.py:32. -/
def torchFlatten (s : List ℕ) (t : TIdx s → ℝ) : Fin s.prod → ℝ := fun i => t ((tPos s).symm i)

/-- `func_and_grad(x)` of `make_func_and_grad(loss_func, shape, device)`, utils_pytorch.py:23-34; `backward t` is what `loss.backward()` leaves in the
`grad` of the fresh tensor `t`. -/
def torchFuncAndGrad (s : List ℕ) (loss : (TIdx s → ℝ) → ℝ) (backward : (TIdx s → ℝ) → TIdx s → ℝ) {m : ℕ} (x : Fin m → ℝ) :
    Except PyErr (ℝ × (Fin s.prod → ℝ)) := do
  let t ← torchView s x
  return (loss t, torchFlatten s (backward t))

/-- `func_and_grad(x, return_gradient=False)`, utils_pytorch.py:34. -/
def torchFunc (s : List ℕ) (loss : (TIdx s → ℝ) → ℝ) {m : ℕ} (x : Fin m → ℝ) : Except PyErr ℝ := do
  let t ← torchView s x
  return loss t

end Copt
