import Verif.Model.Torch
import Mathlib.Analysis.Calculus.Gradient.Basic
import Mathlib.Analysis.InnerProductSpace.Calculus

/-! # C111: the PyTorch wrapper returns the value and the gradient of the loss as a function of the flat array -/

namespace Copt

open scoped InnerProductSpace

/-- Position of a multi-index in a flat array, row by row. -/
def rowMajor : (s : List ℕ) → TIdx s → ℕ
  | [], _ => 0
  | _ :: s, (i, r) => i.val * s.prod + rowMajor s r

theorem tPos_val : ∀ (s : List ℕ) (idx : TIdx s), (tPos s idx).val = rowMajor s idx := by
  intro s
  induction s with
  | nil => intro _; rfl
  | cons d s ih =>
    rintro ⟨i, r⟩
    show (finProdFinEquiv (i, tPos s r)).val = i.val * s.prod + rowMajor s r
    rw [finProdFinEquiv_apply_val, ih r]
    simp only
    ring

instance : (s : List ℕ) → Fintype (TIdx s)
  | s => Fintype.ofEquiv _ (tPos s).symm

/-- **C111 (layout).** Entry `idx` of the tensor handed to the loss is the entry of `x` at the row-major position of `idx`; arrays of another size are
refused with RuntimeError. -/
theorem C111_layout {m : ℕ} (s : List ℕ) (x : Fin m → ℝ) :
    (s.prod = m → ∃ t, torchView s x = .ok t ∧ ∀ idx, ∃ h : rowMajor s idx < m, t idx = x ⟨rowMajor s idx, h⟩) ∧
      (s.prod ≠ m → torchView s x = .error .runtimeError) := by
  unfold torchView
  constructor
  · intro h
    rw [dif_pos h]
    refine ⟨_, rfl, fun idx => ?_⟩
    have hlt : rowMajor s idx < m := by
      rw [← tPos_val, ← h]
      exact (tPos s idx).isLt
    refine ⟨hlt, congrArg x (Fin.ext ?_)⟩
    rw [Fin.val_cast, tPos_val]
  · intro h
    rw [dif_neg h]

/-- `backward` computes partial derivatives of the differentiable function `loss`. -/
def AutoDiff {s : List ℕ} (loss : (TIdx s → ℝ) → ℝ) (backward : (TIdx s → ℝ) → TIdx s → ℝ) : Prop :=
  ∀ t, DifferentiableAt ℝ loss t ∧ ∀ h, fderiv ℝ loss t h = ∑ idx, backward t idx * h idx

/-- The loss as a function of the flat array. -/
def flatLoss {s : List ℕ} (loss : (TIdx s → ℝ) → ℝ) (x : EuclideanSpace ℝ (Fin s.prod)) : ℝ := loss fun idx => x (tPos s idx)

/-- **C111.** `func_and_grad(x)` returns the value of the loss at `x` and its gradient with respect to the flat array `x`;
`return_gradient=False` returns the same value. -/
theorem C111_gradient (s : List ℕ) (loss : (TIdx s → ℝ) → ℝ) (backward : (TIdx s → ℝ) → TIdx s → ℝ) (hb : AutoDiff loss backward)
    (x : EuclideanSpace ℝ (Fin s.prod)) :
    ∃ g, torchFuncAndGrad s loss backward (WithLp.ofLp x) = .ok (flatLoss loss x, g) ∧ HasGradientAt (flatLoss loss) (WithLp.toLp 2 g) x ∧
      torchFunc s loss (WithLp.ofLp x) = .ok (flatLoss loss x) := by
  have hv : torchView s (WithLp.ofLp x) = .ok fun idx => x (tPos s idx) := by
    unfold torchView
    rw [dif_pos rfl]
    rfl
  refine ⟨torchFlatten s (backward fun idx => x (tPos s idx)), ?_, ?_, ?_⟩
  · unfold torchFuncAndGrad
    rw [hv]
    rfl
  · obtain ⟨hd, hf⟩ := hb fun idx => x (tPos s idx)
    let V : EuclideanSpace ℝ (Fin s.prod) →L[ℝ] (TIdx s → ℝ) :=
      ContinuousLinearMap.pi fun idx => EuclideanSpace.proj (tPos s idx)
    have h1 : HasFDerivAt (flatLoss loss) ((fderiv ℝ loss (V x)).comp V) x := (show DifferentiableAt ℝ loss (V x) from hd).hasFDerivAt.comp x V.hasFDerivAt
    rw [hasGradientAt_iff_hasFDerivAt]
    refine h1.congr_fderiv (ContinuousLinearMap.ext fun h => ?_)
    symm
    rw [InnerProductSpace.toDual_apply_apply, ContinuousLinearMap.comp_apply]
    rw [show fderiv ℝ loss (V x) (V h) = _ from hf (V h), PiLp.inner_apply]
    rw [← Equiv.sum_comp (tPos s)]
    refine Finset.sum_congr rfl fun idx _ => ?_
    show h (tPos s idx) * (torchFlatten s (backward fun idx => x (tPos s idx)) (tPos s idx)) = _
    unfold torchFlatten
    rw [Equiv.symm_apply_apply, mul_comm]
    rfl
  · unfold torchFunc
    rw [hv]
    rfl

/-- Half the sum of squares of a `2 x 3` tensor, with its gradient. -/
noncomputable def exTorch (t : TIdx [2, 3] → ℝ) : ℝ := ∑ idx, t idx ^ 2 / 2

/-- The hypothesis of `C111_gradient` is met. -/
theorem exTorch_autodiff : AutoDiff exTorch fun t => t := by
  intro t
  have h : HasFDerivAt exTorch (∑ idx, t idx • (ContinuousLinearMap.proj (R := ℝ) (φ := fun _ : TIdx [2, 3] => ℝ) idx)) t := by
    unfold exTorch
    refine HasFDerivAt.fun_sum fun idx _ => ?_
    have h0 : HasFDerivAt (fun t : TIdx [2, 3] → ℝ => t idx) (ContinuousLinearMap.proj (R := ℝ) (φ := fun _ : TIdx [2, 3] => ℝ) idx) t :=
      (ContinuousLinearMap.proj (R := ℝ) (φ := fun _ : TIdx [2, 3] => ℝ) idx).hasFDerivAt
    have h1 := (h0.pow 2).mul_const (2⁻¹ : ℝ)
    refine (h1.congr_fderiv (ContinuousLinearMap.ext fun v => ?_)).congr_of_eventuallyEq (Filter.Eventually.of_forall fun v => ?_)
    · simp
      ring
    · simp [div_eq_mul_inv]
  refine ⟨h.differentiableAt, fun v => ?_⟩
  rw [h.fderiv, _root_.sum_apply]
  exact Finset.sum_congr rfl fun idx _ => by simp

/-- Entry `(1, 2)` of a `2 x 3` tensor is entry 5 of the flat array. -/
example : rowMajor [2, 3] ((1 : Fin 2), (2 : Fin 3), ()) = 5 := rfl

end Copt
