import Mathlib.Algebra.BigOperators.Fin
import Verif.Proof.Loss

/-! # Properties of copt/loss.py (C21 - C27, C76) -/

set_option linter.unusedSectionVars false

namespace Copt

open Spec

variable {n m d : ℕ}

/-! ### C21: value of the logistic loss -/

theorem lossOf_error (hn : 0 < n) (f : LogLoss n d) (x : Fin d → ℝ) (c : ℝ) :
    |f.lossOf x c - ((∑ i, logistic1 (f.b i) (dot (f.A i) x + c)) / n + f.alpha / 2 * dot x x)| ≤ Real.exp (-33) := by
  have hn' : (0 : ℝ) < n := Nat.cast_pos.mpr hn
  have e : f.lossOf x c - ((∑ i, logistic1 (f.b i) (dot (f.A i) x + c)) / n + f.alpha / 2 * dot x x) =
      (∑ i, (Real.log (sigmoid (f.decision x c i)) - LogLoss.logsig (f.decision x c) i)) / n := by
    unfold LogLoss.lossOf npMean
    simp only [logistic1_eq]
    have : ∀ i, dot (f.A i) x + c = f.decision x c i := fun i => rfl
    simp only [this, Finset.sum_sub_distrib]
    unfold dot
    ring
  rw [e, abs_div, abs_of_pos hn', div_le_iff₀ hn']
  refine le_trans (Finset.abs_sum_le_sum_abs _ _) ?_
  refine le_trans (Finset.sum_le_card_nsmul Finset.univ _ (Real.exp (-33)) fun i _ => ?_) ?_
  · rw [abs_sub_comm]; exact logsig_error _ i
  · simp [nsmul_eq_mul, mul_comm]

/-- **C21.** The value returned by a `LogLoss` differs from the documented loss by at most `exp(-33)`. -/
theorem C21_value_error (hn : 0 < n) (f : LogLoss n d) (x : Fin d → ℝ) :
    |f.call x - logisticLoss f.A f.b f.alpha x| ≤ Real.exp (-33) := by
  have := lossOf_error hn f x 0
  simp only [add_zero] at this
  exact this

/-- **C21 (f_grad).** The first component of `f_grad` is the same number. -/
theorem C21_fgrad_value_error (hn : 0 < n) (f : LogLoss n d) (x : Fin d → ℝ) :
    (f.fGrad x).1 = f.call x ∧ |(f.fGrad x).1 - logisticLoss f.A f.b f.alpha x| ≤ Real.exp (-33) :=
  ⟨rfl, C21_value_error hn f x⟩

/-- **C21 (constructor).** The constructor accepts exactly non-empty labels in `[0, 1]` with as many rows in `A`; it then
stores its arguments, and it raises ValueError otherwise. -/
theorem C21_constructor (A : Fin n → Fin d → ℝ) (b : Fin m → ℝ) (alpha : ℝ) :
    (∀ h : n = m, 0 < m → (∀ i, 0 ≤ b i ∧ b i ≤ 1) →
      LogLoss.init A b alpha = .ok ⟨fun i => A (Fin.cast h.symm i), b, alpha, false⟩) ∧
    (¬ (n = m ∧ 0 < m ∧ ∀ i, 0 ≤ b i ∧ b i ≤ 1) → LogLoss.init A b alpha = .error .valueError) := by
  constructor
  · intro h hm hb
    have : LogLoss.checkLabels b = .ok () := by
      unfold LogLoss.checkLabels
      rw [if_neg (by omega), if_neg]
      rintro (⟨i, hi⟩ | ⟨i, hi⟩)
      · exact absurd (hb i).2 (not_le.mpr hi)
      · exact absurd (hb i).1 (not_le.mpr hi)
    unfold LogLoss.init
    rw [this]
    show (if h : n = m then _ else _) = _
    rw [dif_pos h]
  · intro h
    unfold LogLoss.init
    by_cases hc : LogLoss.checkLabels b = .ok ()
    · rw [hc]
      show (if h : n = m then _ else _) = _
      rw [dif_neg]
      intro hnm
      refine h ⟨hnm, ?_⟩
      unfold LogLoss.checkLabels at hc
      split_ifs at hc with h1 h2
      refine ⟨Nat.pos_of_ne_zero h1, fun i => ⟨?_, ?_⟩⟩
      · by_contra hi; exact h2 (Or.inr ⟨i, not_le.mp hi⟩)
      · by_contra hi; exact h2 (Or.inl ⟨i, not_le.mp hi⟩)
    · have : LogLoss.checkLabels b = .error .valueError := by
        unfold LogLoss.checkLabels at hc ⊢
        split_ifs at hc ⊢ with h1 h2
        · rfl
        · rfl
        · exact absurd trivial (by simpa using hc)
      rw [this]; rfl

/-- **C21 (`A=None`).** The identity matrix is used, so the decision values are the entries of `x`. -/
theorem C21_constructor_none (b : Fin m → ℝ) (alpha : ℝ) (hm : 0 < m) (hb : ∀ i, 0 ≤ b i ∧ b i ≤ 1) :
    ∃ f, LogLoss.initNone b alpha = .ok f ∧ f.b = b ∧ f.alpha = alpha ∧ ∀ x, f.decision x 0 = x := by
  refine ⟨_, (C21_constructor _ b alpha).1 rfl hm hb, rfl, rfl, fun x => ?_⟩
  funext i
  simp [LogLoss.decision, matVec]

example : (∀ i, (0 : ℝ) ≤ (![0, 1, 1 / 2] : Fin 3 → ℝ) i ∧ (![0, 1, 1 / 2] : Fin 3 → ℝ) i ≤ 1) := by
  intro i; fin_cases i <;> norm_num

/-! ### C22, C23: gradient and partial derivatives -/

theorem decision_eq (f : LogLoss n d) (x : Fin d → ℝ) (i : Fin n) : f.decision x 0 i = dot (f.A i) x := by
  simp [LogLoss.decision, matVec, dot]

/-- **C22.** The second component of `f_grad` is the gradient of the documented loss. -/
theorem C22_gradient (f : LogLoss n d) (x : Fin d → ℝ) :
    IsGrad (logisticLoss f.A f.b f.alpha) (f.fGrad x).2 x := by
  have := isGrad_erm (A := f.A) (alpha := f.alpha) (phi := fun i z => logistic1 (f.b i) z)
    (phi' := fun i => sigmoid (dot (f.A i) x) - f.b i) (x := x) (fun i => hasDerivAt_logistic1 (f.b i) _)
  have e : (f.fGrad x).2 = fun j => matVecT f.A (fun i => sigmoid (dot (f.A i) x) - f.b i) j / n + f.alpha * x j := by
    funext j
    show matVecT f.A (LogLoss.expitB (f.decision x 0) f.b) j / n + f.alpha * x j = _
    have : LogLoss.expitB (f.decision x 0) f.b = fun i => sigmoid (dot (f.A i) x) - f.b i := by
      funext i; rw [expitB_apply, decision_eq]
    rw [this]
  rw [e]; exact this

/-- **C23 (expit_b).** Both stability branches equal `σ(p) - y`. -/
theorem C23_expit_b (p y : Fin n → ℝ) (i : Fin n) : LogLoss.expitB p y i = 1 / (1 + Real.exp (-p i)) - y i :=
  expitB_apply p y i

/-- **C23 (partial_deriv).** -/
theorem C23_partial_deriv (p y : Fin n → ℝ) (i : Fin n) : LogLoss.partialDeriv p y i = 1 / (1 + Real.exp (-p i)) - y i :=
  expit_branches (p i) (y i)

/-- **C23 (derivative).** `partial_deriv` is the derivative of the per-sample loss. -/
theorem C23_is_derivative (p y : Fin n → ℝ) (i : Fin n) :
    HasDerivAt (logistic1 (y i)) (LogLoss.partialDeriv p y i) (p i) := by
  rw [C23_partial_deriv]; exact hasDerivAt_logistic1 _ _

/-! ### C24: Lipschitz constants -/

theorem gradField_eq {f : (Fin d → ℝ) → ℝ} {g g' : (Fin d → ℝ) → Fin d → ℝ} (h : ∀ y, IsGrad f (g y) y)
    (h' : ∀ y, IsGrad f (g' y) y) : g = g' := funext fun y => isGrad_unique (h y) (h' y)

/-- **C24.** The gradient of the logistic loss is Lipschitz with constant `LogLoss.lipschitz`. -/
theorem C24_lipschitz (f : LogLoss n d) (ha : 0 ≤ f.alpha) {s : ℝ} (hs : IsLargestSingular f.A s)
    {g : (Fin d → ℝ) → Fin d → ℝ} (hg : ∀ x, IsGrad (logisticLoss f.A f.b f.alpha) (g x) x) :
    LipWith (f.lipschitz s) g := by
  have hg' := gradField_eq hg fun x => isGrad_erm (A := f.A) (alpha := f.alpha) (phi := fun i z => logistic1 (f.b i) z)
    (phi' := fun i => sigmoid (dot (f.A i) x) - f.b i) (x := x) (fun i => hasDerivAt_logistic1 (f.b i) _)
  rw [hg']
  have := lip_erm (A := f.A) (alpha := f.alpha) (s := s) (c := 0.25) ha (by norm_num) (fun i z => sigmoid z - f.b i) hs.1
    hs.2.1 (fun i a b => by
      have := sigmoid_lipschitz a b
      rw [sub_sub_sub_cancel_right]; norm_num at this ⊢; exact this)
  exact this

theorem row_bound (f : Fin n → Fin d → ℝ) (i : Fin n) : dot (f i) (f i) ≤ LogLoss.maxRowSq f := by
  have hn : 0 < n := i.pos
  unfold LogLoss.maxRowSq
  rw [dif_pos hn]
  exact Finset.le_sup' (fun i => ∑ j, f i j * f i j) (Finset.mem_univ i)

/-- Per-sample version of `lip_erm`. -/
theorem lip_sample {a : Fin d → ℝ} {alpha c M : ℝ} (ha : 0 ≤ alpha) (hc : 0 ≤ c) {phi phi' : ℝ → ℝ}
    (hM : dot a a ≤ M) (hd : ∀ z, HasDerivAt phi (phi' z) z) (hphi : ∀ u v, |phi' u - phi' v| ≤ c * |u - v|)
    {g : (Fin d → ℝ) → Fin d → ℝ} (hg : ∀ x, IsGrad (fun x => phi (dot a x) + alpha / 2 * dot x x) (g x) x) :
    LipWith (c * M + alpha) g := by
  set A : Fin 1 → Fin d → ℝ := fun _ => a with hA
  have he : (fun x => phi (dot a x) + alpha / 2 * dot x x) = erm A alpha (fun _ => phi) := by
    funext x; simp [erm, hA]
  rw [he] at hg
  have hg' := gradField_eq hg fun x => isGrad_erm (A := A) (phi := fun _ => phi) (phi' := fun _ => phi' (dot a x))
    (fun i => hd _)
  rw [hg']
  have hsq : norm2 a * norm2 a = dot a a := by rw [← pow_two, norm2_sq]
  have h := lip_erm (A := A) (alpha := alpha) (s := norm2 a) (c := c) ha hc (fun _ => phi') (norm2_nonneg _)
    (fun v => by
      have h1 : norm2 (mulVec A v) = |dot a v| := by
        unfold norm2
        have : dot (mulVec A v) (mulVec A v) = dot a v * dot a v := by
          conv_lhs => rw [dot]
          simp [hA, mulVec]
        rw [this, Real.sqrt_mul_self_eq_abs]
      rw [h1]
      have h2 := dot_le_norm2 a v
      have h3 := dot_le_norm2 a ((-1 : ℝ) • v)
      rw [dot_smul_right, norm2_smul] at h3
      rw [abs_le]; constructor
      · norm_num at h3; linarith
      · exact h2) (fun i u v => hphi u v)
  intro x y
  refine le_trans (h x y) ?_
  refine mul_le_mul_of_nonneg_right ?_ (norm2_nonneg _)
  rw [hsq]
  have := mul_le_mul_of_nonneg_left hM hc
  simp only [Nat.cast_one, div_one]
  linarith

/-- **C24 (max_lipschitz).** Every per-sample gradient is Lipschitz with constant `LogLoss.max_lipschitz`. -/
theorem C24_max_lipschitz (f : LogLoss n d) (ha : 0 ≤ f.alpha) (i : Fin n) {g : (Fin d → ℝ) → Fin d → ℝ}
    (hg : ∀ x, IsGrad (fun x => logistic1 (f.b i) (dot (f.A i) x) + f.alpha / 2 * dot x x) (g x) x) :
    LipWith f.maxLipschitz g :=
  lip_sample ha (by norm_num) (row_bound f.A i) (fun z => hasDerivAt_logistic1 (f.b i) z) (fun u v => by
      have := sigmoid_lipschitz u v
      rw [sub_sub_sub_cancel_right]; norm_num at this ⊢; exact this) hg

/-- A data set with largest singular value 5. -/
theorem largestSingular_example : IsLargestSingular (fun _ : Fin 1 => ![3, (4 : ℝ)]) 5 := by
  have hn : ∀ v : Fin 1 → ℝ, norm2 v = |v 0| := by
    intro v; simp [norm2, dot, Real.sqrt_mul_self_eq_abs]
  refine ⟨by norm_num, fun v => ?_, ![3, 4], ?_, ?_⟩
  · rw [hn]
    have h1 := dot_sq_le ![3, (4 : ℝ)] v
    have h2 : dot ![3, (4 : ℝ)] ![3, 4] = 25 := by simp [dot]; norm_num
    rw [h2, ← norm2_sq v, show (25 : ℝ) * norm2 v ^ 2 = (5 * norm2 v) ^ 2 by ring] at h1
    exact abs_le_of_sq_le_sq h1 (by have := norm2_nonneg v; linarith)
  · intro h; have := congrFun h 0; simp at this
  · rw [hn]
    have h2 : dot ![3, (4 : ℝ)] ![3, 4] = 25 := by simp [dot]; norm_num
    have : norm2 ![3, (4 : ℝ)] = 5 := by
      unfold norm2; rw [h2, show (25 : ℝ) = 5 ^ 2 by norm_num]; exact Real.sqrt_sq (by norm_num)
    rw [this]; show |dot ![3, (4 : ℝ)] ![3, 4]| = _; rw [h2]; norm_num

/-! ### C25: Hessian -/

/-- Hessian of the logistic loss as a linear map. -/
noncomputable def hessL (f : LogLoss n d) (x : Fin d → ℝ) : (Fin d → ℝ) →L[ℝ] (Fin d → ℝ) :=
  ContinuousLinearMap.pi fun j => (n : ℝ)⁻¹ • (∑ i, (f.A i j * f.hessD x 0 i) • dotL (f.A i)) +
    f.alpha • ContinuousLinearMap.proj j

theorem hessL_isHess (f : LogLoss n d) (x : Fin d → ℝ) : IsHess (logisticLoss f.A f.b f.alpha) (hessL f x) x := by
  refine ⟨fun x => (f.fGrad x).2, C22_gradient f, ?_⟩
  rw [hasFDerivAt_pi']
  intro j
  have h1 : ∀ i ∈ (Finset.univ : Finset (Fin n)), HasFDerivAt (fun x => f.A i j * (sigmoid (dot (f.A i) x) - f.b i))
      ((f.A i j * f.hessD x 0 i) • dotL (f.A i)) x := by
    intro i _
    have hs : HasDerivAt (fun z => f.A i j * (sigmoid z - f.b i))
        (f.A i j * (sigmoid (dot (f.A i) x) * (1 - sigmoid (dot (f.A i) x)))) (dot (f.A i) x) :=
      ((hasDerivAt_sigmoid _).sub_const (f.b i)).const_mul _
    have e : f.hessD x 0 i = sigmoid (dot (f.A i) x) * (1 - sigmoid (dot (f.A i) x)) := by
      simp only [LogLoss.hessD, decision_eq]; rfl
    rw [e]
    exact hs.comp_hasFDerivAt x (hasFDerivAt_dot (f.A i) x)
  have h2 := (HasFDerivAt.fun_sum h1).mul_const ((n : ℝ)⁻¹)
  have h3 : HasFDerivAt (fun x : Fin d → ℝ => f.alpha * x j)
      (f.alpha • (ContinuousLinearMap.proj j : (Fin d → ℝ) →L[ℝ] ℝ)) x :=
    ((ContinuousLinearMap.proj j : (Fin d → ℝ) →L[ℝ] ℝ).hasFDerivAt).const_mul f.alpha
  refine ((h2.add h3).congr_fderiv ?_).congr_of_eventuallyEq (Filter.Eventually.of_forall fun y => ?_)
  · rfl
  · show matVecT f.A (LogLoss.expitB (f.decision y 0) f.b) j / n + f.alpha * y j = _
    simp only [Pi.add_apply, matVecT, expitB_apply, decision_eq, div_eq_mul_inv]

theorem isHess_unique {f : (Fin d → ℝ) → ℝ} {H H' : (Fin d → ℝ) →L[ℝ] (Fin d → ℝ)} {x : Fin d → ℝ}
    (h : IsHess f H x) (h' : IsHess f H' x) : H = H' := by
  obtain ⟨g, hg, h1⟩ := h
  obtain ⟨g', hg', h2⟩ := h'
  rw [gradField_eq hg hg'] at h1
  exact HasFDerivAt.unique h1 h2

/-- **C25 (what the code computes).** `hessian_mv` divides the regularisation term by `n` too: its result is the Hessian
product minus `alpha * (1 - 1/n) * s`. -/
theorem C25_hessian_mv_value (f : LogLoss n d) (x s : Fin d → ℝ) {H : (Fin d → ℝ) →L[ℝ] (Fin d → ℝ)}
    (hH : IsHess (logisticLoss f.A f.b f.alpha) H x) (j : Fin d) :
    f.hessianMv x s j = H s j - f.alpha * (1 - 1 / n) * s j := by
  rw [isHess_unique hH (hessL_isHess f x)]
  have e : hessL f x s j = (n : ℝ)⁻¹ * (∑ i, (f.A i j * f.hessD x 0 i) * dot (f.A i) s) + f.alpha * s j := by
    show ((n : ℝ)⁻¹ • (∑ i, (f.A i j * f.hessD x 0 i) • dotL (f.A i)) +
      f.alpha • (ContinuousLinearMap.proj j : (Fin d → ℝ) →L[ℝ] ℝ)) s = _
    simp only [_root_.add_apply, _root_.smul_apply, _root_.sum_apply, dotL_apply, smul_eq_mul,
      ContinuousLinearMap.proj_apply]
  rw [e]
  unfold LogLoss.hessianMv matVecT matVec dot
  simp only [div_eq_mul_inv, one_mul, mul_assoc, ← Finset.mul_sum]
  ring

/-- **C25.** `hessian_mv(x)(s)` is the Hessian of the loss at `x` applied to `s` when `alpha = 0` or `n = 1`.  (Full
statement: for every `alpha` and `n`; false, see `C25_refuted`.) -/
theorem C25_hessian_mv_partial (f : LogLoss n d) (x s : Fin d → ℝ) (h : f.alpha = 0 ∨ n = 1)
    {H : (Fin d → ℝ) →L[ℝ] (Fin d → ℝ)} (hH : IsHess (logisticLoss f.A f.b f.alpha) H x) : f.hessianMv x s = H s := by
  funext j
  rw [C25_hessian_mv_value f x s hH]
  rcases h with h | rfl
  · rw [h]; ring
  · simp

/-- **C25 (the Hessian exists).** -/
theorem C25_hessian_exists (f : LogLoss n d) (x : Fin d → ℝ) : ∃ H, IsHess (logisticLoss f.A f.b f.alpha) H x :=
  ⟨_, hessL_isHess f x⟩

/-- **C25 (negation).** With two samples and `alpha = 1` the result is not the Hessian product. -/
theorem C25_refuted : ¬ ∀ (f : LogLoss 2 1) (x s : Fin 1 → ℝ) (H : (Fin 1 → ℝ) →L[ℝ] (Fin 1 → ℝ)),
    IsHess (logisticLoss f.A f.b f.alpha) H x → f.hessianMv x s = H s := by
  intro h
  set f : LogLoss 2 1 := ⟨fun _ _ => 0, fun _ => 0, 1, false⟩ with hf
  have h1 := h f 0 1 _ (hessL_isHess f 0)
  have h2 := C25_hessian_mv_value f 0 1 (hessL_isHess f 0) 0
  rw [h1, hf] at h2
  norm_num at h2
  linarith

/-- **C25 (`hessian_trace`).** The method named `hessian_trace` is the same function. -/
theorem C25_hessian_trace_same (f : LogLoss n d) (x s : Fin d → ℝ) : f.hessianTrace x s = f.hessianMv x s := rfl

/-! ### C76: intercept -/

/-- **C76.** With `intercept = True`, the vector returned by `f_grad` is the gradient, with respect to coefficients and
intercept, of the logistic loss with unpenalised intercept; the value of `__call__` is accurate.  (Full statement: `f_grad`
returns the pair (value, gradient); false, see `C76_refuted`.) -/
theorem C76_intercept_partial (hn : 0 < n) (f : LogLoss n d) (w : Fin (d + 1) → ℝ) :
    (∃ g, f.fGradIntercept w = .gradOnly g ∧ IsGrad (logisticLossIntercept f.A f.b f.alpha) g w) ∧
      |f.callIntercept w - logisticLossIntercept f.A f.b f.alpha w| ≤ Real.exp (-33) := by
  refine ⟨⟨_, rfl, ?_⟩, ?_⟩
  swap
  · exact lossOf_error hn f (fun j => w j.castSucc) (w (Fin.last d))
  set x : Fin d → ℝ := fun j => w j.castSucc with hx
  set c := w (Fin.last d) with hc
  set A' : Fin n → Fin (d + 1) → ℝ := fun i => Fin.snoc (f.A i) 1 with hA'
  have hdot : ∀ (i : Fin n) (y : Fin (d + 1) → ℝ), dot (A' i) y = dot (f.A i) (fun j => y j.castSucc) + y (Fin.last d) := by
    intro i y
    unfold dot
    rw [Fin.sum_univ_castSucc]
    simp [hA']
  have h1 := isGrad_erm (A := A') (alpha := 0) (phi := fun i z => logistic1 (f.b i) z)
    (phi' := fun i => sigmoid (dot (A' i) w) - f.b i) (x := w) (fun i => hasDerivAt_logistic1 (f.b i) _)
  set P : (Fin (d + 1) → ℝ) →L[ℝ] (Fin d → ℝ) := ContinuousLinearMap.pi fun j => ContinuousLinearMap.proj j.castSucc
  have h2 : HasFDerivAt (fun y : Fin (d + 1) → ℝ => f.alpha / 2 * dot (P y) (P y))
      ((f.alpha / 2) • (dotL ((2 : ℝ) • P w)).comp P) w :=
    ((hasFDerivAt_dot_self (P w)).comp w P.hasFDerivAt).const_mul (f.alpha / 2)
  have h3 := HasFDerivAt.add h1 h2
  refine (h3.congr_fderiv ?_).congr_of_eventuallyEq (Filter.Eventually.of_forall fun y => ?_)
  · ext v
    simp only [_root_.add_apply, _root_.smul_apply, dotL_apply, smul_eq_mul, ContinuousLinearMap.comp_apply,
      dot_smul_left]
    have eP : dot (P w) (P v) = ∑ j : Fin d, x j * v j.castSucc := rfl
    rw [eP]
    unfold dot
    rw [Fin.sum_univ_castSucc, Fin.sum_univ_castSucc]
    simp only [Fin.snoc_castSucc, Fin.snoc_last, zero_mul, add_zero]
    have e1 : ∀ j : Fin d, matVecT A' (fun i => sigmoid (dot (A' i) w) - f.b i) j.castSucc =
        matVecT f.A (LogLoss.expitB (f.decision x c) f.b) j := by
      intro j
      unfold matVecT
      refine Finset.sum_congr rfl fun i _ => ?_
      rw [expitB_apply]
      simp only [hdot]
      simp only [hA', Fin.snoc_castSucc]
      rfl
    have e2 : matVecT A' (fun i => sigmoid (dot (A' i) w) - f.b i) (Fin.last d) =
        ∑ i, LogLoss.expitB (f.decision x c) f.b i := by
      unfold matVecT
      refine Finset.sum_congr rfl fun i _ => ?_
      rw [expitB_apply]
      simp only [hdot]
      simp only [hA', Fin.snoc_last, one_mul]
      rfl
    have e3 := fun j => e1 j
    unfold dot at e1 e2
    simp only [e1, e2, LogLoss.gradOf, npMean, add_mul, Finset.sum_add_distrib, mul_assoc, ← Finset.mul_sum]
    ring
  · have eP : P y = fun j => y j.castSucc := rfl
    simp only [logisticLossIntercept, Pi.add_apply, erm, hdot, eP]
    ring

/-- **C76 (negation).** With `intercept = True`, `f_grad` never returns a pair (value, gradient). -/
theorem C76_refuted (f : LogLoss n d) (w : Fin (d + 1) → ℝ) (v : ℝ) (g : Fin d → ℝ) :
    f.fGradIntercept w ≠ .pair v g := by
  intro h; cases h

/-! ### C26: squared loss -/

/-- **C26 (value).** `__call__` and the first component of `f_grad` are the documented value. -/
theorem C26_value (f : SquareLoss n d) (x : Fin d → ℝ) :
    f.call x = squareLoss f.A f.b f.alpha x ∧ (f.fGrad x).1 = squareLoss f.A f.b f.alpha x := by
  have : f.call x = squareLoss f.A f.b f.alpha x := by
    unfold SquareLoss.call squareLoss npMean matVec dot
    simp only [pow_two, div_eq_mul_inv, one_mul, mul_inv]
    norm_num
    ring
  exact ⟨this, this⟩

theorem squareLoss_eq_erm (A : Fin n → Fin d → ℝ) (b : Fin n → ℝ) (alpha : ℝ) :
    squareLoss A b alpha = erm A alpha fun i z => (z - b i) ^ 2 / 2 := by
  funext x
  unfold squareLoss erm dot
  rw [← Finset.sum_div]
  simp only [pow_two, div_eq_mul_inv, one_mul, mul_inv]
  ring

theorem hasDerivAt_sq1 (b z : ℝ) : HasDerivAt (fun z => (z - b) ^ 2 / 2) (z - b) z := by
  have := (((hasDerivAt_id z).sub_const b).pow 2).div_const 2
  refine this.congr_deriv ?_
  simp

/-- **C26 (gradient).** -/
theorem C26_gradient (f : SquareLoss n d) (x : Fin d → ℝ) : IsGrad (squareLoss f.A f.b f.alpha) (f.fGrad x).2 x := by
  rw [squareLoss_eq_erm]
  exact isGrad_erm (A := f.A) (alpha := f.alpha) (phi := fun i z => (z - f.b i) ^ 2 / 2)
    (phi' := fun i => dot (f.A i) x - f.b i) (x := x) (fun i => hasDerivAt_sq1 (f.b i) _)

/-- **C26 (lipschitz).** -/
theorem C26_lipschitz (f : SquareLoss n d) (ha : 0 ≤ f.alpha) {s : ℝ} (hs : IsLargestSingular f.A s)
    {g : (Fin d → ℝ) → Fin d → ℝ} (hg : ∀ x, IsGrad (squareLoss f.A f.b f.alpha) (g x) x) : LipWith (f.lipschitz s) g := by
  rw [gradField_eq hg (C26_gradient f)]
  have := lip_erm (A := f.A) (alpha := f.alpha) (s := s) (c := 1) ha (by norm_num) (fun i z => z - f.b i) hs.1
    hs.2.1 (fun i a b => by rw [sub_sub_sub_cancel_right, one_mul])
  rw [one_mul] at this
  exact this

/-- **C26 (lipschitz is tight).** No smaller constant is a Lipschitz constant of the gradient. -/
theorem C26_lipschitz_tight (f : SquareLoss n d) {s L : ℝ} (hs : IsLargestSingular f.A s)
    (hL : LipWith L fun x => (f.fGrad x).2) : f.lipschitz s ≤ L := by
  obtain ⟨_, _, v, hv, hvs⟩ := hs
  have hpos : 0 < norm2 v := by
    rcases (norm2_nonneg v).eq_or_lt' with h | h
    · exact absurd (dot_self_eq_zero.mp (by rw [← norm2_sq, h]; norm_num)) hv
    · exact h
  have h1 := hL v 0
  have e : (f.fGrad v).2 - (f.fGrad 0).2 = ((n : ℝ)⁻¹) • matVecT f.A (mulVec f.A v) + f.alpha • v := by
    funext j
    simp only [SquareLoss.fGrad, Pi.sub_apply, Pi.add_apply, Pi.smul_apply, smul_eq_mul, matVecT, matVec_eq,
      div_eq_mul_inv, mul_sub, Finset.sum_sub_distrib, Pi.zero_apply, mul_zero, add_zero]
    have : mulVec f.A 0 = 0 := by funext i; simp [mulVec, dot]
    rw [this]
    simp only [Pi.zero_apply, mul_zero, Finset.sum_const_zero]
    ring
  rw [e, sub_zero] at h1
  have h2 := dot_le_norm2 (((n : ℝ)⁻¹) • matVecT f.A (mulVec f.A v) + f.alpha • v) v
  rw [dot_add_left, dot_smul_left, dot_smul_left, dot_matVecT, ← norm2_sq, ← norm2_sq, hvs] at h2
  have h3 := mul_le_mul_of_nonneg_right h1 hpos.le
  have h4 : (f.lipschitz s) * (norm2 v * norm2 v) ≤ L * (norm2 v * norm2 v) := by
    unfold SquareLoss.lipschitz
    calc (s * s / n + f.alpha) * (norm2 v * norm2 v) = (n : ℝ)⁻¹ * (s * norm2 v) ^ 2 + f.alpha * norm2 v ^ 2 := by
          rw [div_eq_mul_inv]; ring
      _ ≤ _ := by linarith
  exact le_of_mul_le_mul_right h4 (mul_pos hpos hpos)

/-- **C26 (max_lipschitz).** -/
theorem C26_max_lipschitz (f : SquareLoss n d) (ha : 0 ≤ f.alpha) (i : Fin n) {g : (Fin d → ℝ) → Fin d → ℝ}
    (hg : ∀ x, IsGrad (fun x => (dot (f.A i) x - f.b i) ^ 2 / 2 + f.alpha / 2 * dot x x) (g x) x) :
    LipWith f.maxLipschitz g := by
  have := lip_sample (c := 1) (phi := fun z => (z - f.b i) ^ 2 / 2) ha (by norm_num) (row_bound f.A i)
    (fun z => hasDerivAt_sq1 (f.b i) z) (fun u v => by rw [sub_sub_sub_cancel_right, one_mul]) hg
  rw [one_mul] at this
  exact this

/-- **C26 (partial_deriv).** -/
theorem C26_partial_deriv (p y : Fin n → ℝ) (i : Fin n) :
    HasDerivAt (fun z => (z - y i) ^ 2 / 2) (SquareLoss.partialDeriv p y i) (p i) := hasDerivAt_sq1 _ _

/-! ### C27: Huber loss -/

theorem huber_pieces {delta : ℝ} (hd : 0 < delta) (z : ℝ) :
    (|z| < delta → huber1 delta z = 0.5 * (z * z) ∧ clip1 delta z = z) ∧
    (¬ |z| < delta → huber1 delta z = delta * (|z| - 0.5 * delta) ∧ clip1 delta z = delta * SignType.sign z) := by
  constructor
  · intro h
    obtain ⟨h1, h2⟩ := abs_lt.mp h
    refine ⟨?_, ?_⟩
    · unfold huber1; rw [if_pos h.le]; ring
    · unfold clip1; rw [min_eq_left h2.le, max_eq_right h1.le]
  · intro h
    have h' := not_lt.mp h
    refine ⟨?_, ?_⟩
    · unfold huber1
      split_ifs with h2
      · have : |z| = delta := le_antisymm h2 h'
        rw [← sq_abs, this]; ring
      · ring
    · unfold clip1
      rcases le_or_gt 0 z with hz | hz
      · rw [abs_of_nonneg hz] at h'
        have : 0 < z := by linarith
        rw [min_eq_right h', max_eq_right (by linarith), sign_pos this]; simp
      · rw [abs_of_neg hz] at h'
        rw [min_eq_left (by linarith), max_eq_left (by linarith), sign_neg hz]; simp

theorem sum_filter_split (P : Fin n → Prop) [DecidablePred P] (F G H : Fin n → ℝ) (h1 : ∀ i, P i → H i = F i)
    (h2 : ∀ i, ¬ P i → H i = G i) :
    ∑ i, H i = ∑ i ∈ Finset.univ.filter P, F i + ∑ i ∈ Finset.univ.filter (fun i => ¬ P i), G i := by
  rw [← Finset.sum_filter_add_sum_filter_not Finset.univ P H]
  congr 1
  · exact Finset.sum_congr rfl fun i hi => h1 i (Finset.mem_filter.mp hi).2
  · exact Finset.sum_congr rfl fun i hi => h2 i (Finset.mem_filter.mp hi).2

/-- **C27 (value).** -/
theorem C27_value (f : HuberLoss n d) (hd : 0 < f.delta) (x : Fin d → ℝ) :
    (f.fGrad x).1 = huberLoss f.A f.b f.alpha f.delta x ∧ f.call x = huberLoss f.A f.b f.alpha f.delta x := by
  have : (f.fGrad x).1 = huberLoss f.A f.b f.alpha f.delta x := by
    unfold huberLoss erm
    classical
    show _ = (∑ i, huber1 f.delta (matVec f.A x i - f.b i)) / ↑n + f.alpha / 2 * dot x x
    rw [sum_filter_split (fun i => |matVec f.A x i - f.b i| < f.delta)
      (fun i => 0.5 * ((matVec f.A x i - f.b i) * (matVec f.A x i - f.b i)))
      (fun i => f.delta * (|matVec f.A x i - f.b i| - 0.5 * f.delta)) _
      (fun i hi => ((huber_pieces hd _).1 hi).1) (fun i hi => ((huber_pieces hd _).2 hi).1), ← Finset.mul_sum]
    unfold HuberLoss.fGrad dot
    simp only
    norm_num
    left
    ring
  exact ⟨this, this⟩

theorem huber_grad_eq (f : HuberLoss n d) (hd : 0 < f.delta) (x : Fin d → ℝ) :
    (f.fGrad x).2 = fun j => matVecT f.A (fun i => clip1 f.delta (dot (f.A i) x - f.b i)) j / n + f.alpha * x j := by
  funext j
  classical
  show _ = (∑ i, f.A i j * clip1 f.delta (matVec f.A x i - f.b i)) / n + f.alpha * x j
  rw [sum_filter_split (fun i => |matVec f.A x i - f.b i| < f.delta)
    (fun i => f.A i j * (matVec f.A x i - f.b i))
    (fun i => f.A i j * (f.delta * SignType.sign (matVec f.A x i - f.b i))) _
    (fun i hi => congrArg (f.A i j * ·) ((huber_pieces hd _).1 hi).2)
    (fun i hi => congrArg (f.A i j * ·) ((huber_pieces hd _).2 hi).2)]
  unfold HuberLoss.fGrad
  simp only
  ring

/-- **C27 (gradient).** `f_grad` returns the gradient of the Huber loss at every point, including where a residual equals
the threshold. -/
theorem C27_gradient (f : HuberLoss n d) (hd : 0 < f.delta) (x : Fin d → ℝ) :
    IsGrad (huberLoss f.A f.b f.alpha f.delta) (f.fGrad x).2 x := by
  rw [huber_grad_eq f hd]
  refine isGrad_erm (A := f.A) (alpha := f.alpha) (phi := fun i z => huber1 f.delta (z - f.b i))
    (phi' := fun i => clip1 f.delta (dot (f.A i) x - f.b i)) (x := x) fun i => ?_
  have := (hasDerivAt_huber1 hd.le (dot (f.A i) x - f.b i)).comp (dot (f.A i) x)
    ((hasDerivAt_id (dot (f.A i) x)).sub_const (f.b i))
  exact this.congr_deriv (mul_one _)

/-- **C27 (lipschitz).** -/
theorem C27_lipschitz (f : HuberLoss n d) (hd : 0 < f.delta) (ha : 0 ≤ f.alpha) {s : ℝ} (hs : IsLargestSingular f.A s)
    {g : (Fin d → ℝ) → Fin d → ℝ} (hg : ∀ x, IsGrad (huberLoss f.A f.b f.alpha f.delta) (g x) x) :
    LipWith (f.lipschitz s) g := by
  have e : g = fun x => (f.fGrad x).2 := gradField_eq hg (C27_gradient f hd)
  have e2 : (fun x => (f.fGrad x).2) =
      fun x j => matVecT f.A (fun i => clip1 f.delta (dot (f.A i) x - f.b i)) j / n + f.alpha * x j :=
    funext fun x => huber_grad_eq f hd x
  rw [e, e2]
  have := lip_erm (A := f.A) (alpha := f.alpha) (s := s) (c := 1) ha (by norm_num) (fun i z => clip1 f.delta (z - f.b i))
    hs.1 hs.2.1 (fun i a b => by
      rw [one_mul]; have := clip1_lipschitz f.delta (a - f.b i) (b - f.b i); rwa [sub_sub_sub_cancel_right] at this)
  rw [one_mul] at this
  exact this

/-- A Huber loss at a point where the residual is exactly the threshold. -/
example : ∃ f : HuberLoss 1 1, 0 < f.delta ∧ |matVec f.A (fun _ => 1) 0 - f.b 0| = f.delta :=
  ⟨⟨fun _ _ => 1, fun _ => 0, 0, 1⟩, one_pos, by simp [matVec]⟩

end Copt
