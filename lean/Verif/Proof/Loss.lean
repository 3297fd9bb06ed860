import Mathlib.Analysis.InnerProductSpace.PiL2
import Mathlib.Analysis.Calculus.MeanValue
import Mathlib.Analysis.Calculus.Deriv.Inv
import Mathlib.Analysis.SpecialFunctions.Log.Deriv
import Mathlib.Analysis.SpecialFunctions.Pow.Real
import Mathlib.Tactic.LinearCombination
import Verif.Spec.Loss
import Verif.Model.Loss
import Verif.Proof.Basic

/-! # Helper lemmas for the losses -/

set_option linter.unusedSectionVars false

namespace Copt

open Spec

variable {n d : ℕ}

/-! ### Euclidean norm -/

theorem norm2_eq (x : Fin d → ℝ) : norm2 x = ‖(WithLp.toLp 2 x : EuclideanSpace ℝ (Fin d))‖ := by
  rw [EuclideanSpace.norm_eq]
  unfold norm2 dot
  congr 1
  refine Finset.sum_congr rfl fun i _ => ?_
  simp [pow_two]

theorem norm2_nonneg (x : Fin d → ℝ) : 0 ≤ norm2 x := Real.sqrt_nonneg _

theorem norm2_sq (x : Fin d → ℝ) : norm2 x ^ 2 = dot x x := Real.sq_sqrt (dot_self_nonneg x)

theorem norm2_add_le (x y : Fin d → ℝ) : norm2 (x + y) ≤ norm2 x + norm2 y := by
  rw [norm2_eq, norm2_eq, norm2_eq, WithLp.toLp_add]; exact norm_add_le _ _

theorem norm2_smul (c : ℝ) (x : Fin d → ℝ) : norm2 (c • x) = |c| * norm2 x := by
  rw [norm2_eq, norm2_eq, WithLp.toLp_smul, norm_smul]; rfl

theorem dot_le_norm2 (x y : Fin d → ℝ) : dot x y ≤ norm2 x * norm2 y := by
  have h := dot_sq_le x y
  rw [← norm2_sq, ← norm2_sq, ← mul_pow] at h
  exact le_trans (le_abs_self _) (abs_le_of_sq_le_sq h (mul_nonneg (norm2_nonneg _) (norm2_nonneg _)))
where
  abs_le_of_sq_le_sq {a b : ℝ} (h : a ^ 2 ≤ b ^ 2) (hb : 0 ≤ b) : |a| ≤ b := abs_le_of_sq_le_sq' h hb |> abs_le.mpr

theorem norm2_le_of_dot {x : Fin d → ℝ} {r : ℝ} (h : dot x x ≤ r * norm2 x) : norm2 x ≤ r ∨ norm2 x = 0 := by
  rw [← norm2_sq] at h
  rcases (norm2_nonneg x).eq_or_lt' with h0 | h0
  · exact Or.inr h0
  · left
    have : norm2 x * norm2 x ≤ r * norm2 x := by rw [← pow_two]; exact h
    exact le_of_mul_le_mul_right this h0

theorem matVec_eq (A : Fin n → Fin d → ℝ) (x : Fin d → ℝ) : matVec A x = mulVec A x := rfl

theorem dot_matVecT (A : Fin n → Fin d → ℝ) (u : Fin n → ℝ) (v : Fin d → ℝ) :
    dot (matVecT A u) v = dot u (mulVec A v) := by
  unfold dot matVecT mulVec dot
  simp only [Finset.sum_mul, Finset.mul_sum]
  rw [Finset.sum_comm]
  exact Finset.sum_congr rfl fun i _ => Finset.sum_congr rfl fun j _ => by ring

theorem norm2_matVecT_le {A : Fin n → Fin d → ℝ} {s : ℝ} (hs : 0 ≤ s)
    (h : ∀ v, norm2 (mulVec A v) ≤ s * norm2 v) (u : Fin n → ℝ) : norm2 (matVecT A u) ≤ s * norm2 u := by
  have h1 : dot (matVecT A u) (matVecT A u) ≤ s * norm2 u * norm2 (matVecT A u) := by
    rw [dot_matVecT]
    refine le_trans (dot_le_norm2 _ _) ?_
    have := mul_le_mul_of_nonneg_left (h (matVecT A u)) (norm2_nonneg u)
    linarith
  rcases norm2_le_of_dot h1 with h2 | h2
  · exact h2
  · rw [h2]; exact mul_nonneg hs (norm2_nonneg _)

theorem norm2_le_of_abs_le {u v : Fin n → ℝ} {c : ℝ} (hc : 0 ≤ c) (h : ∀ i, |u i| ≤ c * |v i|) :
    norm2 u ≤ c * norm2 v := by
  have : norm2 u ≤ norm2 (c • v) := by
    refine Real.sqrt_le_sqrt (Finset.sum_le_sum fun i _ => ?_)
    rw [← pow_two, ← pow_two, sq_le_sq, Pi.smul_apply, smul_eq_mul, abs_mul, abs_of_nonneg hc]
    exact h i
  rwa [norm2_smul, abs_of_nonneg hc] at this

/-! ### Gradients -/

theorem dotL_apply (g v : Fin d → ℝ) : dotL g v = dot g v := by
  simp [dotL, dot, _root_.sum_apply]

theorem isGrad_unique {f : (Fin d → ℝ) → ℝ} {g g' x : Fin d → ℝ} (h : IsGrad f g x) (h' : IsGrad f g' x) : g = g' := by
  have e : dotL g = dotL g' := HasFDerivAt.unique h h'
  funext j
  have := congrArg (fun L => L (Pi.single j 1)) e
  simpa [dotL_apply, dot, Pi.single_apply] using this

theorem hasFDerivAt_dot (a x : Fin d → ℝ) : HasFDerivAt (fun x => dot a x) (dotL a) x := by
  have : (fun x => dot a x) = dotL a := by funext v; rw [dotL_apply]
  rw [this]; exact (dotL a).hasFDerivAt

theorem hasFDerivAt_dot_self (x : Fin d → ℝ) : HasFDerivAt (fun x => dot x x) (dotL ((2 : ℝ) • x)) x := by
  have h : ∀ j ∈ (Finset.univ : Finset (Fin d)), HasFDerivAt (fun x : Fin d → ℝ => x j * x j)
      (x j • (ContinuousLinearMap.proj j : (Fin d → ℝ) →L[ℝ] ℝ) + x j • ContinuousLinearMap.proj j) x := by
    intro j _
    have hj : HasFDerivAt (fun x : Fin d → ℝ => x j) (ContinuousLinearMap.proj j : (Fin d → ℝ) →L[ℝ] ℝ) x :=
      (ContinuousLinearMap.proj j : (Fin d → ℝ) →L[ℝ] ℝ).hasFDerivAt
    exact hj.mul hj
  have := HasFDerivAt.fun_sum h
  refine this.congr_fderiv ?_
  ext v
  rw [dotL_apply]
  simp only [_root_.sum_apply, _root_.add_apply, _root_.smul_apply,
    ContinuousLinearMap.proj_apply, smul_eq_mul, dot, Pi.smul_apply]
  exact Finset.sum_congr rfl fun j _ => by ring

/-- Gradient of a regularised empirical risk. -/
theorem isGrad_erm {A : Fin n → Fin d → ℝ} {alpha : ℝ} {phi : Fin n → ℝ → ℝ} {phi' : Fin n → ℝ} {x : Fin d → ℝ}
    (h : ∀ i, HasDerivAt (phi i) (phi' i) (dot (A i) x)) :
    IsGrad (erm A alpha phi) (fun j => matVecT A phi' j / n + alpha * x j) x := by
  have h1 : ∀ i ∈ (Finset.univ : Finset (Fin n)), HasFDerivAt (fun x => phi i (dot (A i) x)) (phi' i • dotL (A i)) x := by
    intro i _
    exact (h i).comp_hasFDerivAt x (hasFDerivAt_dot (A i) x)
  have h2 := (HasFDerivAt.fun_sum h1).mul_const ((n : ℝ)⁻¹)
  have h3 := (hasFDerivAt_dot_self x).const_mul (alpha / 2)
  have h4 := h2.add h3
  refine (h4.congr_fderiv ?_).congr_of_eventuallyEq (Filter.Eventually.of_forall fun y => ?_)
  · ext v
    simp only [_root_.add_apply, _root_.smul_apply, _root_.sum_apply, dotL_apply,
      smul_eq_mul]
    have e : dot (fun j => matVecT A phi' j / n + alpha * x j) v =
        (n : ℝ)⁻¹ * dot (matVecT A phi') v + alpha * dot x v := by
      unfold dot
      rw [Finset.mul_sum, Finset.mul_sum, ← Finset.sum_add_distrib]
      exact Finset.sum_congr rfl fun j _ => by simp only [div_eq_mul_inv]; ring
    rw [e, dot_matVecT, dot_smul_left]
    unfold mulVec dot
    ring
  · simp only [erm, Pi.add_apply, div_eq_mul_inv]

/-- Lipschitz constant of the gradient of a regularised empirical risk. -/
theorem lip_erm {A : Fin n → Fin d → ℝ} {alpha s c : ℝ} (ha : 0 ≤ alpha) (hc : 0 ≤ c) (phi' : Fin n → ℝ → ℝ)
    (hs : 0 ≤ s) (hA : ∀ v, norm2 (mulVec A v) ≤ s * norm2 v) (hphi : ∀ i a b, |phi' i a - phi' i b| ≤ c * |a - b|) :
    LipWith (c * (s * s) / n + alpha)
      (fun x j => matVecT A (fun i => phi' i (dot (A i) x)) j / n + alpha * x j) := by
  intro x y
  set u : Fin n → ℝ := fun i => phi' i (dot (A i) x) - phi' i (dot (A i) y) with hu
  have e : (fun j => matVecT A (fun i => phi' i (dot (A i) x)) j / n + alpha * x j) -
      (fun j => matVecT A (fun i => phi' i (dot (A i) y)) j / n + alpha * y j) =
      ((n : ℝ)⁻¹) • matVecT A u + alpha • (x - y) := by
    funext j
    simp only [Pi.sub_apply, Pi.add_apply, Pi.smul_apply, smul_eq_mul, matVecT, hu, div_eq_mul_inv, mul_sub,
      Finset.sum_sub_distrib]
    ring
  rw [e]
  refine le_trans (norm2_add_le _ _) ?_
  rw [norm2_smul, norm2_smul, abs_of_nonneg ha, abs_of_nonneg (inv_nonneg.mpr (Nat.cast_nonneg n))]
  have h1 := norm2_matVecT_le hs hA u
  have h2 : norm2 u ≤ c * norm2 (mulVec A (x - y)) := by
    refine norm2_le_of_abs_le hc fun i => ?_
    have := hphi i (dot (A i) x) (dot (A i) y)
    rw [← dot_sub_right] at this
    exact this
  have h3 := hA (x - y)
  have h4 : norm2 (matVecT A u) ≤ c * (s * s) * norm2 (x - y) := by
    calc norm2 (matVecT A u) ≤ s * norm2 u := h1
      _ ≤ s * (c * (s * norm2 (x - y))) :=
          mul_le_mul_of_nonneg_left (le_trans h2 (mul_le_mul_of_nonneg_left h3 hc)) hs
      _ = _ := by ring
  have h5 := mul_le_mul_of_nonneg_left h4 (inv_nonneg.mpr (Nat.cast_nonneg (α := ℝ) n))
  rw [div_eq_mul_inv]
  nlinarith

/-! ### The sigmoid -/

theorem one_add_exp_pos (t : ℝ) : 0 < 1 + Real.exp t := by positivity

theorem sigmoid_pos (t : ℝ) : 0 < sigmoid t := by unfold sigmoid; have := one_add_exp_pos (-t); positivity

theorem sigmoid_eq (t : ℝ) : sigmoid t = Real.exp t / (1 + Real.exp t) := by
  unfold sigmoid
  have := one_add_exp_pos (-t)
  have := one_add_exp_pos t
  have h : Real.exp t * Real.exp (-t) = 1 := by rw [← Real.exp_add]; simp
  rw [div_eq_div_iff (by positivity) (by positivity)]
  linear_combination -h

theorem one_sub_sigmoid (t : ℝ) : 1 - sigmoid t = sigmoid (-t) := by
  rw [sigmoid_eq t]; unfold sigmoid
  rw [neg_neg]
  have := one_add_exp_pos t
  field_simp
  ring

theorem log_sigmoid (t : ℝ) : Real.log (sigmoid t) = -Real.log (1 + Real.exp (-t)) := by
  unfold sigmoid; rw [one_div, Real.log_inv]

theorem log_sigmoid' (t : ℝ) : Real.log (sigmoid t) = t - Real.log (1 + Real.exp t) := by
  rw [sigmoid_eq, Real.log_div (Real.exp_pos t).ne' (one_add_exp_pos t).ne', Real.log_exp]

theorem logistic1_eq (b z : ℝ) : logistic1 b z = (1 - b) * z - Real.log (sigmoid z) := by
  unfold logistic1
  rw [one_sub_sigmoid, log_sigmoid' z, log_sigmoid (-z), neg_neg]; ring

theorem hasDerivAt_log_sigmoid (z : ℝ) : HasDerivAt (fun z => Real.log (sigmoid z)) (1 - sigmoid z) z := by
  have h1 : HasDerivAt (fun z : ℝ => 1 + Real.exp z) (Real.exp z) z := (Real.hasDerivAt_exp z).const_add 1
  have h2 := h1.log (one_add_exp_pos z).ne'
  have h3 := (hasDerivAt_id z).sub h2
  refine (h3.congr_deriv ?_).congr_of_eventuallyEq (Filter.Eventually.of_forall fun y => ?_)
  · rw [sigmoid_eq]
  · simp only [log_sigmoid']; rfl

theorem hasDerivAt_logistic1 (b z : ℝ) : HasDerivAt (logistic1 b) (sigmoid z - b) z := by
  have h := ((hasDerivAt_id z).const_mul (1 - b)).sub (hasDerivAt_log_sigmoid z)
  refine (h.congr_deriv (by ring)).congr_of_eventuallyEq (Filter.Eventually.of_forall fun y => ?_)
  simp only [logistic1_eq]; rfl

theorem hasDerivAt_sigmoid (z : ℝ) : HasDerivAt sigmoid (sigmoid z * (1 - sigmoid z)) z := by
  have h1 : HasDerivAt (fun z : ℝ => 1 + Real.exp (-z)) (-Real.exp (-z)) z := by
    have := (Real.hasDerivAt_exp (-z)).comp z (hasDerivAt_neg z)
    simpa using this.const_add 1
  have h2 := h1.inv (one_add_exp_pos (-z)).ne'
  refine (h2.congr_deriv ?_).congr_of_eventuallyEq (Filter.Eventually.of_forall fun y => ?_)
  · unfold sigmoid
    have := one_add_exp_pos (-z)
    field_simp
    ring
  · simp only [sigmoid, one_div]; rfl

theorem sigmoid_lipschitz (a b : ℝ) : |sigmoid a - sigmoid b| ≤ 1 / 4 * |a - b| := by
  have := Convex.norm_image_sub_le_of_norm_hasDerivWithin_le (f := sigmoid) (s := Set.univ) (C := 1 / 4)
    (f' := fun z => sigmoid z * (1 - sigmoid z)) (x := b) (y := a)
    (fun z _ => (hasDerivAt_sigmoid z).hasDerivWithinAt) ?_ convex_univ trivial trivial
  · simpa using this
  · intro z _
    have h1 := sigmoid_pos z
    have h2 : 0 < 1 - sigmoid z := by rw [one_sub_sigmoid]; exact sigmoid_pos _
    rw [Real.norm_eq_abs, abs_of_nonneg (by positivity)]
    nlinarith [sq_nonneg (sigmoid z - 1 / 2)]

/-! ### The piecewise approximation of log sigmoid -/

theorem log_one_add_le {t : ℝ} (ht : 0 ≤ t) : Real.log (1 + t) ≤ t := by
  have := Real.log_le_sub_one_of_pos (by linarith : 0 < 1 + t); linarith

theorem le_log_one_add {t : ℝ} (ht : 0 ≤ t) : t - t ^ 2 ≤ Real.log (1 + t) := by
  have h := Real.one_sub_inv_le_log_of_pos (by linarith : 0 < 1 + t)
  refine le_trans ?_ h
  have h1 : 0 < 1 + t := by linarith
  rw [le_sub_iff_add_le, ← le_sub_iff_add_le', inv_eq_one_div, div_le_iff₀ h1]
  nlinarith [pow_nonneg ht 3]

theorem logsig_apply (x : Fin n → ℝ) (i : Fin n) : LogLoss.logsig x i =
    if x i < -33 then x i else if x i < -18 then x i - Real.exp (x i)
    else if x i < 37 then -Real.log (1 + Real.exp (-x i)) else -Real.exp (-x i) := by
  unfold LogLoss.logsig maskSet
  simp only
  by_cases h1 : x i < -33
  · rw [if_neg (by linarith), if_neg (by rintro ⟨a, _⟩; linarith), if_neg (by rintro ⟨a, _⟩; linarith), if_pos h1,
      if_pos h1]
  · by_cases h2 : x i < -18
    · rw [if_neg (by linarith), if_neg (by rintro ⟨a, _⟩; linarith), if_pos ⟨not_lt.mp h1, h2⟩, if_neg h1, if_pos h2]
    · by_cases h3 : x i < 37
      · rw [if_neg (by linarith), if_pos ⟨not_lt.mp h2, h3⟩, if_neg h1, if_neg h2, if_pos h3]
      · rw [if_pos (not_lt.mp h3), if_neg h1, if_neg h2, if_neg h3]

theorem logsig_error (x : Fin n → ℝ) (i : Fin n) :
    |LogLoss.logsig x i - Real.log (sigmoid (x i))| ≤ Real.exp (-33) := by
  rw [logsig_apply]
  set z := x i
  split_ifs with h1 h2 h3
  · rw [log_sigmoid', sub_sub_cancel]
    have hl : 0 ≤ Real.log (1 + Real.exp z) := Real.log_nonneg (by linarith [Real.exp_pos z])
    rw [abs_of_nonneg hl]
    exact le_trans (log_one_add_le (Real.exp_pos z).le) (Real.exp_le_exp.mpr h1.le)
  · rw [log_sigmoid']
    have e1 := log_one_add_le (Real.exp_pos z).le
    have e2 := le_log_one_add (Real.exp_pos z).le
    have e3 : Real.exp z ^ 2 ≤ Real.exp (-33) := by
      rw [← Real.exp_nat_mul]; refine Real.exp_le_exp.mpr ?_; push_cast; linarith
    have := Real.exp_pos (-33)
    rw [abs_le]; constructor <;> linarith
  · rw [log_sigmoid, sub_self, abs_zero]; exact (Real.exp_pos _).le
  · rw [log_sigmoid]
    have e1 := log_one_add_le (Real.exp_pos (-z)).le
    have e2 := le_log_one_add (Real.exp_pos (-z)).le
    have e3 : Real.exp (-z) ^ 2 ≤ Real.exp (-33) := by
      rw [← Real.exp_nat_mul]; refine Real.exp_le_exp.mpr ?_; push_cast; linarith
    have := Real.exp_pos (-33)
    rw [abs_le]; constructor <;> linarith

theorem expit_branches (p y : ℝ) :
    (if p < 0 then ((1 - y) * Real.exp p - y) / (1 + Real.exp p)
      else ((1 - y) - y * Real.exp (-p)) / (1 + Real.exp (-p))) = sigmoid p - y := by
  split_ifs
  · rw [sigmoid_eq]; have := one_add_exp_pos p; field_simp; ring
  · unfold sigmoid; have := one_add_exp_pos (-p); field_simp; ring

theorem expitB_apply (x b : Fin n → ℝ) (i : Fin n) : LogLoss.expitB x b i = sigmoid (x i) - b i := by
  rw [← expit_branches]
  unfold LogLoss.expitB maskSet
  simp only
  by_cases h : x i < 0
  · rw [if_neg (not_not.mpr h), if_pos h, if_pos h]
  · rw [if_pos h, if_neg h]

/-! ### Huber -/

/-- Derivative of the Huber function. -/
noncomputable def clip1 (delta z : ℝ) : ℝ := max (-delta) (min z delta)

theorem clip1_abs {delta : ℝ} (hd : 0 ≤ delta) (z : ℝ) : |clip1 delta z| ≤ delta := by
  unfold clip1; rw [abs_le]
  exact ⟨le_max_left _ _, max_le (by linarith) (min_le_right _ _)⟩

theorem huber1_eq {delta : ℝ} (hd : 0 ≤ delta) (z : ℝ) :
    huber1 delta z = clip1 delta z * z - clip1 delta z ^ 2 / 2 := by
  unfold huber1 clip1
  split_ifs with h
  · obtain ⟨h1, h2⟩ := abs_le.mp h
    rw [min_eq_left h2, max_eq_right h1]; ring
  · rcases le_or_gt 0 z with hz | hz
    · rw [abs_of_nonneg hz] at h ⊢
      rw [min_eq_right (by linarith), max_eq_right (by linarith)]; ring
    · rw [abs_of_neg hz] at h ⊢
      rw [min_eq_left (by linarith), max_eq_left (by linarith)]; ring

theorem huber1_ge {delta : ℝ} (hd : 0 ≤ delta) (z c : ℝ) (hc : |c| ≤ delta) : c * z - c ^ 2 / 2 ≤ huber1 delta z := by
  rw [huber1_eq hd]
  obtain ⟨h1, h2⟩ := abs_le.mp hc
  unfold clip1
  rcases le_total z delta with h | h
  · rw [min_eq_left h]
    rcases le_total (-delta) z with h' | h'
    · rw [max_eq_right h']; nlinarith [sq_nonneg (c - z)]
    · rw [max_eq_left h']; nlinarith [sq_nonneg (c + delta)]
  · rw [min_eq_right h, max_eq_right (by linarith)]; nlinarith [sq_nonneg (c - delta)]

theorem clip1_lipschitz (delta a b : ℝ) : |clip1 delta a - clip1 delta b| ≤ |a - b| := by
  unfold clip1
  have h1 := abs_max_sub_max_le_abs (min a delta) (min b delta) (-delta)
  have h2 := abs_min_sub_min_le_max a delta b delta
  rw [max_comm, max_comm (-delta)]
  refine le_trans h1 (le_trans h2 ?_)
  simp

theorem hasDerivAt_huber1 {delta : ℝ} (hd : 0 ≤ delta) (z : ℝ) : HasDerivAt (huber1 delta) (clip1 delta z) z := by
  have hb : ∀ w, |huber1 delta w - huber1 delta z - (w - z) * clip1 delta z| ≤ ‖w - z‖ ^ 2 := by
    intro w
    have h1 := huber1_ge hd w (clip1 delta z) (clip1_abs hd z)
    have h2 := huber1_ge hd z (clip1 delta w) (clip1_abs hd w)
    have e1 := huber1_eq hd z
    have e2 := huber1_eq hd w
    have h3 := clip1_lipschitz delta w z
    have h4 : (clip1 delta w - clip1 delta z) * (w - z) ≤ |w - z| * |w - z| := by
      refine le_trans (le_abs_self _) ?_
      rw [abs_mul]
      exact mul_le_mul_of_nonneg_right h3 (abs_nonneg _)
    rw [Real.norm_eq_abs, abs_le, pow_two]
    have := mul_self_nonneg |w - z|
    constructor <;> nlinarith
  rw [hasDerivAt_iff_isLittleO]
  refine Asymptotics.IsBigO.trans_isLittleO (g := fun w => ‖w - z‖ ^ 2) ?_ ?_
  · refine Asymptotics.IsBigO.of_bound 1 (Filter.Eventually.of_forall fun w => ?_)
    rw [one_mul, smul_eq_mul, Real.norm_eq_abs, norm_pow, norm_norm]
    exact hb w
  · exact Asymptotics.isLittleO_pow_sub_sub z one_lt_two

end Copt
