import Verif.Model.Objects
import Verif.Spec.Convex
import Verif.Proof.Convex
import Verif.Proof.Loss
import Verif.Props.Nonexpansive
import Verif.Props.Loss
import Mathlib.Analysis.Calculus.Deriv.MeanValue

/-! # Losses and penalties as convex functions on a Euclidean space -/

set_option linter.unusedSectionVars false

namespace Copt

open Spec

open scoped InnerProductSpace

variable {n d : ℕ}

/-! ### Coordinates -/

theorem inner_ofLp (x y : EuclideanSpace ℝ (Fin d)) : ⟪x, y⟫_ℝ = dot (WithLp.ofLp x) (WithLp.ofLp y) := by
  rw [PiLp.inner_apply]
  unfold dot
  refine Finset.sum_congr rfl fun i _ => ?_
  show y i * x i = x i * y i
  ring

theorem norm_ofLp (x : EuclideanSpace ℝ (Fin d)) : ‖x‖ = norm2 (WithLp.ofLp x) := by rw [norm2_eq]

theorem norm_sq_ofLp (x : EuclideanSpace ℝ (Fin d)) : ‖x‖ ^ 2 = dot (WithLp.ofLp x) (WithLp.ofLp x) := by
  rw [norm_ofLp, norm2_sq]

theorem sqDist_ofLp (x y : EuclideanSpace ℝ (Fin d)) : ‖x - y‖ ^ 2 = sqDist (WithLp.ofLp x) (WithLp.ofLp y) := by
  rw [norm_sq_ofLp]
  unfold dot sqDist
  refine Finset.sum_congr rfl fun i _ => ?_
  show (x i - y i) * (x i - y i) = (x i - y i) ^ 2
  ring

/-! ### Functions of one variable with a monotone Lipschitz derivative -/

theorem quad_upper_1d {phi phi' : ℝ → ℝ} {c : ℝ} (hd : ∀ t, HasDerivAt phi (phi' t) t)
    (hl : ∀ s t, |phi' s - phi' t| ≤ c * |s - t|) (a b : ℝ) : phi b ≤ phi a + phi' a * (b - a) + c / 2 * (b - a) ^ 2 := by
  let h : ℝ → ℝ := fun t => phi a + phi' a * (t - a) + c / 2 * (t - a) ^ 2 - phi t
  have hh : ∀ t, HasDerivAt h (phi' a + c * (t - a) - phi' t) t := by
    intro t
    have h1 : HasDerivAt (fun t : ℝ => t - a) 1 t := (hasDerivAt_id t).sub_const a
    have := (((h1.const_mul (phi' a)).const_add (phi a)).add ((h1.pow 2).const_mul (c / 2))).sub (hd t)
    refine this.congr_deriv ?_
    simp; ring
  have hcont : Continuous h := continuous_iff_continuousAt.mpr fun t => (hh t).continuousAt
  suffices h a ≤ h b by
    simp only [h, sub_self, mul_zero, add_zero, ne_eq, OfNat.ofNat_ne_zero, not_false_eq_true, zero_pow] at this
    linarith
  rcases le_total a b with hab | hab
  · refine monotoneOn_of_deriv_nonneg (convex_Ici a) hcont.continuousOn (fun t _ => (hh t).differentiableAt.differentiableWithinAt) ?_
      (Set.mem_Ici.mpr le_rfl) (Set.mem_Ici.mpr hab) hab
    intro t ht
    rw [interior_Ici] at ht
    rw [(hh t).deriv]
    have := le_of_abs_le (hl t a)
    rw [abs_of_pos (sub_pos.mpr ht)] at this
    linarith
  · refine antitoneOn_of_deriv_nonpos (convex_Iic a) hcont.continuousOn (fun t _ => (hh t).differentiableAt.differentiableWithinAt) ?_
      (Set.mem_Iic.mpr hab) (Set.mem_Iic.mpr le_rfl) hab
    intro t ht
    rw [interior_Iic] at ht
    rw [(hh t).deriv]
    have := le_of_abs_le (hl a t)
    rw [abs_of_pos (sub_pos.mpr ht)] at this
    linarith

theorem convex_1d {phi phi' : ℝ → ℝ} (hd : ∀ t, HasDerivAt phi (phi' t) t) (hm : Monotone phi') (a b : ℝ) :
    phi a + phi' a * (b - a) ≤ phi b := by
  let h : ℝ → ℝ := fun t => phi t - (phi a + phi' a * (t - a))
  have hh : ∀ t, HasDerivAt h (phi' t - phi' a) t := by
    intro t
    have h1 : HasDerivAt (fun t : ℝ => t - a) 1 t := (hasDerivAt_id t).sub_const a
    have := (hd t).sub ((h1.const_mul (phi' a)).const_add (phi a))
    exact this.congr_deriv (by simp)
  have hcont : Continuous h := continuous_iff_continuousAt.mpr fun t => (hh t).continuousAt
  suffices h a ≤ h b by
    simp only [h, sub_self, mul_zero, add_zero] at this
    linarith
  rcases le_total a b with hab | hab
  · refine monotoneOn_of_deriv_nonneg (convex_Ici a) hcont.continuousOn (fun t _ => (hh t).differentiableAt.differentiableWithinAt) ?_
      (Set.mem_Ici.mpr le_rfl) (Set.mem_Ici.mpr hab) hab
    intro t ht
    rw [interior_Ici] at ht
    rw [(hh t).deriv, sub_nonneg]
    exact hm (le_of_lt ht)
  · refine antitoneOn_of_deriv_nonpos (convex_Iic a) hcont.continuousOn (fun t _ => (hh t).differentiableAt.differentiableWithinAt) ?_
      (Set.mem_Iic.mpr hab) (Set.mem_Iic.mpr le_rfl) hab
    intro t ht
    rw [interior_Iic] at ht
    rw [(hh t).deriv, sub_nonpos]
    exact hm (le_of_lt ht)

/-! ### Empirical risks -/

theorem dot_erm_grad (A : Fin n → Fin d → ℝ) (alpha : ℝ) (u : Fin n → ℝ) (x v : Fin d → ℝ) :
    dot (fun j => matVecT A u j / n + alpha * x j) v = (∑ i, u i * dot (A i) v) / n + alpha * dot x v := by
  have e : dot (fun j => matVecT A u j / n + alpha * x j) v = (n : ℝ)⁻¹ * dot (matVecT A u) v + alpha * dot x v := by
    unfold dot
    rw [Finset.mul_sum, Finset.mul_sum, ← Finset.sum_add_distrib]
    exact Finset.sum_congr rfl fun j _ => by simp only [div_eq_mul_inv]; ring
  rw [e, dot_matVecT]
  unfold mulVec
  show (n : ℝ)⁻¹ * (∑ i, u i * dot (A i) v) + _ = _
  rw [div_eq_inv_mul]

theorem dot_sub_right' (a x y : Fin d → ℝ) : dot a (y - x) = dot a y - dot a x := by
  unfold dot
  rw [← Finset.sum_sub_distrib]
  exact Finset.sum_congr rfl fun j _ => by simp only [Pi.sub_apply]; ring

theorem dot_sq_expand (x y : Fin d → ℝ) : dot y y = dot x x + 2 * dot x (y - x) + dot (y - x) (y - x) := by
  unfold dot
  rw [Finset.mul_sum, ← Finset.sum_add_distrib, ← Finset.sum_add_distrib]
  exact Finset.sum_congr rfl fun j _ => by simp only [Pi.sub_apply]; ring

/-- A regularised empirical risk with convex losses is `alpha`-strongly convex. -/
theorem erm_strong {A : Fin n → Fin d → ℝ} {alpha : ℝ} {phi phi' : Fin n → ℝ → ℝ}
    (h : ∀ i a b, phi i a + phi' i a * (b - a) ≤ phi i b) (x y : Fin d → ℝ) :
    erm A alpha phi x + dot (fun j => matVecT A (fun i => phi' i (dot (A i) x)) j / n + alpha * x j) (y - x) +
      alpha / 2 * dot (y - x) (y - x) ≤ erm A alpha phi y := by
  rw [dot_erm_grad]
  unfold erm
  have h1 : (∑ i, phi i (dot (A i) x)) + (∑ i, phi' i (dot (A i) x) * dot (A i) (y - x)) ≤ ∑ i, phi i (dot (A i) y) := by
    rw [← Finset.sum_add_distrib]
    refine Finset.sum_le_sum fun i _ => ?_
    rw [dot_sub_right']
    exact h i _ _
  have h2 := div_le_div_of_nonneg_right h1 (Nat.cast_nonneg n : (0 : ℝ) ≤ n)
  rw [add_div] at h2
  rw [dot_sq_expand x y]
  linarith

/-- Quadratic upper bound of a regularised empirical risk. -/
theorem erm_upper {A : Fin n → Fin d → ℝ} {alpha s c : ℝ} (hc : 0 ≤ c) (hs : 0 ≤ s) (hA : ∀ v, norm2 (mulVec A v) ≤ s * norm2 v)
    {phi phi' : Fin n → ℝ → ℝ} (h : ∀ i a b, phi i b ≤ phi i a + phi' i a * (b - a) + c / 2 * (b - a) ^ 2) (x y : Fin d → ℝ) :
    erm A alpha phi y ≤ erm A alpha phi x + dot (fun j => matVecT A (fun i => phi' i (dot (A i) x)) j / n + alpha * x j) (y - x) +
      (c * (s * s) / n + alpha) / 2 * dot (y - x) (y - x) := by
  rw [dot_erm_grad]
  unfold erm
  have h3 : ∑ i, (dot (A i) (y - x)) ^ 2 ≤ s * s * dot (y - x) (y - x) := by
    have h4 := pow_le_pow_left₀ (norm2_nonneg _) (hA (y - x)) 2
    rw [norm2_sq, mul_pow, norm2_sq, pow_two s] at h4
    refine le_trans (le_of_eq ?_) h4
    unfold dot mulVec
    exact Finset.sum_congr rfl fun i _ => by unfold dot; ring
  have h1 : (∑ i, phi i (dot (A i) y)) ≤ (∑ i, phi i (dot (A i) x)) + (∑ i, phi' i (dot (A i) x) * dot (A i) (y - x)) +
      c / 2 * (s * s * dot (y - x) (y - x)) := by
    refine le_trans ?_ (add_le_add_right (mul_le_mul_of_nonneg_left h3 (by linarith : (0 : ℝ) ≤ c / 2)) _)
    rw [Finset.mul_sum, ← Finset.sum_add_distrib, ← Finset.sum_add_distrib]
    refine Finset.sum_le_sum fun i _ => ?_
    rw [dot_sub_right']
    exact h i _ _
  have h2 := div_le_div_of_nonneg_right h1 (Nat.cast_nonneg n : (0 : ℝ) ≤ n)
  rw [add_div, add_div] at h2
  have e : c / 2 * (s * s * dot (y - x) (y - x)) / n = c * (s * s) / n / 2 * dot (y - x) (y - x) := by ring
  rw [e] at h2
  rw [dot_sq_expand x y]
  linarith

/-! ### One-variable losses -/

theorem sigmoid_mono : Monotone sigmoid := by
  intro a b hab
  unfold sigmoid
  exact one_div_le_one_div_of_le (one_add_exp_pos _) (by have := Real.exp_le_exp.mpr (neg_le_neg hab); linarith)

theorem clip1_mono (delta : ℝ) : Monotone (clip1 delta) := by
  intro a b hab
  unfold clip1
  first
    | exact max_le_max le_rfl (min_le_min le_rfl hab)
    | exact max_le_max (min_le_min hab le_rfl) le_rfl
    | exact min_le_min (max_le_max hab le_rfl) le_rfl
    | exact max_le_max le_rfl (min_le_min hab le_rfl)

theorem logistic1_nonneg {b : ℝ} (h0 : 0 ≤ b) (h1 : b ≤ 1) (z : ℝ) : 0 ≤ logistic1 b z := by
  unfold logistic1
  have hs := sigmoid_pos z
  have hs1 : sigmoid z < 1 := by have := one_sub_sigmoid z; have := sigmoid_pos (-z); linarith
  have e1 := Real.log_nonpos hs.le hs1.le
  have e2 := Real.log_nonpos (by linarith : (0 : ℝ) ≤ 1 - sigmoid z) (by linarith)
  nlinarith

theorem huber1_nonneg {delta : ℝ} (hd : 0 ≤ delta) (z : ℝ) : 0 ≤ huber1 delta z := by
  have := huber1_ge hd z 0 (by simpa using hd)
  simpa using this

end Copt
