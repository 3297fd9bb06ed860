import Verif.Model.FloatLineSearch
import Verif.Proof.InexactLineSearch
import Verif.Proof.FloatOracles

/-! # The line search of `minimize_proximal_gradient` with rounded arithmetic -/

set_option linter.unusedSectionVars false

namespace Copt

open Spec

open scoped InnerProductSpace

variable {n d : ℕ} {rd : ℝ → ℝ} {u w : ℝ}

local notation "ℓ²" => EuclideanSpace ℝ (Fin d)

/-! ### Arithmetic without underflow -/

theorem rel_err (hr : Rounding rd u 0) (hu : u ≤ w) (x : ℝ) : |rd x - x| ≤ w * |x| := by
  have := hr.err x
  rw [add_zero] at this
  exact this.trans (mul_le_mul_of_nonneg_right hu (abs_nonneg _))

theorem rel_bounds (hr : Rounding rd u 0) (hu : u ≤ w) {x : ℝ} (hx : 0 ≤ x) : (1 - w) * x ≤ rd x ∧ rd x ≤ (1 + w) * x := by
  have h := rel_err hr hu x
  rw [abs_of_nonneg hx, abs_le] at h
  constructor <;> linarith

/-- The right-hand side of the test. -/
theorem flTest_scalar (hr : Rounding rd u 0) (hu : u ≤ w) {fX IP D2 t K m fk gd dd : ℝ} (ht : 0 < t) (hD2 : 0 ≤ D2) (hK : 1 ≤ K) (hKw : 8 * K * w ≤ 1)
    (hfk : |fk - fX| ≤ K * w) (hgd : |gd - IP| ≤ K * w) (hdd : |dd - D2| ≤ K * w * D2) (hm : |fX + IP| ≤ m) :
    0 < rd (2 * t) ∧ |rd (rd (fk + gd) + rd (dd / rd (2 * t))) - (fX + IP + D2 / (2 * t))| ≤ (10 * K + 3 * m + 20) * w * (1 + D2 / (2 * t)) := by
  have hw : 0 ≤ w := hr.u_nonneg.trans hu
  have hw8 : 8 * w ≤ 1 := by nlinarith
  have h2t := rel_bounds hr hu (show 0 ≤ 2 * t by linarith)
  obtain ⟨T, hT⟩ : ∃ T, T = rd (2 * t) := ⟨_, rfl⟩
  rw [← hT] at h2t ⊢
  have hTt : t ≤ T := by nlinarith
  have hT0 : 0 < T := by linarith
  refine ⟨hT0, ?_⟩
  obtain ⟨Q, hQ⟩ : ∃ Q, Q = D2 / (2 * t) := ⟨_, rfl⟩
  have hQ0 : 0 ≤ Q := by rw [hQ]; positivity
  have hD : D2 = 2 * t * Q := by rw [hQ]; field_simp
  rw [← hQ]
  have hKwQ : 0 ≤ K * w * Q := by positivity
  -- the quotient
  have h1 : |dd / T - Q| ≤ 3 * K * w * Q + 2 * w * Q := by
    have e : dd / T - Q = ((dd - D2) + (2 * t - T) * Q) / T := by rw [hD]; field_simp; ring
    rw [e, abs_div, abs_of_pos hT0, div_le_iff₀ hT0]
    have h2 : |2 * t - T| ≤ w * (2 * t) := by rw [abs_le]; constructor <;> linarith
    have h3 := abs_add_le (dd - D2) ((2 * t - T) * Q)
    rw [abs_mul, abs_of_nonneg hQ0] at h3
    have h4 := mul_le_mul_of_nonneg_right h2 hQ0
    rw [hD] at hdd h3 ⊢
    have h5 : K * w * (2 * t * Q) ≤ 3 * K * w * Q * T := by
      have h6 := mul_le_mul_of_nonneg_left h2t.1 hKwQ
      have h7 : K * w * Q * (t * (1 - 3 * w)) ≥ 0 := mul_nonneg hKwQ (mul_nonneg ht.le (by linarith))
      nlinarith
    have h6 : w * (2 * t) * Q ≤ 2 * w * Q * T := by
      have := mul_le_mul_of_nonneg_left hTt (show 0 ≤ 2 * w * Q by positivity)
      linarith
    linarith
  have hcQ : 3 * K * w * Q + 2 * w * Q ≤ Q := by
    have h2 := mul_le_mul_of_nonneg_right hKw hQ0
    have h3 := mul_le_mul_of_nonneg_right (mul_le_mul_of_nonneg_right hK hw) hQ0
    linarith
  have h2 := rel_err hr hu (dd / T)
  have h3 : |dd / T| ≤ 2 * Q := by
    have := abs_add_le (dd / T - Q) Q
    rw [sub_add_cancel, abs_of_nonneg hQ0] at this
    linarith
  have h4 : |rd (dd / T) - Q| ≤ (3 * K + 4) * w * Q := by
    have := abs_sub_le (rd (dd / T)) (dd / T) Q
    have h5 := mul_le_mul_of_nonneg_left h3 hw
    linarith
  -- the sum
  have hKw0 : 0 ≤ K * w := by positivity
  have hm0 : 0 ≤ m := (abs_nonneg _).trans hm
  have h5 : |fk + gd - (fX + IP)| ≤ 2 * (K * w) := by
    have := abs_add_le (fk - fX) (gd - IP)
    rw [show fk - fX + (gd - IP) = fk + gd - (fX + IP) by ring] at this
    linarith
  have h6 : |fk + gd| ≤ m + 1 := by
    have := abs_add_le (fk + gd - (fX + IP)) (fX + IP)
    rw [sub_add_cancel] at this
    linarith
  have h7 : |rd (fk + gd) - (fX + IP)| ≤ 2 * (K * w) + w * (m + 1) := by
    have := abs_sub_le (rd (fk + gd)) (fk + gd) (fX + IP)
    have h8 := (rel_err hr hu (fk + gd)).trans (mul_le_mul_of_nonneg_left h6 hw)
    linarith
  have h8 : |rd (fk + gd) + rd (dd / T) - (fX + IP + Q)| ≤ 2 * (K * w) + w * (m + 1) + (3 * K + 4) * w * Q := by
    have := abs_add_le (rd (fk + gd) - (fX + IP)) (rd (dd / T) - Q)
    rw [show rd (fk + gd) - (fX + IP) + (rd (dd / T) - Q) = rd (fk + gd) + rd (dd / T) - (fX + IP + Q) by ring] at this
    linarith
  have h9 : |rd (fk + gd) + rd (dd / T)| ≤ 2 * m + 2 + 3 * Q := by
    have h10 := abs_add_le (rd (fk + gd) + rd (dd / T) - (fX + IP + Q)) (fX + IP + Q)
    rw [sub_add_cancel] at h10
    have h11 := abs_add_le (fX + IP) Q
    rw [abs_of_nonneg hQ0] at h11
    have h12 : w * (m + 1) ≤ 1 * (m + 1) := mul_le_mul_of_nonneg_right (by linarith) (by linarith)
    have h13 := mul_le_mul_of_nonneg_right hKw hQ0
    have h14 := mul_le_mul_of_nonneg_right hw8 hQ0
    linarith
  have h10 := (rel_err hr hu (rd (fk + gd) + rd (dd / T))).trans (mul_le_mul_of_nonneg_left h9 hw)
  have h11 := abs_sub_le (rd (rd (fk + gd) + rd (dd / T))) (rd (fk + gd) + rd (dd / T)) (fX + IP + Q)
  have h12 : 0 ≤ w * Q := by positivity
  have h13 : 0 ≤ m * (w * Q) := by positivity
  nlinarith

/-! ### Vectors -/

theorem rel_vec (hr : Rounding rd u 0) (hu : u ≤ w) (v : Fin d → ℝ) : ‖(WithLp.toLp 2 (fun j => rd (v j)) : ℓ²) - WithLp.toLp 2 v‖ ≤ w * ‖(WithLp.toLp 2 v : ℓ²)‖ := by
  have hw : 0 ≤ w := hr.u_nonneg.trans hu
  rw [EuclideanSpace.norm_eq, EuclideanSpace.norm_eq]
  refine Real.sqrt_le_iff.mpr ⟨by positivity, ?_⟩
  rw [mul_pow, Real.sq_sqrt (Finset.sum_nonneg fun _ _ => sq_nonneg _), Finset.mul_sum]
  refine Finset.sum_le_sum fun j _ => ?_
  rw [← mul_pow]
  refine pow_le_pow_left₀ (norm_nonneg _) ?_ 2
  exact rel_err hr hu (v j)

theorem inner_toLp (a b : Fin d → ℝ) : ⟪(WithLp.toLp 2 a : ℓ²), WithLp.toLp 2 b⟫_ℝ = ∑ j, a j * b j := by
  rw [PiLp.inner_apply]
  exact Finset.sum_congr rfl fun j _ => by simp [mul_comm]

/-- The test of the line search. -/
theorem flLsTest_error (hr : Rounding rd u 0) (hu : u ≤ w) {f : ℓ² → ℝ} {g : ℓ² → ℓ²} {K1 M t fN fk gd dd : ℝ} {x y h : Fin d → ℝ} (ht : 0 < t) (hK : 1 ≤ K1) (hM : 1 ≤ M)
    (hCw : 1000 * K1 * M ^ 2 * w ≤ 1) (hfN : |fN - f (WithLp.toLp 2 y)| ≤ K1 * w) (hfk : |fk - f (WithLp.toLp 2 x)| ≤ K1 * w) (hh : ‖(WithLp.toLp 2 h : ℓ²) - g (WithLp.toLp 2 x)‖ ≤ K1 * w)
    (hfx : |f (WithLp.toLp 2 x)| ≤ M) (hgx : ‖g (WithLp.toLp 2 x)‖ ≤ M) (hyx : ‖(WithLp.toLp 2 y : ℓ²) - WithLp.toLp 2 x‖ ≤ M)
    (hgd : |gd - ∑ j, h j * rd (y j - x j)| ≤ K1 * w * (norm2 h * norm2 fun j => rd (y j - x j)))
    (hdd : |dd - ∑ j, rd (y j - x j) * rd (y j - x j)| ≤ K1 * w * ((norm2 fun j => rd (y j - x j)) * norm2 fun j => rd (y j - x j))) :
    (flLsTest rd fN fk gd dd t → LsAccept f g (400 * K1 * M ^ 2 * w) t (WithLp.toLp 2 x) (WithLp.toLp 2 y)) ∧
      (¬ flLsTest rd fN fk gd dd t → LsReject f g (400 * K1 * M ^ 2 * w) t (WithLp.toLp 2 x) (WithLp.toLp 2 y)) := by
  have hw : 0 ≤ w := hr.u_nonneg.trans hu
  have hK0 : 0 ≤ K1 := by linarith
  have hM0 : 0 ≤ M := by linarith
  have hM2 : 1 ≤ M ^ 2 := one_le_pow₀ hM
  have hMM : M ≤ M ^ 2 := by nlinarith
  have hKw : 1000 * K1 * w ≤ 1 := by
    have := mul_le_mul_of_nonneg_left hM2 (show 0 ≤ 1000 * K1 * w by positivity)
    linarith
  have hw1 : 1000 * w ≤ 1 := by
    have := mul_le_mul_of_nonneg_right hK hw
    linarith
  obtain ⟨X, hX⟩ : ∃ X : ℓ², X = WithLp.toLp 2 x := ⟨_, rfl⟩
  obtain ⟨Y, hY⟩ : ∃ Y : ℓ², Y = WithLp.toLp 2 y := ⟨_, rfl⟩
  obtain ⟨H, hH⟩ : ∃ H : ℓ², H = WithLp.toLp 2 h := ⟨_, rfl⟩
  obtain ⟨D, hD⟩ : ∃ D : ℓ², D = WithLp.toLp 2 fun j => rd (y j - x j) := ⟨_, rfl⟩
  have hDd : ‖D - (Y - X)‖ ≤ w * ‖Y - X‖ := by
    have := rel_vec hr hu fun j => y j - x j
    rw [hD, hY, hX]; exact this
  rw [← inner_toLp, ← toLp_norm, ← toLp_norm, ← hH, ← hD] at hgd
  rw [← inner_toLp, ← toLp_norm, ← hD, real_inner_self_eq_norm_sq] at hdd
  rw [← hX] at hfk hh hfx hgx hyx ⊢
  rw [← hY] at hfN hyx ⊢
  rw [← hH] at hh
  have hn0 := norm_nonneg (Y - X)
  have hDn : ‖D‖ ≤ 2 * ‖Y - X‖ := by
    have h1 := norm_add_le (D - (Y - X)) (Y - X)
    rw [sub_add_cancel] at h1
    have h2 := mul_le_mul_of_nonneg_right hw1 hn0
    linarith
  have hHn : ‖H‖ ≤ 2 * M := by
    have h1 := norm_add_le (H - g X) (g X)
    rw [sub_add_cancel] at h1
    linarith
  have hKw0 : 0 ≤ K1 * w := by positivity
  -- the first dot product
  have h1 : |gd - ⟪g X, Y - X⟫_ℝ| ≤ (7 * K1 * M ^ 2) * w := by
    have e : gd - ⟪g X, Y - X⟫_ℝ = (gd - ⟪H, D⟫_ℝ) + ⟪H - g X, D⟫_ℝ + ⟪g X, D - (Y - X)⟫_ℝ := by
      rw [inner_sub_left H, inner_sub_right (g X) D]; ring
    rw [e]
    have a1 : K1 * w * (‖H‖ * ‖D‖) ≤ K1 * w * (2 * M * (2 * M)) := mul_le_mul_of_nonneg_left (mul_le_mul hHn (by linarith) (norm_nonneg _) (by linarith)) hKw0
    have a2 := (abs_real_inner_le_norm (H - g X) D).trans (mul_le_mul hh (show ‖D‖ ≤ 2 * M by linarith) (norm_nonneg _) hKw0)
    have a3 : w * ‖Y - X‖ ≤ w * M := mul_le_mul_of_nonneg_left hyx hw
    have a4 := (abs_real_inner_le_norm (g X) (D - (Y - X))).trans (mul_le_mul hgx (hDd.trans a3) (norm_nonneg _) hM0)
    have a5 := abs_add_le (gd - ⟪H, D⟫_ℝ + ⟪H - g X, D⟫_ℝ) ⟪g X, D - (Y - X)⟫_ℝ
    have a6 := abs_add_le (gd - ⟪H, D⟫_ℝ) ⟪H - g X, D⟫_ℝ
    have a7 := mul_le_mul_of_nonneg_left hMM hKw0
    have a8 : w * M ^ 2 ≤ K1 * w * M ^ 2 := by
      have := mul_le_mul_of_nonneg_right hK (show 0 ≤ w * M ^ 2 by positivity)
      linarith
    linarith
  -- the second
  have h2 : |dd - ‖Y - X‖ ^ 2| ≤ (7 * K1) * w * ‖Y - X‖ ^ 2 := by
    have a1 : K1 * w * (‖D‖ * ‖D‖) ≤ K1 * w * (2 * ‖Y - X‖ * (2 * ‖Y - X‖)) := mul_le_mul_of_nonneg_left (mul_le_mul hDn hDn (norm_nonneg _) (by linarith)) hKw0
    have a2 : |‖D‖ ^ 2 - ‖Y - X‖ ^ 2| ≤ 3 * w * ‖Y - X‖ ^ 2 := by
      have e : ‖D‖ ^ 2 - ‖Y - X‖ ^ 2 = (‖D‖ - ‖Y - X‖) * (‖D‖ + ‖Y - X‖) := by ring
      rw [e, abs_mul, abs_of_nonneg (by positivity : 0 ≤ ‖D‖ + ‖Y - X‖)]
      have b1 := (abs_norm_sub_norm_le D (Y - X)).trans hDd
      have := mul_le_mul b1 (show ‖D‖ + ‖Y - X‖ ≤ 3 * ‖Y - X‖ by linarith) (by positivity) (by positivity)
      linarith
    have a3 := abs_sub_le dd (‖D‖ ^ 2) (‖Y - X‖ ^ 2)
    have a4 : w * ‖Y - X‖ ^ 2 ≤ K1 * w * ‖Y - X‖ ^ 2 := by
      have := mul_le_mul_of_nonneg_right hK (show 0 ≤ w * ‖Y - X‖ ^ 2 by positivity)
      linarith
    linarith
  have hIP : |⟪g X, Y - X⟫_ℝ| ≤ M ^ 2 := by
    have := (abs_real_inner_le_norm (g X) (Y - X)).trans (mul_le_mul hgx hyx (norm_nonneg _) hM0)
    rwa [← sq] at this
  have hm : |f X + ⟪g X, Y - X⟫_ℝ| ≤ 2 * M ^ 2 := by
    have := abs_add_le (f X) ⟪g X, Y - X⟫_ℝ
    linarith
  have hKM : K1 ≤ 7 * K1 * M ^ 2 := by
    have := mul_le_mul_of_nonneg_left hM2 hK0
    nlinarith
  have hKM7 : 7 * K1 ≤ 7 * K1 * M ^ 2 := by
    have := mul_le_mul_of_nonneg_left hM2 hK0
    nlinarith
  obtain ⟨hT, h3⟩ := flTest_scalar hr hu (fX := f X) (IP := ⟪g X, Y - X⟫_ℝ) (D2 := ‖Y - X‖ ^ 2) (K := 7 * K1 * M ^ 2) (m := 2 * M ^ 2) ht (sq_nonneg _) (by linarith)
    (by
      have : 0 ≤ K1 * M ^ 2 * w := by positivity
      linarith) (hfk.trans (mul_le_mul_of_nonneg_right hKM hw)) h1 (h2.trans (mul_le_mul_of_nonneg_right (mul_le_mul_of_nonneg_right hKM7 hw) (sq_nonneg _))) hm
  obtain ⟨Q, hQ⟩ : ∃ Q, Q = ‖Y - X‖ ^ 2 / (2 * t) := ⟨_, rfl⟩
  have hQ0 : 0 ≤ Q := by rw [hQ]; positivity
  rw [← hQ] at h3
  obtain ⟨c, hc⟩ : ∃ c, c = 400 * K1 * M ^ 2 * w := ⟨_, rfl⟩
  have hc1 : (10 * (7 * K1 * M ^ 2) + 3 * (2 * M ^ 2) + 20) * w + K1 * w ≤ c := by
    rw [hc]
    have a1 := mul_le_mul_of_nonneg_right hK (show 0 ≤ M ^ 2 * w by positivity)
    have a2 := mul_le_mul_of_nonneg_right hM2 hKw0
    have a3 := mul_le_mul_of_nonneg_right hK hw
    linarith
  have hc2 : (10 * (7 * K1 * M ^ 2) + 3 * (2 * M ^ 2) + 20) * w * Q ≤ c * Q := mul_le_mul_of_nonneg_right (by linarith) hQ0
  rw [abs_le] at h3 hfN
  rw [← hc]
  unfold flLsTest LsAccept LsReject
  rw [if_neg hT.ne', ← hQ]
  constructor
  · intro h
    linarith [h3.2, hfN.1]
  · intro h
    push Not at h
    linarith [h3.1, hfN.2]

/-- The argument of `prox`. -/
theorem flStep_error (hr : Rounding rd u 0) (hu : u ≤ w) (hw1 : w ≤ 1) {x h : Fin d → ℝ} {s S N : ℝ} (hs0 : 0 < s) (hsS : s ≤ S) (hx : norm2 x ≤ N) (hh : norm2 h ≤ N) :
    ‖(WithLp.toLp 2 (flStep rd x h s) : ℓ²) - (WithLp.toLp 2 x - s • WithLp.toLp 2 h)‖ ≤ d * ((1 + 3 * S) * N * w) := by
  have hw : 0 ≤ w := hr.u_nonneg.trans hu
  refine norm_le_of_coord _ fun j => ?_
  show |rd (x j - rd (s * h j)) - (x j - s * h j)| ≤ _
  have h1 := rel_err hr hu (s * h j)
  rw [abs_mul, abs_of_pos hs0] at h1
  have h2 := rel_err hr hu (x j - rd (s * h j))
  have hN0 : 0 ≤ N := (norm2_nonneg' x).trans hx
  have h3 : s * |h j| ≤ S * N := mul_le_mul hsS ((abs_le_norm2 h j).trans hh) (abs_nonneg _) (by linarith)
  have h4 : |rd (s * h j)| ≤ 2 * (S * N) := by
    have := abs_add_le (rd (s * h j) - s * h j) (s * h j)
    rw [sub_add_cancel, abs_mul s, abs_of_pos hs0] at this
    have h5 := mul_le_mul_of_nonneg_right hw1 (show 0 ≤ s * |h j| by positivity)
    linarith
  have h5 : |x j - rd (s * h j)| ≤ N + 2 * (S * N) := (abs_sub _ _).trans (by linarith [(abs_le_norm2 x j).trans hx])
  have h6 := mul_le_mul_of_nonneg_left h5 hw
  have h7 := mul_le_mul_of_nonneg_left h3 hw
  have h8 := abs_add_le (rd (x j - rd (s * h j)) - (x j - rd (s * h j))) (-(rd (s * h j) - s * h j))
  rw [abs_neg, show rd (x j - rd (s * h j)) - (x j - rd (s * h j)) + -(rd (s * h j) - s * h j) = rd (x j - rd (s * h j)) - (x j - s * h j) by ring] at h8
  linarith

/-! ### Accuracy of the oracles -/

/-- Accuracy of the oracles: `prox` must return on representable vectors `v` with `K w (1 + ‖v‖) ≤ 1` and steps up to `S`. -/
structure FlBtOracles (rd : ℝ → ℝ) (P : FlBtArgs d) (f : ℓ² → ℝ) (g : ℓ² → ℓ²) (proxE : ℓ² → ℝ → ℓ²) (K w S : ℝ) : Prop where
  init : ∀ i x, |(P.init i x).1 - f (WithLp.toLp 2 x)| ≤ K * w * (1 + norm2 x) ^ 2 ∧ ∀ j, |(P.init i x).2 j - g (WithLp.toLp 2 x) j| ≤ K * w * (1 + norm2 x)
  start : ∀ x, |(P.start x).1 - f (WithLp.toLp 2 x)| ≤ K * w * (1 + norm2 x) ^ 2 ∧ ∀ j, |(P.start x).2 j - g (WithLp.toLp 2 x) j| ≤ K * w * (1 + norm2 x)
  fg : ∀ k i x, |(P.fg k i x).1 - f (WithLp.toLp 2 x)| ≤ K * w * (1 + norm2 x) ^ 2 ∧ ∀ j, |(P.fg k i x).2 j - g (WithLp.toLp 2 x) j| ≤ K * w * (1 + norm2 x)
  prox : ∀ k i v s, (∀ j, rd (v j) = v j) → 0 < s → s ≤ S → K * w * (1 + norm2 v) ≤ 1 → ∃ p, P.prox k i v s = .ok p ∧
    ∀ j, |p j - proxE (WithLp.toLp 2 v) s j| ≤ K * w * (1 + norm2 v)
  dotG : ∀ k i a b, |P.dotG k i a b - ∑ j, a j * b j| ≤ K * w * (norm2 a * norm2 b)
  dotD : ∀ k i a b, |P.dotD k i a b - ∑ j, a j * b j| ≤ K * w * (norm2 a * norm2 b)
  norm : ∀ k v, |P.norm k v - norm2 v| ≤ K * w * (1 + norm2 v)

/-- A call of `prox`. -/
theorem FlBtOracles.trial {P : FlBtArgs d} {f : ℓ² → ℝ} {g : ℓ² → ℓ²} {proxE : ℓ² → ℝ → ℓ²} {K S : ℝ} (hO : FlBtOracles rd P f g proxE K w S) {G : ExtFun ℓ²} (hG : G.IsConvex)
    (hp : IsProxOf G proxE) (hr : Rounding rd u 0) (hu : u ≤ w) (hw1 : w ≤ 1) (hK : 0 ≤ K) {x h : Fin d → ℝ} {s N : ℝ} (hs0 : 0 < s) (hsS : s ≤ S) (hx : norm2 x ≤ N) (hh : norm2 h ≤ N)
    (hKw : K * w * (1 + (N + S * N + d * ((1 + 3 * S) * N))) ≤ 1) (k i : ℕ) :
    ∃ y, P.prox k i (flStep rd x h s) s = .ok y ∧
      ‖(WithLp.toLp 2 y : ℓ²) - proxE (WithLp.toLp 2 x - s • WithLp.toLp 2 h) s‖ ≤ (d * (K * (1 + (N + S * N + d * ((1 + 3 * S) * N)))) + d * ((1 + 3 * S) * N)) * w := by
  have hw : 0 ≤ w := hr.u_nonneg.trans hu
  have hd0 : (0 : ℝ) ≤ d := Nat.cast_nonneg d
  have hN0 : 0 ≤ N := (norm2_nonneg' x).trans hx
  have hS0 : 0 ≤ S := by linarith
  have herr := flStep_error hr hu hw1 hs0 hsS hx hh
  obtain ⟨V, hV⟩ : ∃ V, V = N + S * N + d * ((1 + 3 * S) * N) := ⟨_, rfl⟩
  rw [← hV] at hKw ⊢
  have hv : norm2 (flStep rd x h s) ≤ V := by
    rw [← toLp_norm]
    have h1 := norm_add_le ((WithLp.toLp 2 (flStep rd x h s) : ℓ²) - (WithLp.toLp 2 x - s • WithLp.toLp 2 h)) (WithLp.toLp 2 x - s • WithLp.toLp 2 h)
    rw [sub_add_cancel] at h1
    have h2 := norm_sub_le (WithLp.toLp 2 x : ℓ²) (s • WithLp.toLp 2 h)
    rw [norm_smul, Real.norm_eq_abs, abs_of_pos hs0, toLp_norm x, toLp_norm h] at h2
    have h3 : s * norm2 h ≤ S * N := mul_le_mul hsS hh (norm2_nonneg' h) hS0
    have h4 : d * ((1 + 3 * S) * N * w) ≤ d * ((1 + 3 * S) * N) := mul_le_mul_of_nonneg_left (mul_le_of_le_one_right (by positivity) hw1) hd0
    rw [hV]; linarith
  have hKv : K * w * (1 + norm2 (flStep rd x h s)) ≤ K * w * (1 + V) := mul_le_mul_of_nonneg_left (by linarith) (by positivity)
  obtain ⟨y, e, hy⟩ := hO.prox k i (flStep rd x h s) s (fun j => hr.idem _) hs0 hsS (hKv.trans hKw)
  refine ⟨y, e, ?_⟩
  have h1 : ‖(WithLp.toLp 2 y : ℓ²) - proxE (WithLp.toLp 2 (flStep rd x h s)) s‖ ≤ d * (K * w * (1 + V)) := norm_le_of_coord _ fun j => (hy j).trans hKv
  have h2 := (hp (WithLp.toLp 2 (flStep rd x h s)) s hs0).nonexpansive hG hs0 (hp (WithLp.toLp 2 x - s • WithLp.toLp 2 h) s hs0)
  have h3 := norm_sub_le_norm_sub_add_norm_sub (WithLp.toLp 2 y : ℓ²) (proxE (WithLp.toLp 2 (flStep rd x h s)) s) (proxE (WithLp.toLp 2 x - s • WithLp.toLp 2 h) s)
  linarith

/-! ### The line search -/

/-- What is known about the result of a line search with `m + 1` trials, the first of which is tested with `tin`. -/
structure LsRes (f : ℓ² → ℝ) (g : ℓ² → ℓ²) (proxE : ℓ² → ℝ → ℓ²) (X H : ℓ²) (c1 c c0 S b tau L tin : ℝ) (m : ℕ) (r : FlLsOut d) : Prop where
  step : ∃ s, LsTrial proxE X H c1 S s r.step (WithLp.toLp 2 r.xNext) ∧
    ((LsAccept f g c r.step X (WithLp.toLp 2 r.xNext) ∧ |r.fNext - f (WithLp.toLp 2 r.xNext)| ≤ c0 ∧ ‖(WithLp.toLp 2 r.gradNext : ℓ²) - g (WithLp.toLp 2 r.xNext)‖ ≤ c0) ∨
      ∃ z s' t', LsTrial proxE X H c1 S s' t' z ∧ LsReject f g c t' X z ∧ t' ≤ tin * (1 - b / 2) ^ m ∧ s ≤ s' ∧ r.step ≤ t' ∧ |r.fNext - f z| ≤ c0 ∧ ‖(WithLp.toLp 2 r.gradNext : ℓ²) - g z‖ ≤ c0)
  le : r.step ≤ tin
  low : tau ≤ tin → tau ≤ r.step ∨ ∃ z s' t', LsTrial proxE X H c1 S s' t' z ∧ LsReject f g c t' X z ∧ tau ≤ t' ∧ t' * L ≤ 1 / 2

theorem flLsLoop_out {P : FlBtArgs d} {f : ℓ² → ℝ} {g : ℓ² → ℓ²} {proxE : ℓ² → ℝ → ℓ²} {k : ℕ} {x h : Fin d → ℝ} {fk c1 c c0 S b tau L : ℝ} (hb0 : 0 < b) (hb1 : b ≤ 1) (hL : 0 < L)
    (htau : tau * (4 * L) ≤ b)
    (hprox : ∀ i s, 0 < s → s ≤ S → ∃ y, P.prox k i (flStep rd x h s) s = .ok y ∧ ‖(WithLp.toLp 2 y : ℓ²) - proxE (WithLp.toLp 2 x - s • WithLp.toLp 2 h) s‖ ≤ c1)
    (htest : ∀ i y s t, LsTrial proxE (WithLp.toLp 2 x) (WithLp.toLp 2 h) c1 S s t (WithLp.toLp 2 y) →
      (flLsTest rd (P.fg k i y).1 fk (P.dotG k i h fun j => rd (y j - x j)) (P.dotD k i (fun j => rd (y j - x j)) fun j => rd (y j - x j)) t →
        LsAccept f g c t (WithLp.toLp 2 x) (WithLp.toLp 2 y)) ∧
      (¬ flLsTest rd (P.fg k i y).1 fk (P.dotG k i h fun j => rd (y j - x j)) (P.dotD k i (fun j => rd (y j - x j)) fun j => rd (y j - x j)) t →
        LsReject f g c t (WithLp.toLp 2 x) (WithLp.toLp 2 y)))
    (hfresh : ∀ i y s t, LsTrial proxE (WithLp.toLp 2 x) (WithLp.toLp 2 h) c1 S s t (WithLp.toLp 2 y) →
      |(P.fg k i y).1 - f (WithLp.toLp 2 y)| ≤ c0 ∧ ‖(WithLp.toLp 2 (P.fg k i y).2 : ℓ²) - g (WithLp.toLp 2 y)‖ ≤ c0)
    (hfac : ∀ t, 0 < t → b / 2 * t ≤ rd (t * P.factor) ∧ rd (t * P.factor) ≤ (1 - b / 2) * t) :
    ∀ m i xN s t, LsTrial proxE (WithLp.toLp 2 x) (WithLp.toLp 2 h) c1 S s t (WithLp.toLp 2 xN) → (m = 0 → s = t) →
      ∃ r, flLsLoop rd P k x h fk m i xN t = .ok r ∧ LsRes f g proxE (WithLp.toLp 2 x) (WithLp.toLp 2 h) c1 c c0 S b tau L t m r := by
  intro m
  induction m with
  | zero =>
    intro i xN s t ht hst
    have hst := hst rfl
    subst hst
    unfold flLsLoop
    by_cases hT : flLsTest rd (P.fg k i xN).1 fk (P.dotG k i h fun j => rd (xN j - x j)) (P.dotD k i (fun j => rd (xN j - x j)) fun j => rd (xN j - x j)) s
    · rw [if_pos hT]
      exact ⟨_, rfl, ⟨s, ht, Or.inl ⟨(htest i xN s s ht).1 hT, hfresh i xN s s ht⟩⟩, le_rfl, fun h => Or.inl h⟩
    · rw [if_neg hT]
      have hrej := (htest i xN s s ht).2 hT
      obtain ⟨h1, h2⟩ := hfac s ht.pos
      have hs'0 : 0 < rd (s * P.factor) := lt_of_lt_of_le (mul_pos (by linarith) ht.pos) h1
      have hle : rd (s * P.factor) ≤ s := by nlinarith [mul_pos hb0 ht.pos]
      obtain ⟨y, e, hy⟩ := hprox (i + 1) (rd (s * P.factor)) hs'0 (hle.trans ht.bound)
      have hf := hfresh i xN s s ht
      refine ⟨⟨y, rd (s * P.factor), (P.fg k i xN).1, (P.fg k i xN).2⟩, by simp only [bind, Except.bind, e]; rfl, ⟨rd (s * P.factor), ⟨hs'0, le_rfl, by linarith, hle.trans ht.bound, hy⟩, Or.inr
        ⟨WithLp.toLp 2 xN, s, s, ht, hrej, by rw [pow_zero, mul_one], hle, hle, hf.1, hf.2⟩⟩, hle, fun hts => ?_⟩
      by_cases hsL : s * L ≤ 1 / 2
      · exact Or.inr ⟨WithLp.toLp 2 xN, s, s, ht, hrej, hts, hsL⟩
      · push Not at hsL
        left
        refine le_trans ?_ h1
        have h3 : tau * (4 * L) ≤ b / 2 * s * (4 * L) := by nlinarith
        exact le_of_mul_le_mul_right h3 (by positivity)
  | succ m ih =>
    intro i xN s t ht _
    unfold flLsLoop
    have ht0 : 0 < t := ht.pos.trans_le ht.le
    by_cases hT : flLsTest rd (P.fg k i xN).1 fk (P.dotG k i h fun j => rd (xN j - x j)) (P.dotD k i (fun j => rd (xN j - x j)) fun j => rd (xN j - x j)) t
    · rw [if_pos hT]
      exact ⟨_, rfl, ⟨s, ht, Or.inl ⟨(htest i xN s t ht).1 hT, hfresh i xN s t ht⟩⟩, le_rfl, fun h => Or.inl h⟩
    · rw [if_neg hT]
      have hrej := (htest i xN s t ht).2 hT
      obtain ⟨h1, h2⟩ := hfac t ht0
      have hs'0 : 0 < rd (t * P.factor) := lt_of_lt_of_le (mul_pos (by linarith) ht0) h1
      have hle : rd (t * P.factor) ≤ t := by nlinarith [mul_pos hb0 ht0]
      obtain ⟨y, e, hy⟩ := hprox (i + 1) (rd (t * P.factor)) hs'0 (hle.trans ht.bound)
      have hf := hfresh i xN s t ht
      obtain ⟨r, hr, hout⟩ := ih (i + 1) y _ _ ⟨hs'0, le_rfl, by linarith, hle.trans ht.bound, hy⟩ fun _ => rfl
      refine ⟨r, by simp only [bind, Except.bind, e]; exact hr, ?_, hout.le.trans hle, fun hts => ?_⟩
      · obtain ⟨s2, k1, k2⟩ := hout.step
        refine ⟨s2, k1, k2.imp id ?_⟩
        rintro ⟨z, s', t', a1, a2, a3, a4⟩
        refine ⟨z, s', t', a1, a2, a3.trans ?_, a4⟩
        have := mul_le_mul_of_nonneg_right h2 (pow_nonneg (show 0 ≤ 1 - b / 2 by linarith) m)
        rw [pow_succ]; linarith
      · by_cases hsL : t * L ≤ 1 / 2
        · exact Or.inr ⟨WithLp.toLp 2 xN, s, t, ht, hrej, hts, hsL⟩
        · push Not at hsL
          refine hout.low (le_trans ?_ h1)
          have h3 : tau * (4 * L) ≤ b / 2 * t * (4 * L) := by nlinarith
          exact le_of_mul_le_mul_right h3 (by positivity)

/-! ### One iteration -/

/-- The problem `f + G` with minimiser `xs`. -/
structure LsProb (f : ℓ² → ℝ) (g : ℓ² → ℓ²) (G : ExtFun ℓ²) (proxE : ℓ² → ℝ → ℓ²) (mu L : ℝ) (xs : ℓ²) : Prop where
  mu_pos : 0 < mu
  L_pos : 0 < L
  strong : StrongGrad f g mu
  quad : UpperQuad f g L
  conv : G.IsConvex
  prox : IsProxOf G proxE
  dom : xs ∈ G.dom
  min : ∀ y ∈ G.dom, f xs + G.val xs ≤ f y + G.val y

/-- Constants for a run whose iterates are within `A` of the minimiser. -/
structure LsBounds (f : ℓ² → ℝ) (g : ℓ² → ℓ²) (xs : ℓ²) (L K A S A2 M K0 C1 K1 : ℝ) : Prop where
  A_nonneg : 0 ≤ A
  S_nonneg : 0 ≤ S
  K_nonneg : 0 ≤ K
  A2_ge : (1 + S * L) * A + 1 ≤ A2
  M_ball : ∀ z, ‖z - xs‖ ≤ A2 → ‖z‖ ≤ M ∧ ‖g z‖ + 1 ≤ M ∧ |f z| ≤ M
  M_diam : 2 * A2 + 1 ≤ M
  K0_ge : (d + 1) * (K * (1 + M) ^ 2) ≤ K0
  C1_ge : (d + 1) * (K * (1 + (M + S * M + d * ((1 + 3 * S) * M)))) + d * ((1 + 3 * S) * M) ≤ C1
  K1_ge : 1 + K + K0 + C1 + (M + L) * (2 + 2 * C1) ≤ K1

theorem exists_lsBounds {f : ℓ² → ℝ} {g : ℓ² → ℓ²} {G : ExtFun ℓ²} {proxE : ℓ² → ℝ → ℓ²} {mu L : ℝ} {xs : ℓ²} (hpb : LsProb f g G proxE mu L xs) {K A S : ℝ} (hK : 0 ≤ K) (hA : 0 ≤ A) (hS : 0 ≤ S) :
    ∃ A2 M K0 C1 K1, LsBounds f g xs L K A S A2 M K0 C1 K1 := by
  have hL := hpb.L_pos
  obtain ⟨A2, hA2⟩ : ∃ A2, A2 = (1 + S * L) * A + 1 := ⟨_, rfl⟩
  have hA20 : 0 ≤ A2 := by rw [hA2]; positivity
  refine ⟨A2, 2 * A2 + 1 + ‖xs‖ + ‖g xs‖ + L * A2 + |f xs| + ‖g xs‖ * A2 + L / 2 * A2 ^ 2, _, _, _, hA, hS, hK, hA2.ge, fun z hz => ?_, ?_, le_rfl, le_rfl, le_rfl⟩
  · have h1 : ‖z‖ ≤ ‖z - xs‖ + ‖xs‖ := by have := norm_add_le (z - xs) xs; rwa [sub_add_cancel] at this
    have h2 : ‖g z‖ ≤ L * A2 + ‖g xs‖ := by
      have := norm_add_le (g z - g xs) (g xs)
      rw [sub_add_cancel] at this
      have h3 := lip_of_cocoercive hL (hpb.strong.convex hpb.mu_pos.le) hpb.quad z xs
      have h4 := mul_le_mul_of_nonneg_left hz hL.le
      linarith
    have h3 : |⟪g xs, z - xs⟫_ℝ| ≤ ‖g xs‖ * A2 := (abs_real_inner_le_norm _ _).trans (mul_le_mul_of_nonneg_left hz (norm_nonneg _))
    have h4 := hpb.quad xs z
    have h5 := hpb.strong.convex hpb.mu_pos.le xs z
    have h6 : L / 2 * ‖z - xs‖ ^ 2 ≤ L / 2 * A2 ^ 2 := mul_le_mul_of_nonneg_left (pow_le_pow_left₀ (norm_nonneg _) hz 2) (by positivity)
    have h7 := abs_le.mp h3
    have p1 := norm_nonneg xs
    have p2 := norm_nonneg (g xs)
    have p3 : 0 ≤ L * A2 := by positivity
    have p4 := abs_nonneg (f xs)
    have p5 : 0 ≤ ‖g xs‖ * A2 := by positivity
    have p6 : 0 ≤ L / 2 * A2 ^ 2 := by positivity
    refine ⟨by linarith, by linarith, ?_⟩
    rw [abs_le]
    constructor
    · linarith [neg_abs_le (f xs), h7.1]
    · linarith [le_abs_self (f xs), h7.2]
  · have p1 := norm_nonneg xs
    have p2 := norm_nonneg (g xs)
    have p3 : 0 ≤ L * A2 := by positivity
    have p4 := abs_nonneg (f xs)
    have p5 : 0 ≤ ‖g xs‖ * A2 := by positivity
    have p6 : 0 ≤ L / 2 * A2 ^ 2 := by positivity
    linarith

/-- State at the top of an iteration. -/
structure LsState (f : ℓ² → ℝ) (g : ℓ² → ℓ²) (c : ℝ) (x : Fin d → ℝ) (fk : ℝ) (h : Fin d → ℝ) : Prop where
  value : |fk - f (WithLp.toLp 2 x)| ≤ c
  grad : ‖(WithLp.toLp 2 h : ℓ²) - g (WithLp.toLp 2 x)‖ ≤ c

section Iteration

variable {P : FlBtArgs d} {f : EuclideanSpace ℝ (Fin d) → ℝ} {g : EuclideanSpace ℝ (Fin d) → EuclideanSpace ℝ (Fin d)} {G : ExtFun (EuclideanSpace ℝ (Fin d))} {proxE : EuclideanSpace ℝ (Fin d) → ℝ → EuclideanSpace ℝ (Fin d)} {mu L : ℝ} {xs : EuclideanSpace ℝ (Fin d)} {K A S A2 M K0 C1 K1 : ℝ}

theorem LsBounds.pos (hb : LsBounds f g xs L K A S A2 M K0 C1 K1) (hL : 0 < L) : 0 ≤ A2 ∧ A ≤ A2 ∧ 1 ≤ M ∧ 0 ≤ K0 ∧ 0 ≤ C1 ∧ 1 ≤ K1 ∧ K ≤ K1 ∧ K0 ≤ K1 ∧ C1 ≤ K1 := by
  have hA := hb.A_nonneg
  have hS := hb.S_nonneg
  have hK := hb.K_nonneg
  have hd0 : (0 : ℝ) ≤ d := Nat.cast_nonneg d
  have h1 : 0 ≤ S * L * A := by positivity
  have h2 := hb.A2_ge
  have hA2 : A + 1 ≤ A2 := by linarith
  have hM : 1 ≤ M := by linarith [hb.M_diam]
  have hK0 : 0 ≤ K0 := le_trans (by positivity) hb.K0_ge
  have hC1 : 0 ≤ C1 := le_trans (by positivity) hb.C1_ge
  have h3 : 0 ≤ (M + L) * (2 + 2 * C1) := by positivity
  have h4 := hb.K1_ge
  exact ⟨by linarith, by linarith, hM, hK0, hC1, by linarith, by linarith, by linarith, by linarith⟩

/-- Small precision. -/
theorem LsBounds.small (hb : LsBounds f g xs L K A S A2 M K0 C1 K1) (hL : 0 < L) (hw : 0 ≤ w) (hCw : (1 + S) * (4000 * K1 * M ^ 2 * w) ≤ 1) :
    K1 * w ≤ 400 * K1 * M ^ 2 * w ∧ C1 * w ≤ 400 * K1 * M ^ 2 * w ∧ 0 ≤ 400 * K1 * M ^ 2 * w ∧ 10 * ((1 + S) * (400 * K1 * M ^ 2 * w)) ≤ 1 ∧ 10 * (400 * K1 * M ^ 2 * w) ≤ 1 ∧ w ≤ 1 / 4000 := by
  obtain ⟨-, -, hM, -, hC1, hK1, -, -, hCK⟩ := hb.pos hL
  have hM2 : 1 ≤ M ^ 2 := one_le_pow₀ hM
  have h0 : 0 ≤ K1 * w := by have : 0 ≤ K1 := by linarith
                             positivity
  have h1 := mul_le_mul_of_nonneg_left hM2 h0
  have h2 := mul_le_mul_of_nonneg_right hCK hw
  have h3 : 0 ≤ S * (K1 * w * M ^ 2) := mul_nonneg hb.S_nonneg (by positivity)
  have h4 := mul_le_mul_of_nonneg_right hK1 hw
  refine ⟨by linarith, by linarith, by linarith, by linarith, by linarith, by linarith⟩

/-- Points tried from a point within `A` of the minimiser. -/
theorem LsTrial.in_ball (hpb : LsProb f g G proxE mu L xs) (hb : LsBounds f g xs L K A S A2 M K0 C1 K1) {c s t : ℝ} {X H Y : ℓ²} (ht : LsTrial proxE X H c S s t Y) (hH : ‖H - g X‖ ≤ c)
    (hc : (1 + S) * c ≤ 1) (hX : ‖X - xs‖ ≤ A) : ‖Y - xs‖ ≤ A2 := by
  have h1 := ht.ball hpb.mu_pos hpb.L_pos hpb.strong hpb.quad hpb.conv hpb.prox hpb.dom hpb.min
  have h2 := ht.exact hpb.conv hpb.prox hH
  have h3 := norm_sub_le_norm_sub_add_norm_sub Y (proxE (X - s • g X) s) xs
  have h4 : (1 + S * L) * ‖X - xs‖ ≤ (1 + S * L) * A := mul_le_mul_of_nonneg_left hX (by have := mul_nonneg hb.S_nonneg hpb.L_pos.le; linarith)
  linarith [hb.A2_ge]

theorem LsTrial.mono {X H Y : ℓ²} {c c' s t : ℝ} (ht : LsTrial proxE X H c S s t Y) (hc : c ≤ c') : LsTrial proxE X H c' S s t Y := ⟨ht.pos, ht.le, ht.ge, ht.bound, ht.near.trans hc⟩

/-- The line search of one iteration. -/
theorem ls_search (hpb : LsProb f g G proxE mu L xs) (hb : LsBounds f g xs L K A S A2 M K0 C1 K1) (hr : Rounding rd u 0) (hu : u ≤ w) (hCw : (1 + S) * (4000 * K1 * M ^ 2 * w) ≤ 1)
    (hO : FlBtOracles rd P f g proxE K w S) {b tau : ℝ} (hb0 : 0 < b) (hb1 : b ≤ 1) (htau : tau * (4 * L) ≤ b) (hfac : ∀ t, 0 < t → b / 2 * t ≤ rd (t * P.factor) ∧ rd (t * P.factor) ≤ (1 - b / 2) * t)
    {x h : Fin d → ℝ} {fk : ℝ} (hst : LsState f g (K1 * w) x fk h) (hX : ‖(WithLp.toLp 2 x : ℓ²) - xs‖ ≤ A) {s t : ℝ} (hs : 0 < s) (hst1 : s ≤ t) (hst2 : t ≤ 2 * s) (htS : t ≤ S)
    (k : ℕ) {m : ℕ} (hm : m ≠ 0) : ∃ xN, P.prox k 0 (flStep rd x h s) s = .ok xN ∧ ∃ r, flLsLoop rd P k x h fk m 0 xN t = .ok r ∧
      LsRes f g proxE (WithLp.toLp 2 x) (WithLp.toLp 2 h) (C1 * w) (400 * K1 * M ^ 2 * w) (K0 * w) S b tau L t m r := by
  have hw : 0 ≤ w := hr.u_nonneg.trans hu
  have hL := hpb.L_pos
  have hd0 : (0 : ℝ) ≤ d := Nat.cast_nonneg d
  obtain ⟨hA20, hAA, hM, hK00, hC10, hK11, hKK, hK0K, hCK⟩ := hb.pos hL
  obtain ⟨k1, k2, k3, k4, k5, hw1⟩ := hb.small hL hw hCw
  obtain ⟨m1, m2, m3⟩ := hb.M_ball (WithLp.toLp 2 x) (hX.trans hAA)
  have hK1w : K1 * w ≤ 1 := by linarith
  have hxn : norm2 x ≤ M := by rw [← toLp_norm]; exact m1
  have hhn : norm2 h ≤ M := by
    rw [← toLp_norm]
    have h1 := norm_add_le ((WithLp.toLp 2 h : ℓ²) - g (WithLp.toLp 2 x)) (g (WithLp.toLp 2 x))
    rw [sub_add_cancel] at h1
    linarith [hst.grad]
  have hSn := hb.S_nonneg
  have hKn := hb.K_nonneg
  have hprox : ∀ i s, 0 < s → s ≤ S → ∃ y, P.prox k i (flStep rd x h s) s = .ok y ∧ ‖(WithLp.toLp 2 y : ℓ²) - proxE (WithLp.toLp 2 x - s • WithLp.toLp 2 h) s‖ ≤ C1 * w := by
    intro i s hs0 hsS
    obtain ⟨V, hV⟩ : ∃ V, V = M + S * M + d * ((1 + 3 * S) * M) := ⟨_, rfl⟩
    have hV0 : 0 ≤ V := by rw [hV]; positivity
    have hC1 := hb.C1_ge
    rw [← hV] at hC1
    have p1 : 0 ≤ d * (K * (1 + V)) := by positivity
    have p2 : 0 ≤ d * ((1 + 3 * S) * M) := by positivity
    have p3 : 0 ≤ K * (1 + V) := by positivity
    obtain ⟨y, e, hy⟩ := hO.trial hpb.conv hpb.prox hr hu (by linarith) hKn hs0 hsS hxn hhn (by
      rw [← hV]
      have := mul_le_mul_of_nonneg_right (show K * (1 + V) ≤ C1 by linarith) hw
      linarith) k i
    refine ⟨y, e, hy.trans (mul_le_mul_of_nonneg_right ?_ hw)⟩
    rw [← hV]; linarith
  have hball : ∀ y s t, LsTrial proxE (WithLp.toLp 2 x) (WithLp.toLp 2 h) (C1 * w) S s t y → ‖y - xs‖ ≤ A2 := fun y s t ht =>
    (ht.mono k2).in_ball hpb hb (hst.grad.trans k1) (by linarith) hX
  have hfresh : ∀ i y s t, LsTrial proxE (WithLp.toLp 2 x) (WithLp.toLp 2 h) (C1 * w) S s t (WithLp.toLp 2 y) →
      |(P.fg k i y).1 - f (WithLp.toLp 2 y)| ≤ K0 * w ∧ ‖(WithLp.toLp 2 (P.fg k i y).2 : ℓ²) - g (WithLp.toLp 2 y)‖ ≤ K0 * w := by
    intro i y s t ht
    obtain ⟨n1, -, -⟩ := hb.M_ball _ (hball _ s t ht)
    rw [toLp_norm] at n1
    have n0 := norm2_nonneg' y
    obtain ⟨o1, o2⟩ := hO.fg k i y
    have hK0 := hb.K0_ge
    have hKM : 0 ≤ K * (1 + M) ^ 2 := by positivity
    constructor
    · refine o1.trans ?_
      have h1 : (1 + norm2 y) ^ 2 ≤ (1 + M) ^ 2 := pow_le_pow_left₀ (by linarith) (by linarith) 2
      have h2 := mul_le_mul_of_nonneg_left h1 (mul_nonneg hKn hw)
      have h3 := mul_le_mul_of_nonneg_right (show K * (1 + M) ^ 2 ≤ K0 by nlinarith) hw
      linarith
    · refine (norm_le_of_coord _ o2).trans ?_
      have h1 : 1 + norm2 y ≤ (1 + M) ^ 2 := by nlinarith
      have h2 := mul_le_mul_of_nonneg_left h1 (mul_nonneg hKn hw)
      have h3 := mul_le_mul_of_nonneg_right (show d * (K * (1 + M) ^ 2) ≤ K0 by nlinarith) hw
      have h4 := mul_le_mul_of_nonneg_left h2 hd0
      linarith
  obtain ⟨xN, e, hxN⟩ := hprox 0 s hs (hst1.trans htS)
  refine ⟨xN, e, flLsLoop_out hb0 hb1 hL htau hprox (fun i y s t ht => ?_) hfresh hfac m 0 xN s t ⟨hs, hst1, hst2, htS, hxN⟩ fun h => absurd h hm⟩
  have hy := hball _ s t ht
  obtain ⟨n1, -, -⟩ := hb.M_ball _ hy
  have hyx : ‖(WithLp.toLp 2 y : ℓ²) - WithLp.toLp 2 x‖ ≤ M := by
    have h1 := norm_sub_le ((WithLp.toLp 2 y : ℓ²) - xs) (WithLp.toLp 2 x - xs)
    rw [sub_sub_sub_cancel_right] at h1
    linarith [hb.M_diam]
  have hKw := mul_le_mul_of_nonneg_right hKK hw
  exact flLsTest_error hr hu (ht.pos.trans_le ht.le) hK11 hM (by linarith) ((hfresh i y s t ht).1.trans (mul_le_mul_of_nonneg_right hK0K hw)) hst.value hst.grad m3 (by linarith) hyx
    ((hO.dotG k i h _).trans (mul_le_mul_of_nonneg_right hKw (mul_nonneg (norm2_nonneg' _) (norm2_nonneg' _))))
    ((hO.dotD k i _ _).trans (mul_le_mul_of_nonneg_right hKw (mul_nonneg (norm2_nonneg' _) (norm2_nonneg' _))))

/-- What one iteration gives. -/
structure LsIter (f : ℓ² → ℝ) (g : ℓ² → ℓ²) (G : ExtFun ℓ²) (xs : ℓ²) (mu c0 c1 c S B D tau : ℝ) (X : ℓ²) (tin : ℝ) (r : FlLsOut d) : Prop where
  state : LsState f g c0 r.xNext r.fNext r.gradNext
  pos : 0 < r.step
  le : r.step ≤ tin
  contract : ∀ a, 0 ≤ a → ‖X - xs‖ ≤ a + B → ‖(WithLp.toLp 2 r.xNext : ℓ²) - xs‖ ≤ √(1 / (1 + r.step / 2 * mu)) * a + B + (1 + S) * c
  low : tau ≤ tin → tau ≤ r.step ∨ ‖X - xs‖ ≤ B
  disp : tau ≤ r.step → ‖X - xs‖ ≤ D * (‖(WithLp.toLp 2 r.xNext : ℓ²) - X‖ + (1 + S) * c)
  long : 2 < r.step * mu → ‖(WithLp.toLp 2 r.xNext : ℓ²) - X‖ ^ 2 ≤ 4 * S * c
  feas : ∃ z ∈ G.dom, ‖(WithLp.toLp 2 r.xNext : ℓ²) - z‖ ≤ c1

/-- Constants of the error bound. -/
structure LsBall (mu L M S c tau D B : ℝ) : Prop where
  tau_pos : 0 < tau
  D_eq : D = (L + 2 / (tau / 2)) / mu + 1
  B_nonneg : 0 ≤ B
  B_sq : 2 * ((1 + S) * c * (2 * M + L + L * M) + c * (L / 2 * M ^ 2 + 1)) ≤ mu * B ^ 2
  B_disp : D * (√(8 * S * c) + (1 + S) * c) ≤ B

theorem LsRes.iter (hpb : LsProb f g G proxE mu L xs) (hb : LsBounds f g xs L K A S A2 M K0 C1 K1) (hw : 0 ≤ w) (hCw : (1 + S) * (4000 * K1 * M ^ 2 * w) ≤ 1)
    {b tau D B : ℝ} (hB : LsBall mu L M S (400 * K1 * M ^ 2 * w) tau D B) {x h : Fin d → ℝ} {fk : ℝ} (hst : LsState f g (K1 * w) x fk h) (hX : ‖(WithLp.toLp 2 x : ℓ²) - xs‖ ≤ A)
    {tin : ℝ} (htin : tin ≤ S) {m : ℕ} (hp0 : 0 ≤ (1 - b / 2) ^ m) (hex : (8 * S * (400 * K1 * M ^ 2) + 2 * (S * L) + S * mu) * (1 - b / 2) ^ m ≤ w) {r : FlLsOut d}
    (hr : LsRes f g proxE (WithLp.toLp 2 x) (WithLp.toLp 2 h) (C1 * w) (400 * K1 * M ^ 2 * w) (K0 * w) S b tau L tin m r) :
    LsIter f g G xs mu (K1 * w) (C1 * w) (400 * K1 * M ^ 2 * w) S B D tau (WithLp.toLp 2 x) tin r := by
  have hL := hpb.L_pos
  have hmu := hpb.mu_pos
  obtain ⟨hA20, hAA, hM, hK00, hC10, hK11, hKK, hK0K, hCK⟩ := hb.pos hL
  obtain ⟨k1, k2, k3, k4, k5, hw1⟩ := hb.small hL hw hCw
  obtain ⟨C, hC⟩ : ∃ C, C = 400 * K1 * M ^ 2 := ⟨_, rfl⟩
  have hC0 : 0 ≤ C := by rw [hC]; have : 0 ≤ K1 := by linarith
                         positivity
  rw [← hC] at hB hex hr k1 k2 k3 k4 k5 ⊢
  obtain ⟨m1, m2, m3⟩ := hb.M_ball (WithLp.toLp 2 x) (hX.trans hAA)
  have hS := hb.S_nonneg
  obtain ⟨X, hXe⟩ : ∃ X : ℓ², X = WithLp.toLp 2 x := ⟨_, rfl⟩
  obtain ⟨H, hHe⟩ : ∃ H : ℓ², H = WithLp.toLp 2 h := ⟨_, rfl⟩
  obtain ⟨Y, hYe⟩ : ∃ Y : ℓ², Y = WithLp.toLp 2 r.xNext := ⟨_, rfl⟩
  obtain ⟨J, hJe⟩ : ∃ J : ℓ², J = WithLp.toLp 2 r.gradNext := ⟨_, rfl⟩
  obtain ⟨hsv, hsg⟩ := hst
  obtain ⟨⟨s, htr, hor⟩, hle, hlow⟩ := hr
  rw [← hXe] at hX hsv hsg hlow hor htr m1 m2 m3 ⊢
  rw [← hHe] at hsg hor htr hlow
  rw [← hYe] at hor htr
  rw [← hJe] at hor
  have hball : ∀ y s t, LsTrial proxE X H (C1 * w) S s t y → ‖y - xs‖ ≤ A2 := fun y s t ht => (ht.mono k2).in_ball hpb hb (hsg.trans k1) (by linarith) hX
  have hYb := hball Y _ _ htr
  obtain ⟨y1, y2, y3⟩ := hb.M_ball Y hYb
  have hYX : ‖Y - X‖ + 1 ≤ M := by
    have h1 := norm_sub_le (Y - xs) (X - xs)
    rw [sub_sub_sub_cancel_right] at h1
    linarith [hb.M_diam]
  have hSx : S * (1 - b / 2) ^ m * (8 * C) ≤ w ∧ S * (1 - b / 2) ^ m * (2 * L) ≤ w ∧ S * (1 - b / 2) ^ m * mu ≤ w := by
    have p1 : 0 ≤ S * (1 - b / 2) ^ m := mul_nonneg hS hp0
    have p2 := mul_nonneg p1 hL.le
    have p3 := mul_nonneg p1 hmu.le
    have p4 := mul_nonneg p1 hC0
    refine ⟨by linarith, by linarith, by linarith⟩
  -- an exhausted search has hardly moved
  have hfar : ∀ z s' t', LsTrial proxE X H (C1 * w) S s' t' z → LsReject f g (C * w) t' X z → t' ≤ tin * (1 - b / 2) ^ m → s ≤ s' →
      t' * (2 * L) ≤ w ∧ t' * mu ≤ w ∧ ‖z - Y‖ ≤ (2 + 2 * C1) * w := by
    intro z s' t' ht' hrj htt hss
    have h1 : t' ≤ S * (1 - b / 2) ^ m := htt.trans (mul_le_mul_of_nonneg_right htin hp0)
    have ht0 : 0 < t' := ht'.pos.trans_le ht'.le
    have h2 : t' * (2 * L) ≤ w := (mul_le_mul_of_nonneg_right h1 (by linarith)).trans hSx.2.1
    refine ⟨h2, (mul_le_mul_of_nonneg_right h1 hmu.le).trans hSx.2.2, ?_⟩
    have h3 := reject_small hpb.quad ht0 k3 (by linarith) (by linarith) hrj
    have h4 : 8 * t' * (C * w) ≤ w ^ 2 := by
      have h5 : t' * (8 * C) ≤ w := (mul_le_mul_of_nonneg_right h1 (by linarith)).trans hSx.1
      have h6 := mul_le_mul_of_nonneg_right h5 hw
      linarith
    have h5 : ‖z - X‖ ≤ w := abs_le_of_sq_le_sq' (h3.trans h4) hw |>.2
    have h6 := ls_mono hpb.conv htr.pos hss (hpb.prox (X - s • H) s htr.pos) (hpb.prox (X - s' • H) s' ht'.pos)
    have h7 := htr.near
    have h8 := ht'.near
    have e1 := norm_sub_le_norm_sub_add_norm_sub X z (proxE (X - s' • H) s')
    rw [norm_sub_rev X z] at e1
    have e2 := norm_sub_le_norm_sub_add_norm_sub z X (proxE (X - s • H) s)
    have e3 := norm_sub_le_norm_sub_add_norm_sub z (proxE (X - s • H) s) Y
    rw [norm_sub_rev (proxE (X - s • H) s) Y] at e3
    linarith
  have hac : s * L ≤ 1 ∨ LsAccept f g (C * w) r.step X Y := by
    rcases hor with ⟨h1, -⟩ | ⟨z, s', t', ht', hrj, htt, hss, -, -, -⟩
    · exact Or.inr h1
    · obtain ⟨h1, -, -⟩ := hfar z s' t' ht' hrj htt hss
      have h2 := mul_le_mul_of_nonneg_right (hss.trans ht'.le) hL.le
      exact Or.inl (by linarith)
  have hstep0 : 0 < r.step := htr.pos.trans_le htr.le
  refine ⟨?_, hstep0, hle, fun a ha hXa => ?_, fun ht => ?_, fun ht => ?_, fun ht => ?_, ?_⟩ <;> try rw [← hYe]
  · rcases hor with ⟨-, h1, h2⟩ | ⟨z, s', t', ht', hrj, htt, hss, -, h1, h2⟩
    · have h3 := mul_le_mul_of_nonneg_right hK0K hw
      exact ⟨by rw [← hYe]; linarith, by rw [← hYe, ← hJe]; linarith⟩
    · obtain ⟨-, -, h3⟩ := hfar z s' t' ht' hrj htt hss
      obtain ⟨z1, z2, z3⟩ := hb.M_ball z (hball z _ _ ht')
      have hMK := mul_le_mul_of_nonneg_right hb.K1_ge hw
      have hLp := lip_of_cocoercive hL (hpb.strong.convex hmu.le) hpb.quad z Y
      have hL3 := mul_le_mul_of_nonneg_left h3 hL.le
      have hM3 := mul_le_mul_of_nonneg_left h3 (show 0 ≤ M by linarith)
      have q1 : 0 ≤ M * ((2 + 2 * C1) * w) := by positivity
      have q2 : 0 ≤ L * ((2 + 2 * C1) * w) := by positivity
      have q3 : 0 ≤ C1 * w := by positivity
      have q4 : 0 ≤ K * w := mul_nonneg hb.K_nonneg hw
      constructor
      · rw [← hYe]
        have hv : |f z - f Y| ≤ M * ‖z - Y‖ := by
          have c1 := hpb.strong.convex hmu.le z Y
          have c2 := hpb.strong.convex hmu.le Y z
          have c3 := (abs_real_inner_le_norm (g z) (Y - z)).trans (mul_le_mul_of_nonneg_right (show ‖g z‖ ≤ M by linarith) (norm_nonneg _))
          have c4 := (abs_real_inner_le_norm (g Y) (z - Y)).trans (mul_le_mul_of_nonneg_right (show ‖g Y‖ ≤ M by linarith) (norm_nonneg _))
          rw [norm_sub_rev Y z] at c3
          rw [abs_le]
          exact ⟨by linarith [neg_abs_le ⟪g Y, z - Y⟫_ℝ], by linarith [neg_abs_le ⟪g z, Y - z⟫_ℝ]⟩
        have e := abs_sub_le r.fNext (f z) (f Y)
        linarith
      · rw [← hYe, ← hJe]
        have e := norm_sub_le_norm_sub_add_norm_sub J (g z) (g Y)
        linarith
  · have h1 := ls_step hmu hL hpb.strong hpb.quad hpb.conv hpb.prox hpb.dom hpb.min k3 (by linarith) (by linarith) (by linarith) hYX ha hB.B_nonneg hB.B_sq hXa (htr.mono k2) (hsg.trans k1) hac
    have h2 : √(1 / (1 + s * mu)) ≤ √(1 / (1 + r.step / 2 * mu)) := by
      apply Real.sqrt_le_sqrt
      have h3 : r.step / 2 * mu ≤ s * mu := mul_le_mul_of_nonneg_right (by linarith [htr.ge]) hmu.le
      have h4 : 0 < r.step / 2 * mu := by positivity
      exact one_div_le_one_div_of_le (by linarith) (by linarith)
    have h3 := mul_le_mul_of_nonneg_right h2 ha
    linarith
  · rcases hlow ht with h1 | ⟨z, s', t', ht', hrj, htt, hsL⟩
    · exact Or.inl h1
    · right
      have ht0 : 0 < t' := ht'.pos.trans_le ht'.le
      have h1 := (ht'.mono k2).dist hmu hL hpb.strong hpb.quad hpb.conv hpb.prox hpb.dom hpb.min (hsg.trans k1) (s1 := tau / 2) (by linarith [hB.tau_pos]) (by linarith [ht'.ge])
      rw [← hB.D_eq] at h1
      have h2 := reject_small hpb.quad ht0 k3 (by linarith) hsL hrj
      have h3 : ‖z - X‖ ≤ √(8 * S * (C * w)) := by
        apply Real.le_sqrt_of_sq_le
        refine h2.trans ?_
        have := mul_le_mul_of_nonneg_right ht'.bound k3
        linarith
      have hD0 : 0 ≤ D := by rw [hB.D_eq]; have := hB.tau_pos
                             positivity
      exact h1.trans ((mul_le_mul_of_nonneg_left (by linarith) hD0).trans hB.B_disp)
  · have h1 := (htr.mono k2).dist hmu hL hpb.strong hpb.quad hpb.conv hpb.prox hpb.dom hpb.min (hsg.trans k1) (s1 := tau / 2) (by linarith [hB.tau_pos]) (by linarith [htr.ge])
    rwa [← hB.D_eq] at h1
  · rcases hor with ⟨h1, -⟩ | ⟨z, s', t', ht', hrj, htt, hss, hrt, -, -⟩
    · have h2 := accept_long hpb.strong hstep0 k3 (by linarith) (by linarith) h1
      have := mul_le_mul_of_nonneg_right (hle.trans htin) k3
      linarith
    · obtain ⟨-, h1, -⟩ := hfar z s' t' ht' hrj htt hss
      have := mul_le_mul_of_nonneg_right hrt hmu.le
      linarith
  · exact ⟨_, (hpb.prox (X - s • H) s htr.pos).1, htr.near⟩

/-! ### The certificate -/

theorem flBtCert_bounds (hr : Rounding rd u 0) (hu : u ≤ w) (hw1 : w ≤ 1 / 10) (hO : FlBtOracles rd P f g proxE K w S) (hK : K * w ≤ 1 / 2) (hK0 : 0 ≤ K * w) (k : ℕ) (x y : Fin d → ℝ) {t : ℝ} (ht : 0 < t) :
    ∃ c, flBtCert rd P k x y t = some c ∧ ‖(WithLp.toLp 2 y : ℓ²) - WithLp.toLp 2 x‖ ≤ 4 * t * (c + K * w) ∧
      c * t ≤ 4 * ‖(WithLp.toLp 2 y : ℓ²) - WithLp.toLp 2 x‖ + K * w * t := by
  have hw : 0 ≤ w := hr.u_nonneg.trans hu
  unfold flBtCert
  rw [if_neg ht.ne']
  refine ⟨_, rfl, ?_⟩
  have h1 := rel_vec hr hu fun j => x j - y j
  have h2 := rel_vec hr hu fun j => rd (x j - y j) / t
  have h3 := hO.norm k fun j => rd (rd (x j - y j) / t)
  obtain ⟨e, he⟩ : ∃ e, e = ‖(WithLp.toLp 2 y : ℓ²) - WithLp.toLp 2 x‖ := ⟨_, rfl⟩
  have e1 : ‖(WithLp.toLp 2 (fun j => x j - y j) : ℓ²)‖ = e := by
    rw [he, norm_sub_rev, ← WithLp.toLp_sub]; rfl
  rw [e1] at h1
  obtain ⟨a, ha⟩ : ∃ a, a = ‖(WithLp.toLp 2 (fun j => rd (x j - y j)) : ℓ²)‖ := ⟨_, rfl⟩
  have e2 : ‖(WithLp.toLp 2 (fun j => rd (x j - y j) / t) : ℓ²)‖ = a / t := by
    have : (WithLp.toLp 2 (fun j => rd (x j - y j) / t) : ℓ²) = t⁻¹ • WithLp.toLp 2 (fun j => rd (x j - y j)) := by
      rw [← WithLp.toLp_smul]; congr 1; funext j; simp [div_eq_inv_mul]
    rw [this, norm_smul, Real.norm_eq_abs, abs_of_pos (inv_pos.mpr ht), ← ha]; ring
  rw [e2] at h2
  have h4 := abs_norm_sub_norm_le (WithLp.toLp 2 (fun j => rd (x j - y j)) : ℓ²) (WithLp.toLp 2 fun j => x j - y j)
  rw [← ha, e1] at h4
  have h5 := abs_norm_sub_norm_le (WithLp.toLp 2 (fun j => rd (rd (x j - y j) / t)) : ℓ²) (WithLp.toLp 2 fun j => rd (x j - y j) / t)
  rw [toLp_norm, e2] at h5
  obtain ⟨v, hv⟩ : ∃ v, v = norm2 fun j => rd (rd (x j - y j) / t) := ⟨_, rfl⟩
  have hv0 : 0 ≤ v := by rw [hv]; exact norm2_nonneg' _
  have he0 : 0 ≤ e := by rw [he]; exact norm_nonneg _
  have ha0 : 0 ≤ a := by rw [ha]; exact norm_nonneg _
  obtain ⟨c, hc⟩ : ∃ c, c = P.norm k fun j => rd (rd (x j - y j) / t) := ⟨_, rfl⟩
  rw [← hv] at h5 h3
  rw [← hc] at h3 ⊢
  rw [← he]
  have h6 := abs_le.mp (h4.trans h1)
  have h7 := abs_le.mp (h5.trans h2)
  have h8 := abs_le.mp h3
  obtain ⟨z, hz⟩ : ∃ z, z = a / t := ⟨_, rfl⟩
  have hz' : a = z * t := by rw [hz]; field_simp
  rw [← hz] at h7
  have hz0 : 0 ≤ z := by rw [hz]; positivity
  have q1 : w * e ≤ 1 / 10 * e := mul_le_mul_of_nonneg_right hw1 he0
  have q2 : w * z ≤ 1 / 10 * z := mul_le_mul_of_nonneg_right hw1 hz0
  have q3 : K * w * v ≤ 1 / 2 * v := mul_le_mul_of_nonneg_right hK hv0
  have r1 : v ≤ 2 * (c + K * w) := by linarith [h8.1]
  have r2 : c ≤ 3 / 2 * v + K * w := by linarith [h8.2]
  have r3 := mul_le_mul_of_nonneg_right r1 ht.le
  have r4 := mul_le_mul_of_nonneg_right r2 ht.le
  have r5 : 9 / 10 * (z * t) ≤ v * t := by
    have := mul_le_mul_of_nonneg_right (show 9 / 10 * z ≤ v by linarith [h7.1]) ht.le
    linarith
  have r6 : v * t ≤ 11 / 10 * (z * t) := by
    have := mul_le_mul_of_nonneg_right (show v ≤ 11 / 10 * z by linarith [h7.2]) ht.le
    linarith
  rw [hz'] at h6
  have r7 : 0 ≤ (c + K * w) * t := by
    have : 0 ≤ v * t := mul_nonneg hv0 ht.le
    linarith
  constructor
  · linarith [h6.1]
  · linarith [h6.2]

/-! ### The loop -/

/-- What is returned. -/
structure LsFinal (G : ExtFun ℓ²) (xs : ℓ²) (q D0 B δ E tol c1 : ℝ) (maxIter : ℕ) (r : FlBtResult d) : Prop where
  dist : ‖(WithLp.toLp 2 r.x : ℓ²) - xs‖ ≤ q ^ (r.nit + 1) * D0 + B + (r.nit + 1) * δ
  success : r.success = true → ‖(WithLp.toLp 2 r.x : ℓ²) - xs‖ ≤ E + B + (r.nit + 1) * δ
  cert : r.success = true → ∃ c, r.certificate = some c ∧ c < tol
  failure : r.success = false → r.nit = maxIter
  nit : r.nit ≤ maxIter
  feas : ∃ z ∈ G.dom, ‖(WithLp.toLp 2 r.x : ℓ²) - z‖ ≤ c1

set_option maxHeartbeats 1000000 in
theorem flBtLoop_out (hpb : LsProb f g G proxE mu L xs) (hb : LsBounds f g xs L K A S A2 M K0 C1 K1) (hr : Rounding rd u 0) (hu : u ≤ w) (hCw : (1 + S) * (4000 * K1 * M ^ 2 * w) ≤ 1)
    (hO : FlBtOracles rd P f g proxE K w S) {b tau D B S0 q D0 δ : ℝ} (hb0 : 0 < b) (hb1 : b ≤ 1) (htau : tau * (4 * L) ≤ b)
    (hfac : ∀ t, 0 < t → b / 2 * t ≤ rd (t * P.factor) ∧ rd (t * P.factor) ≤ (1 - b / 2) * t)
    (hB : LsBall mu L M S (400 * K1 * M ^ 2 * w) tau D B) (hq : q = √(1 / (1 + tau / 2 * mu))) (hS0 : 2 / mu ≤ S0) (hS : 12 / 10 * S0 ≤ S) (hδ : δ = (1 + S) * (400 * K1 * M ^ 2 * w)) (hD0 : 0 ≤ D0)
    (hex : (8 * S * (400 * K1 * M ^ 2) + 2 * (S * L) + S * mu) * (1 - b / 2) ^ (P.btIter - 1) ≤ w) (hbt : P.btIter - 1 ≠ 0)
    (htol : 2 * mu * √(4 * S * (400 * K1 * M ^ 2 * w)) + K * w < P.tol) (hA : D0 + B + (P.maxIter + 1) * δ ≤ A) :
    ∀ m nit x fk h step, nit + m = P.maxIter → LsState f g (K1 * w) x fk h → 0 < step → step ≤ S0 →
      ((tau ≤ step ∧ ‖(WithLp.toLp 2 x : ℓ²) - xs‖ ≤ q ^ nit * D0 + B + nit * δ) ∨ ‖(WithLp.toLp 2 x : ℓ²) - xs‖ ≤ B + nit * δ) →
      ∃ r, flBtLoop rd P m nit x fk h step = .ok r ∧ LsFinal G xs q D0 B δ ((1 + D) * (4 * S * (P.tol + K * w) + δ)) P.tol (C1 * w) P.maxIter r := by
  have hw : 0 ≤ w := hr.u_nonneg.trans hu
  have hL := hpb.L_pos
  have hmu := hpb.mu_pos
  obtain ⟨hA20, hAA, hM, hK00, hC10, hK11, hKK, hK0K, hCK⟩ := hb.pos hL
  obtain ⟨k1, k2, k3, k4, k5, hw1⟩ := hb.small hL hw hCw
  have hSn := hb.S_nonneg
  have hKw0 : 0 ≤ K * w := mul_nonneg hb.K_nonneg hw
  have hKw : K * w ≤ 1 / 2 := by have := mul_le_mul_of_nonneg_right hKK hw; linarith
  have hδ0 : 0 ≤ δ := by rw [hδ]; positivity
  have hB0 := hB.B_nonneg
  have htau0 := hB.tau_pos
  have hq0 : 0 ≤ q := by rw [hq]; exact Real.sqrt_nonneg _
  have hq1 : q ≤ 1 := by
    rw [hq]
    apply Real.sqrt_le_one.mpr
    rw [div_le_one (by positivity)]
    have : 0 ≤ tau / 2 * mu := by positivity
    linarith
  have hD : 0 ≤ D := by rw [hB.D_eq]; positivity
  obtain ⟨c, hc⟩ : ∃ c, c = 400 * K1 * M ^ 2 * w := ⟨_, rfl⟩
  have h11 := rel_bounds hr hu (show (0 : ℝ) ≤ 11 / 10 by norm_num)
  have hp0 : 0 ≤ (1 - b / 2) ^ (P.btIter - 1) := pow_nonneg (by linarith) _
  -- one iteration
  have key : ∀ nit x fk h step, nit ≤ P.maxIter → LsState f g (K1 * w) x fk h → 0 < step → step ≤ S0 →
      ((tau ≤ step ∧ ‖(WithLp.toLp 2 x : ℓ²) - xs‖ ≤ q ^ nit * D0 + B + nit * δ) ∨ ‖(WithLp.toLp 2 x : ℓ²) - xs‖ ≤ B + nit * δ) →
      ∃ xN, P.prox nit 0 (flStep rd x h step) step = .ok xN ∧ ∃ r, flLsLoop rd P nit x h fk (P.btIter - 1) 0 xN (rd (step * rd (11 / 10))) = .ok r ∧
        ∃ cc, flBtCert rd P nit x r.xNext r.step = some cc ∧ LsState f g (K1 * w) r.xNext r.fNext r.gradNext ∧ 0 < r.step ∧
        ((tau ≤ r.step ∧ ‖(WithLp.toLp 2 r.xNext : ℓ²) - xs‖ ≤ q ^ (nit + 1) * D0 + B + (nit + 1) * δ) ∨ ‖(WithLp.toLp 2 r.xNext : ℓ²) - xs‖ ≤ B + (nit + 1) * δ) ∧
        (∃ z ∈ G.dom, ‖(WithLp.toLp 2 r.xNext : ℓ²) - z‖ ≤ C1 * w) ∧ (¬ cc < P.tol → r.step ≤ S0) ∧
        (cc < P.tol → ‖(WithLp.toLp 2 r.xNext : ℓ²) - xs‖ ≤ (1 + D) * (4 * S * (P.tol + K * w) + δ) + B + (nit + 1) * δ) := by
    intro nit x fk h step hnit hst hs0 hsS hinv
    have hnit' : (nit : ℝ) ≤ P.maxIter := by exact_mod_cast hnit
    have hnδ : (nit : ℝ) * δ ≤ P.maxIter * δ := mul_le_mul_of_nonneg_right hnit' hδ0
    have hn0 : 0 ≤ (nit : ℝ) * δ := mul_nonneg (Nat.cast_nonneg _) hδ0
    have hqn0 : 0 ≤ q ^ nit * D0 := mul_nonneg (pow_nonneg hq0 _) hD0
    have hqn : q ^ nit * D0 ≤ D0 := by
      have := mul_le_mul_of_nonneg_right (pow_le_one₀ (n := nit) hq0 hq1) hD0
      linarith
    have hX : ‖(WithLp.toLp 2 x : ℓ²) - xs‖ ≤ A := by
      rcases hinv with ⟨-, h1⟩ | h1 <;> linarith
    have h12 := rel_bounds hr hu (show 0 ≤ step * rd (11 / 10) from mul_nonneg hs0.le (by nlinarith [h11.1]))
    have hlo : step ≤ rd (step * rd (11 / 10)) := by
      have a1 : 108 / 100 ≤ rd (11 / 10) := by linarith [h11.1]
      have a2 := mul_le_mul_of_nonneg_left a1 hs0.le
      have a3 := mul_le_mul_of_nonneg_right hw1 (show 0 ≤ step * rd (11 / 10) by nlinarith)
      linarith [h12.1]
    have hup : rd (step * rd (11 / 10)) ≤ 12 / 10 * step := by
      have a1 : rd (11 / 10) ≤ 111 / 100 := by linarith [h11.2]
      have a2 := mul_le_mul_of_nonneg_left a1 hs0.le
      have a3 := mul_le_mul_of_nonneg_right hw1 (show 0 ≤ step * rd (11 / 10) by nlinarith [h11.1])
      linarith [h12.2]
    have htS : rd (step * rd (11 / 10)) ≤ S := by linarith
    obtain ⟨xN, e1, r, e2, hres⟩ := ls_search hpb hb hr hu hCw hO hb0 hb1 htau hfac hst hX hs0 hlo (by linarith) htS nit hbt
    have hit := hres.iter hpb hb hw hCw hB hst hX htS hp0 hex
    rw [← hc] at hit hδ
    obtain ⟨cc, e3, c1, c2⟩ := flBtCert_bounds hr hu (by linarith) hO hKw hKw0 nit x r.xNext hit.pos
    obtain ⟨e, he⟩ : ∃ e, e = ‖(WithLp.toLp 2 r.xNext : ℓ²) - WithLp.toLp 2 x‖ := ⟨_, rfl⟩
    have hlong := hit.long
    have hdisp := hit.disp
    rw [← he] at c1 c2 hlong hdisp
    have hcon := hit.contract
    rw [← hδ] at hcon hdisp
    have hthle : √(1 / (1 + r.step / 2 * mu)) ≤ 1 := by
      have : 0 ≤ r.step / 2 * mu := by have := hit.pos
                                       positivity
      apply Real.sqrt_le_one.mpr
      rw [div_le_one (by linarith)]
      linarith
    -- the new point
    have hnew : (tau ≤ step ∧ tau ≤ r.step ∧ ‖(WithLp.toLp 2 r.xNext : ℓ²) - xs‖ ≤ q ^ (nit + 1) * D0 + B + (nit + 1) * δ) ∨ ‖(WithLp.toLp 2 r.xNext : ℓ²) - xs‖ ≤ B + (nit + 1) * δ := by
      rcases hinv with ⟨h1, h2⟩ | h1
      · rcases hit.low (h1.trans hlo) with h3 | h3
        · left
          refine ⟨h1, h3, ?_⟩
          have h4 := hcon (q ^ nit * D0 + nit * δ) (by linarith) (by linarith)
          have h5 : √(1 / (1 + r.step / 2 * mu)) ≤ q := by
            rw [hq]
            apply Real.sqrt_le_sqrt
            have h6 : tau / 2 * mu ≤ r.step / 2 * mu := mul_le_mul_of_nonneg_right (by linarith) hmu.le
            have h7 : 0 < tau / 2 * mu := by positivity
            exact one_div_le_one_div_of_le (by linarith) (by linarith)
          have h6 := mul_le_mul_of_nonneg_right h5 (show 0 ≤ q ^ nit * D0 by linarith)
          have h7 := mul_le_mul_of_nonneg_right hthle hn0
          rw [pow_succ]
          linarith
        · right
          have h4 := hcon 0 le_rfl (by linarith)
          rw [mul_zero] at h4
          linarith
      · right
        have h4 := hcon (nit * δ) hn0 (by linarith)
        have h7 := mul_le_mul_of_nonneg_right hthle hn0
        linarith
    refine ⟨xN, e1, r, e2, cc, e3, hit.state, hit.pos, ?_, hit.feas, fun hcc => ?_, fun hcc => ?_⟩
    · rcases hnew with ⟨-, h1, h2⟩ | h1
      · exact Or.inl ⟨h1, h2⟩
      · exact Or.inr h1
    · -- a long step would have been a success
      by_contra hcon'
      push Not at hcon' hcc
      have h1 : 2 < r.step * mu := by
        have := mul_lt_mul_of_pos_right (hS0.trans_lt hcon') hmu
        rwa [div_mul_cancel₀ _ hmu.ne'] at this
      have h2 := hlong h1
      rw [← hc] at htol
      have h3 : e ≤ √(4 * S * c) := Real.le_sqrt_of_sq_le h2
      have h4 : (cc - K * w) * r.step ≤ 4 * e := by linarith
      have h5 : 2 * mu * √(4 * S * c) < cc - K * w := by linarith
      have h6 : 0 ≤ 2 * mu * √(4 * S * c) := by positivity
      have h7 : (2 * mu * √(4 * S * c)) * r.step < (cc - K * w) * r.step := mul_lt_mul_of_pos_right h5 hit.pos
      have h8 := mul_le_mul_of_nonneg_right h1.le (Real.sqrt_nonneg (4 * S * c))
      linarith
    · have h1 : e ≤ 4 * S * (P.tol + K * w) := by
        refine c1.trans ?_
        have h2 : r.step ≤ S := hit.le.trans htS
        have he0 : 0 ≤ e := by rw [he]; exact norm_nonneg _
        have h3 : 0 ≤ cc + K * w := by
          by_contra h4
          push Not at h4
          have := mul_neg_of_pos_of_neg (show 0 < 4 * r.step by linarith [hit.pos]) h4
          linarith
        have h4 := mul_le_mul (show 4 * r.step ≤ 4 * S by linarith) (show cc + K * w ≤ P.tol + K * w by linarith) h3 (by linarith)
        exact h4
      have hT0 : 0 ≤ 4 * S * (P.tol + K * w) := le_trans (by rw [he]; exact norm_nonneg _) h1
      have hpos : 0 ≤ (1 + D) * (4 * S * (P.tol + K * w) + δ) := by positivity
      rcases hnew with ⟨-, h2, -⟩ | h2
      · have h3 := hdisp h2
        have h4 := mul_le_mul_of_nonneg_left (show e + δ ≤ 4 * S * (P.tol + K * w) + δ by linarith) hD
        have h5 := norm_sub_le_norm_sub_add_norm_sub (WithLp.toLp 2 r.xNext : ℓ²) (WithLp.toLp 2 x) xs
        rw [← he] at h5
        linarith
      · linarith
  intro m
  induction m with
  | zero =>
    intro nit x fk h step hnm hst hs0 hsS hinv
    obtain ⟨xN, e1, r, e2, cc, e3, hst', hpos, hnew, hfeas, hns, hsuc⟩ := key nit x fk h step (by omega) hst hs0 hsS hinv
    have hdist : ‖(WithLp.toLp 2 r.xNext : ℓ²) - xs‖ ≤ q ^ (nit + 1) * D0 + B + (nit + 1) * δ := by
      have := mul_nonneg (pow_nonneg hq0 (nit + 1)) hD0
      rcases hnew with ⟨-, h1⟩ | h1 <;> linarith
    unfold flBtLoop
    simp only [e1, e2, e3, bind, Except.bind, Option.some.injEq, exists_eq_left']
    by_cases hcc : cc < P.tol
    · rw [if_pos hcc]
      exact ⟨_, rfl, hdist, fun _ => hsuc hcc, fun _ => ⟨cc, rfl, hcc⟩, fun h => by simp at h, by simpa using (by omega : nit ≤ P.maxIter), hfeas⟩
    · rw [if_neg hcc]
      exact ⟨_, rfl, hdist, fun h => by simp at h, fun h => by simp at h, fun _ => by simpa using hnm, by simpa using (by omega : nit ≤ P.maxIter), hfeas⟩
  | succ m ih =>
    intro nit x fk h step hnm hst hs0 hsS hinv
    obtain ⟨xN, e1, r, e2, cc, e3, hst', hpos, hnew, hfeas, hns, hsuc⟩ := key nit x fk h step (by omega) hst hs0 hsS hinv
    have hdist : ‖(WithLp.toLp 2 r.xNext : ℓ²) - xs‖ ≤ q ^ (nit + 1) * D0 + B + (nit + 1) * δ := by
      have := mul_nonneg (pow_nonneg hq0 (nit + 1)) hD0
      rcases hnew with ⟨-, h1⟩ | h1 <;> linarith
    unfold flBtLoop
    simp only [e1, e2, e3, bind, Except.bind, Option.some.injEq, exists_eq_left']
    by_cases hcc : cc < P.tol
    · rw [if_pos hcc]
      exact ⟨_, rfl, hdist, fun _ => hsuc hcc, fun _ => ⟨cc, rfl, hcc⟩, fun h => by simp at h, by simpa using (by omega : nit ≤ P.maxIter), hfeas⟩
    · rw [if_neg hcc]
      exact ih (nit + 1) r.xNext r.fNext r.gradNext r.step (by omega) hst' hpos (hns hcc) (by push_cast; exact hnew)

end Iteration

end Copt
