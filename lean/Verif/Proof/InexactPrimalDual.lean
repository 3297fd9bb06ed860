import Verif.Proof.InexactSplit
import Verif.Props.PrimalDualObjects

/-!
# The operator of the primal-dual method is averaged in its metric
-/

set_option linter.unusedSectionVars false

namespace Copt

open Spec

open scoped InnerProductSpace

variable {E F : Type} [NormedAddCommGroup E] [InnerProductSpace ℝ E] [NormedAddCommGroup F] [InnerProductSpace ℝ F]

/-! ### Changing the parameter of a proximal operator -/

/-- The proximal point depends on its parameter in a Lipschitz way. -/
theorem prox_param {H : ExtFun E} (hH : H.IsConvex) {s s' : ℝ} (hs : 0 < s) (hs' : 0 < s') {v q q' : E} (h : IsProxPt H s v q) (h' : IsProxPt H s' v q') :
    ‖q - q'‖ ≤ |s' / s - 1| * ‖v - q‖ := by
  have h1 := (h.subgrad hH hs).mono (h'.subgrad hH hs')
  have h2 : 0 ≤ ⟪(s' / s - 1) • (v - q) - (q - q'), q - q'⟫_ℝ := by
    have e : (s' / s - 1) • (v - q) - (q - q') = s' • (s⁻¹ • (v - q) - s'⁻¹ • (v - q')) := by
      rw [smul_sub s', smul_smul, smul_smul, mul_inv_cancel₀ hs'.ne', one_smul, sub_smul, one_smul, div_eq_mul_inv]
      abel
    rw [e, real_inner_smul_left]
    exact mul_nonneg hs'.le h1
  rw [inner_sub_left, real_inner_self_eq_norm_sq, real_inner_smul_left] at h2
  have h3 : (s' / s - 1) * ⟪v - q, q - q'⟫_ℝ ≤ |s' / s - 1| * (‖v - q‖ * ‖q - q'‖) := by
    refine (le_abs_self _).trans ?_
    rw [abs_mul]
    exact mul_le_mul_of_nonneg_left (abs_real_inner_le_norm _ _) (abs_nonneg _)
  rcases eq_or_lt_of_le (norm_nonneg (q - q')) with h4 | h4
  · rw [← h4]; positivity
  · refine le_of_mul_le_mul_right ?_ h4
    nlinarith

/-! ### The metric as a seminorm -/

section Metric

variable {M : E →ₗ[ℝ] F} {σ τ : ℝ}

/-- Polar form of `pdMetric`. -/
noncomputable def pdForm (M : E →ₗ[ℝ] F) (σ τ : ℝ) (v v' : E × F) : ℝ := ⟪v.1, v'.1⟫_ℝ / σ + ⟪v.2, v'.2⟫_ℝ / τ + (⟪M v.1, v'.2⟫_ℝ + ⟪M v'.1, v.2⟫_ℝ)

theorem pdMetric_add_smul (v v' : E × F) (t : ℝ) :
    pdMetric M σ τ (v + t • v').1 (v + t • v').2 = pdMetric M σ τ v'.1 v'.2 * (t * t) + 2 * pdForm M σ τ v v' * t + pdMetric M σ τ v.1 v.2 := by
  unfold pdMetric pdForm
  simp only [Prod.fst_add, Prod.snd_add, Prod.smul_fst, Prod.smul_snd, map_add, map_smul]
  rw [norm_add_sq_real, norm_add_sq_real, norm_smul, norm_smul, mul_pow, mul_pow, Real.norm_eq_abs, sq_abs]
  simp only [inner_add_left, inner_add_right, real_inner_smul_left, real_inner_smul_right]
  ring

theorem pdForm_sq (h : ∀ a b, 0 ≤ pdMetric M σ τ a b) (v v' : E × F) : pdForm M σ τ v v' ^ 2 ≤ pdMetric M σ τ v.1 v.2 * pdMetric M σ τ v'.1 v'.2 := by
  have := discrim_le_zero (a := pdMetric M σ τ v'.1 v'.2) (b := 2 * pdForm M σ τ v v') (c := pdMetric M σ τ v.1 v.2) fun t => by
    rw [← pdMetric_add_smul]; exact h _ _
  unfold discrim at this
  linarith

/-- The norm of the metric. -/
noncomputable def pdNorm (M : E →ₗ[ℝ] F) (σ τ : ℝ) (v : E × F) : ℝ := √(pdMetric M σ τ v.1 v.2)

theorem pdNorm_sq (h : ∀ a b, 0 ≤ pdMetric M σ τ a b) (v : E × F) : pdNorm M σ τ v ^ 2 = pdMetric M σ τ v.1 v.2 := Real.sq_sqrt (h _ _)

/-- `pdNorm` is a seminorm. -/
noncomputable def pdSeminorm (h : ∀ a b, 0 ≤ pdMetric M σ τ a b) : AddGroupSeminorm (E × F) where
  toFun := pdNorm M σ τ
  map_zero' := by simp [pdNorm, pdMetric]
  neg' v := by simp [pdNorm, pdMetric]
  add_le' v v' := by
    refine Real.sqrt_le_left (by unfold pdNorm; positivity) |>.mpr ?_
    have h1 := pdMetric_add_smul (M := M) (σ := σ) (τ := τ) v v' 1
    rw [one_smul] at h1
    rw [h1]
    have h2 : pdForm M σ τ v v' ≤ pdNorm M σ τ v * pdNorm M σ τ v' := by
      refine (abs_le_of_sq_le_sq' ?_ (by unfold pdNorm; positivity)).2
      rw [mul_pow, pdNorm_sq h, pdNorm_sq h]
      exact pdForm_sq h v v'
    have h3 := pdNorm_sq h v
    have h4 := pdNorm_sq h v'
    nlinarith

end Metric

/-! ### The operator -/

section Operator

variable {M : E →ₗ[ℝ] F} {Mt : F →ₗ[ℝ] E} {G : ExtFun E} {H : ExtFun F} {f : E → ℝ} {g : E → E} {L σ τ : ℝ} {p1 : E → ℝ → E} {p2 : F → ℝ → F}

/-- The new dual variable. -/
noncomputable def pdY (p2 : F → ℝ → F) (M : E →ₗ[ℝ] F) (τ : ℝ) (v : E × F) : F := prox2Conj p2 (v.2 + τ • M v.1) τ

/-- The new primal variable. -/
noncomputable def pdX (p1 : E → ℝ → E) (p2 : F → ℝ → F) (g : E → E) (M : E →ₗ[ℝ] F) (Mt : F →ₗ[ℝ] E) (σ τ : ℝ) (v : E × F) : E :=
  p1 (v.1 - σ • (Mt ((2 : ℝ) • pdY p2 M τ v - v.2) + g v.1)) σ

/-- One iteration. -/
noncomputable def pdT (p1 : E → ℝ → E) (p2 : F → ℝ → F) (g : E → E) (M : E →ₗ[ℝ] F) (Mt : F →ₗ[ℝ] E) (σ τ : ℝ) (v : E × F) : E × F := (pdX p1 p2 g M Mt σ τ v, pdY p2 M τ v)

theorem pdY_subgrad (hH : H.IsConvex) (h2 : IsProxOf H p2) (hτ : 0 < τ) (v : E × F) : IsSubgrad H (τ⁻¹ • (v.2 - pdY p2 M τ v) + M v.1) (pdY p2 M τ v) := by
  have h := (C53_moreau hH h2 (v.2 + τ • M v.1) hτ).1
  have e : τ⁻¹ • (v.2 + τ • M v.1 - prox2Conj p2 (v.2 + τ • M v.1) τ) = τ⁻¹ • (v.2 - pdY p2 M τ v) + M v.1 := by
    unfold pdY
    rw [show v.2 + τ • M v.1 - prox2Conj p2 (v.2 + τ • M v.1) τ = (v.2 - prox2Conj p2 (v.2 + τ • M v.1) τ) + τ • M v.1 by abel, smul_add, smul_smul, inv_mul_cancel₀ hτ.ne', one_smul]
  rw [e] at h
  exact h

theorem pdX_subgrad (hG : G.IsConvex) (h1 : IsProxOf G p1) (hσ : 0 < σ) (v : E × F) :
    IsSubgrad G (pdX p1 p2 g M Mt σ τ v) (σ⁻¹ • (v.1 - pdX p1 p2 g M Mt σ τ v) - Mt ((2 : ℝ) • pdY p2 M τ v - v.2) - g v.1) := by
  have h := (h1 (v.1 - σ • (Mt ((2 : ℝ) • pdY p2 M τ v - v.2) + g v.1)) σ hσ).subgrad hG hσ
  have e : σ⁻¹ • (v.1 - σ • (Mt ((2 : ℝ) • pdY p2 M τ v - v.2) + g v.1) - p1 (v.1 - σ • (Mt ((2 : ℝ) • pdY p2 M τ v - v.2) + g v.1)) σ) =
      σ⁻¹ • (v.1 - pdX p1 p2 g M Mt σ τ v) - Mt ((2 : ℝ) • pdY p2 M τ v - v.2) - g v.1 := by
    unfold pdX
    rw [show v.1 - σ • (Mt ((2 : ℝ) • pdY p2 M τ v - v.2) + g v.1) - p1 (v.1 - σ • (Mt ((2 : ℝ) • pdY p2 M τ v - v.2) + g v.1)) σ =
      (v.1 - p1 (v.1 - σ • (Mt ((2 : ℝ) • pdY p2 M τ v - v.2) + g v.1)) σ) - σ • (Mt ((2 : ℝ) • pdY p2 M τ v - v.2) + g v.1) by abel, smul_sub, smul_smul, inv_mul_cancel₀ hσ.ne', one_smul]
    abel
  rw [e] at h
  exact h

/-- Two runs of one iteration. -/
theorem condat_vu_pair (hadj : ∀ x y, ⟪M x, y⟫_ℝ = ⟪x, Mt y⟫_ℝ) (hL : 0 < L) (hf : ConvexGrad f g) (hq : UpperQuad f g L) {x x' z z' : E} {y y' r r' : F}
    (hd : IsSubgrad H (τ⁻¹ • (y - y') + M x) y') (hds : IsSubgrad H (τ⁻¹ • (r - r') + M z) r') (hp : IsSubgrad G x' (σ⁻¹ • (x - x') - Mt ((2 : ℝ) • y' - y) - g x))
    (hps : IsSubgrad G z' (σ⁻¹ • (z - z') - Mt ((2 : ℝ) • r' - r) - g z)) :
    pdMetric M σ τ (x' - z') (y' - r') ≤
      pdMetric M σ τ (x - z) (y - r) - (pdMetric M σ τ ((x - z) - (x' - z')) ((y - r) - (y' - r')) - L / 2 * ‖(x - z) - (x' - z')‖ ^ 2) := by
  set a := x - z with ha
  set a' := x' - z' with ha'
  set b := y - r with hb
  set b' := y' - r' with hb'
  set D := g x - g z with hD
  have h1 := hd.mono hds
  have h2 := hp.mono hps
  have e1 : τ⁻¹ • (y - y') + M x - (τ⁻¹ • (r - r') + M z) = τ⁻¹ • (b - b') + M a := by rw [ha, hb, hb', map_sub]; module
  rw [real_inner_comm, e1, ← hb', inner_add_left, inner_smul_left] at h1
  have e2 : σ⁻¹ • (x - x') - Mt ((2 : ℝ) • y' - y) - g x - (σ⁻¹ • (z - z') - Mt ((2 : ℝ) • r' - r) - g z) = σ⁻¹ • (a - a') - Mt ((2 : ℝ) • b' - b) - D := by
    have : Mt ((2 : ℝ) • (y' - r') - (y - r)) = Mt ((2 : ℝ) • y' - y) - Mt ((2 : ℝ) • r' - r) := by
      rw [← map_sub]; congr 1; module
    rw [ha, ha', hD, hb, hb', this]; module
  rw [e2, inner_sub_left, inner_sub_left, inner_smul_left, real_inner_comm _ (Mt _), ← hadj] at h2
  simp only [conj_trivial] at h1 h2
  have h3 : -⟪D, a'⟫_ℝ ≤ L / 4 * ‖a - a'‖ ^ 2 := by
    have h4 := cocoercive hL hf hq x z
    rw [← hD, ← ha] at h4
    have h5 : 0 ≤ ‖D + (-(L / 2)) • (a - a')‖ ^ 2 := sq_nonneg _
    rw [norm_add_smul_sq] at h5
    have h6 : 0 ≤ 1 / L * (‖D‖ ^ 2 + 2 * -(L / 2) * ⟪D, a - a'⟫_ℝ + (-(L / 2)) ^ 2 * ‖a - a'‖ ^ 2) := by positivity
    have h7 : 1 / L * (‖D‖ ^ 2 + 2 * -(L / 2) * ⟪D, a - a'⟫_ℝ + (-(L / 2)) ^ 2 * ‖a - a'‖ ^ 2) =
        1 / L * ‖D‖ ^ 2 - ⟪D, a - a'⟫_ℝ + L / 4 * ‖a - a'‖ ^ 2 := by field_simp; ring
    rw [h7, inner_sub_right] at h6
    linarith
  have h8 := pdMetric_sub M σ τ a a' b b'
  have e3 : ⟪M a, b'⟫_ℝ - ⟪M a', (2 : ℝ) • b' - b⟫_ℝ = ⟪M (a - a'), b'⟫_ℝ + ⟪M a', b - b'⟫_ℝ := by
    clear_value a a' b b'
    rw [map_sub, inner_sub_left, inner_sub_right, inner_sub_right, inner_smul_right]; ring
  have h9 : 0 ≤ ⟪a - a', a'⟫_ℝ / σ + ⟪b - b', b'⟫_ℝ / τ + ⟪M (a - a'), b'⟫_ℝ + ⟪M a', b - b'⟫_ℝ + L / 4 * ‖a - a'‖ ^ 2 := by
    rw [div_eq_inv_mul, div_eq_inv_mul]
    linarith
  linarith

theorem pdMetric_neg (a : E) (b : F) : pdMetric M σ τ (-a) (-b) = pdMetric M σ τ a b := by simp [pdMetric]

/-- The metric is equivalent to the Euclidean one. -/
theorem pdMetric_equiv {m : ℝ} (hm : ∀ x, ‖M x‖ ≤ m * ‖x‖) (hm0 : 0 ≤ m) (hσ : 0 < σ) (hτ : 0 < τ) (hL : 0 < L) (hσL : 0 < 1 / σ - L / 2) (hstep : m ^ 2 < (1 / σ - L / 2) * (1 / τ)) :
    ∃ κ D, 0 < κ ∧ 0 < D ∧ (∀ (a : E) (b : F), κ * (‖a‖ ^ 2 + ‖b‖ ^ 2) + L / 2 * ‖a‖ ^ 2 ≤ pdMetric M σ τ a b) ∧ ∀ (a : E) (b : F), pdMetric M σ τ a b ≤ D * (‖a‖ ^ 2 + ‖b‖ ^ 2) := by
  refine ⟨((1 / σ - L / 2) * (1 / τ) - m ^ 2) / ((1 / σ - L / 2) + 1 / τ), 1 / σ + 1 / τ + m, div_pos (by linarith) (by positivity), by positivity, fun a b => ?_, fun a b => ?_⟩
  · have h := pdMetric_lower (σ := σ) hm hτ hσL hstep a b
    rw [show 1 / σ - (1 / σ - L / 2) = L / 2 by ring] at h
    linarith
  · unfold pdMetric
    have h1 : ⟪M a, b⟫_ℝ ≤ m * ‖a‖ * ‖b‖ := (real_inner_le_norm _ _).trans (mul_le_mul_of_nonneg_right (hm a) (norm_nonneg b))
    have h2 : 2 * (m * ‖a‖ * ‖b‖) ≤ m * (‖a‖ ^ 2 + ‖b‖ ^ 2) := by
      have := mul_nonneg hm0 (sq_nonneg (‖a‖ - ‖b‖))
      linarith
    have h3 : 0 ≤ ‖b‖ ^ 2 / σ := by positivity
    have h4 : 0 ≤ ‖a‖ ^ 2 / τ := by positivity
    have e : (1 / σ + 1 / τ + m) * (‖a‖ ^ 2 + ‖b‖ ^ 2) = ‖a‖ ^ 2 / σ + ‖b‖ ^ 2 / τ + (‖b‖ ^ 2 / σ + ‖a‖ ^ 2 / τ) + m * (‖a‖ ^ 2 + ‖b‖ ^ 2) := by ring
    rw [e]
    linarith

theorem pdT_fixed (hG : G.IsConvex) (hH : H.IsConvex) (h1 : IsProxOf G p1) (h2 : IsProxOf H p2) (hσ : 0 < σ) (hτ : 0 < τ) {xs : E} {ys : F} (hys : IsSubgrad H (M xs) ys)
    (hxs : IsSubgrad G xs (-Mt ys - g xs)) : pdT p1 p2 g M Mt σ τ (xs, ys) = (xs, ys) := by
  have e1 : pdY p2 M τ (xs, ys) = ys := by
    refine (C53_unique hH h2 _ hτ ?_).symm
    show IsSubgrad H (τ⁻¹ • (ys + τ • M xs - ys)) ys
    rw [add_sub_cancel_left, smul_smul, inv_mul_cancel₀ hτ.ne', one_smul]
    exact hys
  have e2 : pdX p1 p2 g M Mt σ τ (xs, ys) = xs := by
    unfold pdX
    rw [e1]
    refine (h1 _ σ hσ).unique hG hσ ?_
    have := hxs.prox hσ
    convert this using 1
    show xs - σ • (Mt ((2 : ℝ) • ys - ys) + g xs) = xs + σ • (-Mt ys - g xs)
    rw [show (2 : ℝ) • ys - ys = ys by module]
    module
  unfold pdT
  rw [e1, e2]

/-- The operator is averaged in the metric. -/
theorem pdT_averaged (hadj : ∀ x y, ⟪M x, y⟫_ℝ = ⟪x, Mt y⟫_ℝ) (hG : G.IsConvex) (hH : H.IsConvex) (h1 : IsProxOf G p1) (h2 : IsProxOf H p2) (hL : 0 < L) (hf : ConvexGrad f g) (hq : UpperQuad f g L)
    (hσ : 0 < σ) (hτ : 0 < τ) {κ D : ℝ} (hκ : 0 < κ) (hD : 0 < D) (hlow : ∀ (a : E) (b : F), κ * (‖a‖ ^ 2 + ‖b‖ ^ 2) + L / 2 * ‖a‖ ^ 2 ≤ pdMetric M σ τ a b)
    (hup : ∀ (a : E) (b : F), pdMetric M σ τ a b ≤ D * (‖a‖ ^ 2 + ‖b‖ ^ 2)) (v v' : E × F) :
    pdNorm M σ τ (pdT p1 p2 g M Mt σ τ v - pdT p1 p2 g M Mt σ τ v') ^ 2 ≤
      pdNorm M σ τ (v - v') ^ 2 - κ / D * pdNorm M σ τ ((pdT p1 p2 g M Mt σ τ v - v) - (pdT p1 p2 g M Mt σ τ v' - v')) ^ 2 := by
  have hpos : ∀ (a : E) (b : F), 0 ≤ pdMetric M σ τ a b := fun a b => le_trans (by positivity) (hlow a b)
  rw [pdNorm_sq hpos, pdNorm_sq hpos, pdNorm_sq hpos]
  have h := condat_vu_pair (M := M) (Mt := Mt) (σ := σ) (τ := τ) hadj hL hf hq (pdY_subgrad hH h2 hτ v) (pdY_subgrad hH h2 hτ v') (pdX_subgrad hG h1 hσ v) (pdX_subgrad hG h1 hσ v')
  obtain ⟨a, ha⟩ : ∃ a : E, a = (v.1 - v'.1) - (pdX p1 p2 g M Mt σ τ v - pdX p1 p2 g M Mt σ τ v') := ⟨_, rfl⟩
  obtain ⟨b, hb⟩ : ∃ b : F, b = (v.2 - v'.2) - (pdY p2 M τ v - pdY p2 M τ v') := ⟨_, rfl⟩
  rw [← ha, ← hb] at h
  have e1 : ((pdT p1 p2 g M Mt σ τ v - v) - (pdT p1 p2 g M Mt σ τ v' - v')).1 = -a := by
    rw [ha]
    show (pdX p1 p2 g M Mt σ τ v - v.1) - (pdX p1 p2 g M Mt σ τ v' - v'.1) = _
    abel
  have e2 : ((pdT p1 p2 g M Mt σ τ v - v) - (pdT p1 p2 g M Mt σ τ v' - v')).2 = -b := by
    rw [hb]
    show (pdY p2 M τ v - v.2) - (pdY p2 M τ v' - v'.2) = _
    abel
  rw [e1, e2, pdMetric_neg]
  have h3 := hlow a b
  have h4 : κ / D * pdMetric M σ τ a b ≤ κ * (‖a‖ ^ 2 + ‖b‖ ^ 2) := by
    have := mul_le_mul_of_nonneg_left (hup a b) (show 0 ≤ κ / D by positivity)
    rwa [← mul_assoc, div_mul_cancel₀ _ hD.ne'] at this
  show pdMetric M σ τ (pdX p1 p2 g M Mt σ τ v - pdX p1 p2 g M Mt σ τ v') (pdY p2 M τ v - pdY p2 M τ v') ≤ pdMetric M σ τ (v.1 - v'.1) (v.2 - v'.2) - _
  linarith

/-- The iteration with errors, in the norm of the metric. -/
theorem pd_inexact (hadj : ∀ x y, ⟪M x, y⟫_ℝ = ⟪x, Mt y⟫_ℝ) (hG : G.IsConvex) (hH : H.IsConvex) (h1 : IsProxOf G p1) (h2 : IsProxOf H p2) (hL : 0 < L) (hf : ConvexGrad f g) (hq : UpperQuad f g L)
    (hσ : 0 < σ) (hτ : 0 < τ) {κ D : ℝ} (hκ : 0 < κ) (hD : 0 < D) (hlow : ∀ (a : E) (b : F), κ * (‖a‖ ^ 2 + ‖b‖ ^ 2) + L / 2 * ‖a‖ ^ 2 ≤ pdMetric M σ τ a b)
    (hup : ∀ (a : E) (b : F), pdMetric M σ τ a b ≤ D * (‖a‖ ^ 2 + ‖b‖ ^ 2)) {xs : E} {ys : F} (hys : IsSubgrad H (M xs) ys) (hxs : IsSubgrad G xs (-Mt ys - g xs)) {v : ℕ → E × F} {ρ e : ℝ}
    (he : 0 ≤ e) {N : ℕ} (hN : N * e ≤ 1) (h0 : pdNorm M σ τ (v 0 - (xs, ys)) ≤ ρ)
    (hv : ∀ k < N, (∀ i ≤ k, pdNorm M σ τ (v i - (xs, ys)) ≤ ρ + 1) → pdNorm M σ τ (v (k + 1) - pdT p1 p2 g M Mt σ τ (v k)) ≤ e) :
    ∀ k ≤ N, pdNorm M σ τ (v k - (xs, ys)) ≤ ρ + 1 ∧ pdNorm M σ τ (pdT p1 p2 g M Mt σ τ (v k) - v k) ≤ ρ / √(κ / D * (k + 1)) + 2 * (k * e) := by
  have hpos : ∀ (a : E) (b : F), 0 ≤ pdMetric M σ τ a b := fun a b => le_trans (by positivity) (hlow a b)
  have hav := pdT_averaged (M := M) (Mt := Mt) hadj hG hH h1 h2 hL hf hq hσ hτ hκ hD hlow hup
  have hfix := pdT_fixed (M := M) (Mt := Mt) hG hH h1 h2 hσ hτ hys hxs
  have hα : 0 < κ / D := by positivity
  refine @inexact_averaged (E × F) (AddGroupSeminorm.toSeminormedAddCommGroup (pdSeminorm hpos)) (pdT p1 p2 g M Mt σ τ) (xs, ys) (κ / D) hα ?_ ?_ v ρ e he N hN h0 hv
  · intro a b
    refine (abs_le_of_sq_le_sq' ((hav a b).trans ?_) (Real.sqrt_nonneg _)).2
    exact sub_le_self _ (by positivity)
  · intro a
    have := hav a (xs, ys)
    rw [hfix, sub_self, sub_zero] at this
    exact this

/-- The norm of the metric and the Euclidean norms. -/
theorem pdNorm_le (hup : ∀ (a : E) (b : F), pdMetric M σ τ a b ≤ D * (‖a‖ ^ 2 + ‖b‖ ^ 2)) (v : E × F) : pdNorm M σ τ v ≤ √D * (‖v.1‖ + ‖v.2‖) := by
  unfold pdNorm
  have hn : 0 ≤ ‖v.1‖ + ‖v.2‖ := by positivity
  rw [← Real.sqrt_sq hn]
  by_cases hD : 0 ≤ D
  · rw [← Real.sqrt_mul hD]
    refine Real.sqrt_le_sqrt ((hup _ _).trans (mul_le_mul_of_nonneg_left ?_ hD))
    nlinarith [mul_nonneg (norm_nonneg v.1) (norm_nonneg v.2)]
  · push Not at hD
    rw [Real.sqrt_eq_zero_of_nonpos, Real.sqrt_eq_zero_of_nonpos hD.le, zero_mul]
    exact (hup _ _).trans (mul_nonpos_of_nonpos_of_nonneg hD.le (by positivity))

theorem le_pdNorm {κ : ℝ} (hκ : 0 < κ) (hL : 0 < L) (hlow : ∀ (a : E) (b : F), κ * (‖a‖ ^ 2 + ‖b‖ ^ 2) + L / 2 * ‖a‖ ^ 2 ≤ pdMetric M σ τ a b) (v : E × F) :
    ‖v.1‖ + ‖v.2‖ ≤ √(2 / κ) * pdNorm M σ τ v := by
  unfold pdNorm
  rw [← Real.sqrt_mul (by positivity)]
  refine Real.le_sqrt_of_sq_le ?_
  rw [div_mul_eq_mul_div, le_div_iff₀ hκ]
  have h1 := hlow v.1 v.2
  have h2 : 0 ≤ L / 2 * ‖v.1‖ ^ 2 := by positivity
  have h3 := mul_nonneg hκ.le (sq_nonneg (‖v.1‖ - ‖v.2‖))
  linarith

end Operator

end Copt
