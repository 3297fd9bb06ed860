import Verif.Props.PrimalDual

/-! # Property C78: the primal-dual method without line search converges -/

set_option linter.unusedSectionVars false

namespace Copt

open Spec

open scoped InnerProductSpace

variable {E F : Type} [NormedAddCommGroup E] [InnerProductSpace ℝ E] [NormedAddCommGroup F] [InnerProductSpace ℝ F]

/-- The squared distance in which the iteration contracts. -/
noncomputable def pdMetric (M : E →ₗ[ℝ] F) (σ τ : ℝ) (a : E) (b : F) : ℝ := ‖a‖ ^ 2 / σ + ‖b‖ ^ 2 / τ + 2 * ⟪M a, b⟫_ℝ

theorem pdMetric_sub (M : E →ₗ[ℝ] F) (σ τ : ℝ) (a a' : E) (b b' : F) :
    2 * (⟪a - a', a'⟫_ℝ / σ + ⟪b - b', b'⟫_ℝ / τ + ⟪M (a - a'), b'⟫_ℝ + ⟪M a', b - b'⟫_ℝ) =
      pdMetric M σ τ a b - pdMetric M σ τ a' b' - pdMetric M σ τ (a - a') (b - b') := by
  unfold pdMetric
  rw [norm_sub_sq_real, norm_sub_sq_real, map_sub]
  simp only [inner_sub_left, inner_sub_right, real_inner_self_eq_norm_sq]
  ring

/-- One iteration of the Condat-Vu scheme. -/
theorem condat_vu_step {M : E →ₗ[ℝ] F} {Mt : F →ₗ[ℝ] E} (hadj : ∀ x y, ⟪M x, y⟫_ℝ = ⟪x, Mt y⟫_ℝ) {G : ExtFun E} {H : ExtFun F}
    {f : E → ℝ} {g : E → E} {L σ τ : ℝ} (hL : 0 < L) (hf : ConvexGrad f g) (hq : UpperQuad f g L)
    {x x' xs : E} {y y' ys : F}
    (hd : IsSubgrad H (τ⁻¹ • (y - y') + M x) y') (hds : IsSubgrad H (M xs) ys)
    (hp : IsSubgrad G x' (σ⁻¹ • (x - x') - Mt ((2 : ℝ) • y' - y) - g x)) (hps : IsSubgrad G xs (-Mt ys - g xs)) :
    pdMetric M σ τ (x' - xs) (y' - ys) ≤
      pdMetric M σ τ (x - xs) (y - ys) - (pdMetric M σ τ (x - x') (y - y') - L / 2 * ‖x - x'‖ ^ 2) := by
  set a := x - xs with ha
  set a' := x' - xs with ha'
  set b := y - ys with hb
  set b' := y' - ys with hb'
  set D := g x - g xs with hD
  have ea : x - x' = a - a' := by rw [ha, ha']; abel
  have eb : y - y' = b - b' := by rw [hb, hb']; abel
  have h1 := hd.mono hds
  have h2 := hp.mono hps
  have e1 : τ⁻¹ • (y - y') + M x - M xs = τ⁻¹ • (b - b') + M a := by rw [eb, ha, map_sub]; abel
  rw [real_inner_comm, e1, ← hb', inner_add_left, inner_smul_left] at h1
  have e2 : σ⁻¹ • (x - x') - Mt ((2 : ℝ) • y' - y) - g x - (-Mt ys - g xs) = σ⁻¹ • (a - a') - Mt ((2 : ℝ) • b' - b) - D := by
    rw [ea, hD, hb, hb']
    have : Mt ((2 : ℝ) • (y' - ys) - (y - ys)) = Mt ((2 : ℝ) • y' - y) - Mt ys := by
      rw [← map_sub]; congr 1; module
    rw [this]; abel
  rw [e2, inner_sub_left, inner_sub_left, inner_smul_left, real_inner_comm _ (Mt _), ← hadj] at h2
  simp only [conj_trivial] at h1 h2
  -- cocoercivity and Young
  have h3 : -⟪D, a'⟫_ℝ ≤ L / 4 * ‖a - a'‖ ^ 2 := by
    have h4 := cocoercive hL hf hq x xs
    rw [← hD, ← ha] at h4
    have h5 : 0 ≤ ‖D + (-(L / 2)) • (a - a')‖ ^ 2 := sq_nonneg _
    rw [norm_add_smul_sq] at h5
    have h6 : 0 ≤ 1 / L * (‖D‖ ^ 2 + 2 * -(L / 2) * ⟪D, a - a'⟫_ℝ + (-(L / 2)) ^ 2 * ‖a - a'‖ ^ 2) := by positivity
    have h7 : 1 / L * (‖D‖ ^ 2 + 2 * -(L / 2) * ⟪D, a - a'⟫_ℝ + (-(L / 2)) ^ 2 * ‖a - a'‖ ^ 2) =
        1 / L * ‖D‖ ^ 2 - ⟪D, a - a'⟫_ℝ + L / 4 * ‖a - a'‖ ^ 2 := by field_simp; ring
    rw [h7, inner_sub_right] at h6
    linarith
  have h8 := pdMetric_sub M σ τ a a' b b'
  have e3 : ⟪M a, b'⟫_ℝ - ⟪M a', (2 : ℝ) • b' - b⟫_ℝ = ⟪M (a - a'), b'⟫_ℝ + ⟪M a', b - b'⟫_ℝ := by
    clear_value a a' b b'
    rw [map_sub, inner_sub_left, inner_sub_right, inner_sub_right, inner_smul_right]; ring
  have h9 : 0 ≤ ⟪a - a', a'⟫_ℝ / σ + ⟪b - b', b'⟫_ℝ / τ + ⟪M (a - a'), b'⟫_ℝ + ⟪M a', b - b'⟫_ℝ + L / 4 * ‖a - a'‖ ^ 2 := by
    rw [div_eq_inv_mul, div_eq_inv_mul]
    linarith
  rw [ea, eb]
  linarith

/-- Lower bound of the quadratic form. -/
theorem pdMetric_lower {M : E →ₗ[ℝ] F} {m : ℝ} (hm : ∀ x, ‖M x‖ ≤ m * ‖x‖) {σ τ α : ℝ} (hτ : 0 < τ) (hα : 0 < α)
    (hαm : m ^ 2 < α * (1 / τ)) (a : E) (b : F) :
    (α * (1 / τ) - m ^ 2) / (α + 1 / τ) * (‖a‖ ^ 2 + ‖b‖ ^ 2) ≤ pdMetric M σ τ a b - (1 / σ - α) * ‖a‖ ^ 2 := by
  set β := 1 / τ with hβ
  have hβp : 0 < β := by positivity
  set κ := (α * β - m ^ 2) / (α + β) with hκ
  have hκe : κ * (α + β) = α * β - m ^ 2 := by rw [hκ]; field_simp
  have hin : -(m * ‖a‖ * ‖b‖) ≤ ⟪M a, b⟫_ℝ := by
    have h1 := (abs_le.mp (abs_real_inner_le_norm (M a) b)).1
    have h2 := mul_le_mul_of_nonneg_right (hm a) (norm_nonneg b)
    linarith
  have e : pdMetric M σ τ a b - (1 / σ - α) * ‖a‖ ^ 2 = α * ‖a‖ ^ 2 + β * ‖b‖ ^ 2 + 2 * ⟪M a, b⟫_ℝ := by
    unfold pdMetric; rw [hβ]; ring
  rw [e]
  have hακ : 0 < α - κ := by
    have : κ * (α + β) < α * (α + β) := by rw [hκe]; nlinarith [sq_nonneg m]
    have := lt_of_mul_lt_mul_right this (by linarith)
    linarith
  -- (α-κ) p² - 2 m p q + (β-κ) q² >= 0
  have hdisc : m ^ 2 ≤ (α - κ) * (β - κ) := by nlinarith [sq_nonneg κ]
  have hq : 0 ≤ (α - κ) * ((α - κ) * ‖a‖ ^ 2 - 2 * m * ‖a‖ * ‖b‖ + (β - κ) * ‖b‖ ^ 2) := by
    have : (α - κ) * ((α - κ) * ‖a‖ ^ 2 - 2 * m * ‖a‖ * ‖b‖ + (β - κ) * ‖b‖ ^ 2) =
        ((α - κ) * ‖a‖ - m * ‖b‖) ^ 2 + ((α - κ) * (β - κ) - m ^ 2) * ‖b‖ ^ 2 := by ring
    rw [this]
    have := mul_nonneg (sub_nonneg.mpr hdisc) (sq_nonneg ‖b‖)
    positivity
  have hq' := nonneg_of_mul_nonneg_right hq hακ
  nlinarith

/-- The state after `k` iterations (of an infinite run). -/
noncomputable def pdIter (P : PDArgs E F) : ℕ → Option (PDState E F)
  | 0 => some (pdInit P)
  | k + 1 => (pdIter P k).bind (pdNext P k)

/-- Without line search, an iteration: its data and its subgradients. -/
theorem pd_fixed_iter {P : PDArgs E F} {M : E →ₗ[ℝ] F} {Mt : F →ₗ[ℝ] E} (h : PDOk P M Mt) {G : ExtFun E} {H : ExtFun F}
    (hG : G.IsConvex) (hp1 : IsProxOf G P.p1) (hH : H.IsConvex) (hp2 : IsProxOf H P.p2) {g : E → E}
    (hfg : ∀ x, (P.fg x).2 = g x) (hls : P.lineSearch = false) {st : PDState E F} (it : ℕ) (hg : PDGood P st) :
    ∃ st', pdNext P it st = some st' ∧ PDGood P st' ∧ st'.tau = st.tau ∧ st'.sigma = st.sigma ∧
      st'.normIncr = (if it % 100 = 0 then some (‖st'.x - st.x‖ + ‖st'.y - st.y‖) else st.normIncr) ∧
      IsSubgrad H (st.tau⁻¹ • (st.y - st'.y) + M st.x) st'.y ∧
      IsSubgrad G st'.x (st.sigma⁻¹ • (st.x - st'.x) - Mt ((2 : ℝ) • st'.y - st.y) - g st.x) := by
  have hr : ∃ r, pdStep P st = some r := by
    unfold pdStep; simp only [hls]; exact ⟨_, rfl⟩
  obtain ⟨r, hr⟩ := hr
  obtain ⟨h1, -, -, h3, θ, -, -, hθ, h4⟩ := pdStep_spec h hg hr
  obtain ⟨rfl, hσ, hτ⟩ := hθ hls
  have hn : ∃ st', pdNext P it st = some st' ∧ st'.x = r.xNext ∧ st'.y = r.yNext ∧ st'.tau = r.tau ∧ st'.sigma = r.sigma ∧
      st'.normIncr = (if it % 100 = 0 then some (‖r.xNext - st.x‖ + ‖r.yNext - st.y‖) else st.normIncr) := by
    unfold pdNext; rw [hr]; exact ⟨_, rfl, rfl, rfl, rfl, rfl, rfl⟩
  obtain ⟨st', hn, ex, ey, et, es, en⟩ := hn
  refine ⟨st', hn, pdNext_good h hg hn, by rw [et, hτ], by rw [es, hσ], by rw [en, ex, ey], ?_, ?_⟩
  · have hm := (C53_moreau hH hp2 (st.y + st.tau • P.matvec st.x) hg.tau).1
    rw [← h1, h.matvec] at hm
    rw [ey]
    convert hm using 1
    rw [show st.y + st.tau • M st.x - r.yNext = (st.y - r.yNext) + st.tau • M st.x by abel, smul_add, smul_smul,
      inv_mul_cancel₀ hg.tau.ne', one_smul]
  · have hpr := (hp1 (st.x - r.sigma • (P.rmatvec (r.yNext + (1 : ℝ) • (r.yNext - st.y)) + st.grad)) r.sigma h3).subgrad hG h3
    rw [← h4, h.rmatvec, hg.grad, hfg, hσ] at hpr
    rw [ex, ey]
    convert hpr using 1
    rw [show r.yNext + (1 : ℝ) • (r.yNext - st.y) = (2 : ℝ) • r.yNext - st.y by module,
      show st.x - st.sigma • (Mt ((2 : ℝ) • r.yNext - st.y) + g st.x) - r.xNext =
        (st.x - r.xNext) + st.sigma • (-(Mt ((2 : ℝ) • r.yNext - st.y) + g st.x)) by module, smul_add, smul_smul,
      inv_mul_cancel₀ hg.sigma.ne', one_smul]
    abel

/-- **C78.** Without line search, for convex `f` with quadratic upper bound `L`, convex `g` and `h` with exact proximal operators,
`‖M x‖ ≤ m ‖x‖` and step sizes with `m² < (1/sigma - L/2)/tau`: with `d_k` the move of iteration `k` and `(x*, y*)` any saddle point, the
distance `‖x_k - x*‖²/sigma + ‖y_k - y*‖²/tau + 2⟪M(x_k - x*), y_k - y*⟫` is nonnegative and never increases, and the squared moves sum to at most
its first value over `κ = ((1/sigma - L/2)/tau - m²)/(1/sigma - L/2 + 1/tau)`. -/
theorem C78_fejer {P : PDArgs E F} {M : E →ₗ[ℝ] F} {Mt : F →ₗ[ℝ] E} (h : PDOk P M Mt) {G : ExtFun E} {H : ExtFun F}
    (hG : G.IsConvex) (hp1 : IsProxOf G P.p1) (hH : H.IsConvex) (hp2 : IsProxOf H P.p2) {f : E → ℝ} {g : E → E}
    (hfg : ∀ x, (P.fg x).2 = g x) (hf : ConvexGrad f g) {L m : ℝ} (hL : 0 < L) (hq : UpperQuad f g L)
    (hls : P.lineSearch = false) (hm : ∀ x, ‖M x‖ ≤ m * ‖x‖) (hσL : 0 < 1 / P.stepSize - L / 2)
    (hstep : m ^ 2 < (1 / P.stepSize - L / 2) * (1 / P.tau0)) {xs : E} {ys : F} (hys : IsSubgrad H (M xs) ys)
    (hxs : IsSubgrad G xs (-Mt ys - g xs)) :
    ∃ s : ℕ → PDState E F, (∀ k, pdIter P k = some (s k)) ∧
      (∀ k, 0 ≤ pdMetric M P.stepSize P.tau0 ((s k).x - xs) ((s k).y - ys)) ∧
      (∀ k, pdMetric M P.stepSize P.tau0 ((s (k + 1)).x - xs) ((s (k + 1)).y - ys) ≤
        pdMetric M P.stepSize P.tau0 ((s k).x - xs) ((s k).y - ys)) ∧
      (∀ k, (((1 / P.stepSize - L / 2) * (1 / P.tau0) - m ^ 2) / (1 / P.stepSize - L / 2 + 1 / P.tau0)) *
        (∑ i ∈ Finset.range k, (‖(s (i + 1)).x - (s i).x‖ ^ 2 + ‖(s (i + 1)).y - (s i).y‖ ^ 2)) ≤
          pdMetric M P.stepSize P.tau0 (P.x0 - xs) (M P.x0 - ys)) ∧
      (∀ k, k % 100 = 0 → (s (k + 1)).normIncr = some (‖(s (k + 1)).x - (s k).x‖ + ‖(s (k + 1)).y - (s k).y‖)) := by
  set α := 1 / P.stepSize - L / 2 with hα
  set κ := (α * (1 / P.tau0) - m ^ 2) / (α + 1 / P.tau0) with hκ
  have hτ := h.tau0_pos
  have hκ0 : 0 < κ := div_pos (by linarith) (by positivity)
  have hex : ∀ k, ∃ st, pdIter P k = some st ∧ PDGood P st ∧ st.tau = P.tau0 ∧ st.sigma = P.stepSize := by
    intro k
    induction k with
    | zero => exact ⟨pdInit P, rfl, pdInit_good h, rfl, rfl⟩
    | succ k ih =>
      obtain ⟨st, hk, hg, ht, hs⟩ := ih
      obtain ⟨st', hn, hg', ht', hs', -⟩ := pd_fixed_iter h hG hp1 hH hp2 hfg hls k hg
      exact ⟨st', by rw [pdIter, hk]; exact hn, hg', by rw [ht', ht], by rw [hs', hs]⟩
  choose s hs using hex
  have hone : ∀ k, pdMetric M P.stepSize P.tau0 ((s (k + 1)).x - xs) ((s (k + 1)).y - ys) ≤
      pdMetric M P.stepSize P.tau0 ((s k).x - xs) ((s k).y - ys) -
        κ * (‖(s (k + 1)).x - (s k).x‖ ^ 2 + ‖(s (k + 1)).y - (s k).y‖ ^ 2) ∧
      (k % 100 = 0 → (s (k + 1)).normIncr = some (‖(s (k + 1)).x - (s k).x‖ + ‖(s (k + 1)).y - (s k).y‖)) := by
    intro k
    obtain ⟨hk, hg, ht, hsg⟩ := hs k
    obtain ⟨st', hn, -, -, -, hni, hd, hp⟩ := pd_fixed_iter h hG hp1 hH hp2 hfg hls k hg
    have e : s (k + 1) = st' := by
      have h1 := (hs (k + 1)).1
      rw [pdIter, hk, Option.bind_some, hn] at h1
      exact (Option.some.inj h1).symm
    rw [e]
    rw [ht] at hd
    rw [hsg] at hp
    have h1 := condat_vu_step h.adjoint hL hf hq hd hys hp hxs
    have h2 := pdMetric_lower (σ := P.stepSize) hm hτ hσL hstep ((s k).x - st'.x) ((s k).y - st'.y)
    rw [show 1 / P.stepSize - α = L / 2 by rw [hα]; ring] at h2
    rw [norm_sub_rev st'.x, norm_sub_rev st'.y]
    refine ⟨by linarith, fun h0 => ?_⟩
    rw [hni, if_pos h0, norm_sub_rev st'.x, norm_sub_rev st'.y]
  have hnn : ∀ a b, 0 ≤ pdMetric M P.stepSize P.tau0 a b := by
    intro a b
    have h2 := pdMetric_lower (σ := P.stepSize) hm hτ hσL hstep a b
    rw [show 1 / P.stepSize - α = L / 2 by rw [hα]; ring] at h2
    have : 0 ≤ κ * (‖a‖ ^ 2 + ‖b‖ ^ 2) := by positivity
    have : 0 ≤ L / 2 * ‖a‖ ^ 2 := by positivity
    linarith
  refine ⟨s, fun k => (hs k).1, fun k => hnn _ _, fun k => ?_, fun k => ?_, fun k => (hone k).2⟩
  · have := (hone k).1
    have : 0 ≤ κ * (‖(s (k + 1)).x - (s k).x‖ ^ 2 + ‖(s (k + 1)).y - (s k).y‖ ^ 2) := by positivity
    linarith
  · have hs0 : s 0 = pdInit P := by
      have := (hs 0).1
      exact (Option.some.inj this).symm
    have hsum : κ * (∑ i ∈ Finset.range k, (‖(s (i + 1)).x - (s i).x‖ ^ 2 + ‖(s (i + 1)).y - (s i).y‖ ^ 2)) +
        pdMetric M P.stepSize P.tau0 ((s k).x - xs) ((s k).y - ys) ≤ pdMetric M P.stepSize P.tau0 ((s 0).x - xs) ((s 0).y - ys) := by
      induction k with
      | zero => simp
      | succ k ih =>
        rw [Finset.sum_range_succ, mul_add]
        have := (hone k).1
        linarith
    rw [hs0] at hsum
    have e : pdMetric M P.stepSize P.tau0 ((pdInit P).x - xs) ((pdInit P).y - ys) =
        pdMetric M P.stepSize P.tau0 (P.x0 - xs) (M P.x0 - ys) := by
      show pdMetric M _ _ (P.x0 - xs) (P.matvec P.x0 - ys) = _
      rw [h.matvec]
    rw [e] at hsum
    have := hnn ((s k).x - xs) ((s k).y - ys)
    linarith

/-- The loop follows `pdIter`. -/
theorem pdLoop_iter {P : PDArgs E F} {s : ℕ → PDState E F} (hs : ∀ k, pdIter P k = some (s k)) : ∀ rem it,
    ∃ r, pdLoop P rem it (s it) = some r ∧ it ≤ r.2.1 ∧ r.2.1 ≤ it + rem ∧ r.1 = s (r.2.1 + 1) ∧
      (∀ i, it ≤ i → i < r.2.1 → ¬pdDone P (s (i + 1))) ∧ (P.callback = none → r.2.2 ≠ .success → r.2.1 = it + rem ∧ ¬pdDone P r.1) := by
  have hn : ∀ it, pdNext P it (s it) = some (s (it + 1)) := by
    intro it
    have := hs (it + 1)
    rw [pdIter, hs it] at this
    exact this
  have hcb : P.callback = none → ∀ it st, pdCallback P it st = false := by
    intro h it st; unfold pdCallback; rw [h]
  intro rem
  induction rem with
  | zero =>
    intro it
    rw [pdLoop, hn]
    simp only
    split
    · exact ⟨_, rfl, le_refl _, le_refl _, rfl, fun i h h' => absurd (show i < it from h') (by omega), fun _ h => absurd rfl h⟩
    · rename_i hd
      split
      · rename_i hc
        exact ⟨_, rfl, le_refl _, le_refl _, rfl, fun i h h' => absurd (show i < it from h') (by omega), fun _ _ => ⟨rfl, hd⟩⟩
      · exact ⟨_, rfl, le_refl _, le_refl _, rfl, fun i h h' => absurd (show i < it from h') (by omega), fun _ _ => ⟨rfl, hd⟩⟩
  | succ rem ih =>
    intro it
    rw [pdLoop, hn]
    simp only
    split
    · exact ⟨_, rfl, le_refl _, by simp, rfl, fun i h h' => absurd (show i < it from h') (by omega), fun _ h => absurd rfl h⟩
    · rename_i hd
      split
      · rename_i hc
        exact ⟨_, rfl, le_refl _, by simp, rfl, fun i h h' => absurd (show i < it from h') (by omega),
          fun h _ => by rw [hcb h] at hc; cases hc⟩
      · obtain ⟨r, h1, h2, h3, h4, h5, h6⟩ := ih (it + 1)
        refine ⟨r, h1, by omega, by omega, h4, fun i hi hi' => ?_, fun h h' => ⟨by rw [(h6 h h').1]; omega, (h6 h h').2⟩⟩
        rcases Nat.eq_or_lt_of_le hi with rfl | hlt
        · exact hd
        · exact h5 i hlt hi'

/-- **C78 (runs).** Under the hypotheses of `C78_fejer`, a run with `tol > 0`, no callback and `max_iter > 100 K` with
`2 V_0 < K κ tol²`, where `V_0` is the initial distance to some saddle point, reports success. -/
theorem C78_success {P : PDArgs E F} {M : E →ₗ[ℝ] F} {Mt : F →ₗ[ℝ] E} (h : PDOk P M Mt) {G : ExtFun E} {H : ExtFun F}
    (hG : G.IsConvex) (hp1 : IsProxOf G P.p1) (hH : H.IsConvex) (hp2 : IsProxOf H P.p2) {f : E → ℝ} {g : E → E}
    (hfg : ∀ x, (P.fg x).2 = g x) (hf : ConvexGrad f g) {L m : ℝ} (hL : 0 < L) (hq : UpperQuad f g L)
    (hls : P.lineSearch = false) (hm : ∀ x, ‖M x‖ ≤ m * ‖x‖) (hσL : 0 < 1 / P.stepSize - L / 2)
    (hstep : m ^ 2 < (1 / P.stepSize - L / 2) * (1 / P.tau0)) {xs : E} {ys : F} (hys : IsSubgrad H (M xs) ys)
    (hxs : IsSubgrad G xs (-Mt ys - g xs)) (hcb : P.callback = none) (htol : 0 < P.tol) (hlsi : 0 < P.lsIter) {K : ℕ}
    (hK : 100 * K < P.maxIter)
    (hbig : 2 * pdMetric M P.stepSize P.tau0 (P.x0 - xs) (M P.x0 - ys) <
      K * ((((1 / P.stepSize - L / 2) * (1 / P.tau0) - m ^ 2) / (1 / P.stepSize - L / 2 + 1 / P.tau0)) * P.tol ^ 2)) :
    ∃ res, minimizePrimalDual P = some (.ok res) ∧ res.success = true := by
  obtain ⟨s, hs, hnn, -, hsum, hni⟩ := C78_fejer h hG hp1 hH hp2 hfg hf hL hq hls hm hσL hstep hys hxs
  set V := pdMetric M P.stepSize P.tau0 (P.x0 - xs) (M P.x0 - ys) with hV
  set κ := ((1 / P.stepSize - L / 2) * (1 / P.tau0) - m ^ 2) / (1 / P.stepSize - L / 2 + 1 / P.tau0) with hκ
  have hτ := h.tau0_pos
  have hκ0 : 0 < κ := div_pos (by linarith) (by positivity)
  have hs0 : s 0 = pdInit P := (Option.some.inj (hs 0)).symm
  obtain ⟨n, hn⟩ := Nat.exists_eq_add_one_of_ne_zero (show P.maxIter ≠ 0 by omega)
  obtain ⟨r, hr, -, hr2, hr3, hr4, hr5⟩ := pdLoop_iter hs n 0
  rw [hs0] at hr
  refine ⟨_, by
    unfold minimizePrimalDual
    rw [if_neg (by omega), hn]
    simp only
    rw [hr]
    rfl, ?_⟩
  simp only [decide_eq_true_eq]
  by_contra hns
  obtain ⟨h1, h2⟩ := hr5 hcb hns
  -- no iteration was done
  have hnd : ∀ i ≤ n, ¬pdDone P (s (i + 1)) := by
    intro i hi
    rcases Nat.lt_or_ge i r.2.1 with hlt | hge
    · exact hr4 i (Nat.zero_le _) hlt
    · have : i = r.2.1 := by omega
      rw [this, ← hr3]; exact h2
  set d : ℕ → ℝ := fun i => ‖(s (i + 1)).x - (s i).x‖ ^ 2 + ‖(s (i + 1)).y - (s i).y‖ ^ 2 with hd
  have hd0 : ∀ i, 0 ≤ d i := fun i => by rw [hd]; positivity
  have hmult : ∀ j < K, P.tol ^ 2 / 2 ≤ d (100 * j) := by
    intro j hj
    have hno := hnd (100 * j) (by omega)
    have hc := hni (100 * j) (by omega)
    have hle : P.tol ≤ ‖(s (100 * j + 1)).x - (s (100 * j)).x‖ + ‖(s (100 * j + 1)).y - (s (100 * j)).y‖ := by
      by_contra hlt
      push Not at hlt
      exact hno ⟨_, hc, hlt⟩
    show P.tol ^ 2 / 2 ≤ ‖(s (100 * j + 1)).x - (s (100 * j)).x‖ ^ 2 + ‖(s (100 * j + 1)).y - (s (100 * j)).y‖ ^ 2
    nlinarith [sq_nonneg (‖(s (100 * j + 1)).x - (s (100 * j)).x‖ - ‖(s (100 * j + 1)).y - (s (100 * j)).y‖)]
  have hsub : ∑ j ∈ Finset.range K, d (100 * j) ≤ ∑ i ∈ Finset.range (100 * K), d i := by
    rw [← Finset.sum_image (f := d) (s := Finset.range K) (g := fun j => 100 * j) (by intro a _ b _ h; simpa using h)]
    refine Finset.sum_le_sum_of_subset_of_nonneg ?_ fun i _ _ => hd0 i
    intro i hi
    rw [Finset.mem_image] at hi
    obtain ⟨j, hj, rfl⟩ := hi
    rw [Finset.mem_range] at hj ⊢
    omega
  have hlow : (K : ℝ) * (P.tol ^ 2 / 2) ≤ ∑ j ∈ Finset.range K, d (100 * j) := by
    have := Finset.card_nsmul_le_sum (Finset.range K) (fun j => d (100 * j)) (P.tol ^ 2 / 2)
      (fun j hj => hmult j (Finset.mem_range.mp hj))
    rw [Finset.card_range, nsmul_eq_mul] at this
    exact this
  have h3 := hsum (100 * K)
  have h4 := mul_le_mul_of_nonneg_left (hlow.trans hsub) hκ0.le
  change κ * ∑ i ∈ Finset.range (100 * K), d i ≤ V at h3
  nlinarith

/-- The hypotheses of C78 hold together: `f(x) = x²/2`, `M` the identity, `sigma = 1/2`, `tau = 1/4`, saddle point `(0, 0)`. -/
example : (pdQuad false (1 / 1000) 500).lineSearch = false ∧ (∀ x : ℝ, ‖(LinearMap.id : ℝ →ₗ[ℝ] ℝ) x‖ ≤ 1 * ‖x‖) ∧
    0 < 1 / (pdQuad false (1 / 1000) 500).stepSize - 1 / 2 ∧
    (1 : ℝ) ^ 2 < (1 / (pdQuad false (1 / 1000) 500).stepSize - 1 / 2) * (1 / (pdQuad false (1 / 1000) 500).tau0) ∧
    IsSubgrad (ExtFun.zero : ExtFun ℝ) ((LinearMap.id : ℝ →ₗ[ℝ] ℝ) 0) 0 ∧
    IsSubgrad (ExtFun.zero : ExtFun ℝ) 0 (-(LinearMap.id : ℝ →ₗ[ℝ] ℝ) 0 - (fun x : ℝ => x) 0) := by
  refine ⟨rfl, fun x => by simp, ?_, ?_, ⟨Set.mem_univ _, fun y _ => by simp [ExtFun.zero]⟩, ⟨Set.mem_univ _, fun y _ => by simp [ExtFun.zero]⟩⟩
  · norm_num [pdQuad]
  · norm_num [pdQuad, PDArgs.tau0]

end Copt
