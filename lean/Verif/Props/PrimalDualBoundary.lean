import Verif.Props.Minimisers

/-!
# C105: the primal-dual method with step sizes on the boundary

The examples of the library call `minimize_primal_dual` with `step_size=1/L`, `step_size2=L/2` and the identity as linear operator, so that
`(1/sigma - L/2)/tau = ‖M‖²`: the strict inequality of C78 and C103 (and of the published convergence proofs without relaxation) does not hold.  The method
converges all the same: monotonicity of the second operator between consecutive iterates bounds the part of the moves that the Fejér inequality
leaves free.
-/

set_option linter.unusedSectionVars false

namespace Copt

open Spec
open scoped InnerProductSpace

section General
variable {E F : Type} [NormedAddCommGroup E] [InnerProductSpace ℝ E] [NormedAddCommGroup F] [InnerProductSpace ℝ F]

/-- The metric without its `L/2` part as a sum of a square and of a form that is nonnegative when `τ m² ≤ α`. -/
theorem pdMetric_split (M : E →ₗ[ℝ] F) {σ τ α : ℝ} (hτ : 0 < τ) (a : E) (b : F) :
    pdMetric M σ τ a b - (1 / σ - α) * ‖a‖ ^ 2 = ‖b + τ • M a‖ ^ 2 / τ + (α * ‖a‖ ^ 2 - τ * ‖M a‖ ^ 2) := by
  unfold pdMetric
  rw [norm_add_sq_real, norm_smul, inner_smul_right, real_inner_comm, Real.norm_eq_abs, abs_of_pos hτ]
  field_simp
  ring

theorem pdForm_nonneg {M : E →ₗ[ℝ] F} {τ α m : ℝ} (hτ : 0 < τ) (hm : ∀ x, ‖M x‖ ≤ m * ‖x‖) (hstep : m ^ 2 ≤ α * (1 / τ)) (a : E) :
    0 ≤ α * ‖a‖ ^ 2 - τ * ‖M a‖ ^ 2 := by
  have h1 : ‖M a‖ ^ 2 ≤ m ^ 2 * ‖a‖ ^ 2 := by
    rw [← mul_pow]; exact pow_le_pow_left₀ (norm_nonneg _) (hm a) 2
  have h2 : τ * m ^ 2 ≤ α := by
    have := mul_le_mul_of_nonneg_left hstep hτ.le
    rwa [show τ * (α * (1 / τ)) = α by field_simp] at this
  have h3 := mul_le_mul_of_nonneg_left h1 hτ.le
  have h4 := mul_le_mul_of_nonneg_right h2 (sq_nonneg ‖a‖)
  nlinarith

/-- Two consecutive dual steps: the primal moves are controlled by `dy + τ M dx`. -/
theorem pd_two_steps {M : E →ₗ[ℝ] F} {H : ExtFun F} {τ : ℝ} (hτ : 0 < τ) {x0 x1 x2 : E} {y0 y1 y2 : F}
    (h0 : IsSubgrad H (τ⁻¹ • (y0 - y1) + M x0) y1) (h1 : IsSubgrad H (τ⁻¹ • (y1 - y2) + M x1) y2) :
    ‖τ • M (x1 - x2)‖ ^ 2 ≤ 3 * ‖(y1 - y2) + τ • M (x1 - x2)‖ ^ 2 + 2 * ‖(y0 - y1) + τ • M (x0 - x1)‖ ^ 2 := by
  set u := τ • M (x1 - x2) with hu
  set e := (y1 - y2) + u with he
  set e' := (y0 - y1) + τ • M (x0 - x1) with he'
  have hm := h1.mono h0
  have e1 : τ⁻¹ • (y1 - y2) + M x1 - (τ⁻¹ • (y0 - y1) + M x0) = τ⁻¹ • (e - u - e') := by
    have e0 : τ⁻¹ • (τ • (M x0 - M x1)) = M x0 - M x1 := by rw [smul_smul, inv_mul_cancel₀ hτ.ne', one_smul]
    rw [he, he', add_sub_cancel_right, map_sub, smul_sub τ⁻¹ (y1 - y2), smul_add, e0]
    abel
  have e2 : y2 - y1 = u - e := by rw [he]; abel
  rw [e1, e2, inner_smul_right] at hm
  have hm : 0 ≤ ⟪u - e, e - u - e'⟫_ℝ := by
    have : 0 < τ⁻¹ := by positivity
    exact nonneg_of_mul_nonneg_right hm this
  have e3 : ⟪u - e, e - u - e'⟫_ℝ = 2 * ⟪u, e⟫_ℝ - ‖u‖ ^ 2 - ‖e‖ ^ 2 - ⟪u, e'⟫_ℝ + ⟪e, e'⟫_ℝ := by
    simp only [inner_sub_left, inner_sub_right, real_inner_self_eq_norm_sq, real_inner_comm u e]
    ring
  rw [e3] at hm
  have q1 : 0 ≤ ‖u - ((2 : ℝ) • e - e')‖ ^ 2 := sq_nonneg _
  clear_value u e e'
  have e4 : ‖u - ((2 : ℝ) • e - e')‖ ^ 2 = ‖u‖ ^ 2 - 2 * (2 * ⟪u, e⟫_ℝ - ⟪u, e'⟫_ℝ) + (4 * ‖e‖ ^ 2 - 4 * ⟪e, e'⟫_ℝ + ‖e'‖ ^ 2) := by
    rw [norm_sub_sq_real, norm_sub_sq_real, inner_sub_right, inner_smul_right, real_inner_smul_left, norm_smul, Real.norm_eq_abs, abs_two]
    ring
  have q2 : 0 ≤ ‖e + e'‖ ^ 2 := sq_nonneg _
  rw [norm_add_sq_real] at q2
  rw [e4] at q1
  linarith

/-- **C105 (moves).** As `C78_fejer` with `m² ≤ (1/sigma - L/2)/tau` only: from the second iteration on, the squared moves sum to at most
`6/(1/sigma - L/2) + 12 tau` times the initial distance to any saddle point. -/
theorem C105_fejer {P : PDArgs E F} {M : E →ₗ[ℝ] F} {Mt : F →ₗ[ℝ] E} (h : PDOk P M Mt) {G : ExtFun E} {H : ExtFun F}
    (hG : G.IsConvex) (hp1 : IsProxOf G P.p1) (hH : H.IsConvex) (hp2 : IsProxOf H P.p2) {f : E → ℝ} {g : E → E}
    (hfg : ∀ x, (P.fg x).2 = g x) (hf : ConvexGrad f g) {L m : ℝ} (hL : 0 < L) (hq : UpperQuad f g L)
    (hls : P.lineSearch = false) (hm : ∀ x, ‖M x‖ ≤ m * ‖x‖) (hσL : 0 < 1 / P.stepSize - L / 2)
    (hstep : m ^ 2 ≤ (1 / P.stepSize - L / 2) * (1 / P.tau0)) {xs : E} {ys : F} (hys : IsSubgrad H (M xs) ys)
    (hxs : IsSubgrad G xs (-Mt ys - g xs)) :
    ∃ s : ℕ → PDState E F, (∀ k, pdIter P k = some (s k)) ∧
      (∀ k, 0 ≤ pdMetric M P.stepSize P.tau0 ((s k).x - xs) ((s k).y - ys)) ∧
      (∀ k, pdMetric M P.stepSize P.tau0 ((s (k + 1)).x - xs) ((s (k + 1)).y - ys) ≤
        pdMetric M P.stepSize P.tau0 ((s k).x - xs) ((s k).y - ys)) ∧
      (∀ k, ∑ i ∈ Finset.range k, (‖(s (i + 2)).x - (s (i + 1)).x‖ ^ 2 + ‖(s (i + 2)).y - (s (i + 1)).y‖ ^ 2) ≤
          (6 / (1 / P.stepSize - L / 2) + 12 * P.tau0) * pdMetric M P.stepSize P.tau0 (P.x0 - xs) (M P.x0 - ys)) ∧
      (∀ k, k % 100 = 0 → (s (k + 1)).normIncr = some (‖(s (k + 1)).x - (s k).x‖ + ‖(s (k + 1)).y - (s k).y‖)) := by
  set α := 1 / P.stepSize - L / 2 with hα
  have hτ := h.tau0_pos
  set τ := P.tau0 with hτd
  have hQ : ∀ a : E, 0 ≤ α * ‖a‖ ^ 2 - τ * ‖M a‖ ^ 2 := pdForm_nonneg hτ hm hstep
  have hex : ∀ k, ∃ st, pdIter P k = some st ∧ PDGood P st ∧ st.tau = τ ∧ st.sigma = P.stepSize := by
    intro k
    induction k with
    | zero => exact ⟨pdInit P, rfl, pdInit_good h, rfl, rfl⟩
    | succ k ih =>
      obtain ⟨st, hk, hg, ht, hs⟩ := ih
      obtain ⟨st', hn, hg', ht', hs', -⟩ := pd_fixed_iter h hG hp1 hH hp2 hfg hls k hg
      exact ⟨st', by rw [pdIter, hk]; exact hn, hg', by rw [ht', ht], by rw [hs', hs]⟩
  choose s hs using hex
  set e : ℕ → F := fun k => ((s k).y - (s (k + 1)).y) + τ • M ((s k).x - (s (k + 1)).x) with he
  set Q : ℕ → ℝ := fun k => α * ‖(s k).x - (s (k + 1)).x‖ ^ 2 - τ * ‖M ((s k).x - (s (k + 1)).x)‖ ^ 2 with hQd
  have hone : ∀ k, pdMetric M P.stepSize τ ((s (k + 1)).x - xs) ((s (k + 1)).y - ys) ≤
      pdMetric M P.stepSize τ ((s k).x - xs) ((s k).y - ys) - (‖e k‖ ^ 2 / τ + Q k) ∧
      IsSubgrad H (τ⁻¹ • ((s k).y - (s (k + 1)).y) + M (s k).x) (s (k + 1)).y ∧
      (k % 100 = 0 → (s (k + 1)).normIncr = some (‖(s (k + 1)).x - (s k).x‖ + ‖(s (k + 1)).y - (s k).y‖)) := by
    intro k
    obtain ⟨hk, hg, ht, hsg⟩ := hs k
    obtain ⟨st', hn, -, -, -, hni, hd, hp⟩ := pd_fixed_iter h hG hp1 hH hp2 hfg hls k hg
    have e0 : s (k + 1) = st' := by
      have h1 := (hs (k + 1)).1
      rw [pdIter, hk, Option.bind_some, hn] at h1
      exact (Option.some.inj h1).symm
    simp only [he, hQd, e0]
    rw [ht] at hd
    rw [hsg] at hp
    have h1 := condat_vu_step h.adjoint hL hf hq hd hys hp hxs
    have h2 := pdMetric_split M (σ := P.stepSize) (α := α) hτ ((s k).x - st'.x) ((s k).y - st'.y)
    rw [show 1 / P.stepSize - α = L / 2 by rw [hα]; ring] at h2
    refine ⟨by linarith, hd, fun h0 => ?_⟩
    rw [hni, if_pos h0]
  have hnn : ∀ a b, 0 ≤ pdMetric M P.stepSize τ a b := by
    intro a b
    have h2 := pdMetric_split M (σ := P.stepSize) (α := α) hτ a b
    rw [show 1 / P.stepSize - α = L / 2 by rw [hα]; ring] at h2
    have h3 : 0 ≤ ‖b + τ • M a‖ ^ 2 / τ := by positivity
    have h4 := hQ a
    have : 0 ≤ L / 2 * ‖a‖ ^ 2 := by positivity
    linarith
  have heQ : ∀ k, 0 ≤ ‖e k‖ ^ 2 / τ ∧ 0 ≤ Q k := fun k => ⟨by positivity, hQ _⟩
  set V0 := pdMetric M P.stepSize τ (P.x0 - xs) (M P.x0 - ys) with hV0
  have hsum : ∀ k, ∑ i ∈ Finset.range k, (‖e i‖ ^ 2 / τ + Q i) ≤ V0 := by
    intro k
    have hs0 : s 0 = pdInit P := by
      have := (hs 0).1
      exact (Option.some.inj this).symm
    have hsum : (∑ i ∈ Finset.range k, (‖e i‖ ^ 2 / τ + Q i)) + pdMetric M P.stepSize τ ((s k).x - xs) ((s k).y - ys) ≤
        pdMetric M P.stepSize τ ((s 0).x - xs) ((s 0).y - ys) := by
      induction k with
      | zero => simp
      | succ k ih =>
        rw [Finset.sum_range_succ]
        have := (hone k).1
        linarith
    rw [hs0] at hsum
    have e0 : pdMetric M P.stepSize τ ((pdInit P).x - xs) ((pdInit P).y - ys) = V0 := by
      show pdMetric M _ _ (P.x0 - xs) (P.matvec P.x0 - ys) = _
      rw [h.matvec]
    rw [e0] at hsum
    have := hnn ((s k).x - xs) ((s k).y - ys)
    linarith
  refine ⟨s, fun k => (hs k).1, fun k => hnn _ _, fun k => ?_, fun k => ?_, fun k => (hone k).2.2⟩
  · have := (hone k).1
    have := heQ k
    linarith
  · -- the sums
    have he1 : ∀ k, ∑ i ∈ Finset.range k, ‖e i‖ ^ 2 ≤ τ * V0 := by
      intro k
      have h1 : ∑ i ∈ Finset.range k, ‖e i‖ ^ 2 / τ ≤ V0 :=
        (Finset.sum_le_sum fun i _ => by linarith [(heQ i).2]).trans (hsum k)
      rw [← Finset.sum_div, div_le_iff₀ hτ] at h1
      linarith
    have hS0 : ∑ i ∈ Finset.range k, ‖e (i + 1)‖ ^ 2 ≤ τ * V0 := by
      have h1 := Finset.sum_range_succ' (fun i => ‖e i‖ ^ 2) k
      have h2 := he1 (k + 1)
      have : 0 ≤ ‖e 0‖ ^ 2 := sq_nonneg _
      linarith
    have hS1 : ∑ i ∈ Finset.range k, (‖e (i + 1)‖ ^ 2 / τ + Q (i + 1)) ≤ V0 := by
      have h1 := Finset.sum_range_succ' (fun i => ‖e i‖ ^ 2 / τ + Q i) k
      have h2 := hsum (k + 1)
      have := heQ 0
      linarith
    have hpt : ∀ i, ‖(s (i + 2)).x - (s (i + 1)).x‖ ^ 2 + ‖(s (i + 2)).y - (s (i + 1)).y‖ ^ 2 ≤
        (1 / α) * (‖e (i + 1)‖ ^ 2 / τ + Q (i + 1)) + (3 / (α * τ) + 8) * ‖e (i + 1)‖ ^ 2 + (2 / (α * τ) + 4) * ‖e i‖ ^ 2 := by
      intro i
      have h1 := pd_two_steps (x2 := (s (i + 1 + 1)).x) hτ (hone i).2.1 (hone (i + 1)).2.1
      set u := τ • M ((s (i + 1)).x - (s (i + 1 + 1)).x) with hu
      have h1 : ‖u‖ ^ 2 ≤ 3 * ‖e (i + 1)‖ ^ 2 + 2 * ‖e i‖ ^ 2 := h1
      have hun : τ * ‖M ((s (i + 1)).x - (s (i + 1 + 1)).x)‖ ^ 2 = ‖u‖ ^ 2 / τ := by
        rw [hu, norm_smul, Real.norm_eq_abs, abs_of_pos hτ]; field_simp
      have hx : ‖(s (i + 2)).x - (s (i + 1)).x‖ ^ 2 = (1 / α) * (Q (i + 1) + ‖u‖ ^ 2 / τ) := by
        rw [← hun, norm_sub_rev]
        show _ = 1 / α * (α * ‖(s (i + 1)).x - (s (i + 1 + 1)).x‖ ^ 2 - _ + _)
        rw [sub_add_cancel, ← mul_assoc, one_div, inv_mul_cancel₀ hσL.ne', one_mul]
      have hy : ‖(s (i + 2)).y - (s (i + 1)).y‖ ^ 2 ≤ 2 * ‖e (i + 1)‖ ^ 2 + 2 * ‖u‖ ^ 2 := by
        have e3 : (s (i + 2)).y - (s (i + 1)).y = u - e (i + 1) := by
          show _ = u - ((s (i + 1)).y - (s (i + 1 + 1)).y + u)
          abel
        rw [e3]
        have q : 0 ≤ ‖u + e (i + 1)‖ ^ 2 := sq_nonneg _
        rw [norm_add_sq_real] at q
        rw [norm_sub_sq_real]
        linarith
      rw [hx]
      have h2 : (1 / α) * (‖u‖ ^ 2 / τ) ≤ (1 / α) * ((3 * ‖e (i + 1)‖ ^ 2 + 2 * ‖e i‖ ^ 2) / τ) := by
        refine mul_le_mul_of_nonneg_left ?_ (by positivity)
        rw [div_le_div_iff_of_pos_right hτ]; exact h1
      have h3 : (1 / α) * ((3 * ‖e (i + 1)‖ ^ 2 + 2 * ‖e i‖ ^ 2) / τ) = 3 / (α * τ) * ‖e (i + 1)‖ ^ 2 + 2 / (α * τ) * ‖e i‖ ^ 2 := by
        field_simp
      have h4 : 0 ≤ (1 / α) * (‖e (i + 1)‖ ^ 2 / τ) := by positivity
      nlinarith
    refine (Finset.sum_le_sum fun i _ => hpt i).trans ?_
    rw [Finset.sum_add_distrib, Finset.sum_add_distrib, ← Finset.mul_sum, ← Finset.mul_sum, ← Finset.mul_sum]
    have t1 := mul_le_mul_of_nonneg_left hS1 (by positivity : 0 ≤ 1 / α)
    have t2 := mul_le_mul_of_nonneg_left hS0 (by positivity : 0 ≤ 3 / (α * τ) + 8)
    have t3 := mul_le_mul_of_nonneg_left (he1 k) (by positivity : 0 ≤ 2 / (α * τ) + 4)
    refine (add_le_add (add_le_add t1 t2) t3).trans (le_of_eq ?_)
    field_simp
    ring

/-- **C105 (success).** With `m² ≤ (1/sigma - L/2)/tau`, no callback and a positive tolerance the run reports success once
`2 (6/(1/sigma - L/2) + 12 tau) V < K tol²` and `100 K < max_iter`, `V` the distance of `(x0, L x0)` to any saddle point. -/
theorem C105_success {P : PDArgs E F} {M : E →ₗ[ℝ] F} {Mt : F →ₗ[ℝ] E} (h : PDOk P M Mt) {G : ExtFun E} {H : ExtFun F}
    (hG : G.IsConvex) (hp1 : IsProxOf G P.p1) (hH : H.IsConvex) (hp2 : IsProxOf H P.p2) {f : E → ℝ} {g : E → E}
    (hfg : ∀ x, (P.fg x).2 = g x) (hf : ConvexGrad f g) {L m : ℝ} (hL : 0 < L) (hq : UpperQuad f g L)
    (hls : P.lineSearch = false) (hm : ∀ x, ‖M x‖ ≤ m * ‖x‖) (hσL : 0 < 1 / P.stepSize - L / 2)
    (hstep : m ^ 2 ≤ (1 / P.stepSize - L / 2) * (1 / P.tau0)) {xs : E} {ys : F} (hys : IsSubgrad H (M xs) ys)
    (hxs : IsSubgrad G xs (-Mt ys - g xs)) (hcb : P.callback = none) (htol : 0 < P.tol) (hlsi : 0 < P.lsIter) {K : ℕ}
    (hK : 100 * K < P.maxIter)
    (hbig : 2 * ((6 / (1 / P.stepSize - L / 2) + 12 * P.tau0) * pdMetric M P.stepSize P.tau0 (P.x0 - xs) (M P.x0 - ys)) < K * P.tol ^ 2) :
    ∃ res, minimizePrimalDual P = some (.ok res) ∧ res.success = true := by
  obtain ⟨s, hs, hnn, -, hsum, hni⟩ := C105_fejer h hG hp1 hH hp2 hfg hf hL hq hls hm hσL hstep hys hxs
  set V := (6 / (1 / P.stepSize - L / 2) + 12 * P.tau0) * pdMetric M P.stepSize P.tau0 (P.x0 - xs) (M P.x0 - ys) with hV
  have hs0 : s 0 = pdInit P := (Option.some.inj (hs 0)).symm
  obtain ⟨n, hn⟩ := Nat.exists_eq_add_one_of_ne_zero (show P.maxIter ≠ 0 by omega)
  obtain ⟨r, hr, -, hr2, hr3, hr4, hr5⟩ := pdLoop_iter hs n 0
  rw [hs0] at hr
  refine ⟨_, by
    unfold minimizePrimalDual
    rw [if_neg (by omega), hn]
    simp only
    rw [hr]
    rfl, ?_⟩
  simp only [decide_eq_true_eq]
  by_contra hns
  obtain ⟨h1, h2⟩ := hr5 hcb hns
  have hnd : ∀ i ≤ n, ¬pdDone P (s (i + 1)) := by
    intro i hi
    rcases Nat.lt_or_ge i r.2.1 with hlt | hge
    · exact hr4 i (Nat.zero_le _) hlt
    · have : i = r.2.1 := by omega
      rw [this, ← hr3]; exact h2
  set d : ℕ → ℝ := fun i => ‖(s (i + 2)).x - (s (i + 1)).x‖ ^ 2 + ‖(s (i + 2)).y - (s (i + 1)).y‖ ^ 2 with hd
  have hd0 : ∀ i, 0 ≤ d i := fun i => by rw [hd]; positivity
  have hmult : ∀ j < K, P.tol ^ 2 / 2 ≤ d (100 * j + 99) := by
    intro j hj
    have hno := hnd (100 * j + 100) (by omega)
    have hc := hni (100 * j + 100) (by omega)
    have hle : P.tol ≤ ‖(s (100 * j + 101)).x - (s (100 * j + 100)).x‖ + ‖(s (100 * j + 101)).y - (s (100 * j + 100)).y‖ := by
      by_contra hlt
      push Not at hlt
      exact hno ⟨_, hc, hlt⟩
    show P.tol ^ 2 / 2 ≤ ‖(s (100 * j + 101)).x - (s (100 * j + 100)).x‖ ^ 2 + ‖(s (100 * j + 101)).y - (s (100 * j + 100)).y‖ ^ 2
    nlinarith [sq_nonneg (‖(s (100 * j + 101)).x - (s (100 * j + 100)).x‖ - ‖(s (100 * j + 101)).y - (s (100 * j + 100)).y‖)]
  have hsub : ∑ j ∈ Finset.range K, d (100 * j + 99) ≤ ∑ i ∈ Finset.range (100 * K), d i := by
    rw [← Finset.sum_image (f := d) (s := Finset.range K) (g := fun j => 100 * j + 99) (by intro a _ b _ h; simpa using h)]
    refine Finset.sum_le_sum_of_subset_of_nonneg ?_ fun i _ _ => hd0 i
    intro i hi
    rw [Finset.mem_image] at hi
    obtain ⟨j, hj, rfl⟩ := hi
    rw [Finset.mem_range] at hj ⊢
    omega
  have hlow : (K : ℝ) * (P.tol ^ 2 / 2) ≤ ∑ j ∈ Finset.range K, d (100 * j + 99) := by
    have := Finset.card_nsmul_le_sum (Finset.range K) (fun j => d (100 * j + 99)) (P.tol ^ 2 / 2)
      (fun j hj => hmult j (Finset.mem_range.mp hj))
    rw [Finset.card_range, nsmul_eq_mul] at this
    exact this
  have h3 : ∑ i ∈ Finset.range (100 * K), d i ≤ V := hsum (100 * K)
  linarith

/-- As `primal_dual_solves`, with `m² ≤ (1/sigma - L/2)/tau`. -/
theorem primal_dual_solves_le [CompleteSpace F] {P : PDArgs E F} {M : E →ₗ[ℝ] F} {Mt : F →ₗ[ℝ] E} (hok : PDOk P M Mt) {G : ExtFun E} {h : F → ℝ}
    (hG : G.IsConvex) (hp1 : IsProxOf G P.p1) (hH : (⟨Set.univ, h⟩ : ExtFun F).IsConvex) (hp2 : IsProxOf ⟨Set.univ, h⟩ P.p2) {f : E → ℝ} {g : E → E}
    (hfg : ∀ x, (P.fg x).2 = g x) (hf : ConvexGrad f g) {L m l : ℝ} (hL : 0 < L) (hq : UpperQuad f g L)
    (hls : P.lineSearch = false) (hm0 : 0 ≤ m) (hm : ∀ x, ‖M x‖ ≤ m * ‖x‖) (hσL : 0 < 1 / P.stepSize - L / 2)
    (hstep : m ^ 2 ≤ (1 / P.stepSize - L / 2) * (1 / P.tau0)) (hl : 0 ≤ l) (hlip : ∀ a b, h a - h b ≤ l * ‖a - b‖)
    {xs : E} (hxs : xs ∈ G.dom) (hmin : ∀ x ∈ G.dom, f xs + G.val xs + h (M xs) ≤ f x + G.val x + h (M x))
    (hcb : P.callback = none) (htol : 0 < P.tol) (hlsi : 0 < P.lsIter) {K : ℕ} (hK : 100 * K < P.maxIter) {B : ℝ}
    (hB : B = ‖P.x0 - xs‖ ^ 2 / P.stepSize + (‖M P.x0‖ + l) ^ 2 / P.tau0 + 2 * (m * ‖P.x0 - xs‖ * (‖M P.x0‖ + l)))
    (hbig : 2 * ((6 / (1 / P.stepSize - L / 2) + 12 * P.tau0) * B) < K * P.tol ^ 2) :
    ∃ res, minimizePrimalDual P = some (.ok res) ∧ res.success = true ∧ res.x ∈ G.dom ∧
      f res.x + G.val res.x + h (M res.x) - (f xs + G.val xs + h (M xs)) ≤
        P.tol * ((1 / P.stepSize + m) * Real.sqrt (2 * B / L) + 2 * l * (m + 1 / P.tau0) + L / 2 * P.tol) := by
  have hcont : Continuous h := by
    have : LipschitzWith ⟨l, hl⟩ h := LipschitzWith.of_dist_le_mul fun a b => by
      rw [Real.dist_eq, dist_eq_norm, abs_le]
      have h1 := hlip a b
      have h2 := hlip b a
      rw [norm_sub_rev] at h2
      exact ⟨by show -(l * ‖a - b‖) ≤ _; linarith, h1⟩
    exact this.continuous
  obtain ⟨ys, hys, hgs⟩ := exists_saddle M hG hf hq hH hcont hxs hmin
  have hgs : IsSubgrad G xs (-Mt ys - g xs) := hgs (Mt ys) fun x => by rw [real_inner_comm, ← hok.adjoint, real_inner_comm]
  have hyl := subgrad_norm_le hl hlip hys
  have hσ := hok.step
  have hτ := hok.tau0_pos
  have hM0 : 0 ≤ ‖M P.x0‖ + l := by positivity
  -- the initial distance
  have hV0 : pdMetric M P.stepSize P.tau0 (P.x0 - xs) (M P.x0 - ys) ≤ B := by
    have h1 : ‖M P.x0 - ys‖ ≤ ‖M P.x0‖ + l := (norm_sub_le _ _).trans (add_le_add_right hyl _)
    have h2 : ‖M P.x0 - ys‖ ^ 2 / P.tau0 ≤ (‖M P.x0‖ + l) ^ 2 / P.tau0 := by
      rw [div_le_div_iff_of_pos_right hτ]
      exact pow_le_pow_left₀ (norm_nonneg _) h1 2
    have h3 : ⟪M (P.x0 - xs), M P.x0 - ys⟫_ℝ ≤ m * ‖P.x0 - xs‖ * (‖M P.x0‖ + l) :=
      (real_inner_le_norm _ _).trans (mul_le_mul (hm _) h1 (norm_nonneg _) (by positivity))
    unfold pdMetric
    rw [hB]
    linarith
  obtain ⟨s, hs, -, hdec, -, -⟩ := C105_fejer hok hG hp1 hH hp2 hfg hf hL hq hls hm hσL hstep hys hgs
  obtain ⟨res, hres, hsuc⟩ := C105_success hok hG hp1 hH hp2 hfg hf hL hq hls hm hσL hstep hys hgs hcb htol hlsi hK (by
    have := mul_le_mul_of_nonneg_left hV0 (by positivity : 0 ≤ 6 / (1 / P.stepSize - L / 2) + 12 * P.tau0)
    linarith)
  have hfin := pd_final_iter hs hres
  obtain ⟨-, -, hlt⟩ := C54_success hres hsuc
  have hx := (pd_run hres).2.1
  set k := res.nit with hk
  obtain ⟨hg, ht, hsg⟩ := pdIter_fixed hok hG hp1 hH hp2 hfg hls k (s k) (hs k)
  obtain ⟨st', hn, -, -, -, -, hd, hp⟩ := pd_fixed_iter hok hG hp1 hH hp2 hfg hls k hg
  have e : s (k + 1) = st' := by
    have h1 := hs (k + 1)
    rw [pdIter, hs k, Option.bind_some, hn] at h1
    exact (Option.some.inj h1).symm
  have hold : st'.xOld = (s k).x ∧ st'.yOld = (s k).y := by
    unfold pdNext at hn
    rw [Option.map_eq_some_iff] at hn
    obtain ⟨r, -, rfl⟩ := hn
    exact ⟨rfl, rfl⟩
  rw [hx, hfin, e, hold.1, hold.2] at hlt
  rw [ht] at hd
  rw [hsg] at hp
  refine ⟨res, hres, hsuc, ?_⟩
  rw [hx, hfin, e]
  refine ⟨hp.1, ?_⟩
  -- the distance to the minimiser
  have hdist : ‖st'.x - xs‖ ≤ Real.sqrt (2 * B / L) := by
    have hV : ∀ j, pdMetric M P.stepSize P.tau0 ((s j).x - xs) ((s j).y - ys) ≤ B := by
      intro j
      induction j with
      | zero =>
        have hs0 : s 0 = pdInit P := (Option.some.inj (hs 0)).symm
        rw [hs0]
        have : (pdInit P).y = M P.x0 := by show P.matvec P.x0 = _; rw [hok.matvec]
        rw [this]; exact hV0
      | succ j ih => exact (hdec j).trans ih
    have h1 := hV (k + 1)
    rw [e] at h1
    have h2 := pdMetric_split M (σ := P.stepSize) (α := 1 / P.stepSize - L / 2) hτ (st'.x - xs) (st'.y - ys)
    rw [sub_sub_cancel] at h2
    have h3 := pdForm_nonneg hτ hm hstep (st'.x - xs)
    have h4 : 0 ≤ ‖st'.y - ys + P.tau0 • M (st'.x - xs)‖ ^ 2 / P.tau0 := by positivity
    refine Real.le_sqrt_of_sq_le ?_
    rw [le_div_iff₀ hL]
    linarith
  -- the objective
  refine (pd_gap hok.adjoint hf hσ hτ hq hm hl hlip hxs hd hp).trans ?_
  set a := ‖st'.x - (s k).x‖ with ha
  set b := ‖st'.y - (s k).y‖ with hb
  set R := Real.sqrt (2 * B / L) with hR
  have ha0 : 0 ≤ a := norm_nonneg _
  have hb0 : 0 ≤ b := norm_nonneg _
  have hat : a ≤ P.tol := by linarith
  have hbt : b ≤ P.tol := by linarith
  have hR0 : 0 ≤ R := Real.sqrt_nonneg _
  have c1 : P.stepSize⁻¹ * (a * ‖st'.x - xs‖) ≤ P.stepSize⁻¹ * (P.tol * R) :=
    mul_le_mul_of_nonneg_left (mul_le_mul hat hdist (norm_nonneg _) htol.le) (by positivity)
  have c2 : b * (m * ‖st'.x - xs‖) ≤ P.tol * (m * R) :=
    mul_le_mul hbt (mul_le_mul_of_nonneg_left hdist hm0) (by positivity) htol.le
  have c3 : L / 2 * a ^ 2 ≤ L / 2 * P.tol ^ 2 := mul_le_mul_of_nonneg_left (pow_le_pow_left₀ ha0 hat 2) (by positivity)
  have c4 : l * (m * a + P.tau0⁻¹ * b) ≤ l * (m * P.tol + P.tau0⁻¹ * P.tol) :=
    mul_le_mul_of_nonneg_left (add_le_add (mul_le_mul_of_nonneg_left hat hm0) (mul_le_mul_of_nonneg_left hbt (by positivity))) hl
  rw [one_div, one_div]
  linarith

end General

variable {n d p : ℕ}

/-- **C105.** As C103 with `m² ≤ (1/sigma - f.lipschitz/2)/tau` in place of `<`: with
`B = ‖x0 - xs‖²/sigma + (‖A x0‖ + l)²/tau + 2 m ‖x0 - xs‖ (‖A x0‖ + l)`, `100 K < max_iter` and
`2 (6/(1/sigma - L/2) + 12 tau) B < K tol²` the run returns, reports success, and the objective at the returned point exceeds the minimum by at most
`tol ((1/sigma + m) √(2 B/L) + 2 l (m + 1/tau) + tol L/2)`. -/
theorem C105_primal_dual (f : LossObj n d) (hf : f.Good) {s : ℝ} (hs : IsLargestSingular f.mat s) (hL : 0 < f.lipschitz s)
    (o1 : SplitObj d) (o2 : SplitObj p) (h1 : o1.Good) (h2 : o2.Good) {l : ℝ} (hl : o2.lip = some l) (A : Fin p → Fin d → ℝ) {m : ℝ} (hm0 : 0 ≤ m)
    (hm : ∀ x, ‖opMatvec A x‖ ≤ m * ‖x‖) (P : PDArgs (EuclideanSpace ℝ (Fin d)) (EuclideanSpace ℝ (Fin p)))
    (hfg : P.fg = f.oracle) (hp1 : P.prox1 = some o1.proxE) (hp2 : P.prox2 = some o2.proxE) (hmv : P.matvec = opMatvec A) (hrmv : P.rmatvec = opRmatvec A)
    (hls : P.lineSearch = false) (hσ : 0 < P.stepSize) (hτ : ∀ t, P.stepSize2 = some t → 0 < t) (hσL : 0 < 1 / P.stepSize - f.lipschitz s / 2)
    (hstep : m ^ 2 ≤ (1 / P.stepSize - f.lipschitz s / 2) * (1 / P.tau0)) (hcb : P.callback = none) (htol : 0 < P.tol) (hlsi : 0 < P.lsIter)
    {xs : EuclideanSpace ℝ (Fin d)} (hxs : xs ∈ o1.fn.dom)
    (hmin : ∀ x ∈ o1.fn.dom, f.fn xs + o1.fn.val xs + o2.fn.val (opMatvec A xs) ≤ f.fn x + o1.fn.val x + o2.fn.val (opMatvec A x))
    {K : ℕ} (hK : 100 * K < P.maxIter) {B : ℝ}
    (hB : B = ‖P.x0 - xs‖ ^ 2 / P.stepSize + (‖opMatvec A P.x0‖ + l) ^ 2 / P.tau0 + 2 * (m * ‖P.x0 - xs‖ * (‖opMatvec A P.x0‖ + l)))
    (hbig : 2 * ((6 / (1 / P.stepSize - f.lipschitz s / 2) + 12 * P.tau0) * B) < K * P.tol ^ 2) :
    ∃ res, minimizePrimalDual P = some (.ok res) ∧ res.success = true ∧ res.x ∈ o1.fn.dom ∧
      f.fn res.x + o1.fn.val res.x + o2.fn.val (opMatvec A res.x) - (f.fn xs + o1.fn.val xs + o2.fn.val (opMatvec A xs)) ≤
        P.tol * ((1 / P.stepSize + m) * Real.sqrt (2 * B / f.lipschitz s) + 2 * l * (m + 1 / P.tau0) + f.lipschitz s / 2 * P.tol) := by
  obtain ⟨-, hconv, hq, -⟩ := C92_loss f hf hs
  obtain ⟨c1, q1, -⟩ := C102_prox_exact o1 h1
  obtain ⟨c2, q2, -, h3⟩ := C102_prox_exact o2 h2
  obtain ⟨hl0, e, hlip⟩ := h3 l hl
  have hok : PDOk P (opLin A) (opLinT A) := ⟨hmv, hrmv, opLin_adjoint A, hσ, hτ⟩
  exact primal_dual_solves_le hok c1 (by unfold PDArgs.p1; rw [hp1]; exact q1) (h := o2.fn.val) (e ▸ c2) (by unfold PDArgs.p2; rw [hp2]; exact e ▸ q2)
    (f := f.fn) (g := f.gradE) (fun x => by rw [hfg]; rfl) hconv hL hq hls hm0 hm hσL hstep hl0 hlip hxs hmin hcb htol hlsi hK hB hbig

/-- **C105 (accuracy).** As `C104_primal_dual` with `m² ≤ (1/sigma - f.lipschitz/2)/tau`. -/
theorem C105_accuracy (f : LossObj n d) (hf : f.Good) {s : ℝ} (hs : IsLargestSingular f.mat s) (hreg : 0 < f.reg)
    (o1 : SplitObj d) (o2 : SplitObj p) (h1 : o1.Good) (h2 : o2.Good) {l : ℝ} (hl : o2.lip = some l) (A : Fin p → Fin d → ℝ) {m : ℝ} (hm0 : 0 ≤ m)
    (hm : ∀ x, ‖opMatvec A x‖ ≤ m * ‖x‖) {sigma tau : ℝ} (hσ : 0 < sigma) (hτ : 0 < tau) (hσL : 0 < 1 / sigma - f.lipschitz s / 2)
    (hstep : m ^ 2 ≤ (1 / sigma - f.lipschitz s / 2) * (1 / tau)) :
    ∃! xs, xs ∈ o1.fn.dom ∧ (∀ x ∈ o1.fn.dom, f.fn xs + o1.fn.val xs + o2.fn.val (opMatvec A xs) ≤ f.fn x + o1.fn.val x + o2.fn.val (opMatvec A x)) ∧
      ∀ (x0 : EuclideanSpace ℝ (Fin d)) (δ : ℝ), 0 < δ → ∃ tol0 > 0, ∀ tol, 0 < tol → tol ≤ tol0 → ∃ m0 : ℕ,
        ∀ P : PDArgs (EuclideanSpace ℝ (Fin d)) (EuclideanSpace ℝ (Fin p)),
        P.fg = f.oracle → P.prox1 = some o1.proxE → P.prox2 = some o2.proxE → P.matvec = opMatvec A → P.rmatvec = opRmatvec A →
        P.lineSearch = false → P.stepSize = sigma → P.stepSize2 = some tau → 0 < P.lsIter → P.callback = none → P.x0 = x0 → P.tol = tol → m0 ≤ P.maxIter →
        ∃ res, minimizePrimalDual P = some (.ok res) ∧ res.success = true ∧ res.x ∈ o1.fn.dom ∧ ‖res.x - xs‖ ≤ δ := by
  have hL : 0 < f.lipschitz s := by
    obtain ⟨phi, phi', c, hc, hL, -⟩ := f.erm_form hf
    rw [hL]
    have : 0 ≤ c * (s * s) / n := div_nonneg (mul_nonneg hc (mul_self_nonneg s)) (Nat.cast_nonneg n)
    linarith
  obtain ⟨xs, hxs, hmin⟩ := C104_exists f hf o1 o2 h1 h2 hl A (Or.inl hreg)
  have hgrow := fun x hx => C104_growth f hf hs o1 o2 h1 h2 hl A hxs hmin (x := x) hx
  obtain ⟨hl0, -⟩ := (C102_prox_exact o2 h2).2.2.2 l hl
  refine ⟨xs, ⟨hxs, hmin, fun x0 δ hδ => ?_⟩, ?_⟩
  · set B := ‖x0 - xs‖ ^ 2 / sigma + (‖opMatvec A x0‖ + l) ^ 2 / tau + 2 * (m * ‖x0 - xs‖ * (‖opMatvec A x0‖ + l)) with hB
    obtain ⟨t0, ht0, ht⟩ := small_tol (a := (1 / sigma + m) * Real.sqrt (2 * B / f.lipschitz s) + 2 * l * (m + 1 / tau)) (b := f.lipschitz s / 2)
      (δ := f.reg / 2 * δ ^ 2) (by positivity) (by positivity) (by positivity)
    refine ⟨t0, ht0, fun tol htol hle => ?_⟩
    obtain ⟨K, hK⟩ := exists_nat_gt (2 * ((6 / (1 / sigma - f.lipschitz s / 2) + 12 * tau) * B) / tol ^ 2)
    refine ⟨100 * K + 1, fun P hfg hp1 hp2 hmv hrmv hls hs1 hs2 hlsi hcb hx0 htl hmi => ?_⟩
    subst hx0 htl hs1
    have ht0 : P.tau0 = tau := by unfold PDArgs.tau0; rw [hs2]
    obtain ⟨res, r1, r2, r3, r4⟩ := C105_primal_dual f hf hs hL o1 o2 h1 h2 hl A hm0 hm P hfg hp1 hp2 hmv hrmv hls hσ
      (fun t h => by rw [hs2] at h; cases h; exact hτ) hσL (by rw [ht0]; exact hstep) hcb htol hlsi hxs hmin (K := K) (by omega) (B := B)
      (by rw [ht0]) (by
        rw [div_lt_iff₀ (by positivity)] at hK
        rw [ht0]; exact hK)
    refine ⟨res, r1, r2, r3, ?_⟩
    have h3 := hgrow res.x r3
    have h4 := ht P.tol htol hle
    rw [ht0] at r4
    have h5 : f.reg / 2 * ‖res.x - xs‖ ^ 2 ≤ f.reg / 2 * δ ^ 2 := by linarith
    have h6 := le_of_mul_le_mul_left h5 (by positivity)
    exact (abs_le_of_sq_le_sq' h6 hδ.le).2
  · rintro y ⟨hy, hymin, -⟩
    have h3 := hgrow y hy
    have h4 := hymin xs hxs
    have h5 : f.reg / 2 * ‖y - xs‖ ^ 2 ≤ 0 := by linarith
    have h6 : ‖y - xs‖ ^ 2 ≤ 0 := by
      by_contra hc
      push Not at hc
      have : 0 < f.reg / 2 * ‖y - xs‖ ^ 2 := by positivity
      linarith
    have h7 : ‖y - xs‖ = 0 := by
      have := sq_nonneg ‖y - xs‖
      exact pow_eq_zero_iff (two_ne_zero) |>.mp (le_antisymm h6 this)
    exact sub_eq_zero.mp (norm_eq_zero.mp h7)

/-- **C105 (examples).** The call of plot_overlapping_group_lasso.py:99-103 and plot_tv_deblurring.py:94-104 with a positive tolerance and no callback:
no linear operator, `step_size = 1/f.lipschitz`, `step_size2 = (1/step_size)/2`, no line search.  For every regularised loss, every data set, every
first operator and every Lipschitz second operator there is exactly one minimiser of `f + g + h`, and the run returns it to any accuracy. -/
theorem C105_examples (f : LossObj n d) (hf : f.Good) {s : ℝ} (hs : IsLargestSingular f.mat s) (hreg : 0 < f.reg)
    (o1 : SplitObj d) (o2 : SplitObj d) (h1 : o1.Good) (h2 : o2.Good) {l : ℝ} (hl : o2.lip = some l) :
    ∃! xs, xs ∈ o1.fn.dom ∧ (∀ x ∈ o1.fn.dom, f.fn xs + o1.fn.val xs + o2.fn.val xs ≤ f.fn x + o1.fn.val x + o2.fn.val x) ∧
      ∀ (x0 : EuclideanSpace ℝ (Fin d)) (δ : ℝ), 0 < δ → ∃ tol0 > 0, ∀ tol, 0 < tol → tol ≤ tol0 → ∃ m0 : ℕ,
        ∀ P : PDArgs (EuclideanSpace ℝ (Fin d)) (EuclideanSpace ℝ (Fin d)),
        P.fg = f.oracle → P.prox1 = some o1.proxE → P.prox2 = some o2.proxE → P.matvec = opMatvec (eyeMat d) → P.rmatvec = opRmatvec (eyeMat d) →
        P.lineSearch = false → P.stepSize = 1 / f.lipschitz s → P.stepSize2 = some ((1 / P.stepSize) / 2) → 0 < P.lsIter → P.callback = none →
        P.x0 = x0 → P.tol = tol → m0 ≤ P.maxIter →
        ∃ res, minimizePrimalDual P = some (.ok res) ∧ res.success = true ∧ res.x ∈ o1.fn.dom ∧ ‖res.x - xs‖ ≤ δ := by
  have hL : 0 < f.lipschitz s := by
    obtain ⟨phi, phi', c, hc, hL, -⟩ := f.erm_form hf
    rw [hL]
    have : 0 ≤ c * (s * s) / n := div_nonneg (mul_nonneg hc (mul_self_nonneg s)) (Nat.cast_nonneg n)
    linarith
  have h := C105_accuracy f hf hs hreg o1 o2 h1 h2 hl (eyeMat d) zero_le_one (fun x => by rw [opMatvec_eye, one_mul]) (sigma := 1 / f.lipschitz s)
    (tau := f.lipschitz s / 2) (by positivity) (by positivity) (by rw [one_div_one_div]; linarith)
    (by rw [one_div_one_div]; exact le_of_eq (by field_simp; ring))
  simp only [opMatvec_eye] at h
  obtain ⟨xs, ⟨a1, a2, a3⟩, hu⟩ := h
  refine ⟨xs, ⟨a1, a2, fun x0 δ hδ => ?_⟩, fun y hy => hu y ⟨hy.1, hy.2.1, fun x0 δ hδ => ?_⟩⟩
  · obtain ⟨t0, ht0, h⟩ := a3 x0 δ hδ
    refine ⟨t0, ht0, fun tol b1 b2 => ?_⟩
    obtain ⟨m0, h⟩ := h tol b1 b2
    exact ⟨m0, fun P c1 c2 c3 c4 c5 c6 c7 c8 => h P c1 c2 c3 c4 c5 c6 c7 (by rw [c8, c7, one_div_one_div])⟩
  · obtain ⟨t0, ht0, h⟩ := hy.2.2 x0 δ hδ
    refine ⟨t0, ht0, fun tol b1 b2 => ?_⟩
    obtain ⟨m0, h⟩ := h tol b1 b2
    exact ⟨m0, fun P c1 c2 c3 c4 c5 c6 c7 c8 => h P c1 c2 c3 c4 c5 c6 c7 (by rw [c8, c7, one_div_one_div])⟩

/-- Two penalties on the one-sample data set `(3, 4)` as in plot_overlapping_group_lasso.py: `1/f.lipschitz = 4/27`,
`step_size2 = 27/8`. -/
example : ∃ xs : EuclideanSpace ℝ (Fin 2), ∀ x0 : EuclideanSpace ℝ (Fin 2), ∃ tol > 0, ∃ m0 : ℕ, ∀ m ≥ m0, ∃ res,
    minimizePrimalDual ⟨(LossObj.log ⟨fun _ : Fin 1 => ![3, 4], ![1], 1 / 2, false⟩).oracle, x0, some (SplitObj.pen (.l1Norm 1)).proxE,
      some (SplitObj.pen (.l1Norm 2)).proxE, opMatvec (eyeMat 2), opRmatvec (eyeMat 2), tol, m, none, 4 / 27, some (27 / 8), false, 100⟩ = some (.ok res) ∧
    res.success = true ∧ ‖res.x - xs‖ ≤ 1 / 1000 := by
  have hl : (LossObj.log ⟨fun _ : Fin 1 => ![3, 4], ![1], 1 / 2, false⟩).lipschitz 5 = 27 / 4 := by
    show 0.25 * (5 * 5) / ((1 : ℕ) : ℝ) + 1 / 2 = 27 / 4
    norm_num
  obtain ⟨xs, ⟨-, -, h⟩, -⟩ := C105_examples (LossObj.log ⟨fun _ : Fin 1 => ![3, 4], ![1], 1 / 2, false⟩)
    ⟨by norm_num, fun i => by fin_cases i; simp⟩ largestSingular_example (by show (0 : ℝ) < 1 / 2; norm_num) (.pen (.l1Norm 1)) (.pen (.l1Norm 2))
    (show (0 : ℝ) ≤ 1 by norm_num) (show (0 : ℝ) ≤ 2 by norm_num) rfl
  refine ⟨xs, fun x0 => ?_⟩
  obtain ⟨t0, ht0, h⟩ := h x0 (1 / 1000) (by norm_num)
  obtain ⟨m0, h⟩ := h t0 ht0 le_rfl
  refine ⟨t0, ht0, m0, fun m hm => ?_⟩
  generalize hP : (PDArgs.mk (E := EuclideanSpace ℝ (Fin 2)) (F := EuclideanSpace ℝ (Fin 2)) _ _ _ _ _ _ _ _ _ _ _ _ _) = P
  obtain ⟨res, r1, r2, -, r4⟩ := h P (by rw [← hP]) (by rw [← hP]) (by rw [← hP]) (by rw [← hP]) (by rw [← hP]) (by rw [← hP])
    (by rw [← hP, hl]; norm_num) (by rw [← hP]; norm_num)
    (by rw [← hP]; norm_num) (by rw [← hP]) (by rw [← hP]) (by rw [← hP]) (by rw [← hP]; exact hm)
  exact ⟨res, r1, r2, r4⟩

end Copt
