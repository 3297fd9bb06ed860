import Mathlib.Analysis.SpecificLimits.Basic
import Verif.Model.Splitting
import Verif.Proof.Convex

/-! # Properties C53-C55: the primal-dual hybrid gradient method -/

set_option linter.unusedSectionVars false

namespace Copt

open Spec

open scoped InnerProductSpace

variable {E F : Type} [NormedAddCommGroup E] [InnerProductSpace ℝ E] [NormedAddCommGroup F] [InnerProductSpace ℝ F]

/-! ### C53 -/

/-- Fenchel: a subgradient of `H` at `p` gives the value of the conjugate and a subgradient of the conjugate. -/
theorem conj_of_subgrad {H : ExtFun F} {p y : F} (h : IsSubgrad H p y) :
    H.conj.val y = ⟪y, p⟫_ℝ - H.val p ∧ IsSubgrad H.conj y p := by
  have hle : ∀ a ∈ (fun w => ⟪y, w⟫_ℝ - H.val w) '' H.dom, a ≤ ⟪y, p⟫_ℝ - H.val p := by
    rintro a ⟨w, hw, rfl⟩
    have := h.2 w hw
    rw [inner_sub_right] at this
    simp only
    linarith
  have hmem : ⟪y, p⟫_ℝ - H.val p ∈ (fun w => ⟪y, w⟫_ℝ - H.val w) '' H.dom := ⟨p, h.1, rfl⟩
  have hval : H.conj.val y = ⟪y, p⟫_ℝ - H.val p := le_antisymm (csSup_le ⟨_, hmem⟩ hle) (le_csSup ⟨_, hle⟩ hmem)
  refine ⟨hval, ⟨_, hle⟩, fun y' hy' => ?_⟩
  have h2 : ⟪y', p⟫_ℝ - H.val p ≤ H.conj.val y' := le_csSup hy' ⟨p, h.1, rfl⟩
  rw [hval, inner_sub_right, real_inner_comm y' p, real_inner_comm y p]
  linarith

/-- **C53.** `y = prox_2_conj(x, ss)` is a subgradient of `h` at `(x - y)/ss` and the proximal point of the conjugate of `h`. -/
theorem C53_moreau {H : ExtFun F} (hH : H.IsConvex) {prox2 : F → ℝ → F} (hp : IsProxOf H prox2) (x : F) {ss : ℝ} (hs : 0 < ss) :
    IsSubgrad H (ss⁻¹ • (x - prox2Conj prox2 x ss)) (prox2Conj prox2 x ss) ∧ IsProxPt H.conj ss x (prox2Conj prox2 x ss) := by
  have hs' : 0 < 1 / ss := by positivity
  have h := (hp (ss⁻¹ • x) (1 / ss) hs').subgrad hH hs'
  have e1 : (1 / ss)⁻¹ • (ss⁻¹ • x - prox2 (ss⁻¹ • x) (1 / ss)) = prox2Conj prox2 x ss := by
    rw [one_div, inv_inv, smul_sub, smul_smul, mul_inv_cancel₀ hs.ne', one_smul, prox2Conj, one_div]
  have e2 : ss⁻¹ • (x - prox2Conj prox2 x ss) = prox2 (ss⁻¹ • x) (1 / ss) := by
    rw [prox2Conj, sub_sub_cancel, smul_smul, inv_mul_cancel₀ hs.ne', one_smul]
  rw [e1, ← e2] at h
  refine ⟨h, ?_⟩
  have h2 := (conj_of_subgrad h).2.prox hs
  rw [smul_smul, mul_inv_cancel₀ hs.ne', one_smul, add_sub_cancel] at h2
  exact h2

/-- Conversely the proximal point of the conjugate is unique, so C53 determines the value. -/
theorem C53_unique {H : ExtFun F} (hH : H.IsConvex) {prox2 : F → ℝ → F} (hp : IsProxOf H prox2) (x : F) {ss : ℝ} (hs : 0 < ss) {y : F}
    (hy : IsSubgrad H (ss⁻¹ • (x - y)) y) : y = prox2Conj prox2 x ss := by
  have hs' : 0 < 1 / ss := by positivity
  have h := hy.prox hs'
  rw [one_div, ← smul_add, sub_add_cancel] at h
  have h2 := hp (ss⁻¹ • x) (1 / ss) hs'
  rw [one_div] at h2
  have h3 := h.unique hH (by positivity) h2
  rw [prox2Conj, one_div, ← h3, smul_smul, mul_inv_cancel₀ hs.ne', one_smul, sub_sub_cancel]

/-! ### Runs -/

/-- What is assumed of the arguments: `matvec` and `rmatvec` are a linear map and its adjoint and the step sizes are positive. -/
structure PDOk (P : PDArgs E F) (M : E →ₗ[ℝ] F) (Mt : F →ₗ[ℝ] E) : Prop where
  matvec : P.matvec = M
  rmatvec : P.rmatvec = Mt
  adjoint : ∀ x y, ⟪M x, y⟫_ℝ = ⟪x, Mt y⟫_ℝ
  step : 0 < P.stepSize
  step2 : ∀ t, P.stepSize2 = some t → 0 < t

theorem PDOk.tau0_pos {P : PDArgs E F} {M : E →ₗ[ℝ] F} {Mt : F →ₗ[ℝ] E} (h : PDOk P M Mt) : 0 < P.tau0 := by
  unfold PDArgs.tau0
  have := h.step
  cases hs : P.stepSize2 with
  | none => simp only; linarith
  | some t => exact h.step2 t hs

theorem PDOk.ratio_pos {P : PDArgs E F} {M : E →ₗ[ℝ] F} {Mt : F →ₗ[ℝ] E} (h : PDOk P M Mt) : 0 < P.ratio := by
  unfold PDArgs.ratio
  cases hs : P.stepSize2 with
  | none => simp only; norm_num
  | some t => exact div_pos (h.step2 t hs) h.step

/-- A state as found at the start of an iteration. -/
structure PDGood (P : PDArgs E F) (st : PDState E F) : Prop where
  fk : st.fk = (P.fg st.x).1
  grad : st.grad = (P.fg st.x).2
  theta : 0 < st.theta
  tau : 0 < st.tau
  sigma : 0 < st.sigma

theorem pdInit_good {P : PDArgs E F} {M : E →ₗ[ℝ] F} {Mt : F →ₗ[ℝ] E} (h : PDOk P M Mt) : PDGood P (pdInit P) :=
  ⟨rfl, rfl, one_pos, h.tau0_pos, h.step⟩

/-- The two formulas computed by an iteration, in both modes: the dual step uses `tau`, the primal step uses the new `sigma` and an
extrapolation `yBar`. -/
theorem pdStep_spec {P : PDArgs E F} {M : E →ₗ[ℝ] F} {Mt : F →ₗ[ℝ] E} (h : PDOk P M Mt) {st : PDState E F} (hg : PDGood P st)
    {r : PDStep E F} (hr : pdStep P st = some r) :
    r.yNext = prox2Conj P.p2 (st.y + st.tau • P.matvec st.x) st.tau ∧ 0 < r.theta ∧ 0 < r.tau ∧ 0 < r.sigma ∧
    ∃ θ : ℝ, 0 < θ ∧ (P.lineSearch = true → θ = r.theta) ∧ (P.lineSearch = false → θ = 1 ∧ r.sigma = st.sigma ∧ r.tau = st.tau) ∧
      r.xNext = P.p1 (st.x - r.sigma • (P.rmatvec (r.yNext + θ • (r.yNext - st.y)) + st.grad)) r.sigma := by
  unfold pdStep at hr
  simp only at hr
  by_cases hls : P.lineSearch = true
  · rw [if_pos hls] at hr
    unfold pdSearch at hr
    simp only at hr
    split at hr
    · rename_i hex
      have hr' := Option.some.inj hr
      have hT : ∀ n : ℕ, 0 < st.tau * (1 + Real.sqrt (1 + st.theta)) / 2 * (9 / 10) ^ n := by
        intro n
        have := hg.tau
        have := Real.sqrt_nonneg (1 + st.theta)
        positivity
      subst hr'
      refine ⟨rfl, div_pos (hT _) hg.tau, ?_, mul_pos h.ratio_pos (hT _), _, div_pos (hT _) hg.tau, fun _ => rfl, fun h => ?_, rfl⟩
      · simp only
        split
        · exact hg.tau
        · exact hT _
      · rw [h] at hls; cases hls
    · cases hr
  · rw [if_neg hls] at hr
    have hr' := Option.some.inj hr
    subst hr'
    refine ⟨rfl, hg.theta, hg.tau, hg.sigma, 1, one_pos, fun h => absurd h hls, fun _ => ⟨rfl, rfl, rfl⟩, ?_⟩
    simp only
    rw [show ∀ a b : F, a + (1 : ℝ) • (a - b) = (2 : ℝ) • a - b from fun a b => by module]

theorem pdNext_good {P : PDArgs E F} {M : E →ₗ[ℝ] F} {Mt : F →ₗ[ℝ] E} (h : PDOk P M Mt) {st st' : PDState E F} {it : ℕ}
    (hg : PDGood P st) (hn : pdNext P it st = some st') : PDGood P st' := by
  unfold pdNext at hn
  rw [Option.map_eq_some_iff] at hn
  obtain ⟨r, hr, rfl⟩ := hn
  obtain ⟨-, h1, h2, h3, -⟩ := pdStep_spec h hg hr
  exact ⟨rfl, rfl, h1, h2, h3⟩

/-- Induction over the loop. -/
theorem pdLoop_induct {P : PDArgs E F} (I : ℕ → ℕ → PDState E F → Prop) (Q : PDState E F × ℕ × TSWhy → Prop)
    (hdone : ∀ rem it st st', I rem it st → pdNext P it st = some st' → pdDone P st' → Q (st', it, .success))
    (hcb : ∀ rem it st st', I rem it st → pdNext P it st = some st' → ¬pdDone P st' → pdCallback P it st' = true → Q (st', it, .callback))
    (hnext : ∀ rem it st st', I (rem + 1) it st → pdNext P it st = some st' → ¬pdDone P st' → I rem (it + 1) st')
    (hexh : ∀ it st st', I 0 it st → pdNext P it st = some st' → ¬pdDone P st' → Q (st', it, .exhausted)) :
    ∀ rem it st, I rem it st → ∀ r, pdLoop P rem it st = some r → Q r := by
  intro rem
  induction rem with
  | zero =>
    intro it st hI r hr
    rw [pdLoop] at hr
    cases hn : pdNext P it st with
    | none => rw [hn] at hr; cases hr
    | some st' =>
      rw [hn] at hr
      simp only at hr
      split at hr
      · rename_i hd
        cases hr; exact hdone _ _ _ _ hI hn hd
      · rename_i hd
        split at hr
        · rename_i hc
          cases hr; exact hcb _ _ _ _ hI hn hd hc
        · cases hr; exact hexh _ _ _ hI hn hd
  | succ rem ih =>
    intro it st hI r hr
    rw [pdLoop] at hr
    cases hn : pdNext P it st with
    | none => rw [hn] at hr; cases hr
    | some st' =>
      rw [hn] at hr
      simp only at hr
      split at hr
      · rename_i hd
        cases hr; exact hdone _ _ _ _ hI hn hd
      · rename_i hd
        split at hr
        · rename_i hc
          cases hr; exact hcb _ _ _ _ hI hn hd hc
        · exact ih _ _ (hnext _ _ _ _ hI hn hd) r hr

/-! ### C55 -/

/-- The candidates tried by the line search stay in a bounded set. -/
theorem pdTrial_bounded {P : PDArgs E F} {M : E →ₗ[ℝ] F} {Mt : F →ₗ[ℝ] E} (h : PDOk P M Mt) {G : ExtFun E} (hG : G.IsConvex)
    (hp : IsProxOf G P.p1) {st : PDState E F} (hg : PDGood P st) (yNext : F) {T : ℝ} (hT : 0 < T) :
    ∃ B : ℝ, ∀ t, 0 < t → t ≤ T → ‖pdTrial P st yNext t - st.x‖ ≤ B := by
  set S := P.ratio * T with hS
  have hSp : 0 < S := mul_pos h.ratio_pos hT
  let v : ℝ → E := fun t => st.x - (P.ratio * t) • (P.rmatvec (yNext + (t / st.tau) • (yNext - st.y)) + st.grad)
  have hv : ∀ t, pdTrial P st yNext t = P.p1 (v t) (P.ratio * t) := fun t => rfl
  set p := P.p1 (v T) S with hpT
  set u := S⁻¹ • (v T - p) with hu
  have hsub : IsSubgrad G p u := (hp (v T) S hSp).subgrad hG hSp
  refine ⟨‖st.x - p‖ + S * (‖Mt yNext‖ + T / st.tau * ‖Mt (yNext - st.y)‖ + ‖st.grad‖ + ‖u‖) + ‖p - st.x‖, fun t ht htT => ?_⟩
  have hσ : 0 < P.ratio * t := mul_pos h.ratio_pos ht
  have hσS : P.ratio * t ≤ S := mul_le_mul_of_nonneg_left htT h.ratio_pos.le
  have h1 := (hp (v t) (P.ratio * t) hσ).nonexpansive hG hσ (hsub.prox hσ)
  rw [← hv] at h1
  have e : v t - (p + (P.ratio * t) • u) =
      (st.x - p) - (P.ratio * t) • (Mt yNext + (t / st.tau) • Mt (yNext - st.y) + st.grad + u) := by
    show st.x - (P.ratio * t) • (P.rmatvec _ + st.grad) - _ = _
    rw [h.rmatvec, map_add, map_smul]
    module
  rw [e] at h1
  have h2 : ‖Mt yNext + (t / st.tau) • Mt (yNext - st.y) + st.grad + u‖ ≤
      ‖Mt yNext‖ + T / st.tau * ‖Mt (yNext - st.y)‖ + ‖st.grad‖ + ‖u‖ := by
    refine (norm_add_le _ _).trans (add_le_add_left ((norm_add_le _ _).trans (add_le_add_left ((norm_add_le _ _).trans
      (add_le_add_right ?_ _)) _)) _)
    rw [norm_smul, Real.norm_eq_abs, abs_of_pos (div_pos ht hg.tau)]
    exact mul_le_mul_of_nonneg_right (div_le_div_of_nonneg_right htT hg.tau.le) (norm_nonneg _)
  have h3 : ‖(P.ratio * t) • (Mt yNext + (t / st.tau) • Mt (yNext - st.y) + st.grad + u)‖ ≤
      S * (‖Mt yNext‖ + T / st.tau * ‖Mt (yNext - st.y)‖ + ‖st.grad‖ + ‖u‖) := by
    rw [norm_smul, Real.norm_eq_abs, abs_of_pos hσ]
    exact mul_le_mul hσS h2 (norm_nonneg _) hSp.le
  have h4 : pdTrial P st yNext t - st.x = (pdTrial P st yNext t - p) + (p - st.x) := by abel
  rw [h4]
  refine (norm_add_le _ _).trans (add_le_add_left (h1.trans ((norm_sub_le _ _).trans (add_le_add_right h3 _))) _)

/-- **C55 (one iteration).** With the quadratic upper bound, convex `g` with exact proximal operator and any linear operator, the
`while True` loop terminates from every positive candidate. -/
theorem C55_search {P : PDArgs E F} {M : E →ₗ[ℝ] F} {Mt : F →ₗ[ℝ] E} (h : PDOk P M Mt) {G : ExtFun E} (hG : G.IsConvex)
    (hp : IsProxOf G P.p1) {f : E → ℝ} {g : E → E} (hfg : P.fg = fun x => (f x, g x)) {Lf : ℝ} (hL : 0 ≤ Lf) (hq : UpperQuad f g Lf)
    {st : PDState E F} (hg : PDGood P st) (yNext : F) {T : ℝ} (hT : 0 < T) :
    ∃ m : ℕ, pdTiny P st yNext (T * (9 / 10) ^ m) ∨ pdAccept P st yNext (T * (9 / 10) ^ m) := by
  obtain ⟨B, hB⟩ := pdTrial_bounded h hG hp hg yNext hT
  have hB0 : 0 ≤ B := (norm_nonneg _).trans (hB T hT le_rfl)
  obtain ⟨ε, hε, hεp⟩ : ∃ ε : ℝ, ε = 1 / 10 ^ 10 ∧ 0 < ε := ⟨_, rfl, by positivity⟩
  have hr := h.ratio_pos
  set δ := min (1 / (4 * P.ratio * T)) (ε ^ 2 / (4 * P.ratio * (Lf * B ^ 2 + 1))) with hδ
  have hδp : 0 < δ := lt_min (by positivity) (by positivity)
  obtain ⟨m, hm⟩ := exists_pow_lt_of_lt_one (div_pos hδp hT) (show (9 / 10 : ℝ) < 1 by norm_num)
  refine ⟨m, ?_⟩
  set t := T * (9 / 10) ^ m with ht
  have htp : 0 < t := by positivity
  have htδ : t ≤ δ := by
    rw [lt_div_iff₀ hT] at hm
    rw [ht]; linarith
  have htT : t ≤ T := by
    rw [ht]
    have := pow_le_one₀ (n := m) (show (0 : ℝ) ≤ 9 / 10 by norm_num) (by norm_num)
    nlinarith
  by_cases htiny : pdTiny P st yNext t
  · exact Or.inl htiny
  · right
    unfold pdTiny at htiny
    rw [← hε] at htiny
    push Not at htiny
    unfold pdAccept
    simp only
    set x' := pdTrial P st yNext t with hx'
    set d := pdIncr P st x' with hd
    have hfx : (P.fg x').1 - st.fk - ⟪st.grad, x' - st.x⟫_ℝ ≤ Lf / 2 * B ^ 2 := by
      have h1 := hq st.x x'
      rw [hg.fk, hg.grad, hfg]
      simp only
      have h2 : ‖x' - st.x‖ ^ 2 ≤ B ^ 2 := pow_le_pow_left₀ (norm_nonneg _) (hB t htp htT) 2
      have h3 := mul_le_mul_of_nonneg_left h2 (show 0 ≤ Lf / 2 by linarith)
      linarith
    have h1 : P.ratio * t * t ≤ 1 / 4 := by
      have : t ≤ 1 / (4 * P.ratio * T) := htδ.trans (min_le_left _ _)
      rw [le_div_iff₀ (by positivity)] at this
      have : P.ratio * t * t ≤ P.ratio * t * T := mul_le_mul_of_nonneg_left htT (by positivity)
      linarith
    have h2 : P.ratio * t * (Lf * B ^ 2) ≤ ε ^ 2 / 4 := by
      have h3 : t ≤ ε ^ 2 / (4 * P.ratio * (Lf * B ^ 2 + 1)) := htδ.trans (min_le_right _ _)
      rw [le_div_iff₀ (by positivity)] at h3
      have : 0 ≤ P.ratio * t := by positivity
      have e : t * (4 * P.ratio * (Lf * B ^ 2 + 1)) = 4 * (P.ratio * t * (Lf * B ^ 2)) + 4 * (P.ratio * t) := by ring
      rw [e] at h3
      linarith
    have h4 : ε ^ 2 ≤ d ^ 2 := pow_le_pow_left₀ hεp.le htiny.le 2
    have h5 : P.ratio * t * t * d ^ 2 ≤ 1 / 4 * d ^ 2 := mul_le_mul_of_nonneg_right h1 (sq_nonneg _)
    have h6 : 2 * (P.ratio * t) * ((P.fg x').1 - st.fk - ⟪st.grad, x' - st.x⟫_ℝ) ≤ 2 * (P.ratio * t) * (Lf / 2 * B ^ 2) :=
      mul_le_mul_of_nonneg_left hfx (by positivity)
    rw [div_le_iff₀ (by norm_num)]
    nlinarith

/-- **C55.** Under the same hypotheses no line search of a run diverges: `minimize_primal_dual` always returns or raises. -/
theorem C55_terminates {P : PDArgs E F} {M : E →ₗ[ℝ] F} {Mt : F →ₗ[ℝ] E} (h : PDOk P M Mt) {G : ExtFun E} (hG : G.IsConvex)
    (hp : IsProxOf G P.p1) {f : E → ℝ} {g : E → E} (hfg : P.fg = fun x => (f x, g x)) {Lf : ℝ} (hL : 0 ≤ Lf) (hq : UpperQuad f g Lf) :
    minimizePrimalDual P ≠ none := by
  have hstep : ∀ it st, PDGood P st → ∃ st', pdNext P it st = some st' := by
    intro it st hg
    have : ∃ r, pdStep P st = some r := by
      unfold pdStep
      simp only
      split
      · unfold pdSearch
        have hT : 0 < st.tau * (1 + Real.sqrt (1 + st.theta)) / 2 := by
          have := hg.tau
          have := Real.sqrt_nonneg (1 + st.theta)
          positivity
        rw [dif_pos (C55_search h hG hp hfg hL hq hg _ hT)]
        exact ⟨_, rfl⟩
      · exact ⟨_, rfl⟩
    obtain ⟨r, hr⟩ := this
    exact ⟨_, by unfold pdNext; rw [hr]; rfl⟩
  have hloop : ∀ rem it st, PDGood P st → pdLoop P rem it st ≠ none := by
    intro rem
    induction rem with
    | zero =>
      intro it st hg
      obtain ⟨st', hs⟩ := hstep it st hg
      rw [pdLoop, hs]
      simp only
      split
      · simp
      · split <;> simp
    | succ rem ih =>
      intro it st hg
      obtain ⟨st', hs⟩ := hstep it st hg
      rw [pdLoop, hs]
      simp only
      split
      · simp
      · split
        · simp
        · exact ih _ _ (pdNext_good h hg hs)
  unfold minimizePrimalDual
  split
  · simp
  · split
    · simp
    · simp [hloop _ _ _ (pdInit_good h)]

/-! ### C54 -/

/-- **C54 (stationary iterations).** An iteration, with or without line search, that leaves `x` and `y` unchanged: `x` minimises
`f + g + h(M ·)`, `y` is a subgradient of `h` at `M x`, and `(x, y)` is a saddle point of `f(x) + g(x) + ⟪M x, y⟫ - h*(y)`, so that
`y` solves the dual problem. -/
theorem C54_stationary {P : PDArgs E F} {M : E →ₗ[ℝ] F} {Mt : F →ₗ[ℝ] E} (h : PDOk P M Mt) {G : ExtFun E} {H : ExtFun F}
    (hG : G.IsConvex) (hp1 : IsProxOf G P.p1) (hH : H.IsConvex) (hp2 : IsProxOf H P.p2) {f : E → ℝ} {g : E → E}
    (hfg : P.fg = fun x => (f x, g x)) (hf : ConvexGrad f g) {st st' : PDState E F} {it : ℕ} (hg : PDGood P st)
    (hn : pdNext P it st = some st') (hx : st'.x = st.x) (hy : st'.y = st.y) :
    IsSubgrad H (M st.x) st.y ∧ IsSubgrad G st.x (-Mt st.y - g st.x) ∧
    (st.x ∈ G.dom ∧ M st.x ∈ H.dom ∧ ∀ x ∈ G.dom, M x ∈ H.dom → f st.x + G.val st.x + H.val (M st.x) ≤ f x + G.val x + H.val (M x)) ∧
    (st.y ∈ H.conj.dom ∧
      (∀ x ∈ G.dom, f st.x + G.val st.x + ⟪M st.x, st.y⟫_ℝ - H.conj.val st.y ≤ f x + G.val x + ⟪M x, st.y⟫_ℝ - H.conj.val st.y) ∧
      (∀ y ∈ H.conj.dom, f st.x + G.val st.x + ⟪M st.x, y⟫_ℝ - H.conj.val y ≤ f st.x + G.val st.x + ⟪M st.x, st.y⟫_ℝ - H.conj.val st.y)) := by
  unfold pdNext at hn
  rw [Option.map_eq_some_iff] at hn
  obtain ⟨r, hr, rfl⟩ := hn
  simp only at hx hy
  obtain ⟨h1, -, -, h3, θ, -, -, -, h4⟩ := pdStep_spec h hg hr
  -- the dual step
  have hm := (C53_moreau hH hp2 (st.y + st.tau • P.matvec st.x) hg.tau).1
  rw [← h1, hy, add_sub_cancel_left, smul_smul, inv_mul_cancel₀ hg.tau.ne', one_smul, h.matvec] at hm
  -- the primal step
  have hpr := (hp1 (st.x - r.sigma • (P.rmatvec (r.yNext + θ • (r.yNext - st.y)) + st.grad)) r.sigma h3).subgrad hG h3
  rw [← h4, hx, hy, sub_self, smul_zero, add_zero, h.rmatvec, hg.grad, hfg] at hpr
  have e : r.sigma⁻¹ • (st.x - r.sigma • (Mt st.y + g st.x) - st.x) = -Mt st.y - g st.x := by
    rw [show st.x - r.sigma • (Mt st.y + g st.x) - st.x = r.sigma • (-Mt st.y - g st.x) by module, smul_smul, inv_mul_cancel₀ h3.ne',
      one_smul]
  simp only at hpr
  rw [e] at hpr
  have hc := conj_of_subgrad hm
  have key : ∀ x ∈ G.dom, f st.x + G.val st.x ≤ f x + G.val x + ⟪M x, st.y⟫_ℝ - ⟪M st.x, st.y⟫_ℝ := by
    intro x hx
    have h1 := hpr.2 x hx
    have h2 := hf st.x x
    have h3 : ⟪M x, st.y⟫_ℝ - ⟪M st.x, st.y⟫_ℝ = ⟪Mt st.y, x - st.x⟫_ℝ := by
      rw [h.adjoint, h.adjoint, ← inner_sub_left, real_inner_comm]
    rw [inner_sub_left, inner_neg_left] at h1
    linarith
  refine ⟨hm, hpr, ⟨hpr.1, hm.1, fun x hx hMx => ?_⟩, hc.2.1, fun x hx => ?_, fun y hy => ?_⟩
  · have h1 := key x hx
    have h2 := hm.2 (M x) hMx
    rw [inner_sub_right, real_inner_comm (M x), real_inner_comm (M st.x)] at h2
    linarith
  · have := key x hx
    linarith
  · have h1 := hc.2.2 y hy
    rw [inner_sub_right] at h1
    linarith

/-- What a run reports. -/
theorem pd_run {P : PDArgs E F} {res : PDResult E F} (h : minimizePrimalDual P = some (.ok res)) :
    res.nit < P.maxIter ∧ res.x = res.final.x ∧ res.certificate = res.final.normIncr ∧ (res.success = true ↔ res.why = .success) ∧
    (res.why = .success → res.nit % 100 = 0 ∧
      res.certificate = some (‖res.final.x - res.final.xOld‖ + ‖res.final.y - res.final.yOld‖) ∧
      ‖res.final.x - res.final.xOld‖ + ‖res.final.y - res.final.yOld‖ < P.tol) ∧
    (res.why = .exhausted → res.nit + 1 = P.maxIter) ∧ (res.warned = true ↔ P.maxIter ≤ res.nit) := by
  unfold minimizePrimalDual at h
  split at h
  · cases h
  · split at h
    · cases h
    · rename_i m hm
      rw [Option.map_eq_some_iff] at h
      obtain ⟨r, hr, hres⟩ := h
      have hres' := Except.ok.inj hres
      have key := pdLoop_induct (P := P) (fun rem it st => it + rem = m ∧ ¬pdDone P st)
        (fun r => r.2.1 ≤ m ∧ (r.2.2 = .success → r.2.1 % 100 = 0 ∧
          r.1.normIncr = some (‖r.1.x - r.1.xOld‖ + ‖r.1.y - r.1.yOld‖) ∧ ‖r.1.x - r.1.xOld‖ + ‖r.1.y - r.1.yOld‖ < P.tol) ∧
          (r.2.2 = .exhausted → r.2.1 = m))
        (by
          intro rem it st st' hI hn hd
          refine ⟨by simp only; omega, fun _ => ?_, by simp⟩
          unfold pdNext at hn
          rw [Option.map_eq_some_iff] at hn
          obtain ⟨q, -, rfl⟩ := hn
          by_cases h0 : it % 100 = 0
          · obtain ⟨c, hc, hlt⟩ := hd
            simp only [if_pos h0] at hc ⊢
            refine ⟨h0, trivial, ?_⟩
            rw [Option.some.inj hc]; exact hlt
          · exfalso
            apply hI.2
            obtain ⟨c, hc, hlt⟩ := hd
            simp only [if_neg h0] at hc
            exact ⟨c, hc, hlt⟩)
        (fun rem it st st' hI hn hd hc => ⟨by simp only; omega, by simp, by simp⟩)
        (fun rem it st st' hI hn hd => ⟨by have := hI.1; omega, hd⟩)
        (fun it st st' hI hn hd => ⟨by simp only; omega, by simp, fun _ => by simp only; omega⟩)
        m 0 (pdInit P) ⟨by omega, by rintro ⟨c, hc, -⟩; cases hc⟩ r hr
      subst hres'
      refine ⟨by have := key.1; simp only; omega, rfl, rfl, by simp, key.2.1, fun h => by have := key.2.2 h; simp only; omega, ?_⟩
      simp only [decide_eq_true_eq]
      rw [hm]

/-- **C54 (success).** Success is only ever reported at an iteration whose number is a multiple of 100, and then the certificate is
the length of that very iteration's move and is below `tol`. -/
theorem C54_success {P : PDArgs E F} {res : PDResult E F} (h : minimizePrimalDual P = some (.ok res)) (hs : res.success = true) :
    res.nit % 100 = 0 ∧ res.certificate = some (‖res.x - res.final.xOld‖ + ‖res.final.y - res.final.yOld‖) ∧
      ‖res.x - res.final.xOld‖ + ‖res.final.y - res.final.yOld‖ < P.tol := by
  obtain ⟨-, hx, -, hsw, hsuc, -⟩ := pd_run h
  rw [hx]
  exact hsuc (hsw.mp hs)

/-- **C54 (warning, refuted).** No run ever issues the RuntimeWarning, in particular not when `max_iter` is exhausted. -/
theorem C54_never_warns {P : PDArgs E F} {res : PDResult E F} (h : minimizePrimalDual P = some (.ok res)) : res.warned = false := by
  obtain ⟨hn, -, -, -, -, -, hw⟩ := pd_run h
  cases hh : res.warned with
  | false => rfl
  | true => have := hw.mp hh; omega

/-- C54: argument validation, and the error of a run without iterations. -/
theorem C54_errors (P : PDArgs E F) : (P.lsIter ≤ 0 → minimizePrimalDual P = some (.error .valueError)) ∧
    (0 < P.lsIter → P.maxIter = 0 → minimizePrimalDual P = some (.error .unboundLocalError)) := by
  refine ⟨fun h => ?_, fun h h' => ?_⟩
  · unfold minimizePrimalDual; rw [if_pos h]
  · unfold minimizePrimalDual; rw [if_neg (by omega), h']

/-- Every state of a run is as described by `PDGood`; the last iteration of a run started from such a state. -/
theorem pd_last {P : PDArgs E F} {M : E →ₗ[ℝ] F} {Mt : F →ₗ[ℝ] E} (hP : PDOk P M Mt) {res : PDResult E F}
    (h : minimizePrimalDual P = some (.ok res)) :
    ∃ st, PDGood P st ∧ pdNext P res.nit st = some res.final ∧ st.x = res.final.xOld ∧ st.y = res.final.yOld := by
  unfold minimizePrimalDual at h
  split at h
  · cases h
  · split at h
    · cases h
    · rw [Option.map_eq_some_iff] at h
      obtain ⟨r, hr, hres⟩ := h
      have hres' := Except.ok.inj hres
      have hold : ∀ it st st', pdNext P it st = some st' → st.x = st'.xOld ∧ st.y = st'.yOld := by
        intro it st st' hn
        unfold pdNext at hn
        rw [Option.map_eq_some_iff] at hn
        obtain ⟨q, -, rfl⟩ := hn
        exact ⟨rfl, rfl⟩
      have key := pdLoop_induct (P := P) (fun _ _ st => PDGood P st)
        (fun r => ∃ st, PDGood P st ∧ pdNext P r.2.1 st = some r.1 ∧ st.x = r.1.xOld ∧ st.y = r.1.yOld)
        (fun _ _ st _ hI hn _ => ⟨st, hI, hn, hold _ _ _ hn⟩) (fun _ _ st _ hI hn _ _ => ⟨st, hI, hn, hold _ _ _ hn⟩)
        (fun _ _ _ _ hI hn _ => pdNext_good hP hI hn) (fun _ st _ hI hn _ => ⟨st, hI, hn, hold _ _ _ hn⟩)
        _ 0 (pdInit P) (pdInit_good hP) r hr
      subst hres'
      exact key

/-- **C54 (runs).** A run whose last iteration left `x` and `y` unchanged returns a minimiser of `f + g + h(M ·)`. -/
theorem C54_run_stationary {P : PDArgs E F} {M : E →ₗ[ℝ] F} {Mt : F →ₗ[ℝ] E} (h : PDOk P M Mt) {G : ExtFun E} {H : ExtFun F}
    (hG : G.IsConvex) (hp1 : IsProxOf G P.p1) (hH : H.IsConvex) (hp2 : IsProxOf H P.p2) {f : E → ℝ} {g : E → E}
    (hfg : P.fg = fun x => (f x, g x)) (hf : ConvexGrad f g) {res : PDResult E F} (hr : minimizePrimalDual P = some (.ok res))
    (hx : res.final.x = res.final.xOld) (hy : res.final.y = res.final.yOld) :
    res.x ∈ G.dom ∧ M res.x ∈ H.dom ∧ ∀ x ∈ G.dom, M x ∈ H.dom → f res.x + G.val res.x + H.val (M res.x) ≤ f x + G.val x + H.val (M x) := by
  obtain ⟨st, hg, hn, h1, h2⟩ := pd_last h hr
  have := (C54_stationary h hG hp1 hH hp2 hfg hf hg hn (by rw [hx, h1]) (by rw [hy, h2])).2.2.1
  rw [(pd_run hr).2.1, hx, ← h1]
  exact this

/-! ### A run that is exhausted without a warning; the hypotheses are satisfiable -/

/-- `f(x) = x²/2`, `g = 0`, `h = 0`, `M` the identity of `ℝ`, from `x0 = 1`, one iteration. -/
noncomputable def pdQuad (ls : Bool) (tol : ℝ) (m : ℕ) : PDArgs ℝ ℝ :=
  { fg := fun x => (x ^ 2 / 2, x), x0 := 1, prox1 := none, prox2 := none, matvec := fun x => x, rmatvec := fun y => y, tol := tol, maxIter := m,
    callback := none, stepSize := 1 / 2, stepSize2 := none, lineSearch := ls, lsIter := 20 }

theorem pdQuad_ok (ls : Bool) (tol : ℝ) (m : ℕ) : PDOk (pdQuad ls tol m) LinearMap.id LinearMap.id :=
  ⟨rfl, rfl, fun _ _ => rfl, by norm_num [pdQuad], fun t h => by cases h⟩

/-- **C54 (refuted).** A run that exhausts `max_iter` without success and without a RuntimeWarning. -/
theorem C54_refuted : ∃ (P : PDArgs ℝ ℝ) (res : PDResult ℝ ℝ), minimizePrimalDual P = some (.ok res) ∧ res.why = .exhausted ∧
    res.success = false ∧ res.warned = false := by
  have hn : ∃ st, pdNext (pdQuad false 0 1) 0 (pdInit (pdQuad false 0 1)) = some st := ⟨_, rfl⟩
  obtain ⟨st, hst⟩ := hn
  have hnd : ¬pdDone (pdQuad false 0 1) st := by
    rintro ⟨c, hc, hlt⟩
    unfold pdNext at hst
    rw [Option.map_eq_some_iff] at hst
    obtain ⟨r, -, rfl⟩ := hst
    simp only [Nat.zero_mod, if_true] at hc
    have := Option.some.inj hc
    change c < 0 at hlt
    rw [← this] at hlt
    exact absurd hlt (not_lt.mpr (by positivity))
  refine ⟨pdQuad false 0 1, ⟨st.x, false, 0, st.normIncr, st.sigma, false, .exhausted, st⟩, ?_, rfl, rfl, rfl⟩
  unfold minimizePrimalDual
  rw [if_neg (by norm_num [pdQuad]), show (pdQuad false 0 1).maxIter = 0 + 1 from rfl]
  simp only
  rw [pdLoop, hst]
  simp only
  rw [if_neg hnd]
  rfl

/-- The hypotheses of C54 and C55 hold together, with and without line search. -/
example (ls : Bool) : PDOk (pdQuad ls (1 / 1000) 500) LinearMap.id LinearMap.id ∧ (ExtFun.zero : ExtFun ℝ).IsConvex ∧
    IsProxOf (ExtFun.zero : ExtFun ℝ) (pdQuad ls (1 / 1000) 500).p1 ∧ IsProxOf (ExtFun.zero : ExtFun ℝ) (pdQuad ls (1 / 1000) 500).p2 ∧
    ConvexGrad (fun x : ℝ => x ^ 2 / 2) (fun x => x) ∧ UpperQuad (fun x : ℝ => x ^ 2 / 2) (fun x => x) 1 := by
  refine ⟨pdQuad_ok _ _ _, ExtFun.isConvex_zero, isProxOf_zero, isProxOf_zero, ?_, ?_⟩
  · intro x y
    show x ^ 2 / 2 + (y - x) * x ≤ y ^ 2 / 2
    nlinarith [sq_nonneg (x - y)]
  · intro x y
    show y ^ 2 / 2 ≤ x ^ 2 / 2 + (y - x) * x + 1 / 2 * |y - x| ^ 2
    rw [sq_abs]; nlinarith

/-- C53 on a concrete function: for the indicator of `[0, 1]` on `ℝ`, `x = 3` and `ss = 2`, the conjugate prox is `3 - 2 * 1 = 1`. -/
example : prox2Conj (fun v _ => max 0 (min v 1)) (3 : ℝ) 2 = 1 := by
  norm_num [prox2Conj]

/-! ### C77: the ratio of the step sizes -/

/-- **C77 (partial).** With line search, an iteration that accepts a step leaves `sigma = (tau_0/sigma_0) tau`: the ratio of the two step
sizes is constant from then on, but it is the inverse of the requested one (`C77_refuted`). -/
theorem C77_ratio_partial {P : PDArgs E F} {M : E →ₗ[ℝ] F} {Mt : F →ₗ[ℝ] E} (h : PDOk P M Mt) (hls : P.lineSearch = true)
    {st st' : PDState E F} {it : ℕ} (hn : pdNext P it st = some st')
    (hbig : 1 / 10 ^ 10 < ‖P.matvec st'.x - P.matvec st.x‖) : st'.sigma = P.tau0 / P.stepSize * st'.tau := by
  have hratio : P.ratio = P.tau0 / P.stepSize := by
    unfold PDArgs.ratio PDArgs.tau0
    have := h.step
    cases P.stepSize2 with
    | none => simp only; field_simp
    | some t => rfl
  unfold pdNext at hn
  rw [Option.map_eq_some_iff] at hn
  obtain ⟨r, hr, rfl⟩ := hn
  unfold pdStep at hr
  simp only [if_pos hls] at hr
  unfold pdSearch at hr
  simp only at hr
  split at hr
  · rename_i hex
    have hr' := Option.some.inj hr
    subst hr'
    simp only at hbig ⊢
    rw [if_neg, hratio]
    intro hc
    exact absurd hc (not_le.mpr hbig)
  · cases hr

/-- **C77 (refuted).** With the default `step_size2` the requested ratio `sigma/tau` is 2; after an accepted line search it is 1/2. -/
theorem C77_refuted {P : PDArgs E F} {M : E →ₗ[ℝ] F} {Mt : F →ₗ[ℝ] E} (h : PDOk P M Mt) (hls : P.lineSearch = true)
    (h2 : P.stepSize2 = none) {st st' : PDState E F} {it : ℕ} (hg : PDGood P st) (hn : pdNext P it st = some st')
    (hbig : 1 / 10 ^ 10 < ‖P.matvec st'.x - P.matvec st.x‖) :
    P.stepSize / P.tau0 = 2 ∧ st'.sigma / st'.tau = 1 / 2 ∧ st'.sigma / st'.tau ≠ P.stepSize / P.tau0 := by
  have hs := h.step
  have h0 : P.tau0 = 1 / 2 * P.stepSize := by unfold PDArgs.tau0; rw [h2]
  have h1 : P.stepSize / P.tau0 = 2 := by rw [h0]; field_simp
  have ht := (pdNext_good h hg hn).tau
  have h3 : st'.sigma / st'.tau = 1 / 2 := by
    rw [C77_ratio_partial h hls hn hbig, h0]; field_simp
  exact ⟨h1, h3, by rw [h1, h3]; norm_num⟩

open Classical in
theorem pdSearch_first {P : PDArgs E F} {st : PDState E F} {yNext : F} {T : ℝ} (h1 : ¬pdTiny P st yNext T) (h2 : pdAccept P st yNext T) :
    pdSearch P st yNext T = some { xNext := pdTrial P st yNext T, yNext := yNext, theta := T / st.tau, tau := T, sigma := P.ratio * T } := by
  have hex : ∃ m : ℕ, pdTiny P st yNext (T * (9 / 10) ^ m) ∨ pdAccept P st yNext (T * (9 / 10) ^ m) :=
    ⟨0, Or.inr (by rw [pow_zero, mul_one]; exact h2)⟩
  unfold pdSearch
  rw [dif_pos hex]
  have h0 : Nat.find hex = 0 := by
    rw [Nat.find_eq_zero]
    exact Or.inr (by rw [pow_zero, mul_one]; exact h2)
  simp only [h0, pow_zero, mul_one, if_neg h1]

/-- The hypotheses of `C77_refuted` are met: the first iteration on `f(x) = x²/2` accepts a step and moves by more than 1e-10. -/
theorem C77_witness : ∃ st', pdNext (pdQuad true (1 / 1000) 500) 0 (pdInit (pdQuad true (1 / 1000) 500)) = some st' ∧
    1 / 10 ^ 10 < ‖(pdQuad true (1 / 1000) 500).matvec st'.x - (pdQuad true (1 / 1000) 500).matvec (pdInit (pdQuad true (1 / 1000) 500)).x‖ := by
  set P := pdQuad true (1 / 1000) 500 with hP
  set st := pdInit P with hst
  have hr0 : (14 / 10 : ℝ) < Real.sqrt (1 + st.theta) := by
    show _ < Real.sqrt (1 + 1)
    rw [Real.lt_sqrt (by norm_num)]; norm_num
  have hr1 : Real.sqrt (1 + st.theta) < 15 / 10 := by
    show Real.sqrt (1 + 1) < _
    rw [Real.sqrt_lt' (by norm_num)]; norm_num
  set q := Real.sqrt (1 + st.theta) with hq
  set T := st.tau * (1 + q) / 2 with hT
  have htau : st.tau = 1 / 4 := by show 1 / 2 * (1 / 2 : ℝ) = _; norm_num
  have hratio : P.ratio = 1 / 2 := rfl
  set yN := prox2Conj P.p2 (st.y + st.tau • P.matvec st.x) st.tau with hyN
  have hy0 : yN = 0 := by
    show (st.y + st.tau * st.x) - st.tau * (st.tau⁻¹ * (st.y + st.tau * st.x)) = 0
    rw [htau]; ring
  have htr : pdTrial P st yN T = 1 + (1 / 2 * T) * ((q - 1) / 2) := by
    show 1 - (P.ratio * T) * ((yN + T / st.tau * (yN - 1)) + 1) = _
    rw [hy0, hratio, hT, htau]; ring
  have hTb : 3 / 10 < T ∧ T < 32 / 100 := by rw [hT, htau]; constructor <;> linarith
  set d := (1 / 2 * T) * ((q - 1) / 2) with hd
  have hd0 : 3 / 100 < d := by rw [hd]; nlinarith [hTb.1]
  have hinc : pdIncr P st (pdTrial P st yN T) = d := by
    rw [htr]
    show |1 + d - 1| = d
    rw [add_sub_cancel_left, abs_of_pos (by linarith)]
  have h1 : ¬pdTiny P st yN T := by
    unfold pdTiny
    rw [hinc]
    push Not
    calc (1 / 10 ^ 10 : ℝ) < 3 / 100 := by norm_num
      _ < d := hd0
  have h2 : pdAccept P st yN T := by
    unfold pdAccept
    simp only
    rw [hinc, hratio, htr]
    show (1 / 2 * T * T * d ^ 2 + 2 * (1 / 2 * T) * ((1 + d) ^ 2 / 2 - 1 ^ 2 / 2 - (1 + d - 1) * 1)) / (1 / 2) ≤ d ^ 2
    rw [div_le_iff₀ (by norm_num)]
    have : T * (T + 1) ≤ 1 := by nlinarith [hTb.1, hTb.2]
    nlinarith [sq_nonneg d, mul_le_mul_of_nonneg_right this (sq_nonneg d)]
  have hstep : pdStep P st = some { xNext := pdTrial P st yN T, yNext := yN, theta := T / st.tau, tau := T, sigma := P.ratio * T } := by
    unfold pdStep
    rw [if_pos (show P.lineSearch = true from rfl)]
    exact pdSearch_first h1 h2
  refine ⟨_, by unfold pdNext; rw [hstep]; rfl, ?_⟩
  show _ < pdIncr P st (pdTrial P st yN T)
  rw [hinc]
  calc (1 / 10 ^ 10 : ℝ) < 3 / 100 := by norm_num
    _ < d := hd0

end Copt
