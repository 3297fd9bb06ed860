import Verif.Props.PrimalDualRate
import Verif.Props.SplittingObjects

/-!
# C103: the primal-dual method on the losses, penalties and linear operators of the library
-/

set_option linter.unusedSectionVars false

namespace Copt

open Spec
open scoped InnerProductSpace

section General
variable {E F : Type} [NormedAddCommGroup E] [InnerProductSpace ℝ E] [NormedAddCommGroup F] [InnerProductSpace ℝ F]

/-- Without line search the step sizes never change. -/
theorem pdIter_fixed {P : PDArgs E F} {M : E →ₗ[ℝ] F} {Mt : F →ₗ[ℝ] E} (h : PDOk P M Mt) {G : ExtFun E} {H : ExtFun F}
    (hG : G.IsConvex) (hp1 : IsProxOf G P.p1) (hH : H.IsConvex) (hp2 : IsProxOf H P.p2) {g : E → E} (hfg : ∀ x, (P.fg x).2 = g x)
    (hls : P.lineSearch = false) : ∀ k st, pdIter P k = some st → PDGood P st ∧ st.tau = P.tau0 ∧ st.sigma = P.stepSize := by
  intro k
  induction k with
  | zero =>
    intro st hst
    obtain rfl := (Option.some.inj hst).symm
    exact ⟨pdInit_good h, rfl, rfl⟩
  | succ k ih =>
    intro st hst
    rw [pdIter] at hst
    obtain ⟨st0, h0, h1⟩ := Option.bind_eq_some_iff.mp hst
    obtain ⟨hg, ht, hs⟩ := ih st0 h0
    obtain ⟨st', hn, hg', ht', hs', -⟩ := pd_fixed_iter h hG hp1 hH hp2 hfg hls k hg
    rw [hn] at h1
    obtain rfl := Option.some.inj h1
    exact ⟨hg', by rw [ht', ht], by rw [hs', hs]⟩

/-- The final state of a run is one of the iterates. -/
theorem pd_final_iter {P : PDArgs E F} {s : ℕ → PDState E F} (hs : ∀ k, pdIter P k = some (s k)) {res : PDResult E F}
    (h : minimizePrimalDual P = some (.ok res)) : res.final = s (res.nit + 1) := by
  unfold minimizePrimalDual at h
  split at h
  · cases h
  · split at h
    · cases h
    · rename_i m hm
      have hs0 : s 0 = pdInit P := (Option.some.inj (hs 0)).symm
      obtain ⟨r, hr, -, -, hr3, -⟩ := pdLoop_iter hs m 0
      rw [hs0] at hr
      rw [hr] at h
      have := Except.ok.inj (Option.some.inj h)
      rw [← this]
      exact hr3

/-- One iteration of the Condat-Vu scheme: the objective at the new point in terms of the moves `a` and `b`. -/
theorem pd_gap {M : E →ₗ[ℝ] F} {Mt : F →ₗ[ℝ] E} (hadj : ∀ x y, ⟪M x, y⟫_ℝ = ⟪x, Mt y⟫_ℝ) {G : ExtFun E} {h : F → ℝ} {f : E → ℝ} {g : E → E}
    (hf : ConvexGrad f g) {L m l σ τ : ℝ} (hσ : 0 < σ) (hτ : 0 < τ) (hq : UpperQuad f g L) (hm : ∀ x, ‖M x‖ ≤ m * ‖x‖) (hl : 0 ≤ l)
    (hlip : ∀ a b, h a - h b ≤ l * ‖a - b‖) {xs : E} (hxs : xs ∈ G.dom) {x x' : E} {y y' : F}
    (hd : IsSubgrad ⟨Set.univ, h⟩ (τ⁻¹ • (y - y') + M x) y') (hp : IsSubgrad G x' (σ⁻¹ • (x - x') - Mt ((2 : ℝ) • y' - y) - g x)) :
    f x' + G.val x' + h (M x') - (f xs + G.val xs + h (M xs)) ≤
      σ⁻¹ * (‖x' - x‖ * ‖x' - xs‖) + ‖y' - y‖ * (m * ‖x' - xs‖) + L / 2 * ‖x' - x‖ ^ 2 + 2 * (l * (m * ‖x' - x‖ + τ⁻¹ * ‖y' - y‖)) := by
  set w := τ⁻¹ • (y - y') + M x with hw
  have hyn := subgrad_norm_le hl hlip hd
  have i1 := hp.2 xs hxs
  have i2 := hd.2 (M xs) (Set.mem_univ _)
  simp only at i2
  have i3 := hf x xs
  have i4 := hq x x'
  have i5 := hlip (M x') w
  have e1 : ⟪σ⁻¹ • (x - x') - Mt ((2 : ℝ) • y' - y) - g x, xs - x'⟫_ℝ =
      σ⁻¹ * ⟪x - x', xs - x'⟫_ℝ - ⟪(2 : ℝ) • y' - y, M (xs - x')⟫_ℝ - ⟪g x, xs - x'⟫_ℝ := by
    rw [inner_sub_left, inner_sub_left, inner_smul_left, real_inner_comm _ (Mt _), ← hadj, real_inner_comm _ (M _)]
    rfl
  rw [e1] at i1
  have e2 : ⟪(2 : ℝ) • y' - y, M (xs - x')⟫_ℝ = ⟪y', M xs - M x'⟫_ℝ + ⟪y' - y, M (xs - x')⟫_ℝ := by
    rw [show (2 : ℝ) • y' - y = y' + (y' - y) by module, inner_add_left, map_sub]
  have e3 : ⟪y', M xs - w⟫_ℝ = ⟪y', M xs - M x'⟫_ℝ + ⟪y', M x' - w⟫_ℝ := by rw [← inner_add_right]; congr 1; abel
  have e4 : ⟪g x, xs - x⟫_ℝ = ⟪g x, xs - x'⟫_ℝ + ⟪g x, x' - x⟫_ℝ := by rw [← inner_add_right]; congr 1; abel
  rw [e2] at i1
  rw [e3] at i2
  rw [e4] at i3
  have b1 : -(σ⁻¹ * ⟪x - x', xs - x'⟫_ℝ) ≤ σ⁻¹ * (‖x' - x‖ * ‖x' - xs‖) := by
    rw [← mul_neg]
    refine mul_le_mul_of_nonneg_left ?_ (by positivity)
    have := abs_real_inner_le_norm (x - x') (xs - x')
    rw [norm_sub_rev x x', norm_sub_rev xs x'] at this
    exact (neg_le_abs _).trans this
  have b2 : ⟪y' - y, M (xs - x')⟫_ℝ ≤ ‖y' - y‖ * (m * ‖x' - xs‖) := by
    refine (real_inner_le_norm _ _).trans (mul_le_mul_of_nonneg_left ?_ (norm_nonneg _))
    rw [norm_sub_rev x' xs]; exact hm _
  have hwx : ‖M x' - w‖ ≤ m * ‖x' - x‖ + τ⁻¹ * ‖y' - y‖ := by
    have : M x' - w = M (x' - x) + τ⁻¹ • (y' - y) := by rw [hw, map_sub, smul_sub, smul_sub]; abel
    rw [this]
    refine (norm_add_le _ _).trans (add_le_add (hm _) ?_)
    rw [norm_smul, Real.norm_eq_abs, abs_of_pos (by positivity)]
  have b3 : -⟪y', M x' - w⟫_ℝ ≤ l * ‖M x' - w‖ := by
    have h1 := (neg_le_abs _).trans (abs_real_inner_le_norm y' (M x' - w))
    exact h1.trans (mul_le_mul_of_nonneg_right hyn (norm_nonneg _))
  have hmain : f x' + G.val x' + h (M x') - (f xs + G.val xs + h (M xs)) ≤
      σ⁻¹ * (‖x' - x‖ * ‖x' - xs‖) + ‖y' - y‖ * (m * ‖x' - xs‖) + L / 2 * ‖x' - x‖ ^ 2 + 2 * (l * ‖M x' - w‖) := by
    linarith
  have := mul_le_mul_of_nonneg_left hwx hl
  linarith

/-- The primal-dual method without line search with a Lipschitz `h`, from a primal minimiser alone. -/
theorem primal_dual_solves [CompleteSpace F] {P : PDArgs E F} {M : E →ₗ[ℝ] F} {Mt : F →ₗ[ℝ] E} (hok : PDOk P M Mt) {G : ExtFun E} {h : F → ℝ}
    (hG : G.IsConvex) (hp1 : IsProxOf G P.p1) (hH : (⟨Set.univ, h⟩ : ExtFun F).IsConvex) (hp2 : IsProxOf ⟨Set.univ, h⟩ P.p2) {f : E → ℝ} {g : E → E}
    (hfg : ∀ x, (P.fg x).2 = g x) (hf : ConvexGrad f g) {L m l : ℝ} (hL : 0 < L) (hq : UpperQuad f g L)
    (hls : P.lineSearch = false) (hm0 : 0 ≤ m) (hm : ∀ x, ‖M x‖ ≤ m * ‖x‖) (hσL : 0 < 1 / P.stepSize - L / 2)
    (hstep : m ^ 2 < (1 / P.stepSize - L / 2) * (1 / P.tau0)) (hl : 0 ≤ l) (hlip : ∀ a b, h a - h b ≤ l * ‖a - b‖)
    {xs : E} (hxs : xs ∈ G.dom) (hmin : ∀ x ∈ G.dom, f xs + G.val xs + h (M xs) ≤ f x + G.val x + h (M x))
    (hcb : P.callback = none) (htol : 0 < P.tol) (hlsi : 0 < P.lsIter) {K : ℕ} (hK : 100 * K < P.maxIter) {κ B : ℝ}
    (hκ : κ = ((1 / P.stepSize - L / 2) * (1 / P.tau0) - m ^ 2) / (1 / P.stepSize - L / 2 + 1 / P.tau0))
    (hB : B = ‖P.x0 - xs‖ ^ 2 / P.stepSize + (‖M P.x0‖ + l) ^ 2 / P.tau0 + 2 * (m * ‖P.x0 - xs‖ * (‖M P.x0‖ + l)))
    (hbig : 2 * B < K * (κ * P.tol ^ 2)) :
    ∃ res, minimizePrimalDual P = some (.ok res) ∧ res.success = true ∧ res.x ∈ G.dom ∧
      f res.x + G.val res.x + h (M res.x) - (f xs + G.val xs + h (M xs)) ≤
        P.tol * ((1 / P.stepSize + m) * Real.sqrt (B / κ) + 2 * l * (m + 1 / P.tau0) + L / 2 * P.tol) := by
  have hcont : Continuous h := by
    have : LipschitzWith ⟨l, hl⟩ h := LipschitzWith.of_dist_le_mul fun a b => by
      rw [Real.dist_eq, dist_eq_norm, abs_le]
      have h1 := hlip a b
      have h2 := hlip b a
      rw [norm_sub_rev] at h2
      exact ⟨by show -(l * ‖a - b‖) ≤ _; linarith, h1⟩
    exact this.continuous
  obtain ⟨ys, hys, hgs⟩ := exists_saddle M hG hf hq hH hcont hxs hmin
  have hgs : IsSubgrad G xs (-Mt ys - g xs) := hgs (Mt ys) fun x => by rw [real_inner_comm, ← hok.adjoint, real_inner_comm]
  have hyl := subgrad_norm_le hl hlip hys
  have hσ := hok.step
  have hτ := hok.tau0_pos
  have hκ0 : 0 < κ := by rw [hκ]; exact div_pos (by linarith) (by positivity)
  have hM0 : 0 ≤ ‖M P.x0‖ + l := by positivity
  -- the initial distance
  have hV0 : pdMetric M P.stepSize P.tau0 (P.x0 - xs) (M P.x0 - ys) ≤ B := by
    have h1 : ‖M P.x0 - ys‖ ≤ ‖M P.x0‖ + l := (norm_sub_le _ _).trans (add_le_add_right hyl _)
    have h2 : ‖M P.x0 - ys‖ ^ 2 / P.tau0 ≤ (‖M P.x0‖ + l) ^ 2 / P.tau0 := by
      rw [div_le_div_iff_of_pos_right hτ]
      exact pow_le_pow_left₀ (norm_nonneg _) h1 2
    have h3 : ⟪M (P.x0 - xs), M P.x0 - ys⟫_ℝ ≤ m * ‖P.x0 - xs‖ * (‖M P.x0‖ + l) :=
      (real_inner_le_norm _ _).trans (mul_le_mul (hm _) h1 (norm_nonneg _) (by positivity))
    unfold pdMetric
    rw [hB]
    linarith
  obtain ⟨s, hs, -, hdec, -, -⟩ := C78_fejer hok hG hp1 hH hp2 hfg hf hL hq hls hm hσL hstep hys hgs
  obtain ⟨res, hres, hsuc⟩ := C78_success hok hG hp1 hH hp2 hfg hf hL hq hls hm hσL hstep hys hgs hcb htol hlsi hK (by
    rw [← hκ]; linarith)
  have hfin := pd_final_iter hs hres
  obtain ⟨-, -, hlt⟩ := C54_success hres hsuc
  have hx := (pd_run hres).2.1
  set k := res.nit with hk
  obtain ⟨hg, ht, hsg⟩ := pdIter_fixed hok hG hp1 hH hp2 hfg hls k (s k) (hs k)
  obtain ⟨st', hn, -, -, -, -, hd, hp⟩ := pd_fixed_iter hok hG hp1 hH hp2 hfg hls k hg
  have e : s (k + 1) = st' := by
    have h1 := hs (k + 1)
    rw [pdIter, hs k, Option.bind_some, hn] at h1
    exact (Option.some.inj h1).symm
  have hold : st'.xOld = (s k).x ∧ st'.yOld = (s k).y := by
    unfold pdNext at hn
    rw [Option.map_eq_some_iff] at hn
    obtain ⟨r, -, rfl⟩ := hn
    exact ⟨rfl, rfl⟩
  rw [hx, hfin, e, hold.1, hold.2] at hlt
  rw [ht] at hd
  rw [hsg] at hp
  refine ⟨res, hres, hsuc, ?_⟩
  rw [hx, hfin, e]
  refine ⟨hp.1, ?_⟩
  -- the distance to the minimiser
  have hdist : ‖st'.x - xs‖ ≤ Real.sqrt (B / κ) := by
    have hV : ∀ j, pdMetric M P.stepSize P.tau0 ((s j).x - xs) ((s j).y - ys) ≤ B := by
      intro j
      induction j with
      | zero =>
        have hs0 : s 0 = pdInit P := (Option.some.inj (hs 0)).symm
        rw [hs0]
        have : (pdInit P).y = M P.x0 := by show P.matvec P.x0 = _; rw [hok.matvec]
        rw [this]; exact hV0
      | succ j ih => exact (hdec j).trans ih
    have h1 := hV (k + 1)
    rw [e] at h1
    have h2 := pdMetric_lower (σ := P.stepSize) hm hτ hσL hstep (st'.x - xs) (st'.y - ys)
    rw [← hκ] at h2
    have h3 : κ * ‖st'.x - xs‖ ^ 2 ≤ B := by
      have h4 : 0 ≤ κ * ‖st'.y - ys‖ ^ 2 := by positivity
      have h5 : 0 ≤ (1 / P.stepSize - (1 / P.stepSize - L / 2)) * ‖st'.x - xs‖ ^ 2 := by
        rw [sub_sub_cancel]; positivity
      rw [mul_add] at h2
      linarith
    refine Real.le_sqrt_of_sq_le ?_
    rw [le_div_iff₀ hκ0]; linarith
  -- the objective
  refine (pd_gap hok.adjoint hf hσ hτ hq hm hl hlip hxs hd hp).trans ?_
  set a := ‖st'.x - (s k).x‖ with ha
  set b := ‖st'.y - (s k).y‖ with hb
  set R := Real.sqrt (B / κ) with hR
  have ha0 : 0 ≤ a := norm_nonneg _
  have hb0 : 0 ≤ b := norm_nonneg _
  have hat : a ≤ P.tol := by linarith
  have hbt : b ≤ P.tol := by linarith
  have hR0 : 0 ≤ R := Real.sqrt_nonneg _
  have c1 : P.stepSize⁻¹ * (a * ‖st'.x - xs‖) ≤ P.stepSize⁻¹ * (P.tol * R) :=
    mul_le_mul_of_nonneg_left (mul_le_mul hat hdist (norm_nonneg _) htol.le) (by positivity)
  have c2 : b * (m * ‖st'.x - xs‖) ≤ P.tol * (m * R) :=
    mul_le_mul hbt (mul_le_mul_of_nonneg_left hdist hm0) (by positivity) htol.le
  have c3 : L / 2 * a ^ 2 ≤ L / 2 * P.tol ^ 2 := mul_le_mul_of_nonneg_left (pow_le_pow_left₀ ha0 hat 2) (by positivity)
  have c4 : l * (m * a + P.tau0⁻¹ * b) ≤ l * (m * P.tol + P.tau0⁻¹ * P.tol) :=
    mul_le_mul_of_nonneg_left (add_le_add (mul_le_mul_of_nonneg_left hat hm0) (mul_le_mul_of_nonneg_left hbt (by positivity))) hl
  rw [one_div, one_div]
  linarith

end General

variable {n d p : ℕ}

/-! ### Matrices as linear operators -/

/-- The matrix as a linear map between Euclidean spaces. -/
noncomputable def opLin (A : Fin p → Fin d → ℝ) : EuclideanSpace ℝ (Fin d) →ₗ[ℝ] EuclideanSpace ℝ (Fin p) where
  toFun := opMatvec A
  map_add' x y := by
    ext i
    show ∑ j, A i j * (WithLp.ofLp x j + WithLp.ofLp y j) = ∑ j, A i j * WithLp.ofLp x j + ∑ j, A i j * WithLp.ofLp y j
    rw [← Finset.sum_add_distrib]
    exact Finset.sum_congr rfl fun j _ => by ring
  map_smul' c x := by
    ext i
    show ∑ j, A i j * (c * WithLp.ofLp x j) = c * ∑ j, A i j * WithLp.ofLp x j
    rw [Finset.mul_sum]
    exact Finset.sum_congr rfl fun j _ => by ring

/-- Its transpose. -/
noncomputable def opLinT (A : Fin p → Fin d → ℝ) : EuclideanSpace ℝ (Fin p) →ₗ[ℝ] EuclideanSpace ℝ (Fin d) where
  toFun := opRmatvec A
  map_add' x y := by
    ext j
    show ∑ i, A i j * (WithLp.ofLp x i + WithLp.ofLp y i) = ∑ i, A i j * WithLp.ofLp x i + ∑ i, A i j * WithLp.ofLp y i
    rw [← Finset.sum_add_distrib]
    exact Finset.sum_congr rfl fun j _ => by ring
  map_smul' c x := by
    ext j
    show ∑ i, A i j * (c * WithLp.ofLp x i) = c * ∑ i, A i j * WithLp.ofLp x i
    rw [Finset.mul_sum]
    exact Finset.sum_congr rfl fun j _ => by ring

theorem opLin_adjoint (A : Fin p → Fin d → ℝ) (x : EuclideanSpace ℝ (Fin d)) (y : EuclideanSpace ℝ (Fin p)) :
    ⟪opLin A x, y⟫_ℝ = ⟪x, opLinT A y⟫_ℝ := by
  rw [inner_ofLp, inner_ofLp]
  show ∑ i, (∑ j, A i j * WithLp.ofLp x j) * WithLp.ofLp y i = ∑ j, WithLp.ofLp x j * ∑ i, A i j * WithLp.ofLp y i
  simp only [Finset.sum_mul, Finset.mul_sum]
  rw [Finset.sum_comm]
  exact Finset.sum_congr rfl fun j _ => Finset.sum_congr rfl fun i _ => by ring

theorem opMatvec_eye (x : EuclideanSpace ℝ (Fin d)) : opMatvec (eyeMat d) x = x := by
  ext i
  show ∑ j, (if i = j then (1 : ℝ) else 0) * WithLp.ofLp x j = WithLp.ofLp x i
  simp

/-! ### The bound on the norm of the 2-D difference operator -/

variable {R C : ℕ}

theorem diffRows_sq (x : Fin (R * C) → ℝ) (i : Fin R) (j : Fin C) :
    (((diffRows R C i j).map fun row => ∑ k, row k * x k).map fun t => t ^ 2).sum =
      (if h : i.val + 1 < R then (pix x ⟨i + 1, h⟩ j - pix x i j) ^ 2 else 0) +
      (if h : j.val + 1 < C then (pix x i ⟨j + 1, h⟩ - pix x i j) ^ 2 else 0) := by
  unfold diffRows
  rw [List.map_append, List.map_append, List.sum_append]
  congr 1
  · by_cases h : i.val + 1 < R
    · rw [if_pos h, dif_pos h]
      simp only [List.map_cons, List.map_nil, List.sum_cons, List.sum_nil, add_zero]
      have := diffRow_apply x (i := i) (i' := ⟨i + 1, h⟩) (j := j) (j' := j)
        (fun hh => by simpa [Fin.ext_iff] using hh.1)
      rw [← neg_sub, neg_sq, ← this]
    · rw [if_neg h, dif_neg h]; simp
  · by_cases h : j.val + 1 < C
    · rw [if_pos h, dif_pos h]
      simp only [List.map_cons, List.map_nil, List.sum_cons, List.sum_nil, add_zero]
      have := diffRow_apply x (i := i) (i' := i) (j := j) (j' := ⟨j + 1, h⟩)
        (fun hh => by simpa [Fin.ext_iff] using hh.2)
      rw [← neg_sub, neg_sq, ← this]
    · rw [if_neg h, dif_neg h]; simp

theorem diff1_sq_le (y : Fin n → ℝ) : ∑ k : Fin n, (if h : k.val + 1 < n then (y ⟨k + 1, h⟩ - y k) ^ 2 else 0) ≤ 4 * ∑ k, y k ^ 2 := by
  rcases n with _ | m
  · simp
  · have h1 : ∑ k : Fin m, y k.succ ^ 2 ≤ ∑ i, y i ^ 2 := by
      rw [Fin.sum_univ_succ (fun i => y i ^ 2)]
      linarith [sq_nonneg (y 0)]
    have h2 : ∑ k : Fin m, y k.castSucc ^ 2 ≤ ∑ i, y i ^ 2 := by
      rw [Fin.sum_univ_castSucc (fun i => y i ^ 2)]
      linarith [sq_nonneg (y (Fin.last m))]
    rw [Fin.sum_univ_castSucc]
    simp only [Fin.val_last, lt_irrefl, dite_false, add_zero]
    have h3 : ∑ k : Fin m, (if h : k.castSucc.val + 1 < m + 1 then (y ⟨k.castSucc.val + 1, h⟩ - y k.castSucc) ^ 2 else 0) ≤
        ∑ k : Fin m, (2 * y k.succ ^ 2 + 2 * y k.castSucc ^ 2) := by
      refine Finset.sum_le_sum fun k _ => ?_
      rw [dif_pos (by simp)]
      have : y ⟨k.castSucc.val + 1, by simp⟩ = y k.succ := rfl
      rw [this]
      nlinarith [sq_nonneg (y k.succ + y k.castSucc)]
    rw [Finset.sum_add_distrib, ← Finset.mul_sum, ← Finset.mul_sum] at h3
    refine h3.trans ?_
    linarith

theorem tv2dRows_sq_le (x : Fin (R * C) → ℝ) :
    (((tv2dRows R C).map fun row => ∑ k, row k * x k).map fun t => t ^ 2).sum ≤ 8 * dot x x := by
  have e : (((tv2dRows R C).map fun row => ∑ k, row k * x k).map fun t => t ^ 2).sum = ∑ i : Fin R, ∑ j : Fin C,
      ((if h : i.val + 1 < R then (pix x ⟨i + 1, h⟩ j - pix x i j) ^ 2 else 0) +
      (if h : j.val + 1 < C then (pix x i ⟨j + 1, h⟩ - pix x i j) ^ 2 else 0)) := by
    unfold tv2dRows
    rw [List.map_map, List.map_flatMap]
    simp only [List.map_flatMap]
    rw [sum_flatMap', sum_map_range]
    simp only [sum_flatMap', sum_map_range]
    refine Finset.sum_congr rfl fun i _ => Finset.sum_congr rfl fun j _ => ?_
    rw [← diffRows_sq x i j, List.map_map]
  rw [e]
  simp only [Finset.sum_add_distrib]
  have h1 : ∑ i : Fin R, ∑ j : Fin C, (if h : i.val + 1 < R then (pix x ⟨i + 1, h⟩ j - pix x i j) ^ 2 else 0) ≤ 4 * dot x x := by
    have e : dot x x = ∑ j : Fin C, ∑ i : Fin R, pix x i j * pix x i j := by rw [dot_pix, Finset.sum_comm]
    rw [Finset.sum_comm, e, Finset.mul_sum]
    refine Finset.sum_le_sum fun j _ => ?_
    have := diff1_sq_le fun i => pix x i j
    refine this.trans (le_of_eq ?_)
    congr 1
    exact Finset.sum_congr rfl fun i _ => sq _
  have h2 : ∑ i : Fin R, ∑ j : Fin C, (if h : j.val + 1 < C then (pix x i ⟨j + 1, h⟩ - pix x i j) ^ 2 else 0) ≤ 4 * dot x x := by
    rw [dot_pix, Finset.mul_sum]
    refine Finset.sum_le_sum fun i _ => ?_
    have := diff1_sq_le fun j => pix x i j
    refine this.trans (le_of_eq ?_)
    congr 1
    exact Finset.sum_congr rfl fun i _ => sq _
  linarith

theorem sum_tv2dMat (x : EuclideanSpace ℝ (Fin (R * C))) (φ : ℝ → ℝ) :
    ∑ i, φ (WithLp.ofLp (opMatvec (tv2dMat R C) x) i) = (((tv2dRows R C).map fun row => ∑ k, row k * WithLp.ofLp x k).map φ).sum := by
  rw [List.map_map]
  exact (Fin.sum_univ_fun_getElem (tv2dRows (K := ℝ) R C) fun row => φ (∑ k, row k * WithLp.ofLp x k))

/-- **C103 (operator).** `L = tv2d_linear_operator(n_rows, n_cols)` satisfies `‖L x‖₁ = TV(x)` and `‖L x‖ ≤ √8 ‖x‖` for every image. -/
theorem C103_tv2d_operator (x : EuclideanSpace ℝ (Fin (R * C))) :
    norm1 (WithLp.ofLp (opMatvec (tv2dMat R C) x)) = tv2 R C (WithLp.ofLp x) ∧ ‖opMatvec (tv2dMat R C) x‖ ≤ Real.sqrt 8 * ‖x‖ := by
  constructor
  · unfold norm1
    rw [sum_tv2dMat x abs]
    exact tv2dRows_norm _
  · refine le_of_sq_le_sq ?_ (by positivity)
    rw [mul_pow, Real.sq_sqrt (by norm_num), norm_sq_ofLp, norm_sq_ofLp]
    have h1 := sum_tv2dMat x fun t => t ^ 2
    have h2 := tv2dRows_sq_le (R := R) (C := C) (WithLp.ofLp x)
    rw [← h1] at h2
    refine le_trans (le_of_eq ?_) h2
    exact Finset.sum_congr rfl fun i _ => (sq _).symm

/-! ### C103 -/

/-- **C103.** `minimize_primal_dual(f.f_grad, x0, o1.prox, o2.prox, L=A, step_size=sigma, step_size2=tau, line_search=False)` with any loss, any
data, any penalty or constraint as first operator, any penalty with Lipschitz constant `l` as second one, any matrix with `‖A x‖ ≤ m ‖x‖`, no
callback, step sizes with `m² < (1/sigma - f.lipschitz/2)/tau`, and `xs` any minimiser of `f(x) + g(x) + h(A x)`: with
`κ = ((1/sigma - L/2)/tau - m²)/(1/sigma - L/2 + 1/tau)`, `B = ‖x0 - xs‖²/sigma + (‖A x0‖ + l)²/tau + 2 m ‖x0 - xs‖ (‖A x0‖ + l)` and
`2 B < K κ tol²`, `100 K < max_iter`, the run returns and reports success, and the objective at the returned point exceeds the minimum by at most
`tol ((1/sigma + m) √(B/κ) + 2 l (m + 1/tau) + tol L/2)`. -/
theorem C103_primal_dual (f : LossObj n d) (hf : f.Good) {s : ℝ} (hs : IsLargestSingular f.mat s) (hL : 0 < f.lipschitz s)
    (o1 : SplitObj d) (o2 : SplitObj p) (h1 : o1.Good) (h2 : o2.Good) {l : ℝ} (hl : o2.lip = some l) (A : Fin p → Fin d → ℝ) {m : ℝ} (hm0 : 0 ≤ m)
    (hm : ∀ x, ‖opMatvec A x‖ ≤ m * ‖x‖) (P : PDArgs (EuclideanSpace ℝ (Fin d)) (EuclideanSpace ℝ (Fin p)))
    (hfg : P.fg = f.oracle) (hp1 : P.prox1 = some o1.proxE) (hp2 : P.prox2 = some o2.proxE) (hmv : P.matvec = opMatvec A) (hrmv : P.rmatvec = opRmatvec A)
    (hls : P.lineSearch = false) (hσ : 0 < P.stepSize) (hτ : ∀ t, P.stepSize2 = some t → 0 < t) (hσL : 0 < 1 / P.stepSize - f.lipschitz s / 2)
    (hstep : m ^ 2 < (1 / P.stepSize - f.lipschitz s / 2) * (1 / P.tau0)) (hcb : P.callback = none) (htol : 0 < P.tol) (hlsi : 0 < P.lsIter)
    {xs : EuclideanSpace ℝ (Fin d)} (hxs : xs ∈ o1.fn.dom)
    (hmin : ∀ x ∈ o1.fn.dom, f.fn xs + o1.fn.val xs + o2.fn.val (opMatvec A xs) ≤ f.fn x + o1.fn.val x + o2.fn.val (opMatvec A x))
    {K : ℕ} (hK : 100 * K < P.maxIter) {κ B : ℝ}
    (hκ : κ = ((1 / P.stepSize - f.lipschitz s / 2) * (1 / P.tau0) - m ^ 2) / (1 / P.stepSize - f.lipschitz s / 2 + 1 / P.tau0))
    (hB : B = ‖P.x0 - xs‖ ^ 2 / P.stepSize + (‖opMatvec A P.x0‖ + l) ^ 2 / P.tau0 + 2 * (m * ‖P.x0 - xs‖ * (‖opMatvec A P.x0‖ + l)))
    (hbig : 2 * B < K * (κ * P.tol ^ 2)) :
    ∃ res, minimizePrimalDual P = some (.ok res) ∧ res.success = true ∧ res.x ∈ o1.fn.dom ∧
      f.fn res.x + o1.fn.val res.x + o2.fn.val (opMatvec A res.x) - (f.fn xs + o1.fn.val xs + o2.fn.val (opMatvec A xs)) ≤
        P.tol * ((1 / P.stepSize + m) * Real.sqrt (B / κ) + 2 * l * (m + 1 / P.tau0) + f.lipschitz s / 2 * P.tol) := by
  obtain ⟨-, hconv, hq, -⟩ := C92_loss f hf hs
  obtain ⟨c1, q1, -⟩ := C102_prox_exact o1 h1
  obtain ⟨c2, q2, -, h3⟩ := C102_prox_exact o2 h2
  obtain ⟨hl0, e, hlip⟩ := h3 l hl
  have hok : PDOk P (opLin A) (opLinT A) := ⟨hmv, hrmv, opLin_adjoint A, hσ, hτ⟩
  exact primal_dual_solves hok c1 (by unfold PDArgs.p1; rw [hp1]; exact q1) (h := o2.fn.val) (e ▸ c2) (by unfold PDArgs.p2; rw [hp2]; exact e ▸ q2)
    (f := f.fn) (g := f.gradE) (fun x => by rw [hfg]; rfl) hconv hL hq hls hm0 hm hσL hstep hl0 hlip hxs hmin hcb htol hlsi hK hκ hB hbig

/-- **C103 (total variation).** With `L=tv2d_linear_operator(n_rows, n_cols)` and `prox_2=L1Norm(beta).prox` the method solves
`min f(x) + g(x) + beta TV(x)`, `TV` the anisotropic 2-D total variation, when `8 < (1/sigma - f.lipschitz/2)/tau`. -/
theorem C103_total_variation (f : LossObj n (R * C)) (hf : f.Good) {s : ℝ} (hs : IsLargestSingular f.mat s) (hL : 0 < f.lipschitz s)
    (o1 : SplitObj (R * C)) (h1 : o1.Good) {beta : ℝ} (hb : 0 ≤ beta)
    (P : PDArgs (EuclideanSpace ℝ (Fin (R * C))) (EuclideanSpace ℝ (Fin (tv2dRows (K := ℝ) R C).length)))
    (hfg : P.fg = f.oracle) (hp1 : P.prox1 = some o1.proxE) (hp2 : P.prox2 = some (SplitObj.pen (.l1Norm beta)).proxE)
    (hmv : P.matvec = opMatvec (tv2dMat R C)) (hrmv : P.rmatvec = opRmatvec (tv2dMat R C))
    (hls : P.lineSearch = false) (hσ : 0 < P.stepSize) (hτ : ∀ t, P.stepSize2 = some t → 0 < t) (hσL : 0 < 1 / P.stepSize - f.lipschitz s / 2)
    (hstep : 8 < (1 / P.stepSize - f.lipschitz s / 2) * (1 / P.tau0)) (hcb : P.callback = none) (htol : 0 < P.tol) (hlsi : 0 < P.lsIter)
    {xs : EuclideanSpace ℝ (Fin (R * C))} (hxs : xs ∈ o1.fn.dom)
    (hmin : ∀ x ∈ o1.fn.dom, f.fn xs + o1.fn.val xs + beta * tv2 R C (WithLp.ofLp xs) ≤ f.fn x + o1.fn.val x + beta * tv2 R C (WithLp.ofLp x)) {l : ℝ}
    (hl : l = beta * Real.sqrt (tv2dRows (K := ℝ) R C).length) {K : ℕ} (hK : 100 * K < P.maxIter) {κ B : ℝ}
    (hκ : κ = ((1 / P.stepSize - f.lipschitz s / 2) * (1 / P.tau0) - 8) / (1 / P.stepSize - f.lipschitz s / 2 + 1 / P.tau0))
    (hB : B = ‖P.x0 - xs‖ ^ 2 / P.stepSize + (‖opMatvec (tv2dMat R C) P.x0‖ + l) ^ 2 / P.tau0 +
      2 * (Real.sqrt 8 * ‖P.x0 - xs‖ * (‖opMatvec (tv2dMat R C) P.x0‖ + l)))
    (hbig : 2 * B < K * (κ * P.tol ^ 2)) :
    ∃ res, minimizePrimalDual P = some (.ok res) ∧ res.success = true ∧ res.x ∈ o1.fn.dom ∧
      f.fn res.x + o1.fn.val res.x + beta * tv2 R C (WithLp.ofLp res.x) - (f.fn xs + o1.fn.val xs + beta * tv2 R C (WithLp.ofLp xs)) ≤
        P.tol * ((1 / P.stepSize + Real.sqrt 8) * Real.sqrt (B / κ) + 2 * l * (Real.sqrt 8 + 1 / P.tau0) + f.lipschitz s / 2 * P.tol) := by
  have e8 : Real.sqrt 8 ^ 2 = 8 := Real.sq_sqrt (by norm_num)
  have e : ∀ x, (SplitObj.pen (.l1Norm beta) : SplitObj (tv2dRows (K := ℝ) R C).length).fn.val (opMatvec (tv2dMat R C) x) =
      beta * tv2 R C (WithLp.ofLp x) := by
    intro x
    show beta * norm1 (WithLp.ofLp (opMatvec (tv2dMat R C) x)) = _
    rw [(C103_tv2d_operator x).1]
  have := C103_primal_dual (p := (tv2dRows (K := ℝ) R C).length) f hf hs hL o1 (.pen (.l1Norm beta)) h1 hb (l := l) (by rw [hl]; rfl) (tv2dMat R C) (Real.sqrt_nonneg 8)
    (fun x => (C103_tv2d_operator x).2) P hfg hp1 hp2 hmv hrmv hls hσ hτ hσL (by rw [e8]; exact hstep) hcb htol hlsi hxs
    (fun x hx => by rw [e, e]; exact hmin x hx) hK (by rw [e8]; exact hκ) hB hbig
  simp only [e] at this
  exact this

end Copt
