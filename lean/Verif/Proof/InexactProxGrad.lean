import Verif.Model.FloatProxGrad
import Verif.Proof.RoundedSteps
import Verif.Proof.Convex
import Verif.Proof.Objects
import Mathlib.Topology.MetricSpace.Contracting

/-! # The proximal gradient iteration with rounded arithmetic -/

set_option linter.unusedSectionVars false

namespace Copt

open Spec

open scoped InnerProductSpace

section Exact

variable {E : Type} [NormedAddCommGroup E] [InnerProductSpace ℝ E]

theorem Spec.StrongGrad.convex {f : E → ℝ} {g : E → E} {mu : ℝ} (h : StrongGrad f g mu) (hm : 0 ≤ mu) : ConvexGrad f g := fun x y => by
  have := h x y
  have : 0 ≤ mu / 2 * ‖y - x‖ ^ 2 := by positivity
  linarith

theorem Spec.StrongGrad.mono {f : E → ℝ} {g : E → E} {mu : ℝ} (h : StrongGrad f g mu) (x y : E) : mu * ‖x - y‖ ^ 2 ≤ ⟪g x - g y, x - y⟫_ℝ := by
  have h1 := h x y
  have h2 := h y x
  rw [norm_sub_rev y x] at h1
  have e : ⟪g x - g y, x - y⟫_ℝ = -⟪g x, y - x⟫_ℝ - ⟪g y, x - y⟫_ℝ := by rw [inner_sub_left, ← inner_neg_right, neg_sub]
  rw [e]; linarith

/-- The minimiser of `f + G` is a fixed point of the proximal gradient step. -/
theorem minimiser_fixed {f : E → ℝ} {g : E → E} {G : ExtFun E} {L : ℝ} (hq : UpperQuad f g L) (hG : G.IsConvex) {xs : E} (hd : xs ∈ G.dom)
    (hmin : ∀ y ∈ G.dom, f xs + G.val xs ≤ f y + G.val y) {s : ℝ} (hs : 0 < s) : IsProxPt G s (xs - s • g xs) xs := by
  have hsub : IsSubgrad G xs (-g xs) := by
    refine ⟨hd, fun y hy => ?_⟩
    have key : 0 ≤ (G.val y - G.val xs + ⟪g xs, y - xs⟫_ℝ) := by
      refine nonneg_of_small (b := L / 2 * ‖y - xs‖ ^ 2) fun t ht0 ht1 => ?_
      have hmem : (1 - t) • xs + t • y ∈ G.dom := hG.1 hd hy (by linarith) ht0.le (by ring)
      have h1 := hmin _ hmem
      have h2 := hG.2 hd hy (by linarith : 0 ≤ 1 - t) ht0.le (by ring)
      rw [smul_eq_mul, smul_eq_mul] at h2
      have h3 := hq xs ((1 - t) • xs + t • y)
      have e : (1 - t) • xs + t • y - xs = t • (y - xs) := by module
      rw [e, inner_smul_right, norm_smul, mul_pow, Real.norm_eq_abs, sq_abs] at h3
      have h4 : 0 ≤ t * (G.val y - G.val xs + ⟪g xs, y - xs⟫_ℝ + t * (L / 2 * ‖y - xs‖ ^ 2)) := by nlinarith
      exact nonneg_of_mul_nonneg_right h4 ht0
    rw [inner_neg_left]; linarith
  have := hsub.prox hs
  rwa [smul_neg, ← sub_eq_add_neg] at this

/-- The gradient step is a contraction. -/
theorem forward_contracts {f : E → ℝ} {g : E → E} {mu L : ℝ} (hmu : 0 < mu) (hL : 0 < L) (hf : StrongGrad f g mu) (hq : UpperQuad f g L) {s s1 s2 : ℝ} (hs1 : 0 < s1) (h1 : s1 ≤ s)
    (h2 : s ≤ s2) (hs2 : s2 * L < 2) (x xs : E) : ‖x - s • g x - (xs - s • g xs)‖ ≤ Real.sqrt (1 - s1 * mu * (2 - s2 * L)) * ‖x - xs‖ := by
  have hs : 0 < s := by linarith
  have hc := cocoercive hL (hf.convex hmu.le) hq x xs
  have hm := hf.mono x xs
  have e : x - s • g x - (xs - s • g xs) = (x - xs) + (-s) • (g x - g xs) := by module
  have e2 : ‖x - s • g x - (xs - s • g xs)‖ ^ 2 = ‖x - xs‖ ^ 2 - 2 * s * ⟪g x - g xs, x - xs⟫_ℝ + s ^ 2 * ‖g x - g xs‖ ^ 2 := by
    rw [e, norm_add_smul_sq, real_inner_comm]; ring
  have h4 : ‖g x - g xs‖ ^ 2 ≤ L * ⟪g x - g xs, x - xs⟫_ℝ := by
    have := mul_le_mul_of_nonneg_left hc hL.le
    rwa [← mul_assoc, mul_one_div_cancel hL.ne', one_mul] at this
  have h5 : s ^ 2 * ‖g x - g xs‖ ^ 2 ≤ s ^ 2 * (L * ⟪g x - g xs, x - xs⟫_ℝ) := mul_le_mul_of_nonneg_left h4 (sq_nonneg s)
  have hN := sq_nonneg ‖x - xs‖
  have hI : 0 ≤ ⟪g x - g xs, x - xs⟫_ℝ := le_trans (by positivity) hm
  have hsL : s * L ≤ s2 * L := mul_le_mul_of_nonneg_right h2 hL.le
  have h6 : s1 * (2 - s2 * L) ≤ s * (2 - s * L) := mul_le_mul h1 (by linarith) (by linarith) hs.le
  have h7 : s1 * (2 - s2 * L) * (mu * ‖x - xs‖ ^ 2) ≤ s * (2 - s * L) * ⟪g x - g xs, x - xs⟫_ℝ :=
    mul_le_mul h6 hm (by positivity) (le_trans (mul_nonneg hs1.le (by linarith)) h6)
  have h8 : ‖x - s • g x - (xs - s • g xs)‖ ^ 2 ≤ (1 - s1 * mu * (2 - s2 * L)) * ‖x - xs‖ ^ 2 := by
    rw [e2]; nlinarith
  by_cases hz : ‖x - xs‖ = 0
  · rw [hz] at h8 ⊢
    have : ‖x - s • g x - (xs - s • g xs)‖ ^ 2 ≤ 0 := by simpa using h8
    have h0 : ‖x - s • g x - (xs - s • g xs)‖ = 0 := by nlinarith [norm_nonneg (x - s • g x - (xs - s • g xs))]
    rw [h0, mul_zero]
  · have hpos : 0 < ‖x - xs‖ ^ 2 := by positivity
    have hq0 : 0 ≤ 1 - s1 * mu * (2 - s2 * L) := by
      by_contra hneg
      push Not at hneg
      have := mul_neg_of_neg_of_pos hneg hpos
      linarith [sq_nonneg ‖x - s • g x - (xs - s • g xs)‖]
    refine abs_le_of_sq_le_sq' ?_ (by positivity) |>.2
    rw [mul_pow, Real.sq_sqrt hq0]; exact h8

/-- One exact step contracts towards the minimiser. -/
theorem step_contracts {f : E → ℝ} {g : E → E} {G : ExtFun E} {mu L : ℝ} (hmu : 0 < mu) (hL : 0 < L) (hf : StrongGrad f g mu) (hq : UpperQuad f g L) (hG : G.IsConvex) {xs : E}
    (hd : xs ∈ G.dom) (hmin : ∀ y ∈ G.dom, f xs + G.val xs ≤ f y + G.val y) {s s1 s2 : ℝ} (hs1 : 0 < s1) (h1 : s1 ≤ s) (h2 : s ≤ s2) (hs2 : s2 * L < 2) {x p : E}
    (hp : IsProxPt G s (x - s • g x) p) : ‖p - xs‖ ≤ Real.sqrt (1 - s1 * mu * (2 - s2 * L)) * ‖x - xs‖ := by
  have hs : 0 < s := by linarith
  have hfix := minimiser_fixed hq hG hd hmin hs
  have hne := hp.nonexpansive hG hs hfix
  exact hne.trans (forward_contracts hmu hL hf hq hs1 h1 h2 hs2 x xs)

/-- A fixed point of the proximal gradient step is a minimiser. -/
theorem minimiser_of_fixed {f : E → ℝ} {g : E → E} {G : ExtFun E} (hf : ConvexGrad f g) (hG : G.IsConvex) {xs : E} {s : ℝ} (hs : 0 < s) (h : IsProxPt G s (xs - s • g xs) xs) :
    xs ∈ G.dom ∧ ∀ y ∈ G.dom, f xs + G.val xs ≤ f y + G.val y := by
  have hsub := h.subgrad hG hs
  refine ⟨hsub.1, fun y hy => ?_⟩
  have h1 := hsub.2 y hy
  have e : s⁻¹ • (xs - s • g xs - xs) = -g xs := by
    rw [sub_sub_cancel_left, smul_neg, smul_smul, inv_mul_cancel₀ hs.ne', one_smul]
  rw [e, inner_neg_left] at h1
  linarith [hf xs y]

/-- The minimiser exists and is unique. -/
theorem exists_minimiser [CompleteSpace E] {f : E → ℝ} {g : E → E} {G : ExtFun E} {mu L : ℝ} (hmu : 0 < mu) (hL : 0 < L) (hf : StrongGrad f g mu) (hq : UpperQuad f g L) (hG : G.IsConvex)
    {prox : E → ℝ → E} (hp : IsProxOf G prox) : ∃ xs ∈ G.dom, (∀ y ∈ G.dom, f xs + G.val xs ≤ f y + G.val y) ∧
      ∀ z ∈ G.dom, (∀ y ∈ G.dom, f z + G.val z ≤ f y + G.val y) → z = xs := by
  have hs : 0 < L⁻¹ := by positivity
  have hsL : L⁻¹ * L < 2 := by rw [inv_mul_cancel₀ hL.ne']; norm_num
  obtain ⟨q, hqd⟩ : ∃ q, q = Real.sqrt (1 - L⁻¹ * mu * (2 - L⁻¹ * L)) := ⟨_, rfl⟩
  have hq0 : 0 ≤ q := by rw [hqd]; exact Real.sqrt_nonneg _
  have hq1 : q < 1 := by
    rw [hqd, Real.sqrt_lt' one_pos]
    have : 0 < L⁻¹ * mu * (2 - L⁻¹ * L) := mul_pos (by positivity) (by linarith)
    linarith
  have hcon : ContractingWith ⟨q, hq0⟩ (fun x => prox (x - L⁻¹ • g x) L⁻¹) := by
    refine ⟨by exact_mod_cast hq1, LipschitzWith.of_dist_le_mul fun x y => ?_⟩
    rw [dist_eq_norm, dist_eq_norm]
    refine ((hp _ _ hs).nonexpansive hG hs (hp _ _ hs)).trans ?_
    have := forward_contracts hmu hL hf hq hs le_rfl le_rfl hsL x y
    rw [← hqd] at this
    exact this
  have hfix := hcon.fixedPoint_isFixedPt
  obtain ⟨xs, hxs⟩ : ∃ xs, xs = hcon.fixedPoint := ⟨_, rfl⟩
  rw [← hxs] at hfix
  have hpp := hp (xs - L⁻¹ • g xs) L⁻¹ hs
  have hfix' : prox (xs - L⁻¹ • g xs) L⁻¹ = xs := hfix
  rw [hfix'] at hpp
  obtain ⟨hd, hmin⟩ := minimiser_of_fixed (hf.convex hmu.le) hG hs hpp
  refine ⟨xs, hd, hmin, fun z hz hzmin => ?_⟩
  have h1 := step_contracts hmu hL hf hq hG hd hmin hs le_rfl le_rfl hsL (minimiser_fixed hq hG hz hzmin hs)
  rw [← hqd] at h1
  have h2 : ‖z - xs‖ = 0 := by
    have := norm_nonneg (z - xs)
    by_contra hne
    have hpos : 0 < ‖z - xs‖ := lt_of_le_of_ne this (Ne.symm hne)
    have := mul_lt_mul_of_pos_right hq1 hpos
    linarith
  exact sub_eq_zero.mp (norm_eq_zero.mp h2)

/-- Lipschitz gradient. -/
theorem lip_of_cocoercive {f : E → ℝ} {g : E → E} {L : ℝ} (hL : 0 < L) (hf : ConvexGrad f g) (hq : UpperQuad f g L) (x y : E) : ‖g x - g y‖ ≤ L * ‖x - y‖ := by
  have hc := cocoercive hL hf hq x y
  have hcs := real_inner_le_norm (g x - g y) (x - y)
  by_cases h0 : ‖g x - g y‖ = 0
  · rw [h0]; positivity
  · have hpos : 0 < ‖g x - g y‖ := lt_of_le_of_ne (norm_nonneg _) (Ne.symm h0)
    have h1 : ‖g x - g y‖ ^ 2 ≤ L * (‖g x - g y‖ * ‖x - y‖) := by
      have := mul_le_mul_of_nonneg_left (hc.trans hcs) hL.le
      rwa [← mul_assoc, mul_one_div_cancel hL.ne', one_mul] at this
    have h2 : ‖g x - g y‖ * ‖g x - g y‖ ≤ ‖g x - g y‖ * (L * ‖x - y‖) := by nlinarith
    exact le_of_mul_le_mul_left h2 hpos

end Exact

variable {d : ℕ}

local notation "ℓ²" => EuclideanSpace ℝ (Fin d)

theorem norm_le_of_coord (v : ℓ²) {c : ℝ} (h : ∀ j, |v j| ≤ c) : ‖v‖ ≤ d * c := by
  have h1 : ‖v‖ ≤ ∑ j, |v j| := by
    rw [EuclideanSpace.norm_eq]
    rw [Real.sqrt_le_left (Finset.sum_nonneg fun j _ => abs_nonneg _)]
    simp only [Real.norm_eq_abs]
    have := Finset.sum_sq_le_sq_sum_of_nonneg (s := Finset.univ) (f := fun j => |v j|) fun j _ => abs_nonneg _
    exact this
  refine h1.trans ((Finset.sum_le_sum fun j _ => h j).trans ?_)
  rw [Finset.sum_const, Finset.card_univ, Fintype.card_fin, nsmul_eq_mul]

theorem coord_le_norm (v : ℓ²) (j : Fin d) : |v j| ≤ ‖v‖ := by
  have := PiLp.norm_apply_le v j
  rwa [Real.norm_eq_abs] at this


/-! ### The loop -/

/-- The iterates. -/
noncomputable def flPgOrbit (rd : ℝ → ℝ) (P : FlPGArgs d) : ℕ → Fin d → ℝ
  | 0 => P.x0
  | k + 1 => flPgNext rd P k (flPgOrbit rd P k)

theorem flPgLoop_spec (rd : ℝ → ℝ) (P : FlPGArgs d) : ∀ (m nit : ℕ) (x : Fin d → ℝ), x = flPgOrbit rd P nit →
    ∃ k, nit ≤ k ∧ k ≤ nit + m ∧ (flPgLoop rd P m nit x).nit = k ∧ (flPgLoop rd P m nit x).x = flPgOrbit rd P (k + 1) ∧
      (flPgLoop rd P m nit x).certificate = flPgCert rd P k (flPgOrbit rd P k) (flPgOrbit rd P (k + 1)) ∧
      ((flPgLoop rd P m nit x).success = true → (flPgLoop rd P m nit x).certificate < P.tol) ∧
      ((flPgLoop rd P m nit x).success = false → k = nit + m ∧ ∀ i, nit ≤ i → i ≤ k → ¬ flPgCert rd P i (flPgOrbit rd P i) (flPgOrbit rd P (i + 1)) < P.tol) := by
  intro m
  induction m with
  | zero =>
    intro nit x hx
    subst hx
    rw [flPgLoop]
    by_cases hc : flPgCert rd P nit (flPgOrbit rd P nit) (flPgNext rd P nit (flPgOrbit rd P nit)) < P.tol
    · rw [if_pos hc]
      exact ⟨nit, le_rfl, le_rfl, rfl, rfl, rfl, fun _ => hc, fun h => absurd h (by simp)⟩
    · rw [if_neg hc]
      refine ⟨nit, le_rfl, le_rfl, rfl, rfl, rfl, fun h => absurd h (by simp), fun _ => ⟨rfl, fun i h1 h2 => ?_⟩⟩
      obtain rfl : i = nit := by omega
      exact hc
  | succ m ih =>
    intro nit x hx
    subst hx
    rw [flPgLoop]
    by_cases hc : flPgCert rd P nit (flPgOrbit rd P nit) (flPgNext rd P nit (flPgOrbit rd P nit)) < P.tol
    · rw [if_pos hc]
      exact ⟨nit, le_rfl, by omega, rfl, rfl, rfl, fun _ => hc, fun h => absurd h (by simp)⟩
    · rw [if_neg hc]
      obtain ⟨k, h1, h2, h3, h4, h5, h6, h7⟩ := ih (nit + 1) (flPgNext rd P nit (flPgOrbit rd P nit)) rfl
      refine ⟨k, by omega, by omega, h3, h4, h5, h6, fun h => ?_⟩
      obtain ⟨h8, h9⟩ := h7 h
      refine ⟨by omega, fun i hi1 hi2 => ?_⟩
      rcases Nat.eq_or_lt_of_le hi1 with rfl | hlt
      · exact hc
      · exact h9 i hlt hi2

/-! ### Errors of one iteration -/

/-- The oracles of a run are computed with errors of relative size `K w`. -/
structure FlOracles (P : FlPGArgs d) (g : ℓ² → ℓ²) (proxE : ℓ² → ℝ → ℓ²) (K w : ℝ) : Prop where
  grad : ∀ k x j, |P.grad k x j - g (WithLp.toLp 2 x) j| ≤ K * w * (1 + norm2 x)
  prox : ∀ k v j, |P.prox k v (P.step k) j - proxE (WithLp.toLp 2 v) (P.step k) j| ≤ K * w * (1 + norm2 v)
  norm : ∀ k v, |P.norm k v - norm2 v| ≤ K * w * (1 + norm2 v)

theorem toLp_norm (x : Fin d → ℝ) : ‖(WithLp.toLp 2 x : ℓ²)‖ = norm2 x := norm_ofLp (WithLp.toLp 2 x)

/-- Distance between the computed and the exact iterate. -/
theorem flPgNext_error {g : ℓ² → ℓ²} {G : ExtFun ℓ²} (hG : G.IsConvex) {proxE : ℓ² → ℝ → ℓ²} (hp : IsProxOf G proxE) {K Bg s2 : ℝ} (hK : 0 ≤ K) (hBg0 : 0 ≤ Bg)
    (hs2 : 0 ≤ s2) (hBg : ∀ x, ‖g x‖ ≤ Bg * (1 + ‖x‖)) : ∃ D, 0 ≤ D ∧ ∀ (rd : ℝ → ℝ) (u eta w : ℝ), Rounding rd u eta → u ≤ w → eta ≤ w ^ 2 → 0 ≤ w → w ≤ 1 →
      ∀ P : FlPGArgs d, FlOracles P g proxE K w → ∀ k, 0 < P.step k → P.step k ≤ s2 → ∀ x,
        ‖(WithLp.toLp 2 (flPgNext rd P k x) : ℓ²) - proxE (WithLp.toLp 2 x - P.step k • g (WithLp.toLp 2 x)) (P.step k)‖ ≤ D * w * (1 + norm2 x) := by
  obtain ⟨C1, hC1⟩ : ∃ C1, C1 = 2 * (0 + (2 * (s2 * K) + s2 * Bg + 1)) + (1 + s2 * Bg) + 1 := ⟨_, rfl⟩
  have hC10 : 0 ≤ C1 := by rw [hC1]; positivity
  have hd0 : (0 : ℝ) ≤ d := Nat.cast_nonneg d
  refine ⟨d * (K * (2 + s2 * Bg + d * C1)) + d * C1, by positivity, ?_⟩
  intro rd u eta w hr hu he hw hw1 P hO k hs0 hs x
  obtain ⟨r, hrr⟩ : ∃ r, r = 1 + norm2 x := ⟨_, rfl⟩
  have hx0 : 0 ≤ norm2 x := Real.sqrt_nonneg _
  have hsc : Scale rd u eta w r := ⟨hr, hu, he, hw, hw1, by linarith⟩
  have hr0 : 0 ≤ r := by linarith
  set X : ℓ² := WithLp.toLp 2 x with hX
  have hXn : ‖X‖ = norm2 x := toLp_norm x
  have hgX : ‖g X‖ ≤ Bg * r := by rw [hrr, ← hXn]; exact hBg X
  obtain ⟨y, hy⟩ : ∃ y : Fin d → ℝ, y = fun j => rd (x j - rd (P.step k * P.grad k x j)) := ⟨_, rfl⟩
  have hclose : ∀ j, Close w r C1 (1 + s2 * Bg) (y j) (x j - P.step k * g X j) := by
    intro j
    have c1 : Close w r K Bg (P.grad k x j) (g X j) := ⟨by rw [hrr]; exact hO.grad k x j, (coord_le_norm _ j).trans hgX, hK, hBg0⟩
    have c2 := (c1.smul (P.step k)).mono hsc (C' := s2 * K) (B' := s2 * Bg) (by rw [abs_of_pos hs0]; exact mul_le_mul_of_nonneg_right hs hK)
      (by rw [abs_of_pos hs0]; exact mul_le_mul_of_nonneg_right hs hBg0)
    have c3 := c2.round hsc
    have c4 : Close w r 0 1 (x j) (x j) := ⟨by simp, by
      have := coord_le_norm X j
      rw [hXn] at this
      show |X j| ≤ _
      linarith, le_rfl, zero_le_one⟩
    have c5 := (c4.sub c3).round hsc
    rw [hy, hC1]
    exact c5
  obtain ⟨Y, hY⟩ : ∃ Y : ℓ², Y = WithLp.toLp 2 y := ⟨_, rfl⟩
  obtain ⟨Y0, hY0⟩ : ∃ Y0 : ℓ², Y0 = X - P.step k • g X := ⟨_, rfl⟩
  have hYd : ‖Y - Y0‖ ≤ d * (C1 * w * r) := by
    refine norm_le_of_coord _ fun j => ?_
    rw [hY, hY0]
    exact (hclose j).err
  have hYd' : ‖Y - Y0‖ ≤ d * C1 * r := by
    refine hYd.trans ?_
    have : C1 * w * r ≤ C1 * r := by
      have := mul_le_mul_of_nonneg_left hw1 hC10
      have := mul_le_mul_of_nonneg_right this hr0
      linarith
    have := mul_le_mul_of_nonneg_left this hd0
    linarith
  have hY0n : ‖Y0‖ ≤ (1 + s2 * Bg) * r := by
    rw [hY0]
    refine (norm_sub_le _ _).trans ?_
    rw [norm_smul, Real.norm_eq_abs, abs_of_pos hs0]
    have := mul_le_mul hs hgX (norm_nonneg _) hs2
    rw [hXn]; linarith
  have hYn : ‖Y‖ ≤ (1 + s2 * Bg + d * C1) * r := by
    have : Y = Y0 + (Y - Y0) := by abel
    rw [this]
    refine (norm_add_le _ _).trans ?_
    linarith
  have hXnext : flPgNext rd P k x = P.prox k y (P.step k) := by rw [hy]; rfl
  have e1 : ‖(WithLp.toLp 2 (flPgNext rd P k x) : ℓ²) - proxE Y (P.step k)‖ ≤ d * (K * w * (1 + norm2 y)) := by
    refine norm_le_of_coord _ fun j => ?_
    rw [hXnext, hY]
    exact hO.prox k y j
  have e2 : norm2 y = ‖Y‖ := by rw [hY]; exact (toLp_norm y).symm
  have e3 : ‖proxE Y (P.step k) - proxE Y0 (P.step k)‖ ≤ ‖Y - Y0‖ := (hp Y _ hs0).nonexpansive hG hs0 (hp Y0 _ hs0)
  have e4 : (WithLp.toLp 2 (flPgNext rd P k x) : ℓ²) - proxE Y0 (P.step k) =
      ((WithLp.toLp 2 (flPgNext rd P k x) : ℓ²) - proxE Y (P.step k)) + (proxE Y (P.step k) - proxE Y0 (P.step k)) := by abel
  rw [← hrr, ← hY0, e4]
  refine (norm_add_le _ _).trans ?_
  have e5 : K * w * (1 + norm2 y) ≤ K * w * ((2 + s2 * Bg + d * C1) * r) := by
    refine mul_le_mul_of_nonneg_left ?_ (mul_nonneg hK hw)
    rw [e2]; linarith
  have e6 := mul_le_mul_of_nonneg_left e5 hd0
  linarith

/-- Error of the certificate. -/
theorem flPgCert_error {g : ℓ² → ℓ²} {proxE : ℓ² → ℝ → ℓ²} {K s1 : ℝ} (hK : 0 ≤ K) (hs1 : 0 < s1) : ∃ M, 0 ≤ M ∧ ∀ (rd : ℝ → ℝ) (u eta w : ℝ), Rounding rd u eta →
    u ≤ w → eta ≤ w ^ 2 → 0 ≤ w → w ≤ 1 → ∀ P : FlPGArgs d, FlOracles P g proxE K w → ∀ k, s1 ≤ P.step k → ∀ x x' : Fin d → ℝ,
      |flPgCert rd P k x x' - ‖(WithLp.toLp 2 x : ℓ²) - WithLp.toLp 2 x'‖ / P.step k| ≤ M * w * (1 + ‖(WithLp.toLp 2 x : ℓ²) - WithLp.toLp 2 x'‖) := by
  obtain ⟨C1, hC1⟩ : ∃ C1, C1 = 2 * (s1⁻¹ * 2) + s1⁻¹ + 1 := ⟨_, rfl⟩
  have hC10 : 0 ≤ C1 := by rw [hC1]; positivity
  have hd0 : (0 : ℝ) ≤ d := Nat.cast_nonneg d
  have hi0 : 0 ≤ s1⁻¹ := by positivity
  refine ⟨d * C1 + K * (1 + s1⁻¹ + d * C1), by positivity, ?_⟩
  intro rd u eta w hr hu he hw hw1 P hO k hs x x'
  have hs0 : 0 < P.step k := by linarith
  have hinv : (P.step k)⁻¹ ≤ s1⁻¹ := inv_anti₀ hs1 hs
  obtain ⟨Δ, hΔ⟩ : ∃ Δ : ℓ², Δ = WithLp.toLp 2 x - WithLp.toLp 2 x' := ⟨_, rfl⟩
  rw [← hΔ]
  obtain ⟨r, hrr⟩ : ∃ r, r = 1 + ‖Δ‖ := ⟨_, rfl⟩
  have hsc : Scale rd u eta w r := ⟨hr, hu, he, hw, hw1, by linarith [norm_nonneg Δ]⟩
  have hr1 := hsc.r_ge
  obtain ⟨v, hv⟩ : ∃ v : Fin d → ℝ, v = fun j => rd (rd (x j - x' j) / P.step k) := ⟨_, rfl⟩
  have hclose : ∀ j, Close w r C1 s1⁻¹ (v j) ((x j - x' j) / P.step k) := by
    intro j
    have c1 : Close w r 0 1 (x j - x' j) (x j - x' j) := ⟨by simp, by
      have := coord_le_norm Δ j
      rw [hΔ] at this
      have h2 : |x j - x' j| ≤ ‖Δ‖ := by rw [hΔ]; exact this
      linarith, le_rfl, zero_le_one⟩
    have c2 := ((c1.round hsc).div (P.step k)).mono hsc (C' := s1⁻¹ * 2) (B' := s1⁻¹) (by
        rw [abs_of_pos (inv_pos.mpr hs0)]; norm_num; exact hinv) (by rw [abs_of_pos (inv_pos.mpr hs0), mul_one]; exact hinv)
    have c3 := c2.round hsc
    rw [hv, hC1]
    exact c3
  obtain ⟨V, hV⟩ : ∃ V : ℓ², V = WithLp.toLp 2 v := ⟨_, rfl⟩
  have e1 : ‖V - (P.step k)⁻¹ • Δ‖ ≤ d * (C1 * w * r) := by
    refine norm_le_of_coord _ fun j => ?_
    have := (hclose j).err
    rw [hV, hΔ]
    rw [div_eq_inv_mul] at this
    exact this
  have e2 : ‖(P.step k)⁻¹ • Δ‖ = ‖Δ‖ / P.step k := by
    rw [norm_smul, Real.norm_eq_abs, abs_of_pos (inv_pos.mpr hs0), div_eq_inv_mul]
  have e3 : |‖V‖ - ‖Δ‖ / P.step k| ≤ d * (C1 * w * r) := by
    rw [← e2]; exact (abs_norm_sub_norm_le _ _).trans e1
  have e4 := hO.norm k v
  have e5 : norm2 v = ‖V‖ := by rw [hV]; exact (toLp_norm v).symm
  rw [e5] at e4
  have e6 : ‖Δ‖ / P.step k ≤ s1⁻¹ * r := by
    rw [div_eq_inv_mul]
    exact mul_le_mul hinv (by linarith) (norm_nonneg _) hi0
  have e7 : C1 * w * r ≤ C1 * r := by
    have := mul_le_mul_of_nonneg_left hw1 hC10
    have := mul_le_mul_of_nonneg_right this (by linarith : 0 ≤ r)
    linarith
  have e7' := mul_le_mul_of_nonneg_left e7 hd0
  have e8 : 1 + ‖V‖ ≤ (1 + s1⁻¹ + d * C1) * r := by
    have := (abs_le.mp e3).2
    linarith
  have e9 := mul_le_mul_of_nonneg_left e8 (mul_nonneg hK hw)
  have e10 : flPgCert rd P k x x' = P.norm k v := by rw [hv]; rfl
  rw [e10, ← hrr]
  refine (abs_sub_le _ ‖V‖ _).trans ?_
  linarith

end Copt
