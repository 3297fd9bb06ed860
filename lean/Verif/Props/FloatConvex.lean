import Verif.Props.FloatConstrained

/-!
# Property C125: `minimize_proximal_gradient` with rounded arithmetic on problems which are convex but not strongly convex
-/

set_option linter.unusedSectionVars false

namespace Copt

open Spec

open scoped InnerProductSpace

/-! ### The exact iteration -/

section Exact

variable {E : Type} [NormedAddCommGroup E] [InnerProductSpace ℝ E]

/-- The gradient step is nonexpansive. -/
theorem forward_nonexpansive {f : E → ℝ} {g : E → E} {L : ℝ} (hL : 0 < L) (hf : ConvexGrad f g) (hq : UpperQuad f g L) {s : ℝ} (hs : 0 < s) (hsL : s * L ≤ 2) (x y : E) :
    ‖x - s • g x - (y - s • g y)‖ ≤ ‖x - y‖ := by
  have hc := cocoercive hL hf hq x y
  have e : x - s • g x - (y - s • g y) = (x - y) + (-s) • (g x - g y) := by module
  have e2 : ‖x - s • g x - (y - s • g y)‖ ^ 2 = ‖x - y‖ ^ 2 - 2 * s * ⟪g x - g y, x - y⟫_ℝ + s ^ 2 * ‖g x - g y‖ ^ 2 := by
    rw [e, norm_add_smul_sq, real_inner_comm]; ring
  have h4 : ‖g x - g y‖ ^ 2 ≤ L * ⟪g x - g y, x - y⟫_ℝ := by
    have := mul_le_mul_of_nonneg_left hc hL.le
    rwa [← mul_assoc, mul_one_div_cancel hL.ne', one_mul] at this
  have hI : 0 ≤ ⟪g x - g y, x - y⟫_ℝ := by
    have := sq_nonneg ‖g x - g y‖
    exact nonneg_of_mul_nonneg_right (this.trans h4) hL
  have h5 := mul_le_mul_of_nonneg_left h4 (sq_nonneg s)
  have h6 : s * (s * L) * ⟪g x - g y, x - y⟫_ℝ ≤ s * 2 * ⟪g x - g y, x - y⟫_ℝ := mul_le_mul_of_nonneg_right (mul_le_mul_of_nonneg_left hsL hs.le) hI
  refine abs_le_of_sq_le_sq' ?_ (norm_nonneg _) |>.2
  rw [e2]; linarith

/-- The iteration in exact arithmetic. -/
def exactPg (g : E → E) (prox : E → ℝ → E) (step : ℕ → ℝ) (x0 : E) : ℕ → E
  | 0 => x0
  | k + 1 => prox (exactPg g prox step x0 k - step k • g (exactPg g prox step x0 k)) (step k)

variable {f : E → ℝ} {g : E → E} {G : ExtFun E} {prox : E → ℝ → E} {L s1 s2 : ℝ} {step : ℕ → ℝ} {x0 : E}

theorem exactPg_ineq (hG : G.IsConvex) (hp : IsProxOf G prox) (hf : ConvexGrad f g) (hL : 0 < L) (hq : UpperQuad f g L) {s : ℝ} (hs : 0 < s) (hsL : s * L ≤ 1) (x : E) {y : E} (hy : y ∈ G.dom) :
    2 * s * ((f (prox (x - s • g x) s) + G.val (prox (x - s • g x) s)) - (f y + G.val y)) + ‖y - prox (x - s • g x) s‖ ^ 2 ≤ ‖y - x‖ ^ 2 := by
  obtain ⟨p, hpd⟩ : ∃ p, p = prox (x - s • g x) s := ⟨_, rfl⟩
  have hpp : IsProxPt G s (x - s • g x) p := hpd ▸ hp _ _ hs
  rw [← hpd]
  have h1 := hq x p
  have h2 : L / 2 * ‖p - x‖ ^ 2 ≤ ‖p - x‖ ^ 2 / (2 * s) := by
    rw [le_div_iff₀ (by linarith)]
    have := mul_le_mul_of_nonneg_right hsL (sq_nonneg ‖p - x‖)
    linarith
  have h3 := prox_grad_ineq hG hs hpp (h1.trans (by linarith : _ ≤ f x + ⟪g x, p - x⟫_ℝ + ‖p - x‖ ^ 2 / (2 * s))) hy
  have h4 := hf x y
  have h5 : f p + G.val p - (f y + G.val y) ≤ (‖y - x‖ ^ 2 - ‖y - p‖ ^ 2) / (2 * s) := by linarith
  rw [le_div_iff₀ (by linarith)] at h5
  linarith

theorem exactPg_rate (hG : G.IsConvex) (hp : IsProxOf G prox) (hf : ConvexGrad f g) (hL : 0 < L) (hq : UpperQuad f g L) (hs1 : 0 < s1) (hst : ∀ k, s1 ≤ step k ∧ step k ≤ s2) (hs2 : s2 * L ≤ 1)
    (k : ℕ) {y : E} (hy : y ∈ G.dom) : (f (exactPg g prox step x0 (k + 1)) + G.val (exactPg g prox step x0 (k + 1))) - (f y + G.val y) ≤ ‖x0 - y‖ ^ 2 / (2 * s1 * (k + 1)) := by
  have hs : ∀ k, 0 < step k := fun k => by linarith [(hst k).1]
  have hsL : ∀ k, step k * L ≤ 1 := fun k => (mul_le_mul_of_nonneg_right (hst k).2 hL.le).trans hs2
  have hdom : ∀ k, exactPg g prox step x0 (k + 1) ∈ G.dom := fun k => (hp _ _ (hs k)).1
  obtain ⟨F, hF⟩ : ∃ F : ℕ → ℝ, F = fun k => f (exactPg g prox step x0 k) + G.val (exactPg g prox step x0 k) := ⟨_, rfl⟩
  have key : ∀ k, 2 * (∑ i ∈ Finset.range (k + 1), step i) * (F (k + 1) - (f y + G.val y)) + ‖y - exactPg g prox step x0 (k + 1)‖ ^ 2 ≤ ‖y - x0‖ ^ 2 := by
    intro k
    induction k with
    | zero =>
      rw [Finset.sum_range_one, hF]
      exact exactPg_ineq hG hp hf hL hq (hs 0) (hsL 0) x0 hy
    | succ k ih =>
      have h1 := exactPg_ineq hG hp hf hL hq (hs (k + 1)) (hsL (k + 1)) (exactPg g prox step x0 (k + 1)) hy
      have h2 := exactPg_ineq hG hp hf hL hq (hs (k + 1)) (hsL (k + 1)) (exactPg g prox step x0 (k + 1)) (hdom k)
      change 2 * step (k + 1) * (f (exactPg g prox step x0 (k + 1 + 1)) + G.val (exactPg g prox step x0 (k + 1 + 1)) - _) + ‖y - exactPg g prox step x0 (k + 1 + 1)‖ ^ 2 ≤ _ at h1
      change 2 * step (k + 1) * (f (exactPg g prox step x0 (k + 1 + 1)) + G.val (exactPg g prox step x0 (k + 1 + 1)) - _) + ‖_ - exactPg g prox step x0 (k + 1 + 1)‖ ^ 2 ≤ _ at h2
      rw [sub_self, norm_zero] at h2
      have h3 : F (k + 1 + 1) ≤ F (k + 1) := by
        have h4 : 2 * step (k + 1) * (F (k + 1 + 1) - F (k + 1)) ≤ 0 := by
          rw [hF]
          have := sq_nonneg ‖exactPg g prox step x0 (k + 1) - exactPg g prox step x0 (k + 1 + 1)‖
          show 2 * step (k + 1) * (f _ + G.val _ - (f _ + G.val _)) ≤ 0
          linarith
        have := hs (k + 1)
        by_contra hc
        push Not at hc
        have := mul_pos (by linarith : 0 < 2 * step (k + 1)) (sub_pos.mpr hc)
        linarith
      have hS : 0 ≤ ∑ i ∈ Finset.range (k + 1), step i := Finset.sum_nonneg fun i _ => (hs i).le
      have h5 := mul_le_mul_of_nonneg_left h3 hS
      rw [Finset.sum_range_succ]
      have e : F (k + 1 + 1) = f (exactPg g prox step x0 (k + 1 + 1)) + G.val (exactPg g prox step x0 (k + 1 + 1)) := by rw [hF]
      rw [← e] at h1
      linarith
  have hk := key k
  rw [norm_sub_rev y x0] at hk
  have hS : s1 * (k + 1) ≤ ∑ i ∈ Finset.range (k + 1), step i := by
    have := Finset.card_nsmul_le_sum (Finset.range (k + 1)) step s1 fun i _ => (hst i).1
    rw [Finset.card_range, nsmul_eq_mul] at this
    push_cast at this
    linarith
  have e : F (k + 1) = f (exactPg g prox step x0 (k + 1)) + G.val (exactPg g prox step x0 (k + 1)) := by rw [hF]
  rw [← e]
  have hk1 : (0 : ℝ) < k + 1 := by positivity
  rw [le_div_iff₀ (by positivity)]
  have h0 := sq_nonneg ‖y - exactPg g prox step x0 (k + 1)‖
  rcases le_total 0 (F (k + 1) - (f y + G.val y)) with h | h
  · have := mul_le_mul_of_nonneg_right hS h
    linarith
  · have := mul_nonpos_of_nonpos_of_nonneg h (by positivity : 0 ≤ 2 * s1 * ((k : ℝ) + 1))
    have := sq_nonneg ‖x0 - y‖
    linarith

theorem exactPg_near (hG : G.IsConvex) (hp : IsProxOf G prox) (hf : ConvexGrad f g) (hL : 0 < L) (hq : UpperQuad f g L) (hs1 : 0 < s1) (hst : ∀ k, s1 ≤ step k ∧ step k ≤ s2) (hs2 : s2 * L ≤ 1)
    {xs : E} (hxs : xs ∈ G.dom) (hmin : ∀ y ∈ G.dom, f xs + G.val xs ≤ f y + G.val y) (k : ℕ) : ‖exactPg g prox step x0 k - xs‖ ≤ ‖x0 - xs‖ := by
  induction k with
  | zero => exact le_rfl
  | succ k ih =>
    have hs : 0 < step k := by linarith [(hst k).1]
    have hsL : step k * L ≤ 1 := (mul_le_mul_of_nonneg_right (hst k).2 hL.le).trans hs2
    exact ((hp _ _ hs).nonexpansive hG hs (minimiser_fixed hq hG hxs hmin hs)).trans ((forward_nonexpansive hL hf hq hs (by linarith) _ _).trans ih)

/-- One of the first steps is short. -/
theorem exactPg_residual (hG : G.IsConvex) (hp : IsProxOf G prox) (hf : ConvexGrad f g) (hL : 0 < L) (hq : UpperQuad f g L) (hs1 : 0 < s1) (hst : ∀ k, s1 ≤ step k ∧ step k ≤ s2) (hs2 : s2 * L ≤ 1)
    {xs : E} (hxs : xs ∈ G.dom) (hmin : ∀ y ∈ G.dom, f xs + G.val xs ≤ f y + G.val y) {N : ℕ} (hN : 0 < N) :
    ∃ k ≤ N, s1 * N * ‖exactPg g prox step x0 k - exactPg g prox step x0 (k + 1)‖ ^ 2 ≤ s2 * ‖x0 - xs‖ ^ 2 := by
  have hs : ∀ k, 0 < step k := fun k => by linarith [(hst k).1]
  have hsL : ∀ k, step k * L ≤ 1 := fun k => (mul_le_mul_of_nonneg_right (hst k).2 hL.le).trans hs2
  have hdom : ∀ k, exactPg g prox step x0 (k + 1) ∈ G.dom := fun k => (hp _ _ (hs k)).1
  obtain ⟨F, hF⟩ : ∃ F : ℕ → ℝ, F = fun k => f (exactPg g prox step x0 k) + G.val (exactPg g prox step x0 k) := ⟨_, rfl⟩
  have hdec : ∀ k, ‖exactPg g prox step x0 (k + 1) - exactPg g prox step x0 (k + 1 + 1)‖ ^ 2 ≤ 2 * s2 * (F (k + 1) - F (k + 1 + 1)) := by
    intro k
    have h2 := exactPg_ineq hG hp hf hL hq (hs (k + 1)) (hsL (k + 1)) (exactPg g prox step x0 (k + 1)) (hdom k)
    change 2 * step (k + 1) * (f (exactPg g prox step x0 (k + 1 + 1)) + G.val (exactPg g prox step x0 (k + 1 + 1)) - _) + ‖_ - exactPg g prox step x0 (k + 1 + 1)‖ ^ 2 ≤ _ at h2
    rw [sub_self, norm_zero] at h2
    have h3 : ‖exactPg g prox step x0 (k + 1) - exactPg g prox step x0 (k + 1 + 1)‖ ^ 2 ≤ 2 * step (k + 1) * (F (k + 1) - F (k + 1 + 1)) := by
      rw [hF]
      show _ ≤ 2 * step (k + 1) * (f _ + G.val _ - (f _ + G.val _))
      linarith
    have h4 : 0 ≤ F (k + 1) - F (k + 1 + 1) := by
      have := (sq_nonneg ‖exactPg g prox step x0 (k + 1) - exactPg g prox step x0 (k + 1 + 1)‖).trans h3
      exact nonneg_of_mul_nonneg_right this (by linarith [hs (k + 1)])
    have := mul_le_mul_of_nonneg_right (hst (k + 1)).2 h4
    linarith
  have hsum : ∑ i ∈ Finset.range N, ‖exactPg g prox step x0 (i + 1) - exactPg g prox step x0 (i + 1 + 1)‖ ^ 2 ≤ 2 * s2 * (F 1 - F (N + 1)) := by
    refine (Finset.sum_le_sum fun i _ => hdec i).trans (le_of_eq ?_)
    rw [← Finset.mul_sum, Finset.sum_range_sub' (fun i => F (i + 1))]
  have hF1 := exactPg_rate (x0 := x0) hG hp hf hL hq hs1 hst hs2 0 hxs
  have hFN := hmin _ (hdom N)
  have e1 : F 1 = f (exactPg g prox step x0 (0 + 1)) + G.val (exactPg g prox step x0 (0 + 1)) := by rw [hF]
  have e2 : F (N + 1) = f (exactPg g prox step x0 (N + 1)) + G.val (exactPg g prox step x0 (N + 1)) := by rw [hF]
  rw [← e1] at hF1
  rw [← e2] at hFN
  rw [le_div_iff₀ (by positivity)] at hF1
  push_cast at hF1
  by_contra hcon
  push Not at hcon
  have hs20 : 0 < s2 := by linarith [(hst 0).1, (hst 0).2]
  have hlt : s2 * ‖x0 - xs‖ ^ 2 * N < ∑ i ∈ Finset.range N, s1 * N * ‖exactPg g prox step x0 (i + 1) - exactPg g prox step x0 (i + 1 + 1)‖ ^ 2 := by
    have h1 : ∑ _i ∈ Finset.range N, s2 * ‖x0 - xs‖ ^ 2 = s2 * ‖x0 - xs‖ ^ 2 * N := by
      rw [Finset.sum_const, Finset.card_range, nsmul_eq_mul]; ring
    rw [← h1]
    refine Finset.sum_lt_sum_of_nonempty ⟨0, Finset.mem_range.mpr hN⟩ fun i hi => hcon (i + 1) ?_
    have := Finset.mem_range.mp hi
    omega
  rw [← Finset.mul_sum] at hlt
  have hN0 : (0 : ℝ) < N := by exact_mod_cast hN
  have h1 := mul_le_mul_of_nonneg_left hsum (show 0 ≤ s1 * N by positivity)
  have h2 : s1 * N * (2 * s2 * (F 1 - F (N + 1))) ≤ s2 * ‖x0 - xs‖ ^ 2 * N := by
    have h3 : 2 * s1 * (F 1 - F (N + 1)) ≤ ‖x0 - xs‖ ^ 2 := by
      have h4 : (F 1 - F (N + 1)) * (2 * s1 * (0 + 1)) ≤ (F 1 - (f xs + G.val xs)) * (2 * s1 * (0 + 1)) := mul_le_mul_of_nonneg_right (by linarith) (by positivity)
      linarith
    have := mul_le_mul_of_nonneg_left h3 (show 0 ≤ s2 * N by positivity)
    linarith
  linarith

end Exact

/-! ### The rounded iteration -/

variable {n d : ℕ}

local notation "ℓ²" => EuclideanSpace ℝ (Fin d)

/-- The computed iterates follow the exact ones as long as the accumulated error is below 1. -/
theorem flPgE_track {f : ℓ² → ℝ} {g : ℓ² → ℓ²} {G : ExtFun ℓ²} (hG : G.IsConvex) {proxE : ℓ² → ℝ → ℓ²} (hp : IsProxOf G proxE)
    {L : ℝ} (hL : 0 < L) (hf : ConvexGrad f g) (hq : UpperQuad f g L) {xs : ℓ²} (hxs : xs ∈ G.dom) (hmin : ∀ y ∈ G.dom, f xs + G.val xs ≤ f y + G.val y)
    {s1 s2 : ℝ} (hs1 : 0 < s1) (h12 : s1 ≤ s2) (hs2 : s2 * L ≤ 1) {K : ℝ} (hK : 0 ≤ K) (R : ℝ) :
    ∃ C, 1 ≤ C ∧ ∀ (rd : ℝ → ℝ) (u eta w : ℝ), Rounding rd u eta → u ≤ w → eta ≤ w ^ 2 →
      ∀ P : FlPGArgsE d, norm2 P.x0 ≤ R → (∀ k, s1 ≤ P.step k ∧ P.step k ≤ s2) → FlOraclesE rd P g proxE K w →
        ∃ pr, FlOracles (P.total pr) g proxE K w ∧
          (∀ k : ℕ, C * k * w ≤ 1 → ‖(WithLp.toLp 2 (flPgOrbit rd (P.total pr) k) : ℓ²) - exactPg g proxE P.step (WithLp.toLp 2 P.x0) k‖ ≤ C * k * w) ∧
          ∀ k : ℕ, C * (k + 1) * w ≤ 1 → P.prox k (flPgPoint rd (P.grad k) (P.step k) (flPgOrbit rd (P.total pr) k)) (P.step k) = .ok (flPgOrbit rd (P.total pr) (k + 1)) := by
  have hs20 : 0 < s2 := by linarith
  obtain ⟨Bg, hBg0, hBg⟩ := grad_growth (d := d) hL hf hq
  obtain ⟨D, hD0, hD⟩ := flPgPoint_norm (d := d) hK hBg0 hs20.le hBg
  obtain ⟨D', hD'0, hD'⟩ := flPgNext_error (d := d) hG hp hK hBg0 hs20.le hBg
  obtain ⟨B, hB⟩ : ∃ B, B = |R| + ‖xs‖ + ‖xs‖ + 1 := ⟨_, rfl⟩
  have hB0 : 0 ≤ B := by rw [hB]; positivity
  obtain ⟨V, hV⟩ : ∃ V, V = 1 + D * (1 + B) := ⟨_, rfl⟩
  have hV0 : 0 ≤ V := by rw [hV]; positivity
  obtain ⟨C, hC⟩ : ∃ C, C = 1 + K * V + D' * (1 + B) := ⟨_, rfl⟩
  have t1 : 0 ≤ K * V := by positivity
  have t2 : 0 ≤ D' * (1 + B) := by positivity
  refine ⟨C, by rw [hC]; linarith, ?_⟩
  intro rd u eta w hr hu he P hx0 hst hO
  have hw0 : 0 ≤ w := hr.u_nonneg.trans hu
  obtain ⟨pr, hprok, hprerr⟩ := hO.exists_total hK hw0
  have hOt : FlOracles (P.total pr) g proxE K w := ⟨hO.grad, hprerr, hO.norm⟩
  have hC1 : 1 ≤ C := by rw [hC]; linarith
  obtain ⟨X, hX⟩ : ∃ X, X = exactPg g proxE P.step (WithLp.toLp 2 P.x0) := ⟨_, rfl⟩
  have hle : ∀ (k : ℕ) c, 0 ≤ c → c ≤ C → C * (k + 1) * w ≤ 1 → c * w ≤ 1 := by
    intro k c hc0 hc h
    have h1 : c * w ≤ C * w := mul_le_mul_of_nonneg_right hc hw0
    have h2 : 0 ≤ C * k * w := mul_nonneg (mul_nonneg (by linarith) (Nat.cast_nonneg k)) hw0
    linarith
  -- size of an iterate close to the exact one
  have hsize : ∀ k : ℕ, ‖(WithLp.toLp 2 (flPgOrbit rd (P.total pr) k) : ℓ²) - X k‖ ≤ 1 → norm2 (flPgOrbit rd (P.total pr) k) ≤ B := by
    intro k hk
    have h1 := exactPg_near (x0 := WithLp.toLp 2 P.x0) hG hp hf hL hq hs1 hst hs2 hxs hmin k
    rw [← hX] at h1
    have h2 : ‖(WithLp.toLp 2 P.x0 : ℓ²) - xs‖ ≤ |R| + ‖xs‖ := by
      refine (norm_sub_le _ _).trans ?_
      rw [toLp_norm]
      linarith [le_abs_self R]
    rw [← toLp_norm]
    have h3 := norm_add_le ((WithLp.toLp 2 (flPgOrbit rd (P.total pr) k) : ℓ²) - X k) (X k - xs)
    have h4 := norm_add_le (((WithLp.toLp 2 (flPgOrbit rd (P.total pr) k) : ℓ²) - X k) + (X k - xs)) xs
    have e : ((WithLp.toLp 2 (flPgOrbit rd (P.total pr) k) : ℓ²) - X k) + (X k - xs) + xs = WithLp.toLp 2 (flPgOrbit rd (P.total pr) k) := by abel
    rw [e] at h4
    rw [hB]; linarith
  have htrack : ∀ k : ℕ, C * k * w ≤ 1 → ‖(WithLp.toLp 2 (flPgOrbit rd (P.total pr) k) : ℓ²) - X k‖ ≤ C * k * w := by
    intro k
    induction k with
    | zero =>
      intro _
      have : (WithLp.toLp 2 (flPgOrbit rd (P.total pr) 0) : ℓ²) = X 0 := by rw [hX]; rfl
      rw [this, sub_self, norm_zero]; simp
    | succ k ih =>
      intro hk
      push_cast at hk ⊢
      have hCw : 0 ≤ C * w := mul_nonneg (by linarith) hw0
      have hk' : C * k * w ≤ 1 := by linarith
      have h1 := ih hk'
      have hw1 : w ≤ 1 := by have := hle k 1 zero_le_one hC1 hk; linarith
      have hsz := hsize k (h1.trans hk')
      have hs : 0 < P.step k := by linarith [(hst k).1]
      have hsL : P.step k * L ≤ 2 := by have := mul_le_mul_of_nonneg_right (hst k).2 hL.le; linarith
      have h2 := hD' rd u eta w hr hu he hw0 hw1 (P.total pr) hOt k hs (hst k).2 (flPgOrbit rd (P.total pr) k)
      have h3 := (hp _ _ hs).nonexpansive hG hs (hp (X k - P.step k • g (X k)) _ hs) (v := WithLp.toLp 2 (flPgOrbit rd (P.total pr) k) - P.step k • g (WithLp.toLp 2 (flPgOrbit rd (P.total pr) k)))
      have h4 := forward_nonexpansive hL hf hq hs hsL (WithLp.toLp 2 (flPgOrbit rd (P.total pr) k)) (X k)
      have e : X (k + 1) = proxE (X k - P.step k • g (X k)) (P.step k) := by rw [hX]; rfl
      rw [e]
      have h5 := norm_sub_le_norm_sub_add_norm_sub (WithLp.toLp 2 (flPgOrbit rd (P.total pr) (k + 1)) : ℓ²)
        (proxE (WithLp.toLp 2 (flPgOrbit rd (P.total pr) k) - P.step k • g (WithLp.toLp 2 (flPgOrbit rd (P.total pr) k))) (P.step k)) (proxE (X k - P.step k • g (X k)) (P.step k))
      have h6 : D' * w * (1 + norm2 (flPgOrbit rd (P.total pr) k)) ≤ D' * w * (1 + B) := mul_le_mul_of_nonneg_left (by linarith) (mul_nonneg hD'0 hw0)
      have h7 : D' * (1 + B) * w ≤ C * w := mul_le_mul_of_nonneg_right (by rw [hC]; linarith) hw0
      change ‖(WithLp.toLp 2 (flPgOrbit rd (P.total pr) (k + 1)) : ℓ²) - proxE (WithLp.toLp 2 (flPgOrbit rd (P.total pr) k) - P.step k • g (WithLp.toLp 2 (flPgOrbit rd (P.total pr) k))) (P.step k)‖ ≤ _ at h2
      linarith
  refine ⟨pr, hOt, fun k hk => by rw [← hX]; exact htrack k hk, fun k hk => ?_⟩
  have hCw : 0 ≤ C * w := mul_nonneg (by linarith) hw0
  have hk' : C * k * w ≤ 1 := by linarith
  have hsz := hsize k ((htrack k hk').trans hk')
  have hw1 : w ≤ 1 := by have := hle k 1 zero_le_one hC1 hk; linarith
  refine hprok k _ (fun j => hr.idem _) ?_
  have h1 := hD rd u eta w ⟨hr, hu, he, hw0, hw1, le_rfl⟩ (P.grad k) (flPgOrbit rd (P.total pr) k) (P.step k) (by linarith [(hst k).1]) (hst k).2 (hO.grad k _)
  have h2 := mul_le_mul_of_nonneg_left (by linarith : 1 + norm2 (flPgOrbit rd (P.total pr) k) ≤ 1 + B) hD0
  have h3 : 1 + norm2 (flPgPoint rd (P.grad k) (P.step k) (flPgOrbit rd (P.total pr) k)) ≤ V := by rw [hV]; linarith
  have h4 := mul_le_mul_of_nonneg_left h3 (mul_nonneg hK hw0)
  have h5 := hle k (K * V) t1 (by rw [hC]; linarith) hk
  linarith

/-- Meaning of a small certificate: the next computed iterate is close to a point of the domain with a small objective. -/
theorem flPg_small_cert {f : ℓ² → ℝ} {g : ℓ² → ℓ²} {G : ExtFun ℓ²} (hG : G.IsConvex) {proxE : ℓ² → ℝ → ℓ²} (hp : IsProxOf G proxE)
    {L : ℝ} (hL : 0 < L) (hf : ConvexGrad f g) (hq : UpperQuad f g L) {xs : ℓ²} (hxs : xs ∈ G.dom) (hmin : ∀ y ∈ G.dom, f xs + G.val xs ≤ f y + G.val y)
    {s1 s2 : ℝ} (hs1 : 0 < s1) (h12 : s1 ≤ s2) (hs2 : s2 * L ≤ 1) {K : ℝ} (hK : 0 ≤ K) {B : ℝ} (hB : 0 ≤ B) :
    ∃ C, 0 ≤ C ∧ ∀ (rd : ℝ → ℝ) (u eta w : ℝ), Rounding rd u eta → u ≤ w → eta ≤ w ^ 2 → w ≤ 1 →
      ∀ P : FlPGArgs d, (∀ k, s1 ≤ P.step k ∧ P.step k ≤ s2) → FlOracles P g proxE K w → ∀ k, ‖(WithLp.toLp 2 (flPgOrbit rd P k) : ℓ²) - xs‖ ≤ B →
        ∃ z ∈ G.dom, ‖(WithLp.toLp 2 (flPgOrbit rd P (k + 1)) : ℓ²) - z‖ ≤ C * w ∧ ∀ tol, 0 ≤ tol → flPgCert rd P k (flPgOrbit rd P k) (flPgOrbit rd P (k + 1)) < tol →
          (f z + G.val z) - (f xs + G.val xs) ≤ C * (tol + w) := by
  have hs20 : 0 < s2 := by linarith
  obtain ⟨Bg, hBg0, hBg⟩ := grad_growth (d := d) hL hf hq
  obtain ⟨D, hD0, hD⟩ := flPgNext_error (d := d) hG hp hK hBg0 hs20.le hBg
  obtain ⟨M, hM0, hM⟩ := flPgCert_error (d := d) (g := g) (proxE := proxE) hK hs1
  obtain ⟨A, hA⟩ : ∃ A, A = D * (1 + ‖xs‖ + B) := ⟨_, rfl⟩
  have hA0 : 0 ≤ A := by rw [hA]; positivity
  obtain ⟨M', hM'⟩ : ∃ M', M' = M * (1 + 2 * B + A) := ⟨_, rfl⟩
  have hM'0 : 0 ≤ M' := by rw [hM']; positivity
  have hi0 : 0 ≤ s1⁻¹ := by positivity
  refine ⟨A + B + B * (M' + A * s1⁻¹), by positivity, ?_⟩
  intro rd u eta w hr hu he hw1 P hst hO k hk
  have hw0 : 0 ≤ w := hr.u_nonneg.trans hu
  have hs : 0 < P.step k := by linarith [(hst k).1]
  have hsL : P.step k * L ≤ 1 := (mul_le_mul_of_nonneg_right (hst k).2 hL.le).trans hs2
  obtain ⟨x, hx⟩ : ∃ x : ℓ², x = WithLp.toLp 2 (flPgOrbit rd P k) := ⟨_, rfl⟩
  obtain ⟨x', hx'⟩ : ∃ x' : ℓ², x' = WithLp.toLp 2 (flPgOrbit rd P (k + 1)) := ⟨_, rfl⟩
  obtain ⟨z, hz⟩ : ∃ z, z = proxE (x - P.step k • g x) (P.step k) := ⟨_, rfl⟩
  have h1 : ‖x' - z‖ ≤ A * w := by
    have h2 := hD rd u eta w hr hu he hw0 hw1 P hO k hs (hst k).2 (flPgOrbit rd P k)
    rw [hx', hz, hx]
    refine h2.trans ?_
    have h3 : norm2 (flPgOrbit rd P k) ≤ ‖xs‖ + B := by
      rw [← toLp_norm]
      have := norm_add_le ((WithLp.toLp 2 (flPgOrbit rd P k) : ℓ²) - xs) xs
      rw [sub_add_cancel] at this
      linarith
    have := mul_le_mul_of_nonneg_left (by linarith : 1 + norm2 (flPgOrbit rd P k) ≤ 1 + ‖xs‖ + B) (mul_nonneg hD0 hw0)
    rw [hA]; linarith
  have hzn : ‖z - xs‖ ≤ ‖x - xs‖ := by
    rw [hz]
    exact ((hp _ _ hs).nonexpansive hG hs (minimiser_fixed hq hG hxs hmin hs)).trans (forward_nonexpansive hL hf hq hs (by linarith) _ _)
  rw [← hx] at hk
  refine ⟨z, by rw [hz]; exact (hp _ _ hs).1, ?_, fun tol htol hcert => ?_⟩
  · rw [← hx']
    refine h1.trans (mul_le_mul_of_nonneg_right ?_ hw0)
    have : 0 ≤ B * (M' + A * s1⁻¹) := by positivity
    linarith
  · have h2 := hM rd u eta w hr hu he hw0 hw1 P hO k (hst k).1 (flPgOrbit rd P k) (flPgOrbit rd P (k + 1))
    rw [← hx, ← hx'] at h2
    have hAw : A * w ≤ A := by have := mul_le_mul_of_nonneg_left hw1 hA0; linarith
    have hxz : ‖x - z‖ ≤ 2 * B := by
      have := norm_sub_le_norm_sub_add_norm_sub x xs z
      rw [norm_sub_rev xs z] at this
      linarith
    have hxx : ‖x - x'‖ ≤ 2 * B + A := by
      have := norm_sub_le_norm_sub_add_norm_sub x z x'
      rw [norm_sub_rev z x'] at this
      linarith
    have h3 : ‖x - x'‖ / P.step k ≤ tol + M' * w := by
      have h4 := (abs_le.mp h2).1
      have h5 := mul_le_mul_of_nonneg_left (by linarith : 1 + ‖x - x'‖ ≤ 1 + 2 * B + A) (mul_nonneg hM0 hw0)
      have h6 : M' * w = M * w * (1 + 2 * B + A) := by rw [hM']; ring
      linarith
    have h4 : ‖x - z‖ / P.step k ≤ tol + (M' + A * s1⁻¹) * w := by
      have h5 : ‖x - z‖ ≤ ‖x - x'‖ + A * w := by
        have := norm_sub_le_norm_sub_add_norm_sub x x' z
        linarith
      have h6 : ‖x - z‖ / P.step k ≤ (‖x - x'‖ + A * w) / P.step k := div_le_div_of_nonneg_right h5 hs.le
      rw [add_div] at h6
      have h7 : A * w / P.step k ≤ A * w * s1⁻¹ := by
        rw [div_eq_mul_inv]
        exact mul_le_mul_of_nonneg_left (inv_anti₀ hs1 (hst k).1) (by positivity)
      linarith
    have h5 := exactPg_ineq hG hp hf hL hq hs hsL x hxs
    rw [← hz] at h5
    have h6 : ‖xs - x‖ ^ 2 - ‖xs - z‖ ^ 2 ≤ ‖x - z‖ * (2 * B) := by
      have e : ‖xs - x‖ ^ 2 - ‖xs - z‖ ^ 2 = (‖xs - x‖ - ‖xs - z‖) * (‖xs - x‖ + ‖xs - z‖) := by ring
      rw [e]
      have h7 : ‖xs - x‖ - ‖xs - z‖ ≤ ‖x - z‖ := by
        have := norm_sub_le_norm_sub_add_norm_sub xs z x
        rw [norm_sub_rev z x] at this
        linarith
      rw [norm_sub_rev xs x, norm_sub_rev xs z] at *
      exact mul_le_mul h7 (by linarith) (by positivity) (norm_nonneg _)
    have h8 : (f z + G.val z) - (f xs + G.val xs) ≤ B * (‖x - z‖ / P.step k) := by
      rw [← mul_div_assoc, le_div_iff₀ hs]
      linarith
    have h9 := mul_le_mul_of_nonneg_left h4 hB
    have h10 : 0 ≤ A * (tol + w) := by positivity
    have h11 : 0 ≤ B * w := by positivity
    have h12 : 0 ≤ B * (M' + A * s1⁻¹) * tol := by positivity
    linarith

theorem flPgLoop_first (rd : ℝ → ℝ) (P : FlPGArgs d) : ∀ (m nit : ℕ) (x : Fin d → ℝ), x = flPgOrbit rd P nit →
    ∀ i, nit ≤ i → i < (flPgLoop rd P m nit x).nit → ¬ flPgCert rd P i (flPgOrbit rd P i) (flPgOrbit rd P (i + 1)) < P.tol := by
  intro m
  induction m with
  | zero =>
    intro nit x hx i h1 h2
    subst hx
    rw [flPgLoop] at h2
    by_cases hc : flPgCert rd P nit (flPgOrbit rd P nit) (flPgNext rd P nit (flPgOrbit rd P nit)) < P.tol
    · rw [if_pos hc] at h2; exact absurd h2 (by simp; omega)
    · rw [if_neg hc] at h2; exact absurd h2 (by simp; omega)
  | succ m ih =>
    intro nit x hx i h1 h2
    subst hx
    rw [flPgLoop] at h2
    by_cases hc : flPgCert rd P nit (flPgOrbit rd P nit) (flPgNext rd P nit (flPgOrbit rd P nit)) < P.tol
    · rw [if_pos hc] at h2; exact absurd h2 (by simp; omega)
    · rw [if_neg hc] at h2
      rcases Nat.eq_or_lt_of_le h1 with rfl | hlt
      · exact hc
      · exact ih (nit + 1) _ rfl i hlt h2

/-- The guarantee for a run which returns `r` on a convex problem. -/
structure FlPgConvexGuarantee (f : ℓ² → ℝ) (G : ExtFun ℓ²) (xs x0 : ℓ²) (C s1 w tol : ℝ) (maxIter : ℕ) (r : FlPGResult d) : Prop where
  rate : ∃ z ∈ G.dom, ‖(WithLp.toLp 2 r.x : ℓ²) - z‖ ≤ C * (r.nit + 1) * w ∧ ∀ y ∈ G.dom, (f z + G.val z) - (f y + G.val y) ≤ ‖x0 - y‖ ^ 2 / (2 * s1 * (r.nit + 1))
  success : 0 ≤ tol → r.success = true → ∃ z ∈ G.dom, ‖(WithLp.toLp 2 r.x : ℓ²) - z‖ ≤ C * w ∧ (f z + G.val z) - (f xs + G.val xs) ≤ C * (tol + w)
  failure : r.success = false → r.nit = maxIter
  nit_le : r.nit ≤ maxIter

theorem FlPgConvexGuarantee.mono {f : ℓ² → ℝ} {G : ExtFun ℓ²} {xs x0 : ℓ²} {C C' s1 w tol : ℝ} {maxIter : ℕ} {r : FlPGResult d} (h : FlPgConvexGuarantee f G xs x0 C s1 w tol maxIter r)
    (hC : C ≤ C') (hw : 0 ≤ w) : FlPgConvexGuarantee f G xs x0 C' s1 w tol maxIter r := by
  refine ⟨?_, fun h0 hs => ?_, h.failure, h.nit_le⟩
  · obtain ⟨z, hz, h1, h2⟩ := h.rate
    exact ⟨z, hz, h1.trans (mul_le_mul_of_nonneg_right (mul_le_mul_of_nonneg_right hC (by positivity)) hw), h2⟩
  · obtain ⟨z, hz, h1, h2⟩ := h.success h0 hs
    exact ⟨z, hz, h1.trans (mul_le_mul_of_nonneg_right hC hw), h2.trans (mul_le_mul_of_nonneg_right hC (by linarith))⟩

set_option maxHeartbeats 1000000 in
/-- **C125 (general).** Proximal gradient method on a convex problem, with rounded arithmetic of precision `w` and inexact oracles of which `prox` may raise on large arguments.  If `C (max_iter + 1) w ≤ 1`,
the run does not raise, the result is within `C (nit + 1) w` of a point of the domain with the objective guaranteed in exact arithmetic, and a result flagged as a success is within `C w` of
a point whose objective is within `C (tol + w)` of the minimum.  Moreover, for every `tol > 0` there is a number of iterations `N` which suffices for a success in every arithmetic of precision
`C' w ≤ 1`, whatever `max_iter ≥ N` is. -/
theorem C125_rounded_convex {f : ℓ² → ℝ} {g : ℓ² → ℓ²} {G : ExtFun ℓ²} (hG : G.IsConvex) {proxE : ℓ² → ℝ → ℓ²} (hp : IsProxOf G proxE)
    {L : ℝ} (hL : 0 < L) (hf : ConvexGrad f g) (hq : UpperQuad f g L) {xs : ℓ²} (hxs : xs ∈ G.dom) (hmin : ∀ y ∈ G.dom, f xs + G.val xs ≤ f y + G.val y)
    {s1 s2 : ℝ} (hs1 : 0 < s1) (h12 : s1 ≤ s2) (hs2 : s2 * L ≤ 1) {K : ℝ} (hK : 0 ≤ K) (R : ℝ) :
    ∃ C, 0 < C ∧ (∀ (rd : ℝ → ℝ) (u eta w : ℝ), Rounding rd u eta → u ≤ w → eta ≤ w ^ 2 →
      ∀ P : FlPGArgsE d, C * (P.maxIter + 1) * w ≤ 1 → norm2 P.x0 ≤ R → (∀ k, s1 ≤ P.step k ∧ P.step k ≤ s2) → FlOraclesE rd P g proxE K w →
        ∃ r, flMinimizePGE rd P = .ok r ∧ FlPgConvexGuarantee f G xs (WithLp.toLp 2 P.x0) C s1 w P.tol P.maxIter r) ∧
      ∀ tol > 0, ∃ (N : ℕ) (C' : ℝ), 0 < C' ∧ ∀ (rd : ℝ → ℝ) (u eta w : ℝ), Rounding rd u eta → u ≤ w → eta ≤ w ^ 2 → C' * w ≤ 1 →
        ∀ P : FlPGArgsE d, P.tol = tol → N ≤ P.maxIter → norm2 P.x0 ≤ R → (∀ k, s1 ≤ P.step k ∧ P.step k ≤ s2) → FlOraclesE rd P g proxE K w →
          ∃ r, flMinimizePGE rd P = .ok r ∧ r.success = true ∧ r.nit ≤ N ∧ FlPgConvexGuarantee f G xs (WithLp.toLp 2 P.x0) C s1 w P.tol P.maxIter r := by
  obtain ⟨C0, hC01, h0⟩ := flPgE_track hG hp hL hf hq hxs hmin hs1 h12 hs2 hK R
  obtain ⟨B, hB⟩ : ∃ B, B = |R| + ‖xs‖ + 1 := ⟨_, rfl⟩
  have hB0 : 0 ≤ B := by rw [hB]; positivity
  obtain ⟨C1, hC1, h1⟩ := flPg_small_cert hG hp hL hf hq hxs hmin hs1 h12 hs2 hK hB0
  have hx0n : ∀ x0 : Fin d → ℝ, norm2 x0 ≤ R → ‖(WithLp.toLp 2 x0 : ℓ²) - xs‖ ≤ |R| + ‖xs‖ := by
    intro x0 hx0
    refine (norm_sub_le _ _).trans ?_
    rw [toLp_norm]
    linarith [le_abs_self R]
  have hC0 : 0 < C0 + C1 := by linarith
  -- runs of which the first `n + 1` iterations are under control
  have core : ∀ (rd : ℝ → ℝ) (u eta w : ℝ), Rounding rd u eta → u ≤ w → eta ≤ w ^ 2 →
      ∀ (P : FlPGArgsE d) (n : ℕ), (C0 + C1) * (n + 1) * w ≤ 1 → norm2 P.x0 ≤ R → (∀ k, s1 ≤ P.step k ∧ P.step k ≤ s2) → FlOraclesE rd P g proxE K w →
        ∃ pr, FlOracles (P.total pr) g proxE K w ∧
          (∀ k ≤ n + 1, ‖(WithLp.toLp 2 (flPgOrbit rd (P.total pr) k) : ℓ²) - exactPg g proxE P.step (WithLp.toLp 2 P.x0) k‖ ≤ C0 * k * w) ∧
          ((P.maxIter ≤ n ∨ ∃ k ≤ n, flPgCert rd (P.total pr) k (flPgOrbit rd (P.total pr) k) (flPgOrbit rd (P.total pr) (k + 1)) < P.tol) →
            flMinimizePGE rd P = .ok (flMinimizePG rd (P.total pr)) ∧ (flMinimizePG rd (P.total pr)).nit ≤ n ∧
              FlPgConvexGuarantee f G xs (WithLp.toLp 2 P.x0) (C0 + C1) s1 w P.tol P.maxIter (flMinimizePG rd (P.total pr))) := by
    intro rd u eta w hr hu he P n hn hx0 hst hO
    have hw0 : 0 ≤ w := hr.u_nonneg.trans hu
    obtain ⟨pr, hOt, htr, hok⟩ := h0 rd u eta w hr hu he P hx0 hst hO
    have hmono : ∀ k : ℕ, k ≤ n + 1 → C0 * k * w ≤ 1 := by
      intro k hk
      have h2 : (k : ℝ) ≤ n + 1 := by exact_mod_cast hk
      have h3 : C0 * k ≤ (C0 + C1) * (n + 1) := mul_le_mul (by linarith) h2 (Nat.cast_nonneg k) hC0.le
      exact (mul_le_mul_of_nonneg_right h3 hw0).trans hn
    have htr' : ∀ k ≤ n + 1, ‖(WithLp.toLp 2 (flPgOrbit rd (P.total pr) k) : ℓ²) - exactPg g proxE P.step (WithLp.toLp 2 P.x0) k‖ ≤ C0 * k * w := fun k hk => htr k (hmono k hk)
    refine ⟨pr, hOt, htr', fun hlen => ?_⟩
    have hrun : flMinimizePGE rd P = .ok (flMinimizePG rd (P.total pr)) := by
      refine flPgLoopE_eq rd P pr P.maxIter 0 P.x0 rfl fun k _ hk hprev => ?_
      rcases Nat.lt_or_ge n k with hlt | hge
      · rcases hlen with hl | ⟨i, hi, hc⟩
        · omega
        · exact absurd hc (hprev i (Nat.zero_le i) (by omega))
      · exact hok k (by have := hmono (k + 1) (by omega); push_cast at this; exact this)
    obtain ⟨k, -, hk2, hnit, hx, hcert, hsucc, hfail⟩ := flPgLoop_spec rd (P.total pr) P.maxIter 0 P.x0 rfl
    have hfirst := flPgLoop_first rd (P.total pr) P.maxIter 0 P.x0 rfl
    have hkn : k ≤ n := by
      rcases Nat.lt_or_ge n k with hlt | hge
      · rcases hlen with hl | ⟨i, hi, hc⟩
        · omega
        · rw [hnit] at hfirst
          exact absurd hc (hfirst i (Nat.zero_le i) (by omega))
      · exact hge
    have hnit' : (flMinimizePG rd (P.total pr)).nit = k := hnit
    have hx' : (flMinimizePG rd (P.total pr)).x = flPgOrbit rd (P.total pr) (k + 1) := hx
    have hw1 : w ≤ 1 := by
      have hn0 : (0 : ℝ) ≤ n := Nat.cast_nonneg n
      have h2 : (1 : ℝ) * 1 ≤ (C0 + C1) * (n + 1) := mul_le_mul (by linarith) (by linarith) zero_le_one hC0.le
      have := mul_le_mul_of_nonneg_right h2 hw0
      linarith
    refine ⟨hrun, by rw [hnit']; exact hkn, ⟨?_, ?_, ?_, by rw [hnit']; omega⟩⟩
    · rw [hnit', hx']
      refine ⟨exactPg g proxE P.step (WithLp.toLp 2 P.x0) (k + 1), (hp _ _ (by linarith [(hst k).1])).1, ?_, fun y hy => exactPg_rate hG hp hf hL hq hs1 hst hs2 k hy⟩
      have h2 := htr' (k + 1) (by omega)
      push_cast at h2
      refine h2.trans (mul_le_mul_of_nonneg_right (mul_le_mul_of_nonneg_right (by linarith) (by positivity)) hw0)
    · intro htol hs
      have h2 := hsucc hs
      rw [hcert] at h2
      have hnear : ‖(WithLp.toLp 2 (flPgOrbit rd (P.total pr) k) : ℓ²) - xs‖ ≤ B := by
        have h3 := (htr' k (by omega)).trans (hmono k (by omega))
        have h4 := exactPg_near (x0 := WithLp.toLp 2 P.x0) hG hp hf hL hq hs1 hst hs2 hxs hmin k
        have h5 := norm_sub_le_norm_sub_add_norm_sub (WithLp.toLp 2 (flPgOrbit rd (P.total pr) k) : ℓ²) (exactPg g proxE P.step (WithLp.toLp 2 P.x0) k) xs
        have h6 := hx0n _ hx0
        rw [hB]; linarith
      obtain ⟨z, hz, hz1, hz2⟩ := h1 rd u eta w hr hu he hw1 (P.total pr) hst hOt k hnear
      rw [hx']
      refine ⟨z, hz, hz1.trans (mul_le_mul_of_nonneg_right (by linarith) hw0), (hz2 P.tol htol h2).trans (mul_le_mul_of_nonneg_right (by linarith) (by linarith))⟩
    · intro hs
      rw [hnit', (hfail hs).1, zero_add]
  refine ⟨C0 + C1, hC0, ?_, ?_⟩
  · intro rd u eta w hr hu he P hn hx0 hst hO
    obtain ⟨pr, -, -, h⟩ := core rd u eta w hr hu he P P.maxIter hn hx0 hst hO
    obtain ⟨h2, -, h3⟩ := h (Or.inl le_rfl)
    exact ⟨_, h2, h3⟩
  · intro tol htol
    obtain ⟨M, hM0, hM⟩ := flPgCert_error (d := d) (g := g) (proxE := proxE) hK hs1
    obtain ⟨ρ, hρ⟩ : ∃ ρ, ρ = |R| + ‖xs‖ := ⟨_, rfl⟩
    have hρ0 : 0 ≤ ρ := by rw [hρ]; positivity
    -- the number of iterations
    obtain ⟨N, hN⟩ := exists_nat_gt (4 * s2 * ρ ^ 2 / (s1 * (s1 * tol) ^ 2))
    have hs20 : 0 < s2 := by linarith
    have hN0 : 0 < N := by
      have : (0 : ℝ) ≤ 4 * s2 * ρ ^ 2 / (s1 * (s1 * tol) ^ 2) := by positivity
      exact_mod_cast this.trans_lt hN
    have hNr : (0 : ℝ) < N := by exact_mod_cast hN0
    obtain ⟨A, hA⟩ : ∃ A, A = s1⁻¹ * (C0 * (2 * N + 1)) + M * (1 + 2 * ρ + 2) := ⟨_, rfl⟩
    have hA0 : 0 ≤ A := by rw [hA]; positivity
    refine ⟨N, (C0 + C1) * (N + 1) + 4 * A / tol, by positivity, ?_⟩
    intro rd u eta w hr hu he hw P hPtol hNle hx0 hst hO
    have hw0 : 0 ≤ w := hr.u_nonneg.trans hu
    have hAt : 0 ≤ 4 * A / tol := by positivity
    have hn : (C0 + C1) * (N + 1) * w ≤ 1 := by
      have := mul_nonneg hAt hw0
      linarith
    have hw1 : w ≤ 1 := by
      have h2 : (1 : ℝ) * 1 ≤ (C0 + C1) * (N + 1) := mul_le_mul (by linarith) (by linarith) zero_le_one hC0.le
      have := mul_le_mul_of_nonneg_right h2 hw0
      linarith
    have hAw : A * w ≤ tol / 4 := by
      have h2 : 4 * A / tol * w ≤ 1 := by
        have : 0 ≤ (C0 + C1) * (N + 1) * w := by positivity
        linarith
      have h3 : 4 * A / tol * w = 4 * (A * w) / tol := by ring
      rw [h3, div_le_one htol] at h2
      linarith
    obtain ⟨pr, hOt, htr, h⟩ := core rd u eta w hr hu he P N hn hx0 hst hO
    obtain ⟨k, hkN, hres⟩ := exactPg_residual (x0 := WithLp.toLp 2 P.x0) hG hp hf hL hq hs1 hst hs2 hxs hmin hN0
    have hc : flPgCert rd (P.total pr) k (flPgOrbit rd (P.total pr) k) (flPgOrbit rd (P.total pr) (k + 1)) < P.tol := by
      obtain ⟨X, hX⟩ : ∃ X, X = exactPg g proxE P.step (WithLp.toLp 2 P.x0) := ⟨_, rfl⟩
      rw [← hX] at hres htr
      obtain ⟨x, hx⟩ : ∃ x : ℓ², x = WithLp.toLp 2 (flPgOrbit rd (P.total pr) k) := ⟨_, rfl⟩
      obtain ⟨x', hx'⟩ : ∃ x' : ℓ², x' = WithLp.toLp 2 (flPgOrbit rd (P.total pr) (k + 1)) := ⟨_, rfl⟩
      have e1 := htr k (by omega)
      have e2 := htr (k + 1) (by omega)
      rw [← hx] at e1
      rw [← hx'] at e2
      have hkN' : (k : ℝ) ≤ N := by exact_mod_cast hkN
      have hx0' : ‖(WithLp.toLp 2 P.x0 : ℓ²) - xs‖ ≤ ρ := by rw [hρ]; exact hx0n _ hx0
      -- the exact step
      have hΔ : ‖X k - X (k + 1)‖ < s1 * tol / 2 := by
        have h2 : ‖(WithLp.toLp 2 P.x0 : ℓ²) - xs‖ ^ 2 ≤ ρ ^ 2 := pow_le_pow_left₀ (norm_nonneg _) hx0' 2
        rw [div_lt_iff₀ (by positivity)] at hN
        have h3 : s1 * N * ‖X k - X (k + 1)‖ ^ 2 < s1 * N * (s1 * tol / 2) ^ 2 := by
          have h4 := mul_le_mul_of_nonneg_left h2 hs20.le
          have h5 : s1 * N * (s1 * tol / 2) ^ 2 = N * (s1 * (s1 * tol) ^ 2) / 4 := by ring
          rw [h5]
          linarith
        have h6 := lt_of_mul_lt_mul_left h3 (by positivity)
        exact lt_of_pow_lt_pow_left₀ 2 (by positivity) h6
      have hXk : ‖X k - X (k + 1)‖ ≤ 2 * ρ := by
        have a1 := exactPg_near (x0 := WithLp.toLp 2 P.x0) hG hp hf hL hq hs1 hst hs2 hxs hmin k
        have a2 := exactPg_near (x0 := WithLp.toLp 2 P.x0) hG hp hf hL hq hs1 hst hs2 hxs hmin (k + 1)
        rw [← hX] at a1 a2
        have a3 := norm_sub_le_norm_sub_add_norm_sub (X k) xs (X (k + 1))
        rw [norm_sub_rev xs] at a3
        linarith
      have hdiff : ‖x - x'‖ ≤ ‖X k - X (k + 1)‖ + C0 * (2 * N + 1) * w := by
        have a1 := norm_sub_le_norm_sub_add_norm_sub x (X k) x'
        have a2 := norm_sub_le_norm_sub_add_norm_sub (X k) (X (k + 1)) x'
        rw [norm_sub_rev (X (k + 1)) x'] at a2
        have a3 : C0 * k * w ≤ C0 * N * w := mul_le_mul_of_nonneg_right (mul_le_mul_of_nonneg_left hkN' (by linarith)) hw0
        push_cast at e2
        linarith
      have hsmall : C0 * (2 * N + 1) * w ≤ 2 := by
        have a1 : C0 * (2 * N + 1) * w ≤ 2 * ((C0 + C1) * (N + 1) * w) := by
          have : 0 ≤ C1 * (N + 1) * w := by positivity
          have : 0 ≤ C0 * w := mul_nonneg (by linarith) hw0
          linarith
        linarith
      have hcert := (abs_le.mp (hM rd u eta w hr hu he hw0 hw1 (P.total pr) hOt k (hst k).1 (flPgOrbit rd (P.total pr) k) (flPgOrbit rd (P.total pr) (k + 1)))).2
      rw [← hx, ← hx'] at hcert
      have hs : 0 < P.step k := by linarith [(hst k).1]
      have a1 : ‖x - x'‖ / P.step k ≤ s1⁻¹ * ‖x - x'‖ := by
        rw [div_eq_inv_mul]
        exact mul_le_mul_of_nonneg_right (inv_anti₀ hs1 (hst k).1) (norm_nonneg _)
      have a2 : s1⁻¹ * ‖x - x'‖ ≤ s1⁻¹ * (s1 * tol / 2 + C0 * (2 * N + 1) * w) := mul_le_mul_of_nonneg_left (by linarith) (by positivity)
      have a3 : s1⁻¹ * (s1 * tol / 2 + C0 * (2 * N + 1) * w) = tol / 2 + s1⁻¹ * (C0 * (2 * N + 1)) * w := by
        field_simp
      have a4 : M * w * (1 + ‖x - x'‖) ≤ M * w * (1 + 2 * ρ + 2) := mul_le_mul_of_nonneg_left (by linarith) (mul_nonneg hM0 hw0)
      have a5 : A * w = s1⁻¹ * (C0 * (2 * N + 1)) * w + M * w * (1 + 2 * ρ + 2) := by rw [hA]; ring
      have a6 : (P.total pr).step k = P.step k := rfl
      rw [a6] at hcert
      rw [hPtol]
      linarith
    obtain ⟨h2, h3, h4⟩ := h (Or.inr ⟨k, hkN, hc⟩)
    refine ⟨_, h2, ?_, h3, h4⟩
    by_contra hcon
    have hfalse : (flMinimizePG rd (P.total pr)).success = false := by simpa using hcon
    obtain ⟨i, -, -, -, -, -, -, hkf⟩ := flPgLoop_spec rd (P.total pr) P.maxIter 0 P.x0 rfl
    obtain ⟨hi, hall⟩ := hkf hfalse
    exact hall k (Nat.zero_le _) (by omega) hc

/-! ### The losses and penalties of the library -/

/-- **C125.** `minimize_proximal_gradient(f.f_grad, x0, pen.prox, step=…)` for a loss of the library, with `alpha = 0` allowed, and any penalty or constraint on vectors but `FusedLasso`, everything
computed in rounded arithmetic of precision `w`; `xs` is a solution and the steps are at most `1 / L`.  Conclusions as in `C125_rounded_convex`. -/
theorem C125_rounded_regression (f : LossObj n d) (hf : f.Good) {sv : ℝ} (hsv : IsLargestSingular f.mat sv) (hL : 0 < f.lipschitz sv) (pen : PenObj d) (hpen : pen.FlGoodE)
    {xs : ℓ²} (hxs : xs ∈ pen.fn.dom) (hmin : ∀ y ∈ pen.fn.dom, f.fn xs + pen.fn.val xs ≤ f.fn y + pen.fn.val y)
    {s1 s2 : ℝ} (hs1 : 0 < s1) (h12 : s1 ≤ s2) (hs2 : s2 * f.lipschitz sv ≤ 1) (R : ℝ) :
    ∃ C, 0 < C ∧ (∀ (rd fexp : ℝ → ℝ) (u eta w : ℝ), Rounding rd u eta → u ≤ w → eta ≤ w ^ 2 → (∀ t ≤ 0, |fexp t - Real.exp t| ≤ w) →
      ∀ P : FlPGArgsE d, C * (P.maxIter + 1) * w ≤ 1 → norm2 P.x0 ≤ R → (∀ k, s1 ≤ P.step k ∧ P.step k ≤ s2) → (∀ k x, f.FlGrad rd fexp x (P.grad k x)) →
        (∀ k v, pen.FlProxE rd v (P.step k) (P.prox k v (P.step k))) → (∀ k v, FlNorm rd v (P.norm k v)) →
        ∃ r, flMinimizePGE rd P = .ok r ∧ FlPgConvexGuarantee f.fn pen.fn xs (WithLp.toLp 2 P.x0) C s1 w P.tol P.maxIter r) ∧
      ∀ tol > 0, ∃ (N : ℕ) (C' : ℝ), 0 < C' ∧ ∀ (rd fexp : ℝ → ℝ) (u eta w : ℝ), Rounding rd u eta → u ≤ w → eta ≤ w ^ 2 → (∀ t ≤ 0, |fexp t - Real.exp t| ≤ w) → C' * w ≤ 1 →
        ∀ P : FlPGArgsE d, P.tol = tol → N ≤ P.maxIter → norm2 P.x0 ≤ R → (∀ k, s1 ≤ P.step k ∧ P.step k ≤ s2) → (∀ k x, f.FlGrad rd fexp x (P.grad k x)) →
          (∀ k v, pen.FlProxE rd v (P.step k) (P.prox k v (P.step k))) → (∀ k v, FlNorm rd v (P.norm k v)) →
          ∃ r, flMinimizePGE rd P = .ok r ∧ r.success = true ∧ r.nit ≤ N ∧ FlPgConvexGuarantee f.fn pen.fn xs (WithLp.toLp 2 P.x0) C s1 w P.tol P.maxIter r := by
  obtain ⟨-, hconv, hq, -, -⟩ := C92_loss f hf hsv
  obtain ⟨hG, hp, -, -⟩ := C92_prox_exact pen hpen.good
  obtain ⟨K, M, hK, hM, hO⟩ := flOracles_library f hf pen hpen hs1 h12
  obtain ⟨C, hC, h1, h2⟩ := C125_rounded_convex hG hp hL hconv hq hxs hmin hs1 h12 hs2 hK R
  refine ⟨C + M, by linarith, ?_, ?_⟩
  · intro rd fexp u eta w hr hu he hexp P hw hx0 hst hgr hpr hno
    have hw0 : 0 ≤ w := hr.u_nonneg.trans hu
    have hm0 : (0 : ℝ) ≤ P.maxIter := Nat.cast_nonneg _
    have t1 : 0 ≤ M * P.maxIter * w := by positivity
    have t2 : 0 ≤ C * (P.maxIter + 1) * w := by positivity
    have t3 : 0 ≤ M * w := by positivity
    obtain ⟨r, e, c⟩ := h1 rd u eta w hr hu he P (by linarith) hx0 hst (hO rd fexp u eta w hr hu he hexp (by linarith) P hst hgr hpr hno)
    exact ⟨r, e, c.mono (by linarith) hw0⟩
  · intro tol htol
    obtain ⟨N, C', hC', h3⟩ := h2 tol htol
    refine ⟨N, C' + M, by linarith, ?_⟩
    intro rd fexp u eta w hr hu he hexp hw P hPt hN hx0 hst hgr hpr hno
    have hw0 : 0 ≤ w := hr.u_nonneg.trans hu
    have t2 : 0 ≤ C' * w := by positivity
    have t3 : 0 ≤ M * w := by positivity
    obtain ⟨r, e, hs, hn, c⟩ := h3 rd u eta w hr hu he (by linarith) P hPt hN hx0 hst (hO rd fexp u eta w hr hu he hexp (by linarith) P hst hgr hpr hno)
    exact ⟨r, e, hs, hn, c.mono (by linarith) hw0⟩

/-! ### Instances -/

theorem continuous_of_smooth {E : Type} [NormedAddCommGroup E] [InnerProductSpace ℝ E] {f : E → ℝ} {g : E → E} {L : ℝ} (hf : ConvexGrad f g) (hq : UpperQuad f g L) : Continuous f := by
  rw [continuous_iff_continuousAt]
  intro x
  have h1 : Continuous fun y => f x + ⟪g x, y - x⟫_ℝ := by fun_prop
  have h2 : Continuous fun y => f x + ⟪g x, y - x⟫_ℝ + L / 2 * ‖y - x‖ ^ 2 := by fun_prop
  have t1 := h1.tendsto x
  have t2 := h2.tendsto x
  simp only [sub_self, inner_zero_right, norm_zero, add_zero, ne_eq, OfNat.ofNat_ne_zero, not_false_eq_true, zero_pow, mul_zero] at t1 t2
  exact tendsto_of_tendsto_of_tendsto_of_le_of_le t1 t2 (hf x) (hq x)

/-- On the l1 ball every loss has a minimiser. -/
theorem exists_minimiser_l1Ball (f : LossObj n d) (hf : f.Good) {sv : ℝ} (hsv : IsLargestSingular f.mat sv) {alpha : ℝ} (ha : 0 < alpha) :
    ∃ xs ∈ (PenObj.l1Ball (d := d) alpha).fn.dom, ∀ y ∈ (PenObj.l1Ball (d := d) alpha).fn.dom, f.fn xs + (PenObj.l1Ball (d := d) alpha).fn.val xs ≤ f.fn y + (PenObj.l1Ball (d := d) alpha).fn.val y := by
  obtain ⟨-, hconv, hq, -, -⟩ := C92_loss f hf hsv
  have hcl : IsClosed {x : ℓ² | WithLp.ofLp x ∈ Spec.l1Ball alpha} := by
    have : Continuous fun x : ℓ² => ∑ i, |x i| := by fun_prop
    exact isClosed_le this continuous_const
  have hbd : Bornology.IsBounded {x : ℓ² | WithLp.ofLp x ∈ Spec.l1Ball alpha} := by
    refine (Metric.isBounded_closedBall (x := (0 : ℓ²)) (r := d * alpha)).subset fun x hx => ?_
    rw [mem_closedBall_zero_iff]
    refine norm_le_of_coord x fun j => ?_
    exact (Finset.single_le_sum (f := fun j => |x j|) (fun _ _ => abs_nonneg _) (Finset.mem_univ j)).trans hx
  have hne : ({x : ℓ² | WithLp.ofLp x ∈ Spec.l1Ball alpha}).Nonempty := ⟨0, by
    show ∑ i : Fin d, |(0 : ℝ)| ≤ alpha
    simp; exact ha.le⟩
  obtain ⟨xs, hxs, hm⟩ := (Metric.isCompact_of_isClosed_isBounded hcl hbd).exists_isMinOn hne (continuous_of_smooth hconv hq).continuousOn
  exact ⟨xs, hxs, fun y hy => add_le_add (hm hy) le_rfl⟩

/-- C125 for every loss and data set, without regularisation, on the l1 ball of any radius: rounding to `p + 1` bits for every large enough `p`, with step `1 / L` and the results of a sequential
implementation with fused multiply-add instructions.  With a fixed positive tolerance every long enough run succeeds. -/
example (hn : 0 < n) (hd : 0 < d) (f : LossObj n d) (hf : f.Good) {sv : ℝ} (hsv : IsLargestSingular f.mat sv) (hL : 0 < f.lipschitz sv) {alpha : ℝ} (ha : 0 < alpha) (x0 : Fin d → ℝ)
    {tol : ℝ} (htol : 0 < tol) : ∃ (N p0 : ℕ), ∀ p ≥ p0, ∃ P : FlPGArgsE d, P.x0 = x0 ∧ P.tol = tol ∧ (∀ k x, f.FlGrad (flBits p) (fun t => flBits p (Real.exp t)) x (P.grad k x)) ∧
        (∀ k v, (PenObj.l1Ball alpha).FlProxE (flBits p) v (P.step k) (P.prox k v (P.step k))) ∧
        ∀ m ≥ N, ∃ r, flMinimizePGE (flBits p) { P with maxIter := m } = .ok r ∧ r.success = true ∧ r.nit ≤ N := by
  obtain ⟨xs, hxs, hmin⟩ := exists_minimiser_l1Ball f hf hsv ha
  have hpen : (PenObj.l1Ball (d := d) alpha).FlGoodE := ha
  obtain ⟨s1, hs1d⟩ : ∃ s1, s1 = (f.lipschitz sv)⁻¹ := ⟨_, rfl⟩
  have hs1 : 0 < s1 := by rw [hs1d]; positivity
  obtain ⟨C, -, -, h⟩ := C125_rounded_regression f hf hsv hL (.l1Ball alpha) hpen hxs hmin hs1 le_rfl (by rw [hs1d, inv_mul_cancel₀ hL.ne']) (norm2 x0)
  obtain ⟨N, C', hC', h⟩ := h tol htol
  obtain ⟨p0, hp0⟩ := exists_pow_lt_of_lt_one (show 0 < 1 / C' by positivity) (show (2⁻¹ : ℝ) < 1 by norm_num)
  refine ⟨N, p0, fun p hp => ?_⟩
  have hw : (2⁻¹ : ℝ) ^ p * C' < 1 := by
    rw [← lt_div_iff₀ hC']
    exact lt_of_le_of_lt (pow_le_pow_of_le_one (by norm_num) (by norm_num) hp) hp0
  have hpos : (0 : ℝ) < 2⁻¹ ^ p := by positivity
  have hhalf : (2⁻¹ : ℝ) ^ (p + 1) = 2⁻¹ ^ p / 2 := by rw [pow_succ]; ring
  have hr := flBits_rounding (p := p) (eta := 0) le_rfl
  choose gr hgr using fun x => f.exists_flGrad (flBits p) (fun t => flBits p (Real.exp t)) hn hd x
  choose pr hpr using fun v => (PenObj.l1Ball (d := d) alpha).exists_flProxE (flBits p) hd hpen v s1
  choose no hno using fun v : Fin d → ℝ => exists_flNorm (flBits p) hd v
  refine ⟨⟨fun _ => gr, fun _ v _ => pr v, fun _ => no, fun _ => s1, x0, tol, 0⟩, rfl, rfl, fun _ => hgr, fun _ => hpr, fun m hm => ?_⟩
  obtain ⟨r, e, hs, hnit, -⟩ := h (flBits p) (fun t => flBits p (Real.exp t)) (2⁻¹ ^ (p + 1)) 0 (2⁻¹ ^ p) hr (by rw [hhalf]; linarith) (by positivity) (fun t ht => by
      have h1 := hr.err (Real.exp t)
      rw [abs_of_pos (Real.exp_pos t), add_zero] at h1
      have h2 : Real.exp t ≤ 1 := Real.exp_le_one_iff.mpr ht
      have h3 := mul_le_mul_of_nonneg_left h2 (show (0 : ℝ) ≤ 2⁻¹ ^ (p + 1) by positivity)
      rw [hhalf] at h1 h3
      linarith) (by linarith)
    ⟨fun _ => gr, fun _ v _ => pr v, fun _ => no, fun _ => s1, x0, tol, m⟩ rfl hm le_rfl (fun _ => ⟨le_rfl, le_rfl⟩) (fun _ => hgr) (fun _ => hpr) (fun _ => hno)
  exact ⟨r, e, hs, hnit⟩

end Copt
