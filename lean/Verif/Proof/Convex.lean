import Mathlib.Analysis.InnerProductSpace.Basic
import Mathlib.Tactic.FieldSimp
import Mathlib.Tactic.Linarith
import Mathlib.Tactic.Module
import Verif.Spec.Convex

/-! # Convex analysis used by the solvers -/

namespace Copt.Spec

open scoped InnerProductSpace

variable {E : Type} [NormedAddCommGroup E] [InnerProductSpace ℝ E]

theorem norm_add_smul_sq (a d : E) (t : ℝ) : ‖a + t • d‖ ^ 2 = ‖a‖ ^ 2 + 2 * t * ⟪a, d⟫_ℝ + t ^ 2 * ‖d‖ ^ 2 := by
  rw [norm_add_sq_real, inner_smul_right, norm_smul, mul_pow, Real.norm_eq_abs, sq_abs]; ring

theorem nonneg_of_small {a b : ℝ} (h : ∀ t : ℝ, 0 < t → t ≤ 1 → 0 ≤ a + t * b) : 0 ≤ a := by
  by_contra hc
  push Not at hc
  have hb : 0 < |b| + 1 := by positivity
  have hle := le_abs_self b
  have ht : 0 < min 1 (-a / (2 * (|b| + 1))) := lt_min one_pos (div_pos (by linarith) (by positivity))
  have h1 := h _ ht (min_le_left _ _)
  have h2 : min 1 (-a / (2 * (|b| + 1))) * (|b| + 1) ≤ -a / 2 := by
    calc _ ≤ -a / (2 * (|b| + 1)) * (|b| + 1) := mul_le_mul_of_nonneg_right (min_le_right _ _) hb.le
      _ = -a / 2 := by field_simp
  nlinarith

/-- A proximal point of a convex function: the scaled residual is a subgradient. -/
theorem IsProxPt.subgrad {G : ExtFun E} (hG : G.IsConvex) {s : ℝ} (hs : 0 < s) {v p : E} (h : IsProxPt G s v p) :
    IsSubgrad G p (s⁻¹ • (v - p)) := by
  refine ⟨h.1, fun y hy => ?_⟩
  have key : ∀ t : ℝ, 0 < t → t ≤ 1 → 0 ≤ (s * (G.val y - G.val p) + ⟪p - v, y - p⟫_ℝ) + t * (‖y - p‖ ^ 2 / 2) := by
    intro t ht ht1
    have hz := hG.1 h.1 hy (show (0 : ℝ) ≤ 1 - t by linarith) ht.le (by ring)
    have hc := hG.2 h.1 hy (show (0 : ℝ) ≤ 1 - t by linarith) ht.le (by ring)
    have hm := h.2 _ hz
    have e : (1 - t) • p + t • y - v = (p - v) + t • (y - p) := by module
    rw [e, norm_add_smul_sq] at hm
    simp only [smul_eq_mul] at hc
    have h1 := mul_le_mul_of_nonneg_left hc hs.le
    have h2 : 0 ≤ t * ((s * (G.val y - G.val p) + ⟪p - v, y - p⟫_ℝ) + t * (‖y - p‖ ^ 2 / 2)) := by nlinarith
    exact nonneg_of_mul_nonneg_right h2 ht
  have h0 := nonneg_of_small key
  rw [inner_smul_left]
  have e : ⟪v - p, y - p⟫_ℝ = -⟪p - v, y - p⟫_ℝ := by rw [← inner_neg_left]; congr 1; abel
  simp only [conj_trivial]
  rw [e]
  have h3 : s⁻¹ * (s * (G.val y - G.val p)) = G.val y - G.val p := by field_simp
  have h4 := mul_nonneg (inv_nonneg.mpr hs.le) h0
  rw [mul_add, h3] at h4
  linarith

/-- Conversely a subgradient gives a proximal point (no convexity needed). -/
theorem IsSubgrad.prox {G : ExtFun E} {s : ℝ} (hs : 0 < s) {p u : E} (h : IsSubgrad G p u) : IsProxPt G s (p + s • u) p := by
  refine ⟨h.1, fun y hy => ?_⟩
  have h1 := h.2 y hy
  have e1 : p - (p + s • u) = -(s • u) := by abel
  have e2 : y - (p + s • u) = (y - p) + (-s) • u := by module
  rw [e1, e2, norm_add_smul_sq, norm_neg, norm_smul, mul_pow, Real.norm_eq_abs, sq_abs, real_inner_comm]
  nlinarith [sq_nonneg ‖y - p‖, mul_le_mul_of_nonneg_left h1 hs.le]

/-- Monotonicity of the subdifferential. -/
theorem IsSubgrad.mono {G : ExtFun E} {x y u v : E} (hx : IsSubgrad G x u) (hy : IsSubgrad G y v) :
    0 ≤ ⟪u - v, x - y⟫_ℝ := by
  have h1 := hx.2 y hy.1
  have h2 := hy.2 x hx.1
  have e : ⟪u - v, x - y⟫_ℝ = -⟪u, y - x⟫_ℝ - ⟪v, x - y⟫_ℝ := by
    rw [inner_sub_left, ← inner_neg_right, neg_sub]
  rw [e]; linarith

/-- Firm nonexpansiveness of the proximal operator of a convex function. -/
theorem IsProxPt.firm {G : ExtFun E} (hG : G.IsConvex) {s : ℝ} (hs : 0 < s) {v w p q : E} (hp : IsProxPt G s v p)
    (hq : IsProxPt G s w q) : ‖p - q‖ ^ 2 ≤ ⟪v - w, p - q⟫_ℝ := by
  have h := (hp.subgrad hG hs).mono (hq.subgrad hG hs)
  rw [← smul_sub, inner_smul_left] at h
  simp only [conj_trivial] at h
  have h1 : 0 ≤ ⟪(v - p) - (w - q), p - q⟫_ℝ := nonneg_of_mul_nonneg_right h (inv_pos.mpr hs)
  have e : (v - p) - (w - q) = (v - w) - (p - q) := by abel
  rw [e, inner_sub_left, real_inner_self_eq_norm_sq] at h1
  linarith

/-- Nonexpansiveness. -/
theorem IsProxPt.nonexpansive {G : ExtFun E} (hG : G.IsConvex) {s : ℝ} (hs : 0 < s) {v w p q : E} (hp : IsProxPt G s v p)
    (hq : IsProxPt G s w q) : ‖p - q‖ ≤ ‖v - w‖ := by
  have h := hp.firm hG hs hq
  have h2 := real_inner_le_norm (v - w) (p - q)
  by_contra hc
  push Not at hc
  have h3 : 0 < ‖p - q‖ := lt_of_le_of_lt (norm_nonneg _) hc
  nlinarith

theorem IsProxPt.unique {G : ExtFun E} (hG : G.IsConvex) {s : ℝ} (hs : 0 < s) {v p q : E} (hp : IsProxPt G s v p)
    (hq : IsProxPt G s v q) : p = q := by
  have h := hp.nonexpansive hG hs hq
  rw [sub_self, norm_zero] at h
  exact sub_eq_zero.mp (norm_le_zero_iff.mp h)

theorem three_point (x p y : E) : ‖p - x‖ ^ 2 - 2 * ⟪x - p, y - p⟫_ℝ = ‖y - x‖ ^ 2 - ‖y - p‖ ^ 2 := by
  have e : y - x = (y - p) + (p - x) := by abel
  rw [e, norm_add_sq_real, show x - p = -(p - x) by abel, inner_neg_left, real_inner_comm]; ring

/-- The fundamental inequality of one proximal gradient step. -/
theorem prox_grad_ineq {G : ExtFun E} (hG : G.IsConvex) {s : ℝ} (hs : 0 < s) {x g p : E} {fx fp : ℝ}
    (hp : IsProxPt G s (x - s • g) p) (hf : fp ≤ fx + ⟪g, p - x⟫_ℝ + ‖p - x‖ ^ 2 / (2 * s)) {y : E} (hy : y ∈ G.dom) :
    fp + G.val p ≤ fx + ⟪g, y - x⟫_ℝ + G.val y + (‖y - x‖ ^ 2 - ‖y - p‖ ^ 2) / (2 * s) := by
  have h := (hp.subgrad hG hs).2 y hy
  rw [inner_smul_left, show x - s • g - p = (x - p) - s • g by abel, inner_sub_left, inner_smul_left] at h
  simp only [conj_trivial] at h
  have e1 : s⁻¹ * (⟪x - p, y - p⟫_ℝ - s * ⟪g, y - p⟫_ℝ) = 2 * ⟪x - p, y - p⟫_ℝ / (2 * s) - ⟪g, y - p⟫_ℝ := by field_simp
  rw [e1] at h
  have e2 : ⟪g, y - x⟫_ℝ = ⟪g, y - p⟫_ℝ + ⟪g, p - x⟫_ℝ := by rw [← inner_add_right]; congr 1; abel
  rw [← three_point x p y, sub_div, e2]
  linarith

/-- The zero function and indicator functions of convex sets are convex. -/
theorem ExtFun.isConvex_zero : (ExtFun.zero : ExtFun E).IsConvex := convexOn_const 0 convex_univ

theorem ExtFun.isConvex_indicator {C : Set E} (hC : Convex ℝ C) : (ExtFun.indicator C).IsConvex := convexOn_const 0 hC

theorem isProxOf_zero : IsProxOf (ExtFun.zero : ExtFun E) (fun x _ => x) := fun v s _ =>
  ⟨Set.mem_univ _, fun y _ => by simp only [ExtFun.zero, sub_self, norm_zero]; nlinarith [sq_nonneg ‖y - v‖]⟩

/-- A convex function with the quadratic upper bound lies above its tangents by the squared difference of gradients. -/
theorem convex_smooth_lower {f : E → ℝ} {g : E → E} {L : ℝ} (hL : 0 < L) (hf : ConvexGrad f g) (hq : UpperQuad f g L) (x y : E) :
    f x + ⟪g x, y - x⟫_ℝ + 1 / (2 * L) * ‖g y - g x‖ ^ 2 ≤ f y := by
  have h1 := hf x (y + (-(1 / L)) • (g y - g x))
  have h2 := hq y (y + (-(1 / L)) • (g y - g x))
  rw [add_sub_cancel_left, inner_smul_right, norm_smul, mul_pow, Real.norm_eq_abs, sq_abs] at h2
  rw [show y + (-(1 / L)) • (g y - g x) - x = (y - x) + (-(1 / L)) • (g y - g x) by abel, inner_add_right, inner_smul_right] at h1
  have h3 : ⟪g y, g y - g x⟫_ℝ = ⟪g x, g y - g x⟫_ℝ + ‖g y - g x‖ ^ 2 := by
    rw [← real_inner_self_eq_norm_sq, ← inner_add_left, add_sub_cancel]
  rw [h3] at h2
  have e1 : L / 2 * ((-(1 / L)) ^ 2 * ‖g y - g x‖ ^ 2) = 1 / (2 * L) * ‖g y - g x‖ ^ 2 := by field_simp
  have e2 : 1 / L * ‖g y - g x‖ ^ 2 = 2 * (1 / (2 * L) * ‖g y - g x‖ ^ 2) := by field_simp
  nlinarith

/-- Cocoercivity of the gradient (Baillon-Haddad). -/
theorem cocoercive {f : E → ℝ} {g : E → E} {L : ℝ} (hL : 0 < L) (hf : ConvexGrad f g) (hq : UpperQuad f g L) (x y : E) :
    1 / L * ‖g x - g y‖ ^ 2 ≤ ⟪g x - g y, x - y⟫_ℝ := by
  have h1 := convex_smooth_lower hL hf hq x y
  have h2 := convex_smooth_lower hL hf hq y x
  rw [norm_sub_rev (g y) (g x)] at h1
  have e2 : 1 / L * ‖g x - g y‖ ^ 2 = 2 * (1 / (2 * L) * ‖g x - g y‖ ^ 2) := by field_simp
  have e : ⟪g x - g y, x - y⟫_ℝ = -⟪g x, y - x⟫_ℝ - ⟪g y, x - y⟫_ℝ := by
    rw [inner_sub_left, ← inner_neg_right, neg_sub]
  rw [e, e2]; linarith

end Copt.Spec
