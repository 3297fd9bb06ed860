import Mathlib.Analysis.InnerProductSpace.Basic
import Mathlib.Algebra.BigOperators.Intervals
import Mathlib.Tactic.Linarith
import Mathlib.Tactic.FieldSimp
import Verif.Spec.Smooth

/-! # The Frank-Wolfe method with errors in the oracle, in the update and in the step size -/

set_option linter.unusedSectionVars false

namespace Copt

open Spec
open scoped InnerProductSpace

variable {E : Type} [NormedAddCommGroup E] [InnerProductSpace ℝ E]

/-- `n` steps with errors of size `e`: `s k` is the vertex, `y` ranges over the set `Cs`. -/
structure InexactFW (f : E → ℝ) (g : E → E) (Cs : Set E) (L D G F e : ℝ) (x s : ℕ → E) (ga : ℕ → ℝ) (n : ℕ) : Prop where
  step_mem : ∀ k < n, 0 ≤ ga k ∧ ga k ≤ 1
  step_err : ∀ k < n, |ga k - 2 / ((k : ℝ) + 2)| ≤ e
  update : ∀ k < n, ‖x (k + 1) - (x k + ga k • (s k - x k))‖ ≤ e
  vertex : ∀ k < n, ∀ y ∈ Cs, ⟪g (x k), s k - y⟫_ℝ ≤ e
  diam : ∀ k < n, ‖s k - x k‖ ≤ D
  grad : ∀ k < n, ‖g (x k)‖ ≤ G
  bound : ∀ k < n, ∀ y ∈ Cs, |f (x k) - f y| ≤ F

variable {f : E → ℝ} {g : E → E} {Cs : Set E} {L D G F e : ℝ} {x s : ℕ → E} {ga : ℕ → ℝ} {n : ℕ}

/-- The constant in front of the errors. -/
noncomputable def fwK (L D G F e : ℝ) : ℝ := 1 + G + F + L * D ^ 2 + L / 2 * (2 * D + e)

theorem InexactFW.descent (h : InexactFW f g Cs L D G F e x s ga n) (hL : 0 ≤ L) (hD : 0 ≤ D) (he : 0 ≤ e) (hq : UpperQuad f g L) {k : ℕ} (hk : k < n) :
    f (x (k + 1)) ≤ f (x k) + ga k * ⟪g (x k), s k - x k⟫_ℝ + L / 2 * (ga k ^ 2 * D ^ 2) + (G + L / 2 * (2 * D + e)) * e := by
  obtain ⟨p, hp⟩ : ∃ p, p = x (k + 1) - (x k + ga k • (s k - x k)) := ⟨_, rfl⟩
  have hpn : ‖p‖ ≤ e := by rw [hp]; exact h.update k hk
  have hx : x (k + 1) - x k = ga k • (s k - x k) + p := by rw [hp]; abel
  have h1 := hq (x k) (x (k + 1))
  rw [hx, inner_add_right, inner_smul_right] at h1
  have h2 : ⟪g (x k), p⟫_ℝ ≤ G * e := (real_inner_le_norm _ _).trans (mul_le_mul (h.grad k hk) hpn (norm_nonneg _) ((norm_nonneg _).trans (h.grad k hk)))
  obtain ⟨g0, g1⟩ := h.step_mem k hk
  have h3 : ‖ga k • (s k - x k) + p‖ ≤ ga k * D + e := by
    refine (norm_add_le _ _).trans (add_le_add ?_ hpn)
    rw [norm_smul, Real.norm_of_nonneg g0]
    exact mul_le_mul_of_nonneg_left (h.diam k hk) g0
  have h4 : ‖ga k • (s k - x k) + p‖ ^ 2 ≤ (ga k * D + e) ^ 2 := pow_le_pow_left₀ (norm_nonneg _) h3 2
  have h5 : ga k * D ≤ D := mul_le_of_le_one_left hD g1
  have h6 : (ga k * D + e) ^ 2 ≤ ga k ^ 2 * D ^ 2 + (2 * D + e) * e := by nlinarith
  have h7 := mul_le_mul_of_nonneg_left (h4.trans h6) (by linarith : 0 ≤ L / 2)
  linarith

theorem InexactFW.progress (h : InexactFW f g Cs L D G F e x s ga n) (hL : 0 ≤ L) (hD : 0 ≤ D) (he : 0 ≤ e) (hq : UpperQuad f g L) (hc : ConvexGrad f g) {k : ℕ} (hk : k < n)
    {y : E} (hy : y ∈ Cs) :
    f (x (k + 1)) - f y ≤ (1 - 2 / ((k : ℝ) + 2)) * (f (x k) - f y) + L * D ^ 2 / 2 * (2 / ((k : ℝ) + 2)) ^ 2 + fwK L D G F e * e := by
  have h1 := h.descent hL hD he hq hk
  obtain ⟨g0, g1⟩ := h.step_mem k hk
  have h2 : ⟪g (x k), s k - x k⟫_ℝ ≤ -(f (x k) - f y) + e := by
    have e1 : s k - x k = (s k - y) + (y - x k) := by abel
    rw [e1, inner_add_right]
    linarith [h.vertex k hk y hy, hc (x k) y]
  have h3 := mul_le_mul_of_nonneg_left h2 g0
  have h4 : ga k * e ≤ e := mul_le_of_le_one_left he g1
  have h5 := abs_le.mp (h.step_err k hk)
  have hb := h.bound k hk y hy
  have h6 : (2 / ((k : ℝ) + 2) - ga k) * (f (x k) - f y) ≤ e * F := by
    refine (le_abs_self _).trans ?_
    rw [abs_mul, abs_sub_comm]
    exact mul_le_mul (h.step_err k hk) hb (abs_nonneg _) he
  have t0 : 0 ≤ 2 / ((k : ℝ) + 2) := by positivity
  have t1 : 2 / ((k : ℝ) + 2) ≤ 1 := by rw [div_le_one (by positivity)]; linarith [(Nat.cast_nonneg k : (0 : ℝ) ≤ k)]
  have h7 : ga k ^ 2 ≤ (2 / ((k : ℝ) + 2)) ^ 2 + 2 * e := by nlinarith
  have h8 : L / 2 * (ga k ^ 2 * D ^ 2) ≤ L / 2 * (((2 / ((k : ℝ) + 2)) ^ 2 + 2 * e) * D ^ 2) :=
    mul_le_mul_of_nonneg_left (mul_le_mul_of_nonneg_right h7 (sq_nonneg D)) (by linarith)
  unfold fwK
  nlinarith

theorem inexact_rate_step {a c : ℝ} (ha : 0 ≤ a) (hc : 0 ≤ c) (k : ℕ) {E E' : ℝ} (hE : E ≤ a / ((k : ℝ) + 2) + c * k) (h : E' ≤ (1 - 2 / ((k : ℝ) + 2)) * E + a / 4 * (2 / ((k : ℝ) + 2)) ^ 2 + c) :
    E' ≤ a / (((k + 1 : ℕ) : ℝ) + 2) + c * ((k + 1 : ℕ) : ℝ) := by
  have hk : (0 : ℝ) ≤ k := Nat.cast_nonneg k
  have hp : 0 < (k : ℝ) + 2 := by linarith
  have t1 : 0 ≤ 1 - 2 / ((k : ℝ) + 2) := by rw [sub_nonneg, div_le_one hp]; linarith
  have t2 : 1 - 2 / ((k : ℝ) + 2) ≤ 1 := by have : 0 ≤ 2 / ((k : ℝ) + 2) := by positivity
                                            linarith
  have h1 := mul_le_mul_of_nonneg_left hE t1
  have h2 : (1 - 2 / ((k : ℝ) + 2)) * (c * k) ≤ c * k := mul_le_of_le_one_left (by positivity) t2
  have h3 : (1 - 2 / ((k : ℝ) + 2)) * (a / ((k : ℝ) + 2)) + a / 4 * (2 / ((k : ℝ) + 2)) ^ 2 ≤ a / ((k : ℝ) + 3) := by
    have : (1 - 2 / ((k : ℝ) + 2)) * (a / ((k : ℝ) + 2)) + a / 4 * (2 / ((k : ℝ) + 2)) ^ 2 = a * (k + 1) / ((k : ℝ) + 2) ^ 2 := by field_simp; ring
    rw [this, div_le_div_iff₀ (by positivity) (by positivity)]
    nlinarith
  push_cast
  have h4 : (k : ℝ) + 1 + 2 = k + 3 := by ring
  rw [h4]
  linarith

/-- Rate of convergence. -/
theorem InexactFW.rate (h : InexactFW f g Cs L D G F e x s ga n) (hL : 0 ≤ L) (hD : 0 ≤ D) (he : 0 ≤ e) (hq : UpperQuad f g L) (hc : ConvexGrad f g) (hG : 0 ≤ G) (hF : 0 ≤ F)
    {y : E} (hy : y ∈ Cs) : ∀ k, k < n → f (x (k + 1)) - f y ≤ 2 * (L * D ^ 2) / (((k + 1 : ℕ) : ℝ) + 2) + fwK L D G F e * e * ((k + 1 : ℕ) : ℝ) := by
  have hK : 0 ≤ fwK L D G F e * e := by unfold fwK; positivity
  have ha : 0 ≤ 2 * (L * D ^ 2) := by positivity
  intro k
  induction k with
  | zero =>
    intro hk
    have h1 := h.progress hL hD he hq hc hk hy
    norm_num at h1 ⊢
    have : 0 ≤ L * D ^ 2 := by positivity
    linarith
  | succ k ih =>
    intro hk
    have h1 := h.progress hL hD he hq hc hk hy
    refine inexact_rate_step ha hK (k + 1) (ih (by omega)) (h1.trans (le_of_eq ?_))
    ring

/-- Some vertex is nearly optimal: between the iterations `N` and `2 N` the gap becomes small. -/
theorem InexactFW.gap (h : InexactFW f g Cs L D G F e x s ga n) (hL : 0 ≤ L) (hD : 0 ≤ D) (he : 0 ≤ e) (hq : UpperQuad f g L) (hc : ConvexGrad f g) (hG : 0 ≤ G) (hF : 0 ≤ F)
    {N : ℕ} (hN : 1 ≤ N) (hn : 2 * N ≤ n) {y : E} (hy : y ∈ Cs) {lo : ℝ} (hlo : -lo ≤ f (x (2 * N)) - f y) {tau : ℝ} (ht : 0 ≤ tau) (hgap : ∀ k, N ≤ k → k < 2 * N → tau ≤ ⟪g (x k), x k - s k⟫_ℝ) :
    2 / 3 * tau ≤ 4 * (L * D ^ 2) / N + (2 * fwK L D G F e + tau) * e * N + lo := by
  obtain ⟨K, hKd⟩ : ∃ K, K = fwK L D G F e := ⟨_, rfl⟩
  have hK0 : 0 ≤ K := by rw [hKd]; unfold fwK; positivity
  have hN1 : (1 : ℝ) ≤ N := by exact_mod_cast hN
  have hLD : 0 ≤ L * D ^ 2 := by positivity
  have step : ∀ k, N ≤ k → k < 2 * N → f (x (k + 1)) ≤ f (x k) - 2 / 3 * tau / N + tau * e + (2 * (L * D ^ 2) / N ^ 2 + K * e) := by
    intro k hk1 hk2
    have hk : k < n := by omega
    have h1 := h.descent hL hD he hq hk
    obtain ⟨g0, g1⟩ := h.step_mem k hk
    have h2 : ga k * ⟪g (x k), s k - x k⟫_ℝ ≤ -(ga k * tau) := by
      have e1 : s k - x k = -(x k - s k) := by abel
      rw [e1, inner_neg_right]
      have := mul_le_mul_of_nonneg_left (hgap k hk1 hk2) g0
      linarith
    have hkN : (N : ℝ) ≤ k := by exact_mod_cast hk1
    have hk2N : (k : ℝ) + 1 ≤ 2 * N := by exact_mod_cast hk2
    have h5 := abs_le.mp (h.step_err k hk)
    have h3 : 2 / 3 / N ≤ 2 / ((k : ℝ) + 2) := by
      rw [div_div, div_le_div_iff₀ (by positivity) (by positivity)]; linarith
    have h4 : 2 / ((k : ℝ) + 2) ≤ 2 / N := div_le_div_of_nonneg_left (by norm_num) (by linarith) (by linarith)
    have h6 : (2 / 3 / N - e) * tau ≤ ga k * tau := mul_le_mul_of_nonneg_right (by linarith) ht
    have t0 : 0 ≤ 2 / ((k : ℝ) + 2) := by positivity
    have t1 : 2 / ((k : ℝ) + 2) ≤ 1 := by rw [div_le_one (by positivity)]; linarith [(Nat.cast_nonneg k : (0 : ℝ) ≤ k)]
    have h7 : ga k ^ 2 ≤ (2 / (N : ℝ)) ^ 2 + 2 * e := by
      have : ga k ^ 2 ≤ (2 / ((k : ℝ) + 2)) ^ 2 + 2 * e := by nlinarith
      have h8 : (2 / ((k : ℝ) + 2)) ^ 2 ≤ (2 / (N : ℝ)) ^ 2 := pow_le_pow_left₀ t0 h4 2
      linarith
    have h8 : L / 2 * (ga k ^ 2 * D ^ 2) ≤ L / 2 * (((2 / (N : ℝ)) ^ 2 + 2 * e) * D ^ 2) :=
      mul_le_mul_of_nonneg_left (mul_le_mul_of_nonneg_right h7 (sq_nonneg D)) (by linarith)
    have h9 : L / 2 * (((2 / (N : ℝ)) ^ 2 + 2 * e) * D ^ 2) = 2 * (L * D ^ 2) / N ^ 2 + L * D ^ 2 * e := by field_simp
    have h10 : K * e = (1 + F) * e + (G + L / 2 * (2 * D + e)) * e + L * D ^ 2 * e := by rw [hKd]; unfold fwK; ring
    have h11 : 0 ≤ (1 + F) * e := by positivity
    have h12 : (2 / 3 / (N : ℝ) - e) * tau = 2 / 3 * tau / N - tau * e := by ring
    linarith
  have sum : ∀ m, m ≤ N → f (x (N + m)) ≤ f (x N) + m * (-(2 / 3 * tau / N) + tau * e + (2 * (L * D ^ 2) / N ^ 2 + K * e)) := by
    intro m
    induction m with
    | zero => intro _; simp
    | succ m ih =>
      intro hm
      have h1 := step (N + m) (by omega) (by omega)
      have h2 := ih (by omega)
      rw [Nat.add_assoc] at h1
      push_cast
      linarith
  have h1 := sum N le_rfl
  rw [← two_mul] at h1
  obtain ⟨M, rfl⟩ : ∃ M, N = M + 1 := ⟨N - 1, by omega⟩
  have h2 := h.rate hL hD he hq hc hG hF hy M (by omega)
  rw [← hKd] at h2 ⊢
  have hNp : (0 : ℝ) < ((M + 1 : ℕ) : ℝ) := by linarith
  have h3 : 2 * (L * D ^ 2) / (((M + 1 : ℕ) : ℝ) + 2) ≤ 2 * (L * D ^ 2) / ((M + 1 : ℕ) : ℝ) := div_le_div_of_nonneg_left (by positivity) hNp (by linarith)
  have h4 : ((M + 1 : ℕ) : ℝ) * (-(2 / 3 * tau / ((M + 1 : ℕ) : ℝ)) + tau * e + (2 * (L * D ^ 2) / ((M + 1 : ℕ) : ℝ) ^ 2 + K * e)) =
      -(2 / 3 * tau) + tau * e * ((M + 1 : ℕ) : ℝ) + 2 * (L * D ^ 2) / ((M + 1 : ℕ) : ℝ) + K * e * ((M + 1 : ℕ) : ℝ) := by
    field_simp
    ring
  rw [h4] at h1
  have h5 : 4 * (L * D ^ 2) / ((M + 1 : ℕ) : ℝ) = 2 * (L * D ^ 2) / ((M + 1 : ℕ) : ℝ) + 2 * (L * D ^ 2) / ((M + 1 : ℕ) : ℝ) := by ring
  rw [h5]
  linarith

end Copt
