import Verif.Proof.FloatFW
import Verif.Props.FloatSolver

/-! # C122: the Frank-Wolfe method on the l1 ball with rounded arithmetic -/

set_option linter.unusedSectionVars false

namespace Copt

open Spec
open scoped InnerProductSpace

variable {d n : ℕ}

theorem toLp_le_norm1 (x : Fin d → ℝ) : ‖(WithLp.toLp 2 x : EuclideanSpace ℝ (Fin d))‖ ≤ norm1 x := by
  refine abs_le_of_sq_le_sq' ?_ (norm1_nonneg' x) |>.2
  rw [norm_sq_ofLp]
  unfold dot
  calc ∑ j, x j * x j ≤ ∑ j, |x j| * norm1 x := Finset.sum_le_sum fun j _ => by
        rw [← abs_mul_abs_self]
        exact mul_le_mul_of_nonneg_left (Finset.single_le_sum (f := fun j => |x j|) (fun j _ => abs_nonneg _) (Finset.mem_univ j)) (abs_nonneg _)
    _ = norm1 x ^ 2 := by rw [← Finset.sum_mul, sq]; rfl

/-- A vector with small coordinates against one with a small sum. -/
theorem abs_dot_le {v y : Fin d → ℝ} {a : ℝ} (h : ∀ j, |v j| ≤ a) : |dot v y| ≤ a * norm1 y := by
  unfold dot norm1
  rw [Finset.mul_sum]
  refine (Finset.abs_sum_le_sum_abs _ _).trans (Finset.sum_le_sum fun j _ => ?_)
  rw [abs_mul]
  exact mul_le_mul_of_nonneg_right (h j) (abs_nonneg _)

/-- Constants of a problem: `Gm` bounds the gradient near the ball, `e0 w` the errors, `K1` their propagation, `K3 w` the error of the certificate. -/
structure FwConst (f : EuclideanSpace ℝ (Fin d) → ℝ) (g : EuclideanSpace ℝ (Fin d) → EuclideanSpace ℝ (Fin d)) (L alpha K : ℝ) where
  c : ℝ
  Gm : ℝ
  e0 : ℝ
  K1 : ℝ
  K3 : ℝ
  c_def : c = 12 * alpha + 5 * d
  G_def : Gm = ‖g 0‖ + L * (2 * alpha)
  e_def : e0 = 2 + 2 * c + 2 * alpha * (K * (1 + 2 * alpha))
  K1_def : K1 = 1 + Gm + Gm * (3 * alpha) + L * (2.05 * alpha) ^ 2 + L / 2 * (2 * (2.05 * alpha) + e0)
  K3_def : K3 = 4 * d * ((Gm + K * (1 + 2 * alpha)) * (3 * alpha + 1) + 1) + (Gm + K * (1 + 2 * alpha)) * (3 * alpha + 1) + 3 * alpha * (K * (1 + 2 * alpha))

/-- The hypotheses on a run. -/
structure FwRun (g : EuclideanSpace ℝ (Fin d) → EuclideanSpace ℝ (Fin d)) (alpha K : ℝ) (rd : ℝ → ℝ) (u eta w : ℝ) (P : FlFWArgs d) : Prop where
  rnd : Rounding rd u eta
  rd_one : rd 1 = 1
  u_le : u ≤ w
  eta_le : eta ≤ w
  w_le : w ≤ 1 / 8
  d_le : 4 * d * w ≤ 1
  grad : ∀ k x j, |P.grad k x j - g (WithLp.toLp 2 x) j| ≤ K * w * (1 + norm2 x)
  inner : ∀ k v y, FlDot rd (List.ofFn fun j => (v j, y j)) (P.dot k v y)
  step : ∀ k : ℕ, P.step k = rd (2 / ((k : ℝ) + 2))
  alpha_eq : P.alpha = alpha
  x0_mem : norm1 P.x0 ≤ alpha

variable {f : EuclideanSpace ℝ (Fin d) → ℝ} {g : EuclideanSpace ℝ (Fin d) → EuclideanSpace ℝ (Fin d)} {L alpha K : ℝ} {rd : ℝ → ℝ} {u eta w : ℝ} {P : FlFWArgs d}

theorem FwRun.step_mem (h : FwRun g alpha K rd u eta w P) (k : ℕ) : 0 ≤ P.step k ∧ P.step k ≤ 1 := by
  have t1 : 2 / ((k : ℝ) + 2) ≤ 1 := by rw [div_le_one (by positivity)]; linarith [(Nat.cast_nonneg k : (0 : ℝ) ≤ k)]
  rw [h.step]
  exact ⟨h.rnd.nonneg (by positivity), h.rd_one ▸ h.rnd.mono t1⟩

theorem FwRun.d_pos (h : FwRun g alpha K rd u eta w P) : 0 < d := by
  by_contra h0
  have h0 : d = 0 := by omega
  subst h0
  have := h.inner 0 (fun _ => 0) (fun _ => 0)
  rw [List.ofFn_zero] at this
  exact absurd this.pos (by simp)

/-- The vertex in iteration `k`. -/
noncomputable def flFwVertex (rd : ℝ → ℝ) (P : FlFWArgs d) (k : ℕ) : Fin d → ℝ := l1Vertex P.alpha fun j => -P.grad k (flFwIter rd P k) j

section
variable (k0 : FwConst f g L alpha K)

theorem FwConst.c_nonneg (ha : 0 ≤ alpha) : 0 ≤ k0.c := by rw [k0.c_def]; positivity

theorem FwRun.near (h : FwRun g alpha K rd u eta w P) (ha : 0 < alpha) {k : ℕ} (hk : 40 * k0.c * k * w ≤ alpha) : norm1 (flFwIter rd P k) ≤ alpha + k * (2 * (k0.c * w)) ∧ norm1 (flFwIter rd P k) ≤ 1.05 * alpha := by
  have hc := k0.c_def
  have hw0 : 0 ≤ w := h.rnd.u_nonneg.trans h.u_le
  have hkw : 0 ≤ (k : ℝ) * w := by positivity
  have h1 : 12 * k * w ≤ 1 := by
    have h2 : 12 * alpha ≤ k0.c := by rw [hc]; linarith [(Nat.cast_nonneg d : (0 : ℝ) ≤ d)]
    have h3 : 40 * (12 * alpha) * (k * w) ≤ 40 * k0.c * (k * w) := mul_le_mul_of_nonneg_right (by linarith) hkw
    have h4 : alpha * (480 * (k * w)) ≤ alpha * 1 := by linarith
    linarith [le_of_mul_le_mul_left h4 ha]
  have h2 := flFwIter_drift h.d_pos h.rnd h.u_le h.w_le h.eta_le P (by rw [h.alpha_eq]; exact ha.le) h.step_mem (by rw [h.alpha_eq]; exact h.x0_mem) k h1
  rw [h.alpha_eq, ← hc] at h2
  exact ⟨h2, by linarith⟩

/-- The gradient near the ball. -/
theorem grad_near (hG : LipGrad g L) (hL : 0 ≤ L) {x : Fin d → ℝ} (hx : norm1 x ≤ 2 * alpha) : ‖g (WithLp.toLp 2 x)‖ ≤ k0.Gm := by
  have h1 := hG (WithLp.toLp 2 x) 0
  rw [sub_zero] at h1
  have h2 := mul_le_mul_of_nonneg_left ((toLp_le_norm1 x).trans hx) hL
  have h3 := norm_sub_norm_le (g (WithLp.toLp 2 x)) (g 0)
  rw [k0.G_def]
  linarith

theorem toLp_sub_norm_le (x y : Fin d → ℝ) : ‖(WithLp.toLp 2 x : EuclideanSpace ℝ (Fin d)) - WithLp.toLp 2 y‖ ≤ ∑ j, |x j - y j| := toLp_le_norm1 fun j => x j - y j

theorem value_near (hG : LipGrad g L) (hL : 0 ≤ L) (hc : ConvexGrad f g) (ha : 0 ≤ alpha) {x y : Fin d → ℝ} (hx : norm1 x ≤ 1.05 * alpha) (hy : norm1 y ≤ alpha) :
    |f (WithLp.toLp 2 x) - f (WithLp.toLp 2 y)| ≤ k0.Gm * (3 * alpha) := by
  have h1 := hc (WithLp.toLp 2 x) (WithLp.toLp 2 y)
  have h2 := hc (WithLp.toLp 2 y) (WithLp.toLp 2 x)
  have g1 := grad_near k0 hG hL (x := x) (by linarith)
  have g2 := grad_near k0 hG hL (x := y) (by linarith)
  have hG0 := (norm_nonneg _).trans g1
  have n1 : ‖(WithLp.toLp 2 y : EuclideanSpace ℝ (Fin d)) - WithLp.toLp 2 x‖ ≤ 3 * alpha := (toLp_sub_norm_le y x).trans ((norm1_sub_le y x).trans (by linarith))
  have n2 : ‖(WithLp.toLp 2 x : EuclideanSpace ℝ (Fin d)) - WithLp.toLp 2 y‖ ≤ 3 * alpha := by rw [norm_sub_rev]; exact n1
  have i1 := (abs_real_inner_le_norm (g (WithLp.toLp 2 x)) (WithLp.toLp 2 y - WithLp.toLp 2 x)).trans (mul_le_mul g1 n1 (norm_nonneg _) hG0)
  have i2 := (abs_real_inner_le_norm (g (WithLp.toLp 2 y)) (WithLp.toLp 2 x - WithLp.toLp 2 y)).trans (mul_le_mul g2 n2 (norm_nonneg _) hG0)
  rw [abs_le] at i1 i2 ⊢
  constructor <;> linarith [i1.1, i2.1]

/-- The computed gradient near the ball. -/
theorem FwRun.cgrad (h : FwRun g alpha K rd u eta w P) (hK : 0 ≤ K) {x : Fin d → ℝ} (hx : norm1 x ≤ 2 * alpha) (k : ℕ) (j : Fin d) :
    |P.grad k x j - g (WithLp.toLp 2 x) j| ≤ K * (1 + 2 * alpha) * w := by
  have hw0 : 0 ≤ w := h.rnd.u_nonneg.trans h.u_le
  have h1 := toLp_le_norm1 x
  rw [toLp_norm] at h1
  calc _ ≤ K * w * (1 + norm2 x) := h.grad k x j
    _ ≤ K * w * (1 + 2 * alpha) := mul_le_mul_of_nonneg_left (by linarith) (by positivity)
    _ = _ := by ring

theorem FwRun.vertex_err (h : FwRun g alpha K rd u eta w P) (ha : 0 < alpha) (hK : 0 ≤ K) {k : ℕ} (hx : norm1 (flFwIter rd P k) ≤ 1.05 * alpha) {y : Fin d → ℝ} (hy : norm1 y ≤ alpha) :
    ⟪g (WithLp.toLp 2 (flFwIter rd P k)), WithLp.toLp 2 (flFwVertex rd P k) - WithLp.toLp 2 y⟫_ℝ ≤ 2 * alpha * (K * (1 + 2 * alpha)) * w := by
  obtain ⟨x, hxd⟩ : ∃ x, x = flFwIter rd P k := ⟨_, rfl⟩
  obtain ⟨s, hs⟩ : ∃ s, s = flFwVertex rd P k := ⟨_, rfl⟩
  rw [← hxd] at hx
  rw [← hxd, ← hs]
  have hw0 : 0 ≤ w := h.rnd.u_nonneg.trans h.u_le
  have hpa : 0 ≤ P.alpha := by rw [h.alpha_eq]; exact ha.le
  have hsm : norm1 s ≤ alpha := by
    have := l1Vertex_mem hpa fun j => -P.grad k (flFwIter rd P k) j
    rw [h.alpha_eq] at this
    rw [hs]; unfold flFwVertex; rw [h.alpha_eq]; exact this
  have hmax : dot (fun j => -P.grad k x j) y ≤ dot (fun j => -P.grad k x j) s := by
    rw [hs, hxd]
    exact l1Vertex_max h.d_pos _ (by rw [h.alpha_eq]; exact hy)
  have e1 : ⟪g (WithLp.toLp 2 x), WithLp.toLp 2 s - WithLp.toLp 2 y⟫_ℝ = dot (fun j => g (WithLp.toLp 2 x) j - P.grad k x j) (fun j => s j - y j) + (dot (fun j => -P.grad k x j) y - dot (fun j => -P.grad k x j) s) := by
    rw [inner_ofLp]
    unfold dot
    rw [← Finset.sum_sub_distrib, ← Finset.sum_add_distrib]
    refine Finset.sum_congr rfl fun j _ => ?_
    show g (WithLp.toLp 2 x) j * (s j - y j) = _
    ring
  have e2 := abs_dot_le (v := fun j => g (WithLp.toLp 2 x) j - P.grad k x j) (y := fun j => s j - y j) (a := K * (1 + 2 * alpha) * w) fun j => by
    rw [abs_sub_comm]; exact h.cgrad hK (by linarith) k j
  have e3 : norm1 (fun j => s j - y j) ≤ 2 * alpha := (norm1_sub_le s y).trans (by linarith)
  have e4 := mul_le_mul_of_nonneg_left e3 (show 0 ≤ K * (1 + 2 * alpha) * w by positivity)
  rw [e1]
  linarith [le_abs_self (dot (fun j => g (WithLp.toLp 2 x) j - P.grad k x j) (fun j => s j - y j))]

theorem FwConst.pos (hL : 0 ≤ L) (ha : 0 < alpha) (hK : 0 ≤ K) : 0 ≤ k0.Gm ∧ 0 ≤ k0.e0 ∧ 0 ≤ k0.K1 ∧ 0 ≤ k0.K3 := by
  have hc := k0.c_nonneg ha.le
  have hG : 0 ≤ k0.Gm := by rw [k0.G_def]; positivity
  have he : 0 ≤ k0.e0 := by rw [k0.e_def]; positivity
  refine ⟨hG, he, ?_, ?_⟩
  · rw [k0.K1_def]; positivity
  · rw [k0.K3_def]; positivity

/-- A run is an inexact Frank-Wolfe method. -/
theorem FwRun.inexact (h : FwRun g alpha K rd u eta w P) (ha : 0 < alpha) (hL : 0 ≤ L) (hK : 0 ≤ K) (hG : LipGrad g L) (hc : ConvexGrad f g) {n : ℕ} (hn : 40 * k0.c * n * w ≤ alpha) :
    InexactFW f g {y | norm1 (WithLp.ofLp y) ≤ alpha} L (2.05 * alpha) k0.Gm (k0.Gm * (3 * alpha)) (k0.e0 * w) (fun k => WithLp.toLp 2 (flFwIter rd P k)) (fun k => WithLp.toLp 2 (flFwVertex rd P k)) P.step n := by
  have hw0 : 0 ≤ w := h.rnd.u_nonneg.trans h.u_le
  have hc0 := k0.c_nonneg ha.le
  have hpa : 0 ≤ P.alpha := by rw [h.alpha_eq]; exact ha.le
  have hx : ∀ k < n, norm1 (flFwIter rd P k) ≤ 1.05 * alpha := fun k hk => (h.near k0 ha (by
    refine le_trans ?_ hn
    have : (k : ℝ) ≤ n := by exact_mod_cast hk.le
    have := mul_le_mul_of_nonneg_left this (show 0 ≤ 40 * k0.c * w by positivity)
    linarith)).2
  have hsm : ∀ k, norm1 (flFwVertex rd P k) ≤ alpha := fun k => by
    have := l1Vertex_mem hpa fun j => -P.grad k (flFwIter rd P k) j
    unfold flFwVertex
    linarith [h.alpha_eq]
  have q1 : 0 ≤ 2 * alpha * (K * (1 + 2 * alpha)) * w := by positivity
  have q2 : 0 ≤ k0.c * w := by positivity
  have q3 : k0.e0 * w = 2 * w + 2 * (k0.c * w) + 2 * alpha * (K * (1 + 2 * alpha)) * w := by rw [k0.e_def]; ring
  refine ⟨fun k _ => h.step_mem k, fun k hk => ?_, fun k hk => ?_, fun k hk y hy => ?_, fun k hk => ?_, fun k hk => ?_, fun k hk y hy => ?_⟩
  · have t1 : 2 / ((k : ℝ) + 2) ≤ 1 := by rw [div_le_one (by positivity)]; linarith [(Nat.cast_nonneg k : (0 : ℝ) ≤ k)]
    have t0 : 0 ≤ 2 / ((k : ℝ) + 2) := by positivity
    rw [h.step]
    have h1 := h.rnd.err (2 / ((k : ℝ) + 2))
    rw [abs_of_nonneg t0] at h1
    have h2 := mul_le_mul h.u_le t1 t0 hw0
    have h3 := h.eta_le
    linarith
  · have h1 := flFwNext_error h.d_pos h.rnd h.u_le h.w_le h.eta_le P hpa (h.step_mem k).1 (h.step_mem k).2 (flFwIter rd P k)
    refine (toLp_le_norm1 fun j => flFwIter rd P (k + 1) j - (flFwIter rd P k j + P.step k * (flFwVertex rd P k j - flFwIter rd P k j))).trans (h1.trans ?_)
    have h2 := mul_le_mul_of_nonneg_left (hx k hk) (show 0 ≤ 6 * w by linarith)
    have h3 : k0.c * w = 12 * (alpha * w) + 5 * d * w := by rw [k0.c_def]; ring
    have h4 : 0 ≤ alpha * w := by positivity
    have h5 : 0 ≤ d * w := by positivity
    rw [h.alpha_eq]
    linarith
  · have := h.vertex_err ha hK (hx k hk) (y := WithLp.ofLp y) hy
    exact this.trans (by linarith)
  · exact (toLp_sub_norm_le _ _).trans ((norm1_sub_le _ _).trans (by linarith [hx k hk, hsm k]))
  · exact grad_near k0 hG hL (by linarith [hx k hk])
  · exact value_near k0 hG hL hc ha.le (hx k hk) (y := WithLp.ofLp y) hy

/-- The computed certificate is close to the Frank-Wolfe gap. -/
theorem FwRun.cert_err (h : FwRun g alpha K rd u eta w P) (ha : 0 < alpha) (hL : 0 ≤ L) (hK : 0 ≤ K) (hG : LipGrad g L) {k : ℕ} (hx : norm1 (flFwIter rd P k) ≤ 1.05 * alpha) :
    |flFwCert rd P k (flFwIter rd P k) - ⟪g (WithLp.toLp 2 (flFwIter rd P k)), WithLp.toLp 2 (flFwIter rd P k) - WithLp.toLp 2 (flFwVertex rd P k)⟫_ℝ| ≤ k0.K3 * w := by
  have hw0 : 0 ≤ w := h.rnd.u_nonneg.trans h.u_le
  have hpa : 0 ≤ P.alpha := by rw [h.alpha_eq]; exact ha.le
  obtain ⟨hG0, -, -, -⟩ := k0.pos hL ha hK
  obtain ⟨x, hxd⟩ : ∃ x, x = flFwIter rd P k := ⟨_, rfl⟩
  obtain ⟨s, hs⟩ : ∃ s, s = flFwVertex rd P k := ⟨_, rfl⟩
  obtain ⟨D, hD⟩ : ∃ D, D = flFwDir rd P k x := ⟨_, rfl⟩
  have hsm : norm1 s ≤ alpha := by
    have := l1Vertex_mem hpa fun j => -P.grad k (flFwIter rd P k) j
    rw [hs]; unfold flFwVertex
    linarith [h.alpha_eq]
  have hde : ∑ j, |D j - (s j - x j)| ≤ u * (alpha + norm1 x) + eta := by
    rw [hD, hs]
    have := flL1Lmo_error h.rnd hpa (fun j => -P.grad k x j) x
    rw [h.alpha_eq] at this
    unfold flFwDir flFwVertex
    rw [← hxd, h.alpha_eq]
    exact this
  have hcert : flFwCert rd P k x = P.dot k D fun j => -P.grad k x j := by rw [hD]; rfl
  rw [← hxd, ← hs]
  rw [← hxd] at hx
  rw [hcert]
  obtain ⟨Gh, hGh⟩ : ∃ Gh, Gh = k0.Gm + K * (1 + 2 * alpha) := ⟨_, rfl⟩
  obtain ⟨Kh, hKh⟩ : ∃ Kh, Kh = K * (1 + 2 * alpha) := ⟨_, rfl⟩
  have hKh0 : 0 ≤ Kh := by rw [hKh]; positivity
  have hGh0 : 0 ≤ Gh := by rw [hGh, ← hKh]; positivity
  have hgd : ∀ j, |P.grad k x j - g (WithLp.toLp 2 x) j| ≤ Kh * w := fun j => by rw [hKh]; exact h.cgrad hK (by linarith) k j
  have hg1 : ∀ j, |P.grad k x j| ≤ Gh := fun j => by
    have h1 : |g (WithLp.toLp 2 x) j| ≤ k0.Gm := (abs_le_norm2 _ j).trans (by rw [← norm_ofLp]; exact grad_near k0 hG hL (by linarith))
    have h2 : P.grad k x j = g (WithLp.toLp 2 x) j + (P.grad k x j - g (WithLp.toLp 2 x) j) := by ring
    have h3 : Kh * w ≤ Kh * 1 := mul_le_mul_of_nonneg_left (by linarith [h.w_le]) hKh0
    calc |P.grad k x j| = |g (WithLp.toLp 2 x) j + (P.grad k x j - g (WithLp.toLp 2 x) j)| := congrArg _ h2
      _ ≤ |g (WithLp.toLp 2 x) j| + |P.grad k x j - g (WithLp.toLp 2 x) j| := abs_add_le _ _
      _ ≤ Gh := by rw [hGh, ← hKh]; linarith [hgd j]
  have hx0 := norm1_nonneg' x
  have hsx : norm1 (fun j => s j - x j) ≤ 2.05 * alpha := (norm1_sub_le s x).trans (by linarith)
  have hde2 : ∑ j, |D j - (s j - x j)| ≤ (3 * alpha + 1) * w := by
    have h1 : u * (alpha + norm1 x) ≤ w * (2.05 * alpha) := mul_le_mul h.u_le (by linarith) (by linarith) hw0
    have h2 : 0 ≤ alpha * w := by positivity
    linarith [h.eta_le]
  have hDn : norm1 D ≤ 3 * alpha + 1 := by
    have h1 : norm1 D ≤ norm1 (fun j => s j - x j) + ∑ j, |D j - (s j - x j)| := by
      unfold norm1
      rw [← Finset.sum_add_distrib]
      refine Finset.sum_le_sum fun j _ => ?_
      calc |D j| = |(s j - x j) + (D j - (s j - x j))| := congrArg _ (by ring)
        _ ≤ _ := abs_add_le _ _
    have h2 : (3 * alpha + 1) * w ≤ (3 * alpha + 1) * (1 / 8) := mul_le_mul_of_nonneg_left h.w_le (by linarith)
    linarith
  have hdl : 4 * d * u ≤ 1 := le_trans (mul_le_mul_of_nonneg_left h.u_le (by positivity)) h.d_le
  have e1 := (h.inner k D fun j => -P.grad k x j).error_vec h.rnd hdl
  have e2 : ∑ j, |D j * -P.grad k x j| ≤ Gh * (3 * alpha + 1) := by
    calc ∑ j, |D j * -P.grad k x j| ≤ ∑ j, Gh * |D j| := Finset.sum_le_sum fun j _ => by
          rw [abs_mul, abs_neg, mul_comm]; exact mul_le_mul_of_nonneg_right (hg1 j) (abs_nonneg _)
      _ = Gh * norm1 D := by rw [← Finset.mul_sum]; rfl
      _ ≤ _ := mul_le_mul_of_nonneg_left hDn hGh0
  have e3 : 4 * d * (u * (∑ j, |D j * -P.grad k x j|) + eta) ≤ 4 * d * ((Gh * (3 * alpha + 1) + 1) * w) := by
    refine mul_le_mul_of_nonneg_left ?_ (by positivity)
    have : u * (∑ j, |D j * -P.grad k x j|) ≤ w * (Gh * (3 * alpha + 1)) := mul_le_mul h.u_le e2 (Finset.sum_nonneg fun _ _ => abs_nonneg _) hw0
    linarith [h.eta_le]
  have e4 : ⟪g (WithLp.toLp 2 x), WithLp.toLp 2 x - WithLp.toLp 2 s⟫_ℝ = dot (fun j => g (WithLp.toLp 2 x) j) (fun j => x j - s j) := by
    rw [inner_ofLp]; rfl
  have e5 : ∑ j, D j * -P.grad k x j - dot (fun j => g (WithLp.toLp 2 x) j) (fun j => x j - s j) =
      dot (fun j => -P.grad k x j) (fun j => D j - (s j - x j)) + dot (fun j => g (WithLp.toLp 2 x) j - P.grad k x j) (fun j => s j - x j) := by
    unfold dot
    rw [← Finset.sum_sub_distrib, ← Finset.sum_add_distrib]
    exact Finset.sum_congr rfl fun j _ => by ring
  have e6 := abs_dot_le (v := fun j => -P.grad k x j) (y := fun j => D j - (s j - x j)) (a := Gh) fun j => by rw [abs_neg]; exact hg1 j
  have e7 := abs_dot_le (v := fun j => g (WithLp.toLp 2 x) j - P.grad k x j) (y := fun j => s j - x j) (a := Kh * w) fun j => by rw [abs_sub_comm]; exact hgd j
  have e8 := mul_le_mul_of_nonneg_left hde2 hGh0
  have e9 := mul_le_mul_of_nonneg_left hsx (show 0 ≤ Kh * w by positivity)
  have e10 : k0.K3 * w = 4 * d * ((Gh * (3 * alpha + 1) + 1) * w) + Gh * ((3 * alpha + 1) * w) + Kh * w * (3 * alpha) := by
    rw [k0.K3_def, ← hGh, ← hKh]; ring
  have e11 : Kh * w * (2.05 * alpha) ≤ Kh * w * (3 * alpha) := mul_le_mul_of_nonneg_left (by linarith) (by positivity)
  have e12 : (P.dot k D fun j => -P.grad k x j) - ⟪g (WithLp.toLp 2 x), WithLp.toLp 2 x - WithLp.toLp 2 s⟫_ℝ =
      ((P.dot k D fun j => -P.grad k x j) - ∑ j, D j * -P.grad k x j) + (dot (fun j => -P.grad k x j) (fun j => D j - (s j - x j)) + dot (fun j => g (WithLp.toLp 2 x) j - P.grad k x j) (fun j => s j - x j)) := by
    rw [e4, ← e5]; ring
  rw [e12, e10]
  refine (abs_add_le _ _).trans ?_
  have e13 := abs_add_le (dot (fun j => -P.grad k x j) (fun j => D j - (s j - x j))) (dot (fun j => g (WithLp.toLp 2 x) j - P.grad k x j) (fun j => s j - x j))
  unfold norm1 at e6
  linarith

/-- Scaling a point into the ball. -/
theorem exists_scaled {x : Fin d → ℝ} {de : ℝ} (ha : 0 < alpha) (hd : 0 ≤ de) (hx : norm1 x ≤ alpha + de) : ∃ y : Fin d → ℝ, norm1 y ≤ alpha ∧ ∑ j, |x j - y j| ≤ de := by
  have hp : 0 < alpha + de := by linarith
  have h0 := norm1_nonneg' x
  have ht : 0 ≤ alpha / (alpha + de) := by positivity
  have ht1 : 1 - alpha / (alpha + de) = de / (alpha + de) := by field_simp; ring
  refine ⟨fun j => alpha / (alpha + de) * x j, ?_, ?_⟩
  · have : norm1 (fun j => alpha / (alpha + de) * x j) = alpha / (alpha + de) * norm1 x := by
      unfold norm1
      rw [Finset.mul_sum]
      exact Finset.sum_congr rfl fun j _ => by rw [abs_mul, abs_of_nonneg ht]
    rw [this]
    calc _ ≤ alpha / (alpha + de) * (alpha + de) := mul_le_mul_of_nonneg_left hx ht
      _ = alpha := by field_simp
  · have : ∑ j, |x j - alpha / (alpha + de) * x j| = de / (alpha + de) * norm1 x := by
      unfold norm1
      rw [Finset.mul_sum]
      refine Finset.sum_congr rfl fun j _ => ?_
      rw [show x j - alpha / (alpha + de) * x j = (1 - alpha / (alpha + de)) * x j by ring, ht1, abs_mul, abs_of_nonneg (by positivity)]
    rw [this]
    calc _ ≤ de / (alpha + de) * (alpha + de) := mul_le_mul_of_nonneg_left hx (by positivity)
      _ = de := by field_simp

theorem fwK_le (hL : 0 ≤ L) (hw1 : w ≤ 1) (he : 0 ≤ k0.e0) : fwK L (2.05 * alpha) k0.Gm (k0.Gm * (3 * alpha)) (k0.e0 * w) ≤ k0.K1 := by
  unfold fwK
  rw [k0.K1_def]
  have h1 : k0.e0 * w ≤ k0.e0 := mul_le_of_le_one_right he hw1
  have h2 := mul_le_mul_of_nonneg_left h1 (show 0 ≤ L / 2 by linarith)
  linarith

/-- The values. -/
theorem FwRun.rate (h : FwRun g alpha K rd u eta w P) (ha : 0 < alpha) (hL : 0 ≤ L) (hK : 0 ≤ K) (hG : LipGrad g L) (hc : ConvexGrad f g) (hq : UpperQuad f g L) {k : ℕ}
    (hk : 40 * k0.c * ((k + 1 : ℕ) : ℝ) * w ≤ alpha) {y : Fin d → ℝ} (hy : norm1 y ≤ alpha) :
    f (WithLp.toLp 2 (flFwIter rd P (k + 1))) - f (WithLp.toLp 2 y) ≤ 9 * L * alpha ^ 2 / (((k + 1 : ℕ) : ℝ) + 2) + k0.K1 * k0.e0 * ((k + 1 : ℕ) : ℝ) * w := by
  have hw0 : 0 ≤ w := h.rnd.u_nonneg.trans h.u_le
  obtain ⟨hG0, he0, hK1, -⟩ := k0.pos hL ha hK
  have h1 := (h.inexact k0 ha hL hK hG hc hk).rate hL (by positivity) (by positivity) hq hc hG0 (by positivity) (y := WithLp.toLp 2 y) hy k (by omega)
  have h2 := mul_le_mul_of_nonneg_right (fwK_le k0 (w := w) hL (by linarith [h.w_le]) he0) (show 0 ≤ k0.e0 * w * ((k + 1 : ℕ) : ℝ) by positivity)
  have h3 : 2 * (L * (2.05 * alpha) ^ 2) / (((k + 1 : ℕ) : ℝ) + 2) ≤ 9 * L * alpha ^ 2 / (((k + 1 : ℕ) : ℝ) + 2) := by
    refine div_le_div_of_nonneg_right ?_ (by positivity)
    have : 0 ≤ L * alpha ^ 2 := by positivity
    linarith
  linarith

/-- A small certificate is found. -/
theorem FwRun.stops (h : FwRun g alpha K rd u eta w P) (ha : 0 < alpha) (hL : 0 ≤ L) (hK : 0 ≤ K) (hG : LipGrad g L) (hc : ConvexGrad f g) (hq : UpperQuad f g L) {A B tol : ℝ} {N : ℕ}
    (hA : A = 204 * (L * alpha ^ 2) + 1) (hB : B = (2 * k0.K1 + 1) * k0.e0 + 4 * k0.c * k0.Gm) (ht : 0 < tol) (ht1 : tol ≤ 1) (hN1 : A ≤ tol * N) (hN2 : tol * N ≤ A + 1)
    (hw1 : 2 * k0.K3 * w ≤ tol) (hw2 : 12 * B * (A + 1) * w ≤ tol ^ 2) (hw3 : 80 * k0.c * (A + 1) * w ≤ alpha * tol) : ∃ k < 2 * N, flFwCert rd P k (flFwIter rd P k) ≤ tol := by
  by_contra hno
  push Not at hno
  have hw0 : 0 ≤ w := h.rnd.u_nonneg.trans h.u_le
  have hc0 := k0.c_nonneg ha.le
  obtain ⟨hG0, he0, hK1, hK3⟩ := k0.pos hL ha hK
  have hLa : 0 ≤ L * alpha ^ 2 := by positivity
  have hA1 : 1 ≤ A := by rw [hA]; linarith
  have hNp : 0 < (N : ℝ) := by
    by_contra h0
    have : (N : ℝ) = 0 := le_antisymm (not_lt.mp h0) (Nat.cast_nonneg N)
    rw [this, mul_zero] at hN1
    linarith
  have hN : 1 ≤ N := by exact_mod_cast Nat.cast_pos.mp hNp
  have hn : 40 * k0.c * ((2 * N : ℕ) : ℝ) * w ≤ alpha := by
    push_cast
    have h1 : 80 * k0.c * w * (tol * N) ≤ 80 * k0.c * w * (A + 1) := mul_le_mul_of_nonneg_left hN2 (by positivity)
    have h2 : tol * (40 * k0.c * (2 * N) * w) ≤ tol * alpha := by linarith
    exact le_of_mul_le_mul_left h2 ht
  have hI := h.inexact k0 ha hL hK hG hc hn
  have hx : ∀ k < 2 * N, norm1 (flFwIter rd P k) ≤ 1.05 * alpha := fun k hk => (h.near k0 ha (by
    refine le_trans ?_ hn
    have : (k : ℝ) ≤ (2 * N : ℕ) := by exact_mod_cast hk.le
    have := mul_le_mul_of_nonneg_left this (show 0 ≤ 40 * k0.c * w by positivity)
    linarith)).2
  have hlast := (h.near k0 ha hn).1
  obtain ⟨de, hde⟩ : ∃ de, de = ((2 * N : ℕ) : ℝ) * (2 * (k0.c * w)) := ⟨_, rfl⟩
  have hde0 : 0 ≤ de := by rw [hde]; positivity
  rw [← hde] at hlast
  obtain ⟨y, hy, hxy⟩ := exists_scaled ha hde0 hlast
  have hlo : -(k0.Gm * de) ≤ f (WithLp.toLp 2 (flFwIter rd P (2 * N))) - f (WithLp.toLp 2 y) := by
    have h1 := hc (WithLp.toLp 2 y) (WithLp.toLp 2 (flFwIter rd P (2 * N)))
    have h2 := (abs_real_inner_le_norm (g (WithLp.toLp 2 y)) (WithLp.toLp 2 (flFwIter rd P (2 * N)) - WithLp.toLp 2 y)).trans
      (mul_le_mul (grad_near k0 hG hL (by linarith)) ((toLp_sub_norm_le _ _).trans hxy) (norm_nonneg _) hG0)
    linarith [(abs_le.mp h2).1]
  have hgap : ∀ k, N ≤ k → k < 2 * N → tol / 2 ≤ ⟪g (WithLp.toLp 2 (flFwIter rd P k)), WithLp.toLp 2 (flFwIter rd P k) - WithLp.toLp 2 (flFwVertex rd P k)⟫_ℝ := by
    intro k _ hk
    have h1 := h.cert_err k0 ha hL hK hG (hx k hk)
    linarith [(abs_le.mp h1).2, hno k hk]
  have hmain := hI.gap hL (by positivity) (by positivity) hq hc hG0 (by positivity) hN le_rfl (y := WithLp.toLp 2 y) hy hlo (tau := tol / 2) (by linarith) hgap
  have h1 : 4 * (L * (2.05 * alpha) ^ 2) / N ≤ tol / 12 := by
    rw [div_le_iff₀ hNp]
    linarith
  have h2 : (2 * fwK L (2.05 * alpha) k0.Gm (k0.Gm * (3 * alpha)) (k0.e0 * w) + tol / 2) * (k0.e0 * w) * N ≤ (2 * k0.K1 + 1) * (k0.e0 * w) * N := by
    refine mul_le_mul_of_nonneg_right (mul_le_mul_of_nonneg_right ?_ (by positivity)) hNp.le
    linarith [fwK_le k0 (w := w) hL (by linarith [h.w_le]) he0]
  have h3 : (2 * k0.K1 + 1) * (k0.e0 * w) * N + k0.Gm * de ≤ tol / 12 := by
    have e1 : (2 * k0.K1 + 1) * (k0.e0 * w) * N + k0.Gm * de = B * w * N := by rw [hde, hB]; push_cast; ring
    rw [e1]
    have hB0 : 0 ≤ B := by rw [hB]; positivity
    have e2 : B * w * (tol * N) ≤ B * w * (A + 1) := mul_le_mul_of_nonneg_left hN2 (by positivity)
    have e3 : tol * (B * w * N) ≤ tol * (tol / 12) := by linarith
    exact le_of_mul_le_mul_left e3 ht
  linarith

end

theorem exists_fwConst (f : EuclideanSpace ℝ (Fin d) → ℝ) (g : EuclideanSpace ℝ (Fin d) → EuclideanSpace ℝ (Fin d)) (L alpha K : ℝ) : Nonempty (FwConst f g L alpha K) :=
  ⟨⟨_, _, _, _, _, rfl, rfl, rfl, rfl, rfl⟩⟩

/-! ### C122 -/

/-- What is guaranteed for a run of the arguments `P` with result `r`, on an objective `f` with Lipschitz constant `L` of the gradient, in an arithmetic of precision `w`:

* as long as `C (nit + 1) w ≤ 1`, the result leaves the ball by at most `C (nit + 1) w`; a run that was not stopped by the tolerance has made `max_iter` iterations, and is within
  `9 L alpha² / (max_iter + 2) + C max_iter w` of the best value on the ball; for a result accepted by the tolerance, the computed certificate bounds the suboptimality up to `C w`;
* for `C w ≤ tol²` and `max_iter ≥ C / tol` the run is stopped by the tolerance, after at most `C / tol` iterations. -/
def FwGuarantee (f : EuclideanSpace ℝ (Fin d) → ℝ) (L alpha C w : ℝ) (P : FlFWArgs d) (r : FlFWResult d) : Prop :=
  r.nit + 1 ≤ P.maxIter ∧
  (C * (r.nit + 1) * w ≤ 1 →
    norm1 r.x ≤ alpha + C * (r.nit + 1) * w ∧
    (P.tol < r.certificate → r.nit + 1 = P.maxIter ∧
      ∀ y, norm1 y ≤ alpha → f (WithLp.toLp 2 r.x) - f (WithLp.toLp 2 y) ≤ 9 * L * alpha ^ 2 / (P.maxIter + 2) + C * P.maxIter * w) ∧
    (r.certificate ≤ P.tol → ∀ y, norm1 y ≤ alpha → f (WithLp.toLp 2 r.x) - f (WithLp.toLp 2 y) ≤ r.certificate + C * w)) ∧
  (0 < P.tol → P.tol ≤ 1 → C * w ≤ P.tol ^ 2 → C ≤ P.tol * P.maxIter → r.certificate ≤ P.tol ∧ (r.nit + 1) * P.tol ≤ C)

/-- **C122.** `minimize_frank_wolfe` on the l1 ball of radius `alpha` with `step="sublinear"`, everything computed in rounded arithmetic, for a smooth convex objective whose gradient is computed
with error `K w (1 + ‖x‖)`.  There is a constant `C`, which depends on the problem only, such that `FwGuarantee` holds in every arithmetic of precision `w` with `C w ≤ 1`. -/
theorem C122_rounded_frank_wolfe {f : EuclideanSpace ℝ (Fin d) → ℝ} {g : EuclideanSpace ℝ (Fin d) → EuclideanSpace ℝ (Fin d)} {L alpha K : ℝ} (hL : 0 ≤ L) (ha : 0 < alpha) (hK : 0 ≤ K)
    (hc : ConvexGrad f g) (hq : UpperQuad f g L) (hG : LipGrad g L) :
    ∃ C, 0 < C ∧ ∀ (rd : ℝ → ℝ) (u eta w : ℝ), Rounding rd u eta → rd 1 = 1 → u ≤ w → eta ≤ w → C * w ≤ 1 →
      ∀ P : FlFWArgs d, (∀ k x j, |P.grad k x j - g (WithLp.toLp 2 x) j| ≤ K * w * (1 + norm2 x)) → (∀ k v y, FlDot rd (List.ofFn fun j => (v j, y j)) (P.dot k v y)) →
        (∀ k : ℕ, P.step k = rd (2 / ((k : ℝ) + 2))) → P.alpha = alpha → norm1 P.x0 ≤ alpha → 1 ≤ P.maxIter → FwGuarantee f L alpha C w P (flMinimizeFW rd P) := by
  obtain ⟨k0⟩ := exists_fwConst f g L alpha K
  have hc0 := k0.c_nonneg ha.le
  obtain ⟨hG0, he0, hK1, hK3⟩ := k0.pos hL ha hK
  have hLa : 0 ≤ L * alpha ^ 2 := by positivity
  obtain ⟨A, hA⟩ : ∃ A, A = 204 * (L * alpha ^ 2) + 1 := ⟨_, rfl⟩
  obtain ⟨B, hB⟩ : ∃ B, B = (2 * k0.K1 + 1) * k0.e0 + 4 * k0.c * k0.Gm := ⟨_, rfl⟩
  have hA0 : 0 ≤ A := by rw [hA]; linarith
  have hB0 : 0 ≤ B := by rw [hB]; positivity
  have hd0 : (0 : ℝ) ≤ d := Nat.cast_nonneg d
  obtain ⟨V, hV⟩ : ∃ V, V = 2 * alpha * (K * (1 + 2 * alpha)) := ⟨_, rfl⟩
  have hV0 : 0 ≤ V := by rw [hV]; positivity
  have hca : 0 ≤ k0.c / alpha := by positivity
  obtain ⟨C, hC⟩ : ∃ C, C = 8 + 4 * d + 40 * (k0.c / alpha) + 2 * k0.c + k0.K1 * k0.e0 + (2 * k0.K3 + V) + 12 * B * (A + 1) + 80 * (A + 1) * (k0.c / alpha) + 2 * (A + 1) := ⟨_, rfl⟩
  have p1 : 0 ≤ k0.K1 * k0.e0 := by positivity
  have p2 : 0 ≤ 12 * B * (A + 1) := by positivity
  have p3 : 0 ≤ 80 * (A + 1) * (k0.c / alpha) := by positivity
  refine ⟨C, by rw [hC]; linarith, ?_⟩
  intro rd u eta w hr h1 hu he hCw P hgr hdot hst hal hx0 hm
  have hw0 : 0 ≤ w := hr.u_nonneg.trans hu
  have le1 : ∀ t, t ≤ C → t * w ≤ C * w := fun t ht => mul_le_mul_of_nonneg_right ht hw0
  have H : FwRun g alpha K rd u eta w P := ⟨hr, h1, hu, he, by
    have := le1 8 (by rw [hC]; linarith)
    linarith, by
    have := le1 (4 * d) (by rw [hC]; linarith)
    linarith, hgr, hdot, hst, hal, hx0⟩
  obtain ⟨k, -, hk2, hk3, hk4, hk5, hk6⟩ := flFwLoop_spec rd P (P.maxIter - 1) 0
  change (flMinimizeFW rd P).nit = k at hk3
  change (flMinimizeFW rd P).certificate = _ at hk4
  change (_ ∧ (flMinimizeFW rd P).x = _) ∨ (_ ∧ _ ∧ (flMinimizeFW rd P).x = _) at hk6
  unfold FwGuarantee
  rw [hk3, hk4]
  refine ⟨by omega, ?_, ?_⟩
  · intro hCk
    have hk1 : 40 * k0.c * ((k + 1 : ℕ) : ℝ) * w ≤ alpha := by
      push_cast
      have h2 := mul_le_mul_of_nonneg_right (show 40 * (k0.c / alpha) ≤ C by rw [hC]; linarith) (show 0 ≤ ((k : ℝ) + 1) * w by positivity)
      have h3 : 40 * k0.c * ((k : ℝ) + 1) * w = alpha * (40 * (k0.c / alpha) * (((k : ℝ) + 1) * w)) := by field_simp
      rw [h3]
      exact mul_le_of_le_one_right ha.le (by linarith)
    have hk0 : 40 * k0.c * (k : ℝ) * w ≤ alpha := by
      push_cast at hk1
      have : 0 ≤ 40 * k0.c * w := by positivity
      linarith
    have hcw : 2 * k0.c * (((k : ℝ) + 1) * w) ≤ C * (((k : ℝ) + 1) * w) := mul_le_mul_of_nonneg_right (by rw [hC]; linarith) (by positivity)
    have hcw0 : 0 ≤ k0.c * w := by positivity
    refine ⟨?_, ?_, ?_⟩
    · rcases hk6 with ⟨-, h6⟩ | ⟨-, -, h6⟩
      · rw [h6]
        linarith [(H.near k0 ha hk0).1]
      · rw [h6]
        have := (H.near k0 ha hk1).1
        push_cast at this
        linarith
    · intro htol
      rcases hk6 with ⟨h6, -⟩ | ⟨-, h7, h6⟩
      · linarith
      · have h8 : k + 1 = P.maxIter := by omega
        refine ⟨h8, fun y hy => ?_⟩
        rw [h6, ← h8]
        refine (H.rate k0 ha hL hK hG hc hq hk1 hy).trans (add_le_add_right ?_ _)
        have := mul_le_mul_of_nonneg_right (show k0.K1 * k0.e0 ≤ C by rw [hC]; linarith) (show 0 ≤ ((k + 1 : ℕ) : ℝ) * w by positivity)
        linarith
    · intro htol y hy
      rcases hk6 with ⟨-, h6⟩ | ⟨h6, -, -⟩
      · rw [h6]
        have hx := (H.near k0 ha hk0).2
        have e1 := H.cert_err k0 ha hL hK hG hx
        have e2 := H.vertex_err ha hK hx hy
        rw [← hV] at e2
        have e3 := hc (WithLp.toLp 2 (flFwIter rd P k)) (WithLp.toLp 2 y)
        have e4 : (WithLp.toLp 2 y : EuclideanSpace ℝ (Fin d)) - WithLp.toLp 2 (flFwIter rd P k) =
            -(WithLp.toLp 2 (flFwIter rd P k) - WithLp.toLp 2 (flFwVertex rd P k)) - (WithLp.toLp 2 (flFwVertex rd P k) - WithLp.toLp 2 y) := by abel
        rw [e4, inner_sub_right, inner_neg_right] at e3
        have e5 := le1 (2 * k0.K3 + V) (by rw [hC]; linarith)
        have e6 : 0 ≤ k0.K3 * w := by positivity
        linarith [(abs_le.mp e1).1]
      · linarith
  · intro ht ht1 hw2 hmx
    have ht2 : P.tol ^ 2 ≤ P.tol := by rw [sq]; exact mul_le_of_le_one_left ht.le ht1
    obtain ⟨N, hN⟩ : ∃ N : ℕ, N = ⌈A / P.tol⌉₊ := ⟨_, rfl⟩
    have hN1 : A ≤ P.tol * N := by
      have := Nat.le_ceil (A / P.tol)
      rw [← hN, div_le_iff₀ ht] at this
      linarith
    have hN2 : P.tol * N ≤ A + 1 := by
      have := (Nat.ceil_lt_add_one (show 0 ≤ A / P.tol by positivity)).le
      rw [← hN] at this
      have := mul_le_mul_of_nonneg_left this ht.le
      rw [mul_add, mul_div_cancel₀ _ ht.ne'] at this
      linarith
    obtain ⟨i, hi1, hi2⟩ := H.stops k0 ha hL hK hG hc hq hA hB ht ht1 hN1 hN2 (by
        have := le1 (2 * k0.K3) (by rw [hC]; linarith)
        linarith) (by
        have := le1 (12 * B * (A + 1)) (by rw [hC]; linarith)
        linarith) (by
        have := le1 (80 * (A + 1) * (k0.c / alpha)) (by rw [hC]; linarith)
        have e1 : 80 * k0.c * (A + 1) * w = alpha * (80 * (A + 1) * (k0.c / alpha) * w) := by field_simp
        rw [e1]
        exact mul_le_mul_of_nonneg_left (by linarith) ha.le)
    have hki : k ≤ i := by
      by_contra hlt
      exact absurd hi2 (not_le.mpr (hk5 i (Nat.zero_le _) (by omega)))
    have h2N : ((k : ℝ) + 1) * P.tol ≤ C := by
      have e1 : (k : ℝ) + 1 ≤ 2 * N := by exact_mod_cast (show k + 1 ≤ 2 * N by omega)
      have e2 := mul_le_mul_of_nonneg_right e1 ht.le
      have e3 : 2 * (A + 1) ≤ C := by rw [hC]; linarith
      linarith
    refine ⟨?_, h2N⟩
    rcases hk6 with ⟨h6, -⟩ | ⟨h6, h7, -⟩
    · exact h6
    · exfalso
      have h8 : k + 1 = P.maxIter := by omega
      have e1 : 2 * N ≤ P.maxIter := by
        have e2 : 2 * (A + 1) ≤ C := by rw [hC]; linarith
        have e3 : P.tol * (2 * N : ℕ) ≤ P.tol * P.maxIter := by push_cast; linarith
        exact_mod_cast le_of_mul_le_mul_left e3 ht
      have : i = k := by omega
      rw [this] at hi2
      linarith

theorem FwGuarantee.mono {f : EuclideanSpace ℝ (Fin d) → ℝ} {L alpha C C' w : ℝ} {P : FlFWArgs d} {r : FlFWResult d} (h : FwGuarantee f L alpha C w P r) (hC : C ≤ C') (hw : 0 ≤ w) :
    FwGuarantee f L alpha C' w P r := by
  obtain ⟨h1, h2, h3⟩ := h
  have m1 : C * w ≤ C' * w := mul_le_mul_of_nonneg_right hC hw
  have m2 : ∀ t : ℝ, 0 ≤ t → C * t * w ≤ C' * t * w := fun t ht => mul_le_mul_of_nonneg_right (mul_le_mul_of_nonneg_right hC ht) hw
  have m3 := m2 (r.nit + 1) (by positivity)
  refine ⟨h1, fun h => ?_, fun a b c e => ?_⟩
  · obtain ⟨g1, g2, g3⟩ := h2 (by linarith)
    refine ⟨by linarith, fun h => ⟨(g2 h).1, fun y hy => ?_⟩, fun h y hy => ?_⟩
    · linarith [(g2 h).2 y hy, m2 P.maxIter (Nat.cast_nonneg _)]
    · linarith [g3 h y hy]
  · obtain ⟨g1, g2⟩ := h3 a b (by linarith) (by linarith)
    exact ⟨g1, by linarith⟩

/-- **C122.** The losses of the library: `minimize_frank_wolfe(f.f_grad, x0, L1Ball(alpha).lmo, step="sublinear")`, gradients computed in rounded arithmetic with any order of the operations in
the matrix products and the exponential to precision `w`. -/
theorem C122_rounded_constrained_regression (f : LossObj n d) (hf : f.Good) {sv : ℝ} (hsv : IsLargestSingular f.mat sv) {alpha : ℝ} (ha : 0 < alpha) :
    ∃ C, 0 < C ∧ ∀ (rd fexp : ℝ → ℝ) (u eta w : ℝ), Rounding rd u eta → rd 1 = 1 → u ≤ w → eta ≤ w ^ 2 → (∀ t ≤ 0, |fexp t - Real.exp t| ≤ w) → C * w ≤ 1 →
      ∀ P : FlFWArgs d, (∀ k x, f.FlGrad rd fexp x (P.grad k x)) → (∀ k v y, FlDot rd (List.ofFn fun j => (v j, y j)) (P.dot k v y)) →
        (∀ k : ℕ, P.step k = rd (2 / ((k : ℝ) + 2))) → P.alpha = alpha → norm1 P.x0 ≤ alpha → 1 ≤ P.maxIter → FwGuarantee f.fn (f.lipschitz sv) alpha C w P (flMinimizeFW rd P) := by
  obtain ⟨-, hc, hq, hG, -⟩ := C92_loss f hf hsv
  have hL : 0 ≤ f.lipschitz sv := by
    obtain ⟨phi, phi', c, hc, hLc, -⟩ := f.erm_form hf
    rw [hLc]
    have h1 : 0 ≤ c * (sv * sv) / n := by have := mul_self_nonneg sv; positivity
    linarith [f.reg_nonneg hf]
  obtain ⟨K, hK, g1⟩ := f.flGrad_error hf
  obtain ⟨C, hC, h⟩ := C122_rounded_frank_wolfe hL ha hK hc hq hG
  have hn0 : (0 : ℝ) ≤ n := Nat.cast_nonneg n
  have hd0 : (0 : ℝ) ≤ d := Nat.cast_nonneg d
  obtain ⟨C', hC'⟩ : ∃ C', C' = C + 4 * n + 4 * d + 10 := ⟨_, rfl⟩
  refine ⟨C', by rw [hC']; linarith, ?_⟩
  intro rd fexp u eta w hr h1 hu he hexp hCw P hgr hdot hst hal hx0 hm
  have hw0 : 0 ≤ w := hr.u_nonneg.trans hu
  have hnw : 0 ≤ n * w := by positivity
  have hdw : 0 ≤ d * w := by positivity
  have hCw0 : 0 ≤ C * w := by positivity
  rw [hC', add_mul, add_mul, add_mul] at hCw
  have hsc : Scale rd u eta w 1 := ⟨hr, hu, he, hw0, by linarith, le_rfl⟩
  refine (h rd u eta w hr h1 hu hsc.eta_le' (by linarith) P (fun k x j => ?_) hdot hst hal hx0 hm).mono (by rw [hC']; linarith) hw0
  exact g1 rd u eta w hsc (by linarith) (by linarith) (by linarith) fexp hexp x _ (hgr k x) j

/-! ### Instances -/

theorem flBits_one (p : ℕ) : flBits p 1 = 1 := by
  refine flBits_int one_pos (m := 2 ^ p) ?_
  have : Int.log 2 (1 : ℝ) = 0 := Int.log_one_right 2
  unfold ulpBits
  rw [abs_one, this, zero_sub, zpow_neg, zpow_natCast]
  push_cast
  field_simp

/-- Every loss, data set, radius and starting point in the ball, in every arithmetic with enough bits, with the results of a sequential implementation: the hypotheses of C122 can be met, and
a run with a given tolerance ends by the tolerance and returns a point with value within `2 tol` of the best value on the ball. -/
example (hn : 0 < n) (hd : 0 < d) (f : LossObj n d) (hf : f.Good) {sv : ℝ} (hsv : IsLargestSingular f.mat sv) {alpha tol : ℝ} (ha : 0 < alpha) (htol : 0 < tol) (htol1 : tol ≤ 1)
    {x0 : Fin d → ℝ} (hx0 : norm1 x0 ≤ alpha) :
    ∃ p0 N : ℕ, ∀ p ≥ p0, ∃ P : FlFWArgs d, P.x0 = x0 ∧ P.tol = tol ∧ P.maxIter = N ∧ (∀ k x, f.FlGrad (flBits p) (fun t => flBits p (Real.exp t)) x (P.grad k x)) ∧
      (flMinimizeFW (flBits p) P).certificate ≤ tol ∧
      ∀ y, norm1 y ≤ alpha → f.fn (WithLp.toLp 2 (flMinimizeFW (flBits p) P).x) ≤ f.fn (WithLp.toLp 2 y) + 2 * tol := by
  obtain ⟨C, hC, h⟩ := C122_rounded_constrained_regression f hf hsv ha
  have ht2 : tol ^ 2 ≤ tol := by rw [sq]; exact mul_le_of_le_one_left htol.le htol1
  obtain ⟨p0, hp0⟩ := exists_pow_lt_of_lt_one (show 0 < min (tol ^ 2) (tol / C) / C by have := lt_min (show 0 < tol ^ 2 by positivity) (show 0 < tol / C by positivity); positivity) (show (2⁻¹ : ℝ) < 1 by norm_num)
  refine ⟨p0, ⌈C / tol⌉₊ + 1, fun p hp => ?_⟩
  have hw : C * (2⁻¹ : ℝ) ^ p < min (tol ^ 2) (tol / C) := by
    rw [mul_comm, ← lt_div_iff₀ hC]
    exact lt_of_le_of_lt (pow_le_pow_of_le_one (by norm_num) (by norm_num) hp) hp0
  have hw1 := hw.trans_le (min_le_left _ _)
  have hw2 := hw.trans_le (min_le_right _ _)
  have hpos : (0 : ℝ) < 2⁻¹ ^ p := by positivity
  have hhalf : (2⁻¹ : ℝ) ^ (p + 1) = 2⁻¹ ^ p / 2 := by rw [pow_succ]; ring
  have hr := flBits_rounding (p := p) (eta := 0) le_rfl
  choose gr hgr using fun x => f.exists_flGrad (flBits p) (fun t => flBits p (Real.exp t)) hn hd x
  choose dt hdt using fun v y : Fin d → ℝ => exists_flDot_vec (flBits p) hd fun j => (v j, y j)
  obtain ⟨P, hP⟩ : ∃ P : FlFWArgs d, P = ⟨fun _ => gr, fun _ => dt, fun k => flBits p (2 / ((k : ℝ) + 2)), alpha, x0, tol, ⌈C / tol⌉₊ + 1⟩ := ⟨_, rfl⟩
  have key := h (flBits p) (fun t => flBits p (Real.exp t)) (2⁻¹ ^ (p + 1)) 0 (2⁻¹ ^ p) hr (flBits_one p) (by rw [hhalf]; linarith) (by positivity) (fun t ht => by
      have h1 := hr.err (Real.exp t)
      rw [abs_of_pos (Real.exp_pos t), add_zero] at h1
      have h2 : Real.exp t ≤ 1 := Real.exp_le_one_iff.mpr ht
      have h3 := mul_le_mul_of_nonneg_left h2 (show (0 : ℝ) ≤ 2⁻¹ ^ (p + 1) by positivity)
      rw [hhalf] at h1 h3
      linarith) (by linarith) P (fun _ x => by rw [hP]; exact hgr x) (fun _ v y => by rw [hP]; exact hdt v y) (fun k => by rw [hP]) (by rw [hP]) (by rw [hP]; exact hx0) (by rw [hP]; exact Nat.succ_le_succ (Nat.zero_le _))
  have e1 : P.tol = tol := by rw [hP]
  have e2 : (P.maxIter : ℝ) = ⌈C / tol⌉₊ + 1 := by rw [hP]; push_cast; ring
  obtain ⟨-, k2, k3⟩ := key
  rw [e1] at k2 k3
  obtain ⟨c1, c2⟩ := k3 htol htol1 hw1.le (by
    rw [e2]
    have := Nat.le_ceil (C / tol)
    rw [div_le_iff₀ htol] at this
    linarith)
  refine ⟨P, by rw [hP], e1, by rw [hP], fun _ x => by rw [hP]; exact hgr x, c1, fun y hy => ?_⟩
  have c3 : C * ((flMinimizeFW (flBits p) P).nit + 1) * 2⁻¹ ^ p ≤ 1 := by
    have a1 : C * (2⁻¹ : ℝ) ^ p * C ≤ tol := by rw [← le_div_iff₀ hC]; exact hw2.le
    have a2 := mul_le_mul_of_nonneg_left c2 (show 0 ≤ C * (2⁻¹ : ℝ) ^ p by positivity)
    have a3 : tol * (C * ((flMinimizeFW (flBits p) P).nit + 1) * 2⁻¹ ^ p) ≤ tol * 1 := by linarith
    exact le_of_mul_le_mul_left a3 htol
  have := (k2 c3).2.2 c1 y hy
  linarith

end Copt
