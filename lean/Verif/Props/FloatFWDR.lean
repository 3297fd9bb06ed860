import Verif.Model.FloatFWDR
import Verif.Props.FloatFWSearch

/-! # C135: the Frank-Wolfe method on the l1 ball with the Demyanov-Rubinov step, in rounded arithmetic -/

set_option linter.unusedSectionVars false

namespace Copt

open Spec
open scoped InnerProductSpace

variable {d n : ℕ}
variable {f : EuclideanSpace ℝ (Fin d) → ℝ} {g : EuclideanSpace ℝ (Fin d) → EuclideanSpace ℝ (Fin d)} {L alpha K : ℝ} {rd : ℝ → ℝ} {u w : ℝ}

/-- The computed step is nearly a minimiser of the model decrease over `[0, 1]`. -/
theorem drStep_opt {b : ℝ} (hr : Rounding rd u 0) (hu : u ≤ w) (hwb : w ≤ b) (hb : b ≤ 1 / 1000) {c N Q l : ℝ} (hc : 0 < c) (hQ : 0 < Q) (hl : 0 < l) (hN1 : (1 - b) * Q ≤ N) (hN2 : N ≤ (1 + b) * Q)
    {s : ℝ} (hs : s = min (rd (c / rd (N * l))) 1) :
    rd (N * l) ≠ 0 ∧ 0 ≤ s ∧ s ≤ 1 ∧ ∀ t, 0 ≤ t → t ≤ 1 → btModel c Q l s ≤ btModel c Q l t + 4 * (b * c) := by
  have hb0 : 0 ≤ b := hr.u_nonneg.trans (hu.trans hwb)
  have hbc : 0 ≤ b * c := by positivity
  obtain ⟨r0, q0, qa, qb⟩ := flFbQuot_error hr hu hwb hb hc hQ hl hN1 hN2
  obtain ⟨q, hq⟩ : ∃ q, q = flFbQuot rd c N l := ⟨_, rfl⟩
  rw [← hq] at q0 qa qb
  have hse : s = min q 1 := by rw [hs, hq]; rfl
  have hA : 0 < l * Q := by positivity
  have hs0 : 0 ≤ s := by rw [hse]; exact le_min q0.le zero_le_one
  have hs1 : s ≤ 1 := by rw [hse]; exact min_le_right _ _
  refine ⟨r0.ne', hs0, hs1, fun t ht0 ht1 => ?_⟩
  have key : btModel c Q l t - btModel c Q l s = (t - s) * (s * (l * Q) - c) + 1 / 2 * (l * Q) * (t - s) ^ 2 := by unfold btModel; ring
  have h2 : 0 ≤ 1 / 2 * (l * Q) * (t - s) ^ 2 := by positivity
  have h3 : -(4 * (b * c)) ≤ (t - s) * (s * (l * Q) - c) := by
    rcases le_total q 1 with h1 | h1
    · rw [min_eq_left h1] at hse
      rw [hse]
      have a1 : |t - q| ≤ 1 := by rw [abs_le]; constructor <;> linarith
      have a2 : |q * (l * Q) - c| ≤ 4 * (b * c) := by rw [abs_le]; constructor <;> linarith
      have a3 := mul_le_mul a1 a2 (abs_nonneg _) zero_le_one
      rw [← abs_mul] at a3
      have := (abs_le.mp a3).1
      linarith
    · rw [min_eq_right h1] at hse
      rw [hse]
      have a1 : l * Q ≤ q * (l * Q) := le_mul_of_one_le_left hA.le h1
      have a2 : -(4 * (b * c)) ≤ c - l * Q := by linarith
      have a3 := mul_le_mul_of_nonneg_left a2 (show 0 ≤ 1 - t by linarith)
      have a4 : 0 ≤ t * (b * c) := by positivity
      linarith
  linarith

/-- The oracles and the Lipschitz constant `lipschitz` have relative precision `w`; BLAS calls are sums of rounded products in some order. -/
structure FwdOracles (g : EuclideanSpace ℝ (Fin d) → EuclideanSpace ℝ (Fin d)) (L alpha K : ℝ) (rd : ℝ → ℝ) (w : ℝ) (P : FlFWDArgs d) : Prop where
  grad : ∀ k x j, |P.grad k x j - g (WithLp.toLp 2 x) j| ≤ K * w * (1 + norm2 x)
  inner : ∀ k v y, FlDot rd (List.ofFn fun j => (v j, y j)) (P.dot k v y)
  norm : ∀ k v, FlNorm rd v (P.norm k v)
  alpha_eq : P.alpha = alpha
  lip : |P.lipschitz - L| ≤ K * w * L
  lip_pos : 0 < P.lipschitz

/-- What a run guarantees: the result is near the ball and its value is not above the one at the start, up to rounding; it converges at the rate `1 / nit`; a certificate below the tolerance bounds the
distance to the minimum; and, when an iteration decreases the objective by more than rounding, the number of iterations is bounded and a run with enough iterations ends by the tolerance. -/
structure FwdGuarantee (f : EuclideanSpace ℝ (Fin d) → ℝ) (L alpha C w : ℝ) (P : FlFWDArgs d) (r : FlFWDResult d) : Prop where
  near : norm1 r.x ≤ alpha + C * (r.nit + 1) * w
  nit_lt : r.nit < P.maxIter
  decrease : f (WithLp.toLp 2 r.x) ≤ f (WithLp.toLp 2 P.x0) + C * (r.nit + 1) * w
  rate : 0 < r.nit ∨ P.tol < r.certificate → ∀ y : Fin d → ℝ, norm1 y ≤ alpha → f (WithLp.toLp 2 r.x) - f (WithLp.toLp 2 y) ≤ 9 * L * alpha ^ 2 / (r.nit + 2) + C * (r.nit + 1) * w
  certified : r.certificate ≤ P.tol → ∀ y : Fin d → ℝ, norm1 y ≤ alpha → f (WithLp.toLp 2 r.x) - f (WithLp.toLp 2 y) ≤ r.certificate + C * w
  exhausted : P.tol < r.certificate → r.nit + 1 = P.maxIter
  steps : ∀ flow de, (∀ x : Fin d → ℝ, norm1 x ≤ 1.05 * alpha → flow ≤ f (WithLp.toLp 2 x)) → de = min (P.tol / 2) (P.tol ^ 2 / (9 * L * alpha ^ 2)) - C * w → 0 < de →
    r.nit * de ≤ f (WithLp.toLp 2 P.x0) - flow ∧ (f (WithLp.toLp 2 P.x0) - flow < P.maxIter * de → r.certificate ≤ P.tol)

section
variable {k0 : FwsConst f g L alpha K}

/-- Errors of one iteration. -/
noncomputable def FwsConst.it (k0 : FwsConst f g L alpha K) : ℝ := k0.e1 + 4 * (8 * d + 8) * k0.cm + 4.3 * K * L * alpha ^ 2 + (k0.K3 + 2 * alpha * (K * (1 + 2 * alpha)))

/-- One iteration. -/
theorem fwd_iteration (h : FwsSmall k0 rd u w) (ha : 0 < alpha) (hL : 0 < L) (hK : 0 ≤ K) (hcv : ConvexGrad f g) (hG : LipGrad g L) (hq : UpperQuad f g L) {P : FlFWDArgs d}
    (hP : FwdOracles g L alpha K rd w P) (k : ℕ) {x gr : Fin d → ℝ} (hgr : ∀ j, |gr j - g (WithLp.toLp 2 x) j| ≤ K * w * (1 + norm2 x)) (hx : norm1 x ≤ 1.05 * alpha) :
    (∀ y : Fin d → ℝ, norm1 y ≤ alpha → f (WithLp.toLp 2 x) - f (WithLp.toLp 2 y) ≤ flFwdCert rd P k x gr + (k0.K3 + 2 * alpha * (K * (1 + 2 * alpha))) * w) ∧
    (0 < flFwdCert rd P k x gr → norm1 (flFwdNext rd P k x gr) ≤ max (norm1 x) alpha + 2 * (k0.c * w) ∧
      ∀ t, 0 ≤ t → t ≤ 1 → f (WithLp.toLp 2 (flFwdNext rd P k x gr)) ≤ f (WithLp.toLp 2 x) - t * flFwdCert rd P k x gr + 1 / 2 * t ^ 2 * (4.3 * L * alpha ^ 2) + (k0.e1 + 4 * (8 * d + 8) * k0.cm + 4.3 * K * L * alpha ^ 2) * w) := by
  have hw0 := h.w_nonneg
  have hw8 := h.w_le
  have hd0 : (0 : ℝ) ≤ d := Nat.cast_nonneg d
  have hdw : 0 ≤ (d : ℝ) * w := by positivity
  have hdl := h.d_le
  obtain ⟨D, hD⟩ : ∃ D, D = flL1Lmo rd alpha (fun j => -gr j) x := ⟨_, rfl⟩
  have hDd : flFwdDir rd P x gr = D := by rw [hD, flFwdDir, hP.alpha_eq]
  obtain ⟨c, hce⟩ : ∃ c, c = flFwdCert rd P k x gr := ⟨_, rfl⟩
  have hcert : FlDot rd (List.ofFn fun j => (flL1Lmo rd alpha (fun j => -gr j) x j, -gr j)) c := by
    have := hP.inner k (flFwdDir rd P x gr) fun j => -gr j
    rw [hDd, hD] at this
    rw [hce, flFwdCert, hDd, hD]
    exact this
  obtain ⟨-, -, d2, d3, d4, d5⟩ := fws_direction h ha hL.le hK hG hx hgr hcert
  rw [← hce]
  refine ⟨fun y hy => ?_, fun hc => ?_⟩
  · have c1 := hcv (WithLp.toLp 2 x) (WithLp.toLp 2 y)
    have d4 := d4 y hy
    have d3 := (abs_le.mp d3).1
    obtain ⟨V, hV⟩ : ∃ V : EuclideanSpace ℝ (Fin d), V = WithLp.toLp 2 (l1Vertex alpha fun j => -gr j) := ⟨_, rfl⟩
    obtain ⟨X, hX⟩ : ∃ X : EuclideanSpace ℝ (Fin d), X = WithLp.toLp 2 x := ⟨_, rfl⟩
    rw [← hV, ← hX] at d3 d4
    rw [← hX] at c1 ⊢
    rw [inner_sub_right] at c1 d3 d4
    linarith only [c1, d3, d4]
  have hQ0 := d5 hc
  rw [← hD] at d2 hQ0
  obtain ⟨Q, hQ⟩ : ∃ Q, Q = dot D D := ⟨_, rfl⟩
  have hQ4 : Q ≤ 4.3 * alpha ^ 2 := by
    have t1 := toLp_le_norm1 D
    have t2 : ‖(WithLp.toLp 2 D : EuclideanSpace ℝ (Fin d))‖ ^ 2 ≤ (2.06 * alpha) ^ 2 := pow_le_pow_left₀ (norm_nonneg _) (t1.trans d2) 2
    rw [norm_sq_ofLp] at t2
    rw [hQ]
    have : 0 ≤ alpha ^ 2 := sq_nonneg _
    linarith
  obtain ⟨b, hb⟩ : ∃ b, b = (8 * d + 8) * w := ⟨_, rfl⟩
  have hb3 : b ≤ 1 / 1000 := by rw [hb]; linarith
  have hwb : w ≤ b := by rw [hb]; linarith
  have hb0 : 0 ≤ b := hw0.trans hwb
  obtain ⟨N, hNe⟩ : ∃ N, N = flFwdNorm rd P k x gr := ⟨_, rfl⟩
  have hNn : (1 - b) * Q ≤ N ∧ N ≤ (1 + b) * Q := by
    have := flNormSq_error h.rnd h.u_le (d := d) (by linarith) (by linarith) (hP.norm k D)
    rw [← hb, ← hQ] at this
    rw [hNe, flFwdNorm, hDd]
    exact this
  rw [← hQ] at hQ0
  have hccm : c ≤ k0.cm := by
    have t1 : ⟪g (WithLp.toLp 2 x), WithLp.toLp 2 x - WithLp.toLp 2 (l1Vertex alpha fun j => -gr j)⟫_ℝ ≤ k0.Gm * (3 * alpha) := by
      refine (real_inner_le_norm _ _).trans (mul_le_mul (grad_near k0.toFwConst hG hL.le (by linarith)) ?_ (norm_nonneg _) (k0.toFwConst.pos hL.le ha hK).1)
      refine (toLp_sub_norm_le _ _).trans ((norm1_sub_le _ _).trans ?_)
      linarith [l1Vertex_mem ha.le fun j => -gr j]
    have t2 := (abs_le.mp d3).2
    have t3 := h.K3_le
    rw [k0.cm_def]
    linarith only [t1, t2, t3]
  obtain ⟨l, hl⟩ : ∃ l, l = P.lipschitz := ⟨_, rfl⟩
  have hl0 := hP.lip_pos
  have hlL := hP.lip
  rw [← hl] at hl0 hlL
  obtain ⟨s, hs⟩ : ∃ s, s = min (rd (c / rd (N * l))) 1 := ⟨_, rfl⟩
  obtain ⟨hne, hs0, hs1, hopt⟩ := drStep_opt h.rnd h.u_le hwb hb3 hc hQ0 hl0 hNn.1 hNn.2 hs
  have hstep : flFwdStep rd P k x gr = s := by
    unfold flFwdStep
    rw [← hl, ← hNe, if_neg hne, ← hce, hs]
  have hnext : flFwdNext rd P k x gr = flFbPoint rd x D s := by
    unfold flFwdNext flFbPoint
    rw [hstep, hDd]
  obtain ⟨p1, -, p3, -, -⟩ := fws_point h ha hL.le hK hG hq hx hgr hcert hs0 hs1 hD hnext
  refine ⟨p1, fun t ht0 ht1 => ?_⟩
  rw [← hQ] at p3
  have o := hopt t ht0 ht1
  have m1 : btModel c Q L t ≤ -t * c + 1 / 2 * t ^ 2 * (4.3 * L * alpha ^ 2) := by
    unfold btModel
    have := mul_le_mul_of_nonneg_left hQ4 (show 0 ≤ 1 / 2 * L * t ^ 2 by positivity)
    linarith
  have m2 : b * c ≤ b * k0.cm := mul_le_mul_of_nonneg_left hccm hb0
  have m3 : b * k0.cm = (8 * d + 8) * k0.cm * w := by rw [hb]; ring
  have m4 : ∀ r, 0 ≤ r → r ≤ 1 → |btModel c Q l r - btModel c Q L r| ≤ 1 / 2 * (K * w * L) * (4.3 * alpha ^ 2) := fun r hr0 hr1 => by
    have e : btModel c Q l r - btModel c Q L r = 1 / 2 * (l - L) * (r ^ 2 * Q) := by unfold btModel; ring
    have e1 : 0 ≤ r ^ 2 * Q := by positivity
    have e2 : r ^ 2 * Q ≤ 4.3 * alpha ^ 2 := (mul_le_of_le_one_left hQ0.le (pow_le_one₀ hr0 hr1)).trans hQ4
    rw [e, abs_mul, abs_mul, abs_of_nonneg e1, abs_of_pos (show (0 : ℝ) < 1 / 2 by norm_num)]
    exact mul_le_mul (mul_le_mul_of_nonneg_left hlL (by norm_num)) e2 e1 (by positivity)
  have m5 := (abs_le.mp (m4 s hs0 hs1)).1
  have m6 := (abs_le.mp (m4 t ht0 ht1)).2
  linarith only [p3, o, m1, m2, m3, m5, m6]

/-- Iterates and gradients. -/
noncomputable def flFwdIter (rd : ℝ → ℝ) (P : FlFWDArgs d) : ℕ → (Fin d → ℝ) × (Fin d → ℝ)
  | 0 => (P.x0, P.grad 0 P.x0)
  | k + 1 => (flFwdNext rd P k (flFwdIter rd P k).1 (flFwdIter rd P k).2, P.grad (k + 1) (flFwdNext rd P k (flFwdIter rd P k).1 (flFwdIter rd P k).2))

/-- The certificate of iteration `k`. -/
noncomputable def flFwdCertAt (rd : ℝ → ℝ) (P : FlFWDArgs d) (k : ℕ) : ℝ := flFwdCert rd P k (flFwdIter rd P k).1 (flFwdIter rd P k).2

/-- The loop stops at the first certificate below the tolerance, or after the last iteration. -/
theorem flFwdLoop_spec (rd : ℝ → ℝ) (P : FlFWDArgs d) : ∀ m it, ∃ k, it ≤ k ∧ k ≤ it + m ∧ (∀ i, it ≤ i → i < k → P.tol < flFwdCertAt rd P i) ∧
    (flFwdCertAt rd P k ≤ P.tol ∧ flFwdLoop rd P m it (flFwdIter rd P it).1 (flFwdIter rd P it).2 = ⟨(flFwdIter rd P k).1, flFwdCertAt rd P k, k⟩ ∨
      P.tol < flFwdCertAt rd P k ∧ k = it + m ∧ flFwdLoop rd P m it (flFwdIter rd P it).1 (flFwdIter rd P it).2 = ⟨(flFwdIter rd P (k + 1)).1, flFwdCertAt rd P k, k⟩) := by
  intro m
  induction m with
  | zero =>
    intro it
    refine ⟨it, le_rfl, le_rfl, fun i h1 h2 => absurd h1 (not_le.mpr h2), ?_⟩
    rw [flFwdLoop]
    by_cases h : flFwdCertAt rd P it ≤ P.tol
    · exact Or.inl ⟨h, if_pos h⟩
    · exact Or.inr ⟨not_le.mp h, rfl, if_neg h⟩
  | succ m ih =>
    intro it
    by_cases h : flFwdCertAt rd P it ≤ P.tol
    · refine ⟨it, le_rfl, by omega, fun i h1 h2 => absurd h1 (not_le.mpr h2), Or.inl ⟨h, ?_⟩⟩
      rw [flFwdLoop]
      exact if_pos h
    · obtain ⟨k, h1, h2, h3, h4⟩ := ih (it + 1)
      have e : flFwdLoop rd P (m + 1) it (flFwdIter rd P it).1 (flFwdIter rd P it).2 = flFwdLoop rd P m (it + 1) (flFwdIter rd P (it + 1)).1 (flFwdIter rd P (it + 1)).2 := by
        rw [flFwdLoop]
        exact if_neg h
      refine ⟨k, by omega, by omega, fun i hi1 hi2 => ?_, ?_⟩
      · rcases Nat.eq_or_lt_of_le hi1 with rfl | hi
        · exact not_le.mp h
        · exact h3 i hi hi2
      · rw [e]
        rcases h4 with h4 | ⟨a, b, c⟩
        · exact Or.inl h4
        · exact Or.inr ⟨a, by omega, c⟩

theorem fwd_grad {P : FlFWDArgs d} (hP : FwdOracles g L alpha K rd w P) (k : ℕ) (j : Fin d) :
    |(flFwdIter rd P k).2 j - g (WithLp.toLp 2 (flFwdIter rd P k).1) j| ≤ K * w * (1 + norm2 (flFwdIter rd P k).1) := by
  cases k with
  | zero => exact hP.grad 0 P.x0 j
  | succ k => exact hP.grad (k + 1) _ j

/-- The run before the first certificate below the tolerance. -/
theorem fwd_run (h : FwsSmall k0 rd u w) (ha : 0 < alpha) (hL : 0 < L) (hK : 0 ≤ K) (hcv : ConvexGrad f g) (hG : LipGrad g L) (hq : UpperQuad f g L) {P : FlFWDArgs d}
    (hP : FwdOracles g L alpha K rd w P) (hx0 : norm1 P.x0 ≤ alpha) (htol : 0 ≤ P.tol) :
    ∀ k : ℕ, 40 * k0.c * k * w ≤ alpha → (∀ i < k, P.tol < flFwdCertAt rd P i) →
      norm1 (flFwdIter rd P k).1 ≤ alpha + k * (2 * (k0.c * w)) ∧
      f (WithLp.toLp 2 (flFwdIter rd P k).1) ≤ f (WithLp.toLp 2 P.x0) + k * (k0.it * w) ∧
      f (WithLp.toLp 2 (flFwdIter rd P k).1) ≤ f (WithLp.toLp 2 P.x0) - k * (min (P.tol / 2) (P.tol ^ 2 / (9 * L * alpha ^ 2)) - k0.it * w) ∧
      (0 < k → ∀ y : Fin d → ℝ, norm1 y ≤ alpha → f (WithLp.toLp 2 (flFwdIter rd P k).1) - f (WithLp.toLp 2 y) ≤ 8.6 * L * alpha ^ 2 / (k + 2) + k * (k0.it * w)) := by
  have hw0 := h.w_nonneg
  have hc0 := k0.toFwConst.c_nonneg ha.le
  have hcw : 0 ≤ k0.c * w := by positivity
  obtain ⟨hG0, -, -, hK3⟩ := k0.toFwConst.pos hL.le ha hK
  obtain ⟨he1, -, hcm, -⟩ := FwsConst.pos (k0 := k0) hL.le ha hK
  have hd0 : (0 : ℝ) ≤ d := Nat.cast_nonneg d
  have hcm0 : 0 ≤ k0.cm := by linarith
  obtain ⟨E1, hE1⟩ : ∃ E1, E1 = (k0.e1 + 4 * (8 * d + 8) * k0.cm + 4.3 * K * L * alpha ^ 2) * w := ⟨_, rfl⟩
  obtain ⟨E2, hE2⟩ : ∃ E2, E2 = (k0.K3 + 2 * alpha * (K * (1 + 2 * alpha))) * w := ⟨_, rfl⟩
  have hE : k0.it * w = E1 + E2 := by rw [hE1, hE2]; unfold FwsConst.it; ring
  have hE10 : 0 ≤ E1 := by rw [hE1]; positivity
  have hE20 : 0 ≤ E2 := by rw [hE2]; positivity
  rw [hE]
  obtain ⟨A, hA⟩ : ∃ A, A = 4.3 * L * alpha ^ 2 := ⟨_, rfl⟩
  have hA0 : 0 < A := by rw [hA]; positivity
  have hA2 : 8.6 * L * alpha ^ 2 = 2 * A := by rw [hA]; ring
  have hA9 : 2 * A ≤ 9 * L * alpha ^ 2 := by
    have : 0 < L * alpha ^ 2 := by positivity
    rw [hA]; linarith
  intro k
  induction k with
  | zero =>
    intro _ _
    refine ⟨?_, ?_, ?_, fun h => absurd h (lt_irrefl 0)⟩
    · rw [Nat.cast_zero, zero_mul, add_zero]; exact hx0
    · rw [Nat.cast_zero, zero_mul, add_zero]; exact le_rfl
    · rw [Nat.cast_zero, zero_mul, sub_zero]; exact le_rfl
  | succ k ih =>
    intro hk hcs
    push_cast at hk
    have hkw : 0 ≤ k0.c * k * w := by positivity
    obtain ⟨i1, i2, i3, i4⟩ := ih (by linarith) fun i hi => hcs i (by omega)
    have hc := hcs k (by omega)
    have hx : norm1 (flFwdIter rd P k).1 ≤ 1.05 * alpha := by linarith
    obtain ⟨r1, r2⟩ := fwd_iteration h ha hL hK hcv hG hq hP k (fwd_grad hP k) hx
    obtain ⟨r2, r3⟩ := r2 (htol.trans_lt hc)
    obtain ⟨c, hce⟩ : ∃ c, c = flFwdCert rd P k (flFwdIter rd P k).1 (flFwdIter rd P k).2 := ⟨_, rfl⟩
    have hcc : flFwdCertAt rd P k = c := by rw [hce]; rfl
    rw [hcc] at hc
    rw [← hce] at r1 r3
    have hnext : (flFwdIter rd P (k + 1)).1 = flFwdNext rd P k (flFwdIter rd P k).1 (flFwdIter rd P k).2 := rfl
    rw [← hnext] at r2 r3
    obtain ⟨F, hF⟩ : ∃ F, F = f (WithLp.toLp 2 (flFwdIter rd P (k + 1)).1) := ⟨_, rfl⟩
    obtain ⟨F', hF'⟩ : ∃ F', F' = f (WithLp.toLp 2 (flFwdIter rd P k).1) := ⟨_, rfl⟩
    rw [← hF, ← hF', ← hA, ← hE1] at r3
    rw [← hF'] at i2 i3 i4 r1
    rw [← hE2] at r1
    rw [hA2] at i4 ⊢
    rw [← hF]
    refine ⟨?_, ?_, ?_, fun _ y hy => ?_⟩
    · have : max (norm1 (flFwdIter rd P k).1) alpha ≤ alpha + k * (2 * (k0.c * w)) := max_le i1 (le_add_of_nonneg_right (by positivity))
      push_cast
      linarith
    · have := r3 0 le_rfl zero_le_one
      push_cast
      linarith
    · have hmin : F ≤ F' - min (P.tol / 2) (P.tol ^ 2 / (9 * L * alpha ^ 2)) + E1 := by
        rcases le_total A c with hAc | hAc
        · have t1 := r3 1 zero_le_one le_rfl
          have t2 := min_le_left (P.tol / 2) (P.tol ^ 2 / (9 * L * alpha ^ 2))
          linarith
        · have t1 := r3 (c / A) (div_nonneg (htol.trans hc.le) hA0.le) ((div_le_one hA0).mpr hAc)
          have t2 := min_le_right (P.tol / 2) (P.tol ^ 2 / (9 * L * alpha ^ 2))
          have t3 : P.tol ^ 2 / (9 * L * alpha ^ 2) ≤ c ^ 2 / (2 * A) := div_le_div₀ (sq_nonneg c) (pow_le_pow_left₀ htol hc.le 2) (by positivity) hA9
          have t4 : c / A * c - 1 / 2 * (c / A) ^ 2 * A = c ^ 2 / (2 * A) := by field_simp; ring
          linarith
      push_cast
      linarith
    · have r1 := r1 y hy
      obtain ⟨fy, hfy⟩ : ∃ fy, fy = f (WithLp.toLp 2 y) := ⟨_, rfl⟩
      rw [← hfy] at r1 ⊢
      have hk2 : (0 : ℝ) < (k : ℝ) + 2 := by positivity
      obtain ⟨t, ht⟩ : ∃ t : ℝ, t = 2 / ((k : ℝ) + 2) := ⟨_, rfl⟩
      have ht0 : 0 ≤ t := by rw [ht]; positivity
      have ht1 : t ≤ 1 := by rw [ht, div_le_one hk2]; linarith [Nat.cast_nonneg (α := ℝ) k]
      have r3 := r3 t ht0 ht1
      have q1 : t * (F' - fy) ≤ t * (c + E2) := mul_le_mul_of_nonneg_left r1 ht0
      have q2 : t * E2 ≤ E2 := mul_le_of_le_one_left hE20 ht1
      have q3 : F - fy ≤ (1 - t) * (F' - fy) + 1 / 2 * t ^ 2 * A + E1 + E2 := by linarith
      have q4 : (1 - t) * (F' - fy) ≤ (1 - t) * (2 * A / (k + 2)) + k * (E1 + E2) := by
        rcases Nat.eq_zero_or_pos k with rfl | hk0
        · have : t = 1 := by rw [ht]; norm_num
          rw [this]; simp
        · have i4 := i4 hk0 y hy
          rw [← hfy] at i4
          have e1 := mul_le_mul_of_nonneg_left i4 (show 0 ≤ 1 - t by linarith)
          have e2 : (1 - t) * (k * (E1 + E2)) ≤ k * (E1 + E2) := mul_le_of_le_one_left (by positivity) (by linarith)
          linarith
      have q5 : (1 - t) * (2 * A / (k + 2)) + 1 / 2 * t ^ 2 * A ≤ 2 * A / (k + 3) := by
        have e : (1 - t) * (2 * A / (k + 2)) + 1 / 2 * t ^ 2 * A = 2 * A * ((k + 1) / (k + 2) ^ 2) := by rw [ht]; field_simp; ring
        rw [e, div_eq_mul_inv (2 * A) ((k : ℝ) + 3)]
        refine mul_le_mul_of_nonneg_left ?_ (by linarith)
        rw [inv_eq_one_div, div_le_div_iff₀ (by positivity) (by positivity)]
        linarith [Nat.cast_nonneg (α := ℝ) k]
      have e3 : ((k + 1 : ℕ) : ℝ) + 2 = (k : ℝ) + 3 := by push_cast; ring
      rw [e3]
      push_cast
      linarith

/-- The guarantee. -/
theorem fwd_guarantee (h : FwsSmall k0 rd u w) (ha : 0 < alpha) (hL : 0 < L) (hK : 0 ≤ K) (hcv : ConvexGrad f g) (hG : LipGrad g L) (hq : UpperQuad f g L) {P : FlFWDArgs d}
    (hP : FwdOracles g L alpha K rd w P) (hx0 : norm1 P.x0 ≤ alpha) (htol : 0 ≤ P.tol) (hm : 1 ≤ P.maxIter) (hmw : 40 * k0.c * P.maxIter * w ≤ alpha) {C : ℝ}
    (hC1 : 2 * k0.c ≤ C) (hC2 : k0.it ≤ C) : FwdGuarantee f L alpha C w P (flMinimizeFWD rd P) := by
  have hw0 := h.w_nonneg
  have hc0 := k0.toFwConst.c_nonneg ha.le
  have hcw : 0 ≤ k0.c * w := by positivity
  obtain ⟨hG0, -, -, hK3⟩ := k0.toFwConst.pos hL.le ha hK
  obtain ⟨he1, -, hcm, -⟩ := FwsConst.pos (k0 := k0) hL.le ha hK
  have hd0 : (0 : ℝ) ≤ d := Nat.cast_nonneg d
  have hcm0 : 0 ≤ k0.cm := by linarith
  have hit : k0.K3 + 2 * alpha * (K * (1 + 2 * alpha)) ≤ k0.it := by
    unfold FwsConst.it
    have : 0 ≤ 4 * (8 * d + 8) * k0.cm + 4.3 * K * L * alpha ^ 2 := by positivity
    linarith
  have hit0 : 0 ≤ k0.it := le_trans (by positivity) hit
  have run := fwd_run h ha hL hK hcv hG hq hP hx0 htol
  obtain ⟨k, -, k1, k2, k3⟩ := flFwdLoop_spec rd P (P.maxIter - 1) 0
  have hk : k + 1 ≤ P.maxIter := by omega
  have hsmall : ∀ i ≤ P.maxIter, 40 * k0.c * i * w ≤ alpha := fun i hi => by
    refine le_trans ?_ hmw
    have : (i : ℝ) ≤ P.maxIter := by exact_mod_cast hi
    have := mul_le_mul_of_nonneg_left this (show 0 ≤ 40 * k0.c * w by positivity)
    linarith
  have hball : ∀ i ≤ P.maxIter, ∀ x : Fin d → ℝ, norm1 x ≤ alpha + i * (2 * (k0.c * w)) → norm1 x ≤ 1.05 * alpha := fun i hi x hx => by
    have := hsmall i hi
    linarith
  have hk0 : (0 : ℝ) ≤ k := Nat.cast_nonneg k
  have m1 : 2 * (k0.c * w) ≤ C * w := by
    have := mul_le_mul_of_nonneg_right hC1 hw0
    linarith
  have m2 : k0.it * w ≤ C * w := mul_le_mul_of_nonneg_right hC2 hw0
  have hCw : 0 ≤ C * w := le_trans (by positivity) m1
  have hLa : 0 < L * alpha ^ 2 := by positivity
  -- the weak form of the bounds, for an iterate reached by `i` steps
  have weak : ∀ i ≤ P.maxIter, (∀ j < i, P.tol < flFwdCertAt rd P j) →
      norm1 (flFwdIter rd P i).1 ≤ alpha + C * i * w ∧ f (WithLp.toLp 2 (flFwdIter rd P i).1) ≤ f (WithLp.toLp 2 P.x0) + C * i * w ∧
      (0 < i → ∀ y : Fin d → ℝ, norm1 y ≤ alpha → f (WithLp.toLp 2 (flFwdIter rd P i).1) - f (WithLp.toLp 2 y) ≤ 9 * L * alpha ^ 2 / (i + 2) + C * i * w) ∧
      ∀ flow de, (∀ x : Fin d → ℝ, norm1 x ≤ 1.05 * alpha → flow ≤ f (WithLp.toLp 2 x)) → de = min (P.tol / 2) (P.tol ^ 2 / (9 * L * alpha ^ 2)) - C * w → 
        i * de ≤ f (WithLp.toLp 2 P.x0) - flow := fun i hi hcs => by
    obtain ⟨a1, a2, a3, a4⟩ := run i (hsmall i hi) hcs
    have hi0 : (0 : ℝ) ≤ i := Nat.cast_nonneg i
    have n1 := mul_le_mul_of_nonneg_left m1 hi0
    have n2 := mul_le_mul_of_nonneg_left m2 hi0
    refine ⟨by linarith, by linarith, fun hip y hy => ?_, fun flow de hlow hde => ?_⟩
    · have a4 := a4 hip y hy
      have : 8.6 * L * alpha ^ 2 / (i + 2) ≤ 9 * L * alpha ^ 2 / (i + 2) := div_le_div_of_nonneg_right (by linarith) (by positivity)
      linarith
    · have l1 := hlow _ (hball i hi _ a1)
      have : i * de ≤ i * (min (P.tol / 2) (P.tol ^ 2 / (9 * L * alpha ^ 2)) - k0.it * w) := mul_le_mul_of_nonneg_left (by rw [hde]; linarith) hi0
      linarith
  rcases k3 with ⟨k3, k4⟩ | ⟨k3, k4, k5⟩
  · have hres : flMinimizeFWD rd P = ⟨(flFwdIter rd P k).1, flFwdCertAt rd P k, k⟩ := k4
    rw [hres]
    obtain ⟨w1, w2, w3, w4⟩ := weak k (by omega) fun i hi => k2 i (by omega) hi
    refine ⟨?_, by show k < P.maxIter; omega, ?_, ?_, fun _ y hy => ?_, fun h' => absurd h' (not_lt.mpr k3), fun flow de hlow hde _ => ⟨w4 flow de hlow hde, fun _ => k3⟩⟩
    · show norm1 (flFwdIter rd P k).1 ≤ alpha + C * (k + 1) * w
      linarith
    · show f (WithLp.toLp 2 (flFwdIter rd P k).1) ≤ f (WithLp.toLp 2 P.x0) + C * (k + 1) * w
      linarith
    · rintro (hk' | hk') y hy
      · show f (WithLp.toLp 2 (flFwdIter rd P k).1) - _ ≤ 9 * L * alpha ^ 2 / (k + 2) + C * (k + 1) * w
        have := w3 hk' y hy
        linarith
      · exact absurd hk' (not_lt.mpr k3)
    · show f (WithLp.toLp 2 (flFwdIter rd P k).1) - f (WithLp.toLp 2 y) ≤ flFwdCertAt rd P k + C * w
      obtain ⟨a1, -, -, -⟩ := run k (hsmall k (by omega)) fun i hi => k2 i (by omega) hi
      obtain ⟨r1, -⟩ := fwd_iteration h ha hL hK hcv hG hq hP k (fwd_grad hP k) (hball k (by omega) _ a1)
      have r1 := r1 y hy
      have e : flFwdCertAt rd P k = flFwdCert rd P k (flFwdIter rd P k).1 (flFwdIter rd P k).2 := rfl
      rw [e]
      have := mul_le_mul_of_nonneg_right hit hw0
      linarith
  · have hres : flMinimizeFWD rd P = ⟨(flFwdIter rd P (k + 1)).1, flFwdCertAt rd P k, k⟩ := k5
    rw [hres]
    obtain ⟨w1, w2, w3, w4⟩ := weak (k + 1) hk fun i hi => by
      rcases Nat.lt_succ_iff_lt_or_eq.mp hi with hi | rfl
      · exact k2 i (by omega) hi
      · exact k3
    have hkm : k + 1 = P.maxIter := by omega
    push_cast at w1 w2 w3 w4
    refine ⟨w1, by show k < P.maxIter; omega, w2, fun _ y hy => ?_, fun h' => absurd h' (not_le.mpr k3), fun _ => hkm, fun flow de hlow hde hde0 => ?_⟩
    · show f (WithLp.toLp 2 (flFwdIter rd P (k + 1)).1) - _ ≤ 9 * L * alpha ^ 2 / (k + 2) + C * (k + 1) * w
      have t1 := w3 (Nat.succ_pos k) y hy
      have t2 : 9 * L * alpha ^ 2 / ((k : ℝ) + 1 + 2) ≤ 9 * L * alpha ^ 2 / ((k : ℝ) + 2) := div_le_div_of_nonneg_left (by linarith) (by positivity) (by linarith)
      linarith
    · have t1 := w4 flow de hlow hde
      refine ⟨?_, fun h' => ?_⟩
      · show (k : ℝ) * de ≤ _
        linarith
      · have : (P.maxIter : ℝ) = k + 1 := by rw [← hkm]; push_cast; ring
        rw [this] at h'
        linarith

end

/-- **C135**.  `minimize_frank_wolfe` on the l1 ball with `step="DR"` in rounded arithmetic, for a convex objective with `L`-Lipschitz gradient, where gradients and `lipschitz` are accurate to a relative
precision `w`. -/
theorem C135_rounded_dr (hL : 0 < L) (ha : 0 < alpha) (hK : 0 ≤ K) (hcv : ConvexGrad f g) (hG : LipGrad g L) (hq : UpperQuad f g L) :
    ∃ C, 0 < C ∧ ∀ (rd : ℝ → ℝ) (u w : ℝ), Rounding rd u 0 → rd 1 = 1 → u ≤ w → C * w ≤ 1 →
      ∀ P : FlFWDArgs d, FwdOracles g L alpha K rd w P → norm1 P.x0 ≤ alpha → 0 ≤ P.tol → 1 ≤ P.maxIter → C * (P.maxIter * w) ≤ 1 → FwdGuarantee f L alpha C w P (flMinimizeFWD rd P) := by
  obtain ⟨k0⟩ := exists_fwsConst f g L alpha K
  obtain ⟨C, hC, c1, -, -, -, -, c3, hs⟩ := exists_fwsSmall hL.le ha hK k0
  obtain ⟨C', hC'⟩ : ∃ C', C' = 2 ^ 23 * C + |k0.it| := ⟨_, rfl⟩
  have hCC : 2 ^ 23 * C ≤ C' := by rw [hC']; linarith [abs_nonneg k0.it]
  refine ⟨C', by rw [hC']; positivity, ?_⟩
  intro rd u w hr h1 hu hw P hP hx0 htol hm hmw
  have hw0 : 0 ≤ w := hr.u_nonneg.trans hu
  have hCw : C * w ≤ 2⁻¹ ^ 23 := by
    have := mul_le_mul_of_nonneg_right hCC hw0
    have e : (2⁻¹ : ℝ) ^ 23 = 1 / 2 ^ 23 := by norm_num
    rw [e, le_div_iff₀ (by positivity)]
    linarith
  have hit' : k0.it ≤ C' := by
    have t1 := le_abs_self k0.it
    have t2 : 0 ≤ 2 ^ 23 * C := by positivity
    rw [hC']
    linarith
  refine fwd_guarantee (hs rd u w hr h1 hu hCw) ha hL hK hcv hG hq hP hx0 htol hm ?_ (by linarith) hit'
  have t1 := mul_le_mul_of_nonneg_right c3 (show 0 ≤ P.maxIter * w by positivity)
  have t2 : C * (P.maxIter * w) ≤ 1 := le_trans (mul_le_mul_of_nonneg_right (by linarith) (by positivity)) hmw
  have t3 := mul_le_mul_of_nonneg_left t2 ha.le
  linarith

/-! ### The loss functions of the library -/

/-- The oracles are the loss functions of the library and BLAS, in rounded arithmetic; `lipschitz` is accurate to the relative precision `w`, in particular a rounding of `f.lipschitz`. -/
structure FwdLib (rd fexp : ℝ → ℝ) (w : ℝ) (f : LossObj n d) (sv alpha : ℝ) (P : FlFWDArgs d) : Prop where
  grad : ∀ k x, f.FlGrad rd fexp x (P.grad k x)
  inner : ∀ k v y, FlDot rd (List.ofFn fun j => (v j, y j)) (P.dot k v y)
  norm : ∀ k v, FlNorm rd v (P.norm k v)
  alpha_eq : P.alpha = alpha
  lip : |P.lipschitz - f.lipschitz sv| ≤ w * f.lipschitz sv

/-- **C135** for the losses of the library. -/
theorem C135_rounded_library (f : LossObj n d) (hf : f.Good) {sv : ℝ} (hsv : IsLargestSingular f.mat sv) (hL : 0 < f.lipschitz sv) (ha : 0 < alpha) :
    ∃ C, 0 < C ∧ ∀ (rd fexp : ℝ → ℝ) (u w : ℝ), Rounding rd u 0 → rd 1 = 1 → u ≤ w → C * w ≤ 1 → FlExp fexp w →
      ∀ P : FlFWDArgs d, FwdLib rd fexp w f sv alpha P → norm1 P.x0 ≤ alpha → 0 ≤ P.tol → 1 ≤ P.maxIter → C * (P.maxIter * w) ≤ 1 →
        FwdGuarantee f.fn (f.lipschitz sv) alpha C w P (flMinimizeFWD rd P) := by
  obtain ⟨-, hcv, hq, hG, -⟩ := C92_loss f hf hsv
  obtain ⟨K1, hK1, g1⟩ := f.flGrad_error hf
  obtain ⟨C, hC, h⟩ := C135_rounded_dr (K := K1 + 1) hL ha (by linarith) hcv hG hq
  have hn0 : (0 : ℝ) ≤ n := Nat.cast_nonneg n
  have hd0 : (0 : ℝ) ≤ d := Nat.cast_nonneg d
  obtain ⟨M, hM⟩ : ∃ M : ℝ, M = 4 * n + 4 * d + 10 := ⟨_, rfl⟩
  have hM0 : 0 < M := by rw [hM]; positivity
  refine ⟨C + M, by linarith, ?_⟩
  intro rd fexp u w hr hr1 hu hw hexp P hP hx0 htol hm hmw
  have hw0 : 0 ≤ w := hr.u_nonneg.trans hu
  have hnw : 0 ≤ n * w := by positivity
  have hdw : 0 ≤ d * w := by positivity
  have m1 : 0 ≤ C * w := by positivity
  have m2 : 0 ≤ M * w := by positivity
  have m3 : 0 ≤ M * (P.maxIter * w) := by positivity
  have hMw : (4 * n + 4 * d + 10) * w ≤ 1 := by rw [← hM]; linarith
  have hw1 : w ≤ 1 / 10 := by linarith
  have hsc : Scale rd u 0 w 1 := ⟨hr, hu, by positivity, hw0, by linarith, le_rfl⟩
  have hO : FwdOracles f.gradE (f.lipschitz sv) alpha (K1 + 1) rd w P := by
    refine ⟨fun k x j => ?_, hP.inner, hP.norm, hP.alpha_eq, ?_, ?_⟩
    · have hx0 := norm2_nonneg' x
      refine (g1 rd u 0 w hsc (by linarith) (by linarith) (by linarith) fexp hexp x _ (hP.grad k x) j).trans ?_
      have : 0 ≤ w * (1 + norm2 x) := by positivity
      linarith
    · have := hP.lip
      have : 0 ≤ K1 * w * f.lipschitz sv := by positivity
      linarith
    · have t1 := (abs_le.mp hP.lip).1
      have t2 := mul_le_mul_of_nonneg_right hw1 hL.le
      linarith
  have hg := h rd u w hr hr1 hu (by linarith) P hO hx0 htol hm (by linarith)
  have hcc : ∀ a, 0 ≤ a → C * a ≤ (C + M) * a := fun a ha => mul_le_mul_of_nonneg_right (by linarith) ha
  have c1 := hcc (((flMinimizeFWD rd P).nit + 1) * w) (by positivity)
  refine ⟨by have := hg.near; linarith, hg.nit_lt, by have := hg.decrease; linarith, fun h1 y hy => by have := hg.rate h1 y hy; linarith, fun h1 y hy => ?_, hg.exhausted, fun flow de hlow hde hde0 => ?_⟩
  · have := hg.certified h1 y hy
    have := hcc w hw0
    linarith
  · have t1 := hcc w hw0
    obtain ⟨a1, a2⟩ := hg.steps flow (de + M * w) hlow (by rw [hde]; ring) (by linarith)
    have n1 : 0 ≤ ((flMinimizeFWD rd P).nit : ℝ) * (M * w) := by positivity
    exact ⟨by linarith, fun h' => a2 (by linarith)⟩

/-- C135 in binary arithmetic: for every loss, data set, radius, starting point in the ball and tolerance, with enough bits and iterations, `lipschitz` the rounded constant of the loss: the run ends by the
tolerance at a point with value within `2 tol` of the best value on the ball. -/
example (hn : 0 < n) (hd : 0 < d) (f : LossObj n d) (hf : f.Good) {sv : ℝ} (hsv : IsLargestSingular f.mat sv) (hL : 0 < f.lipschitz sv) (ha : 0 < alpha) {tol : ℝ} (htol : 0 < tol)
    {x0 : Fin d → ℝ} (hx0 : norm1 x0 ≤ alpha) :
    ∃ p0 N : ℕ, ∀ p ≥ p0, ∃ P : FlFWDArgs d, FwdLib (flBits p) (fun t => flBits p (Real.exp t)) (2⁻¹ ^ p) f sv alpha P ∧ P.x0 = x0 ∧ P.tol = tol ∧ P.maxIter = N ∧
      P.lipschitz = flBits p (f.lipschitz sv) ∧ (flMinimizeFWD (flBits p) P).certificate ≤ tol ∧
      ∀ y, norm1 y ≤ alpha → f.fn (WithLp.toLp 2 (flMinimizeFWD (flBits p) P).x) ≤ f.fn (WithLp.toLp 2 y) + 2 * tol := by
  obtain ⟨C, hC, h⟩ := C135_rounded_library f hf hsv hL ha
  obtain ⟨-, -, -, -, hnn⟩ := C92_loss f hf hsv
  obtain ⟨m, hm⟩ : ∃ m, m = min (tol / 2) (tol ^ 2 / (9 * f.lipschitz sv * alpha ^ 2)) := ⟨_, rfl⟩
  have hm0 : 0 < m := by rw [hm]; exact lt_min (by positivity) (by positivity)
  obtain ⟨N, hN⟩ := exists_nat_gt (f.fn (WithLp.toLp 2 x0) / (m / 2))
  rw [div_lt_iff₀ (by positivity)] at hN
  have hN0 : (0 : ℝ) ≤ N := Nat.cast_nonneg N
  obtain ⟨b, hb⟩ : ∃ b : ℝ, b = min (min 1 (1 / ((N : ℝ) + 1))) (min tol (m / 2)) := ⟨_, rfl⟩
  have hb0 : 0 < b := by rw [hb]; exact lt_min (lt_min one_pos (by positivity)) (lt_min htol (by positivity))
  obtain ⟨p0, hp0⟩ := exists_pow_lt_of_lt_one (show 0 < b / C by positivity) (show (2⁻¹ : ℝ) < 1 by norm_num)
  refine ⟨p0, N + 1, fun p hp => ?_⟩
  have hw : C * (2⁻¹ : ℝ) ^ p ≤ b := by
    rw [mul_comm, ← le_div_iff₀ hC]
    exact ((pow_le_pow_of_le_one (by norm_num) (by norm_num) hp).trans hp0.le)
  have hpos : (0 : ℝ) < 2⁻¹ ^ p := by positivity
  have hr := flBits_rounding (p := p) (eta := 0) le_rfl
  have hu : (2⁻¹ : ℝ) ^ (p + 1) ≤ 2⁻¹ ^ p := pow_le_pow_of_le_one (by norm_num) (by norm_num) (Nat.le_succ p)
  have b1 : b ≤ 1 := by rw [hb]; exact (min_le_left _ _).trans (min_le_left _ _)
  have b2 : b ≤ 1 / ((N : ℝ) + 1) := by rw [hb]; exact (min_le_left _ _).trans (min_le_right _ _)
  have b3 : b ≤ tol := by rw [hb]; exact (min_le_right _ _).trans (min_le_left _ _)
  have b4 : b ≤ m / 2 := by rw [hb]; exact (min_le_right _ _).trans (min_le_right _ _)
  choose gr hgr using fun x => f.exists_flGrad (flBits p) (fun t => flBits p (Real.exp t)) hn hd x
  choose no hno using fun v : Fin d → ℝ => exists_flNorm (flBits p) hd v
  choose dt hdt using fun a b : Fin d → ℝ => exists_flDot_vec (flBits p) hd fun j => (a j, b j)
  obtain ⟨P, hPe⟩ : ∃ P : FlFWDArgs d, P = ⟨fun _ => gr, fun _ => dt, fun _ => no, alpha, x0, tol, N + 1, flBits p (f.lipschitz sv)⟩ := ⟨_, rfl⟩
  have hP : FwdLib (flBits p) (fun t => flBits p (Real.exp t)) (2⁻¹ ^ p) f sv alpha P := by
    rw [hPe]
    refine ⟨fun _ => hgr, fun _ => hdt, fun _ => hno, rfl, ?_⟩
    have := rel_err hr hu (f.lipschitz sv)
    rwa [abs_of_pos hL] at this
  have e1 : P.x0 = x0 := by rw [hPe]
  have e2 : P.tol = tol := by rw [hPe]
  have e3 : P.maxIter = N + 1 := by rw [hPe]
  have hg := h (flBits p) (fun t => flBits p (Real.exp t)) (2⁻¹ ^ (p + 1)) (2⁻¹ ^ p) hr (flBits_one p) hu (hw.trans b1) (fun t ht => by
      have h1 := rel_err hr hu (Real.exp t)
      rw [abs_of_pos (Real.exp_pos t)] at h1
      have h2 := mul_le_mul_of_nonneg_left (Real.exp_le_one_iff.mpr ht) hpos.le
      linarith) P hP (by rw [e1]; exact hx0) (by rw [e2]; exact htol.le) (by rw [e3]; omega) (by
      rw [e3]
      have := hw.trans b2
      rw [le_div_iff₀ (by positivity)] at this
      push_cast
      linarith)
  obtain ⟨-, s2⟩ := hg.steps 0 (m - C * 2⁻¹ ^ p) (fun x _ => hnn _) (by rw [e2, hm]) (by linarith)
  have hc := s2 (by
    rw [e1, e3, sub_zero]
    have t1 : (N : ℝ) * (m / 2) ≤ N * (m - C * 2⁻¹ ^ p) := mul_le_mul_of_nonneg_left (by linarith) hN0
    push_cast
    linarith)
  refine ⟨P, hP, e1, e2, e3, by rw [hPe], by rw [← e2]; exact hc, fun y hy => ?_⟩
  have := hg.certified hc y hy
  rw [e2] at hc
  linarith

end Copt
