import Verif.Proof.FloatLineSearch

/-!
# The first step size of the rounded proximal gradient method
-/

set_option linter.unusedSectionVars false

namespace Copt

open Spec

open scoped InnerProductSpace

variable {d : ℕ} {rd : ℝ → ℝ} {u w : ℝ}

local notation "ℓ²" => EuclideanSpace ℝ (Fin d)

/-- The estimate stays below `Λ` when every estimate above `L` passes the test. -/
theorem flInitLoop_bounds (hr : Rounding rd u 0) (hu : u ≤ w) (hw1 : w ≤ 1 / 4000) {P : FlBtArgs d} {f0 L Λ : ℝ} {g0 : Fin d → ℝ} (hΛ : 11 * L ≤ Λ)
    (hdesc : ∀ i L0, 0 < L0 → L ≤ L0 → L0 ≤ Λ → (P.init i (flStep rd P.x0 g0 (rd (1 / L0)))).1 ≤ f0) :
    ∀ k i L0 fT, 0 < L0 → L0 ≤ Λ → (L ≤ L0 → fT ≤ f0) → L0 ≤ flInitLoop rd P f0 g0 k i L0 fT ∧ flInitLoop rd P f0 g0 k i L0 fT ≤ Λ := by
  intro k
  induction k with
  | zero => intro i L0 fT h0 h1 _; exact ⟨le_rfl, h1⟩
  | succ k ih =>
    intro i L0 fT h0 h1 h2
    unfold flInitLoop
    split
    · exact ⟨le_rfl, h1⟩
    · next hn =>
      have hlt : L0 < L := by
        by_contra h
        exact hn (h2 (by linarith))
      have h3 := rel_bounds hr hu (show 0 ≤ L0 * 10 by linarith)
      have h4 := mul_le_mul_of_nonneg_right hw1 (show 0 ≤ L0 * 10 by linarith)
      have h5 : L0 ≤ rd (L0 * 10) := by linarith [h3.1]
      have h6 : rd (L0 * 10) ≤ Λ := by linarith [h3.2]
      obtain ⟨a, b⟩ := ih (i + 1) (rd (L0 * 10)) _ (by linarith) h6 fun h => hdesc i _ (by linarith) h h6
      exact ⟨h5.trans a, b⟩

section

variable {f : EuclideanSpace ℝ (Fin d) → ℝ} {g : EuclideanSpace ℝ (Fin d) → EuclideanSpace ℝ (Fin d)} {G : ExtFun (EuclideanSpace ℝ (Fin d))}
  {proxE : EuclideanSpace ℝ (Fin d) → ℝ → EuclideanSpace ℝ (Fin d)} {mu L : ℝ} {xs : EuclideanSpace ℝ (Fin d)}

set_option maxHeartbeats 1600000 in
/-- The first step size is bounded, above and below, when the gradient at `x0` is not of the order of the rounding errors. -/
theorem flInitStep_bounds (hpb : LsProb f g G proxE mu L xs) {K R S : ℝ} (hK : 0 ≤ K) (hR : 0 ≤ R) : ∃ C, ∀ {rd : ℝ → ℝ} {u w : ℝ} {P : FlBtArgs d}, Rounding rd u 0 → u ≤ w → C * w ≤ 1 →
    FlBtOracles rd P f g proxE K w S → ‖(WithLp.toLp 2 P.x0 : ℓ²) - xs‖ ≤ R → C * √w ≤ ‖g (WithLp.toLp 2 P.x0)‖ →
    1 / (1 / 500 + 11 * L) ≤ flInitStep rd P ∧ flInitStep rd P ≤ 1810 := by
  have hL := hpb.L_pos
  have hmu := hpb.mu_pos
  have hd0 : (0 : ℝ) ≤ d := Nat.cast_nonneg d
  obtain ⟨A2, M, K0, C1, K1, hb⟩ := exists_lsBounds hpb hK hR le_rfl
  obtain ⟨hA20, hAA, hM, hK00, -, -, -, -, -⟩ := hb.pos hL
  obtain ⟨T, hT⟩ : ∃ T, T = 2 / L := ⟨_, rfl⟩
  have hT0 : 0 < T := by rw [hT]; positivity
  obtain ⟨A2', M3, K0', C1', K1', hb3⟩ := exists_lsBounds hpb hK (show 0 ≤ R + T * M + 1 by positivity) (le_refl (0 : ℝ))
  obtain ⟨hA20', hAA', hM3, -, -, -, -, -, -⟩ := hb3.pos hL
  obtain ⟨E3, hE3⟩ : ∃ E3, E3 = d * ((1 + 3 * T) * M) + T * K0 := ⟨_, rfl⟩
  have hE30 : 0 ≤ E3 := by rw [hE3]; positivity
  obtain ⟨Λ, hΛ⟩ : ∃ Λ, Λ = 1 / 500 + 11 * L := ⟨_, rfl⟩
  have hΛ0 : 0 < Λ := by rw [hΛ]; positivity
  obtain ⟨Q, hQ⟩ : ∃ Q, Q = M3 * E3 + K * (1 + M3) ^ 2 + K * (1 + M) ^ 2 := ⟨_, rfl⟩
  have hQ0 : 0 ≤ Q := by rw [hQ]; positivity
  refine ⟨4000 + E3 + K0 + (8 * Λ * Q + 1), fun {rd u w P} hr hu hCw hO hX hg => ?_⟩
  have hw : 0 ≤ w := hr.u_nonneg.trans hu
  have hE3w : E3 * w ≤ 1 ∧ 4000 * w ≤ 1 ∧ K0 * w ≤ 1 := by
    have p1 := mul_nonneg hE30 hw
    have p2 := mul_nonneg hK00 hw
    have p3 : 0 ≤ (8 * Λ * Q + 1) * w := by positivity
    refine ⟨by linarith, by linarith, by linarith⟩
  obtain ⟨hE3w, hw4, hK0w⟩ := hE3w
  have hw1 : w ≤ 1 / 4000 := by linarith
  obtain ⟨X, hXe⟩ : ∃ X : ℓ², X = WithLp.toLp 2 P.x0 := ⟨_, rfl⟩
  obtain ⟨g0, hg0⟩ : ∃ g0, g0 = (P.init 0 P.x0).2 := ⟨_, rfl⟩
  obtain ⟨f0, hf0⟩ : ∃ f0, f0 = (P.init 0 P.x0).1 := ⟨_, rfl⟩
  obtain ⟨o1, o2⟩ := hO.init 0 P.x0
  rw [← hXe] at hX hg o1 o2
  rw [← hf0] at o1
  rw [← hg0] at o2
  obtain ⟨m1, m2, m3⟩ := hb.M_ball X (hX.trans hAA)
  have hn : norm2 P.x0 ≤ M := by rw [← toLp_norm, ← hXe]; exact m1
  have hn0 := norm2_nonneg' P.x0
  have hKM : 0 ≤ K * (1 + M) ^ 2 := by positivity
  have hv0 : |f0 - f X| ≤ K * (1 + M) ^ 2 * w := by
    refine o1.trans ?_
    have h1 : (1 + norm2 P.x0) ^ 2 ≤ (1 + M) ^ 2 := pow_le_pow_left₀ (by linarith) (by linarith) 2
    have h2 := mul_le_mul_of_nonneg_left h1 (mul_nonneg hK hw)
    linarith
  have hG0 : ‖(WithLp.toLp 2 g0 : ℓ²) - g X‖ ≤ K0 * w := by
    refine (norm_le_of_coord _ o2).trans ?_
    have h1 : 1 + norm2 P.x0 ≤ (1 + M) ^ 2 := by linarith only [hn, sq_nonneg M, hM]
    have h2 := mul_le_mul_of_nonneg_left h1 (mul_nonneg hK hw)
    have h3 := mul_le_mul_of_nonneg_right (show d * (K * (1 + M) ^ 2) ≤ K0 by linarith only [hb.K0_ge, hKM]) hw
    have h4 := mul_le_mul_of_nonneg_left h2 hd0
    linarith
  have hg0n : norm2 g0 ≤ M := by
    rw [← toLp_norm]
    have h1 := norm_add_le ((WithLp.toLp 2 g0 : ℓ²) - g X) (g X)
    rw [sub_add_cancel] at h1
    linarith
  -- the gradient is large
  have hbig : 8 * Λ * Q * w ≤ ‖g X‖ ^ 2 := by
    obtain ⟨c, hc⟩ : ∃ c, c = 8 * Λ * Q := ⟨_, rfl⟩
    have hc0 : 0 ≤ c := by rw [hc]; positivity
    have h1 : (c + 1) * √w ≤ ‖g X‖ := by
      refine le_trans ?_ hg
      rw [hc]
      apply mul_le_mul_of_nonneg_right _ (Real.sqrt_nonneg w)
      linarith
    have h2 := pow_le_pow_left₀ (by positivity) h1 2
    rw [mul_pow, Real.sq_sqrt hw] at h2
    rw [← hc]
    have h3 : c * w ≤ (c + 1) ^ 2 * w := mul_le_mul_of_nonneg_right (by linarith only [sq_nonneg c, hc0]) hw
    linarith only [h2, h3]
  have hdesc : ∀ i L0, 0 < L0 → L ≤ L0 → L0 ≤ Λ → (P.init i (flStep rd P.x0 g0 (rd (1 / L0)))).1 ≤ f0 := by
    intro i L0 hL00 hLL hLΛ
    have h1 := rel_bounds hr hu (show 0 ≤ 1 / L0 by positivity)
    obtain ⟨t, ht⟩ : ∃ t, t = rd (1 / L0) := ⟨_, rfl⟩
    rw [← ht] at h1 ⊢
    have hinv : 1 / L0 ≤ 1 / L := one_div_le_one_div_of_le hL hLL
    have hinv' : 1 / Λ ≤ 1 / L0 := one_div_le_one_div_of_le hL00 hLΛ
    have hip : 0 < 1 / L0 := by positivity
    have hΛp : 0 < 1 / Λ := by positivity
    have hwi := mul_le_mul_of_nonneg_right hw1 hip.le
    have ht0 : 1 / Λ / 2 ≤ t := by linarith [h1.1]
    have htp : 0 < t := by linarith
    have htT : t ≤ T := by
      rw [hT, show 2 / L = 2 * (1 / L) by ring]
      linarith [h1.2]
    have htL : t * L ≤ 3 / 2 := by
      have h2 : t ≤ 3 / 2 * (1 / L) := by linarith [h1.2, hinv]
      have h3 := mul_le_mul_of_nonneg_right h2 hL.le
      rwa [mul_assoc, one_div_mul_cancel hL.ne', mul_one] at h3
    obtain ⟨x', hx'⟩ : ∃ x', x' = flStep rd P.x0 g0 t := ⟨_, rfl⟩
    have h2 := flStep_error hr hu (by linarith) htp htT hn hg0n
    rw [← hx', ← hXe] at h2
    rw [← hx']
    obtain ⟨Y, hY⟩ : ∃ Y : ℓ², Y = WithLp.toLp 2 x' := ⟨_, rfl⟩
    rw [← hY] at h2
    have h3 : ‖Y - (X - t • g X)‖ ≤ E3 * w := by
      have a1 := norm_sub_le_norm_sub_add_norm_sub Y (X - t • WithLp.toLp 2 g0) (X - t • g X)
      rw [show X - t • WithLp.toLp 2 g0 - (X - t • g X) = -(t • (WithLp.toLp 2 g0 - g X)) by module, norm_neg, norm_smul, Real.norm_eq_abs, abs_of_pos htp] at a1
      have a2 := mul_le_mul htT hG0 (norm_nonneg _) hT0.le
      rw [hE3]
      linarith
    have h4 : ‖Y - xs‖ ≤ A2' := by
      have a1 := norm_sub_le_norm_sub_add_norm_sub Y (X - t • g X) xs
      have a2 : ‖X - t • g X - xs‖ ≤ ‖X - xs‖ + t * ‖g X‖ := by
        rw [show X - t • g X - xs = (X - xs) - t • g X by abel]
        refine (norm_sub_le _ _).trans ?_
        rw [norm_smul, Real.norm_eq_abs, abs_of_pos htp]
      have a3 := mul_le_mul htT (show ‖g X‖ ≤ M by linarith) (norm_nonneg _) hT0.le
      linarith
    obtain ⟨y1, y2, y3⟩ := hb3.M_ball Y h4
    have hyn : norm2 x' ≤ M3 := by rw [← toLp_norm, ← hY]; exact y1
    have hyn0 := norm2_nonneg' x'
    obtain ⟨q1, -⟩ := hO.init i x'
    rw [← hY] at q1
    have hv1 : |(P.init i x').1 - f Y| ≤ K * (1 + M3) ^ 2 * w := by
      refine q1.trans ?_
      have h1 : (1 + norm2 x') ^ 2 ≤ (1 + M3) ^ 2 := pow_le_pow_left₀ (by linarith) (by linarith) 2
      have h2 := mul_le_mul_of_nonneg_left h1 (mul_nonneg hK hw)
      linarith
    have hY1 : f Y ≤ f (X - t • g X) + M3 * (E3 * w) := by
      have c1 := hpb.strong.convex hmu.le Y (X - t • g X)
      have c2 := (abs_real_inner_le_norm (g Y) (X - t • g X - Y)).trans (mul_le_mul (show ‖g Y‖ ≤ M3 by linarith) (show ‖X - t • g X - Y‖ ≤ E3 * w by rw [norm_sub_rev]; exact h3) (norm_nonneg _) (by linarith))
      linarith [neg_abs_le ⟪g Y, X - t • g X - Y⟫_ℝ]
    have hdec : f (X - t • g X) ≤ f X - Q * w := by
      have c1 := hpb.quad X (X - t • g X)
      rw [show X - t • g X - X = -(t • g X) by abel, inner_neg_right, real_inner_smul_right, real_inner_self_eq_norm_sq, norm_neg, norm_smul, Real.norm_eq_abs, abs_of_pos htp, mul_pow] at c1
      have hgg : 0 ≤ ‖g X‖ ^ 2 := by positivity
      have c2 : L / 2 * (t ^ 2 * ‖g X‖ ^ 2) ≤ 3 / 4 * (t * ‖g X‖ ^ 2) := by
        have := mul_le_mul_of_nonneg_right htL (show 0 ≤ t * ‖g X‖ ^ 2 by positivity)
        linarith
      have c3 := mul_le_mul_of_nonneg_right ht0 hgg
      have c4 : 8 * (Q * w) ≤ 1 / Λ * ‖g X‖ ^ 2 := by
        have := mul_le_mul_of_nonneg_left hbig hΛp.le
        have e : 1 / Λ * (8 * Λ * Q * w) = 8 * (Q * w) := by field_simp
        linarith
      linarith
    have e : Q * w = M3 * (E3 * w) + K * (1 + M3) ^ 2 * w + K * (1 + M) ^ 2 * w := by rw [hQ]; ring
    linarith [(abs_le.mp hv1).2, (abs_le.mp hv0).1]
  have h001 := rel_bounds hr hu (show (0 : ℝ) ≤ 1 / 1000 by norm_num)
  have hl0 : 999 / 10 ^ 6 ≤ rd (1 / 1000) := by norm_num at h001 ⊢; linarith [h001.1]
  have hl1 : rd (1 / 1000) ≤ Λ := by rw [hΛ]; norm_num at h001 ⊢; linarith [h001.2]
  have hl2 : 0 < rd (1 / 1000) := lt_of_lt_of_le (by norm_num) hl0
  have hlip := flInitLoop_bounds hr hu hw1 (show 11 * L ≤ Λ by rw [hΛ]; linarith) hdesc 100 2 (rd (1 / 1000)) (P.init 1 (flStep rd P.x0 g0 (rd (1 / rd (1 / 1000))))).1 hl2 hl1
    fun h => hdesc 1 _ hl2 h hl1
  have e : flInitLoop rd P f0 g0 100 2 (rd (1 / 1000)) (P.init 1 (flStep rd P.x0 g0 (rd (1 / rd (1 / 1000))))).1 = flInitLipschitz rd P := by rw [hf0, hg0]; rfl
  rw [e] at hlip
  obtain ⟨l, hl⟩ : ∃ l, l = flInitLipschitz rd P := ⟨_, rfl⟩
  rw [← hl] at hlip
  have hlp : 0 < l := hl2.trans_le hlip.1
  have h18 := rel_bounds hr hu (show (0 : ℝ) ≤ 18 / 10 by norm_num)
  have h18a : 179 / 100 ≤ rd (18 / 10) := by linarith [h18.1]
  have h18b : rd (18 / 10) ≤ 1801 / 1000 := by linarith [h18.2]
  have hq0 : 0 ≤ rd (18 / 10) / l := div_nonneg (by linarith) hlp.le
  have hq := rel_bounds hr hu hq0
  unfold flInitStep
  rw [← hl, ← hΛ]
  have hwq := mul_le_mul_of_nonneg_right hw1 hq0
  constructor
  · have h1 : 179 / 100 * (1 / Λ) ≤ rd (18 / 10) / l := by
      rw [mul_one_div]
      exact div_le_div₀ (by linarith) h18a hlp hlip.2
    have : 0 < 1 / Λ := by positivity
    linarith [hq.1]
  · have h1 : rd (18 / 10) / l ≤ 1803 := by
      rw [div_le_iff₀ hlp]
      linarith [hlip.1]
    linarith [hq.2]

end

end Copt
