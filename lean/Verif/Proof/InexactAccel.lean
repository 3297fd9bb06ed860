import Verif.Props.Accelerated
import Verif.Props.FloatConvex

/-!
# The accelerated proximal gradient method with errors in the momentum parameter and in the extrapolated points
-/

set_option linter.unusedSectionVars false

namespace Copt

open Spec

open scoped InnerProductSpace

/-! ### The momentum parameter -/

theorem tNext_le {t : ℝ} (ht : 0 ≤ t) : tNext t ≤ t + 1 := by
  unfold tNext
  have : Real.sqrt (1 + 4 * t * t) ≤ 1 + 2 * t := Real.sqrt_le_iff.mpr ⟨by linarith, by nlinarith⟩
  linarith

/-- A parameter with a small relative error nearly satisfies the equation of the exact one. -/
theorem tNext_perturbed {t t' w : ℝ} (ht : 1 ≤ t) (hw : 0 ≤ w) (hw1 : 18 * w ≤ 1) (h : |t' - tNext t| ≤ 18 * w * tNext t) (hb : 1 ≤ t') : t' ^ 2 - t' ≤ (1 + 288 * w) * t ^ 2 := by
  have h1 := tNext_sq t
  have h2 := tNext_le (show 0 ≤ t by linarith)
  have h3 := tNext_ge (show 0 ≤ t by linarith)
  obtain ⟨T, hT⟩ : ∃ T, T = tNext t := ⟨_, rfl⟩
  rw [← hT] at h1 h2 h3 h
  have h4 : t' ≤ T + 18 * w * T := by linarith [(abs_le.mp h).2]
  have h5 : t' ^ 2 - t' ≤ (T + 18 * w * T) ^ 2 - (T + 18 * w * T) := by nlinarith
  have hT1 : 0 ≤ T := by linarith
  have hwT : 0 ≤ w * T := by positivity
  have h6 : (T + 18 * w * T) ^ 2 - (T + 18 * w * T) ≤ T ^ 2 - T + 54 * w * T ^ 2 := by
    have : 18 * w * (18 * w * T ^ 2) ≤ 1 * (18 * w * T ^ 2) := mul_le_mul_of_nonneg_right hw1 (by positivity)
    nlinarith
  have h7 : T ^ 2 ≤ 4 * t ^ 2 := by nlinarith
  have h8 : w * T ^ 2 ≤ w * (4 * t ^ 2) := mul_le_mul_of_nonneg_left h7 hw
  have h9 : 0 ≤ w * t ^ 2 := by positivity
  linarith

/-- Growth of the parameter. -/
theorem tNext_growth {t t' w : ℝ} {k : ℕ} (hw : 0 ≤ w) (hk : 108 * (k + 1) * w ≤ 1) (ht : 1 ≤ t) (h : |t' - tNext t| ≤ 18 * w * tNext t)
    (hl : (k + 2 : ℝ) / 2 * (1 - 18 * k * w) ≤ t) (hu : t ≤ (k + 1) * (1 + 36 * k * w)) :
    ((k + 1 : ℕ) + 2 : ℝ) / 2 * (1 - 18 * (k + 1 : ℕ) * w) ≤ t' ∧ t' ≤ ((k + 1 : ℕ) + 1) * (1 + 36 * (k + 1 : ℕ) * w) ∧ 1 ≤ t' ∧ t - 1 ≤ t' := by
  have hk0 : (0 : ℝ) ≤ k := Nat.cast_nonneg k
  have hkw : 0 ≤ k * w := by positivity
  have h2 := tNext_le (show 0 ≤ t by linarith)
  have h3 := tNext_ge (show 0 ≤ t by linarith)
  obtain ⟨T, hT⟩ : ∃ T, T = tNext t := ⟨_, rfl⟩
  rw [← hT] at h2 h3 h
  have h4 : t' ≤ T * (1 + 18 * w) := by linarith [(abs_le.mp h).2]
  have h5 : T * (1 - 18 * w) ≤ t' := by linarith [(abs_le.mp h).1]
  have hw18 : 108 * w ≤ 1 := by linarith
  have h6 : (t + 1 / 2) * (1 - 18 * w) ≤ t' := (mul_le_mul_of_nonneg_right h3 (by linarith)).trans h5
  have htw : t * w ≤ (k + 1) * (1 + 36 * k * w) * w := mul_le_mul_of_nonneg_right hu hw
  have htw2 : (k + 1) * w * (1 + 36 * k * w) ≤ (k + 1) * w * 2 := mul_le_mul_of_nonneg_left (by linarith) (by positivity)
  push_cast
  refine ⟨?_, ?_, ?_, ?_⟩
  · have a1 : ((k + 2 : ℝ) / 2 * (1 - 18 * k * w) + 1 / 2) * (1 - 18 * w) ≤ t' := (mul_le_mul_of_nonneg_right (by linarith) (by linarith)).trans h6
    have a2 : ((k : ℝ) + 1 + 2) / 2 * (1 - 18 * k * w) * (1 - 18 * w) ≤ ((k + 2 : ℝ) / 2 * (1 - 18 * k * w) + 1 / 2) * (1 - 18 * w) :=
      mul_le_mul_of_nonneg_right (by linarith) (by linarith)
    have a3 : ((k : ℝ) + 1 + 2) / 2 * (1 - 18 * (k + 1) * w) ≤ ((k : ℝ) + 1 + 2) / 2 * ((1 - 18 * k * w) * (1 - 18 * w)) := by
      refine mul_le_mul_of_nonneg_left ?_ (by positivity)
      have : 0 ≤ k * w * w := by positivity
      linarith
    linarith
  · have a1 : T * (1 + 18 * w) ≤ ((k + 1) * (1 + 36 * k * w) + 1) * (1 + 18 * w) := mul_le_mul_of_nonneg_right (by linarith) (by linarith)
    have a2 : ((k + 1) * (1 + 36 * k * w) + 1) * (1 + 18 * w) ≤ ((k : ℝ) + 1 + 1) * (1 + 36 * k * w) * (1 + 18 * w) := mul_le_mul_of_nonneg_right (by linarith) (by linarith)
    have a3 : ((k : ℝ) + 1 + 1) * ((1 + 36 * k * w) * (1 + 18 * w)) ≤ ((k : ℝ) + 1 + 1) * (1 + 36 * (k + 1) * w) := by
      refine mul_le_mul_of_nonneg_left ?_ (by positivity)
      have : 36 * (k * w) * w ≤ 1 * w := mul_le_mul_of_nonneg_right (by linarith) hw
      linarith
    linarith
  · have : (1 + 1 / 2) * (1 - 18 * w) ≤ (t + 1 / 2) * (1 - 18 * w) := mul_le_mul_of_nonneg_right (by linarith) (by linarith)
    linarith
  · linarith

theorem potential_algebra {a b q ε w : ℝ} (hw : 0 ≤ w) (ha : 0 ≤ a) (hb : 0 ≤ b) (hq : 0 ≤ q) (hε : 0 ≤ ε) (hbq : b ≤ q) (h : a + b ^ 2 ≤ q ^ 2) :
    (1 + 288 * w) * a + (b + ε) ^ 2 ≤ (q * (1 + 288 * w) + ε) ^ 2 := by
  obtain ⟨c, hc⟩ : ∃ c, c = 1 + 288 * w := ⟨_, rfl⟩
  have hc1 : 1 ≤ c := by rw [hc]; linarith
  rw [← hc]
  have hcc : c ≤ c ^ 2 := by nlinarith
  have g1 : c * a ≤ c ^ 2 * a := mul_le_mul_of_nonneg_right hcc ha
  have g2 : 1 * b ^ 2 ≤ c ^ 2 * b ^ 2 := mul_le_mul_of_nonneg_right (by linarith) (sq_nonneg b)
  have g5 : q * 1 ≤ q * c := mul_le_mul_of_nonneg_left hc1 hq
  have g3 : b * ε ≤ q * c * ε := mul_le_mul_of_nonneg_right (by linarith) hε
  have g4 := mul_le_mul_of_nonneg_left h (sq_nonneg c)
  linarith

theorem potential_growth {D A Q q ε w k : ℝ} (hw : 0 ≤ w) (hk : 0 ≤ k) (hA : 0 ≤ A) (hD : 0 ≤ D) (hQ : Q = 288 * (D + 1) + 6 * A) (hq : q = D + Q * k ^ 2 * w) (hqD : q ≤ D + 1)
    (hε : ε ≤ 6 * (k + 1) * (A * w)) : q * (1 + 288 * w) + ε ≤ D + Q * (k + 1) ^ 2 * w := by
  have g1 : q * w ≤ (D + 1) * w := mul_le_mul_of_nonneg_right hqD hw
  have g4 : 0 ≤ k * (A * w) := by positivity
  have g5 : 0 ≤ k * ((D + 1) * w) := by positivity
  have e : q * (1 + 288 * w) = D + Q * k ^ 2 * w + 288 * (q * w) := by rw [hq]; ring
  rw [e]
  have e2 : Q * (k + 1) ^ 2 * w = Q * k ^ 2 * w + (288 * (D + 1) + 6 * A) * (2 * k + 1) * w := by rw [← hQ]; ring
  rw [e2]
  linarith

/-! ### The iteration -/

section Iteration

variable {E : Type} [NormedAddCommGroup E] [InnerProductSpace ℝ E]
variable {f : E → ℝ} {g : E → E} {G : ExtFun E} {prox : E → ℝ → E} {L : ℝ} {step : ℕ → ℝ}

/-- State of the induction: size of the parameter and of the points, and the potential. -/
structure AccInv (f : E → ℝ) (G : ExtFun E) (xs : E) (D Q w : ℝ) (step : ℕ → ℝ) (Z Y : ℕ → E) (T : ℕ → ℝ) (k : ℕ) : Prop where
  t_ge : (k + 2 : ℝ) / 2 * (1 - 18 * k * w) ≤ T k
  t_le : T k ≤ (k + 1) * (1 + 36 * k * w)
  one_le : 1 ≤ T k
  dom : Z k ∈ G.dom ∨ T k = 1
  z_near : ‖Z k - xs‖ ≤ D + 1
  y_near : ‖Y k - xs‖ ≤ 4 * (D + 1)
  pot : 2 * step k * (T k ^ 2 - T k) * ((f (Z k) + G.val (Z k)) - (f xs + G.val xs)) + ‖T k • Y k - (T k - 1) • Z k - xs‖ ^ 2 ≤ (D + Q * k ^ 2 * w) ^ 2

/-- One step without the errors of the next extrapolation. -/
theorem AccInv.advance {xs : E} {D Q w : ℝ} {Z Y : ℕ → E} {T : ℕ → ℝ} {k : ℕ} (h : AccInv f G xs D Q w step Z Y T k) (hG : G.IsConvex) (hp : IsProxOf G prox) (hf : ConvexGrad f g)
    (hq : UpperQuad f g L) (hs : 0 < step k) (hsL : step k * L ≤ 1) (hxs : xs ∈ G.dom) (hZ : Z (k + 1) = prox (Y k - step k • g (Y k)) (step k)) :
    Z (k + 1) ∈ G.dom ∧ 2 * step k * T k ^ 2 * ((f (Z (k + 1)) + G.val (Z (k + 1))) - (f xs + G.val xs)) + ‖T k • Z (k + 1) - (T k - 1) • Z k - xs‖ ^ 2 ≤ (D + Q * k ^ 2 * w) ^ 2 := by
  have hpp : IsProxPt G (step k) (Y k - step k • g (Y k)) (Z (k + 1)) := hZ ▸ hp _ _ hs
  refine ⟨hpp.1, (fista_step hG hf hs h.one_le hpp ?_ h.dom hxs).trans h.pot⟩
  have h1 := hq (Y k) (Z (k + 1))
  have h2 : L / 2 * ‖Z (k + 1) - Y k‖ ^ 2 ≤ ‖Z (k + 1) - Y k‖ ^ 2 / (2 * step k) := by
    rw [le_div_iff₀ (by linarith)]
    have := mul_le_mul_of_nonneg_right hsL (sq_nonneg ‖Z (k + 1) - Y k‖)
    linarith
  linarith

set_option maxHeartbeats 800000 in
/-- The invariant holds while the accumulated errors are below 1. -/
theorem accInv {xs : E} (hG : G.IsConvex) (hp : IsProxOf G prox) (hf : ConvexGrad f g) (hq : UpperQuad f g L) (hst : ∀ k, 0 < step k ∧ step k * L ≤ 1) (hanti : Antitone step)
    (hxs : xs ∈ G.dom) (hmin : ∀ y ∈ G.dom, f xs + G.val xs ≤ f y + G.val y) {Z Y : ℕ → E} {T : ℕ → ℝ} {D A Q w : ℝ} (hw : 0 ≤ w) (hA : 0 ≤ A) (hD : ‖Z 0 - xs‖ ≤ D)
    (hQ : Q = 288 * (D + 1) + 6 * A) (hT0 : T 0 = 1) (hY0 : Y 0 = Z 0) (hZ : ∀ k, Z (k + 1) = prox (Y k - step k • g (Y k)) (step k))
    (hT : ∀ k, 1 ≤ T k → |T (k + 1) - tNext (T k)| ≤ 18 * w * tNext (T k))
    {N : ℕ} (hN : (108 + Q) * (N + 1) ^ 2 * w ≤ 1)
    (hY : ∀ k < N, (∀ i ≤ k, ‖Y i - xs‖ ≤ 4 * (D + 1) ∧ ‖Z i - xs‖ ≤ D + 1) → ‖Z (k + 1) - xs‖ ≤ D + 1 → 1 ≤ T k → 1 ≤ T (k + 1) → T k - 1 ≤ T (k + 1) →
      ‖Y (k + 1) - (Z (k + 1) + ((T k - 1) / T (k + 1)) • (Z (k + 1) - Z k))‖ ≤ A * w) :
    ∀ k ≤ N, AccInv f G xs D Q w step Z Y T k := by
  have hD0 : 0 ≤ D := (norm_nonneg _).trans hD
  have hQ0 : 0 ≤ Q := by rw [hQ]; positivity
  intro k
  induction k using Nat.strong_induction_on with
  | _ k ih =>
  intro hkN
  rcases k with _ | k
  · refine ⟨by simp [hT0], by simp [hT0], hT0.ge, .inr hT0, by linarith, by rw [hY0]; linarith, ?_⟩
    rw [hT0, hY0]
    simp only [one_pow, sub_self, mul_zero, zero_mul, zero_smul, sub_zero, one_smul, zero_add, Nat.cast_zero, ne_eq, OfNat.ofNat_ne_zero, not_false_eq_true, zero_pow, add_zero]
    exact pow_le_pow_left₀ (norm_nonneg _) hD 2
  · have hi := ih k (by omega) (by omega)
    have hk0 : (0 : ℝ) ≤ k := Nat.cast_nonneg k
    have hkN' : (k : ℝ) + 1 ≤ N := by exact_mod_cast hkN
    obtain ⟨hd, hpot⟩ := hi.advance hG hp hf hq (hst k).1 (hst k).2 hxs (hZ k)
    -- the precision
    have w1 : (108 + Q) * (k + 1) ^ 2 * w ≤ 1 := by
      refine le_trans (mul_le_mul_of_nonneg_right (mul_le_mul_of_nonneg_left ?_ (by linarith)) hw) hN
      exact pow_le_pow_left₀ (by linarith) (by linarith) 2
    have w2 : 0 ≤ Q * (k + 1) ^ 2 * w := by positivity
    have w3 : 0 ≤ (k + 1) ^ 2 * w := by positivity
    have w4 : 0 ≤ k * (k + 1) * w := by positivity
    have w5 : 108 * (k + 1) * w ≤ 1 := by linarith
    have w6 : 0 ≤ k * w := by positivity
    have w7 : Q * (k + 1) ^ 2 * w ≤ 1 := by linarith
    have w8 : Q * k ^ 2 * w ≤ Q * (k + 1) ^ 2 * w := mul_le_mul_of_nonneg_right (mul_le_mul_of_nonneg_left (by nlinarith) hQ0) hw
    have w9 : 0 ≤ Q * k ^ 2 * w := by positivity
    have w10 : 108 * w ≤ 1 := by linarith
    have w11 : Q * w ≤ Q * (k + 1) ^ 2 * w := by
      have : Q * 1 * w ≤ Q * (k + 1) ^ 2 * w := mul_le_mul_of_nonneg_right (mul_le_mul_of_nonneg_left (by nlinarith) hQ0) hw
      linarith
    have wA : 6 * A * w ≤ 1 := by
      have : 6 * A * w ≤ Q * w := mul_le_mul_of_nonneg_right (by rw [hQ]; linarith) hw
      linarith
    have wA0 : 0 ≤ A * w := by positivity
    obtain ⟨t1, t2, t3, t4⟩ := tNext_growth hw w5 hi.one_le (hT k hi.one_le) hi.t_ge hi.t_le
    have ht' := tNext_perturbed hi.one_le hw (by linarith) (hT k hi.one_le) t3
    obtain ⟨v, hv⟩ : ∃ v, v = (f (Z (k + 1)) + G.val (Z (k + 1))) - (f xs + G.val xs) := ⟨_, rfl⟩
    have hv0 : 0 ≤ v := by rw [hv]; linarith [hmin _ hd]
    obtain ⟨q, hqd⟩ : ∃ q, q = D + Q * k ^ 2 * w := ⟨_, rfl⟩
    have hq0 : 0 ≤ q := by rw [hqd]; linarith
    have hqH : q ≤ D + 1 := by rw [hqd]; linarith
    obtain ⟨b, hb⟩ : ∃ b, b = ‖T k • Z (k + 1) - (T k - 1) • Z k - xs‖ := ⟨_, rfl⟩
    have hb0 : 0 ≤ b := by rw [hb]; exact norm_nonneg _
    rw [← hv, ← hb, ← hqd] at hpot
    have hs := (hst k).1
    have ha0 : 0 ≤ 2 * step k * T k ^ 2 * v := by positivity
    have hbq : b ≤ q := abs_le_of_sq_le_sq' (by linarith) hq0 |>.2
    -- the next point
    have hz : ‖Z (k + 1) - xs‖ ≤ D + 1 := by
      have e : T k • (Z (k + 1) - xs) = (T k • Z (k + 1) - (T k - 1) • Z k - xs) + (T k - 1) • (Z k - xs) := by module
      have h1 := norm_add_le (T k • Z (k + 1) - (T k - 1) • Z k - xs) ((T k - 1) • (Z k - xs))
      rw [← e, norm_smul, norm_smul, Real.norm_eq_abs, Real.norm_eq_abs, abs_of_nonneg (by linarith [hi.one_le]), abs_of_nonneg (by linarith [hi.one_le]), ← hb] at h1
      have h2 := mul_le_mul_of_nonneg_left hi.z_near (show 0 ≤ T k - 1 by linarith [hi.one_le])
      have h3 : T k * ‖Z (k + 1) - xs‖ ≤ T k * (D + 1) := by linarith
      exact le_of_mul_le_mul_left h3 (by linarith [hi.one_le])
    have hy := hY k (by omega) (fun i hik => ⟨(ih i (by omega) (by omega)).y_near, (ih i (by omega) (by omega)).z_near⟩) hz hi.one_le t3 t4
    obtain ⟨β, hβ⟩ : ∃ β, β = (T k - 1) / T (k + 1) := ⟨_, rfl⟩
    have hT'0 : 0 < T (k + 1) := by linarith
    have hβ0 : 0 ≤ β := by rw [hβ]; exact div_nonneg (by linarith [hi.one_le]) hT'0.le
    have hβ1 : β ≤ 1 := by rw [hβ, div_le_one hT'0]; exact t4
    rw [← hβ] at hy
    obtain ⟨p, hpd⟩ : ∃ p, p = Y (k + 1) - (Z (k + 1) + β • (Z (k + 1) - Z k)) := ⟨_, rfl⟩
    rw [← hpd] at hy
    refine ⟨t1, t2, t3, .inl hd, hz, ?_, ?_⟩
    · have e : Y (k + 1) - xs = p + (Z (k + 1) - xs) + (β • (Z (k + 1) - xs) - β • (Z k - xs)) := by rw [hpd]; module
      rw [e]
      have h1 := norm_add_le (p + (Z (k + 1) - xs)) (β • (Z (k + 1) - xs) - β • (Z k - xs))
      have h2 := norm_add_le p (Z (k + 1) - xs)
      have h3 := norm_sub_le (β • (Z (k + 1) - xs)) (β • (Z k - xs))
      rw [norm_smul, norm_smul, Real.norm_eq_abs, abs_of_nonneg hβ0] at h3
      have h4 := mul_le_mul hβ1 hz (norm_nonneg _) zero_le_one
      have h5 := mul_le_mul hβ1 hi.z_near (norm_nonneg _) zero_le_one
      linarith
    · rw [← hv]
      have e : T (k + 1) • Y (k + 1) - (T (k + 1) - 1) • Z (k + 1) - xs = (T k • Z (k + 1) - (T k - 1) • Z k - xs) + T (k + 1) • p := by
        have : T (k + 1) * β = T k - 1 := by rw [hβ]; field_simp
        have e2 : T (k + 1) • p = T (k + 1) • Y (k + 1) - T (k + 1) • Z (k + 1) - (T (k + 1) * β) • (Z (k + 1) - Z k) := by rw [hpd]; module
        rw [e2, this]; module
      obtain ⟨ε, hε⟩ : ∃ ε, ε = T (k + 1) * (A * w) := ⟨_, rfl⟩
      have hε0 : 0 ≤ ε := by rw [hε]; positivity
      have h1 : ‖T (k + 1) • Y (k + 1) - (T (k + 1) - 1) • Z (k + 1) - xs‖ ≤ b + ε := by
        rw [e]
        refine (norm_add_le _ _).trans ?_
        rw [← hb, norm_smul, Real.norm_eq_abs, abs_of_pos hT'0, hε]
        have := mul_le_mul_of_nonneg_left hy hT'0.le
        linarith
      have h2 : 2 * step (k + 1) * (T (k + 1) ^ 2 - T (k + 1)) * v ≤ (1 + 288 * w) * (2 * step k * T k ^ 2 * v) := by
        have g1 : 2 * step (k + 1) * (T (k + 1) ^ 2 - T (k + 1)) ≤ 2 * step k * ((1 + 288 * w) * T k ^ 2) := by
          have := hanti (Nat.le_succ k)
          have g2 : 0 ≤ T (k + 1) ^ 2 - T (k + 1) := by
            have := mul_le_mul_of_nonneg_right t3 hT'0.le
            rw [sq]; linarith only [this]
          exact mul_le_mul (by linarith only [this]) ht' g2 (by linarith only [hs])
        have := mul_le_mul_of_nonneg_right g1 hv0
        linarith only [this]
      have h3 : ‖T (k + 1) • Y (k + 1) - (T (k + 1) - 1) • Z (k + 1) - xs‖ ^ 2 ≤ (b + ε) ^ 2 := pow_le_pow_left₀ (norm_nonneg _) h1 2
      obtain ⟨a, ha⟩ : ∃ a, a = 2 * step k * T k ^ 2 * v := ⟨_, rfl⟩
      rw [← ha] at h2 hpot ha0
      have h4 := potential_algebra hw ha0 hb0 hq0 hε0 hbq hpot
      have h5 : q * (1 + 288 * w) + ε ≤ D + Q * (k + 1 : ℕ) ^ 2 * w := by
        have g2 : T (k + 1) ≤ 6 * (k + 1) := by
          push_cast at t2
          have : (k + 1 + 1) * (1 + 36 * (k + 1) * w) ≤ (k + 1 + 1 : ℝ) * 3 := mul_le_mul_of_nonneg_left (by linarith) (by linarith)
          linarith
        have g3 : ε ≤ 6 * (k + 1) * (A * w) := by rw [hε]; exact mul_le_mul_of_nonneg_right g2 wA0
        push_cast
        exact potential_growth hw hk0 hA hD0 hQ hqd hqH g3
      have h6 := pow_le_pow_left₀ (by positivity) h5 2
      linarith

/-- What the invariant says about the next point. -/
theorem AccInv.bounds {xs : E} {D Q w : ℝ} {Z Y : ℕ → E} {T : ℕ → ℝ} {k : ℕ} (h : AccInv f G xs D Q w step Z Y T k) (hG : G.IsConvex) (hp : IsProxOf G prox) (hf : ConvexGrad f g)
    (hL : 0 < L) (hq : UpperQuad f g L) (hs : 0 < step k) (hsL : step k * L ≤ 1) (hxs : xs ∈ G.dom) (hmin : ∀ y ∈ G.dom, f xs + G.val xs ≤ f y + G.val y)
    (hZ : Z (k + 1) = prox (Y k - step k • g (Y k)) (step k)) (hD : 0 ≤ D) (hQ : 0 ≤ Q) (hw : 0 ≤ w) (hk : (108 + Q) * (k + 1) ^ 2 * w ≤ 1) :
    Z (k + 1) ∈ G.dom ∧
    (f (Z (k + 1)) + G.val (Z (k + 1))) - (f xs + G.val xs) ≤ 2 * (D + (Q + 36 * (D + 1)) * (k + 1) ^ 2 * w) ^ 2 / (step k * (k + 2) ^ 2) ∧
    ‖Z (k + 1) - Z k‖ ≤ 8 * (D + 1) / (k + 2) ∧ ‖Z (k + 1) - prox (Z (k + 1) - step k • g (Z (k + 1))) (step k)‖ ≤ 4 * (D + 1) / (k + 2) ∧ ‖Z (k + 1) - xs‖ ≤ D + 1 := by
  obtain ⟨hd, hpot⟩ := h.advance hG hp hf hq hs hsL hxs hZ
  have hk0 : (0 : ℝ) ≤ k := Nat.cast_nonneg k
  have w2 : 0 ≤ Q * (k + 1) ^ 2 * w := by positivity
  have w3 : 0 ≤ (k + 1) ^ 2 * w := by positivity
  have w4 : 0 ≤ k * (k + 1) * w := by positivity
  have w5 : 108 * (k + 1) * w ≤ 1 := by linarith
  have w6 : 0 ≤ k * w := by positivity
  have w8 : Q * k ^ 2 * w ≤ Q * (k + 1) ^ 2 * w := mul_le_mul_of_nonneg_right (mul_le_mul_of_nonneg_left (by nlinarith) hQ) hw
  have w9 : 0 ≤ Q * k ^ 2 * w := by positivity
  obtain ⟨v, hv⟩ : ∃ v, v = (f (Z (k + 1)) + G.val (Z (k + 1))) - (f xs + G.val xs) := ⟨_, rfl⟩
  have hv0 : 0 ≤ v := by rw [hv]; linarith [hmin _ hd]
  obtain ⟨q, hqd⟩ : ∃ q, q = D + Q * k ^ 2 * w := ⟨_, rfl⟩
  have hq0 : 0 ≤ q := by rw [hqd]; linarith
  have hqH : q ≤ D + 1 := by rw [hqd]; linarith
  obtain ⟨b, hb⟩ : ∃ b, b = ‖T k • Z (k + 1) - (T k - 1) • Z k - xs‖ := ⟨_, rfl⟩
  have hb0 : 0 ≤ b := by rw [hb]; exact norm_nonneg _
  rw [← hv, ← hb, ← hqd] at hpot
  have ha0 : 0 ≤ 2 * step k * T k ^ 2 * v := by positivity
  have hbq : b ≤ q := abs_le_of_sq_le_sq' (by linarith) hq0 |>.2
  have ht1 := h.one_le
  have hT4 : (k + 2 : ℝ) / 4 ≤ T k := by
    have : (k + 2 : ℝ) / 2 * (1 / 2) ≤ (k + 2 : ℝ) / 2 * (1 - 18 * k * w) := mul_le_mul_of_nonneg_left (by linarith) (by positivity)
    linarith [h.t_ge]
  have hk2 : (0 : ℝ) < k + 2 := by positivity
  refine ⟨hd, ?_, ?_, ?_, ?_⟩
  · rw [← hv, le_div_iff₀ (by positivity)]
    obtain ⟨θ, hθ⟩ : ∃ θ, θ = 1 - 18 * k * w := ⟨_, rfl⟩
    have hθ1 : 1 / 2 ≤ θ := by rw [hθ]; linarith
    have h1 : ((k + 2 : ℝ) / 2 * θ) ^ 2 ≤ T k ^ 2 := pow_le_pow_left₀ (by positivity) (hθ ▸ h.t_ge) 2
    have h2 := mul_le_mul_of_nonneg_left h1 (show 0 ≤ 2 * step k * v by positivity)
    have h3 : step k * v * (k + 2) ^ 2 * θ ^ 2 ≤ 2 * q ^ 2 := by nlinarith [sq_nonneg b]
    have h4 : q ≤ (D + (Q + 36 * (D + 1)) * (k + 1) ^ 2 * w) * θ := by
      have g1 : 0 ≤ (D + 1) * w := by positivity
      have g2 : 0 ≤ k * ((D + 1) * w) := by positivity
      have g3 : q * (1 + 36 * k * w) ≤ D + (Q + 36 * (D + 1)) * (k + 1) ^ 2 * w := by
        have g4 : q * (k * w) ≤ (D + 1) * (k * w) := mul_le_mul_of_nonneg_right hqH w6
        have g5 : 0 ≤ k * (k * ((D + 1) * w)) := by positivity
        rw [hqd] at *
        nlinarith
      have g6 : 1 ≤ (1 + 36 * k * w) * θ := by
        rw [hθ]
        have : 18 * (k * w) * (36 * (k * w)) ≤ 18 * (k * w) * 1 := mul_le_mul_of_nonneg_left (by linarith) (by positivity)
        linarith
      have g7 := mul_le_mul_of_nonneg_left g6 hq0
      have g8 := mul_le_mul_of_nonneg_right g3 (show 0 ≤ θ by linarith)
      linarith
    have h5 := pow_le_pow_left₀ hq0 h4 2
    have h6 : v * (step k * (k + 2) ^ 2) * θ ^ 2 ≤ 2 * (D + (Q + 36 * (D + 1)) * (k + 1) ^ 2 * w) ^ 2 * θ ^ 2 := by
      rw [mul_pow] at h5; linarith
    exact le_of_mul_le_mul_right h6 (by positivity)
  · rw [le_div_iff₀ hk2]
    have e : T k • (Z (k + 1) - Z k) = (T k • Z (k + 1) - (T k - 1) • Z k - xs) - (Z k - xs) := by module
    have h1 := norm_sub_le (T k • Z (k + 1) - (T k - 1) • Z k - xs) (Z k - xs)
    rw [← e, norm_smul, Real.norm_eq_abs, abs_of_nonneg (by linarith), ← hb] at h1
    have h2 := h.z_near
    have h3 := mul_le_mul_of_nonneg_right hT4 (norm_nonneg (Z (k + 1) - Z k))
    linarith
  · rw [le_div_iff₀ hk2]
    have h1 := exactPg_ineq hG hp hf hL hq hs hsL (Z (k + 1)) hd
    obtain ⟨p, hpd⟩ : ∃ p, p = prox (Z (k + 1) - step k • g (Z (k + 1))) (step k) := ⟨_, rfl⟩
    have h2 := hmin p (hpd ▸ (hp _ _ hs).1)
    rw [← hpd] at h1 ⊢
    obtain ⟨r, hr⟩ : ∃ r, r = ‖Z (k + 1) - p‖ := ⟨_, rfl⟩
    have hr0 : 0 ≤ r := by rw [hr]; exact norm_nonneg _
    rw [← hr] at h1 ⊢
    rw [sub_self, norm_zero] at h1
    have h3 : r ^ 2 ≤ 2 * step k * v := by
      have : 2 * step k * (f xs + G.val xs) ≤ 2 * step k * (f p + G.val p) := mul_le_mul_of_nonneg_left h2 (by linarith)
      rw [hv]; linarith
    have h4 := mul_le_mul_of_nonneg_left h3 (sq_nonneg (T k))
    have h5 : (T k * r) ^ 2 ≤ q ^ 2 := by nlinarith [sq_nonneg b]
    have h6 : T k * r ≤ q := abs_le_of_sq_le_sq' h5 hq0 |>.2
    have h7 := mul_le_mul_of_nonneg_right hT4 hr0
    linarith
  · have e : T k • (Z (k + 1) - xs) = (T k • Z (k + 1) - (T k - 1) • Z k - xs) + (T k - 1) • (Z k - xs) := by module
    have h1 := norm_add_le (T k • Z (k + 1) - (T k - 1) • Z k - xs) ((T k - 1) • (Z k - xs))
    rw [← e, norm_smul, norm_smul, Real.norm_eq_abs, Real.norm_eq_abs, abs_of_nonneg (by linarith), abs_of_nonneg (by linarith), ← hb] at h1
    have h2 := mul_le_mul_of_nonneg_left h.z_near (show 0 ≤ T k - 1 by linarith)
    have h3 : T k * ‖Z (k + 1) - xs‖ ≤ T k * (D + 1) := by linarith
    exact le_of_mul_le_mul_left h3 (by linarith)

end Iteration

end Copt
