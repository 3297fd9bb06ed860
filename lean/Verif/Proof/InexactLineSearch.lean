import Verif.Proof.InexactProxGrad

/-! # One iteration of the proximal gradient method with a line search whose test is evaluated inexactly -/

set_option linter.unusedSectionVars false

namespace Copt

open Spec

open scoped InnerProductSpace

variable {E : Type} [NormedAddCommGroup E] [InnerProductSpace ℝ E]

variable {f : E → ℝ} {g : E → E} {G : ExtFun E} {mu L : ℝ}

/-- The proximal inequality between a step and the minimiser. -/
theorem ls_firm (hq : UpperQuad f g L) (hG : G.IsConvex) {xs : E} (hd : xs ∈ G.dom) (hmin : ∀ y ∈ G.dom, f xs + G.val xs ≤ f y + G.val y) {s : ℝ} (hs : 0 < s) {x p : E}
    (hp : IsProxPt G s (x - s • g x) p) : s * ⟪g x - g xs, p - xs⟫_ℝ ≤ ⟪x - p, p - xs⟫_ℝ := by
  have h := hp.firm hG hs (minimiser_fixed hq hG hd hmin hs)
  have e : x - s • g x - (xs - s • g xs) = (x - p) + (p - xs) - s • (g x - g xs) := by module
  rw [e, inner_sub_left, inner_add_left, real_inner_self_eq_norm_sq, real_inner_smul_left] at h
  linarith

/-- A step which passes the test up to `eps`. -/
theorem ls_accept (hf : StrongGrad f g mu) (hq : UpperQuad f g L) (hG : G.IsConvex) {xs : E} (hd : xs ∈ G.dom) (hmin : ∀ y ∈ G.dom, f xs + G.val xs ≤ f y + G.val y) {s eps : ℝ} (hs : 0 < s)
    {x p : E} (hp : IsProxPt G s (x - s • g x) p) (hacc : f p ≤ f x + ⟪g x, p - x⟫_ℝ + ‖p - x‖ ^ 2 / (2 * s) + eps) :
    (1 + s * mu) * ‖p - xs‖ ^ 2 ≤ (1 - s * mu) * ‖x - xs‖ ^ 2 + 2 * s * eps := by
  have h1 := ls_firm hq hG hd hmin hs hp
  have h2 := hf x xs
  have h3 := hf xs p
  have e1 : ⟪g x - g xs, p - xs⟫_ℝ = ⟪g x, p - x⟫_ℝ - ⟪g x, xs - x⟫_ℝ - ⟪g xs, p - xs⟫_ℝ := by
    rw [inner_sub_left, ← inner_sub_right, sub_sub_sub_cancel_right]
  have e2 : ‖x - xs‖ ^ 2 = ‖x - p‖ ^ 2 + 2 * ⟪x - p, p - xs⟫_ℝ + ‖p - xs‖ ^ 2 := by
    rw [show x - xs = (x - p) + (p - xs) by abel, norm_add_sq_real]
  rw [norm_sub_rev xs x] at h2
  rw [norm_sub_rev p x] at hacc
  have h4 : s * (‖x - p‖ ^ 2 / (2 * s)) = ‖x - p‖ ^ 2 / 2 := by field_simp
  have h5 : s * (mu / 2 * ‖x - xs‖ ^ 2 + mu / 2 * ‖p - xs‖ ^ 2 - ‖x - p‖ ^ 2 / (2 * s) - eps) ≤ s * ⟪g x - g xs, p - xs⟫_ℝ :=
    mul_le_mul_of_nonneg_left (by rw [e1]; linarith) hs.le
  have h6 : s * (mu / 2 * ‖x - xs‖ ^ 2 + mu / 2 * ‖p - xs‖ ^ 2 - ‖x - p‖ ^ 2 / (2 * s) - eps) =
      s * mu / 2 * ‖x - xs‖ ^ 2 + s * mu / 2 * ‖p - xs‖ ^ 2 - s * (‖x - p‖ ^ 2 / (2 * s)) - s * eps := by ring
  rw [h6, h4] at h5
  linarith

/-- The distance to the minimiser is bounded by the displacement. -/
theorem ls_displacement (hmu : 0 < mu) (hL : 0 < L) (hf : StrongGrad f g mu) (hq : UpperQuad f g L) (hG : G.IsConvex) {xs : E} (hd : xs ∈ G.dom)
    (hmin : ∀ y ∈ G.dom, f xs + G.val xs ≤ f y + G.val y) {s : ℝ} (hs : 0 < s) {x p : E} (hp : IsProxPt G s (x - s • g x) p) : ‖x - xs‖ ≤ ((L + 2 / s) / mu + 1) * ‖x - p‖ := by
  have h1 := ls_firm hq hG hd hmin hs hp
  have h2 := hf.mono x xs
  have h3 := lip_of_cocoercive hL (hf.convex hmu.le) hq x xs
  have e1 : ⟪g x - g xs, x - xs⟫_ℝ = ⟪g x - g xs, x - p⟫_ℝ + ⟪g x - g xs, p - xs⟫_ℝ := by rw [← inner_add_right]; congr 1; abel
  have h4 := (real_inner_le_norm (g x - g xs) (x - p)).trans (mul_le_mul_of_nonneg_right h3 (norm_nonneg _))
  have h5 : ⟪g x - g xs, p - xs⟫_ℝ ≤ ‖x - p‖ * ‖p - xs‖ / s := by
    rw [le_div_iff₀ hs, mul_comm]; exact h1.trans (real_inner_le_norm _ _)
  have h6 : ‖p - xs‖ ≤ ‖x - p‖ + ‖x - xs‖ := by
    have := norm_sub_le (x - xs) (x - p)
    rw [show x - xs - (x - p) = p - xs by abel] at this
    linarith
  obtain ⟨a, ha⟩ : ∃ a, a = ‖x - xs‖ := ⟨_, rfl⟩
  obtain ⟨D, hD⟩ : ∃ D, D = ‖x - p‖ := ⟨_, rfl⟩
  have ha0 : 0 ≤ a := by rw [ha]; exact norm_nonneg _
  have hD0 : 0 ≤ D := by rw [hD]; exact norm_nonneg _
  rw [← ha] at h2 h4
  rw [← hD] at h4 h5
  rw [← ha, ← hD] at h6 ⊢
  have h7 : D * ‖p - xs‖ / s ≤ D * (D + a) / s := div_le_div_of_nonneg_right (mul_le_mul_of_nonneg_left h6 hD0) hs.le
  have h8 : mu * a ^ 2 ≤ L * a * D + D * (D + a) / s := by linarith
  by_contra hc
  push Not at hc
  have hk : 0 ≤ (L + 2 / s) / mu := by positivity
  have hDa : D ≤ a := by nlinarith
  have hapos : 0 < a := lt_of_le_of_lt (by positivity) hc
  have h9 : D * (D + a) / s ≤ 2 / s * a * D := by
    rw [div_le_iff₀ hs]
    have : 2 / s * a * D * s = 2 * a * D := by field_simp
    rw [this]; nlinarith
  have h10 : mu * a * a ≤ (L + 2 / s) * D * a := by nlinarith
  have h11 : mu * a ≤ (L + 2 / s) * D := le_of_mul_le_mul_right h10 hapos
  have h12 : a ≤ (L + 2 / s) / mu * D := by
    rw [div_mul_eq_mul_div, le_div_iff₀ hmu]; linarith
  nlinarith

/-- Displacements grow with the step size. -/
theorem ls_mono (hG : G.IsConvex) {s s' : ℝ} (hs : 0 < s) (hss : s ≤ s') {x h p p' : E} (hp : IsProxPt G s (x - s • h) p) (hp' : IsProxPt G s' (x - s' • h) p') : ‖x - p‖ ≤ ‖x - p'‖ := by
  have hs' : 0 < s' := hs.trans_le hss
  have h1 := (hp.subgrad hG hs).mono (hp'.subgrad hG hs')
  have e : s⁻¹ • (x - s • h - p) - s'⁻¹ • (x - s' • h - p') = s⁻¹ • (x - p) - s'⁻¹ • (x - p') := by
    rw [show x - s • h - p = (x - p) - s • h by abel, show x - s' • h - p' = (x - p') - s' • h by abel, smul_sub s⁻¹, smul_sub s'⁻¹, smul_smul, smul_smul, inv_mul_cancel₀ hs.ne',
      inv_mul_cancel₀ hs'.ne']
    abel
  rw [e, show p - p' = (x - p') - (x - p) by abel] at h1
  obtain ⟨a, ha⟩ : ∃ a, a = x - p := ⟨_, rfl⟩
  obtain ⟨b, hb⟩ : ∃ b, b = x - p' := ⟨_, rfl⟩
  rw [← ha, ← hb] at h1 ⊢
  rw [inner_sub_left, inner_sub_right, inner_sub_right, real_inner_smul_left, real_inner_smul_left, real_inner_smul_left, real_inner_smul_left, real_inner_self_eq_norm_sq,
    real_inner_self_eq_norm_sq, real_inner_comm a b] at h1
  have h2 := real_inner_le_norm b a
  by_contra hc
  push Not at hc
  have hi : s'⁻¹ ≤ s⁻¹ := inv_anti₀ hs hss
  have hi0 : 0 < s'⁻¹ := by positivity
  have hb0 := norm_nonneg b
  have h3 : (s⁻¹ + s'⁻¹) * ⟪a, b⟫_ℝ ≤ (s⁻¹ + s'⁻¹) * (‖b‖ * ‖a‖) := mul_le_mul_of_nonneg_left (by rw [real_inner_comm]; exact h2) (by positivity)
  have h4 : (s⁻¹ * ‖a‖ - s'⁻¹ * ‖b‖) * (‖a‖ - ‖b‖) ≤ 0 := by nlinarith
  have h5 : 0 < s⁻¹ * ‖a‖ - s'⁻¹ * ‖b‖ := by nlinarith
  have := mul_pos h5 (sub_pos.mpr hc)
  linarith

/-! ### Trials -/

/-- The point `y` is tried from `x` with the search direction `h`: it is computed with step `s` and tested with `t`. -/
structure LsTrial (proxE : E → ℝ → E) (x h : E) (c S s t : ℝ) (y : E) : Prop where
  pos : 0 < s
  le : s ≤ t
  ge : t ≤ 2 * s
  bound : t ≤ S
  near : ‖y - proxE (x - s • h) s‖ ≤ c

/-- The test holds, up to the error `c`. -/
def LsAccept (f : E → ℝ) (g : E → E) (c t : ℝ) (x y : E) : Prop := f y ≤ f x + ⟪g x, y - x⟫_ℝ + (1 + c) * (‖y - x‖ ^ 2 / (2 * t)) + c

/-- The test fails, up to the error `c`. -/
def LsReject (f : E → ℝ) (g : E → E) (c t : ℝ) (x y : E) : Prop := f x + ⟪g x, y - x⟫_ℝ + (1 - c) * (‖y - x‖ ^ 2 / (2 * t)) - c ≤ f y

/-- A short step which is rejected is a small one. -/
theorem reject_small (hq : UpperQuad f g L) {c t : ℝ} {x y : E} (ht : 0 < t) (hc0 : 0 ≤ c) (hc : c ≤ 1 / 4) (hL : t * L ≤ 1 / 2) (hr : LsReject f g c t x y) : ‖y - x‖ ^ 2 ≤ 8 * t * c := by
  have h1 := hq x y
  unfold LsReject at hr
  obtain ⟨Q, hQ⟩ : ∃ Q, Q = ‖y - x‖ ^ 2 / (2 * t) := ⟨_, rfl⟩
  have e : ‖y - x‖ ^ 2 = 2 * t * Q := by rw [hQ]; field_simp
  have hQ0 : 0 ≤ Q := by rw [hQ]; positivity
  rw [← hQ] at hr
  rw [e] at h1 ⊢
  have h2 : t * L * Q ≤ 1 / 2 * Q := mul_le_mul_of_nonneg_right hL hQ0
  have h3 : c * Q ≤ 1 / 4 * Q := mul_le_mul_of_nonneg_right hc hQ0
  have h4 : Q ≤ 4 * c := by linarith
  have := mul_le_mul_of_nonneg_left h4 (show 0 ≤ 2 * t by positivity)
  linarith

/-- A long step which is accepted is a small one. -/
theorem accept_long (hf : StrongGrad f g mu) {c t : ℝ} {x y : E} (ht : 0 < t) (hc0 : 0 ≤ c) (hc : c ≤ 1 / 4) (hmu : 2 ≤ t * mu) (hr : LsAccept f g c t x y) : ‖y - x‖ ^ 2 ≤ 4 * t * c := by
  have h1 := hf x y
  unfold LsAccept at hr
  obtain ⟨Q, hQ⟩ : ∃ Q, Q = ‖y - x‖ ^ 2 / (2 * t) := ⟨_, rfl⟩
  have e : ‖y - x‖ ^ 2 = 2 * t * Q := by rw [hQ]; field_simp
  have hQ0 : 0 ≤ Q := by rw [hQ]; positivity
  rw [← hQ] at hr
  rw [e] at h1 ⊢
  have h2 : 2 * Q ≤ t * mu * Q := mul_le_mul_of_nonneg_right hmu hQ0
  have h3 : c * Q ≤ 1 / 4 * Q := mul_le_mul_of_nonneg_right hc hQ0
  have h4 : Q ≤ 2 * c := by linarith
  have := mul_le_mul_of_nonneg_left h4 (show 0 ≤ 2 * t by positivity)
  linarith

section Trial

variable {proxE : E → ℝ → E} {x h xs y : E} {c S s t : ℝ}

theorem LsTrial.exact (hG : G.IsConvex) (hp : IsProxOf G proxE) (ht : LsTrial proxE x h c S s t y) (hh : ‖h - g x‖ ≤ c) : ‖y - proxE (x - s • g x) s‖ ≤ (1 + S) * c := by
  have h1 := (hp (x - s • h) s ht.pos).nonexpansive hG ht.pos (hp (x - s • g x) s ht.pos)
  rw [show x - s • h - (x - s • g x) = -(s • (h - g x)) by module, norm_neg, norm_smul, Real.norm_eq_abs, abs_of_pos ht.pos] at h1
  have h2 := norm_sub_le_norm_sub_add_norm_sub y (proxE (x - s • h) s) (proxE (x - s • g x) s)
  have h3 : s * ‖h - g x‖ ≤ S * c := mul_le_mul (ht.le.trans ht.bound) hh (norm_nonneg _) (ht.pos.le.trans (ht.le.trans ht.bound))
  linarith [ht.near]

/-- Trial points stay in a ball. -/
theorem LsTrial.ball (hmu : 0 < mu) (hL : 0 < L) (hf : StrongGrad f g mu) (hq : UpperQuad f g L) (hG : G.IsConvex) (hp : IsProxOf G proxE) (hd : xs ∈ G.dom)
    (hmin : ∀ y ∈ G.dom, f xs + G.val xs ≤ f y + G.val y) (ht : LsTrial proxE x h c S s t y) : ‖proxE (x - s • g x) s - xs‖ ≤ (1 + S * L) * ‖x - xs‖ := by
  have h1 := (hp (x - s • g x) s ht.pos).nonexpansive hG ht.pos (minimiser_fixed hq hG hd hmin ht.pos)
  refine h1.trans ?_
  rw [show x - s • g x - (xs - s • g xs) = (x - xs) - s • (g x - g xs) by module]
  refine (norm_sub_le _ _).trans ?_
  rw [norm_smul, Real.norm_eq_abs, abs_of_pos ht.pos]
  have h2 := mul_le_mul (ht.le.trans ht.bound) (lip_of_cocoercive hL (hf.convex hmu.le) hq x xs) (norm_nonneg _) (ht.pos.le.trans (ht.le.trans ht.bound))
  linarith

/-- A trial which moves little shows that `x` is near the minimiser. -/
theorem LsTrial.dist (hmu : 0 < mu) (hL : 0 < L) (hf : StrongGrad f g mu) (hq : UpperQuad f g L) (hG : G.IsConvex) (hp : IsProxOf G proxE) (hd : xs ∈ G.dom)
    (hmin : ∀ y ∈ G.dom, f xs + G.val xs ≤ f y + G.val y) (ht : LsTrial proxE x h c S s t y) (hh : ‖h - g x‖ ≤ c) {s1 : ℝ} (hs1 : 0 < s1) (hs : s1 ≤ s) :
    ‖x - xs‖ ≤ ((L + 2 / s1) / mu + 1) * (‖y - x‖ + (1 + S) * c) := by
  have h1 := ls_displacement hmu hL hf hq hG hd hmin ht.pos (hp (x - s • g x) s ht.pos)
  have h2 := ht.exact hG hp hh
  have h3 := norm_sub_le_norm_sub_add_norm_sub x y (proxE (x - s • g x) s)
  rw [norm_sub_rev x y] at h3
  have h4 : (L + 2 / s) / mu + 1 ≤ (L + 2 / s1) / mu + 1 := by
    have : 2 / s ≤ 2 / s1 := div_le_div_of_nonneg_left (by norm_num) hs1 hs
    have := div_le_div_of_nonneg_right (add_le_add_right this L) hmu.le
    linarith
  have h5 : 0 ≤ (L + 2 / s1) / mu + 1 := by positivity
  calc ‖x - xs‖ ≤ ((L + 2 / s1) / mu + 1) * ‖x - proxE (x - s • g x) s‖ := h1.trans (mul_le_mul_of_nonneg_right h4 (norm_nonneg _))
    _ ≤ _ := mul_le_mul_of_nonneg_left (by linarith) h5

theorem sq_combine {a p X B th : ℝ} (hth0 : 0 ≤ th) (hth1 : th ≤ 1) (hX : 0 ≤ X) (hB : 0 ≤ B) (ha0 : 0 ≤ a) (ha : a ≤ X + B) (hp : p ^ 2 ≤ th * a ^ 2 + (1 - th) * B ^ 2) : p ≤ √th * X + B := by
  have h1 : th ≤ √th := by
    have h2 := Real.mul_self_sqrt hth0
    have h3 := Real.sqrt_nonneg th
    have h4 : √th ≤ 1 := Real.sqrt_le_one.mpr hth1
    nlinarith
  have h2 : a ^ 2 ≤ (X + B) ^ 2 := pow_le_pow_left₀ ha0 ha 2
  have h3 : p ^ 2 ≤ (√th * X + B) ^ 2 := by
    have e : (√th * X + B) ^ 2 = th * X ^ 2 + 2 * √th * (X * B) + B ^ 2 := by
      rw [add_sq, mul_pow, Real.sq_sqrt hth0]; ring
    rw [e]
    have h4 := mul_le_mul_of_nonneg_left h2 hth0
    have h5 := mul_le_mul_of_nonneg_right h1 (mul_nonneg hX hB)
    nlinarith
  have h4 : 0 ≤ √th * X + B := by have := Real.sqrt_nonneg th; positivity
  exact abs_le_of_sq_le_sq' h3 h4 |>.2

/-- The error in the accepted test, for points in a ball. -/
theorem accept_exact (hL : 0 < L) (hq : UpperQuad f g L) {p : E} {M c' : ℝ} (hc0 : 0 ≤ c) (hc'1 : c' ≤ 1) (hs : 0 < s) (hst : s ≤ t) (hsL : 1 ≤ s * L) (hyp : ‖y - p‖ ≤ c')
    (hgx : ‖g x‖ ≤ M) (hgy : ‖g y‖ ≤ M) (hpx : ‖p - x‖ ≤ M) (hyx : ‖y - x‖ ≤ M) (ha : LsAccept f g c t x y) :
    f p ≤ f x + ⟪g x, p - x⟫_ℝ + ‖p - x‖ ^ 2 / (2 * s) + (c' * (2 * M + L + L * M) + c * (L / 2 * M ^ 2 + 1)) := by
  have ht : 0 < t := hs.trans_le hst
  have hM : 0 ≤ M := (norm_nonneg _).trans hgx
  have hc'0 : 0 ≤ c' := (norm_nonneg _).trans hyp
  have h1 := hq y p
  have h2 : ⟪g y, p - y⟫_ℝ ≤ M * c' := (real_inner_le_norm _ _).trans (mul_le_mul hgy (by rw [norm_sub_rev]; exact hyp) (norm_nonneg _) hM)
  have h3 : ⟪g x, y - x⟫_ℝ ≤ ⟪g x, p - x⟫_ℝ + M * c' := by
    have e : ⟪g x, y - x⟫_ℝ = ⟪g x, p - x⟫_ℝ + ⟪g x, y - p⟫_ℝ := by rw [← inner_add_right]; congr 1; abel
    rw [e]
    have := (real_inner_le_norm (g x) (y - p)).trans (mul_le_mul hgx hyp (norm_nonneg _) hM)
    linarith
  have h4 : ‖p - y‖ ^ 2 ≤ c' := by
    rw [norm_sub_rev]
    have := mul_le_mul hyp hyp (norm_nonneg _) hc'0
    nlinarith
  have h5 : ‖y - x‖ ^ 2 ≤ ‖p - x‖ ^ 2 + (2 * M + 1) * c' := by
    have h6 : ‖y - x‖ ≤ ‖p - x‖ + c' := by
      have := norm_sub_le_norm_sub_add_norm_sub y p x
      linarith
    have h7 := pow_le_pow_left₀ (norm_nonneg _) h6 2
    have h8 := mul_le_mul_of_nonneg_right hpx hc'0
    nlinarith
  have hL1 : 1 / (2 * s) ≤ L / 2 := by rw [div_le_div_iff₀ (by positivity) (by norm_num)]; linarith
  have h6 : ‖y - x‖ ^ 2 / (2 * t) ≤ ‖p - x‖ ^ 2 / (2 * s) + (2 * M + 1) * c' * (L / 2) := by
    have h7 : ‖y - x‖ ^ 2 / (2 * t) ≤ ‖y - x‖ ^ 2 / (2 * s) := div_le_div_of_nonneg_left (sq_nonneg _) (by positivity) (by linarith)
    have h8 := div_le_div_of_nonneg_right h5 (show 0 ≤ 2 * s by positivity)
    rw [add_div] at h8
    have h9 : (2 * M + 1) * c' / (2 * s) ≤ (2 * M + 1) * c' * (L / 2) := by
      rw [div_eq_mul_one_div]
      exact mul_le_mul_of_nonneg_left hL1 (by positivity)
    linarith
  have h7 : ‖y - x‖ ^ 2 / (2 * t) ≤ L / 2 * M ^ 2 := by
    have h8 : ‖y - x‖ ^ 2 / (2 * t) ≤ ‖y - x‖ ^ 2 / (2 * s) := div_le_div_of_nonneg_left (sq_nonneg _) (by positivity) (by linarith)
    have h9 := mul_le_mul hL1 (pow_le_pow_left₀ (norm_nonneg _) hyx 2) (sq_nonneg _) (by positivity)
    rw [div_mul_eq_mul_div, one_mul] at h9
    linarith
  have h8 := mul_le_mul_of_nonneg_left h7 hc0
  have h9 := mul_le_mul_of_nonneg_left h4 hL.le
  unfold LsAccept at ha
  nlinarith

/-- **One iteration.** -/
theorem ls_step (hmu : 0 < mu) (hL : 0 < L) (hf : StrongGrad f g mu) (hq : UpperQuad f g L) (hG : G.IsConvex) (hp : IsProxOf G proxE) (hd : xs ∈ G.dom)
    (hmin : ∀ y ∈ G.dom, f xs + G.val xs ≤ f y + G.val y) {M B X : ℝ} (hc0 : 0 ≤ c) (hc1 : (1 + S) * c ≤ 1) (hgx : ‖g x‖ ≤ M) (hgy : ‖g y‖ ≤ M) (hyx : ‖y - x‖ + 1 ≤ M)
    (hX : 0 ≤ X) (hB : 0 ≤ B) (hBe : 2 * ((1 + S) * c * (2 * M + L + L * M) + c * (L / 2 * M ^ 2 + 1)) ≤ mu * B ^ 2) (ha : ‖x - xs‖ ≤ X + B)
    (ht : LsTrial proxE x h c S s t y) (hh : ‖h - g x‖ ≤ c) (hacc : s * L ≤ 1 ∨ LsAccept f g c t x y) : ‖y - xs‖ ≤ √(1 / (1 + s * mu)) * X + B + (1 + S) * c := by
  have hs := ht.pos
  have hsm : 0 < s * mu := mul_pos hs hmu
  have hth0 : 0 ≤ 1 / (1 + s * mu) := by positivity
  have hth1 : 1 / (1 + s * mu) ≤ 1 := by rw [div_le_one (by positivity)]; linarith
  have hex := ht.exact hG hp hh
  have hpp := hp (x - s • g x) s hs
  obtain ⟨p, hpd⟩ : ∃ p, p = proxE (x - s • g x) s := ⟨_, rfl⟩
  rw [← hpd] at hex hpp
  have key : ‖p - xs‖ ≤ √(1 / (1 + s * mu)) * X + B := by
    refine sq_combine hth0 hth1 hX hB (norm_nonneg _) ha ?_
    have e : 1 / (1 + s * mu) * ‖x - xs‖ ^ 2 + (1 - 1 / (1 + s * mu)) * B ^ 2 = (‖x - xs‖ ^ 2 + s * (mu * B ^ 2)) / (1 + s * mu) := by field_simp; ring
    rw [e, le_div_iff₀ (by positivity)]
    by_cases hsL : s * L ≤ 1
    · have h1 := step_contracts hmu hL hf hq hG hd hmin hs le_rfl le_rfl (by linarith) hpp
      have h2 := pow_le_pow_left₀ (norm_nonneg _) h1 2
      rw [mul_pow] at h2
      have h3 : √(1 - s * mu * (2 - s * L)) ^ 2 * (1 + s * mu) ≤ 1 := by
        rcases le_total 0 (1 - s * mu * (2 - s * L)) with h4 | h4
        · rw [Real.sq_sqrt h4]
          have : s * mu * 1 ≤ s * mu * (2 - s * L) := mul_le_mul_of_nonneg_left (by linarith) hsm.le
          nlinarith
        · rw [Real.sqrt_eq_zero_of_nonpos h4]; norm_num
      have h5 := mul_le_mul_of_nonneg_right h3 (sq_nonneg ‖x - xs‖)
      have h6 := mul_le_mul_of_nonneg_right h2 (show 0 ≤ 1 + s * mu by positivity)
      have h7 : 0 ≤ s * (mu * B ^ 2) := by positivity
      nlinarith
    · have hacc := hacc.resolve_left hsL
      push Not at hsL
      have hpx : ‖p - x‖ ≤ M := by
        have := norm_sub_le_norm_sub_add_norm_sub p y x
        rw [norm_sub_rev p y] at this
        linarith
      have h1 := accept_exact hL hq hc0 hc1 hs ht.le hsL.le hex hgx hgy hpx (by linarith) hacc
      have h2 := ls_accept hf hq hG hd hmin hs hpp h1
      have h3 := mul_le_mul_of_nonneg_left hBe hs.le
      have h4 : 0 ≤ s * mu * ‖x - xs‖ ^ 2 := by positivity
      linarith
  have h1 := norm_sub_le_norm_sub_add_norm_sub y p xs
  linarith

end Trial

end Copt
