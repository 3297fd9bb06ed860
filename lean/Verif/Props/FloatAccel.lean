import Verif.Model.FloatAccel
import Verif.Proof.InexactAccel

/-!
# Property C129: the accelerated proximal gradient method with rounded arithmetic
-/

set_option linter.unusedSectionVars false

namespace Copt

open Spec

open scoped InnerProductSpace

variable {n d : ℕ}

local notation "ℓ²" => EuclideanSpace ℝ (Fin d)

/-! ### The momentum -/

/-- Rounding adds three units to a relative error. -/
theorem rel_round {rd : ℝ → ℝ} {u eta w : ℝ} (hs : Scale rd u eta w 1) {c y y0 : ℝ} (hc : c * w ≤ 1) (hy : 1 ≤ y0) (h : |y - y0| ≤ c * w * y0) : |rd y - y0| ≤ (c + 3) * w * y0 := by
  have h1 := hs.rnd.err y
  have hw := hs.w_nonneg
  have h2 : |y| ≤ y0 + c * w * y0 := by
    have := abs_add_le (y - y0) y0
    rw [sub_add_cancel, abs_of_nonneg (show 0 ≤ y0 by linarith)] at this
    linarith
  have h3 : c * w * y0 ≤ 1 * y0 := mul_le_mul_of_nonneg_right hc (by linarith)
  have h4 : u * |y| ≤ w * (2 * y0) := mul_le_mul hs.u_le (by linarith) (abs_nonneg _) hw
  have h5 := hs.eta_le'
  have h6 : w * 1 ≤ w * y0 := mul_le_mul_of_nonneg_left hy hw
  have h7 := abs_sub_le (rd y) y y0
  linarith

/-- Relative error of the computed momentum parameter. -/
theorem flTNext_error {rd : ℝ → ℝ} {u eta w : ℝ} (hs : Scale rd u eta w 1) (hw : 18 * w ≤ 1) {t : ℝ} (ht : 1 ≤ t) : |flTNext rd t - tNext t| ≤ 18 * w * tNext t := by
  have hw0 := hs.w_nonneg
  have htt : 1 ≤ t * t := by nlinarith
  have a1 : |rd (4 * t) - 4 * t| ≤ (0 + 3) * w * (4 * t) := rel_round hs (by linarith) (by linarith) (by simp)
  have a2 : |rd (4 * t) * t - 4 * t * t| ≤ 3 * w * (4 * t * t) := by
    rw [← sub_mul, abs_mul, abs_of_nonneg (show 0 ≤ t by linarith)]
    have := mul_le_mul_of_nonneg_right a1 (show 0 ≤ t by linarith)
    linarith
  have a3 := rel_round hs (by linarith) (by linarith) a2
  have a4 : |1 + rd (rd (4 * t) * t) - (1 + 4 * t * t)| ≤ (3 + 3) * w * (1 + 4 * t * t) := by
    rw [add_sub_add_left_eq_sub]; linarith
  have a5 := rel_round hs (by linarith) (by linarith) a4
  obtain ⟨q, hq⟩ : ∃ q, q = rd (1 + rd (rd (4 * t) * t)) := ⟨_, rfl⟩
  obtain ⟨q0, hq0⟩ : ∃ q0, q0 = 1 + 4 * t * t := ⟨_, rfl⟩
  rw [← hq, ← hq0] at a5
  have hq1 : 1 ≤ q0 := by rw [hq0]; linarith
  have hqn : 0 ≤ q := by
    have := (abs_le.mp a5).1
    have h1 : (3 + 3 + 3) * w * q0 ≤ 1 * q0 := mul_le_mul_of_nonneg_right (by linarith) (by linarith)
    linarith
  have hs1 : 1 ≤ √q0 := Real.one_le_sqrt.mpr hq1
  have a6 : |√q - √q0| ≤ 9 * w * √q0 := by
    have e : (√q - √q0) * (√q + √q0) = q - q0 := by
      have h1 := Real.mul_self_sqrt hqn
      have h2 := Real.mul_self_sqrt (show 0 ≤ q0 by linarith)
      linarith
    have e2 : |√q - √q0| * (√q + √q0) ≤ 9 * w * √q0 * √q0 := by
      have h0 : 0 ≤ √q + √q0 := by positivity
      rw [← abs_of_nonneg h0, ← abs_mul, e, mul_assoc (9 * w), Real.mul_self_sqrt (show 0 ≤ q0 by linarith)]
      linarith
    have h3 : |√q - √q0| * √q0 ≤ |√q - √q0| * (√q + √q0) := mul_le_mul_of_nonneg_left (by linarith [Real.sqrt_nonneg q]) (abs_nonneg _)
    exact le_of_mul_le_mul_right (h3.trans e2) (by linarith)
  have a7 := rel_round hs (by linarith) hs1 a6
  have a8 : |1 + rd √q - (1 + √q0)| ≤ (9 + 3) * w * (1 + √q0) := by
    rw [add_sub_add_left_eq_sub]; linarith
  have a9 := rel_round hs (by linarith) (by linarith) a8
  have a10 : |rd (1 + rd √q) / 2 - (1 + √q0) / 2| ≤ 15 * w * ((1 + √q0) / 2) := by
    rw [← sub_div, abs_div, abs_of_pos (show (0 : ℝ) < 2 by norm_num)]
    linarith
  have a11 := rel_round hs (by linarith) (by linarith) a10
  unfold flTNext tNext
  rw [← hq, ← hq0]
  linarith

/-- Error of the extrapolated point. -/
theorem flExtrapolate_error {B C : ℝ} (hB : 0 ≤ B) (hC : 0 ≤ C) : ∃ A, 0 ≤ A ∧ ∀ (rd : ℝ → ℝ) (u eta w : ℝ), Scale rd u eta w 1 → ∀ (t t' : ℝ) (xNext x : Fin d → ℝ) (z z' : ℓ²), 1 ≤ t → 1 ≤ t' → t - 1 ≤ t' →
    ‖(WithLp.toLp 2 xNext : ℓ²) - z'‖ ≤ C * w → ‖(WithLp.toLp 2 x : ℓ²) - z‖ ≤ C * w → ‖z'‖ ≤ B → ‖z‖ ≤ B →
      ‖(WithLp.toLp 2 (flExtrapolate rd t t' xNext x) : ℓ²) - (z' + ((t - 1) / t') • (z' - z))‖ ≤ A * w := by
  obtain ⟨C1, hC1⟩ : ∃ C1, C1 = 2 * (C + C) + (B + B) + 1 := ⟨_, rfl⟩
  have hC10 : 0 ≤ C1 := by rw [hC1]; positivity
  obtain ⟨C2, hC2⟩ : ∃ C2, C2 = 2 * (6 * (B + B + C1) + 1 * C1) + 1 * (B + B) + 1 := ⟨_, rfl⟩
  have hC20 : 0 ≤ C2 := by rw [hC2]; positivity
  refine ⟨d * (2 * (C + C2) + (B + 1 * (B + B)) + 1), by positivity, ?_⟩
  intro rd u eta w hs t t' xNext x z z' ht ht' htt hx' hx hz' hz
  have hw := hs.w_nonneg
  have ht'0 : 0 < t' := by linarith
  have hb : Close w 1 6 1 (rd (rd (t - 1) / t')) ((t - 1) / t') := by
    have b1 : |(t - 1) / t'| ≤ 1 := by
      rw [abs_of_nonneg (div_nonneg (by linarith) ht'0.le), div_le_one ht'0]; exact htt
    have b2 : |rd (t - 1) / t' - (t - 1) / t'| ≤ 2 * w * 1 := by
      rw [← sub_div, abs_div, abs_of_pos ht'0, div_le_iff₀ ht'0]
      have h1 := hs.rnd.err (t - 1)
      rw [abs_of_nonneg (show 0 ≤ t - 1 by linarith)] at h1
      have h2 : u * (t - 1) ≤ w * t' := mul_le_mul hs.u_le htt (by linarith) hw
      have h3 : w * 1 ≤ w * t' := mul_le_mul_of_nonneg_left ht' hw
      have h4 := hs.eta_le'
      linarith
    have b3 : Close w 1 2 1 (rd (t - 1) / t') ((t - 1) / t') := ⟨by linarith, by linarith, by norm_num, zero_le_one⟩
    have := b3.round hs
    norm_num at this
    exact this
  have hcl : ∀ j, Close w 1 (2 * (C + C2) + (B + 1 * (B + B)) + 1) (B + 1 * (B + B)) (flExtrapolate rd t t' xNext x j) (z' j + (t - 1) / t' * (z' j - z j)) := by
    intro j
    have c1 : Close w 1 C B (xNext j) (z' j) := ⟨by
      have := (coord_le_norm ((WithLp.toLp 2 xNext : ℓ²) - z') j).trans hx'
      rw [mul_one]; exact this, by rw [mul_one]; exact (coord_le_norm z' j).trans hz', hC, hB⟩
    have c2 : Close w 1 C B (x j) (z j) := ⟨by
      have := (coord_le_norm ((WithLp.toLp 2 x : ℓ²) - z) j).trans hx
      rw [mul_one]; exact this, by rw [mul_one]; exact (coord_le_norm z j).trans hz, hC, hB⟩
    have c3 := (c1.sub c2).round hs
    rw [← hC1] at c3
    have c4 := (hb.mul hs c3).round hs
    rw [← hC2] at c4
    exact (c1.add c4).round hs
  rw [mul_assoc]
  refine norm_le_of_coord _ fun j => ?_
  have := (hcl j).err
  rw [mul_one] at this
  exact this

/-! ### The run -/

/-- The arguments with the oracles of the certificate. -/
def FlAPGArgs.second (P : FlAPGArgs d) : FlPGArgsE d := { P.toFlPGArgsE with grad := P.grad2, prox := P.prox2 }

/-- The states of a run whose oracles return. -/
noncomputable def flAccOrbit (rd : ℝ → ℝ) (P : FlPGArgs d) : ℕ → (Fin d → ℝ) × (Fin d → ℝ) × ℝ
  | 0 => (P.x0, P.x0, 1)
  | k + 1 =>
    let s := flAccOrbit rd P k
    (flPgNext rd P k s.2.1, flExtrapolate rd s.2.2 (flTNext rd s.2.2) (flPgNext rd P k s.2.1) s.1, flTNext rd s.2.2)

/-- The certificate of iteration `k`. -/
noncomputable def flAccCert (rd : ℝ → ℝ) (P P2 : FlPGArgs d) (k : ℕ) : ℝ :=
  flPgCert rd P2 k (flAccOrbit rd P k).1 (flPgNext rd P2 k (flAccOrbit rd P (k + 1)).1)

theorem flApgLoop_spec (rd : ℝ → ℝ) (P : FlAPGArgs d) (pr pr2 : ℕ → (Fin d → ℝ) → ℝ → Fin d → ℝ) : ∀ m nit s, s = flAccOrbit rd (P.toFlPGArgsE.total pr) nit →
    (∀ k, nit ≤ k → k ≤ nit + m →
      P.prox k (flPgPoint rd (P.grad k) (P.step k) (flAccOrbit rd (P.toFlPGArgsE.total pr) k).2.1) (P.step k) = .ok (flAccOrbit rd (P.toFlPGArgsE.total pr) (k + 1)).1 ∧
      P.prox2 k (flPgPoint rd (P.grad2 k) (P.step k) (flAccOrbit rd (P.toFlPGArgsE.total pr) (k + 1)).1) (P.step k) =
        .ok (flPgNext rd (P.second.total pr2) k (flAccOrbit rd (P.toFlPGArgsE.total pr) (k + 1)).1)) →
    ∃ r, flApgLoop rd P m nit s.1 s.2.1 s.2.2 = .ok r ∧ nit ≤ r.nit ∧ r.nit ≤ nit + m ∧ r.x = (flAccOrbit rd (P.toFlPGArgsE.total pr) (r.nit + 1)).1 ∧
      (r.success = true → flAccCert rd (P.toFlPGArgsE.total pr) (P.second.total pr2) r.nit < P.tol) ∧
      (r.success = false → r.nit = nit + m ∧ ¬ flAccCert rd (P.toFlPGArgsE.total pr) (P.second.total pr2) r.nit < P.tol) := by
  intro m
  induction m with
  | zero =>
    intro nit s hs hp
    subst hs
    obtain ⟨h1, h2⟩ := hp nit le_rfl le_rfl
    unfold flPgPoint at h1 h2
    rw [flApgLoop, h1]
    simp only [bind, Except.bind]
    rw [h2]
    simp only [pure, Except.pure]
    by_cases hc : flAccCert rd (P.toFlPGArgsE.total pr) (P.second.total pr2) nit < P.tol
    · rw [if_pos (by exact hc)]
      exact ⟨_, rfl, le_rfl, le_rfl, rfl, fun _ => hc, fun h => absurd h (by simp)⟩
    · rw [if_neg (by exact hc)]
      exact ⟨_, rfl, le_rfl, le_rfl, rfl, fun h => absurd h (by simp), fun _ => ⟨rfl, hc⟩⟩
  | succ m ih =>
    intro nit s hs hp
    subst hs
    obtain ⟨h1, h2⟩ := hp nit le_rfl (by omega)
    unfold flPgPoint at h1 h2
    rw [flApgLoop, h1]
    simp only [bind, Except.bind]
    rw [h2]
    simp only [pure, Except.pure]
    by_cases hc : flAccCert rd (P.toFlPGArgsE.total pr) (P.second.total pr2) nit < P.tol
    · rw [if_pos (by exact hc)]
      exact ⟨_, rfl, le_rfl, by simp, rfl, fun _ => hc, fun h => absurd h (by simp)⟩
    · rw [if_neg (by exact hc)]
      obtain ⟨r, e, a1, a2, a3, a4, a5⟩ := ih (nit + 1) _ rfl fun k hk1 hk2 => hp k (by omega) (by omega)
      exact ⟨r, e, by omega, by omega, a3, a4, fun h => ⟨by have := (a5 h).1; omega, (a5 h).2⟩⟩

/-- A run which succeeds does not depend on the remaining number of iterations. -/
theorem flApgLoop_persist (rd : ℝ → ℝ) (P : FlAPGArgs d) : ∀ m m' nit x y t r, m ≤ m' → flApgLoop rd P m nit x y t = .ok r → r.success = true → flApgLoop rd P m' nit x y t = .ok r := by
  intro m
  induction m with
  | zero =>
    intro m' nit x y t r _ h hs
    rw [flApgLoop] at h ⊢
    cases h1 : P.prox nit (fun j => rd (y j - rd (P.step nit * P.grad nit y j))) (P.step nit) with
    | error e => rw [h1] at h; cases h
    | ok xN =>
      rw [h1] at h
      simp only [bind, Except.bind] at h ⊢
      cases h2 : P.prox2 nit (fun j => rd (xN j - rd (P.step nit * P.grad2 nit xN j))) (P.step nit) with
      | error e => rw [h2] at h; cases h
      | ok xP =>
        rw [h2] at h
        simp only [pure, Except.pure] at h ⊢
        split_ifs at h ⊢ with hc
        · exact h
        · cases h; simp at hs
  | succ m ih =>
    intro m' nit x y t r hm h hs
    rw [flApgLoop] at h ⊢
    cases h1 : P.prox nit (fun j => rd (y j - rd (P.step nit * P.grad nit y j))) (P.step nit) with
    | error e => rw [h1] at h; cases h
    | ok xN =>
      rw [h1] at h
      simp only [bind, Except.bind] at h ⊢
      cases h2 : P.prox2 nit (fun j => rd (xN j - rd (P.step nit * P.grad2 nit xN j))) (P.step nit) with
      | error e => rw [h2] at h; cases h
      | ok xP =>
        rw [h2] at h
        simp only [pure, Except.pure] at h ⊢
        split_ifs at h ⊢ with hc
        · exact h
        · obtain ⟨m', rfl⟩ : ∃ i, m' = i + 1 := ⟨m' - 1, by omega⟩
          exact ih _ _ _ _ _ _ (by omega) h hs

/-- What holds after iteration `k`. -/
structure FlAccState (f : ℓ² → ℝ) (G : ExtFun ℓ²) (xs x0 : ℓ²) (C s1 w : ℝ) (k : ℕ) (x : Fin d → ℝ) (cert : ℝ) : Prop where
  value : ∃ z ∈ G.dom, ‖(WithLp.toLp 2 x : ℓ²) - z‖ ≤ C * w ∧
    (f z + G.val z) - (f xs + G.val xs) ≤ 2 * (‖x0 - xs‖ + C * (k + 1) ^ 2 * w) ^ 2 / (s1 * (k + 2) ^ 2)
  cert_le : cert ≤ C * (1 / (k + 1) + w)

theorem FlAccState.mono {f : ℓ² → ℝ} {G : ExtFun ℓ²} {xs x0 : ℓ²} {C C' s1 w : ℝ} {k : ℕ} {x : Fin d → ℝ} {cert : ℝ} (h : FlAccState f G xs x0 C s1 w k x cert) (hC0 : 0 ≤ C) (hC : C ≤ C')
    (hs1 : 0 < s1) (hw : 0 ≤ w) : FlAccState f G xs x0 C' s1 w k x cert := by
  obtain ⟨z, hz, h1, h2⟩ := h.value
  refine ⟨⟨z, hz, h1.trans (mul_le_mul_of_nonneg_right hC hw), h2.trans ?_⟩, h.cert_le.trans (mul_le_mul_of_nonneg_right hC (by positivity))⟩
  refine div_le_div_of_nonneg_right (mul_le_mul_of_nonneg_left (pow_le_pow_left₀ (by positivity) ?_ 2) zero_le_two) (by positivity)
  have : C * (k + 1) ^ 2 * w ≤ C' * (k + 1) ^ 2 * w := mul_le_mul_of_nonneg_right (mul_le_mul_of_nonneg_right hC (by positivity)) hw
  linarith

set_option maxHeartbeats 1600000 in
theorem flAcc_track {f : ℓ² → ℝ} {g : ℓ² → ℓ²} {G : ExtFun ℓ²} (hG : G.IsConvex) {proxE : ℓ² → ℝ → ℓ²} (hp : IsProxOf G proxE)
    {L : ℝ} (hL : 0 < L) (hf : ConvexGrad f g) (hq : UpperQuad f g L) {xs : ℓ²} (hxs : xs ∈ G.dom) (hmin : ∀ y ∈ G.dom, f xs + G.val xs ≤ f y + G.val y)
    {s1 s2 : ℝ} (hs1 : 0 < s1) (h12 : s1 ≤ s2) (hs2 : s2 * L ≤ 1) {K : ℝ} (hK : 0 ≤ K) (R : ℝ) :
    ∃ C, 1 ≤ C ∧ ∀ (rd : ℝ → ℝ) (u eta w : ℝ), Rounding rd u eta → u ≤ w → eta ≤ w ^ 2 →
      ∀ (P : FlAPGArgs d), norm2 P.x0 ≤ R → (∀ k, s1 ≤ P.step k ∧ P.step k ≤ s2) → Antitone P.step → FlOraclesE rd P.toFlPGArgsE g proxE K w → FlOraclesE rd P.second g proxE K w →
        ∃ pr pr2, ∀ k : ℕ, C * (k + 1) ^ 2 * w ≤ 1 →
          (P.prox k (flPgPoint rd (P.grad k) (P.step k) (flAccOrbit rd (P.toFlPGArgsE.total pr) k).2.1) (P.step k) = .ok (flAccOrbit rd (P.toFlPGArgsE.total pr) (k + 1)).1 ∧
            P.prox2 k (flPgPoint rd (P.grad2 k) (P.step k) (flAccOrbit rd (P.toFlPGArgsE.total pr) (k + 1)).1) (P.step k) =
              .ok (flPgNext rd (P.second.total pr2) k (flAccOrbit rd (P.toFlPGArgsE.total pr) (k + 1)).1)) ∧
          FlAccState f G xs (WithLp.toLp 2 P.x0) C s1 w k (flAccOrbit rd (P.toFlPGArgsE.total pr) (k + 1)).1 (flAccCert rd (P.toFlPGArgsE.total pr) (P.second.total pr2) k) := by
  have hs20 : 0 < s2 := by linarith
  obtain ⟨Bg, hBg0, hBg⟩ := grad_growth (d := d) hL hf hq
  obtain ⟨Dp, hDp0, hDp⟩ := flPgPoint_norm (d := d) hK hBg0 hs20.le hBg
  obtain ⟨D', hD'0, hD'⟩ := flPgNext_error (d := d) hG hp hK hBg0 hs20.le hBg
  obtain ⟨M, hM0, hM⟩ := flPgCert_error (d := d) (g := g) (proxE := proxE) hK hs1
  obtain ⟨ρ, hρ⟩ : ∃ ρ, ρ = |R| + ‖xs‖ := ⟨_, rfl⟩
  have hρ0 : 0 ≤ ρ := by rw [hρ]; positivity
  obtain ⟨B, hB⟩ : ∃ B, B = 4 * (ρ + 1) + ‖xs‖ := ⟨_, rfl⟩
  have hB0 : 0 ≤ B := by rw [hB]; positivity
  obtain ⟨Cx, hCx⟩ : ∃ Cx, Cx = D' * (1 + B) := ⟨_, rfl⟩
  have hCx0 : 0 ≤ Cx := by rw [hCx]; positivity
  obtain ⟨A, hA0, hA⟩ := flExtrapolate_error (d := d) hB0 hCx0
  obtain ⟨V, hV⟩ : ∃ V, V = 1 + Dp * (2 + B) := ⟨_, rfl⟩
  have hV0 : 0 ≤ V := by rw [hV]; positivity
  obtain ⟨E, hE⟩ : ∃ E, E = 2 * Cx + D' * (2 + B) := ⟨_, rfl⟩
  have hE0 : 0 ≤ E := by rw [hE]; positivity
  obtain ⟨Q', hQ'⟩ : ∃ Q', Q' = 288 * (ρ + 1) + 6 * A := ⟨_, rfl⟩
  have hQ'0 : 0 ≤ Q' := by rw [hQ']; positivity
  obtain ⟨c1, hc1⟩ : ∃ c1, c1 = s1⁻¹ * (12 * (ρ + 1)) := ⟨_, rfl⟩
  have hc10 : 0 ≤ c1 := by rw [hc1]; positivity
  obtain ⟨c2, hc2⟩ : ∃ c2, c2 = s1⁻¹ * E + M * (2 + 12 * (ρ + 1)) := ⟨_, rfl⟩
  have hc20 : 0 ≤ c2 := by rw [hc2]; positivity
  have hKV : 0 ≤ K * V := by positivity
  obtain ⟨C, hC⟩ : ∃ C, C = 108 + Q' + 36 * (ρ + 1) + Cx + K * V + E + c1 + c2 := ⟨_, rfl⟩
  have hC1 : 1 ≤ C := by rw [hC]; linarith
  refine ⟨C, hC1, ?_⟩
  intro rd u eta w hr hu he P hx0 hst hanti hO hO2
  have hw0 : 0 ≤ w := hr.u_nonneg.trans hu
  obtain ⟨pr, hprok, hprerr⟩ := hO.exists_total hK hw0
  obtain ⟨pr2, hpr2ok, hpr2err⟩ := hO2.exists_total hK hw0
  have hOt : FlOracles (P.toFlPGArgsE.total pr) g proxE K w := ⟨hO.grad, hprerr, hO.norm⟩
  have hOt2 : FlOracles (P.second.total pr2) g proxE K w := ⟨hO2.grad, hpr2err, hO2.norm⟩
  refine ⟨pr, pr2, fun n hn => ?_⟩
  have hn0 : (0 : ℝ) ≤ n := Nat.cast_nonneg n
  -- the precision
  have small : ∀ c, 0 ≤ c → c ≤ C → c * w ≤ 1 := by
    intro c hc hcC
    have h1 : c * 1 ≤ C * (n + 1) ^ 2 := mul_le_mul hcC (by nlinarith) zero_le_one (by linarith)
    have := mul_le_mul_of_nonneg_right h1 hw0
    linarith
  have hw1 : w ≤ 1 := by have := small 1 zero_le_one hC1; linarith
  have hw18 : 18 * w ≤ 1 := small 18 (by norm_num) (by rw [hC]; linarith)
  have hsc : Scale rd u eta w 1 := ⟨hr, hu, he, hw0, hw1, le_rfl⟩
  have hCxw : Cx * w ≤ 1 := small Cx hCx0 (by rw [hC]; linarith)
  have hEw : E * w ≤ 1 := small E hE0 (by rw [hC]; linarith)
  have hKVw : K * V * w ≤ 1 := small _ hKV (by rw [hC]; linarith)
  -- the sequences
  obtain ⟨o, ho⟩ : ∃ o, o = flAccOrbit rd (P.toFlPGArgsE.total pr) := ⟨_, rfl⟩
  obtain ⟨Y, hY⟩ : ∃ Y : ℕ → ℓ², Y = fun k => WithLp.toLp 2 (o k).2.1 := ⟨_, rfl⟩
  obtain ⟨X, hX⟩ : ∃ X : ℕ → ℓ², X = fun k => WithLp.toLp 2 (o k).1 := ⟨_, rfl⟩
  obtain ⟨T, hT⟩ : ∃ T : ℕ → ℝ, T = fun k => (o k).2.2 := ⟨_, rfl⟩
  obtain ⟨Z, hZ⟩ : ∃ Z : ℕ → ℓ², Z = fun k => Nat.casesOn k (WithLp.toLp 2 P.x0) fun i => proxE (Y i - P.step i • g (Y i)) (P.step i) := ⟨_, rfl⟩
  have hZs : ∀ k, Z (k + 1) = proxE (Y k - P.step k • g (Y k)) (P.step k) := fun k => by rw [hZ]
  have hZ0 : Z 0 = WithLp.toLp 2 P.x0 := by subst hZ; rfl
  have hX0 : X 0 = Z 0 := by rw [hZ0, hX, ho]; rfl
  obtain ⟨D, hD⟩ : ∃ D, D = ‖(WithLp.toLp 2 P.x0 : ℓ²) - xs‖ := ⟨_, rfl⟩
  have hD0 : 0 ≤ D := by rw [hD]; positivity
  have hDρ : D ≤ ρ := by
    rw [hD, hρ]
    refine (norm_sub_le _ _).trans ?_
    rw [toLp_norm]
    linarith [le_abs_self R]
  have hspos : ∀ k, 0 < P.step k := fun k => by linarith [(hst k).1]
  have hsL : ∀ k, P.step k * L ≤ 1 := fun k => (mul_le_mul_of_nonneg_right (hst k).2 hL.le).trans hs2
  have hYn : ∀ k, ‖Y k - xs‖ ≤ 4 * (D + 1) → norm2 (o k).2.1 ≤ B := by
    intro k h
    have h1 : norm2 (o k).2.1 = ‖Y k‖ := by rw [hY]; exact (toLp_norm _).symm
    have h2 := norm_add_le (Y k - xs) xs
    rw [sub_add_cancel] at h2
    rw [h1, hB]; linarith
  have hZn : ∀ k, ‖Z k - xs‖ ≤ D + 1 → ‖Z k‖ ≤ B := by
    intro k h
    have h2 := norm_add_le (Z k - xs) xs
    rw [sub_add_cancel] at h2
    rw [hB]; linarith
  have hXs : ∀ k, ‖Y k - xs‖ ≤ 4 * (D + 1) → ‖X (k + 1) - Z (k + 1)‖ ≤ Cx * w := by
    intro k h
    have h1 := hD' rd u eta w hr hu he hw0 hw1 (P.toFlPGArgsE.total pr) hOt k (hspos k) (hst k).2 (o k).2.1
    have h2 : D' * w * (1 + norm2 (o k).2.1) ≤ D' * w * (1 + B) := mul_le_mul_of_nonneg_left (by linarith [hYn k h]) (by positivity)
    have h3 : D' * w * (1 + B) = Cx * w := by rw [hCx]; ring
    rw [hZs k, hX, hY, ho]
    rw [ho] at h1
    rw [← h3]
    rw [ho] at h2
    exact h1.trans h2
  have hinv := accInv (N := n) (w := w) (T := T) (Y := Y) (Z := Z) (D := D) (A := A) (Q := 288 * (D + 1) + 6 * A) hG hp hf hq (fun k => ⟨hspos k, hsL k⟩) hanti hxs hmin hw0 hA0
    (by rw [hZ0, hD]) rfl (by rw [hT, ho]; rfl) (by rw [hZ0, hY, ho]; rfl) hZs
    (fun k hk => by
      have := flTNext_error hsc hw18 hk
      rw [hT] at this ⊢
      rw [ho] at this ⊢
      exact this)
    (by
      refine le_trans (mul_le_mul_of_nonneg_right (mul_le_mul_of_nonneg_right ?_ (by positivity)) hw0) hn
      rw [hC, hQ']; linarith)
    (by
      intro k _ hprev hznext ht ht' htt
      have hxk : ‖X k - Z k‖ ≤ Cx * w := by
        rcases k with _ | k
        · rw [hX0, sub_self, norm_zero]; positivity
        · exact hXs k (hprev k (Nat.le_succ k)).1
      have hx' := hXs k (hprev k le_rfl).1
      have := hA rd u eta w hsc (T k) (T (k + 1)) (o (k + 1)).1 (o k).1 (Z k) (Z (k + 1)) ht ht' htt (by rw [hX] at hx'; exact hx') (by rw [hX] at hxk; exact hxk) (hZn _ hznext) (hZn _ (hprev k le_rfl).2)
      refine le_trans (le_of_eq ?_) this
      rw [hY, hT, ho]
      rfl)
  have hi := hinv n le_rfl
  obtain ⟨b1, b2, b3, b4, b5⟩ := hi.bounds hG hp hf hL hq (hspos n) (hsL n) hxs hmin (hZs n) hD0 (by positivity) hw0 (by
      refine le_trans (mul_le_mul_of_nonneg_right (mul_le_mul_of_nonneg_right ?_ (by positivity)) hw0) hn
      rw [hC, hQ']; linarith)
  have hxN := hXs n hi.y_near
  have hxn : ‖X n - Z n‖ ≤ Cx * w := by
    rcases n with _ | n
    · rw [hX0, sub_self, norm_zero]; positivity
    · exact hXs n (hinv n (Nat.le_succ n)).y_near
  have hyB := hYn n hi.y_near
  have hxB : norm2 (o (n + 1)).1 ≤ B + 1 := by
    have h1 : norm2 (o (n + 1)).1 = ‖X (n + 1)‖ := by rw [hX]; exact (toLp_norm _).symm
    have h2 := norm_add_le (X (n + 1) - Z (n + 1)) (Z (n + 1))
    rw [sub_add_cancel] at h2
    rw [h1]; linarith [hZn _ b5]
  -- the calls of `prox` return
  have hcall : ∀ v : Fin d → ℝ, norm2 v ≤ Dp * (2 + B) → K * w * (1 + norm2 v) ≤ 1 := by
    intro v hv
    have h1 : K * w * (1 + norm2 v) ≤ K * w * V := mul_le_mul_of_nonneg_left (by rw [hV]; linarith) (by positivity)
    linarith
  refine ⟨⟨?_, ?_⟩, ⟨Z (n + 1), b1, ?_, ?_⟩, ?_⟩
  · rw [← ho]
    have h1 := hDp rd u eta w hsc (P.grad n) (o n).2.1 (P.step n) (hspos n) (hst n).2 (hO.grad n _)
    have h2 := hprok n (flPgPoint rd (P.grad n) (P.step n) (o n).2.1) (fun j => hr.idem _) (hcall _ (h1.trans (mul_le_mul_of_nonneg_left (by linarith) hDp0)))
    refine h2.trans ?_
    rw [ho]; rfl
  · rw [← ho]
    have h1 := hDp rd u eta w hsc (P.grad2 n) (o (n + 1)).1 (P.step n) (hspos n) (hst n).2 (hO2.grad n _)
    have h2 := hpr2ok n (flPgPoint rd (P.grad2 n) (P.step n) (o (n + 1)).1) (fun j => hr.idem _) (hcall _ (h1.trans (mul_le_mul_of_nonneg_left (by linarith) hDp0)))
    exact h2
  · rw [← ho]
    have : (WithLp.toLp 2 (o (n + 1)).1 : ℓ²) = X (n + 1) := by rw [hX]
    rw [this]
    exact hxN.trans (mul_le_mul_of_nonneg_right (by rw [hC]; linarith) hw0)
  · refine b2.trans ?_
    rw [← hD]
    have h1 : (288 * (D + 1) + 6 * A + 36 * (D + 1)) * (n + 1) ^ 2 * w ≤ C * (n + 1) ^ 2 * w := mul_le_mul_of_nonneg_right (mul_le_mul_of_nonneg_right (by rw [hC, hQ']; linarith) (by positivity)) hw0
    have h2 : 0 ≤ (288 * (D + 1) + 6 * A + 36 * (D + 1)) * (n + 1) ^ 2 * w := by positivity
    refine div_le_div₀ (by positivity) ?_ (by positivity) ?_
    · exact mul_le_mul_of_nonneg_left (pow_le_pow_left₀ (by linarith) (by linarith) 2) zero_le_two
    · exact mul_le_mul_of_nonneg_right (hst n).1 (by positivity)
  · obtain ⟨X2, hX2⟩ : ∃ X2 : ℓ², X2 = WithLp.toLp 2 (flPgNext rd (P.second.total pr2) n (o (n + 1)).1) := ⟨_, rfl⟩
    have h1 := (abs_le.mp (hM rd u eta w hr hu he hw0 hw1 (P.second.total pr2) hOt2 n (hst n).1 (o n).1 (flPgNext rd (P.second.total pr2) n (o (n + 1)).1))).2
    have h2 := hD' rd u eta w hr hu he hw0 hw1 (P.second.total pr2) hOt2 n (hspos n) (hst n).2 (o (n + 1)).1
    have e1 : (WithLp.toLp 2 (o n).1 : ℓ²) = X n := by rw [hX]
    have e2 : (WithLp.toLp 2 (o (n + 1)).1 : ℓ²) = X (n + 1) := by rw [hX]
    have e3 : flAccCert rd (P.toFlPGArgsE.total pr) (P.second.total pr2) n = flPgCert rd (P.second.total pr2) n (o n).1 (flPgNext rd (P.second.total pr2) n (o (n + 1)).1) := by rw [ho]; rfl
    have e4 : (P.second.total pr2).step n = P.step n := rfl
    rw [← hX2, e1, e4] at h1
    rw [← hX2, e2, e4] at h2
    rw [e3]
    obtain ⟨cert, hcert⟩ : ∃ cert, cert = flPgCert rd (P.second.total pr2) n (o n).1 (flPgNext rd (P.second.total pr2) n (o (n + 1)).1) := ⟨_, rfl⟩
    rw [← hcert] at h1 ⊢
    have h3 : D' * w * (1 + norm2 (o (n + 1)).1) ≤ D' * w * (2 + B) := mul_le_mul_of_nonneg_left (by linarith) (by positivity)
    have h4 := (hp (X (n + 1) - P.step n • g (X (n + 1))) _ (hspos n)).nonexpansive hG (hspos n) (hp (Z (n + 1) - P.step n • g (Z (n + 1))) _ (hspos n))
    have h5 := forward_nonexpansive hL hf hq (hspos n) (by linarith [hsL n]) (X (n + 1)) (Z (n + 1))
    obtain ⟨p1, hp1⟩ : ∃ p1, p1 = proxE (X (n + 1) - P.step n • g (X (n + 1))) (P.step n) := ⟨_, rfl⟩
    obtain ⟨p2, hp2⟩ : ∃ p2, p2 = proxE (Z (n + 1) - P.step n • g (Z (n + 1))) (P.step n) := ⟨_, rfl⟩
    rw [← hp1] at h2 h4
    rw [← hp2] at h4 b4
    have hdist : ‖X n - X2‖ ≤ 12 * (ρ + 1) / (n + 1) + E * w := by
      have t1 := norm_sub_le_norm_sub_add_norm_sub (X n) (Z n) X2
      have t2 := norm_sub_le_norm_sub_add_norm_sub (Z n) (Z (n + 1)) X2
      have t3 := norm_sub_le_norm_sub_add_norm_sub (Z (n + 1)) p2 X2
      have t4 := norm_sub_le_norm_sub_add_norm_sub p2 p1 X2
      rw [norm_sub_rev (Z n) (Z (n + 1))] at t2
      rw [norm_sub_rev p2 p1, norm_sub_rev p1 X2] at t4
      have t5 : 8 * (D + 1) / (n + 2) + 4 * (D + 1) / (n + 2) ≤ 12 * (ρ + 1) / ((n : ℝ) + 1) := by
        rw [← add_div]
        refine div_le_div₀ (by positivity) (by linarith) (by positivity) (by linarith)
      have t6 : E * w = 2 * (Cx * w) + D' * w * (2 + B) := by rw [hE]; ring
      linarith only [t1, t2, t3, t4, t5, t6, hxn, hxN, b3, b4, h2, h3, h4, h5]
    have hi0 : 0 ≤ s1⁻¹ := by positivity
    have h6 : ‖X n - X2‖ / P.step n ≤ s1⁻¹ * (12 * (ρ + 1) / (n + 1) + E * w) := by
      rw [div_eq_inv_mul]
      exact mul_le_mul (inv_anti₀ hs1 (hst n).1) hdist (norm_nonneg _) hi0
    have h7 : 12 * (ρ + 1) / ((n : ℝ) + 1) ≤ 12 * (ρ + 1) := div_le_self (by positivity) (by linarith)
    have h8 : M * w * (1 + ‖X n - X2‖) ≤ M * w * (2 + 12 * (ρ + 1)) := mul_le_mul_of_nonneg_left (by linarith) (by positivity)
    have h9 : s1⁻¹ * (12 * (ρ + 1) / (n + 1) + E * w) + M * w * (2 + 12 * (ρ + 1)) = c1 * (1 / (n + 1)) + c2 * w := by rw [hc1, hc2]; ring
    have h10 : c1 * (1 / ((n : ℝ) + 1)) ≤ C * (1 / (n + 1)) := mul_le_mul_of_nonneg_right (by rw [hC]; linarith) (by positivity)
    have h11 : c2 * w ≤ C * w := mul_le_mul_of_nonneg_right (by rw [hC]; linarith) hw0
    linarith only [h1, h6, h8, h9, h10, h11]

/-! ### The general theorem -/

/-- What C129 claims about the result. -/
structure FlAccGuarantee (f : ℓ² → ℝ) (G : ExtFun ℓ²) (xs x0 : ℓ²) (C s1 w tol : ℝ) (maxIter : ℕ) (r : FlPGResult d) : Prop where
  nit_le : r.nit ≤ maxIter
  value : ∃ z ∈ G.dom, ‖(WithLp.toLp 2 r.x : ℓ²) - z‖ ≤ C * w ∧
    (f z + G.val z) - (f xs + G.val xs) ≤ 2 * (‖x0 - xs‖ + C * (r.nit + 1) ^ 2 * w) ^ 2 / (s1 * (r.nit + 2) ^ 2)
  failure : r.success = false → r.nit = maxIter ∧ tol ≤ C * (1 / (maxIter + 1) + w)

theorem FlAccGuarantee.mono {f : ℓ² → ℝ} {G : ExtFun ℓ²} {xs x0 : ℓ²} {C C' s1 w tol : ℝ} {maxIter : ℕ} {r : FlPGResult d} (h : FlAccGuarantee f G xs x0 C s1 w tol maxIter r) (hC0 : 0 ≤ C)
    (hC : C ≤ C') (hs1 : 0 < s1) (hw : 0 ≤ w) : FlAccGuarantee f G xs x0 C' s1 w tol maxIter r := by
  have h1 := (FlAccState.mk (cert := 0) h.value (by positivity)).mono hC0 hC hs1 hw
  exact ⟨h.nit_le, h1.value, fun hs => ⟨(h.failure hs).1, (h.failure hs).2.trans (mul_le_mul_of_nonneg_right hC (by positivity))⟩⟩

/-- **C129 (general).** `minimize_proximal_gradient(accelerated=True)` in rounded arithmetic of precision `w` on a convex composite problem, with nonincreasing steps in `[s1, s2]`, `s2 ≤ 1 / L`,
and oracles accurate to `K w`, in the loop and in the certificate.  With `C * (max_iter + 1)² * w ≤ 1` no iteration raises, the returned vector is within `C w` of a point whose objective value
satisfies the `O(1 / k²)` bound of the exact method with a constant perturbed by `C (k + 1)² w`, and a run which reports failure has done `max_iter` iterations with a tolerance of order
`1 / max_iter + w`.  For every tolerance there are a number of iterations and a precision from which on all runs succeed. -/
theorem C129_rounded_accelerated {f : ℓ² → ℝ} {g : ℓ² → ℓ²} {G : ExtFun ℓ²} (hG : G.IsConvex) {proxE : ℓ² → ℝ → ℓ²} (hp : IsProxOf G proxE)
    {L : ℝ} (hL : 0 < L) (hf : ConvexGrad f g) (hq : UpperQuad f g L) {xs : ℓ²} (hxs : xs ∈ G.dom) (hmin : ∀ y ∈ G.dom, f xs + G.val xs ≤ f y + G.val y)
    {s1 s2 : ℝ} (hs1 : 0 < s1) (h12 : s1 ≤ s2) (hs2 : s2 * L ≤ 1) {K : ℝ} (hK : 0 ≤ K) (R : ℝ) :
    ∃ C, 0 < C ∧ (∀ (rd : ℝ → ℝ) (u eta w : ℝ), Rounding rd u eta → u ≤ w → eta ≤ w ^ 2 →
      ∀ P : FlAPGArgs d, C * (P.maxIter + 1) ^ 2 * w ≤ 1 → norm2 P.x0 ≤ R → (∀ k, s1 ≤ P.step k ∧ P.step k ≤ s2) → Antitone P.step →
        FlOraclesE rd P.toFlPGArgsE g proxE K w → FlOraclesE rd P.second g proxE K w →
        ∃ r, flMinimizeAccelerated rd P = .ok r ∧ FlAccGuarantee f G xs (WithLp.toLp 2 P.x0) C s1 w P.tol P.maxIter r) ∧
      ∀ tol > 0, ∃ (N : ℕ) (C' : ℝ), 0 < C' ∧ ∀ (rd : ℝ → ℝ) (u eta w : ℝ), Rounding rd u eta → u ≤ w → eta ≤ w ^ 2 → C' * w ≤ 1 →
        ∀ P : FlAPGArgs d, P.tol = tol → N ≤ P.maxIter → norm2 P.x0 ≤ R → (∀ k, s1 ≤ P.step k ∧ P.step k ≤ s2) → Antitone P.step →
          FlOraclesE rd P.toFlPGArgsE g proxE K w → FlOraclesE rd P.second g proxE K w →
          ∃ r, flMinimizeAccelerated rd P = .ok r ∧ r.success = true ∧ r.nit ≤ N ∧ FlAccGuarantee f G xs (WithLp.toLp 2 P.x0) C s1 w P.tol P.maxIter r := by
  obtain ⟨C, hC1, h0⟩ := flAcc_track (d := d) hG hp hL hf hq hxs hmin hs1 h12 hs2 hK R
  have hC0 : 0 < C := by linarith
  have mono : ∀ (N k : ℕ) (w : ℝ), 0 ≤ w → k ≤ N → C * (N + 1) ^ 2 * w ≤ 1 → C * (k + 1) ^ 2 * w ≤ 1 := by
    intro N k w hw hk h
    have hk' : (k : ℝ) ≤ N := by exact_mod_cast hk
    exact (mul_le_mul_of_nonneg_right (mul_le_mul_of_nonneg_left (pow_le_pow_left₀ (by positivity) (by linarith) 2) hC0.le) hw).trans h
  have run : ∀ (rd : ℝ → ℝ) (u eta w : ℝ), Rounding rd u eta → u ≤ w → eta ≤ w ^ 2 →
      ∀ (P : FlAPGArgs d) (N : ℕ), C * (N + 1) ^ 2 * w ≤ 1 → norm2 P.x0 ≤ R → (∀ k, s1 ≤ P.step k ∧ P.step k ≤ s2) → Antitone P.step →
        FlOraclesE rd P.toFlPGArgsE g proxE K w → FlOraclesE rd P.second g proxE K w →
        ∃ r, flApgLoop rd P N 0 P.x0 P.x0 1 = .ok r ∧ FlAccGuarantee f G xs (WithLp.toLp 2 P.x0) C s1 w P.tol N r := by
    intro rd u eta w hr hu he P N hn hx0 hst hanti hO hO2
    have hw0 : 0 ≤ w := hr.u_nonneg.trans hu
    obtain ⟨pr, pr2, h⟩ := h0 rd u eta w hr hu he P hx0 hst hanti hO hO2
    obtain ⟨r, e, -, a2, a3, -, a5⟩ := flApgLoop_spec rd P pr pr2 N 0 _ rfl fun k _ hk => (h k (mono N k w hw0 (by omega) hn)).1
    rw [zero_add] at a2 a5
    obtain ⟨-, hs⟩ := h r.nit (mono N _ w hw0 a2 hn)
    refine ⟨r, e, a2, by rw [a3]; exact hs.value, fun hf => ⟨(a5 hf).1, ?_⟩⟩
    have h1 := not_lt.mp (a5 hf).2
    have h2 := hs.cert_le
    rw [(a5 hf).1] at h1 h2
    exact h1.trans h2
  refine ⟨C, hC0, ?_, ?_⟩
  · intro rd u eta w hr hu he P hn hx0 hst hanti hO hO2
    exact run rd u eta w hr hu he P P.maxIter hn hx0 hst hanti hO hO2
  · intro tol htol
    obtain ⟨N, hN⟩ := exists_nat_gt (4 * C / tol)
    have hN0 : (0 : ℝ) ≤ N := Nat.cast_nonneg N
    have hN' : C * (1 / (N + 1)) < tol / 2 := by
      rw [div_lt_iff₀ htol] at hN
      rw [mul_one_div, div_lt_iff₀ (by linarith)]
      linarith
    refine ⟨N, C * (N + 1) ^ 2 + 4 * C / tol, by positivity, ?_⟩
    intro rd u eta w hr hu he hw P hPt hNm hx0 hst hanti hO hO2
    have hw0 : 0 ≤ w := hr.u_nonneg.trans hu
    have t1 : 0 ≤ 4 * C / tol * w := by positivity
    have t2 : 0 ≤ C * (N + 1) ^ 2 * w := by positivity
    obtain ⟨r, e, c⟩ := run rd u eta w hr hu he P N (by linarith) hx0 hst hanti hO hO2
    have hs : r.success = true := by
      by_contra hcon
      have h1 := (c.failure (by simpa using hcon)).2
      have h2 : 4 * C / tol * w ≤ 1 := by linarith
      rw [show 4 * C / tol * w = 4 * (C * w) / tol by ring, div_le_one htol] at h2
      rw [hPt] at h1
      linarith
    exact ⟨r, flApgLoop_persist rd P N P.maxIter 0 _ _ _ r hNm e hs, hs, c.nit_le, c.nit_le.trans hNm, c.value, fun h => absurd h (by simp [hs])⟩

/-! ### The losses and penalties of the library -/

/-- **C129.** `minimize_proximal_gradient(f.f_grad, x0, pen.prox, step=…, accelerated=True)` for a loss of the library and any penalty or constraint on vectors but `FusedLasso`, everything computed
in rounded arithmetic of precision `w`.  Conclusions as in `C129_rounded_accelerated`. -/
theorem C129_rounded_regression (f : LossObj n d) (hf : f.Good) {sv : ℝ} (hsv : IsLargestSingular f.mat sv) (hL : 0 < f.lipschitz sv) (pen : PenObj d) (hpen : pen.FlGoodE)
    {xs : ℓ²} (hxs : xs ∈ pen.fn.dom) (hmin : ∀ y ∈ pen.fn.dom, f.fn xs + pen.fn.val xs ≤ f.fn y + pen.fn.val y)
    {s1 s2 : ℝ} (hs1 : 0 < s1) (h12 : s1 ≤ s2) (hs2 : s2 * f.lipschitz sv ≤ 1) (R : ℝ) :
    ∃ C, 0 < C ∧ (∀ (rd fexp : ℝ → ℝ) (u eta w : ℝ), Rounding rd u eta → u ≤ w → eta ≤ w ^ 2 → (∀ t ≤ 0, |fexp t - Real.exp t| ≤ w) →
      ∀ P : FlAPGArgs d, C * (P.maxIter + 1) ^ 2 * w ≤ 1 → norm2 P.x0 ≤ R → (∀ k, s1 ≤ P.step k ∧ P.step k ≤ s2) → Antitone P.step → (∀ k x, f.FlGrad rd fexp x (P.grad k x)) →
        (∀ k v, pen.FlProxE rd v (P.step k) (P.prox k v (P.step k))) → (∀ k x, f.FlGrad rd fexp x (P.grad2 k x)) →
        (∀ k v, pen.FlProxE rd v (P.step k) (P.prox2 k v (P.step k))) → (∀ k v, FlNorm rd v (P.norm k v)) →
        ∃ r, flMinimizeAccelerated rd P = .ok r ∧ FlAccGuarantee f.fn pen.fn xs (WithLp.toLp 2 P.x0) C s1 w P.tol P.maxIter r) ∧
      ∀ tol > 0, ∃ (N : ℕ) (C' : ℝ), 0 < C' ∧ ∀ (rd fexp : ℝ → ℝ) (u eta w : ℝ), Rounding rd u eta → u ≤ w → eta ≤ w ^ 2 → (∀ t ≤ 0, |fexp t - Real.exp t| ≤ w) → C' * w ≤ 1 →
        ∀ P : FlAPGArgs d, P.tol = tol → N ≤ P.maxIter → norm2 P.x0 ≤ R → (∀ k, s1 ≤ P.step k ∧ P.step k ≤ s2) → Antitone P.step → (∀ k x, f.FlGrad rd fexp x (P.grad k x)) →
          (∀ k v, pen.FlProxE rd v (P.step k) (P.prox k v (P.step k))) → (∀ k x, f.FlGrad rd fexp x (P.grad2 k x)) →
          (∀ k v, pen.FlProxE rd v (P.step k) (P.prox2 k v (P.step k))) → (∀ k v, FlNorm rd v (P.norm k v)) →
          ∃ r, flMinimizeAccelerated rd P = .ok r ∧ r.success = true ∧ r.nit ≤ N ∧ FlAccGuarantee f.fn pen.fn xs (WithLp.toLp 2 P.x0) C s1 w P.tol P.maxIter r := by
  obtain ⟨-, hconv, hq, -, -⟩ := C92_loss f hf hsv
  obtain ⟨hG, hp, -, -⟩ := C92_prox_exact pen hpen.good
  obtain ⟨K, M, hK, hM, hO⟩ := flOracles_library f hf pen hpen hs1 h12
  obtain ⟨C, hC, h1, h2⟩ := C129_rounded_accelerated hG hp hL hconv hq hxs hmin hs1 h12 hs2 hK R
  refine ⟨C + M, by linarith, ?_, ?_⟩
  · intro rd fexp u eta w hr hu he hexp P hw hx0 hst hanti hgr hpr hgr2 hpr2 hno
    have hw0 : 0 ≤ w := hr.u_nonneg.trans hu
    have hm0 : (0 : ℝ) ≤ P.maxIter := Nat.cast_nonneg _
    have t1 : 0 ≤ M * w * ((P.maxIter + 1) ^ 2 - 1) := mul_nonneg (mul_nonneg hM hw0) (by nlinarith)
    have t2 : 0 ≤ C * (P.maxIter + 1) ^ 2 * w := by positivity
    have t3 : 0 ≤ M * w := by positivity
    have hMw : M * w ≤ 1 := by linarith
    obtain ⟨r, e, c⟩ := h1 rd u eta w hr hu he P (by linarith) hx0 hst hanti (hO rd fexp u eta w hr hu he hexp hMw P.toFlPGArgsE hst hgr hpr hno)
      (hO rd fexp u eta w hr hu he hexp hMw P.second hst hgr2 hpr2 hno)
    exact ⟨r, e, c.mono hC.le (by linarith) hs1 hw0⟩
  · intro tol htol
    obtain ⟨N, C', hC', h3⟩ := h2 tol htol
    refine ⟨N, C' + M, by linarith, ?_⟩
    intro rd fexp u eta w hr hu he hexp hw P hPt hN hx0 hst hanti hgr hpr hgr2 hpr2 hno
    have hw0 : 0 ≤ w := hr.u_nonneg.trans hu
    have t2 : 0 ≤ C' * w := by positivity
    have t3 : 0 ≤ M * w := by positivity
    have hMw : M * w ≤ 1 := by linarith
    obtain ⟨r, e, hs, hn, c⟩ := h3 rd u eta w hr hu he (by linarith) P hPt hN hx0 hst hanti (hO rd fexp u eta w hr hu he hexp hMw P.toFlPGArgsE hst hgr hpr hno)
      (hO rd fexp u eta w hr hu he hexp hMw P.second hst hgr2 hpr2 hno)
    exact ⟨r, e, hs, hn, c.mono hC.le (by linarith) hs1 hw0⟩

/-! ### Instances -/

/-- C129 for every loss and data set on the l1 ball of any radius: rounding to `p + 1` bits for every large enough `p`, with step `1 / L` and the results of a sequential implementation with fused
multiply-add instructions.  With a fixed positive tolerance every long enough run succeeds. -/
example (hn : 0 < n) (hd : 0 < d) (f : LossObj n d) (hf : f.Good) {sv : ℝ} (hsv : IsLargestSingular f.mat sv) (hL : 0 < f.lipschitz sv) {alpha : ℝ} (ha : 0 < alpha) (x0 : Fin d → ℝ)
    {tol : ℝ} (htol : 0 < tol) : ∃ (N p0 : ℕ), ∀ p ≥ p0, ∃ P : FlAPGArgs d, P.x0 = x0 ∧ P.tol = tol ∧ (∀ k x, f.FlGrad (flBits p) (fun t => flBits p (Real.exp t)) x (P.grad k x)) ∧
        (∀ k v, (PenObj.l1Ball alpha).FlProxE (flBits p) v (P.step k) (P.prox k v (P.step k))) ∧ P.grad2 = P.grad ∧ P.prox2 = P.prox ∧
        ∀ m ≥ N, ∃ r, flApgLoop (flBits p) P m 0 x0 x0 1 = .ok r ∧ r.success = true ∧ r.nit ≤ N := by
  obtain ⟨xs, hxs, hmin⟩ := exists_minimiser_l1Ball f hf hsv ha
  have hpen : (PenObj.l1Ball (d := d) alpha).FlGoodE := ha
  obtain ⟨s1, hs1d⟩ : ∃ s1, s1 = (f.lipschitz sv)⁻¹ := ⟨_, rfl⟩
  have hs1 : 0 < s1 := by rw [hs1d]; positivity
  obtain ⟨C, -, -, h⟩ := C129_rounded_regression f hf hsv hL (.l1Ball alpha) hpen hxs hmin hs1 le_rfl (by rw [hs1d, inv_mul_cancel₀ hL.ne']) (norm2 x0)
  obtain ⟨N, C', hC', h⟩ := h tol htol
  obtain ⟨p0, hp0⟩ := exists_pow_lt_of_lt_one (show 0 < 1 / C' by positivity) (show (2⁻¹ : ℝ) < 1 by norm_num)
  refine ⟨N, p0, fun p hp => ?_⟩
  have hw : (2⁻¹ : ℝ) ^ p * C' < 1 := by
    rw [← lt_div_iff₀ hC']
    exact lt_of_le_of_lt (pow_le_pow_of_le_one (by norm_num) (by norm_num) hp) hp0
  have hpos : (0 : ℝ) < 2⁻¹ ^ p := by positivity
  have hhalf : (2⁻¹ : ℝ) ^ (p + 1) = 2⁻¹ ^ p / 2 := by rw [pow_succ]; ring
  have hr := flBits_rounding (p := p) (eta := 0) le_rfl
  choose gr hgr using fun x => f.exists_flGrad (flBits p) (fun t => flBits p (Real.exp t)) hn hd x
  choose pr hpr using fun v => (PenObj.l1Ball (d := d) alpha).exists_flProxE (flBits p) hd hpen v s1
  choose no hno using fun v : Fin d → ℝ => exists_flNorm (flBits p) hd v
  refine ⟨⟨⟨fun _ => gr, fun _ v _ => pr v, fun _ => no, fun _ => s1, x0, tol, N⟩, fun _ => gr, fun _ v _ => pr v⟩, rfl, rfl, fun _ => hgr, fun _ => hpr, rfl, rfl, fun m hm => ?_⟩
  obtain ⟨r, e, hs, hnit, -⟩ := h (flBits p) (fun t => flBits p (Real.exp t)) (2⁻¹ ^ (p + 1)) 0 (2⁻¹ ^ p) hr (by rw [hhalf]; linarith) (by positivity) (fun t ht => by
      have h1 := hr.err (Real.exp t)
      rw [abs_of_pos (Real.exp_pos t), add_zero] at h1
      have h2 : Real.exp t ≤ 1 := Real.exp_le_one_iff.mpr ht
      have h3 := mul_le_mul_of_nonneg_left h2 (show (0 : ℝ) ≤ 2⁻¹ ^ (p + 1) by positivity)
      rw [hhalf] at h1 h3
      linarith) (by linarith)
    ⟨⟨fun _ => gr, fun _ v _ => pr v, fun _ => no, fun _ => s1, x0, tol, N⟩, fun _ => gr, fun _ v _ => pr v⟩ rfl le_rfl le_rfl (fun _ => ⟨le_rfl, le_rfl⟩) (fun _ _ _ => le_rfl)
    (fun _ => hgr) (fun _ => hpr) (fun _ => hgr) (fun _ => hpr) (fun _ => hno)
  exact ⟨r, flApgLoop_persist _ _ N m 0 _ _ _ r hm e hs, hs, hnit⟩

end Copt
