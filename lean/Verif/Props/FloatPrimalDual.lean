import Verif.Proof.FloatPrimalDual
import Verif.Props.FloatSplit

/-!
# Property C131: the primal-dual method with rounded arithmetic
-/

set_option linter.unusedSectionVars false

namespace Copt

open Spec

open scoped InnerProductSpace

variable {n d p : ℕ}

local notation "ℓ²" => EuclideanSpace ℝ (Fin d)
local notation "ℓ²p" => EuclideanSpace ℝ (Fin p)

/-! ### Runs -/

/-- The arguments of a proximal gradient method with the same gradient and first proximal operator. -/
def FlPDArgs.first (P : FlPDArgs d p) : FlPGArgsE d := ⟨P.grad, P.prox1, P.normX, fun _ => P.stepSize, P.x0, P.tol, P.maxIter⟩

/-- The same with the second proximal operator, called with parameter `t`. -/
def FlPDArgs.second (P : FlPDArgs d p) (t : ℝ) : FlPGArgsE p := ⟨fun _ _ => 0, P.prox2, P.normY, fun _ => t, 0, P.tol, P.maxIter⟩

section Orbit

variable (rd : ℝ → ℝ) (P : FlPDArgs d p) (τ w : ℝ) (pr1 : ℕ → (Fin d → ℝ) → ℝ → Fin d → ℝ) (pr2 : ℕ → (Fin p → ℝ) → ℝ → Fin p → ℝ)

/-- Iteration `k` from the state `s` of a run whose oracles return. -/
noncomputable def flPdIter (k : ℕ) (s : (Fin d → ℝ) × (Fin p → ℝ)) : PdIter d p :=
  let v := flPdPoint rd τ s.2 (P.matvec (k + 1) s.1)
  let q := pr2 k (flPdScaled rd τ v) (rd (1 / τ))
  let my := P.rmatvec k (flPdBar rd (flPdConj rd τ v q) s.2)
  let xNext := pr1 k (flPdArg rd P.stepSize s.1 my (P.grad k s.1)) P.stepSize
  ⟨rd, w, s.1, s.2, P.grad k s.1, P.matvec (k + 1) s.1, q, my, xNext, P.normX k (fun j => rd (xNext j - s.1 j)), P.normY k (fun i => rd (flPdConj rd τ v q i - s.2 i))⟩

/-- The state at the start of iteration `k`. -/
noncomputable def flPdOrbit : ℕ → (Fin d → ℝ) × (Fin p → ℝ)
  | 0 => (P.x0, P.matvec 0 P.x0)
  | k + 1 => ((flPdIter rd P τ w pr1 pr2 k (flPdOrbit k)).xNext, (flPdIter rd P τ w pr1 pr2 k (flPdOrbit k)).yNext τ)

/-- Iteration `k`. -/
noncomputable def flPdIt (k : ℕ) : PdIter d p := flPdIter rd P τ w pr1 pr2 k (flPdOrbit rd P τ w pr1 pr2 k)

/-- The norm of the increment of iteration `k`. -/
noncomputable def flPdCert (k : ℕ) : ℝ := rd ((flPdIt rd P τ w pr1 pr2 k).nX + (flPdIt rd P τ w pr1 pr2 k).nY)

/-- The calls of the proximal operators in iteration `k` return. -/
def FlPdReturns (k : ℕ) : Prop :=
  P.prox2 k ((flPdIt rd P τ w pr1 pr2 k).scaled τ) (rd (1 / τ)) = .ok (flPdIt rd P τ w pr1 pr2 k).q ∧
    P.prox1 k ((flPdIt rd P τ w pr1 pr2 k).arg P.stepSize) P.stepSize = .ok (flPdIt rd P τ w pr1 pr2 k).xNext

theorem flPdLoop_spec : ∀ m it s cert, s = flPdOrbit rd P τ w pr1 pr2 it →
    (it % 100 ≠ 0 → cert = some (flPdCert rd P τ w pr1 pr2 (100 * (it / 100))) ∧ P.tol ≤ flPdCert rd P τ w pr1 pr2 (100 * (it / 100))) →
    (∀ k, it ≤ k → k ≤ it + m → FlPdReturns rd P τ w pr1 pr2 k) →
    ∃ r, flPdLoop rd P τ m it s.1 s.2 (P.grad it s.1) cert = .ok r ∧ r.nit ≤ it + m ∧ r.x = (flPdIt rd P τ w pr1 pr2 r.nit).xNext ∧
      r.certificate = some (flPdCert rd P τ w pr1 pr2 (100 * (r.nit / 100))) ∧
      (r.success = true → r.nit % 100 = 0 ∧ flPdCert rd P τ w pr1 pr2 r.nit < P.tol) ∧ (r.success = false → r.nit = it + m ∧ P.tol ≤ flPdCert rd P τ w pr1 pr2 (100 * (r.nit / 100))) := by
  intro m
  have hcert : ∀ it cert, (it % 100 ≠ 0 → cert = some (flPdCert rd P τ w pr1 pr2 (100 * (it / 100))) ∧ P.tol ≤ flPdCert rd P τ w pr1 pr2 (100 * (it / 100))) →
      flPdIncr rd P it (flPdIt rd P τ w pr1 pr2 it).xNext (flPdOrbit rd P τ w pr1 pr2 it).1
        (flPdConj rd τ (flPdPoint rd τ (flPdOrbit rd P τ w pr1 pr2 it).2 (P.matvec (it + 1) (flPdOrbit rd P τ w pr1 pr2 it).1)) (flPdIt rd P τ w pr1 pr2 it).q)
        (flPdOrbit rd P τ w pr1 pr2 it).2 cert = some (flPdCert rd P τ w pr1 pr2 (100 * (it / 100))) := by
    intro it cert h
    unfold flPdIncr
    split_ifs with h0
    · rw [show 100 * (it / 100) = it by omega]
      rfl
    · exact (h h0).1
  have hsucc : ∀ it cert, (it % 100 ≠ 0 → cert = some (flPdCert rd P τ w pr1 pr2 (100 * (it / 100))) ∧ P.tol ≤ flPdCert rd P τ w pr1 pr2 (100 * (it / 100))) →
      flPdCert rd P τ w pr1 pr2 (100 * (it / 100)) < P.tol → it % 100 = 0 ∧ flPdCert rd P τ w pr1 pr2 it < P.tol := by
    intro it cert h hlt
    by_cases h0 : it % 100 = 0
    · rw [show 100 * (it / 100) = it by omega] at hlt
      exact ⟨h0, hlt⟩
    · exact absurd hlt (not_lt.mpr (h h0).2)
  induction m with
  | zero =>
    intro it s cert hs hc hp
    subst hs
    obtain ⟨h2, h1⟩ := hp it le_rfl le_rfl
    rw [flPdLoop]
    simp only [bind, Except.bind, pure, Except.pure]
    erw [h2]
    simp only
    erw [h1]
    simp only
    rw [hcert it cert hc]
    by_cases hlt : flPdCert rd P τ w pr1 pr2 (100 * (it / 100)) < P.tol
    · rw [if_pos ⟨_, rfl, hlt⟩]
      exact ⟨_, rfl, le_rfl, rfl, rfl, fun _ => hsucc it cert hc hlt, fun h => absurd h (by simp)⟩
    · rw [if_neg (by rintro ⟨c, e, h⟩; cases e; exact hlt h)]
      exact ⟨_, rfl, le_rfl, rfl, rfl, fun h => absurd h (by simp), fun _ => ⟨rfl, not_lt.mp hlt⟩⟩
  | succ m ih =>
    intro it s cert hs hc hp
    subst hs
    obtain ⟨h2, h1⟩ := hp it le_rfl (by omega)
    rw [flPdLoop]
    simp only [bind, Except.bind, pure, Except.pure]
    erw [h2]
    simp only
    erw [h1]
    simp only
    rw [hcert it cert hc]
    by_cases hlt : flPdCert rd P τ w pr1 pr2 (100 * (it / 100)) < P.tol
    · rw [if_pos ⟨_, rfl, hlt⟩]
      exact ⟨_, rfl, by simp, rfl, rfl, fun _ => hsucc it cert hc hlt, fun h => absurd h (by simp)⟩
    · rw [if_neg (by rintro ⟨c, e, h⟩; cases e; exact hlt h)]
      obtain ⟨r, e, a1, a2, a3, a4, a5⟩ := ih (it + 1) (flPdOrbit rd P τ w pr1 pr2 (it + 1)) (some (flPdCert rd P τ w pr1 pr2 (100 * (it / 100)))) rfl
        (fun h0 => by rw [show (it + 1) / 100 = it / 100 by omega]; exact ⟨rfl, not_lt.mp hlt⟩) fun k hk1 hk2 => hp k (by omega) (by omega)
      exact ⟨r, e, by omega, a2, a3, a4, fun h => ⟨by have := (a5 h).1; omega, (a5 h).2⟩⟩

/-- A run which succeeds does not depend on the remaining number of iterations. -/
theorem flPdLoop_persist : ∀ m m' it x y g cert r, m ≤ m' → flPdLoop rd P τ m it x y g cert = .ok r → r.success = true → flPdLoop rd P τ m' it x y g cert = .ok r := by
  intro m
  induction m with
  | zero =>
    intro m' it x y g cert r _ h hs
    rw [flPdLoop] at h ⊢
    simp only [bind, Except.bind, pure, Except.pure] at h ⊢
    split at h
    · cases h
    · split at h
      · cases h
      · split_ifs at h ⊢ <;> first | exact h | (cases h; simp at hs)
  | succ m ih =>
    intro m' it x y g cert r hm h hs
    rw [flPdLoop] at h ⊢
    simp only [bind, Except.bind, pure, Except.pure] at h ⊢
    obtain ⟨m', rfl⟩ : ∃ i, m' = i + 1 := ⟨m' - 1, by omega⟩
    split at h
    · cases h
    · split at h
      · cases h
      · split_ifs at h ⊢ <;> first | exact h | exact ih _ _ _ _ _ _ _ (by omega) h hs

end Orbit

/-! ### All iterations -/

/-- Accuracy of the oracles at the scale of their argument. -/
structure FlPDOracles (rd : ℝ → ℝ) (P : FlPDArgs d p) (g : ℓ² → ℓ²) (p1 : ℓ² → ℝ → ℓ²) (p2 : ℓ²p → ℝ → ℓ²p) (M : ℓ² →ₗ[ℝ] ℓ²p) (Mt : ℓ²p →ₗ[ℝ] ℓ²) (τ K w : ℝ) : Prop where
  first : FlOraclesE rd P.first g p1 K w
  second : FlOraclesE rd (P.second (rd (1 / τ))) (fun _ => 0) p2 K w
  matvec : ∀ k x i, |P.matvec k x i - M (WithLp.toLp 2 x) i| ≤ K * w * (1 + norm2 x)
  rmatvec : ∀ k y j, |P.rmatvec k y j - Mt (WithLp.toLp 2 y) j| ≤ K * w * (1 + norm2 y)

/-- The norm of the move of the exact iteration. -/
noncomputable def pdMove (p1 : ℓ² → ℝ → ℓ²) (p2 : ℓ²p → ℝ → ℓ²p) (g : ℓ² → ℓ²) (M : ℓ² →ₗ[ℝ] ℓ²p) (Mt : ℓ²p →ₗ[ℝ] ℓ²) (σ τ : ℝ) (v : ℓ² × ℓ²p) : ℝ :=
  ‖pdX p1 p2 g M Mt σ τ v - v.1‖ + ‖pdY p2 M τ v - v.2‖

/-- What holds at iteration `k`, with state `v`. -/
structure FlPdState (p1 : ℓ² → ℝ → ℓ²) (p2 : ℓ²p → ℝ → ℓ²p) (g : ℓ² → ℓ²) (M : ℓ² →ₗ[ℝ] ℓ²p) (Mt : ℓ²p →ₗ[ℝ] ℓ²) (σ τ C w : ℝ) (k : ℕ) (x : Fin d → ℝ) (cert : ℝ) (v : ℓ² × ℓ²p) : Prop where
  x_near : ‖(WithLp.toLp 2 x : ℓ²) - pdX p1 p2 g M Mt σ τ v‖ ≤ C * w
  x_le : ‖pdX p1 p2 g M Mt σ τ v‖ ≤ C
  cert_near : |cert - pdMove p1 p2 g M Mt σ τ v| ≤ C * w
  move_le : pdMove p1 p2 g M Mt σ τ v ≤ C * (1 / √((k : ℝ) + 1) + (k : ℝ) * w)

set_option maxHeartbeats 1600000 in
theorem flPd_track {G : ExtFun ℓ²} {H : ExtFun ℓ²p} (hG : G.IsConvex) (hH : H.IsConvex) {p1 : ℓ² → ℝ → ℓ²} {p2 : ℓ²p → ℝ → ℓ²p} (h1 : IsProxOf G p1) (h2 : IsProxOf H p2) {f : ℓ² → ℝ}
    {g : ℓ² → ℓ²} {M : ℓ² →ₗ[ℝ] ℓ²p} {Mt : ℓ²p →ₗ[ℝ] ℓ²} (hadj : ∀ x y, ⟪M x, y⟫_ℝ = ⟪x, Mt y⟫_ℝ) {L m σ τ : ℝ} (hL : 0 < L) (hf : ConvexGrad f g) (hq : UpperQuad f g L) (hm0 : 0 ≤ m)
    (hm : ∀ x, ‖M x‖ ≤ m * ‖x‖) (hσ : 0 < σ) (hτ : 0 < τ) (hσL : 0 < 1 / σ - L / 2) (hstep : m ^ 2 < (1 / σ - L / 2) * (1 / τ)) {xs : ℓ²} {ys : ℓ²p} (hys : IsSubgrad H (M xs) ys)
    (hxs : IsSubgrad G xs (-Mt ys - g xs)) {K : ℝ} (hK : 0 ≤ K) (R : ℝ) :
    ∃ C, 1 ≤ C ∧ ∀ (rd : ℝ → ℝ) (u eta w : ℝ), Rounding rd u eta → u ≤ w → eta ≤ w ^ 2 → C * w ≤ 1 →
      ∀ P : FlPDArgs d p, P.stepSize = σ → norm2 P.x0 ≤ R → FlPDOracles rd P g p1 p2 M Mt τ K w →
        ∃ pr1 pr2, ∀ k : ℕ, C * (k + 1) * w ≤ 1 → FlPdReturns rd P τ w pr1 pr2 k ∧
          ∃ v, FlPdState p1 p2 g M Mt σ τ C w k (flPdIt rd P τ w pr1 pr2 k).xNext (flPdCert rd P τ w pr1 pr2 k) v := by
  have hd0 : (0 : ℝ) ≤ d := Nat.cast_nonneg d
  have hp0 : (0 : ℝ) ≤ p := Nat.cast_nonneg p
  have hglip := lip_of_cocoercive hL hf hq
  have hmt := adjoint_bound hadj hm0 hm
  obtain ⟨κ, D, hκ, hD, hlow, hup⟩ := pdMetric_equiv (M := M) hm hm0 hσ hτ hL hσL hstep
  have hDs : 0 ≤ √D := Real.sqrt_nonneg _
  have hκs : 0 ≤ √(2 / κ) := Real.sqrt_nonneg _
  obtain ⟨Y0, hY0⟩ : ∃ Y0, Y0 = m * |R| + p * (K * (1 + |R|)) := ⟨_, rfl⟩
  have hY00 : 0 ≤ Y0 := by rw [hY0]; positivity
  obtain ⟨ρ, hρ⟩ : ∃ ρ, ρ = √D * (|R| + ‖xs‖ + (Y0 + ‖ys‖)) := ⟨_, rfl⟩
  have hρ0 : 0 ≤ ρ := by rw [hρ]; positivity
  obtain ⟨B, hB⟩ : ∃ B, B = √(2 / κ) * (ρ + 1) + ‖xs‖ + ‖ys‖ := ⟨_, rfl⟩
  obtain ⟨c, hc, hloc⟩ := pd_local (B := B) hG hH h1 h2 hL.le hglip hm0 hm hmt hσ hτ hK
  obtain ⟨c1, hc1⟩ : ∃ c1, c1 = √D * (2 * c) := ⟨_, rfl⟩
  have hc10 : 0 ≤ c1 := by rw [hc1]; positivity
  obtain ⟨c2, hc2⟩ : ∃ c2, c2 = √(2 / κ) * (ρ / √(κ / D)) := ⟨_, rfl⟩
  have hc20 : 0 ≤ c2 := by rw [hc2]; positivity
  obtain ⟨c3, hc3⟩ : ∃ c3, c3 = √(2 / κ) * (2 * c1) := ⟨_, rfl⟩
  have hc30 : 0 ≤ c3 := by rw [hc3]; positivity
  have hKc : 0 ≤ K * (1 + c) := by positivity
  obtain ⟨C, hC⟩ : ∃ C, C = 1 + c + c1 + c2 + c3 + K * (1 + c) + 2 * (1 + τ) := ⟨_, rfl⟩
  have hC1 : 1 ≤ C := by rw [hC]; linarith
  refine ⟨C, hC1, ?_⟩
  intro rd u eta w hr hu he hCw P hPs hx0 hO
  subst hPs
  have hw0 : 0 ≤ w := hr.u_nonneg.trans hu
  have small : ∀ a, a ≤ C → a * w ≤ 1 := fun a h => (mul_le_mul_of_nonneg_right h hw0).trans hCw
  have hw1 : w ≤ 1 := by have := small 1 hC1; linarith
  have hsc : Scale rd u eta w 1 := ⟨hr, hu, he, hw0, hw1, le_rfl⟩
  have hpar : 0 < rd (1 / τ) := by
    have a1 := hr.err (1 / τ)
    rw [abs_of_pos (by positivity : 0 < 1 / τ)] at a1
    have a2 : u * (1 / τ) ≤ w * (1 / τ) := mul_le_mul_of_nonneg_right hu (by positivity)
    have a3 : eta ≤ w := hsc.eta_le'
    have a4 := (abs_le.mp a1).1
    have a5 := small (2 * (1 + τ)) (by rw [hC]; linarith)
    have a6 : τ * (w * (1 / τ) + w) ≤ 1 / 2 := by
      have : τ * (w * (1 / τ) + w) = (1 + τ) * w := by field_simp
      linarith
    have a7 : τ * rd (1 / τ) ≥ 1 / 2 := by
      have e : τ * (1 / τ) = 1 := by field_simp
      nlinarith
    by_contra hcon
    push Not at hcon
    nlinarith
  obtain ⟨pr1, hok1, herr1⟩ := hO.first.exists_total hK hw0
  obtain ⟨pr2, hok2, herr2⟩ := hO.second.exists_total hK hw0
  have hcall : ∀ t : ℝ, t ≤ c → K * w * (1 + t) ≤ 1 := by
    intro t ht
    have h3 : K * w * (1 + t) ≤ K * w * (1 + c) := mul_le_mul_of_nonneg_left (by linarith) (by positivity)
    have h4 := small (K * (1 + c)) (by rw [hC]; linarith)
    linarith
  refine ⟨pr1, pr2, ?_⟩
  obtain ⟨it, hit⟩ : ∃ it, it = flPdIt rd P τ w pr1 pr2 := ⟨_, rfl⟩
  obtain ⟨v, hv⟩ : ∃ v : ℕ → ℓ² × ℓ²p, v = fun k => (it k).state := ⟨_, rfl⟩
  have hitw : ∀ k, (it k).w = w := fun k => by rw [hit]; rfl
  have hOk : ∀ k, pdNorm M P.stepSize τ (v k - (xs, ys)) ≤ ρ + 1 → (it k).Ok M Mt g p1 p2 P.stepSize τ K B := by
    intro k hk
    have b0 := le_pdNorm hκ hL hlow (v k - (xs, ys))
    have b1 : √(2 / κ) * pdNorm M P.stepSize τ (v k - (xs, ys)) ≤ √(2 / κ) * (ρ + 1) := mul_le_mul_of_nonneg_left hk hκs
    have n1 := norm_nonneg (v k - (xs, ys)).1
    have n2 := norm_nonneg (v k - (xs, ys)).2
    have b2 := norm_add_le (v k - (xs, ys)).1 xs
    have b3 := norm_add_le (v k - (xs, ys)).2 ys
    have e2 : (v k - (xs, ys)).1 + xs = (v k).1 := by show (v k).1 - xs + xs = _; abel
    have e3 : (v k - (xs, ys)).2 + ys = (v k).2 := by show (v k).2 - ys + ys = _; abel
    rw [e2] at b2
    rw [e3] at b3
    have n3 := norm_nonneg xs
    have n4 := norm_nonneg ys
    have hx : norm2 (it k).x ≤ B := by
      have : norm2 (it k).x = ‖(v k).1‖ := by rw [hv, ← toLp_norm]; rfl
      rw [this, hB]; linarith
    have hy : norm2 (it k).y ≤ B := by
      have : norm2 (it k).y = ‖(v k).2‖ := by rw [hv, ← toLp_norm]; rfl
      rw [this, hB]; linarith
    rw [hit] at hx hy ⊢
    exact ⟨⟨u, eta, hsc⟩, hpar, hO.first.grad k _, hO.matvec (k + 1) _, herr2 k _, hO.rmatvec k _, herr1 k _, hO.first.norm k _, hO.second.norm k _, hx, hy⟩
  have hv0 : pdNorm M P.stepSize τ (v 0 - (xs, ys)) ≤ ρ := by
    refine (pdNorm_le hup _).trans ?_
    rw [hρ]
    refine mul_le_mul_of_nonneg_left ?_ hDs
    have hR0 : norm2 P.x0 ≤ |R| := hx0.trans (le_abs_self R)
    have e1 : (v 0 - (xs, ys)).1 = WithLp.toLp 2 P.x0 - xs := by rw [hv, hit]; rfl
    have e2 : (v 0 - (xs, ys)).2 = WithLp.toLp 2 (P.matvec 0 P.x0) - ys := by rw [hv, hit]; rfl
    rw [e1, e2]
    have a1 := norm_sub_le (WithLp.toLp 2 P.x0 : ℓ²) xs
    have a2 := norm_sub_le (WithLp.toLp 2 (P.matvec 0 P.x0) : ℓ²p) ys
    have a3 := coord_norm (hO.matvec 0 P.x0)
    have a4 := norm_add_le ((WithLp.toLp 2 (P.matvec 0 P.x0) : ℓ²p) - M (WithLp.toLp 2 P.x0)) (M (WithLp.toLp 2 P.x0))
    rw [sub_add_cancel] at a4
    have a5 := hm (WithLp.toLp 2 P.x0)
    rw [toLp_norm P.x0] at a1 a5
    have a6 := mul_le_mul_of_nonneg_left hR0 hm0
    have a7 : K * w * (1 + norm2 P.x0) ≤ K * 1 * (1 + |R|) :=
      mul_le_mul (mul_le_mul_of_nonneg_left hw1 hK) (by linarith) (by have := norm2_nonneg' P.x0; linarith) (by linarith)
    have a8 := mul_le_mul_of_nonneg_left a7 hp0
    rw [hY0]
    linarith only [a1, a2, a3, a4, a5, a6, a7, a8, hR0]
  have hstep' : ∀ k, pdNorm M P.stepSize τ (v k - (xs, ys)) ≤ ρ + 1 → pdNorm M P.stepSize τ (v (k + 1) - pdT p1 p2 g M Mt P.stepSize τ (v k)) ≤ c1 * w := by
    intro k hk
    have hl := hloc _ (hOk k hk)
    refine (pdNorm_le hup _).trans ?_
    rw [hc1, mul_assoc]
    refine mul_le_mul_of_nonneg_left ?_ hDs
    have a1 := hl.x
    have a2 := hl.y
    rw [hitw] at a1 a2
    have e1 : (v (k + 1) - pdT p1 p2 g M Mt P.stepSize τ (v k)).1 = (WithLp.toLp 2 (it k).xNext : ℓ²) - pdX p1 p2 g M Mt P.stepSize τ (it k).state := by rw [hv, hit]; rfl
    have e2 : (v (k + 1) - pdT p1 p2 g M Mt P.stepSize τ (v k)).2 = (WithLp.toLp 2 ((it k).yNext τ) : ℓ²p) - pdY p2 M τ (it k).state := by rw [hv, hit]; rfl
    rw [e1, e2]
    linarith
  intro k hk
  have hk0 : (0 : ℝ) ≤ k := Nat.cast_nonneg k
  have hkc : (k : ℝ) * (c1 * w) ≤ 1 := by
    have h3 : c1 * k ≤ C * (k + 1) := mul_le_mul (by rw [hC]; linarith) (by linarith) hk0 (by linarith)
    have := mul_le_mul_of_nonneg_right h3 hw0
    linarith
  obtain ⟨q1, q2⟩ := pd_inexact (M := M) (Mt := Mt) hadj hG hH h1 h2 hL hf hq hσ hτ hκ hD hlow hup hys hxs (v := v) (ρ := ρ) (e := c1 * w) (by positivity) hkc hv0
    (fun i _ hi => hstep' i (hi i le_rfl)) k le_rfl
  have hl := hloc _ (hOk k q1)
  refine ⟨⟨?_, ?_⟩, (it k).state, ?_, ?_, ?_, ?_⟩
  · have a1 := hl.scaled_le
    rw [hit] at a1
    exact hok2 k _ (fun j => hr.idem _) (hcall _ a1)
  · have a1 := hl.arg_le
    rw [hit] at a1
    exact hok1 k _ (fun j => hr.idem _) (hcall _ a1)
  · have a1 := hl.x
    rw [hitw] at a1
    rw [← hit]
    exact a1.trans (mul_le_mul_of_nonneg_right (by rw [hC]; linarith) hw0)
  · exact hl.exact_le.trans (by rw [hC]; linarith)
  · have a1 := hl.cert
    rw [hitw] at a1
    have e : flPdCert rd P τ w pr1 pr2 k = (it k).rd ((it k).nX + (it k).nY) := by rw [hit]; rfl
    rw [e]
    exact a1.trans (mul_le_mul_of_nonneg_right (by rw [hC]; linarith) hw0)
  · have a1 := le_pdNorm hκ hL hlow (pdT p1 p2 g M Mt P.stepSize τ (v k) - v k)
    have a2 := mul_le_mul_of_nonneg_left q2 hκs
    have e0 : pdMove p1 p2 g M Mt P.stepSize τ (it k).state = ‖(pdT p1 p2 g M Mt P.stepSize τ (v k) - v k).1‖ + ‖(pdT p1 p2 g M Mt P.stepSize τ (v k) - v k).2‖ := by rw [hv]; rfl
    rw [e0]
    have e : √(2 / κ) * (ρ / √(κ / D * (k + 1)) + 2 * (k * (c1 * w))) = c2 * (1 / √((k : ℝ) + 1)) + c3 * (k * w) := by
      rw [hc2, hc3, Real.sqrt_mul (by positivity)]
      have : √(κ / D) ≠ 0 := (Real.sqrt_pos.mpr (by positivity)).ne'
      have : √((k : ℝ) + 1) ≠ 0 := (Real.sqrt_pos.mpr (by linarith)).ne'
      field_simp
    rw [e] at a2
    have t1 : c2 * (1 / √((k : ℝ) + 1)) ≤ C * (1 / √((k : ℝ) + 1)) := mul_le_mul_of_nonneg_right (by rw [hC]; linarith) (by positivity)
    have t2 : c3 * (k * w) ≤ C * (k * w) := mul_le_mul_of_nonneg_right (by rw [hC]; linarith) (by positivity)
    linarith

/-! ### The general theorem -/

/-- What C131 claims about the result: the returned vector is close to a point `x` which with `z`, `a`, `b` satisfies the optimality conditions of `f + G + H ∘ M` up to `e`. -/
structure FlPdGuarantee (g : ℓ² → ℓ²) (G : ExtFun ℓ²) (H : ExtFun ℓ²p) (M : ℓ² →ₗ[ℝ] ℓ²p) (Mt : ℓ²p →ₗ[ℝ] ℓ²) (C w tol : ℝ) (maxIter : ℕ) (r : FlPDResult d) : Prop where
  nit_lt : r.nit < maxIter
  point : ∃ (x a : ℓ²) (z b : ℓ²p) (e : ℝ), 0 ≤ e ∧ ‖(WithLp.toLp 2 r.x : ℓ²) - x‖ ≤ C * w ∧ ‖x‖ ≤ C ∧ IsSubgrad G x a ∧ IsSubgrad H z b ∧ ‖g x + a + Mt b‖ ≤ C * e ∧ ‖M x - z‖ ≤ C * e ∧
    e ≤ C * (1 / √((r.nit : ℝ) + 1) + r.nit * w) ∧ (r.nit % 100 = 0 → ∃ c, r.certificate = some c ∧ |c - e| ≤ C * w)
  certificate : ∃ c, r.certificate = some c ∧ c ≤ C * (1 / √(((100 * (r.nit / 100) : ℕ) : ℝ) + 1) + (r.nit + 1) * w) ∧ (r.success = true → c < tol) ∧ (r.success = false → tol ≤ c)
  success : r.success = true → r.nit % 100 = 0
  failure : r.success = false → r.nit + 1 = maxIter

theorem FlPdGuarantee.mono {g : ℓ² → ℓ²} {G : ExtFun ℓ²} {H : ExtFun ℓ²p} {M : ℓ² →ₗ[ℝ] ℓ²p} {Mt : ℓ²p →ₗ[ℝ] ℓ²} {C C' w tol : ℝ} {maxIter : ℕ} {r : FlPDResult d}
    (h : FlPdGuarantee g G H M Mt C w tol maxIter r) (hC : C ≤ C') (hw : 0 ≤ w) : FlPdGuarantee g G H M Mt C' w tol maxIter r := by
  have hCw := mul_le_mul_of_nonneg_right hC hw
  obtain ⟨x, a, z, b, e, he, a1, a2, a3, a4, a5, a6, a7, a8⟩ := h.point
  obtain ⟨c, b1, b2, b3⟩ := h.certificate
  have hCe := mul_le_mul_of_nonneg_right hC he
  refine ⟨h.nit_lt, ⟨x, a, z, b, e, he, a1.trans hCw, a2.trans hC, a3, a4, a5.trans hCe, a6.trans hCe, a7.trans (mul_le_mul_of_nonneg_right hC (by positivity)), fun h0 => ?_⟩,
    ⟨c, b1, b2.trans (mul_le_mul_of_nonneg_right hC (by positivity)), b3⟩, h.success, h.failure⟩
  obtain ⟨c, d1, d2⟩ := a8 h0
  exact ⟨c, d1, d2.trans hCw⟩

theorem flMinimizePD_eq {rd : ℝ → ℝ} {P : FlPDArgs d p} {m : ℕ} {τ : ℝ} (hτ : flPdTau rd P = τ) (hm : P.maxIter = m + 1) :
    flMinimizePD rd P = flPdLoop rd P τ m 0 P.x0 (P.matvec 0 P.x0) (P.grad 0 P.x0) none := by
  unfold flMinimizePD
  rw [hm, hτ]

/-- The optimality conditions at the new point of the exact iteration. -/
theorem pd_kkt {G : ExtFun ℓ²} {H : ExtFun ℓ²p} (hG : G.IsConvex) (hH : H.IsConvex) {p1 : ℓ² → ℝ → ℓ²} {p2 : ℓ²p → ℝ → ℓ²p} (h1 : IsProxOf G p1) (h2 : IsProxOf H p2) {g : ℓ² → ℓ²}
    {M : ℓ² →ₗ[ℝ] ℓ²p} {Mt : ℓ²p →ₗ[ℝ] ℓ²} {L m σ τ : ℝ} (hL : 0 ≤ L) (hg : ∀ x y, ‖g x - g y‖ ≤ L * ‖x - y‖) (hm0 : 0 ≤ m) (hm : ∀ x, ‖M x‖ ≤ m * ‖x‖) (hmt : ∀ y, ‖Mt y‖ ≤ m * ‖y‖) (hσ : 0 < σ)
    (hτ : 0 < τ) (v : ℓ² × ℓ²p) : ∃ (a : ℓ²) (z b : ℓ²p), IsSubgrad G (pdX p1 p2 g M Mt σ τ v) a ∧ IsSubgrad H z b ∧
      ‖g (pdX p1 p2 g M Mt σ τ v) + a + Mt b‖ ≤ (σ⁻¹ + L + 2 * m + τ⁻¹) * pdMove p1 p2 g M Mt σ τ v ∧ ‖M (pdX p1 p2 g M Mt σ τ v) - z‖ ≤ (σ⁻¹ + L + 2 * m + τ⁻¹) * pdMove p1 p2 g M Mt σ τ v := by
  refine ⟨_, _, _, pdX_subgrad hG h1 hσ v, pdY_subgrad (M := M) hH h2 hτ v, ?_, ?_⟩
  · obtain ⟨X, hX⟩ : ∃ X, X = pdX p1 p2 g M Mt σ τ v := ⟨_, rfl⟩
    obtain ⟨Y, hY⟩ : ∃ Y, Y = pdY p2 M τ v := ⟨_, rfl⟩
    unfold pdMove
    rw [← hX, ← hY]
    have e : g X + (σ⁻¹ • (v.1 - X) - Mt ((2 : ℝ) • Y - v.2) - g v.1) + Mt Y = (g X - g v.1) - σ⁻¹ • (X - v.1) - Mt (Y - v.2) := by
      rw [show (2 : ℝ) • Y - v.2 = Y + (Y - v.2) by module, map_add]
      module
    rw [e]
    have a1 := norm_sub_le ((g X - g v.1) - σ⁻¹ • (X - v.1)) (Mt (Y - v.2))
    have a2 := norm_sub_le (g X - g v.1) (σ⁻¹ • (X - v.1))
    rw [norm_smul, Real.norm_eq_abs, abs_of_pos (inv_pos.mpr hσ)] at a2
    have a3 := hg X v.1
    have a4 := hmt (Y - v.2)
    have n1 := norm_nonneg (X - v.1)
    have n2 := norm_nonneg (Y - v.2)
    have hσi : 0 ≤ σ⁻¹ := by positivity
    have hτi : 0 ≤ τ⁻¹ := by positivity
    have b1 := mul_nonneg hσi n2
    have b2 := mul_nonneg hL n2
    have b3 := mul_nonneg hm0 n1
    have b4 := mul_nonneg hm0 n2
    have b5 := mul_nonneg hτi n1
    have b6 := mul_nonneg hτi n2
    linarith only [a1, a2, a3, a4, b1, b2, b3, b4, b5, b6]
  · obtain ⟨X, hX⟩ : ∃ X, X = pdX p1 p2 g M Mt σ τ v := ⟨_, rfl⟩
    obtain ⟨Y, hY⟩ : ∃ Y, Y = pdY p2 M τ v := ⟨_, rfl⟩
    unfold pdMove
    rw [← hX, ← hY]
    have e : M X - (τ⁻¹ • (v.2 - Y) + M v.1) = M (X - v.1) + τ⁻¹ • (Y - v.2) := by
      rw [map_sub]; module
    rw [e]
    have a1 := norm_add_le (M (X - v.1)) (τ⁻¹ • (Y - v.2))
    rw [norm_smul, Real.norm_eq_abs, abs_of_pos (inv_pos.mpr hτ)] at a1
    have a3 := hm (X - v.1)
    have n1 := norm_nonneg (X - v.1)
    have n2 := norm_nonneg (Y - v.2)
    have hσi : 0 ≤ σ⁻¹ := by positivity
    have hτi : 0 ≤ τ⁻¹ := by positivity
    have b1 := mul_nonneg hσi n2
    have b2 := mul_nonneg hL n2
    have b3 := mul_nonneg hm0 n1
    have b4 := mul_nonneg hm0 n2
    have b5 := mul_nonneg hτi n1
    have b6 := mul_nonneg hσi n1
    have b7 := mul_nonneg hL n1
    linarith only [a1, a3, b1, b2, b3, b4, b5, b6, b7]

/-- **C131 (general).** `minimize_primal_dual(f_grad, x0, prox_1, prox_2, L, step_size=σ, line_search=False)` in rounded arithmetic of precision `w`, with a convex `f` with `L`-Lipschitz gradient, convex
`G` and `H`, a linear operator of norm at most `m`, `m² < (1/σ - L/2) / τ`, a saddle point `(xs, ys)`, and oracles accurate to `K w`.  With `C max_iter w ≤ 1` no run raises; the returned vector
is within `C w` of a point whose violation of the optimality conditions is at most `C e`, where `e ≤ C (1 / √(nit + 1) + nit w)`.  The certificate is the one of the last multiple of 100 below
the iteration count, so at these it differs from `e` by at most `C w`; a success has a certificate below the tolerance and happens at a multiple of 100; a failure has done all iterations.  For
every tolerance there are a number of iterations and a precision from which on all runs succeed. -/
theorem C131_rounded_primal_dual {G : ExtFun ℓ²} {H : ExtFun ℓ²p} (hG : G.IsConvex) (hH : H.IsConvex) {p1 : ℓ² → ℝ → ℓ²} {p2 : ℓ²p → ℝ → ℓ²p} (h1 : IsProxOf G p1) (h2 : IsProxOf H p2)
    {f : ℓ² → ℝ} {g : ℓ² → ℓ²} {M : ℓ² →ₗ[ℝ] ℓ²p} {Mt : ℓ²p →ₗ[ℝ] ℓ²} (hadj : ∀ x y, ⟪M x, y⟫_ℝ = ⟪x, Mt y⟫_ℝ) {L m σ τ : ℝ} (hL : 0 < L) (hf : ConvexGrad f g) (hq : UpperQuad f g L) (hm0 : 0 ≤ m)
    (hm : ∀ x, ‖M x‖ ≤ m * ‖x‖) (hσ : 0 < σ) (hτ : 0 < τ) (hσL : 0 < 1 / σ - L / 2) (hstep : m ^ 2 < (1 / σ - L / 2) * (1 / τ)) {xs : ℓ²} {ys : ℓ²p} (hys : IsSubgrad H (M xs) ys)
    (hxs : IsSubgrad G xs (-Mt ys - g xs)) {K : ℝ} (hK : 0 ≤ K) (R : ℝ) :
    ∃ C, 0 < C ∧ (∀ (rd : ℝ → ℝ) (u eta w : ℝ), Rounding rd u eta → u ≤ w → eta ≤ w ^ 2 →
      ∀ P : FlPDArgs d p, 0 < P.maxIter → C * P.maxIter * w ≤ 1 → P.stepSize = σ → flPdTau rd P = τ → norm2 P.x0 ≤ R → FlPDOracles rd P g p1 p2 M Mt τ K w →
        ∃ r, flMinimizePD rd P = .ok r ∧ FlPdGuarantee g G H M Mt C w P.tol P.maxIter r) ∧
      ∀ tol > 0, ∃ (N : ℕ) (C' : ℝ), 0 < C' ∧ ∀ (rd : ℝ → ℝ) (u eta w : ℝ), Rounding rd u eta → u ≤ w → eta ≤ w ^ 2 → C' * w ≤ 1 →
        ∀ P : FlPDArgs d p, P.tol = tol → N ≤ P.maxIter → P.stepSize = σ → flPdTau rd P = τ → norm2 P.x0 ≤ R → FlPDOracles rd P g p1 p2 M Mt τ K w →
          ∃ r, flMinimizePD rd P = .ok r ∧ r.success = true ∧ r.nit < N ∧ FlPdGuarantee g G H M Mt C w P.tol P.maxIter r := by
  obtain ⟨C0, hC1, h0⟩ := flPd_track (d := d) (p := p) hG hH h1 h2 hadj hL hf hq hm0 hm hσ hτ hσL hstep hys hxs hK R
  have hglip := lip_of_cocoercive hL hf hq
  have hmt := adjoint_bound hadj hm0 hm
  have hkkt := pd_kkt (M := M) (Mt := Mt) hG hH h1 h2 hL.le hglip hm0 hm hmt hσ hτ
  obtain ⟨b, hb⟩ : ∃ b, b = σ⁻¹ + L + 2 * m + τ⁻¹ := ⟨_, rfl⟩
  have hb0 : 0 ≤ b := by rw [hb]; positivity
  rw [← hb] at hkkt
  obtain ⟨C, hC⟩ : ∃ C, C = C0 + b := ⟨_, rfl⟩
  have hC0 : 0 < C := by rw [hC]; linarith
  have hCC : C0 ≤ C := by rw [hC]; linarith
  have hbC : b ≤ C := by rw [hC]; linarith
  have mono : ∀ (N k : ℕ) (w : ℝ), 0 ≤ w → k ≤ N → C * (N + 1) * w ≤ 1 → C0 * (k + 1) * w ≤ 1 := by
    intro N k w hw hk h
    have hk' : (k : ℝ) ≤ N := by exact_mod_cast hk
    have hk0 : (0 : ℝ) ≤ k := Nat.cast_nonneg k
    exact (mul_le_mul_of_nonneg_right (mul_le_mul hCC (by linarith) (by linarith) hC0.le) hw).trans h
  have run : ∀ (rd : ℝ → ℝ) (u eta w : ℝ), Rounding rd u eta → u ≤ w → eta ≤ w ^ 2 →
      ∀ (P : FlPDArgs d p) (N : ℕ), C * (N + 1) * w ≤ 1 → P.stepSize = σ → norm2 P.x0 ≤ R → FlPDOracles rd P g p1 p2 M Mt τ K w →
        ∃ r, flPdLoop rd P τ N 0 P.x0 (P.matvec 0 P.x0) (P.grad 0 P.x0) none = .ok r ∧ FlPdGuarantee g G H M Mt C w P.tol (N + 1) r := by
    intro rd u eta w hr hu he P N hn hst hx0 hO
    have hw0 : 0 ≤ w := hr.u_nonneg.trans hu
    obtain ⟨pr1, pr2, h⟩ := h0 rd u eta w hr hu he (by have := mono N 0 w hw0 (by omega) hn; simpa using this) P hst hx0 hO
    obtain ⟨r, e, a2, a3, a4, a5, a6⟩ := flPdLoop_spec rd P τ w pr1 pr2 N 0 _ none rfl (fun hne => absurd rfl hne) fun k _ hk => (h k (mono N k w hw0 (by omega) hn)).1
    rw [zero_add] at a2 a6
    have hCw := mul_le_mul_of_nonneg_right hCC hw0
    refine ⟨r, e, by omega, ?_, ?_, fun hk => (a5 hk).1, fun hk => by rw [(a6 hk).1]⟩
    · obtain ⟨-, v, hv⟩ := h r.nit (mono N _ w hw0 a2 hn)
      have hmv : 0 ≤ pdMove p1 p2 g M Mt σ τ v := by unfold pdMove; positivity
      obtain ⟨a, z, y, k1, k2, k3, k4⟩ := hkkt v
      have hbm := mul_le_mul_of_nonneg_right hbC hmv
      refine ⟨_, a, z, y, _, hmv, ?_, hv.x_le.trans hCC, k1, k2, k3.trans hbm, k4.trans hbm, hv.move_le.trans (mul_le_mul_of_nonneg_right hCC (by positivity)), fun h100 => ⟨_, a4, ?_⟩⟩
      · rw [a3]; exact hv.x_near.trans hCw
      · rw [show 100 * (r.nit / 100) = r.nit by omega]
        exact hv.cert_near.trans hCw
    · obtain ⟨-, v, hv⟩ := h (100 * (r.nit / 100)) (mono N _ w hw0 (by omega) hn)
      refine ⟨_, a4, ?_, fun hs => ?_, fun hs => (a6 hs).2⟩
      · have t1 := hv.move_le
        have t2 := (abs_le.mp hv.cert_near).2
        have t3 : (((100 * (r.nit / 100) : ℕ) : ℝ)) ≤ r.nit := by exact_mod_cast (by omega : 100 * (r.nit / 100) ≤ r.nit)
        obtain ⟨k, hk⟩ : ∃ k : ℕ, k = 100 * (r.nit / 100) := ⟨_, rfl⟩
        rw [← hk] at t1 t2 t3 ⊢
        have t4 : C0 * (1 / √((k : ℝ) + 1) + k * w) ≤ C * (1 / √((k : ℝ) + 1) + r.nit * w) :=
          mul_le_mul hCC (by have := mul_le_mul_of_nonneg_right t3 hw0; linarith) (by positivity) hC0.le
        linarith
      · obtain ⟨h5, h6⟩ := a5 hs
        rw [show 100 * (r.nit / 100) = r.nit by omega]
        exact h6
  refine ⟨C, hC0, ?_, ?_⟩
  · intro rd u eta w hr hu he P hm hn hst hta hx0 hO
    obtain ⟨N, hN⟩ : ∃ N, P.maxIter = N + 1 := ⟨P.maxIter - 1, by omega⟩
    obtain ⟨r, e, c⟩ := run rd u eta w hr hu he P N (by rw [hN] at hn; push_cast at hn; exact hn) hst hx0 hO
    exact ⟨r, by rw [flMinimizePD_eq hta hN, e], hN ▸ c⟩
  · intro tol htol
    obtain ⟨N, hN⟩ := exists_nat_gt ((2 * C / tol) ^ 2)
    have hN0 : (0 : ℝ) < N := lt_of_le_of_lt (sq_nonneg _) hN
    have hN' : C * (1 / √(((100 * N : ℕ) : ℝ) + 1)) < tol / 2 := by
      have h3 : 2 * C / tol < √(((100 * N : ℕ) : ℝ) + 1) := Real.lt_sqrt_of_sq_lt (hN.trans_le (by push_cast; linarith))
      rw [div_lt_iff₀ htol] at h3
      have h4 : 0 < √(((100 * N : ℕ) : ℝ) + 1) := Real.sqrt_pos.mpr (by positivity)
      rw [mul_one_div, div_lt_iff₀ h4]
      linarith
    obtain ⟨A, hA⟩ : ∃ A : ℝ, A = ((100 * N : ℕ) : ℝ) + 1 := ⟨_, rfl⟩
    have hA0 : 0 < A := by rw [hA]; positivity
    refine ⟨100 * N + 1, C * A + 4 * (C * A) / tol, by positivity, ?_⟩
    intro rd u eta w hr hu he hw P hPt hNm hst hta hx0 hO
    have hw0 : 0 ≤ w := hr.u_nonneg.trans hu
    have t1 : 0 ≤ 4 * (C * A) / tol * w := by positivity
    have t2 : 0 ≤ C * A * w := by positivity
    obtain ⟨r, e, c⟩ := run rd u eta w hr hu he P (100 * N) (by rw [← hA]; linarith) hst hx0 hO
    have hsu : r.success = true := by
      by_contra hcon
      have hfal : r.success = false := by simpa using hcon
      have h3 := c.failure hfal
      have hnit : r.nit = 100 * N := by omega
      obtain ⟨k, -, h4, -, h5⟩ := c.certificate
      have h5 := h5 hfal
      have h6 : 4 * (C * A) / tol * w ≤ 1 := by linarith
      rw [show 4 * (C * A) / tol * w = 4 * (C * (A * w)) / tol by ring, div_le_one htol] at h6
      rw [hnit, show 100 * (100 * N / 100) = 100 * N by omega, ← hA] at h4
      rw [hPt] at h5
      rw [← hA] at hN'
      linarith
    obtain ⟨N', hN'⟩ : ∃ N', P.maxIter = N' + 1 := ⟨P.maxIter - 1, by omega⟩
    exact ⟨r, by rw [flMinimizePD_eq hta hN']; exact flPdLoop_persist rd P τ (100 * N) N' 0 _ _ _ _ r (by omega) e hsu, hsu, c.nit_lt, by have := c.nit_lt; omega, c.point, c.certificate, c.success,
      fun h => absurd h (by simp [hsu])⟩

/-! ### The losses, penalties and matrices of the library -/

theorem flRow_error {rd : ℝ → ℝ} {u eta : ℝ} (hr : Rounding rd u eta) {m : ℕ} (hm : 4 * m * u ≤ 1) {a y : Fin m → ℝ} {s : ℝ} (h : FlRow rd a y s) :
    |s - ∑ j, a j * y j| ≤ 4 * m * (u * (∑ j, |a j * y j|) + eta) := by
  obtain ⟨l, hl, ha, hs⟩ := h
  have hlen : l.length ≤ m := by simpa using hl.length_le_card
  have hlen' : (l.length : ℝ) ≤ m := by exact_mod_cast hlen
  have hsum : ∀ F : Fin m → ℝ, (∀ j, a j = 0 → F j = 0) → (l.map F).sum = ∑ j, F j := by
    intro F hF
    rw [← List.sum_toFinset F hl]
    refine Finset.sum_subset (Finset.subset_univ _) fun j _ hj => hF j (ha j ?_)
    simpa using hj
  have h0 : 0 ≤ u * (∑ j, |a j * y j|) + eta := by
    have := mul_nonneg hr.u_nonneg (Finset.sum_nonneg fun i (_ : i ∈ Finset.univ) => abs_nonneg (a i * y i))
    have := hr.eta_nonneg
    linarith
  have hm0 : (0 : ℝ) ≤ m := Nat.cast_nonneg m
  rcases hs with ⟨e, rfl⟩ | hs
  · have := hsum (fun j => a j * y j) fun j hj => by rw [hj, zero_mul]
    rw [← this, e]
    simp only [List.map_nil, List.sum_nil, sub_self, abs_zero]
    positivity
  · have h1 := hs.error hr (by rw [List.length_map]; exact (mul_le_mul_of_nonneg_right (mul_le_mul_of_nonneg_left hlen' (by norm_num)) hr.u_nonneg).trans hm)
    rw [List.map_map, List.map_map, List.length_map] at h1
    have e1 := hsum (fun j => a j * y j) fun j hj => by rw [hj, zero_mul]
    have e2 := hsum (fun j => |a j * y j|) fun j hj => by rw [hj, zero_mul, abs_zero]
    simp only [Function.comp_def] at h1
    rw [e1, e2] at h1
    refine h1.trans (mul_le_mul_of_nonneg_right ?_ h0)
    linarith

theorem flRow_scale {m : ℕ} (a : Fin m → ℝ) : ∃ K, 0 ≤ K ∧ ∀ (rd : ℝ → ℝ) (u eta w : ℝ), Rounding rd u eta → u ≤ w → eta ≤ w ^ 2 → w ≤ 1 → 4 * m * w ≤ 1 → ∀ (y : Fin m → ℝ) (s : ℝ), FlRow rd a y s →
    |s - ∑ j, a j * y j| ≤ K * w * (1 + norm2 y) := by
  refine ⟨4 * m * (1 + ∑ j, |a j|), by have := Finset.sum_nonneg fun j (_ : j ∈ Finset.univ) => abs_nonneg (a j); positivity, ?_⟩
  intro rd u eta w hr hu he hw1 hmw y s h
  have hw0 : 0 ≤ w := hr.u_nonneg.trans hu
  have hm0 : (0 : ℝ) ≤ m := Nat.cast_nonneg m
  have h1 := flRow_error hr ((mul_le_mul_of_nonneg_left hu (by positivity)).trans hmw) h
  have hN := norm2_nonneg' y
  have hS := Finset.sum_nonneg fun j (_ : j ∈ Finset.univ) => abs_nonneg (a j)
  have h2 : ∑ j, |a j * y j| ≤ (∑ j, |a j|) * norm2 y := by
    rw [Finset.sum_mul]
    refine Finset.sum_le_sum fun j _ => ?_
    rw [abs_mul]
    refine mul_le_mul_of_nonneg_left ?_ (abs_nonneg _)
    have := coord_le_norm (WithLp.toLp 2 y : EuclideanSpace ℝ (Fin m)) j
    rw [toLp_norm] at this
    exact this
  have h3 : u * ∑ j, |a j * y j| ≤ w * ((∑ j, |a j|) * norm2 y) :=
    mul_le_mul hu h2 (Finset.sum_nonneg fun j _ => abs_nonneg _) hw0
  have h4 : eta ≤ w := he.trans (by rw [sq]; nlinarith)
  have h5 : u * (∑ j, |a j * y j|) + eta ≤ (1 + ∑ j, |a j|) * w * (1 + norm2 y) := by
    have t1 : 0 ≤ w * norm2 y := mul_nonneg hw0 hN
    have t2 : 0 ≤ w * ∑ j, |a j| := mul_nonneg hw0 hS
    linarith
  refine h1.trans ((mul_le_mul_of_nonneg_left h5 (by positivity)).trans (le_of_eq (by ring)))

theorem pd_gap_kkt {G : ExtFun ℓ²} {f : ℓ² → ℝ} {h : ℓ²p → ℝ} {g : ℓ² → ℓ²} {M : ℓ² →ₗ[ℝ] ℓ²p} {Mt : ℓ²p →ₗ[ℝ] ℓ²} (hadj : ∀ x y, ⟪M x, y⟫_ℝ = ⟪x, Mt y⟫_ℝ) {l : ℝ} (hf : ConvexGrad f g)
    (hl : 0 ≤ l) (hlip : ∀ a b, h a - h b ≤ l * ‖a - b‖) {x a xs : ℓ²} {z b : ℓ²p} (ha : IsSubgrad G x a) (hb : IsSubgrad ⟨Set.univ, h⟩ z b) (hxs : xs ∈ G.dom) :
    (f x + G.val x + h (M x)) - (f xs + G.val xs + h (M xs)) ≤ ‖g x + a + Mt b‖ * ‖x - xs‖ + 2 * (l * ‖M x - z‖) := by
  have a1 := ha.2 xs hxs
  have a2 := hb.2 (M xs) (Set.mem_univ _)
  have a3 := hf x xs
  have a5 := hlip (M x) z
  have a6 := subgrad_norm_le hl hlip hb
  have a7 : -⟪b, M x - z⟫_ℝ ≤ l * ‖M x - z‖ := by
    have b1 := neg_abs_le ⟪b, M x - z⟫_ℝ
    have b2 := abs_real_inner_le_norm b (M x - z)
    have b3 := mul_le_mul_of_nonneg_right a6 (norm_nonneg (M x - z))
    linarith
  have a8 : ⟪g x + a + Mt b, x - xs⟫_ℝ ≤ ‖g x + a + Mt b‖ * ‖x - xs‖ := real_inner_le_norm _ _
  have e1 : ⟪g x + a + Mt b, x - xs⟫_ℝ = -⟪g x, xs - x⟫_ℝ - ⟪a, xs - x⟫_ℝ - ⟪b, M xs - z⟫_ℝ + ⟪b, M x - z⟫_ℝ := by
    have e2 : ⟪Mt b, x - xs⟫_ℝ = ⟪b, M x - M xs⟫_ℝ := by rw [real_inner_comm, ← hadj, real_inner_comm, map_sub]
    rw [inner_add_left, inner_add_left, e2]
    simp only [inner_sub_right]
    ring
  simp only at a2
  linarith

/-- What C131 claims about the objective value. -/
def FlPdValue (F : ℓ² → ℝ) (D : Set ℓ²) (xs : ℓ²) (C w : ℝ) (r : FlPDResult d) : Prop :=
  ∃ x ∈ D, ‖(WithLp.toLp 2 r.x : ℓ²) - x‖ ≤ C * w ∧ F x - F xs ≤ C * (1 / √((r.nit : ℝ) + 1) + r.nit * w) ∧
    (r.nit % 100 = 0 → ∃ c, r.certificate = some c ∧ F x - F xs ≤ C * (c + C * w))

theorem FlPdGuarantee.value {G : ExtFun ℓ²} {f : ℓ² → ℝ} {h : ℓ²p → ℝ} {g : ℓ² → ℓ²} {M : ℓ² →ₗ[ℝ] ℓ²p} {Mt : ℓ²p →ₗ[ℝ] ℓ²} (hadj : ∀ x y, ⟪M x, y⟫_ℝ = ⟪x, Mt y⟫_ℝ) {l : ℝ} (hf : ConvexGrad f g)
    (hl : 0 ≤ l) (hlip : ∀ a b, h a - h b ≤ l * ‖a - b‖) {xs : ℓ²} (hxs : xs ∈ G.dom) {C : ℝ} (hC : 0 ≤ C) :
    ∃ C1, C ≤ C1 ∧ ∀ C' ≥ C1, ∀ (w tol : ℝ) (maxIter : ℕ) (r : FlPDResult d), 0 ≤ w → FlPdGuarantee g G ⟨Set.univ, h⟩ M Mt C w tol maxIter r →
      FlPdValue (fun x => f x + G.val x + h (M x)) G.dom xs C' w r := by
  obtain ⟨A, hA⟩ : ∃ A, A = C * (C + ‖xs‖) + 2 * (l * C) := ⟨_, rfl⟩
  have hA0 : 0 ≤ A := by rw [hA]; positivity
  refine ⟨A + C + A * C, by nlinarith, ?_⟩
  intro C' hC' w tol maxIter r hw hr
  have hAC : 0 ≤ A * C := by positivity
  obtain ⟨x, a, z, b, e, he, b1, b2, b3, b4, b5, b6, b7, b8⟩ := hr.point
  have gap : (f x + G.val x + h (M x)) - (f xs + G.val xs + h (M xs)) ≤ A * e := by
    refine (pd_gap_kkt hadj hf hl hlip b3 b4 hxs).trans ?_
    have c1 : ‖x - xs‖ ≤ C + ‖xs‖ := (norm_sub_le _ _).trans (by linarith)
    have c2 := mul_le_mul b5 c1 (norm_nonneg _) (by positivity)
    have c3 := mul_le_mul_of_nonneg_left b6 hl
    rw [hA]
    linarith
  refine ⟨x, b3.1, b1.trans (mul_le_mul_of_nonneg_right (by linarith) hw), ?_, fun h0 => ?_⟩
  · refine gap.trans ((mul_le_mul_of_nonneg_left b7 hA0).trans ?_)
    rw [← mul_assoc]
    exact mul_le_mul_of_nonneg_right (by linarith) (by positivity)
  · obtain ⟨c, d1, d2⟩ := b8 h0
    refine ⟨c, d1, gap.trans ?_⟩
    have c5 : e ≤ c + C * w := by linarith [(abs_le.mp d2).1]
    have hCw : C * w ≤ C' * w := mul_le_mul_of_nonneg_right (by linarith) hw
    calc _ ≤ C' * e := mul_le_mul_of_nonneg_right (by linarith) he
      _ ≤ C' * (c + C' * w) := mul_le_mul_of_nonneg_left (by linarith) (by linarith)

/-- The oracles of the library. -/
theorem flPDOracles_library (f : LossObj n d) (hf : f.Good) (pen1 : PenObj d) (pen2 : PenObj p) (hpen1 : pen1.FlGoodE) (hpen2 : pen2.FlGoodE) (A : Fin p → Fin d → ℝ) {σ τ : ℝ} (hσ : 0 < σ) (hτ : 0 < τ) :
    ∃ K Q, 0 ≤ K ∧ 0 ≤ Q ∧ ∀ (rd fexp : ℝ → ℝ) (u eta w : ℝ), Rounding rd u eta → u ≤ w → eta ≤ w ^ 2 → (∀ t ≤ 0, |fexp t - Real.exp t| ≤ w) → Q * w ≤ 1 →
      ∀ P : FlPDArgs d p, P.stepSize = σ → (∀ k x, f.FlGrad rd fexp x (P.grad k x)) → (∀ k v, pen1.FlProxE rd v P.stepSize (P.prox1 k v P.stepSize)) →
        (∀ k v, pen2.FlProxE rd v (rd (1 / τ)) (P.prox2 k v (rd (1 / τ)))) → (∀ k v, FlNorm rd v (P.normX k v)) → (∀ k v, FlNorm rd v (P.normY k v)) →
        (∀ k x i, FlRow rd (A i) x (P.matvec k x i)) → (∀ k y j, FlRow rd (fun i => A i j) y (P.rmatvec k y j)) → FlPDOracles rd P f.gradE pen1.proxE pen2.proxE (opLin A) (opLinT A) τ K w := by
  have ht : 0 < 1 / τ := by positivity
  obtain ⟨K1, M1, hK1, hM1, hO1⟩ := flOracles_library f hf pen1 hpen1 hσ le_rfl
  obtain ⟨K2, hK2, g2⟩ := pen2.flProxE_error hpen2 (s1 := 1 / τ / 2) (s2 := 2 * (1 / τ)) (by positivity) (by linarith)
  choose kr hkr0 hkr using fun i => flRow_scale (A i)
  choose kc hkc0 hkc using fun j => flRow_scale (fun i => A i j)
  obtain ⟨K, hK⟩ : ∃ K, K = K1 + K2 + (12 * p + 2) + ∑ i, kr i + ∑ j, kc j := ⟨_, rfl⟩
  have hd0 : (0 : ℝ) ≤ d := Nat.cast_nonneg d
  have hp0 : (0 : ℝ) ≤ p := Nat.cast_nonneg p
  have hs1 := Finset.sum_nonneg fun i (_ : i ∈ Finset.univ) => hkr0 i
  have hs2 := Finset.sum_nonneg fun j (_ : j ∈ Finset.univ) => hkc0 j
  refine ⟨K, M1 + K2 + (16 * p + 10) + 4 * d + 2 * (1 + τ), by rw [hK]; positivity, by positivity, ?_⟩
  intro rd fexp u eta w hr hu he hexp hQ P hst hgr hpr1 hpr2 hnX hnY hmv hrmv
  subst hst
  have hw0 : 0 ≤ w := hr.u_nonneg.trans hu
  have small : ∀ a, a ≤ M1 + K2 + (16 * p + 10) + 4 * d + 2 * (1 + τ) → a * w ≤ 1 := fun a h => (mul_le_mul_of_nonneg_right h hw0).trans hQ
  have hw1 : w ≤ 1 := by have := small 1 (by linarith); linarith
  have hsc : Scale rd u eta w 1 := ⟨hr, hu, he, hw0, hw1, le_rfl⟩
  have mono : ∀ k, k ≤ K → ∀ t : ℝ, 0 ≤ t → k * w * (1 + t) ≤ K * w * (1 + t) := fun k hk t ht => mul_le_mul_of_nonneg_right (mul_le_mul_of_nonneg_right hk hw0) (by linarith)
  have hpar : 1 / τ / 2 ≤ rd (1 / τ) ∧ rd (1 / τ) ≤ 2 * (1 / τ) := by
    have a1 := hr.err (1 / τ)
    rw [abs_of_pos ht] at a1
    have a2 : u * (1 / τ) ≤ w * (1 / τ) := mul_le_mul_of_nonneg_right hu ht.le
    have a3 : eta ≤ w := hsc.eta_le'
    have a5 := small (2 * (1 + τ)) (by linarith)
    have a6 : w * (1 / τ) + w ≤ 1 / τ / 2 := by
      have e : w * (1 / τ) + w = (1 + τ) * w * (1 / τ) := by field_simp
      have := mul_le_mul_of_nonneg_right (show (1 + τ) * w ≤ 1 / 2 by linarith) ht.le
      rw [e]; linarith
    have a4 := abs_le.mp a1
    exact ⟨by linarith, by linarith⟩
  refine ⟨?_, ⟨fun k x j => ?_, fun k v hv hKv => ?_, fun k v => ?_⟩, fun k x i => ?_, fun k y j => ?_⟩
  · exact (hO1 rd fexp u eta w hr hu he hexp (small M1 (by linarith)) P.first (fun _ => ⟨le_rfl, le_rfl⟩) hgr hpr1 hnX).mono (by rw [hK]; linarith) hw0
  · show |(0 : ℝ) - 0| ≤ _
    rw [sub_zero, abs_zero]
    have : 0 ≤ K := by rw [hK]; positivity
    have := norm2_nonneg' x
    positivity
  · have hmn := mono K2 (by rw [hK]; linarith) (norm2 v) (norm2_nonneg' v)
    obtain ⟨q, e, herr⟩ := g2 rd u eta w hsc (small _ (by linarith)) (small _ (by linarith)) v _ _ hv (hmn.trans hKv) hpar.1 hpar.2 (hpr2 k v)
    exact ⟨q, e, fun j => (herr j).trans hmn⟩
  · exact (flNorm_error hsc (small _ (by linarith)) (hnY k v)).trans (mono _ (by rw [hK]; linarith) _ (norm2_nonneg' v))
  · have h3 := Finset.single_le_sum (f := kr) (fun i _ => hkr0 i) (Finset.mem_univ i)
    exact (hkr i rd u eta w hr hu he hw1 (small _ (by linarith)) x _ (hmv k x i)).trans (mono _ (by rw [hK]; linarith) _ (norm2_nonneg' x))
  · have h3 := Finset.single_le_sum (f := kc) (fun i _ => hkc0 i) (Finset.mem_univ j)
    exact (hkc j rd u eta w hr hu he hw1 (small _ (by linarith)) y _ (hrmv k y j)).trans (mono _ (by rw [hK]; linarith) _ (norm2_nonneg' y))

/-- **C131.** `minimize_primal_dual(f.f_grad, x0, pen1.prox, pen2.prox, L=A, step_size=σ, line_search=False)` for a loss of the library, any penalty or constraint on vectors but `FusedLasso` as first
operator, `L1Norm` or `GroupL1` as second one (`lip` is its Lipschitz constant) and a dense or sparse matrix `A`, everything computed in rounded arithmetic of precision `w`.  Conclusions as in
`C131_rounded_primal_dual`; moreover the returned vector is within `C w` of a feasible point whose objective exceeds the minimum by at most `C (1 / √(nit + 1) + nit w)`, and by at most
`C (certificate + C w)` when the iteration count is a multiple of 100, as after every success. -/
theorem C131_rounded_regression (f : LossObj n d) (hf : f.Good) {sv : ℝ} (hsv : IsLargestSingular f.mat sv) (hL : 0 < f.lipschitz sv) (pen1 : PenObj d) (pen2 : PenObj p) (hpen1 : pen1.FlGoodE)
    (hpen2 : pen2.FlGoodE) {l : ℝ} (hlip : (SplitObj.pen pen2).lip = some l) (A : Fin p → Fin d → ℝ) {m : ℝ} (hm0 : 0 ≤ m) (hm : ∀ x, ‖opLin A x‖ ≤ m * ‖x‖) {xs : ℓ²} (hxs : xs ∈ pen1.fn.dom)
    (hmin : ∀ y ∈ pen1.fn.dom, f.fn xs + pen1.fn.val xs + pen2.fn.val (opLin A xs) ≤ f.fn y + pen1.fn.val y + pen2.fn.val (opLin A y)) {σ τ : ℝ} (hσ : 0 < σ) (hτ : 0 < τ)
    (hσL : 0 < 1 / σ - f.lipschitz sv / 2) (hstep : m ^ 2 < (1 / σ - f.lipschitz sv / 2) * (1 / τ)) (R : ℝ) :
    ∃ C, 0 < C ∧ (∀ (rd fexp : ℝ → ℝ) (u eta w : ℝ), Rounding rd u eta → u ≤ w → eta ≤ w ^ 2 → (∀ t ≤ 0, |fexp t - Real.exp t| ≤ w) →
      ∀ P : FlPDArgs d p, 0 < P.maxIter → C * P.maxIter * w ≤ 1 → P.stepSize = σ → flPdTau rd P = τ → norm2 P.x0 ≤ R → (∀ k x, f.FlGrad rd fexp x (P.grad k x)) →
        (∀ k v, pen1.FlProxE rd v P.stepSize (P.prox1 k v P.stepSize)) → (∀ k v, pen2.FlProxE rd v (rd (1 / τ)) (P.prox2 k v (rd (1 / τ)))) → (∀ k v, FlNorm rd v (P.normX k v)) →
        (∀ k v, FlNorm rd v (P.normY k v)) → (∀ k x i, FlRow rd (A i) x (P.matvec k x i)) → (∀ k y j, FlRow rd (fun i => A i j) y (P.rmatvec k y j)) →
        ∃ r, flMinimizePD rd P = .ok r ∧ FlPdGuarantee f.gradE pen1.fn pen2.fn (opLin A) (opLinT A) C w P.tol P.maxIter r ∧
          FlPdValue (fun x => f.fn x + pen1.fn.val x + pen2.fn.val (opLin A x)) pen1.fn.dom xs C w r) ∧
      ∀ tol > 0, ∃ (N : ℕ) (C' : ℝ), 0 < C' ∧ ∀ (rd fexp : ℝ → ℝ) (u eta w : ℝ), Rounding rd u eta → u ≤ w → eta ≤ w ^ 2 → (∀ t ≤ 0, |fexp t - Real.exp t| ≤ w) → C' * w ≤ 1 →
        ∀ P : FlPDArgs d p, P.tol = tol → N ≤ P.maxIter → P.stepSize = σ → flPdTau rd P = τ → norm2 P.x0 ≤ R → (∀ k x, f.FlGrad rd fexp x (P.grad k x)) →
          (∀ k v, pen1.FlProxE rd v P.stepSize (P.prox1 k v P.stepSize)) → (∀ k v, pen2.FlProxE rd v (rd (1 / τ)) (P.prox2 k v (rd (1 / τ)))) → (∀ k v, FlNorm rd v (P.normX k v)) →
          (∀ k v, FlNorm rd v (P.normY k v)) → (∀ k x i, FlRow rd (A i) x (P.matvec k x i)) → (∀ k y j, FlRow rd (fun i => A i j) y (P.rmatvec k y j)) →
          ∃ r, flMinimizePD rd P = .ok r ∧ r.success = true ∧ r.nit < N ∧ FlPdGuarantee f.gradE pen1.fn pen2.fn (opLin A) (opLinT A) C w P.tol P.maxIter r ∧
            FlPdValue (fun x => f.fn x + pen1.fn.val x + pen2.fn.val (opLin A x)) pen1.fn.dom xs C w r := by
  obtain ⟨-, hconv, hq, -, -⟩ := C92_loss f hf hsv
  obtain ⟨hG, hp1, -, -⟩ := C92_prox_exact pen1 hpen1.good
  obtain ⟨hH, hp2, -, hl3⟩ := C102_prox_exact (.pen pen2) hpen2.good
  obtain ⟨hl0, efn, hl⟩ := hl3 l hlip
  replace hH : pen2.fn.IsConvex := hH
  replace hp2 : IsProxOf pen2.fn pen2.proxE := hp2
  replace efn : pen2.fn = ⟨Set.univ, pen2.fn.val⟩ := efn
  replace hl : ∀ a b, pen2.fn.val a - pen2.fn.val b ≤ l * ‖a - b‖ := hl
  have hcont : Continuous pen2.fn.val := by
    have : LipschitzWith ⟨l, hl0⟩ pen2.fn.val := LipschitzWith.of_dist_le_mul fun a b => by
      rw [Real.dist_eq, dist_eq_norm, abs_le]
      have h1 := hl a b
      have h2 := hl b a
      rw [norm_sub_rev] at h2
      exact ⟨by show -(l * ‖a - b‖) ≤ _; linarith, h1⟩
    exact this.continuous
  have hH' : ConvexOn ℝ Set.univ pen2.fn.val := by
    have := hH
    rw [efn] at this
    exact this
  obtain ⟨ys, hys, hgs⟩ := exists_saddle (opLin A) hG hconv hq hH' hcont hxs hmin
  replace hys : IsSubgrad pen2.fn (opLin A xs) ys := by rw [efn]; exact hys
  replace hgs : IsSubgrad pen1.fn xs (-opLinT A ys - f.gradE xs) := hgs (opLinT A ys) fun x => by rw [real_inner_comm, ← opLin_adjoint, real_inner_comm]
  obtain ⟨K, Q, hK, hQ, hO⟩ := flPDOracles_library f hf pen1 pen2 hpen1 hpen2 A hσ hτ
  obtain ⟨C0, hC0, h1, h2⟩ := C131_rounded_primal_dual (d := d) (p := p) hG hH hp1 hp2 (opLin_adjoint A) hL hconv hq hm0 hm hσ hτ hσL hstep hys hgs hK R
  obtain ⟨C1, hC1, hval⟩ := FlPdGuarantee.value (G := pen1.fn) (opLin_adjoint A) hconv hl0 hl hxs hC0.le
  rw [← efn] at hval
  obtain ⟨C, hC⟩ : ∃ C, C = C1 + Q := ⟨_, rfl⟩
  have hCC1 : C1 ≤ C := by rw [hC]; linarith
  have hCC0 : C0 ≤ C := hC1.trans hCC1
  refine ⟨C, by linarith, ?_, ?_⟩
  · intro rd fexp u eta w hr hu he hexp P hm hn hst hta hx0 hgr hpr1 hpr2 hnX hnY hmv hrmv
    have hw0 : 0 ≤ w := hr.u_nonneg.trans hu
    have hm1 : (1 : ℝ) ≤ P.maxIter := by exact_mod_cast hm
    have small : ∀ a, 0 ≤ a → a ≤ C → a * P.maxIter * w ≤ 1 ∧ a * w ≤ 1 := by
      intro a ha h
      have t1 : a * P.maxIter * w ≤ C * P.maxIter * w := mul_le_mul_of_nonneg_right (mul_le_mul_of_nonneg_right h (by linarith)) hw0
      have t2 : a * w ≤ a * P.maxIter * w := mul_le_mul_of_nonneg_right (by nlinarith) hw0
      exact ⟨by linarith, by linarith⟩
    have o := hO rd fexp u eta w hr hu he hexp (small Q hQ (by rw [hC]; linarith)).2 P hst hgr hpr1 hpr2 hnX hnY hmv hrmv
    obtain ⟨r, e, c⟩ := h1 rd u eta w hr hu he P hm (small C0 hC0.le hCC0).1 hst hta hx0 o
    exact ⟨r, e, c.mono hCC0 hw0, hval C hCC1 w _ _ r hw0 c⟩
  · intro tol htol
    obtain ⟨N, C', hC', h3⟩ := h2 tol htol
    refine ⟨N, C' + Q, by linarith, ?_⟩
    intro rd fexp u eta w hr hu he hexp hw P hPt hN hst hta hx0 hgr hpr1 hpr2 hnX hnY hmv hrmv
    have hw0 : 0 ≤ w := hr.u_nonneg.trans hu
    have t1 : 0 ≤ C' * w := by positivity
    have t2 : 0 ≤ Q * w := by positivity
    have o := hO rd fexp u eta w hr hu he hexp (by linarith) P hst hgr hpr1 hpr2 hnX hnY hmv hrmv
    obtain ⟨r, e, hsu, hni, c⟩ := h3 rd u eta w hr hu he (by linarith) P hPt hN hst hta hx0 o
    exact ⟨r, e, hsu, hni, c.mono hCC0 hw0, hval C hCC1 w _ _ r hw0 c⟩

/-! ### Instances -/

/-- On the l1 ball every loss with an l1 penalty of a linear image has a minimiser. -/
theorem exists_minimiser_l1Ball_lin (f : LossObj n d) (hf : f.Good) {sv : ℝ} (hsv : IsLargestSingular f.mat sv) (A : Fin p → Fin d → ℝ) {alpha beta : ℝ} (ha : 0 < alpha) :
    ∃ xs ∈ (PenObj.l1Ball (d := d) alpha).fn.dom, ∀ y ∈ (PenObj.l1Ball (d := d) alpha).fn.dom,
      f.fn xs + (PenObj.l1Ball (d := d) alpha).fn.val xs + (PenObj.l1Norm (d := p) beta).fn.val (opLin A xs) ≤
        f.fn y + (PenObj.l1Ball (d := d) alpha).fn.val y + (PenObj.l1Norm (d := p) beta).fn.val (opLin A y) := by
  obtain ⟨-, hconv, hq, -, -⟩ := C92_loss f hf hsv
  have hc : Continuous fun x : ℓ² => ∑ i, |x i| := by fun_prop
  have hcA : Continuous fun x : ℓ² => ∑ i, |opLin A x i| := by
    have h1 : Continuous (opLin A) := LinearMap.continuous_of_finiteDimensional _
    have h2 : Continuous fun x : ℓ²p => ∑ i, |x i| := by fun_prop
    exact h2.comp h1
  have hcl : IsClosed {x : ℓ² | WithLp.ofLp x ∈ Spec.l1Ball alpha} := isClosed_le hc continuous_const
  have hbd : Bornology.IsBounded {x : ℓ² | WithLp.ofLp x ∈ Spec.l1Ball alpha} := by
    refine (Metric.isBounded_closedBall (x := (0 : ℓ²)) (r := d * alpha)).subset fun x hx => ?_
    rw [mem_closedBall_zero_iff]
    refine norm_le_of_coord x fun j => ?_
    exact (Finset.single_le_sum (f := fun j => |x j|) (fun _ _ => abs_nonneg _) (Finset.mem_univ j)).trans hx
  have hne : ({x : ℓ² | WithLp.ofLp x ∈ Spec.l1Ball alpha}).Nonempty := ⟨0, by
    show ∑ i : Fin d, |(0 : ℝ)| ≤ alpha
    simp; exact ha.le⟩
  have hcont : Continuous fun x : ℓ² => f.fn x + beta * ∑ i, |opLin A x i| := (continuous_of_smooth hconv hq).add (continuous_const.mul hcA)
  obtain ⟨xs, hxs, hm⟩ := (Metric.isCompact_of_isClosed_isBounded hcl hbd).exists_isMinOn hne hcont.continuousOn
  refine ⟨xs, hxs, fun y hy => ?_⟩
  have h1 : f.fn xs + beta * ∑ i, |opLin A xs i| ≤ f.fn y + beta * ∑ i, |opLin A y i| := hm hy
  show f.fn xs + 0 + beta * ∑ i, |opLin A xs i| ≤ f.fn y + 0 + beta * ∑ i, |opLin A y i|
  linarith

theorem exists_flRow (rd : ℝ → ℝ) {m : ℕ} (a y : Fin m → ℝ) : ∃ s, FlRow rd a y s := by
  have key : ∀ l : List (ℝ × ℝ), l = [] ∨ ∃ s, FlDot rd l s := by
    intro l
    induction l with
    | nil => exact .inl rfl
    | cons b l ih =>
      rcases ih with rfl | ⟨s, hs⟩
      · exact .inr ⟨_, FlDot.single b.1 b.2⟩
      · exact .inr ⟨_, FlDot.fma b.1 b.2 hs⟩
  rcases key ((List.finRange m).map fun j => (a j, y j)) with h | ⟨s, hs⟩
  · exact ⟨0, List.finRange m, List.nodup_finRange m, fun j hj => absurd (List.mem_finRange j) hj, .inl ⟨by simpa using h, rfl⟩⟩
  · exact ⟨s, List.finRange m, List.nodup_finRange m, fun j hj => absurd (List.mem_finRange j) hj, .inr hs⟩

/-- C131 for every loss, data set and matrix with an l1 penalty of the linear image on the l1 ball of any radius: rounding to `q + 1` bits for every large enough `q`, with the zero vector as starting
point and the results of a sequential implementation with fused multiply-add instructions.  With a fixed positive tolerance every long enough run succeeds. -/
example (hn : 0 < n) (hd : 0 < d) (hp : 0 < p) (f : LossObj n d) (hf : f.Good) {sv : ℝ} (hsv : IsLargestSingular f.mat sv) (hL : 0 < f.lipschitz sv) (A : Fin p → Fin d → ℝ) {m : ℝ} (hm0 : 0 ≤ m)
    (hm : ∀ x, ‖opLin A x‖ ≤ m * ‖x‖) {alpha beta : ℝ} (ha : 0 < alpha) (hb : 0 ≤ beta) {tol : ℝ} (htol : 0 < tol) :
    ∃ (N q0 : ℕ), ∀ q ≥ q0, ∃ P : FlPDArgs d p, P.x0 = 0 ∧ P.tol = tol ∧ (∀ k x, f.FlGrad (flBits q) (fun t => flBits q (Real.exp t)) x (P.grad k x)) ∧
        (∀ k v, (PenObj.l1Ball alpha).FlProxE (flBits q) v P.stepSize (P.prox1 k v P.stepSize)) ∧ (∀ k x i, FlRow (flBits q) (A i) x (P.matvec k x i)) ∧
        ∀ k ≥ N, ∃ r, flMinimizePD (flBits q) { P with maxIter := k } = .ok r ∧ r.success = true ∧ r.nit < N := by
  obtain ⟨xs, hxs, hmin⟩ := exists_minimiser_l1Ball_lin f hf hsv A (beta := beta) ha
  have hpen1 : (PenObj.l1Ball (d := d) alpha).FlGoodE := ha
  have hpen2 : (PenObj.l1Norm (d := p) beta).FlGoodE := hb
  obtain ⟨σ, hσd⟩ : ∃ σ, σ = (f.lipschitz sv)⁻¹ := ⟨_, rfl⟩
  obtain ⟨τ, hτd⟩ : ∃ τ, τ = f.lipschitz sv / (2 * (m ^ 2 + 1)) := ⟨_, rfl⟩
  have hσ : 0 < σ := by rw [hσd]; positivity
  have hτ : 0 < τ := by rw [hτd]; positivity
  have e1 : 1 / σ - f.lipschitz sv / 2 = f.lipschitz sv / 2 := by rw [hσd, one_div, inv_inv]; ring
  have e2 : f.lipschitz sv / 2 * (1 / τ) = m ^ 2 + 1 := by rw [hτd]; field_simp
  obtain ⟨C, -, -, h⟩ := C131_rounded_regression f hf hsv hL (.l1Ball alpha) (.l1Norm beta) hpen1 hpen2 rfl A hm0 hm hxs hmin hσ hτ (by rw [e1]; positivity) (by rw [e1, e2]; linarith)
    (norm2 (0 : Fin d → ℝ))
  obtain ⟨N, C', hC', h⟩ := h tol htol
  obtain ⟨q0, hq0⟩ := exists_pow_lt_of_lt_one (show 0 < 1 / C' by positivity) (show (2⁻¹ : ℝ) < 1 by norm_num)
  refine ⟨N, q0, fun q hq => ?_⟩
  have hw : (2⁻¹ : ℝ) ^ q * C' < 1 := by
    rw [← lt_div_iff₀ hC']
    exact lt_of_le_of_lt (pow_le_pow_of_le_one (by norm_num) (by norm_num) hq) hq0
  have hpos : (0 : ℝ) < 2⁻¹ ^ q := by positivity
  have hhalf : (2⁻¹ : ℝ) ^ (q + 1) = 2⁻¹ ^ q / 2 := by rw [pow_succ]; ring
  have hr := flBits_rounding (p := q) (eta := 0) le_rfl
  choose gr hgr using fun x => f.exists_flGrad (flBits q) (fun t => flBits q (Real.exp t)) hn hd x
  choose pr1 hpr1 using fun v => (PenObj.l1Ball (d := d) alpha).exists_flProxE (flBits q) hd hpen1 v σ
  choose pr2 hpr2 using fun v => (PenObj.l1Norm (d := p) beta).exists_flProxE (flBits q) hp hpen2 v (flBits q (1 / τ))
  choose no hno using fun v : Fin d → ℝ => exists_flNorm (flBits q) hd v
  choose no' hno' using fun v : Fin p → ℝ => exists_flNorm (flBits q) hp v
  choose mv hmv using fun (x : Fin d → ℝ) (i : Fin p) => exists_flRow (flBits q) (A i) x
  choose rmv hrmv using fun (y : Fin p → ℝ) (j : Fin d) => exists_flRow (flBits q) (fun i => A i j) y
  refine ⟨⟨fun _ => gr, fun _ v _ => pr1 v, fun _ v _ => pr2 v, fun _ => mv, fun _ => rmv, fun _ => no, fun _ => no', σ, some τ, 0, tol, N⟩, rfl, rfl, fun _ => hgr, fun _ => hpr1, fun _ => hmv, fun k hk => ?_⟩
  obtain ⟨r, e, hsu, hnit, -⟩ := h (flBits q) (fun t => flBits q (Real.exp t)) (2⁻¹ ^ (q + 1)) 0 (2⁻¹ ^ q) hr (by rw [hhalf]; linarith) (by positivity) (fun t ht => by
      have h1 := hr.err (Real.exp t)
      rw [abs_of_pos (Real.exp_pos t), add_zero] at h1
      have h2 : Real.exp t ≤ 1 := Real.exp_le_one_iff.mpr ht
      have h3 := mul_le_mul_of_nonneg_left h2 (show (0 : ℝ) ≤ 2⁻¹ ^ (q + 1) by positivity)
      rw [hhalf] at h1 h3
      linarith) (by linarith)
    ⟨fun _ => gr, fun _ v _ => pr1 v, fun _ v _ => pr2 v, fun _ => mv, fun _ => rmv, fun _ => no, fun _ => no', σ, some τ, 0, tol, k⟩ rfl hk rfl rfl le_rfl (fun _ => hgr) (fun _ => hpr1)
    (fun _ => hpr2) (fun _ => hno) (fun _ => hno') (fun _ => hmv) (fun _ => hrmv)
  exact ⟨r, e, hsu, hnit⟩

end Copt
