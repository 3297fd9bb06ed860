import Verif.Proof.FloatSplit
import Verif.Props.FloatConvex
import Verif.Props.SplittingObjects

/-!
# Property C130: the three operator splitting with rounded arithmetic
-/

set_option linter.unusedSectionVars false

namespace Copt

open Spec

open scoped InnerProductSpace

variable {n d : ℕ}

local notation "ℓ²" => EuclideanSpace ℝ (Fin d)

/-! ### Runs -/

/-- The arguments of a proximal gradient method with the same gradient and first proximal operator. -/
def FlTSArgs.first (P : FlTSArgs d) : FlPGArgsE d := ⟨P.grad, P.prox1, P.norm, fun _ => P.step, P.x0, P.tol, P.maxIter⟩

/-- The same with the second proximal operator. -/
def FlTSArgs.second (P : FlTSArgs d) : FlPGArgsE d := ⟨P.grad, P.prox2, P.norm, fun _ => P.step, P.x0, P.tol, P.maxIter⟩

section Orbit

variable (rd : ℝ → ℝ) (P : FlTSArgs d) (pr1 pr2 : ℕ → (Fin d → ℝ) → ℝ → Fin d → ℝ)

/-- `x` of iteration `k`, from `z` and `u`. -/
def flTsX (k : ℕ) (z u : Fin d → ℝ) : Fin d → ℝ := pr1 (k + 1) (flTsArg rd P.step (P.grad (k + 1) z) z u) P.step

/-- `z` and `u` at the start of iteration `k` of a run whose oracles return. -/
noncomputable def flTsOrbit : ℕ → (Fin d → ℝ) × (Fin d → ℝ)
  | 0 => (pr2 0 P.x0 P.step, 0)
  | k + 1 =>
    let s := flTsOrbit k
    let x := flTsX rd P pr1 k s.1 s.2
    (pr2 (k + 1) (flTsPoint rd P.step x s.2) P.step, flTsDual rd P.step s.2 x (pr2 (k + 1) (flTsPoint rd P.step x s.2) P.step))

/-- `x` of iteration `k`. -/
noncomputable def flTsXs (k : ℕ) : Fin d → ℝ := flTsX rd P pr1 k (flTsOrbit rd P pr1 pr2 k).1 (flTsOrbit rd P pr1 pr2 k).2

/-- The argument of the second proximal operator. -/
noncomputable def flTsVs (k : ℕ) : Fin d → ℝ := flTsPoint rd P.step (flTsXs rd P pr1 pr2 k) (flTsOrbit rd P pr1 pr2 k).2

/-- The certificate. -/
noncomputable def flTsCert (k : ℕ) : ℝ := rd (P.norm k (fun j => rd (flTsXs rd P pr1 pr2 k j - (flTsOrbit rd P pr1 pr2 k).1 j)) / P.step)

/-- Iteration `k`. -/
noncomputable def flTsIter (w : ℝ) (k : ℕ) : TsIter d :=
  ⟨rd, w, P.grad (k + 1) (flTsOrbit rd P pr1 pr2 k).1, (flTsOrbit rd P pr1 pr2 k).1, (flTsOrbit rd P pr1 pr2 k).2, flTsXs rd P pr1 pr2 k, (flTsOrbit rd P pr1 pr2 (k + 1)).1,
    P.norm k (fun j => rd (flTsXs rd P pr1 pr2 k j - (flTsOrbit rd P pr1 pr2 k).1 j))⟩

theorem flTsLoop_spec : ∀ m it s, s = flTsOrbit rd P pr1 pr2 it →
    (∀ k, it ≤ k → k ≤ it + m →
      P.prox1 (k + 1) (flTsArg rd P.step (P.grad (k + 1) (flTsOrbit rd P pr1 pr2 k).1) (flTsOrbit rd P pr1 pr2 k).1 (flTsOrbit rd P pr1 pr2 k).2) P.step = .ok (flTsXs rd P pr1 pr2 k) ∧
      P.prox2 (k + 1) (flTsVs rd P pr1 pr2 k) P.step = .ok (flTsOrbit rd P pr1 pr2 (k + 1)).1) →
    ∃ r, flTsLoop rd P m it s.1 s.2 = .ok r ∧ r.nit ≤ it + m ∧ r.x = flTsXs rd P pr1 pr2 r.nit ∧ r.certificate = flTsCert rd P pr1 pr2 r.nit ∧
      (r.success = true → 0 < r.nit ∧ r.certificate < P.tol) ∧ (r.success = false → r.nit = it + m ∧ (0 < r.nit → P.tol ≤ r.certificate)) := by
  intro m
  induction m with
  | zero =>
    intro it s hs hp
    subst hs
    obtain ⟨h1, h2⟩ := hp it le_rfl le_rfl
    rw [flTsLoop, h1]
    simp only [bind, Except.bind]
    unfold flTsVs at h2
    rw [h2]
    simp only [pure, Except.pure]
    by_cases hc : 0 < it ∧ flTsCert rd P pr1 pr2 it < P.tol
    · rw [if_pos (by exact hc)]
      exact ⟨_, rfl, le_rfl, rfl, rfl, fun _ => hc, fun h => absurd h (by simp)⟩
    · rw [if_neg (by exact hc)]
      refine ⟨_, rfl, le_rfl, rfl, rfl, fun h => absurd h (by simp), fun _ => ⟨rfl, fun h => ?_⟩⟩
      by_contra hlt
      exact hc ⟨h, not_le.mp hlt⟩
  | succ m ih =>
    intro it s hs hp
    subst hs
    obtain ⟨h1, h2⟩ := hp it le_rfl (by omega)
    rw [flTsLoop, h1]
    simp only [bind, Except.bind]
    unfold flTsVs at h2
    rw [h2]
    simp only [pure, Except.pure]
    by_cases hc : 0 < it ∧ flTsCert rd P pr1 pr2 it < P.tol
    · rw [if_pos (by exact hc)]
      exact ⟨_, rfl, by simp, rfl, rfl, fun _ => hc, fun h => absurd h (by simp)⟩
    · rw [if_neg (by exact hc)]
      obtain ⟨r, e, a1, a2, a3, a4, a5⟩ := ih (it + 1) _ rfl fun k hk1 hk2 => hp k (by omega) (by omega)
      exact ⟨r, e, by omega, a2, a3, a4, fun h => ⟨by have := (a5 h).1; omega, (a5 h).2⟩⟩

/-- A run which succeeds does not depend on the remaining number of iterations. -/
theorem flTsLoop_persist : ∀ m m' it z u r, m ≤ m' → flTsLoop rd P m it z u = .ok r → r.success = true → flTsLoop rd P m' it z u = .ok r := by
  intro m
  induction m with
  | zero =>
    intro m' it z u r _ h hs
    rw [flTsLoop] at h ⊢
    cases h1 : P.prox1 (it + 1) (flTsArg rd P.step (P.grad (it + 1) z) z u) P.step with
    | error e => rw [h1] at h; cases h
    | ok x =>
      rw [h1] at h
      simp only [bind, Except.bind] at h ⊢
      cases h2 : P.prox2 (it + 1) (flTsPoint rd P.step x u) P.step with
      | error e => rw [h2] at h; cases h
      | ok zN =>
        rw [h2] at h
        simp only [pure, Except.pure] at h ⊢
        split_ifs at h ⊢ with hc
        · exact h
        · cases h; simp at hs
  | succ m ih =>
    intro m' it z u r hm h hs
    rw [flTsLoop] at h ⊢
    cases h1 : P.prox1 (it + 1) (flTsArg rd P.step (P.grad (it + 1) z) z u) P.step with
    | error e => rw [h1] at h; cases h
    | ok x =>
      rw [h1] at h
      simp only [bind, Except.bind] at h ⊢
      cases h2 : P.prox2 (it + 1) (flTsPoint rd P.step x u) P.step with
      | error e => rw [h2] at h; cases h
      | ok zN =>
        rw [h2] at h
        simp only [pure, Except.pure] at h ⊢
        split_ifs at h ⊢ with hc
        · exact h
        · obtain ⟨m', rfl⟩ : ∃ i, m' = i + 1 := ⟨m' - 1, by omega⟩
          exact ih _ _ _ _ _ (by omega) h hs

end Orbit

/-! ### One iteration against the exact operator -/

theorem ts_step {G : ExtFun ℓ²} (hG : G.IsConvex) {p1 p2 : ℓ² → ℝ → ℓ²} (h1 : IsProxOf G p1) {g : ℓ² → ℓ²} {L s : ℝ}
    (hg : ∀ x y, ‖g x - g y‖ ≤ L * ‖x - y‖) (hs : 0 < s) {c a : ℝ} {i : TsIter d} (hi : i.Local g p1 p2 s c) {v : ℓ²} (hz : ‖(WithLp.toLp 2 i.z : ℓ²) - p2 v s‖ ≤ a * i.w)
    (hu : ‖(WithLp.toLp 2 i.u : ℓ²) - dyU p2 s v‖ ≤ a * i.w) (hL : 0 ≤ L) :
    ‖(WithLp.toLp 2 i.x : ℓ²) - dyX p1 p2 g s v‖ ≤ (c + (1 + s + s * L) * a) * i.w ∧
    ‖(WithLp.toLp 2 (flTsPoint i.rd s i.x i.u) : ℓ²) - dyT p1 p2 g s v‖ ≤ (c + (1 + 2 * s + s * L) * a) * i.w ∧
    |i.rd (i.nrm / s) - ‖dyT p1 p2 g s v - v‖ / s| ≤ (c + (2 + s + s * L) * a / s) * i.w := by
  obtain ⟨Z, hZ⟩ : ∃ Z : ℓ², Z = WithLp.toLp 2 i.z := ⟨_, rfl⟩
  obtain ⟨U, hU⟩ : ∃ U : ℓ², U = WithLp.toLp 2 i.u := ⟨_, rfl⟩
  have b1 := hi.x
  have b2 := hi.point
  have b3 := hi.cert
  rw [← hZ, ← hU] at b1 b2
  rw [← hZ, ← hU] at b3
  rw [← hZ] at hz
  rw [← hU] at hu
  obtain ⟨X, hX⟩ : ∃ X : ℓ², X = p1 (Z - s • (U + g Z)) s := ⟨_, rfl⟩
  have key : ‖X - dyX p1 p2 g s v‖ ≤ (1 + s + s * L) * a * i.w := by
    have e := (h1 (Z - s • (U + g Z)) s hs).nonexpansive hG hs (h1 (p2 v s - s • (dyU p2 s v + g (p2 v s))) s hs)
    rw [hX]
    unfold dyX
    refine e.trans ?_
    have e2 : Z - s • (U + g Z) - (p2 v s - s • (dyU p2 s v + g (p2 v s))) = (Z - p2 v s) - s • ((U - dyU p2 s v) + (g Z - g (p2 v s))) := by module
    rw [e2]
    have e3 := norm_sub_le (Z - p2 v s) (s • ((U - dyU p2 s v) + (g Z - g (p2 v s))))
    rw [norm_smul, Real.norm_eq_abs, abs_of_pos hs] at e3
    have e4 := norm_add_le (U - dyU p2 s v) (g Z - g (p2 v s))
    have e5 := hg Z (p2 v s)
    have e6 := mul_le_mul_of_nonneg_left hz hL
    have e7 : s * ‖U - dyU p2 s v + (g Z - g (p2 v s))‖ ≤ s * (a * i.w + L * (a * i.w)) := mul_le_mul_of_nonneg_left (by linarith) hs.le
    linarith
  rw [← hX] at b1 b2 b3
  refine ⟨?_, ?_, ?_⟩
  · have := norm_sub_le_norm_sub_add_norm_sub (WithLp.toLp 2 i.x : ℓ²) X (dyX p1 p2 g s v)
    linarith
  · have e1 := norm_sub_le_norm_sub_add_norm_sub (WithLp.toLp 2 (flTsPoint i.rd s i.x i.u) : ℓ²) (X + s • U) (dyT p1 p2 g s v)
    have e2 : X + s • U - dyT p1 p2 g s v = (X - dyX p1 p2 g s v) + s • (U - dyU p2 s v) := by unfold dyT; module
    rw [e2] at e1
    have e3 := norm_add_le (X - dyX p1 p2 g s v) (s • (U - dyU p2 s v))
    rw [norm_smul, Real.norm_eq_abs, abs_of_pos hs] at e3
    have e4 := mul_le_mul_of_nonneg_left hu hs.le
    linarith
  · have e1 := abs_sub_le (i.rd (i.nrm / s)) (‖X - Z‖ / s) (‖dyT p1 p2 g s v - v‖ / s)
    rw [dyT_sub hs] at e1 ⊢
    have e2 : |‖X - Z‖ / s - ‖dyX p1 p2 g s v - p2 v s‖ / s| ≤ (2 + s + s * L) * a * i.w / s := by
      rw [← sub_div, abs_div, abs_of_pos hs]
      refine div_le_div_of_nonneg_right ?_ hs.le
      refine (abs_norm_sub_norm_le _ _).trans ?_
      rw [show X - Z - (dyX p1 p2 g s v - p2 v s) = (X - dyX p1 p2 g s v) - (Z - p2 v s) by abel]
      have := norm_sub_le (X - dyX p1 p2 g s v) (Z - p2 v s)
      linarith
    have e3 : (2 + s + s * L) * a * i.w / s = (2 + s + s * L) * a / s * i.w := by ring
    linarith

/-- What holds at iteration `k ≥ 1`: `v` is the exact internal point. -/
structure FlTsState (g : ℓ² → ℓ²) (p1 p2 : ℓ² → ℝ → ℓ²) (s C w : ℝ) (k : ℕ) (x : Fin d → ℝ) (cert : ℝ) (v : ℓ²) : Prop where
  v_le : ‖v‖ ≤ C
  x_near : ‖(WithLp.toLp 2 x : ℓ²) - dyX p1 p2 g s v‖ ≤ C * w
  cert_near : |cert - ‖dyT p1 p2 g s v - v‖ / s| ≤ C * w
  cert_le : cert ≤ C * (1 / √(k : ℝ) + (k : ℝ) * w)

set_option maxHeartbeats 1600000 in
theorem flTs_track {G H : ExtFun ℓ²} (hG : G.IsConvex) (hH : H.IsConvex) {p1 p2 : ℓ² → ℝ → ℓ²} (h1 : IsProxOf G p1) (h2 : IsProxOf H p2) {f : ℓ² → ℝ} {g : ℓ² → ℓ²} {L s : ℝ} (hL : 0 < L)
    (hf : ConvexGrad f g) (hq : UpperQuad f g L) (hs : 0 < s) (hsL : s * L < 2) {zs us : ℓ²} (hu : IsSubgrad H zs us) (hgs : IsSubgrad G zs (-us - g zs)) {K : ℝ} (hK : 0 ≤ K) (R : ℝ) :
    ∃ C, 1 ≤ C ∧ ∀ (rd : ℝ → ℝ) (u eta w : ℝ), Rounding rd u eta → u ≤ w → eta ≤ w ^ 2 → C * w ≤ 1 →
      ∀ P : FlTSArgs d, P.step = s → (∀ j, rd (P.x0 j) = P.x0 j) → norm2 P.x0 ≤ R → FlOraclesE rd P.first g p1 K w → FlOraclesE rd P.second g p2 K w →
        ∃ pr1 pr2, (P.prox2 0 P.x0 P.step = .ok (flTsOrbit rd P pr1 pr2 0).1) ∧
          (∃ x, P.prox1 0 (fun j => rd ((flTsOrbit rd P pr1 pr2 0).1 j - rd (P.step * P.grad 0 (flTsOrbit rd P pr1 pr2 0).1 j))) P.step = .ok x) ∧
          ∀ k : ℕ, C * (k + 1) * w ≤ 1 →
            (P.prox1 (k + 1) (flTsArg rd P.step (P.grad (k + 1) (flTsOrbit rd P pr1 pr2 k).1) (flTsOrbit rd P pr1 pr2 k).1 (flTsOrbit rd P pr1 pr2 k).2) P.step = .ok (flTsXs rd P pr1 pr2 k) ∧
              P.prox2 (k + 1) (flTsVs rd P pr1 pr2 k) P.step = .ok (flTsOrbit rd P pr1 pr2 (k + 1)).1) ∧
            (1 ≤ k → ∃ v, FlTsState g p1 p2 s C w k (flTsXs rd P pr1 pr2 k) (flTsCert rd P pr1 pr2 k) v) := by
  have hd0 : (0 : ℝ) ≤ d := Nat.cast_nonneg d
  have hglip := lip_of_cocoercive hL hf hq
  obtain ⟨Bg, hBg0, hBg⟩ := grad_growth (d := d) hL hf hq
  obtain ⟨Dp, hDp0, hDp⟩ := flPgPoint_norm (d := d) hK hBg0 hs.le hBg
  obtain ⟨vs, hvs⟩ : ∃ vs, vs = zs + s • us := ⟨_, rfl⟩
  obtain ⟨α, hα⟩ : ∃ α, α = 1 - s * L / 2 := ⟨_, rfl⟩
  have hα0 : 0 < α := by rw [hα]; linarith
  have hTn := dyT_nonexpansive hG hH h1 h2 hL hs hsL hf hq
  have hTf := dyT_fejer hG hH h1 h2 hL hs hf hq hu hgs
  rw [← hvs, ← hα] at hTf
  have hp2n : ∀ v v', ‖p2 v s - p2 v' s‖ ≤ ‖v - v'‖ := fun v v' => (h2 _ s hs).nonexpansive hH hs (h2 _ s hs)
  have hUn : ∀ v v', ‖dyU p2 s v - dyU p2 s v'‖ ≤ s⁻¹ * (2 * ‖v - v'‖) := by
    intro v v'
    unfold dyU
    rw [← smul_sub, norm_smul, Real.norm_eq_abs, abs_of_pos (inv_pos.mpr hs)]
    refine mul_le_mul_of_nonneg_left ?_ (inv_pos.mpr hs).le
    rw [show v - p2 v s - (v' - p2 v' s) = (v - v') - (p2 v s - p2 v' s) by abel]
    have := norm_sub_le (v - v') (p2 v s - p2 v' s)
    linarith [hp2n v v']
  -- the first iteration
  obtain ⟨B0, hB0⟩ : ∃ B0, B0 = ‖p2 0 s‖ + |R| + d * (K * (1 + |R|)) := ⟨_, rfl⟩
  have hB00 : 0 ≤ B0 := by rw [hB0]; positivity
  obtain ⟨c0, hc0, hloc0⟩ := ts_local (B := B0) hG hH h1 h2 hL.le hglip hs hK
  obtain ⟨ρ, hρ⟩ : ∃ ρ, ρ = c0 + ‖vs‖ := ⟨_, rfl⟩
  have hρ0 : 0 ≤ ρ := by rw [hρ]; positivity
  -- all iterations
  obtain ⟨B, hB⟩ : ∃ B, B = B0 + (ρ + 1 + ‖p2 vs s‖ + 1) + (s⁻¹ * (2 * (ρ + 1)) + ‖dyU p2 s vs‖ + 1) := ⟨_, rfl⟩
  have hsi : 0 ≤ s⁻¹ * (2 * (ρ + 1)) := by positivity
  have hBge : B0 ≤ B ∧ ρ + 1 + ‖p2 vs s‖ + 1 ≤ B ∧ s⁻¹ * (2 * (ρ + 1)) + ‖dyU p2 s vs‖ + 1 ≤ B := by
    have := norm_nonneg (p2 vs s)
    have := norm_nonneg (dyU p2 s vs)
    rw [hB]
    exact ⟨by linarith, by linarith, by linarith⟩
  have hBn : 0 ≤ B := hB00.trans hBge.1
  obtain ⟨c, hc, hloc⟩ := ts_local (B := B) hG hH h1 h2 hL.le hglip hs hK
  obtain ⟨c1, hc1⟩ : ∃ c1, c1 = c + (1 + 2 * s + s * L) * c := ⟨_, rfl⟩
  have hc10 : 0 ≤ c1 := by rw [hc1]; positivity
  obtain ⟨c2, hc2⟩ : ∃ c2, c2 = c + (2 + s + s * L) * c / s := ⟨_, rfl⟩
  have hc20 : 0 ≤ c2 := by rw [hc2]; positivity
  obtain ⟨V, hV⟩ : ∃ V, V = 1 + c + Dp * (1 + B0) + |R| := ⟨_, rfl⟩
  have hV0 : 0 ≤ V := by rw [hV]; positivity
  have hKV : 0 ≤ K * V := by positivity
  obtain ⟨c3, hc3⟩ : ∃ c3, c3 = ρ / √α / s := ⟨_, rfl⟩
  have hc30 : 0 ≤ c3 := by rw [hc3]; positivity
  obtain ⟨c4, hc4⟩ : ∃ c4, c4 = 2 * c1 / s := ⟨_, rfl⟩
  have hc40 : 0 ≤ c4 := by rw [hc4]; positivity
  obtain ⟨C, hC⟩ : ∃ C, C = 1 + c + c1 + c2 + c3 + c4 + K * V + (ρ + 1 + ‖vs‖) := ⟨_, rfl⟩
  have hvs0 := norm_nonneg vs
  have hC1 : 1 ≤ C := by rw [hC]; linarith
  refine ⟨C, hC1, ?_⟩
  intro rd u eta w hr hu he hCw P hPs hx0r hx0 hO1 hO2
  subst hPs
  have hw0 : 0 ≤ w := hr.u_nonneg.trans hu
  have small : ∀ a, a ≤ C → a * w ≤ 1 := fun a h => (mul_le_mul_of_nonneg_right h hw0).trans hCw
  have hw1 : w ≤ 1 := by have := small 1 hC1; linarith
  have hcw : c * w ≤ 1 := small c (by rw [hC]; linarith)
  have hKVw : K * V * w ≤ 1 := small _ (by rw [hC]; linarith)
  have hsc : Scale rd u eta w 1 := ⟨hr, hu, he, hw0, hw1, le_rfl⟩
  obtain ⟨pr1, hok1, herr1⟩ := hO1.exists_total hK hw0
  obtain ⟨pr2, hok2, herr2⟩ := hO2.exists_total hK hw0
  have hcall : ∀ v : Fin d → ℝ, 1 + norm2 v ≤ V → K * w * (1 + norm2 v) ≤ 1 := by
    intro v hv
    have : K * w * (1 + norm2 v) ≤ K * w * V := mul_le_mul_of_nonneg_left hv (by positivity)
    linarith
  obtain ⟨o, ho⟩ : ∃ o, o = flTsOrbit rd P pr1 pr2 := ⟨_, rfl⟩
  obtain ⟨it, hit⟩ : ∃ it, it = flTsIter rd P pr1 pr2 w := ⟨_, rfl⟩
  obtain ⟨v, hv⟩ : ∃ v : ℕ → ℓ², v = fun k => WithLp.toLp 2 (flTsVs rd P pr1 pr2 k) := ⟨_, rfl⟩
  have hR0 : norm2 P.x0 ≤ |R| := hx0.trans (le_abs_self R)
  -- the initial point
  have hz0 : norm2 (o 0).1 ≤ B0 := by
    have e : (o 0).1 = pr2 0 P.x0 P.step := by rw [ho]; rfl
    have a1 := coord_norm (fun j => herr2 0 P.x0 j)
    have a2 := hp2n (WithLp.toLp 2 P.x0) 0
    rw [sub_zero, toLp_norm P.x0] at a2
    have a3 := norm_add_le ((WithLp.toLp 2 (pr2 0 P.x0 P.step) : ℓ²) - p2 (WithLp.toLp 2 P.x0) P.step) (p2 (WithLp.toLp 2 P.x0) P.step)
    have a4 := norm_add_le (p2 (WithLp.toLp 2 P.x0) P.step - p2 0 P.step) (p2 0 P.step)
    rw [sub_add_cancel] at a3 a4
    have a5 : K * w * (1 + norm2 P.x0) ≤ K * 1 * (1 + |R|) := mul_le_mul (mul_le_mul_of_nonneg_left hw1 hK) (by linarith) (by have := norm_nonneg (WithLp.toLp 2 P.x0 : ℓ²); rw [toLp_norm] at this; linarith) (by linarith)
    have a6 := mul_le_mul_of_nonneg_left a5 hd0
    rw [toLp_norm (pr2 0 P.x0 P.step)] at a3
    change ‖(WithLp.toLp 2 (pr2 0 P.x0 P.step) : ℓ²) - p2 (WithLp.toLp 2 P.x0) P.step‖ ≤ _ at a1
    rw [e, hB0]
    linarith only [a1, a2, a3, a4, a5, a6, hR0]
  -- every iteration with a bounded state
  have hOk : ∀ k B', norm2 (o k).1 ≤ B' → norm2 (o k).2 ≤ B' → (it k).Ok g p1 p2 P.step K B' := by
    intro k B' hz hu
    rw [ho] at hz hu
    rw [hit]
    exact ⟨⟨u, eta, hsc⟩, hO1.grad (k + 1) _, herr1 (k + 1) _, herr2 (k + 1) _, hO1.norm k _, hz, hu⟩
  have hu0 : norm2 (o 0).2 ≤ 0 := by
    have : (o 0).2 = 0 := by rw [ho]; rfl
    rw [this, ← toLp_norm]
    simp
  have hv0 : ‖v 0 - vs‖ ≤ ρ := by
    have a := (hloc0 (it 0) (hOk 0 B0 hz0 (hu0.trans hB00))).point_le
    have a2 : norm2 (flTsPoint (it 0).rd P.step (it 0).x (it 0).u) = ‖v 0‖ := by rw [hit, hv, toLp_norm]; rfl
    rw [a2] at a
    have := norm_sub_le (v 0) vs
    rw [hρ]; linarith
  have hstate : ∀ k, (∀ i < k, ‖v i - vs‖ ≤ ρ + 1) → norm2 (o k).1 ≤ B ∧ norm2 (o k).2 ≤ B ∧ (it k).Local g p1 p2 P.step c ∧
      ∀ i, k = i + 1 → ‖(WithLp.toLp 2 (o k).1 : ℓ²) - p2 (v i) P.step‖ ≤ c * w ∧ ‖(WithLp.toLp 2 (o k).2 : ℓ²) - dyU p2 P.step (v i)‖ ≤ c * w := by
    intro k
    induction k with
    | zero =>
      intro _
      have b1 := hz0.trans hBge.1
      have b2 := hu0.trans hBn
      exact ⟨b1, b2, hloc _ (hOk 0 B b1 b2), fun i hi => absurd hi (by omega)⟩
    | succ k ih =>
      intro hn
      obtain ⟨-, -, hl, -⟩ := ih fun i hi => hn i (by omega)
      have hvk := hn k (Nat.lt_succ_self k)
      have a1 := hl.zNext
      have a2 := hl.dual
      have e1 : (WithLp.toLp 2 (flTsPoint (it k).rd P.step (it k).x (it k).u) : ℓ²) = v k := by rw [hit, hv]; rfl
      have e2 : (it k).zNext = (o (k + 1)).1 := by rw [hit, ho]; rfl
      have e3 : flTsDual (it k).rd P.step (it k).u (it k).x (it k).zNext = (o (k + 1)).2 := by rw [hit, ho]; rfl
      have e4 : (it k).w = w := by rw [hit]; rfl
      rw [e1, e2, e4] at a1
      rw [e1, e3, e4] at a2
      have b1 : norm2 (o (k + 1)).1 ≤ B := by
        rw [← toLp_norm]
        have t1 := norm_add_le ((WithLp.toLp 2 (o (k + 1)).1 : ℓ²) - p2 (v k) P.step) (p2 (v k) P.step)
        have t2 := norm_add_le (p2 (v k) P.step - p2 vs P.step) (p2 vs P.step)
        rw [sub_add_cancel] at t1 t2
        have t3 := hp2n (v k) vs
        linarith [hBge.2.1]
      have b2 : norm2 (o (k + 1)).2 ≤ B := by
        rw [← toLp_norm]
        have t1 := norm_add_le ((WithLp.toLp 2 (o (k + 1)).2 : ℓ²) - dyU p2 P.step (v k)) (dyU p2 P.step (v k))
        have t2 := norm_add_le (dyU p2 P.step (v k) - dyU p2 P.step vs) (dyU p2 P.step vs)
        rw [sub_add_cancel] at t1 t2
        have t3 := hUn (v k) vs
        have t4 : P.step⁻¹ * (2 * ‖v k - vs‖) ≤ P.step⁻¹ * (2 * (ρ + 1)) := mul_le_mul_of_nonneg_left (by linarith) (inv_pos.mpr hs).le
        linarith [hBge.2.2]
      refine ⟨b1, b2, hloc _ (hOk (k + 1) B b1 b2), fun i hi => ?_⟩
      obtain rfl : k = i := by omega
      exact ⟨a1, a2⟩
  have hstep : ∀ k, (∀ i ≤ k, ‖v i - vs‖ ≤ ρ + 1) → ‖(WithLp.toLp 2 (flTsXs rd P pr1 pr2 (k + 1)) : ℓ²) - dyX p1 p2 g P.step (v k)‖ ≤ c1 * w ∧
      ‖v (k + 1) - dyT p1 p2 g P.step (v k)‖ ≤ c1 * w ∧ |flTsCert rd P pr1 pr2 (k + 1) - ‖dyT p1 p2 g P.step (v k) - v k‖ / P.step| ≤ c2 * w := by
    intro k hn
    obtain ⟨-, -, hl, hprev⟩ := hstate (k + 1) fun i hi => hn i (by omega)
    obtain ⟨q1, q2⟩ := hprev k rfl
    have e4 : (it (k + 1)).w = w := by rw [hit]; rfl
    have e5 : (it (k + 1)).z = (o (k + 1)).1 := by rw [hit, ho]; rfl
    have e6 : (it (k + 1)).u = (o (k + 1)).2 := by rw [hit, ho]; rfl
    obtain ⟨r1, r2, r3⟩ := ts_step hG h1 hglip hs hl (a := c) (v := v k) (by rw [e4, e5]; exact q1) (by rw [e4, e6]; exact q2) hL.le
    rw [e4] at r1 r2 r3
    refine ⟨?_, ?_, ?_⟩
    · have : (c + (1 + P.step + P.step * L) * c) * w ≤ c1 * w := mul_le_mul_of_nonneg_right (by rw [hc1]; nlinarith) hw0
      rw [hit] at r1
      exact r1.trans this
    · rw [hc1, hv]
      rw [hit, hv] at r2
      exact r2
    · rw [hc2]
      rw [hit] at r3
      exact r3
  refine ⟨pr1, pr2, ?_, ?_, ?_⟩
  · exact hok2 0 P.x0 hx0r (hcall _ (by rw [hV]; linarith [mul_nonneg hDp0 (show 0 ≤ 1 + B0 by linarith)]))
  · rw [← ho]
    have a1 := hDp rd u eta w hsc (P.grad 0) (o 0).1 P.step hs le_rfl (hO1.grad 0 _)
    have a2 : Dp * (1 + norm2 (o 0).1) ≤ Dp * (1 + B0) := mul_le_mul_of_nonneg_left (by linarith) hDp0
    exact ⟨_, hok1 0 (flPgPoint rd (P.grad 0) P.step (o 0).1) (fun j => hr.idem _) (hcall _ (by rw [hV]; linarith [abs_nonneg R]))⟩
  · intro k hk
    have hk0 : (0 : ℝ) ≤ k := Nat.cast_nonneg k
    have hkc : (k : ℝ) * (c1 * w) ≤ 1 := by
      have : c1 * k ≤ C * (k + 1) := mul_le_mul (by rw [hC]; linarith) (by linarith) hk0 (by linarith)
      have := mul_le_mul_of_nonneg_right this hw0
      linarith
    have hav := inexact_averaged hα0 hTn hTf (v := v) (ρ := ρ) (e := c1 * w) (by positivity) hkc hv0 fun i _ hi => (hstep i hi).2.1
    have hnear : ∀ i ≤ k, ‖v i - vs‖ ≤ ρ + 1 := fun i hi => (hav i hi).1
    obtain ⟨-, -, hl, -⟩ := hstate k fun i hi => hnear i hi.le
    refine ⟨⟨?_, ?_⟩, fun hk1 => ?_⟩
    · have a1 := hl.arg_le
      rw [hit] at a1
      exact hok1 (k + 1) _ (fun j => hr.idem _) (hcall _ (by rw [hV]; linarith [mul_nonneg hDp0 (show 0 ≤ 1 + B0 by linarith), abs_nonneg R, show norm2 (flTsArg rd P.step (P.grad (k + 1) (flTsOrbit rd P pr1 pr2 k).1) (flTsOrbit rd P pr1 pr2 k).1 (flTsOrbit rd P pr1 pr2 k).2) ≤ c from a1]))
    · have a1 := hl.point_le
      rw [hit] at a1
      exact hok2 (k + 1) (flTsVs rd P pr1 pr2 k) (fun j => hr.idem _) (hcall _ (by rw [hV]; linarith [mul_nonneg hDp0 (show 0 ≤ 1 + B0 by linarith), abs_nonneg R, show norm2 (flTsVs rd P pr1 pr2 k) ≤ c from a1]))
    · obtain ⟨i, rfl⟩ : ∃ i, k = i + 1 := ⟨k - 1, by omega⟩
      obtain ⟨q1, -, q3⟩ := hstep i fun j hj => hnear j (by omega)
      obtain ⟨q4, q5⟩ := hav i (by omega)
      refine ⟨v i, ?_, q1.trans (mul_le_mul_of_nonneg_right (by rw [hC]; linarith) hw0), q3.trans (mul_le_mul_of_nonneg_right (by rw [hC]; linarith) hw0), ?_⟩
      · have := norm_add_le (v i - vs) vs
        rw [sub_add_cancel] at this
        rw [hC]; linarith
      · have q6 := (abs_le.mp q3).2
        have q7 := div_le_div_of_nonneg_right q5 hs.le
        have hi0 : (0 : ℝ) ≤ i := Nat.cast_nonneg i
        have e : (ρ / √(α * (i + 1)) + 2 * (i * (c1 * w))) / P.step = c3 * (1 / √(i + 1)) + c4 * (i * w) := by
          rw [hc3, hc4, Real.sqrt_mul hα0.le]
          have : √α ≠ 0 := (Real.sqrt_pos.mpr hα0).ne'
          have : √((i : ℝ) + 1) ≠ 0 := (Real.sqrt_pos.mpr (by linarith)).ne'
          field_simp
        rw [e] at q7
        push_cast
        have t1 : c3 * (1 / √((i : ℝ) + 1)) ≤ C * (1 / √(i + 1)) := mul_le_mul_of_nonneg_right (by rw [hC]; linarith) (by positivity)
        have t2 : c4 * (i * w) + c2 * w ≤ C * ((i + 1) * w) := by
          have t3 : c4 * (i * w) ≤ C * (i * w) := mul_le_mul_of_nonneg_right (by rw [hC]; linarith) (by positivity)
          have t4 : c2 * w ≤ C * w := mul_le_mul_of_nonneg_right (by rw [hC]; linarith) hw0
          linarith
        linarith

/-! ### The general theorem -/

/-- What C130 claims about the result: the returned vector is close to a point `x` which with `z`, `p`, `q` satisfies the optimality conditions of `f + G + H` up to the certificate. -/
structure FlTsGuarantee (g : ℓ² → ℓ²) (G H : ExtFun ℓ²) (s C w tol : ℝ) (maxIter : ℕ) (r : FlTSResult d) : Prop where
  nit_lt : r.nit < maxIter
  point : 1 ≤ r.nit → ∃ x z p q : ℓ², ‖(WithLp.toLp 2 r.x : ℓ²) - x‖ ≤ C * w ∧ ‖x‖ ≤ C ∧ ‖z‖ ≤ C ∧ IsSubgrad G x p ∧ IsSubgrad H z q ∧
    ‖g z + p + q‖ = ‖x - z‖ / s ∧ |r.certificate - ‖x - z‖ / s| ≤ C * w
  rate : 1 ≤ r.nit → r.certificate ≤ C * (1 / √(r.nit : ℝ) + r.nit * w)
  success : r.success = true → 1 ≤ r.nit ∧ r.certificate < tol
  failure : r.success = false → r.nit + 1 = maxIter ∧ (1 ≤ r.nit → tol ≤ r.certificate)

theorem FlTsGuarantee.mono {g : ℓ² → ℓ²} {G H : ExtFun ℓ²} {s C C' w tol : ℝ} {maxIter : ℕ} {r : FlTSResult d} (h : FlTsGuarantee g G H s C w tol maxIter r) (hC : C ≤ C')
    (hw : 0 ≤ w) : FlTsGuarantee g G H s C' w tol maxIter r := by
  have hCw := mul_le_mul_of_nonneg_right hC hw
  refine ⟨h.nit_lt, fun h1 => ?_, fun h1 => (h.rate h1).trans (mul_le_mul_of_nonneg_right hC (by positivity)), h.success, h.failure⟩
  obtain ⟨x, z, p, q, a1, a2, a3, a4, a5, a6, a7⟩ := h.point h1
  exact ⟨x, z, p, q, a1.trans hCw, a2.trans hC, a3.trans hC, a4, a5, a6, a7.trans hCw⟩

theorem flMinimizeTS_eq {rd : ℝ → ℝ} {P : FlTSArgs d} {z x : Fin d → ℝ} {m : ℕ} (h1 : P.prox2 0 P.x0 P.step = .ok z)
    (h2 : P.prox1 0 (fun j => rd (z j - rd (P.step * P.grad 0 z j))) P.step = .ok x) (hm : P.maxIter = m + 1) : flMinimizeTS rd P = flTsLoop rd P m 0 z 0 := by
  unfold flMinimizeTS
  rw [h1]
  simp only [bind, Except.bind]
  rw [h2, hm]

/-- **C130 (general).** `minimize_three_split(f_grad, x0, prox_1, prox_2, step_size=s, line_search=False)` in rounded arithmetic of precision `w`, with a convex `f` with `L`-Lipschitz gradient, convex
`G` and `H`, `s L < 2`, a solution `zs` of the optimality conditions with multiplier `us`, and oracles accurate to `K w`.  With `C max_iter w ≤ 1` no run raises; from the second iteration on the
returned vector is within `C w` of a point whose violation of the optimality conditions differs from the certificate by at most `C w`, and the certificate after `k` iterations is at most
`C (1 / √k + k w)`.  A reported success has a certificate below the tolerance, a failure has done all iterations.  For every tolerance there are a number of iterations and a precision from
which on all runs succeed. -/
theorem C130_rounded_splitting {G H : ExtFun ℓ²} (hG : G.IsConvex) (hH : H.IsConvex) {p1 p2 : ℓ² → ℝ → ℓ²} (h1 : IsProxOf G p1) (h2 : IsProxOf H p2) {f : ℓ² → ℝ} {g : ℓ² → ℓ²} {L s : ℝ}
    (hL : 0 < L) (hf : ConvexGrad f g) (hq : UpperQuad f g L) (hs : 0 < s) (hsL : s * L < 2) {zs us : ℓ²} (hu : IsSubgrad H zs us) (hgs : IsSubgrad G zs (-us - g zs)) {K : ℝ} (hK : 0 ≤ K) (R : ℝ) :
    ∃ C, 0 < C ∧ (∀ (rd : ℝ → ℝ) (u eta w : ℝ), Rounding rd u eta → u ≤ w → eta ≤ w ^ 2 →
      ∀ P : FlTSArgs d, 0 < P.maxIter → C * P.maxIter * w ≤ 1 → P.step = s → (∀ j, rd (P.x0 j) = P.x0 j) → norm2 P.x0 ≤ R → FlOraclesE rd P.first g p1 K w → FlOraclesE rd P.second g p2 K w →
        ∃ r, flMinimizeTS rd P = .ok r ∧ FlTsGuarantee g G H s C w P.tol P.maxIter r) ∧
      ∀ tol > 0, ∃ (N : ℕ) (C' : ℝ), 0 < C' ∧ ∀ (rd : ℝ → ℝ) (u eta w : ℝ), Rounding rd u eta → u ≤ w → eta ≤ w ^ 2 → C' * w ≤ 1 →
        ∀ P : FlTSArgs d, P.tol = tol → N ≤ P.maxIter → P.step = s → (∀ j, rd (P.x0 j) = P.x0 j) → norm2 P.x0 ≤ R → FlOraclesE rd P.first g p1 K w → FlOraclesE rd P.second g p2 K w →
          ∃ r, flMinimizeTS rd P = .ok r ∧ r.success = true ∧ r.nit < N ∧ FlTsGuarantee g G H s C w P.tol P.maxIter r := by
  obtain ⟨C0, hC1, h0⟩ := flTs_track (d := d) hG hH h1 h2 hL hf hq hs hsL hu hgs hK R
  have hglip := lip_of_cocoercive hL hf hq
  -- the points of the exact operator are bounded
  obtain ⟨b, hb0, hb⟩ : ∃ b, 0 ≤ b ∧ ∀ v : ℓ², ‖v‖ ≤ C0 → ‖dyX p1 p2 g s v‖ ≤ b ∧ ‖p2 v s‖ ≤ b := by
    refine ⟨(C0 + ‖p2 0 s‖) + (2 * C0 + ‖dyT p1 p2 g s 0‖ + (C0 + ‖p2 0 s‖)), by positivity, fun v hv => ?_⟩
    have t1 := (h2 v s hs).nonexpansive hH hs (h2 0 s hs)
    have t2 := norm_add_le (p2 v s - p2 0 s) (p2 0 s)
    rw [sub_add_cancel] at t2
    rw [sub_zero] at t1
    have t3 := dyT_nonexpansive hG hH h1 h2 hL hs hsL hf hq v 0
    have t4 := norm_add_le (dyT p1 p2 g s v - dyT p1 p2 g s 0) (dyT p1 p2 g s 0)
    rw [sub_add_cancel] at t4
    rw [sub_zero] at t3
    have e : dyX p1 p2 g s v = (dyT p1 p2 g s v - v) + p2 v s := by rw [dyT_sub hs]; abel
    have t5 := norm_add_le (dyT p1 p2 g s v - v) (p2 v s)
    have t6 := norm_sub_le (dyT p1 p2 g s v) v
    rw [← e] at t5
    have := norm_nonneg (p2 0 s)
    have := norm_nonneg (dyT p1 p2 g s 0)
    exact ⟨by linarith, by linarith⟩
  obtain ⟨C, hC⟩ : ∃ C, C = C0 + b := ⟨_, rfl⟩
  have hC0 : 0 < C := by rw [hC]; linarith
  have hCC : C0 ≤ C := by rw [hC]; linarith
  have mono : ∀ (N k : ℕ) (w : ℝ), 0 ≤ w → k ≤ N → C * (N + 1) * w ≤ 1 → C0 * (k + 1) * w ≤ 1 := by
    intro N k w hw hk h
    have hk' : (k : ℝ) ≤ N := by exact_mod_cast hk
    have hk0 : (0 : ℝ) ≤ k := Nat.cast_nonneg k
    exact (mul_le_mul_of_nonneg_right (mul_le_mul hCC (by linarith) (by linarith) hC0.le) hw).trans h
  have run : ∀ (rd : ℝ → ℝ) (u eta w : ℝ), Rounding rd u eta → u ≤ w → eta ≤ w ^ 2 →
      ∀ (P : FlTSArgs d) (m : ℕ), C * (m + 1) * w ≤ 1 → P.step = s → (∀ j, rd (P.x0 j) = P.x0 j) → norm2 P.x0 ≤ R → FlOraclesE rd P.first g p1 K w → FlOraclesE rd P.second g p2 K w →
        ∃ z x r, P.prox2 0 P.x0 P.step = .ok z ∧ P.prox1 0 (fun j => rd (z j - rd (P.step * P.grad 0 z j))) P.step = .ok x ∧
          flTsLoop rd P m 0 z 0 = .ok r ∧ FlTsGuarantee g G H s C w P.tol (m + 1) r := by
    intro rd u eta w hr hu he P m hn hst hx0r hx0 hO1 hO2
    have hw0 : 0 ≤ w := hr.u_nonneg.trans hu
    obtain ⟨pr1, pr2, i1, ⟨x, i2⟩, h⟩ := h0 rd u eta w hr hu he (by have := mono m 0 w hw0 (by omega) hn; simpa using this) P hst hx0r hx0 hO1 hO2
    obtain ⟨r, e, a2, a3, a4, a5, a6⟩ := flTsLoop_spec rd P pr1 pr2 m 0 _ rfl fun k _ hk => (h k (mono m k w hw0 (by omega) hn)).1
    rw [zero_add] at a2 a6
    obtain ⟨-, hst'⟩ := h r.nit (mono m _ w hw0 a2 hn)
    refine ⟨_, x, r, i1, i2, e, by omega, fun hk => ?_, fun hk => ?_, fun hk => a5 hk, fun hk => ⟨by rw [(a6 hk).1], fun h1 => (a6 hk).2 h1⟩⟩
    · obtain ⟨v, hv⟩ := hst' hk
      obtain ⟨b1, b2⟩ := hb v hv.v_le
      have hCw := mul_le_mul_of_nonneg_right hCC hw0
      refine ⟨dyX p1 p2 g s v, p2 v s, s⁻¹ • (p2 v s - s • (dyU p2 s v + g (p2 v s)) - dyX p1 p2 g s v), dyU p2 s v, ?_, by rw [hC]; linarith, by rw [hC]; linarith,
        (h1 _ s hs).subgrad hG hs, dyU_subgrad hH h2 hs v, ?_, ?_⟩
      · rw [a3]; exact hv.x_near.trans hCw
      · have e1 : g (p2 v s) + s⁻¹ • (p2 v s - s • (dyU p2 s v + g (p2 v s)) - dyX p1 p2 g s v) + dyU p2 s v = s⁻¹ • (p2 v s - dyX p1 p2 g s v) := by
          rw [show p2 v s - s • (dyU p2 s v + g (p2 v s)) - dyX p1 p2 g s v = (p2 v s - dyX p1 p2 g s v) - s • (dyU p2 s v + g (p2 v s)) by abel, smul_sub, smul_smul,
            inv_mul_cancel₀ hs.ne', one_smul]
          abel
        rw [e1, norm_smul, Real.norm_eq_abs, abs_of_pos (inv_pos.mpr hs), norm_sub_rev, div_eq_inv_mul]
      · have := hv.cert_near
        rw [dyT_sub hs, ← a4] at this
        exact this.trans hCw
    · obtain ⟨v, hv⟩ := hst' hk
      rw [a4]
      exact hv.cert_le.trans (mul_le_mul_of_nonneg_right hCC (by positivity))
  refine ⟨C, hC0, ?_, ?_⟩
  · intro rd u eta w hr hu he P hm hn hst hx0r hx0 hO1 hO2
    obtain ⟨m, hm⟩ : ∃ m, P.maxIter = m + 1 := ⟨P.maxIter - 1, by omega⟩
    obtain ⟨z, x, r, e1, e2, e3, c⟩ := run rd u eta w hr hu he P m (by rw [hm] at hn; push_cast at hn; exact hn) hst hx0r hx0 hO1 hO2
    exact ⟨r, by rw [flMinimizeTS_eq e1 e2 hm, e3], hm ▸ c⟩
  · intro tol htol
    obtain ⟨M, hM⟩ := exists_nat_gt ((2 * C / tol) ^ 2)
    have hM0 : (0 : ℝ) < M := lt_of_le_of_lt (sq_nonneg _) hM
    have hM1 : 1 ≤ M := by exact_mod_cast hM0
    have hM' : C * (1 / √(M : ℝ)) < tol / 2 := by
      have h3 : 2 * C / tol < √(M : ℝ) := Real.lt_sqrt_of_sq_lt hM
      rw [div_lt_iff₀ htol] at h3
      have h4 : 0 < √(M : ℝ) := Real.sqrt_pos.mpr hM0
      rw [mul_one_div, div_lt_iff₀ h4]
      linarith
    refine ⟨M + 1, C * (M + 1) + 4 * (C * M) / tol, by positivity, ?_⟩
    intro rd u eta w hr hu he hw P hPt hNm hst hx0r hx0 hO1 hO2
    have hw0 : 0 ≤ w := hr.u_nonneg.trans hu
    have t1 : 0 ≤ 4 * (C * M) / tol * w := by positivity
    have t2 : 0 ≤ C * (M + 1) * w := by positivity
    obtain ⟨z, x, r, e1, e2, e3, c⟩ := run rd u eta w hr hu he P M (by linarith) hst hx0r hx0 hO1 hO2
    have hsu : r.success = true := by
      by_contra hcon
      have h3 := c.failure (by simpa using hcon)
      have hnit : r.nit = M := by omega
      have h4 := c.rate (by omega)
      have h5 := h3.2 (by omega)
      have h6 : 4 * (C * M) / tol * w ≤ 1 := by linarith
      rw [show 4 * (C * M) / tol * w = 4 * (C * (M * w)) / tol by ring, div_le_one htol] at h6
      rw [hnit] at h4
      rw [hPt] at h5
      linarith
    obtain ⟨m, hm⟩ : ∃ m, P.maxIter = m + 1 := ⟨P.maxIter - 1, by omega⟩
    exact ⟨r, by rw [flMinimizeTS_eq e1 e2 hm]; exact flTsLoop_persist rd P M m 0 _ _ r (by omega) e3 hsu, hsu, c.nit_lt, by have := c.nit_lt; omega, c.point, c.rate, c.success,
      fun h => absurd h (by simp [hsu])⟩

/-! ### The losses and penalties of the library -/

theorem split_gap {G : ExtFun ℓ²} {f h : ℓ² → ℝ} {g : ℓ² → ℓ²} {L l : ℝ} (hf : ConvexGrad f g) (hq : UpperQuad f g L) (hl : 0 ≤ l) (hlip : ∀ a b, h a - h b ≤ l * ‖a - b‖) {x z p q xs : ℓ²}
    (hp : IsSubgrad G x p) (hqs : IsSubgrad ⟨Set.univ, h⟩ z q) (hxs : xs ∈ G.dom) :
    (f x + G.val x + h x) - (f xs + G.val xs + h xs) ≤ ‖g z + p + q‖ * ‖x - xs‖ + 2 * (l * ‖x - z‖) + L / 2 * ‖x - z‖ ^ 2 := by
  have a1 := hp.2 xs hxs
  have a2 := hqs.2 xs (Set.mem_univ _)
  have a3 := hf z xs
  have a4 := hq z x
  have a5 := hlip x z
  have a6 := subgrad_norm_le hl hlip hqs
  have a7 : -⟪q, x - z⟫_ℝ ≤ l * ‖x - z‖ := by
    have b1 := neg_abs_le ⟪q, x - z⟫_ℝ
    have b2 := abs_real_inner_le_norm q (x - z)
    have b3 := mul_le_mul_of_nonneg_right a6 (norm_nonneg (x - z))
    linarith
  have a8 : ⟪g z + p + q, x - xs⟫_ℝ ≤ ‖g z + p + q‖ * ‖x - xs‖ := real_inner_le_norm _ _
  have e1 : ⟪g z + p + q, x - xs⟫_ℝ = ⟪g z, x - z⟫_ℝ - ⟪g z, xs - z⟫_ℝ - ⟪p, xs - x⟫_ℝ - ⟪q, xs - z⟫_ℝ + ⟪q, x - z⟫_ℝ := by
    simp only [inner_add_left, inner_sub_right]
    ring
  simp only at a2
  linarith

/-- What C130 claims about the objective value. -/
def FlTsValue (F : ℓ² → ℝ) (D : Set ℓ²) (xs : ℓ²) (C w : ℝ) (r : FlTSResult d) : Prop :=
  1 ≤ r.nit → ∃ x ∈ D, ‖(WithLp.toLp 2 r.x : ℓ²) - x‖ ≤ C * w ∧ F x - F xs ≤ C * (r.certificate + C * w)

theorem FlTsGuarantee.value {G : ExtFun ℓ²} {f h : ℓ² → ℝ} {g : ℓ² → ℓ²} {L l : ℝ} (hL : 0 < L) (hf : ConvexGrad f g) (hq : UpperQuad f g L) (hl : 0 ≤ l)
    (hlip : ∀ a b, h a - h b ≤ l * ‖a - b‖) {xs : ℓ²} (hxs : xs ∈ G.dom) {s : ℝ} (hs : 0 < s) {C : ℝ} (hC : 0 ≤ C) :
    ∃ C1, C ≤ C1 ∧ ∀ C' ≥ C1, ∀ (w tol : ℝ) (maxIter : ℕ) (r : FlTSResult d), 0 ≤ w → FlTsGuarantee g G ⟨Set.univ, h⟩ s C w tol maxIter r →
      FlTsValue (fun x => f x + G.val x + h x) G.dom xs C' w r := by
  obtain ⟨A, hA⟩ : ∃ A, A = (C + ‖xs‖) + 2 * (l * s) + L / 2 * (2 * C * s) := ⟨_, rfl⟩
  have hA0 : 0 ≤ A := by rw [hA]; positivity
  refine ⟨A + C, by linarith, ?_⟩
  intro C' hC' w tol maxIter r hw hr hn
  obtain ⟨x, z, p, q, b1, b2, b3, b4, b5, b6, b7⟩ := hr.point hn
  refine ⟨x, b4.1, b1.trans (mul_le_mul_of_nonneg_right (by linarith) hw), ?_⟩
  have a := split_gap hf hq hl hlip b4 b5 hxs
  obtain ⟨t, ht⟩ : ∃ t, t = ‖x - z‖ / s := ⟨_, rfl⟩
  have hts : ‖x - z‖ = s * t := by rw [ht]; field_simp
  have ht0 : 0 ≤ t := by rw [ht]; positivity
  rw [b6, ← ht] at a
  rw [← ht] at b7
  have c1 : t * ‖x - xs‖ ≤ t * (C + ‖xs‖) := mul_le_mul_of_nonneg_left ((norm_sub_le _ _).trans (by linarith)) ht0
  have c2 : ‖x - z‖ ^ 2 ≤ 2 * C * (s * t) := by
    have e1 : ‖x - z‖ ≤ 2 * C := (norm_sub_le _ _).trans (by linarith)
    have := mul_le_mul_of_nonneg_right e1 (norm_nonneg (x - z))
    rw [← hts, sq]; exact this
  have c3 := mul_le_mul_of_nonneg_left c2 (show 0 ≤ L / 2 by linarith)
  rw [hts] at a c3
  have c4 : (f x + G.val x + h x) - (f xs + G.val xs + h xs) ≤ A * t := by rw [hA]; linarith
  have c5 : t ≤ r.certificate + C * w := by linarith [(abs_le.mp b7).1]
  have hCw : 0 ≤ C * w := by positivity
  have hCw' : C * w ≤ C' * w := mul_le_mul_of_nonneg_right (by linarith) hw
  calc _ ≤ A * t := c4
    _ ≤ C' * t := mul_le_mul_of_nonneg_right (by linarith) ht0
    _ ≤ C' * (r.certificate + C' * w) := mul_le_mul_of_nonneg_left (by linarith) (by linarith)

theorem FlOraclesE.mono {rd : ℝ → ℝ} {P : FlPGArgsE d} {g : ℓ² → ℓ²} {proxE : ℓ² → ℝ → ℓ²} {K K' w : ℝ} (hO : FlOraclesE rd P g proxE K w) (hK : K ≤ K') (hw : 0 ≤ w) :
    FlOraclesE rd P g proxE K' w := by
  have h : ∀ v : Fin d → ℝ, K * w * (1 + norm2 v) ≤ K' * w * (1 + norm2 v) := fun v =>
    mul_le_mul_of_nonneg_right (mul_le_mul_of_nonneg_right hK hw) (by have : 0 ≤ norm2 v := Real.sqrt_nonneg _; linarith)
  refine ⟨fun k x j => (hO.grad k x j).trans (h x), fun k v hv hb => ?_, fun k v => (hO.norm k v).trans (h v)⟩
  obtain ⟨p, e, hp⟩ := hO.prox k v hv ((h v).trans hb)
  exact ⟨p, e, fun j => (hp j).trans (h v)⟩

/-- **C130.** `minimize_three_split(f.f_grad, x0, pen1.prox, pen2.prox, step_size=s, line_search=False)` for a loss of the library, any penalty or constraint on vectors but `FusedLasso` as first operator and
`L1Norm` or `GroupL1` as second one (`lip` is its Lipschitz constant), everything computed in rounded arithmetic of precision `w`.  Conclusions as in `C130_rounded_splitting`; moreover from the second
iteration on the returned vector is within `C w` of a feasible point whose objective exceeds the minimum by at most `C (certificate + C w)`. -/
theorem C130_rounded_regression (f : LossObj n d) (hf : f.Good) {sv : ℝ} (hsv : IsLargestSingular f.mat sv) (hL : 0 < f.lipschitz sv) (pen1 pen2 : PenObj d) (hpen1 : pen1.FlGoodE)
    (hpen2 : pen2.FlGoodE) {l : ℝ} (hlip : (SplitObj.pen pen2).lip = some l) {xs : ℓ²} (hxs : xs ∈ pen1.fn.dom)
    (hmin : ∀ y ∈ pen1.fn.dom, f.fn xs + pen1.fn.val xs + pen2.fn.val xs ≤ f.fn y + pen1.fn.val y + pen2.fn.val y) {s : ℝ} (hs : 0 < s) (hsL : s * f.lipschitz sv < 2) (R : ℝ) :
    ∃ C, 0 < C ∧ (∀ (rd fexp : ℝ → ℝ) (u eta w : ℝ), Rounding rd u eta → u ≤ w → eta ≤ w ^ 2 → (∀ t ≤ 0, |fexp t - Real.exp t| ≤ w) →
      ∀ P : FlTSArgs d, 0 < P.maxIter → C * P.maxIter * w ≤ 1 → P.step = s → (∀ j, rd (P.x0 j) = P.x0 j) → norm2 P.x0 ≤ R → (∀ k x, f.FlGrad rd fexp x (P.grad k x)) →
        (∀ k v, pen1.FlProxE rd v P.step (P.prox1 k v P.step)) → (∀ k v, pen2.FlProxE rd v P.step (P.prox2 k v P.step)) → (∀ k v, FlNorm rd v (P.norm k v)) →
        ∃ r, flMinimizeTS rd P = .ok r ∧ FlTsGuarantee f.gradE pen1.fn pen2.fn s C w P.tol P.maxIter r ∧
          FlTsValue (fun x => f.fn x + pen1.fn.val x + pen2.fn.val x) pen1.fn.dom xs C w r) ∧
      ∀ tol > 0, ∃ (N : ℕ) (C' : ℝ), 0 < C' ∧ ∀ (rd fexp : ℝ → ℝ) (u eta w : ℝ), Rounding rd u eta → u ≤ w → eta ≤ w ^ 2 → (∀ t ≤ 0, |fexp t - Real.exp t| ≤ w) → C' * w ≤ 1 →
        ∀ P : FlTSArgs d, P.tol = tol → N ≤ P.maxIter → P.step = s → (∀ j, rd (P.x0 j) = P.x0 j) → norm2 P.x0 ≤ R → (∀ k x, f.FlGrad rd fexp x (P.grad k x)) →
          (∀ k v, pen1.FlProxE rd v P.step (P.prox1 k v P.step)) → (∀ k v, pen2.FlProxE rd v P.step (P.prox2 k v P.step)) → (∀ k v, FlNorm rd v (P.norm k v)) →
          ∃ r, flMinimizeTS rd P = .ok r ∧ r.success = true ∧ r.nit < N ∧ FlTsGuarantee f.gradE pen1.fn pen2.fn s C w P.tol P.maxIter r ∧
            FlTsValue (fun x => f.fn x + pen1.fn.val x + pen2.fn.val x) pen1.fn.dom xs C w r := by
  obtain ⟨-, hconv, hq, -, -⟩ := C92_loss f hf hsv
  obtain ⟨hG, hp1, -, -⟩ := C92_prox_exact pen1 hpen1.good
  obtain ⟨hH, hp2, -, hl3⟩ := C102_prox_exact (.pen pen2) hpen2.good
  obtain ⟨hl0, efn, hl⟩ := hl3 l hlip
  replace hH : pen2.fn.IsConvex := hH
  replace hp2 : IsProxOf pen2.fn pen2.proxE := hp2
  replace efn : pen2.fn = ⟨Set.univ, pen2.fn.val⟩ := efn
  replace hl : ∀ a b, pen2.fn.val a - pen2.fn.val b ≤ l * ‖a - b‖ := hl
  have hcont : Continuous pen2.fn.val := by
    have : LipschitzWith ⟨l, hl0⟩ pen2.fn.val := LipschitzWith.of_dist_le_mul fun a b => by
      rw [Real.dist_eq, dist_eq_norm, abs_le]
      have h1 := hl a b
      have h2 := hl b a
      rw [norm_sub_rev] at h2
      exact ⟨by show -(l * ‖a - b‖) ≤ _; linarith, h1⟩
    exact this.continuous
  have hH' : ConvexOn ℝ Set.univ pen2.fn.val := by
    have := hH
    rw [efn] at this
    exact this
  obtain ⟨us, hus, hgs⟩ := exists_saddle (LinearMap.id : ℓ² →ₗ[ℝ] ℓ²) hG hconv hq hH' hcont hxs hmin
  replace hus : IsSubgrad pen2.fn xs us := by rw [efn]; exact hus
  replace hgs : IsSubgrad pen1.fn xs (-us - f.gradE xs) := hgs us fun x => rfl
  obtain ⟨K1, M1, hK1, hM1, hO1⟩ := flOracles_library f hf pen1 hpen1 hs le_rfl
  obtain ⟨K2, M2, hK2, hM2, hO2⟩ := flOracles_library f hf pen2 hpen2 hs le_rfl
  obtain ⟨C0, hC0, h1, h2⟩ := C130_rounded_splitting (d := d) hG hH hp1 hp2 hL hconv hq hs hsL hus hgs (add_nonneg hK1 hK2) R
  obtain ⟨C1, hC1, hval⟩ := FlTsGuarantee.value (G := pen1.fn) hL hconv hq hl0 hl hxs hs hC0.le
  rw [← efn] at hval
  obtain ⟨C, hC⟩ : ∃ C, C = C1 + M1 + M2 := ⟨_, rfl⟩
  have hCC1 : C1 ≤ C := by rw [hC]; linarith
  have hCC0 : C0 ≤ C := hC1.trans hCC1
  refine ⟨C, by linarith, ?_, ?_⟩
  · intro rd fexp u eta w hr hu he hexp P hm hn hst hx0r hx0 hgr hpr1 hpr2 hno
    have hw0 : 0 ≤ w := hr.u_nonneg.trans hu
    have hm1 : (1 : ℝ) ≤ P.maxIter := by exact_mod_cast hm
    have small : ∀ a, 0 ≤ a → a ≤ C → a * P.maxIter * w ≤ 1 ∧ a * w ≤ 1 := by
      intro a ha h
      have t1 : a * P.maxIter * w ≤ C * P.maxIter * w := mul_le_mul_of_nonneg_right (mul_le_mul_of_nonneg_right h (by linarith)) hw0
      have t2 : a * w ≤ a * P.maxIter * w := mul_le_mul_of_nonneg_right (by nlinarith) hw0
      exact ⟨by linarith, by linarith⟩
    have o1 := (hO1 rd fexp u eta w hr hu he hexp (small M1 hM1 (by rw [hC]; linarith)).2 P.first (fun _ => ⟨hst.ge, hst.le⟩) hgr hpr1 hno).mono (K' := K1 + K2) (by linarith) hw0
    have o2 := (hO2 rd fexp u eta w hr hu he hexp (small M2 hM2 (by rw [hC]; linarith)).2 P.second (fun _ => ⟨hst.ge, hst.le⟩) hgr hpr2 hno).mono (K' := K1 + K2) (by linarith) hw0
    obtain ⟨r, e, c⟩ := h1 rd u eta w hr hu he P hm (small C0 hC0.le hCC0).1 hst hx0r hx0 o1 o2
    exact ⟨r, e, c.mono hCC0 hw0, hval C hCC1 w _ _ r hw0 c⟩
  · intro tol htol
    obtain ⟨N, C', hC', h3⟩ := h2 tol htol
    refine ⟨N, C' + M1 + M2, by linarith, ?_⟩
    intro rd fexp u eta w hr hu he hexp hw P hPt hN hst hx0r hx0 hgr hpr1 hpr2 hno
    have hw0 : 0 ≤ w := hr.u_nonneg.trans hu
    have t1 : 0 ≤ C' * w := by positivity
    have t2 : 0 ≤ M1 * w := by positivity
    have t3 : 0 ≤ M2 * w := by positivity
    have o1 := (hO1 rd fexp u eta w hr hu he hexp (by linarith) P.first (fun _ => ⟨hst.ge, hst.le⟩) hgr hpr1 hno).mono (K' := K1 + K2) (by linarith) hw0
    have o2 := (hO2 rd fexp u eta w hr hu he hexp (by linarith) P.second (fun _ => ⟨hst.ge, hst.le⟩) hgr hpr2 hno).mono (K' := K1 + K2) (by linarith) hw0
    obtain ⟨r, e, hsu, hni, c⟩ := h3 rd u eta w hr hu he (by linarith) P hPt hN hst hx0r hx0 o1 o2
    exact ⟨r, e, hsu, hni, c.mono hCC0 hw0, hval C hCC1 w _ _ r hw0 c⟩

/-! ### Instances -/

/-- On the l1 ball every loss with an l1 penalty has a minimiser. -/
theorem exists_minimiser_l1Ball_l1 (f : LossObj n d) (hf : f.Good) {sv : ℝ} (hsv : IsLargestSingular f.mat sv) {alpha beta : ℝ} (ha : 0 < alpha) :
    ∃ xs ∈ (PenObj.l1Ball (d := d) alpha).fn.dom, ∀ y ∈ (PenObj.l1Ball (d := d) alpha).fn.dom,
      f.fn xs + (PenObj.l1Ball (d := d) alpha).fn.val xs + (PenObj.l1Norm (d := d) beta).fn.val xs ≤
        f.fn y + (PenObj.l1Ball (d := d) alpha).fn.val y + (PenObj.l1Norm (d := d) beta).fn.val y := by
  obtain ⟨-, hconv, hq, -, -⟩ := C92_loss f hf hsv
  have hc : Continuous fun x : ℓ² => ∑ i, |x i| := by fun_prop
  have hcl : IsClosed {x : ℓ² | WithLp.ofLp x ∈ Spec.l1Ball alpha} := isClosed_le hc continuous_const
  have hbd : Bornology.IsBounded {x : ℓ² | WithLp.ofLp x ∈ Spec.l1Ball alpha} := by
    refine (Metric.isBounded_closedBall (x := (0 : ℓ²)) (r := d * alpha)).subset fun x hx => ?_
    rw [mem_closedBall_zero_iff]
    refine norm_le_of_coord x fun j => ?_
    exact (Finset.single_le_sum (f := fun j => |x j|) (fun _ _ => abs_nonneg _) (Finset.mem_univ j)).trans hx
  have hne : ({x : ℓ² | WithLp.ofLp x ∈ Spec.l1Ball alpha}).Nonempty := ⟨0, by
    show ∑ i : Fin d, |(0 : ℝ)| ≤ alpha
    simp; exact ha.le⟩
  have hcont : Continuous fun x : ℓ² => f.fn x + beta * ∑ i, |x i| := (continuous_of_smooth hconv hq).add (continuous_const.mul hc)
  obtain ⟨xs, hxs, hm⟩ := (Metric.isCompact_of_isClosed_isBounded hcl hbd).exists_isMinOn hne hcont.continuousOn
  refine ⟨xs, hxs, fun y hy => ?_⟩
  have h1 : f.fn xs + beta * ∑ i, |xs i| ≤ f.fn y + beta * ∑ i, |y i| := hm hy
  show f.fn xs + 0 + beta * ∑ i, |xs i| ≤ f.fn y + 0 + beta * ∑ i, |y i|
  linarith

/-- C130 for every loss and data set with an l1 penalty on the l1 ball of any radius: rounding to `p + 1` bits for every large enough `p`, with step `1 / L`, the zero vector as starting point and
the results of a sequential implementation with fused multiply-add instructions.  With a fixed positive tolerance every long enough run succeeds. -/
example (hn : 0 < n) (hd : 0 < d) (f : LossObj n d) (hf : f.Good) {sv : ℝ} (hsv : IsLargestSingular f.mat sv) (hL : 0 < f.lipschitz sv) {alpha beta : ℝ} (ha : 0 < alpha) (hb : 0 ≤ beta)
    {tol : ℝ} (htol : 0 < tol) : ∃ (N p0 : ℕ), ∀ p ≥ p0, ∃ P : FlTSArgs d, P.x0 = 0 ∧ P.tol = tol ∧ (∀ k x, f.FlGrad (flBits p) (fun t => flBits p (Real.exp t)) x (P.grad k x)) ∧
        (∀ k v, (PenObj.l1Ball alpha).FlProxE (flBits p) v P.step (P.prox1 k v P.step)) ∧ (∀ k v, (PenObj.l1Norm beta).FlProxE (flBits p) v P.step (P.prox2 k v P.step)) ∧
        ∀ m ≥ N, ∃ r, flMinimizeTS (flBits p) { P with maxIter := m } = .ok r ∧ r.success = true ∧ r.nit < N := by
  obtain ⟨xs, hxs, hmin⟩ := exists_minimiser_l1Ball_l1 f hf hsv (beta := beta) ha
  have hpen1 : (PenObj.l1Ball (d := d) alpha).FlGoodE := ha
  have hpen2 : (PenObj.l1Norm (d := d) beta).FlGoodE := hb
  obtain ⟨s, hsd⟩ : ∃ s, s = (f.lipschitz sv)⁻¹ := ⟨_, rfl⟩
  have hs : 0 < s := by rw [hsd]; positivity
  obtain ⟨C, -, -, h⟩ := C130_rounded_regression f hf hsv hL (.l1Ball alpha) (.l1Norm beta) hpen1 hpen2 rfl hxs hmin hs (by rw [hsd, inv_mul_cancel₀ hL.ne']; norm_num) (norm2 (0 : Fin d → ℝ))
  obtain ⟨N, C', hC', h⟩ := h tol htol
  obtain ⟨p0, hp0⟩ := exists_pow_lt_of_lt_one (show 0 < 1 / C' by positivity) (show (2⁻¹ : ℝ) < 1 by norm_num)
  refine ⟨N, p0, fun p hp => ?_⟩
  have hw : (2⁻¹ : ℝ) ^ p * C' < 1 := by
    rw [← lt_div_iff₀ hC']
    exact lt_of_le_of_lt (pow_le_pow_of_le_one (by norm_num) (by norm_num) hp) hp0
  have hpos : (0 : ℝ) < 2⁻¹ ^ p := by positivity
  have hhalf : (2⁻¹ : ℝ) ^ (p + 1) = 2⁻¹ ^ p / 2 := by rw [pow_succ]; ring
  have hr := flBits_rounding (p := p) (eta := 0) le_rfl
  have hr0 : flBits p 0 = 0 := by
    have := hr.neg 0
    rw [neg_zero] at this
    linarith
  choose gr hgr using fun x => f.exists_flGrad (flBits p) (fun t => flBits p (Real.exp t)) hn hd x
  choose pr1 hpr1 using fun v => (PenObj.l1Ball (d := d) alpha).exists_flProxE (flBits p) hd hpen1 v s
  choose pr2 hpr2 using fun v => (PenObj.l1Norm (d := d) beta).exists_flProxE (flBits p) hd hpen2 v s
  choose no hno using fun v : Fin d → ℝ => exists_flNorm (flBits p) hd v
  refine ⟨⟨fun _ => gr, fun _ v _ => pr1 v, fun _ v _ => pr2 v, fun _ => no, s, 0, tol, N⟩, rfl, rfl, fun _ => hgr, fun _ => hpr1, fun _ => hpr2, fun m hm => ?_⟩
  obtain ⟨r, e, hsu, hnit, -⟩ := h (flBits p) (fun t => flBits p (Real.exp t)) (2⁻¹ ^ (p + 1)) 0 (2⁻¹ ^ p) hr (by rw [hhalf]; linarith) (by positivity) (fun t ht => by
      have h1 := hr.err (Real.exp t)
      rw [abs_of_pos (Real.exp_pos t), add_zero] at h1
      have h2 : Real.exp t ≤ 1 := Real.exp_le_one_iff.mpr ht
      have h3 := mul_le_mul_of_nonneg_left h2 (show (0 : ℝ) ≤ 2⁻¹ ^ (p + 1) by positivity)
      rw [hhalf] at h1 h3
      linarith) (by linarith)
    ⟨fun _ => gr, fun _ v _ => pr1 v, fun _ v _ => pr2 v, fun _ => no, s, 0, tol, m⟩ rfl hm rfl (fun _ => hr0) le_rfl (fun _ => hgr) (fun _ => hpr1) (fun _ => hpr2) (fun _ => hno)
  exact ⟨r, e, hsu, hnit⟩

end Copt
