import Verif.Model.FloatConstrained
import Verif.Props.FloatSolver

/-!
# Property C124: `minimize_proximal_gradient` with rounded arithmetic and projections which may raise
-/

set_option linter.unusedSectionVars false

namespace Copt

open Spec

open scoped InnerProductSpace

variable {n d : ℕ}

local notation "ℓ²" => EuclideanSpace ℝ (Fin d)

/-! ### Runs with a raising oracle -/

/-- The point at which `prox` is evaluated. -/
noncomputable def flPgPoint (rd : ℝ → ℝ) (grad : (Fin d → ℝ) → Fin d → ℝ) (step : ℝ) (x : Fin d → ℝ) : Fin d → ℝ := fun j => rd (x j - rd (step * grad x j))

/-- The same arguments with a total `prox`. -/
noncomputable def FlPGArgsE.total (P : FlPGArgsE d) (pr : ℕ → (Fin d → ℝ) → ℝ → Fin d → ℝ) : FlPGArgs d := ⟨P.grad, pr, P.norm, P.step, P.x0, P.tol, P.maxIter⟩

theorem flPgLoopE_eq (rd : ℝ → ℝ) (P : FlPGArgsE d) (pr : ℕ → (Fin d → ℝ) → ℝ → Fin d → ℝ) : ∀ m nit x, x = flPgOrbit rd (P.total pr) nit →
    (∀ k, nit ≤ k → k ≤ nit + m → (∀ i, nit ≤ i → i < k → ¬ flPgCert rd (P.total pr) i (flPgOrbit rd (P.total pr) i) (flPgOrbit rd (P.total pr) (i + 1)) < P.tol) →
      P.prox k (flPgPoint rd (P.grad k) (P.step k) (flPgOrbit rd (P.total pr) k)) (P.step k) = .ok (flPgOrbit rd (P.total pr) (k + 1))) →
    flPgLoopE rd P m nit x = .ok (flPgLoop rd (P.total pr) m nit x) := by
  intro m
  induction m with
  | zero =>
    intro nit x hx hp
    subst hx
    have h1 := hp nit le_rfl le_rfl fun i h1 h2 => absurd h1 (by omega)
    unfold flPgPoint at h1
    rw [flPgLoopE, flPgLoop, h1]
    change (if P.norm nit _ < P.tol then _ else _) = _
    by_cases hc : flPgCert rd (P.total pr) nit (flPgOrbit rd (P.total pr) nit) (flPgOrbit rd (P.total pr) (nit + 1)) < P.tol
    · rw [if_pos (by exact hc)]
      show _ = Except.ok (if _ then _ else _)
      rw [if_pos (by exact hc)]; rfl
    · rw [if_neg (by exact hc)]
      show _ = Except.ok (if _ then _ else _)
      rw [if_neg (by exact hc)]; rfl
  | succ m ih =>
    intro nit x hx hp
    subst hx
    have h1 := hp nit le_rfl (by omega) fun i h1 h2 => absurd h1 (by omega)
    unfold flPgPoint at h1
    rw [flPgLoopE, flPgLoop, h1]
    change (if P.norm nit _ < P.tol then _ else _) = _
    by_cases hc : flPgCert rd (P.total pr) nit (flPgOrbit rd (P.total pr) nit) (flPgOrbit rd (P.total pr) (nit + 1)) < P.tol
    · rw [if_pos (by exact hc)]
      show _ = Except.ok (if _ then _ else _)
      rw [if_pos (by exact hc)]; rfl
    · rw [if_neg (by exact hc)]
      show _ = Except.ok (if _ then _ else _)
      rw [if_neg (by exact hc)]
      refine ih (nit + 1) _ rfl fun k hk1 hk2 hk => hp k (by omega) (by omega) fun i hi1 hi2 => ?_
      rcases Nat.eq_or_lt_of_le hi1 with rfl | hlt
      · exact hc
      · exact hk i hlt hi2

/-! ### The general statement -/

/-- Accuracy of the oracles at the scale of their argument; `prox` must return on representable vectors `v` with `K w (1 + ‖v‖) ≤ 1` only. -/
structure FlOraclesE (rd : ℝ → ℝ) (P : FlPGArgsE d) (g : ℓ² → ℓ²) (proxE : ℓ² → ℝ → ℓ²) (K w : ℝ) : Prop where
  grad : ∀ k x j, |P.grad k x j - g (WithLp.toLp 2 x) j| ≤ K * w * (1 + norm2 x)
  prox : ∀ k v, (∀ j, rd (v j) = v j) → K * w * (1 + norm2 v) ≤ 1 → ∃ p, P.prox k v (P.step k) = .ok p ∧
    ∀ j, |p j - proxE (WithLp.toLp 2 v) (P.step k) j| ≤ K * w * (1 + norm2 v)
  norm : ∀ k v, |P.norm k v - norm2 v| ≤ K * w * (1 + norm2 v)

/-- A total operator which agrees with `prox` where it returns and is accurate everywhere. -/
theorem FlOraclesE.exists_total {rd : ℝ → ℝ} {P : FlPGArgsE d} {g : ℓ² → ℓ²} {proxE : ℓ² → ℝ → ℓ²} {K w : ℝ} (hO : FlOraclesE rd P g proxE K w) (hK : 0 ≤ K) (hw0 : 0 ≤ w) :
    ∃ pr : ℕ → (Fin d → ℝ) → ℝ → Fin d → ℝ, (∀ k v, (∀ j, rd (v j) = v j) → K * w * (1 + norm2 v) ≤ 1 → P.prox k v (P.step k) = .ok (pr k v (P.step k))) ∧
      ∀ k v j, |pr k v (P.step k) j - proxE (WithLp.toLp 2 v) (P.step k) j| ≤ K * w * (1 + norm2 v) := by
  classical
  have key : ∀ k v, ∃ p : Fin d → ℝ, ((∀ j, rd (v j) = v j) → K * w * (1 + norm2 v) ≤ 1 → P.prox k v (P.step k) = .ok p) ∧
      ∀ j, |p j - proxE (WithLp.toLp 2 v) (P.step k) j| ≤ K * w * (1 + norm2 v) := by
    intro k v
    by_cases hv : (∀ j, rd (v j) = v j) ∧ K * w * (1 + norm2 v) ≤ 1
    · obtain ⟨p, h1, h2⟩ := hO.prox k v hv.1 hv.2
      exact ⟨p, fun _ _ => h1, h2⟩
    · refine ⟨WithLp.ofLp (proxE (WithLp.toLp 2 v) (P.step k)), fun h1 h2 => absurd ⟨h1, h2⟩ hv, fun j => ?_⟩
      rw [sub_self, abs_zero]
      have := norm2_nonneg' v
      positivity
  choose pr h1 h2 using key
  exact ⟨fun k v _ => pr k v, h1, h2⟩

theorem grad_growth {f : ℓ² → ℝ} {g : ℓ² → ℓ²} {L : ℝ} (hL : 0 < L) (hconv : ∀ x y, f x + ⟪g x, y - x⟫_ℝ ≤ f y) (hq : UpperQuad f g L) :
    ∃ B, 0 ≤ B ∧ ∀ x, ‖g x‖ ≤ B * (1 + ‖x‖) := by
  refine ⟨‖g 0‖ + L, by positivity, fun x => ?_⟩
  have h1 := lip_of_cocoercive hL hconv hq x 0
  have h2 : ‖g x‖ ≤ ‖g x - g 0‖ + ‖g 0‖ := by
    have := norm_add_le (g x - g 0) (g 0)
    rwa [sub_add_cancel] at this
  rw [sub_zero] at h1
  have h4 : 0 ≤ ‖g 0‖ * ‖x‖ := by positivity
  nlinarith [norm_nonneg x]

/-- The point at which `prox` is evaluated is of the size of the iterate. -/
theorem flPgPoint_norm {g : ℓ² → ℓ²} {K Bg s2 : ℝ} (hK : 0 ≤ K) (hBg0 : 0 ≤ Bg) (hs2 : 0 ≤ s2) (hBg : ∀ x, ‖g x‖ ≤ Bg * (1 + ‖x‖)) :
    ∃ D, 0 ≤ D ∧ ∀ (rd : ℝ → ℝ) (u eta w : ℝ), Scale rd u eta w 1 → ∀ (grad : (Fin d → ℝ) → Fin d → ℝ) x step, 0 < step → step ≤ s2 →
      (∀ j, |grad x j - g (WithLp.toLp 2 x) j| ≤ K * w * (1 + norm2 x)) → norm2 (flPgPoint rd grad step x) ≤ D * (1 + norm2 x) := by
  obtain ⟨C1, hC1⟩ : ∃ C1, C1 = 2 * (0 + (2 * (s2 * K) + s2 * Bg + 1)) + (1 + s2 * Bg) + 1 := ⟨_, rfl⟩
  have hC10 : 0 ≤ C1 := by rw [hC1]; positivity
  refine ⟨d * (C1 + (1 + s2 * Bg)), by positivity, ?_⟩
  intro rd u eta w hsc1 grad x step hs0 hs hg
  obtain ⟨r, hrr⟩ : ∃ r, r = 1 + norm2 x := ⟨_, rfl⟩
  have hx0 : 0 ≤ norm2 x := Real.sqrt_nonneg _
  have hsc : Scale rd u eta w r := ⟨hsc1.rnd, hsc1.u_le, hsc1.eta_le, hsc1.w_nonneg, hsc1.w_le, by linarith⟩
  have hr0 : 0 ≤ r := by linarith
  set X : ℓ² := WithLp.toLp 2 x with hX
  have hXn : ‖X‖ = norm2 x := toLp_norm x
  have hgX : ‖g X‖ ≤ Bg * r := by rw [hrr, ← hXn]; exact hBg X
  have hclose : ∀ j, Close w r C1 (1 + s2 * Bg) (flPgPoint rd grad step x j) (x j - step * g X j) := by
    intro j
    have c1 : Close w r K Bg (grad x j) (g X j) := ⟨by rw [hrr]; exact hg j, (coord_le_norm _ j).trans hgX, hK, hBg0⟩
    have c2 := (c1.smul step).mono hsc (C' := s2 * K) (B' := s2 * Bg) (by rw [abs_of_pos hs0]; exact mul_le_mul_of_nonneg_right hs hK)
      (by rw [abs_of_pos hs0]; exact mul_le_mul_of_nonneg_right hs hBg0)
    have c3 := c2.round hsc
    have c4 : Close w r 0 1 (x j) (x j) := ⟨by simp, by
      have := coord_le_norm X j
      rw [hXn] at this
      show |X j| ≤ _
      linarith, le_rfl, zero_le_one⟩
    have c5 := (c4.sub c3).round hsc
    rw [hC1]
    exact c5
  rw [← toLp_norm, ← hrr, mul_assoc]
  refine norm_le_of_coord _ fun j => ?_
  have h1 := (hclose j).err
  have h2 := (hclose j).size
  have h3 : |flPgPoint rd grad step x j| ≤ |flPgPoint rd grad step x j - (x j - step * g X j)| + |x j - step * g X j| := by
    calc |flPgPoint rd grad step x j| = |(flPgPoint rd grad step x j - (x j - step * g X j)) + (x j - step * g X j)| := congrArg _ (by ring)
      _ ≤ _ := abs_add_le _ _
  have h4 : C1 * w * r ≤ C1 * 1 * r := mul_le_mul_of_nonneg_right (mul_le_mul_of_nonneg_left hsc1.w_le hC10) hr0
  show |flPgPoint rd grad step x j| ≤ _
  linarith

/-- The guarantee for a run which returns `r`: distance to the solution, to the domain, and the meaning of the flag. -/
structure FlPgGuarantee (G : ExtFun ℓ²) (xs x0 : ℓ²) (C q w tol : ℝ) (maxIter : ℕ) (r : FlPGResult d) : Prop where
  dist : ‖(WithLp.toLp 2 r.x : ℓ²) - xs‖ ≤ q ^ (r.nit + 1) * ‖x0 - xs‖ + C * w
  success : 0 ≤ tol → r.success = true → ‖(WithLp.toLp 2 r.x : ℓ²) - xs‖ ≤ C * (tol + w)
  failure : r.success = false → r.nit = maxIter
  feasible : ∃ z ∈ G.dom, ‖(WithLp.toLp 2 r.x : ℓ²) - z‖ ≤ C * w

set_option maxHeartbeats 1000000 in
/-- **C124 (general).** As C118, for a `prox` which may raise on large arguments (`FlOraclesE`).  If the precision is high enough for the size `R` of the starting point, no iteration raises. -/
theorem C124_rounded_raising_prox {f : ℓ² → ℝ} {g : ℓ² → ℓ²} {G : ExtFun ℓ²} (hG : G.IsConvex) {proxE : ℓ² → ℝ → ℓ²} (hp : IsProxOf G proxE)
    {mu L : ℝ} (hmu : 0 < mu) (hL : 0 < L) (hf : StrongGrad f g mu) (hq : UpperQuad f g L) {xs : ℓ²} (hxs : xs ∈ G.dom) (hmin : ∀ y ∈ G.dom, f xs + G.val xs ≤ f y + G.val y)
    {s1 s2 : ℝ} (hs1 : 0 < s1) (h12 : s1 ≤ s2) (hs2 : s2 * L < 2) {K : ℝ} (hK : 0 ≤ K) (R : ℝ) :
    ∃ C q, 0 < C ∧ 0 ≤ q ∧ q < 1 ∧ ∀ (rd : ℝ → ℝ) (u eta w : ℝ), Rounding rd u eta → u ≤ w → eta ≤ w ^ 2 → C * w ≤ 1 →
      ∀ P : FlPGArgsE d, norm2 P.x0 ≤ R → (∀ k, s1 ≤ P.step k ∧ P.step k ≤ s2) → FlOraclesE rd P g proxE K w →
        (∃ r, flMinimizePGE rd P = .ok r ∧ FlPgGuarantee G xs (WithLp.toLp 2 P.x0) C q w P.tol P.maxIter r) ∧
        (C * w < P.tol → ∃ N, ∀ m ≥ N, ∃ r, flMinimizePGE rd { P with maxIter := m } = .ok r ∧ r.success = true) := by
  have hs20 : 0 < s2 := by linarith
  obtain ⟨Bg, hBg0, hBg⟩ := grad_growth (d := d) hL (hf.convex hmu.le) hq
  obtain ⟨D, hD0, hD⟩ := flPgPoint_norm (d := d) hK hBg0 hs20.le hBg
  obtain ⟨C, q, hC, hq0, hq1, h⟩ := C118_rounded_proximal_gradient hG hp hmu hL hf hq hxs hmin hs1 h12 hs2 hK
  -- bounds of the iterates and of the arguments of `prox`
  obtain ⟨B, hB⟩ : ∃ B, B = |R| + ‖xs‖ + 1 + ‖xs‖ := ⟨_, rfl⟩
  have hB0 : 0 ≤ B := by rw [hB]; positivity
  obtain ⟨V, hV⟩ : ∃ V, V = 1 + D * (1 + B) := ⟨_, rfl⟩
  have hV0 : 0 ≤ V := by rw [hV]; positivity
  have hd0 : (0 : ℝ) ≤ d := Nat.cast_nonneg d
  obtain ⟨C', hC'⟩ : ∃ C', C' = C + K * V + d * (K * V) + 1 := ⟨_, rfl⟩
  have t1 : 0 ≤ K * V := by positivity
  have t2 : 0 ≤ d * (K * V) := by positivity
  have hCC : C ≤ C' := by rw [hC']; linarith
  refine ⟨C', q, by linarith, hq0, hq1, ?_⟩
  intro rd u eta w hr hu he hCw P hx0 hst hO
  have hw0 : 0 ≤ w := hr.u_nonneg.trans hu
  have hle : ∀ c, c ≤ C' → c * w ≤ 1 := fun c hc => (mul_le_mul_of_nonneg_right hc hw0).trans hCw
  have hw1 : w ≤ 1 := by have := hle 1 (by rw [hC']; linarith); linarith
  have hsc : Scale rd u eta w 1 := ⟨hr, hu, he, hw0, hw1, le_rfl⟩
  -- a total operator which agrees with `prox` where it returns
  obtain ⟨pr, hprok, hprerr⟩ := hO.exists_total hK hw0
  have hOt : ∀ m, FlOracles (FlPGArgsE.total { P with maxIter := m } pr) g proxE K w := fun m => ⟨hO.grad, hprerr, hO.norm⟩
  -- the iterates are bounded
  have hx0n : ‖(WithLp.toLp 2 P.x0 : ℓ²) - xs‖ ≤ |R| + ‖xs‖ := by
    refine (norm_sub_le _ _).trans ?_
    rw [toLp_norm]
    linarith [le_abs_self R]
  have horb : ∀ k, norm2 (flPgOrbit rd (P.total pr) k) ≤ B := by
    intro k
    have : ‖(WithLp.toLp 2 (flPgOrbit rd (P.total pr) k) : ℓ²) - xs‖ ≤ |R| + ‖xs‖ + 1 := by
      cases k with
      | zero => exact hx0n.trans (by linarith)
      | succ k =>
        let Q : FlPGArgs d := ⟨P.grad, pr, fun _ => norm2, P.step, P.x0, 0, k⟩
        have hQ : FlOracles Q g proxE K w := ⟨hO.grad, hprerr, fun _ v => by
          show |norm2 v - norm2 v| ≤ _
          rw [sub_self, abs_zero]
          have := norm2_nonneg' v
          positivity⟩
        obtain ⟨c1, -, c3, -⟩ := h rd u eta w hr hu he (hle C hCC) Q hst hQ
        obtain ⟨i, -, -, hnit, hx, hcert, hsucc, -⟩ := flPgLoop_spec rd Q k 0 P.x0 rfl
        have hfalse : (flMinimizePG rd Q).success = false := by
          by_contra hcon
          have h0 : (flMinimizePG rd Q).success = true := by simpa using hcon
          have h1 := hsucc h0
          rw [hcert] at h1
          exact absurd h1 (not_lt.mpr (norm2_nonneg' _))
        have h2 := c3 hfalse
        have h3 : i = k := hnit.symm.trans h2
        have horbQ : ∀ i, flPgOrbit rd Q i = flPgOrbit rd (P.total pr) i := by
          intro i
          induction i with
          | zero => rfl
          | succ i ih => show flPgNext rd Q i _ = flPgNext rd (P.total pr) i _; rw [ih]; rfl
        have h4 : (flMinimizePG rd Q).x = flPgOrbit rd (P.total pr) (k + 1) := by
          rw [← horbQ, ← h3]; exact hx
        rw [h4] at c1
        have h5 : q ^ ((flMinimizePG rd Q).nit + 1) * ‖(WithLp.toLp 2 Q.x0 : ℓ²) - xs‖ ≤ 1 * ‖(WithLp.toLp 2 Q.x0 : ℓ²) - xs‖ :=
          mul_le_mul_of_nonneg_right (pow_le_one₀ hq0 hq1.le) (norm_nonneg _)
        have h6 := hle C hCC
        have h7 : ‖(WithLp.toLp 2 Q.x0 : ℓ²) - xs‖ ≤ |R| + ‖xs‖ := hx0n
        linarith
    rw [← toLp_norm, hB]
    have h2 := norm_add_le ((WithLp.toLp 2 (flPgOrbit rd (P.total pr) k) : ℓ²) - xs) xs
    rw [sub_add_cancel] at h2
    linarith
  have hpt : ∀ k, 1 + norm2 (flPgPoint rd (P.grad k) (P.step k) (flPgOrbit rd (P.total pr) k)) ≤ V := by
    intro k
    have h1 := hD rd u eta w hsc (P.grad k) (flPgOrbit rd (P.total pr) k) (P.step k) (by linarith [(hst k).1]) (hst k).2 (hO.grad k _)
    have h2 := mul_le_mul_of_nonneg_left (horb k) hD0
    rw [hV]; linarith
  have hKV : ∀ k, K * w * (1 + norm2 (flPgPoint rd (P.grad k) (P.step k) (flPgOrbit rd (P.total pr) k))) ≤ K * V * w := by
    intro k
    have := mul_le_mul_of_nonneg_left (hpt k) (mul_nonneg hK hw0)
    linarith
  have hok : ∀ k, P.prox k (flPgPoint rd (P.grad k) (P.step k) (flPgOrbit rd (P.total pr) k)) (P.step k) = .ok (flPgOrbit rd (P.total pr) (k + 1)) := by
    intro k
    exact hprok k _ (fun j => hr.idem _) ((hKV k).trans (hle _ (by rw [hC']; linarith)))
  have hrun : ∀ m, flMinimizePGE rd { P with maxIter := m } = .ok (flMinimizePG rd (FlPGArgsE.total { P with maxIter := m } pr)) := by
    intro m
    have horb' : ∀ i, flPgOrbit rd (FlPGArgsE.total { P with maxIter := m } pr) i = flPgOrbit rd (P.total pr) i := by
      intro i
      induction i with
      | zero => rfl
      | succ i ih => show flPgNext rd (P.total pr) i _ = flPgNext rd (P.total pr) i _; rw [ih]
    refine flPgLoopE_eq rd { P with maxIter := m } pr m 0 P.x0 rfl fun k _ _ _ => ?_
    rw [horb', horb']
    exact hok k
  refine ⟨⟨_, hrun P.maxIter, ?_⟩, fun ht => ?_⟩
  · obtain ⟨c1, c2, c3, -⟩ := h rd u eta w hr hu he (hle C hCC) (P.total pr) hst (hOt P.maxIter)
    have hCw' : C * w ≤ C' * w := mul_le_mul_of_nonneg_right hCC hw0
    obtain ⟨k, -, -, -, hx, -⟩ := flPgLoop_spec rd (P.total pr) P.maxIter 0 P.x0 rfl
    refine ⟨c1.trans (by have h7 : (P.total pr).x0 = P.x0 := rfl; rw [h7]; exact add_le_add_right hCw' _), fun h0 hsu => (c2 h0 hsu).trans (mul_le_mul_of_nonneg_right hCC (by have : 0 ≤ (P.total pr).tol := h0; linarith)), c3, ?_⟩
    refine ⟨proxE (WithLp.toLp 2 (flPgPoint rd (P.grad k) (P.step k) (flPgOrbit rd (P.total pr) k))) (P.step k), (hp _ _ (by linarith [(hst k).1])).1, ?_⟩
    have hx' : (flMinimizePG rd (P.total pr)).x = flPgOrbit rd (P.total pr) (k + 1) := hx
    change ‖(WithLp.toLp 2 (flMinimizePG rd (P.total pr)).x : ℓ²) - _‖ ≤ _
    rw [hx']
    refine (norm_le_of_coord _ (c := K * V * w) fun j => ?_).trans ?_
    · exact (hprerr k _ j).trans (hKV k)
    · have := mul_le_mul_of_nonneg_right (show d * (K * V) ≤ C' by rw [hC']; linarith) hw0
      linarith
  · obtain ⟨-, -, -, c4⟩ := h rd u eta w hr hu he (hle C hCC) (P.total pr) hst (hOt P.maxIter)
    obtain ⟨N, hN⟩ := c4 (by
      have hCw' : C * w ≤ C' * w := mul_le_mul_of_nonneg_right hCC hw0
      exact lt_of_le_of_lt hCw' ht)
    exact ⟨N, fun m hm => ⟨_, hrun m, hN m hm⟩⟩

/-! ### The penalties and constraints of the library -/

/-- Admissible parameters. -/
def PenObj.FlGoodE : PenObj d → Prop
  | .fusedLasso _ _ => False
  | .l2Ball alpha => 0 < alpha
  | pen => pen.Good

theorem PenObj.FlGoodE.good {pen : PenObj d} (h : pen.FlGoodE) : pen.Good := by
  cases pen with
  | fusedLasso alpha _ => exact h.elim
  | l2Ball alpha => exact le_of_lt h
  | _ => exact h

theorem norm1_le_norm2 (v : Fin d → ℝ) : norm1 v ≤ d * norm2 v := by
  refine (Finset.sum_le_sum fun j _ => abs_le_norm2 v j).trans ?_
  rw [Finset.sum_const, Finset.card_univ, Fintype.card_fin, nsmul_eq_mul]

/-- Scales in C115 and C116. -/
theorem proj_scale {rd : ℝ → ℝ} {u eta w s c : ℝ} (hs : Scale rd u eta w 1) (hs0 : 0 < s) (hc : 0 ≤ c) (v : Fin d → ℝ)
    (hK : (c * d * (d + s + 1) + 2 * (1 + s) / s) * w * (1 + norm2 v) ≤ 1) :
    (∀ i, u * (|v i| + s) + eta < s) ∧ c * d * (u * (norm1 v + s) + eta) ≤ (c * d * (d + s + 1) + 2 * (1 + s) / s) * w * (1 + norm2 v) := by
  have hv := norm2_nonneg' v
  have hw := hs.w_nonneg
  have hu := hs.rnd.u_nonneg
  have he := hs.eta_le'
  have hd0 : (0 : ℝ) ≤ d := Nat.cast_nonneg d
  have hr0 : 0 ≤ w * (1 + norm2 v) := by positivity
  have hI : 0 ≤ 2 * (1 + s) / s := by positivity
  have hcd : 0 ≤ c * d * (d + s + 1) := by positivity
  constructor
  · intro i
    have h1 := abs_le_norm2 v i
    have h2 : u * (|v i| + s) ≤ w * (norm2 v + s) := mul_le_mul hs.u_le (by linarith) (by positivity) hw
    have h3 : 2 * (1 + s) / s * (w * (1 + norm2 v)) ≤ 1 := by
      have := mul_nonneg hcd hr0
      linarith
    have h4 : 2 * (1 + s) / s * (w * (1 + norm2 v)) = 2 * ((1 + s) * (w * (1 + norm2 v))) / s := by ring
    rw [h4, div_le_one hs0] at h3
    have h5 : w * (norm2 v + s) + w ≤ (1 + s) * (w * (1 + norm2 v)) := by
      have : 0 ≤ s * (w * norm2 v) := by positivity
      linarith
    linarith
  · have h1 := norm1_le_norm2 v
    have hn1 : 0 ≤ norm1 v := Finset.sum_nonneg fun _ _ => abs_nonneg _
    have h2 : u * (norm1 v + s) ≤ w * (d * norm2 v + s) := mul_le_mul hs.u_le (by linarith) (by positivity) hw
    have h3 : w * (d * norm2 v + s) + w ≤ (d + s + 1) * (w * (1 + norm2 v)) := by
      have t1 : 0 ≤ s * (w * norm2 v) := by positivity
      have t2 : 0 ≤ w * norm2 v := by positivity
      have t3 : 0 ≤ d * w := by positivity
      linarith
    have h4 := mul_le_mul_of_nonneg_left (h2.trans (by linarith : _ ≤ (d + s + 1) * (w * (1 + norm2 v)) - w)) (show 0 ≤ c * d by positivity)
    have h5 := mul_le_mul_of_nonneg_left he (show 0 ≤ c * d by positivity)
    have h6 := mul_nonneg hI hr0
    linarith

/-- The step size must be large compared to the underflow threshold. -/
theorem PenObj.flProxE_error' (pen : PenObj d) (hp : pen.FlGoodE) {s2 I : ℝ} (h2 : 0 ≤ s2) (hI : 0 ≤ I) : ∃ K, 0 ≤ K ∧ ∀ (rd : ℝ → ℝ) (u eta w : ℝ), Scale rd u eta w 1 → 16 * d * w ≤ 1 → K * w ≤ 1 →
    ∀ v s res, (∀ j, rd (v j) = v j) → K * w * (1 + norm2 v) ≤ 1 → 0 < s → s ≤ s2 → eta ≤ I * w * s → pen.FlProxE rd v s res →
      ∃ p, res = .ok p ∧ ∀ j, |p j - pen.proxE (WithLp.toLp 2 v) s j| ≤ K * w * (1 + norm2 v) := by
  have hd0 : (0 : ℝ) ≤ d := Nat.cast_nonneg d
  have easy : ∀ pen : PenObj d, pen.FlGood → (∀ rd v s res, pen.FlProxE rd v s res → ∃ p, pen.FlProx rd v s p ∧ res = .ok p) →
      ∃ K, 0 ≤ K ∧ ∀ (rd : ℝ → ℝ) (u eta w : ℝ), Scale rd u eta w 1 → 16 * d * w ≤ 1 → K * w ≤ 1 →
    ∀ v s res, (∀ j, rd (v j) = v j) → K * w * (1 + norm2 v) ≤ 1 → 0 < s → s ≤ s2 → eta ≤ I * w * s → pen.FlProxE rd v s res →
      ∃ p, res = .ok p ∧ ∀ j, |p j - pen.proxE (WithLp.toLp 2 v) s j| ≤ K * w * (1 + norm2 v) := by
    intro pen hp hE
    obtain ⟨K, hK, h⟩ := pen.flProx_error' hp h2 hI
    refine ⟨K, hK, ?_⟩
    intro rd u eta w hs hd hKw v s res hv _ hs1 hs2 he hres
    obtain ⟨p, hp, rfl⟩ := hE _ _ _ _ hres
    have : 0 ≤ d * w := mul_nonneg hd0 hs.w_nonneg
    exact ⟨p, rfl, h rd u eta w hs (by linarith) hKw v s p hs1 hs2 he hp⟩
  cases pen with
  | l1Norm alpha => exact easy _ hp fun _ _ _ _ h => h
  | groupL1 alpha groups => exact easy _ hp fun _ _ _ _ h => h
  | linfBall alpha => exact easy _ hp fun _ _ _ _ h => h
  | l2Ball alpha => exact easy _ hp fun _ _ _ _ h => h
  | fusedLasso alpha _ => exact hp.elim
  | l1Ball alpha =>
    have ha : 0 < alpha := hp
    refine ⟨26 * d * (d + alpha + 1) + 2 * (1 + alpha) / alpha, by positivity, ?_⟩
    rintro rd u eta w hs hd - v s res hv hKv hs1 hs2 - ⟨sum, hsum, rfl⟩
    obtain ⟨hbig, hscale⟩ := proj_scale hs ha (by norm_num : (0 : ℝ) ≤ 26) v hKv
    have hdu : 16 * d * u ≤ 1 := (mul_le_mul_of_nonneg_left hs.u_le (by positivity)).trans hd
    obtain ⟨p, P, e, hP, herr, -⟩ := C116_l1_ball_rounded_partial hs.rnd hdu v hv ha hsum hbig
    refine ⟨p, e, fun j => ?_⟩
    obtain ⟨hG, hpr, -⟩ := C92_prox_exact (d := d) (.l1Ball alpha) ha
    have hPe : PenObj.proxE (.l1Ball alpha) (WithLp.toLp 2 v) s = WithLp.toLp 2 P :=
      IsProxPt.unique hG (by linarith) (hpr _ _ (by linarith)) (isProj_ext (v := WithLp.toLp 2 v) hP)
    rw [hPe]
    exact (Finset.single_le_sum (f := fun j => |p j - P j|) (fun _ _ => abs_nonneg _) (Finset.mem_univ j)).trans (herr.trans hscale)
  | simplex r =>
    obtain ⟨ha, hd1⟩ : 0 < r ∧ 0 < d := hp
    refine ⟨24 * d * (d + r + 1) + 2 * (1 + r) / r, by positivity, ?_⟩
    rintro rd u eta w hs hd - v s res hv hKv hs1 hs2 - ⟨sum, hsum, rfl⟩
    obtain ⟨hbig, hscale⟩ := proj_scale hs ha (by norm_num : (0 : ℝ) ≤ 24) v hKv
    have hdu : 16 * d * u ≤ 1 := (mul_le_mul_of_nonneg_left hs.u_le (by positivity)).trans hd
    haveI : Nonempty (Fin d) := ⟨⟨0, hd1⟩⟩
    obtain ⟨i0, hi0⟩ := Finite.exists_max v
    obtain ⟨p, P, e, -, hP, herr, -⟩ := C115_simplex_rounded_partial hs.rnd hdu v hv ha hsum ⟨i0, hi0, hbig i0⟩
    refine ⟨p, e, fun j => ?_⟩
    obtain ⟨hG, hpr, -⟩ := C92_prox_exact (d := d) (.simplex r) ⟨ha, hd1⟩
    have hPe : PenObj.proxE (.simplex r) (WithLp.toLp 2 v) s = WithLp.toLp 2 P :=
      IsProxPt.unique hG (by linarith) (hpr _ _ (by linarith)) (isProj_ext (v := WithLp.toLp 2 v) hP)
    rw [hPe]
    exact (Finset.single_le_sum (f := fun j => |p j - P j|) (fun _ _ => abs_nonneg _) (Finset.mem_univ j)).trans (herr.trans hscale)

theorem PenObj.flProxE_error (pen : PenObj d) (hp : pen.FlGoodE) {s1 s2 : ℝ} (h1 : 0 < s1) (h12 : s1 ≤ s2) : ∃ K, 0 ≤ K ∧ ∀ (rd : ℝ → ℝ) (u eta w : ℝ), Scale rd u eta w 1 → 16 * d * w ≤ 1 → K * w ≤ 1 →
    ∀ v s res, (∀ j, rd (v j) = v j) → K * w * (1 + norm2 v) ≤ 1 → s1 ≤ s → s ≤ s2 → pen.FlProxE rd v s res →
      ∃ p, res = .ok p ∧ ∀ j, |p j - pen.proxE (WithLp.toLp 2 v) s j| ≤ K * w * (1 + norm2 v) := by
  obtain ⟨K, hK, h⟩ := pen.flProxE_error' hp (h1.le.trans h12) (show 0 ≤ s1⁻¹ by positivity)
  refine ⟨K, hK, fun rd u eta w hs hd hKw v s p hv hKv hs1 hs2 => h rd u eta w hs hd hKw v s p hv hKv (h1.trans_le hs1) hs2 ?_⟩
  have e : 1 ≤ s1⁻¹ * s := by rw [inv_mul_eq_div, le_div_iff₀ h1]; linarith
  have := mul_le_mul_of_nonneg_left e hs.w_nonneg
  linarith [hs.eta_le']

/-- The oracles of the library satisfy `FlOraclesE`. -/
theorem flOracles_library (f : LossObj n d) (hf : f.Good) (pen : PenObj d) (hpen : pen.FlGoodE) {s1 s2 : ℝ} (hs1 : 0 < s1) (h12 : s1 ≤ s2) :
    ∃ K M, 0 ≤ K ∧ 0 ≤ M ∧ ∀ (rd fexp : ℝ → ℝ) (u eta w : ℝ), Rounding rd u eta → u ≤ w → eta ≤ w ^ 2 → (∀ t ≤ 0, |fexp t - Real.exp t| ≤ w) → M * w ≤ 1 →
      ∀ P : FlPGArgsE d, (∀ k, s1 ≤ P.step k ∧ P.step k ≤ s2) → (∀ k x, f.FlGrad rd fexp x (P.grad k x)) →
        (∀ k v, pen.FlProxE rd v (P.step k) (P.prox k v (P.step k))) → (∀ k v, FlNorm rd v (P.norm k v)) → FlOraclesE rd P f.gradE pen.proxE K w := by
  obtain ⟨K1, hK1, g1⟩ := f.flGrad_error hf
  obtain ⟨K2, hK2, g2⟩ := pen.flProxE_error hpen hs1 h12
  obtain ⟨K, hK⟩ : ∃ K, K = K1 + K2 + (12 * d + 2) := ⟨_, rfl⟩
  have hn0 : (0 : ℝ) ≤ n := Nat.cast_nonneg n
  have hd0 : (0 : ℝ) ≤ d := Nat.cast_nonneg d
  refine ⟨K, 4 * n + 16 * d + K2 + 10, by rw [hK]; positivity, by positivity, ?_⟩
  intro rd fexp u eta w hr hu he hexp hCw P hst hgr hpr hno
  have hw0 : 0 ≤ w := hr.u_nonneg.trans hu
  have hnw : 0 ≤ n * w := by positivity
  have hdw : 0 ≤ d * w := by positivity
  have hKw0 : 0 ≤ K2 * w := by positivity
  rw [add_mul, add_mul, add_mul] at hCw
  have hsc : Scale rd u eta w 1 := ⟨hr, hu, he, hw0, by linarith, le_rfl⟩
  have mono : ∀ k, 0 ≤ k → k ≤ K → ∀ v : Fin d → ℝ, k * w * (1 + norm2 v) ≤ K * w * (1 + norm2 v) := fun k _ hk v =>
    mul_le_mul_of_nonneg_right (mul_le_mul_of_nonneg_right hk hw0) (by linarith [norm2_nonneg' v])
  refine ⟨fun k x j => ?_, fun k v hv hKv => ?_, fun k v => ?_⟩
  · exact (g1 rd u eta w hsc (by linarith) (by linarith) (by linarith) fexp hexp x _ (hgr k x) j).trans (mono _ hK1 (by rw [hK]; linarith) x)
  · have hm := mono K2 hK2 (by rw [hK]; linarith) v
    obtain ⟨p, e, herr⟩ := g2 rd u eta w hsc (by linarith) (by linarith) v _ _ hv (hm.trans hKv) (hst k).1 (hst k).2 (hpr k v)
    exact ⟨p, e, fun j => (herr j).trans hm⟩
  · exact (flNorm_error hsc (by linarith) (hno k v)).trans (mono _ (by linarith) (by rw [hK]; linarith) v)

/-- **C124.** `minimize_proximal_gradient(f.f_grad, x0, pen.prox, step=…)` for a loss of the library with `alpha > 0` and any penalty or constraint on vectors but `FusedLasso`, everything computed in
rounded arithmetic; the projections onto the simplex and the l1 ball raise an exception on vectors that are too large for the precision (C115, C116).  The problem has a unique solution.  For every bound
`R` on the starting point there are `C` and `q < 1` such that with an arithmetic of precision `w`, `C w ≤ 1`, no run raises; the result is within `q^(nit + 1) ‖x0 - xs‖ + C w` of the solution and
`C w` of the constraint set; a success is within `C (tol + w)` of the solution; and for `tol > C w` every long enough run is a success. -/
theorem C124_rounded_constrained (f : LossObj n d) (hf : f.Good) (hreg : 0 < f.reg) {sv : ℝ} (hsv : IsLargestSingular f.mat sv) (pen : PenObj d) (hpen : pen.FlGoodE)
    {s1 s2 : ℝ} (hs1 : 0 < s1) (h12 : s1 ≤ s2) (hs2 : s2 * f.lipschitz sv < 2) :
    ∃ xs ∈ pen.fn.dom, (∀ y ∈ pen.fn.dom, f.fn xs + pen.fn.val xs ≤ f.fn y + pen.fn.val y) ∧
      (∀ z ∈ pen.fn.dom, (∀ y ∈ pen.fn.dom, f.fn z + pen.fn.val z ≤ f.fn y + pen.fn.val y) → z = xs) ∧
      ∀ R, ∃ C q, 0 < C ∧ 0 ≤ q ∧ q < 1 ∧ ∀ (rd fexp : ℝ → ℝ) (u eta w : ℝ), Rounding rd u eta → u ≤ w → eta ≤ w ^ 2 → (∀ t ≤ 0, |fexp t - Real.exp t| ≤ w) → C * w ≤ 1 →
        ∀ P : FlPGArgsE d, norm2 P.x0 ≤ R → (∀ k, s1 ≤ P.step k ∧ P.step k ≤ s2) → (∀ k x, f.FlGrad rd fexp x (P.grad k x)) →
          (∀ k v, pen.FlProxE rd v (P.step k) (P.prox k v (P.step k))) → (∀ k v, FlNorm rd v (P.norm k v)) →
          (∃ r, flMinimizePGE rd P = .ok r ∧ FlPgGuarantee pen.fn xs (WithLp.toLp 2 P.x0) C q w P.tol P.maxIter r) ∧
          (C * w < P.tol → ∃ N, ∀ m ≥ N, ∃ r, flMinimizePGE rd { P with maxIter := m } = .ok r ∧ r.success = true) := by
  obtain ⟨hstr, -, hq, -, -⟩ := C92_loss f hf hsv
  obtain ⟨hG, hp, -, -⟩ := C92_prox_exact pen hpen.good
  have hL : 0 < f.lipschitz sv := by
    obtain ⟨phi, phi', c, hc, hLc, -⟩ := f.erm_form hf
    rw [hLc]
    have : 0 ≤ c * (sv * sv) / n := by have := mul_self_nonneg sv; positivity
    linarith
  obtain ⟨xs, hxs, hmin, huniq⟩ := exists_minimiser hreg hL hstr hq hG hp
  refine ⟨xs, hxs, hmin, huniq, fun R => ?_⟩
  obtain ⟨K, M, hK0, hM, hO⟩ := flOracles_library f hf pen hpen hs1 h12
  obtain ⟨C, q, hC, hq0, hq1, h⟩ := C124_rounded_raising_prox hG hp hreg hL hstr hq hxs hmin hs1 h12 hs2 hK0 R
  obtain ⟨C', hC'⟩ : ∃ C', C' = C + M := ⟨_, rfl⟩
  have hCC : C ≤ C' := by rw [hC']; linarith
  refine ⟨C', q, by linarith, hq0, hq1, ?_⟩
  intro rd fexp u eta w hr hu he hexp hCw P hx0 hst hgr hpr hno
  have hw0 : 0 ≤ w := hr.u_nonneg.trans hu
  have hCw0 : 0 ≤ C * w := by positivity
  have hMw0 : 0 ≤ M * w := by positivity
  rw [hC', add_mul] at hCw
  obtain ⟨⟨r, e, c⟩, c4⟩ := h rd u eta w hr hu he (by linarith) P hx0 hst (hO rd fexp u eta w hr hu he hexp (by linarith) P hst hgr hpr hno)
  have hCC' : C * w ≤ C' * w := mul_le_mul_of_nonneg_right hCC hw0
  refine ⟨⟨r, e, c.dist.trans (by linarith), fun h0 hsu => (c.success h0 hsu).trans (mul_le_mul_of_nonneg_right hCC (by linarith)), c.failure, ?_⟩, fun ht => c4 (by linarith)⟩
  obtain ⟨z, hz, hzd⟩ := c.feasible
  exact ⟨z, hz, hzd.trans hCC'⟩

/-! ### Instances -/

theorem exists_flSum_seq (rd : ℝ → ℝ) : ∀ l : List ℝ, l ≠ [] → ∃ r, FlSum rd l r
  | [], h => (h rfl).elim
  | [a], _ => ⟨_, FlSum.single a⟩
  | a :: b :: l, _ => by
    obtain ⟨r, hr⟩ := exists_flSum_seq rd (b :: l) (by simp)
    exact ⟨_, FlSum.add (FlSum.single a) hr⟩

theorem PenObj.exists_flProxE (rd : ℝ → ℝ) (hd : 0 < d) (pen : PenObj d) (hp : pen.FlGoodE) (v : Fin d → ℝ) (s : ℝ) : ∃ res, pen.FlProxE rd v s res := by
  have hne : ∀ g : Fin d → ℝ, List.ofFn g ≠ [] := fun g h => by have := congrArg List.length h; simp at this; omega
  have easy : ∀ pen : PenObj d, pen.FlGood → (∀ p, pen.FlProx rd v s p → pen.FlProxE rd v s (.ok p)) → ∃ res, pen.FlProxE rd v s res := fun pen h1 h2 => by
    obtain ⟨p, hp⟩ := pen.exists_flProx rd hd h1 v s
    exact ⟨_, h2 p hp⟩
  cases pen with
  | l1Norm alpha => exact easy _ hp fun p h => ⟨p, h, rfl⟩
  | groupL1 alpha groups => exact easy _ hp fun p h => ⟨p, h, rfl⟩
  | linfBall alpha => exact easy _ hp fun p h => ⟨p, h, rfl⟩
  | l2Ball alpha => exact easy _ hp fun p h => ⟨p, h, rfl⟩
  | fusedLasso alpha _ => exact hp.elim
  | l1Ball alpha =>
    obtain ⟨sum, hsum⟩ := exists_flSum_seq rd _ (hne fun i => |v i|)
    exact ⟨_, sum, hsum, rfl⟩
  | simplex r =>
    obtain ⟨sum, hsum⟩ := exists_flSum_seq rd _ (hne v)
    exact ⟨_, sum, hsum, rfl⟩

/-- C124 for every loss, data set, penalty and starting point: rounding to `p + 1` bits for every large enough `p`, with step `s1` and the results of a sequential implementation with fused
multiply-add instructions.  With a fixed positive tolerance, long runs do not raise and succeed. -/
example (hn : 0 < n) (hd : 0 < d) (f : LossObj n d) (hf : f.Good) (hreg : 0 < f.reg) {sv : ℝ} (hsv : IsLargestSingular f.mat sv) (pen : PenObj d) (hpen : pen.FlGoodE) (x0 : Fin d → ℝ)
    {tol s1 : ℝ} (htol : 0 < tol) (hs1 : 0 < s1) (hs2 : s1 * f.lipschitz sv < 2) : ∃ xs, (∀ y ∈ pen.fn.dom, f.fn xs + pen.fn.val xs ≤ f.fn y + pen.fn.val y) ∧
      ∃ p0, ∀ p ≥ p0, ∃ P : FlPGArgsE d, P.x0 = x0 ∧ P.tol = tol ∧ (∀ k x, f.FlGrad (flBits p) (fun t => flBits p (Real.exp t)) x (P.grad k x)) ∧
        (∀ k v, pen.FlProxE (flBits p) v (P.step k) (P.prox k v (P.step k))) ∧ ∃ N, ∀ m ≥ N, ∃ r, flMinimizePGE (flBits p) { P with maxIter := m } = .ok r ∧ r.success = true := by
  obtain ⟨xs, -, hmin, -, hR⟩ := C124_rounded_constrained f hf hreg hsv pen hpen hs1 le_rfl hs2
  obtain ⟨C, q, hC, -, -, h⟩ := hR (norm2 x0)
  obtain ⟨p0, hp0⟩ := exists_pow_lt_of_lt_one (show 0 < min 1 tol / C by have := lt_min one_pos htol; positivity) (show (2⁻¹ : ℝ) < 1 by norm_num)
  refine ⟨xs, hmin, p0, fun p hp => ?_⟩
  have hw : (2⁻¹ : ℝ) ^ p * C < min 1 tol := by
    rw [← lt_div_iff₀ hC]
    exact lt_of_le_of_lt (pow_le_pow_of_le_one (by norm_num) (by norm_num) hp) hp0
  have hpos : (0 : ℝ) < 2⁻¹ ^ p := by positivity
  have hhalf : (2⁻¹ : ℝ) ^ (p + 1) = 2⁻¹ ^ p / 2 := by rw [pow_succ]; ring
  have hr := flBits_rounding (p := p) (eta := 0) le_rfl
  choose gr hgr using fun x => f.exists_flGrad (flBits p) (fun t => flBits p (Real.exp t)) hn hd x
  choose pr hpr using fun v => pen.exists_flProxE (flBits p) hd hpen v s1
  choose no hno using fun v : Fin d → ℝ => exists_flNorm (flBits p) hd v
  obtain ⟨-, c4⟩ := h (flBits p) (fun t => flBits p (Real.exp t)) (2⁻¹ ^ (p + 1)) 0 (2⁻¹ ^ p) hr (by rw [hhalf]; linarith) (by positivity) (fun t ht => by
      have h1 := hr.err (Real.exp t)
      rw [abs_of_pos (Real.exp_pos t), add_zero] at h1
      have h2 : Real.exp t ≤ 1 := Real.exp_le_one_iff.mpr ht
      have h3 := mul_le_mul_of_nonneg_left h2 (show (0 : ℝ) ≤ 2⁻¹ ^ (p + 1) by positivity)
      rw [hhalf] at h1 h3
      linarith) (by linarith [min_le_left 1 tol])
    ⟨fun _ => gr, fun _ v _ => pr v, fun _ => no, fun _ => s1, x0, tol, 0⟩ le_rfl (fun _ => ⟨le_rfl, le_rfl⟩) (fun _ => hgr) (fun _ => hpr) (fun _ => hno)
  obtain ⟨N, hN⟩ := c4 (show C * 2⁻¹ ^ p < tol by linarith [min_le_right 1 tol])
  exact ⟨_, rfl, rfl, fun _ => hgr, fun _ => hpr, N, hN⟩

/-- Least squares with data `(3, 4)`, target `0` and `alpha = 1/2` on the unit simplex: the hypotheses of C124 hold with steps between `1/51` and `2/51`. -/
example : (LossObj.square ⟨fun _ : Fin 1 => ![3, 4], ![0], 1 / 2⟩).Good ∧ 0 < (LossObj.square ⟨fun _ : Fin 1 => ![3, (4 : ℝ)], ![0], 1 / 2⟩).reg ∧
    IsLargestSingular (LossObj.square ⟨fun _ : Fin 1 => ![3, 4], ![0], 1 / 2⟩).mat 5 ∧ (PenObj.simplex (d := 2) 1).FlGoodE ∧
    2 / 51 * (LossObj.square ⟨fun _ : Fin 1 => ![3, (4 : ℝ)], ![0], 1 / 2⟩).lipschitz 5 < 2 := by
  refine ⟨by show (0 : ℝ) ≤ 1 / 2; norm_num, by show (0 : ℝ) < 1 / 2; norm_num, largestSingular_example, ⟨one_pos, by norm_num⟩, ?_⟩
  show 2 / 51 * (5 * 5 / ((1 : ℕ) : ℝ) + 1 / 2) < 2
  norm_num

end Copt
