import Verif.Props.SfwRaise

/-!
# Stochastic Frank-Wolfe with the losses of the library on the trace-norm ball

`f.partial_deriv`, `A` dense, `copt.constraint.TraceBall(alpha, (M, N)).lmo`, the default `step_size='sublinear'` and `lmo_variant='vanilla'`, every `variant`.
-/

set_option linter.unusedSectionVars false

namespace Copt

open Spec

/-- C106 over any set that meets the contract `SfwRegular`: the mean over the draws of the objective of the returned point is eventually within `eps` of its value
at any point of the set. -/
theorem sfw_mean_eventually {n p : ℕ} {V : Type} [DecidableEq V] (f : VRLoss) {P : SfwArgs ℝ n p V} {C : Set (Fin p → ℝ)} {D : ℝ}
    (hreg : SfwRegular P C f.phi f.curv D) (htol : P.tol ≤ 0) (hv : P.variant = "SAG" ∨ P.variant = "SAGA" ∨ P.variant = "MHK" ∨ P.variant = "LF")
    (hcb : ∀ y : ℝ, 0 ≤ y → P.cbrtSq y = y ^ (2 / 3 : ℝ)) :
    ∃ x : ∀ E : ℕ, SfwDraws n P.batchSize E → (Fin p → ℝ),
      (∀ E, 0 < E → ∀ ws, x E ws ∈ C ∧ ∃ r, minimizeSfw { P with maxIter := E, order := sfwOrder E ws } = .ok r ∧ r.x = some (x E ws)) ∧
      ∀ z ∈ C, ∀ eps : ℝ, 0 < eps → ∃ E₀ : ℕ, ∀ E, E₀ ≤ E →
        (∑ ws, f.fn P.a P.b 0 (x E ws)) / (Fintype.card (SfwDraws n P.batchSize E) : ℝ) ≤ f.fn P.a P.b 0 z + eps := by
  have key := fun z hz => C106_converges hreg htol hv hcb (z := z) hz
  have hx0' : ∀ E : ℕ, ∃ x : SfwDraws n P.batchSize E → (Fin p → ℝ), 0 < E → ∀ ws, x ws ∈ C ∧
        ∃ r, minimizeSfw { P with maxIter := E, order := sfwOrder E ws } = .ok r ∧ r.x = some (x ws) := by
    intro E
    rcases Nat.eq_zero_or_pos E with h | h
    · exact ⟨fun _ => P.x0, fun h' => absurd h' (by omega)⟩
    · obtain ⟨K, -, hK⟩ := key P.x0 hreg.start
      obtain ⟨x, h1, h2, -⟩ := hK E h
      exact ⟨x, fun _ ws => ⟨h2 ws, h1 ws⟩⟩
  choose x hx using hx0'
  refine ⟨x, hx, fun z hz eps heps => ?_⟩
  obtain ⟨K, hK0, hK⟩ := key z hz
  obtain ⟨N, hN⟩ := exists_nat_gt ((K / eps) ^ 3)
  refine ⟨N + 1, fun E hE => ?_⟩
  have hE0 : 0 < E := by omega
  obtain ⟨y, h1, -, h3⟩ := hK E hE0
  have hxy : y = x E := by
    funext ws
    obtain ⟨r, e1, e2⟩ := h1 ws
    obtain ⟨r', e3, e4⟩ := (hx E hE0 ws).2
    have e5 : r = r' := Except.ok.inj (e1.symm.trans e3)
    subst e5
    rw [e2] at e4
    exact Option.some.inj e4
  rw [hxy] at h3
  set T : ℝ := ((E * (n / P.batchSize) : ℕ) : ℝ) with hT
  have hns : 1 ≤ n / P.batchSize := Nat.div_pos hreg.batch_le hreg.batch
  have hTE : (E : ℝ) ≤ T := by
    rw [hT]; exact_mod_cast Nat.le_mul_of_pos_right E hns
  have hTN : (K / eps) ^ 3 ≤ T := by
    have : (N : ℝ) ≤ E := by exact_mod_cast (by omega : N ≤ E)
    linarith
  have hT0 : 0 < T := lt_of_lt_of_le (by exact_mod_cast hE0) hTE
  have hroot : K / eps ≤ T ^ (1 / 3 : ℝ) := by
    have h0 : 0 ≤ K / eps := by positivity
    calc K / eps = ((K / eps) ^ 3) ^ (1 / 3 : ℝ) := by
          rw [← Real.rpow_natCast, ← Real.rpow_mul h0]; norm_num
      _ ≤ _ := Real.rpow_le_rpow (by positivity) hTN (by norm_num)
  have hroot0 : 0 < T ^ (1 / 3 : ℝ) := Real.rpow_pos_of_pos hT0 _
  have h4 : K / T ^ (1 / 3 : ℝ) ≤ eps := by
    rw [div_le_iff₀ hroot0]
    rw [div_le_iff₀ heps] at hroot
    linarith
  have h5 := h3.trans h4
  have hne : Nonempty (Fin P.batchSize ↪ Fin n) := ⟨Fin.castLEEmb hreg.batch_le⟩
  have hcard : (0 : ℝ) < (Fintype.card (SfwDraws n P.batchSize E) : ℝ) := by
    exact_mod_cast Fintype.card_pos
  have h6 : sfwMean P E (fun ws => finiteSum P.a P.b f.phi 0 (x E ws) - finiteSum P.a P.b f.phi 0 z) =
      (∑ ws, f.fn P.a P.b 0 (x E ws)) / (Fintype.card (SfwDraws n P.batchSize E) : ℝ) - f.fn P.a P.b 0 z := by
    have e : ∀ y, f.fn P.a P.b 0 y = finiteSum P.a P.b f.phi 0 y := fun y => f.fn_eq P.a P.b 0 y
    simp only [e]
    show (∑ ws : SfwDraws n P.batchSize E, (finiteSum P.a P.b f.phi 0 (x E ws) - finiteSum P.a P.b f.phi 0 z)) /
      (Fintype.card (SfwDraws n P.batchSize E) : ℝ) = _
    rw [Finset.sum_sub_distrib, Finset.sum_const, Finset.card_univ, nsmul_eq_mul, sub_div, mul_div_cancel_left₀ _ hcard.ne']
  linarith

variable {n M N : ℕ}

/-- `TraceBall(alpha, (M, N)).lmo` as the `lmo` argument of `minimize_sfw`, constraint.py:306-326; `svds1` is `splinalg.svds(., k=1)`. -/
noncomputable def traceOracle (svds1 : Matrix (Fin M) (Fin N) ℝ → (Fin M → ℝ) × ℝ × (Fin N → ℝ)) (alpha : ℝ) (u x : Fin (M * N) → ℝ)
    (_ : Option (ActiveSet Unit ℝ)) : LmoOut (Fin (M * N) → ℝ) Unit ℝ := TraceBall.lmo svds1 alpha u x

/-- The call `minimize_sfw(f.partial_deriv, A, b, x0, TraceBall(alpha, (M, N)).lmo, batch_size=s, variant=variant, max_iter=E, tol=tol)`,
randomized.py:734-750. -/
noncomputable def sfwTrace (f : VRLoss) (A : Fin n → Fin (M * N) → ℝ) (b : Fin n → ℝ) (svds1 : Matrix (Fin M) (Fin N) ℝ → (Fin M → ℝ) × ℝ × (Fin N → ℝ))
    (alpha : ℝ) (x0 : Fin (M * N) → ℝ) (variant : String) (s E : ℕ) (tol : ℝ) (order : ℕ → List (Fin n)) : SfwArgs ℝ n (M * N) Unit :=
  { deriv := f.deriv, a := A, b := b, x0 := x0, lmo := traceOracle svds1 alpha, x0Rep := (), batchSize := s, stepSize := .sublinear, lipschitz := none,
    maxIter := E, tol := tol, variant := variant, lmoVariant := "vanilla", order := order, cbrtSq := fun y => y ^ (2 / 3 : ℝ) }

theorem sfwTrace_regular (f : VRLoss) {A : Fin n → Fin (M * N) → ℝ} {b : Fin n → ℝ} {svds1 : Matrix (Fin M) (Fin N) ℝ → (Fin M → ℝ) × ℝ × (Fin N → ℝ)}
    (hsv : ExactSvds svds1) {alpha : ℝ} (ha : 0 ≤ alpha) {x0 : Fin (M * N) → ℝ} (hx0 : x0 ∈ nucBall M N alpha) {variant : String} {s E : ℕ} {tol : ℝ}
    {order : ℕ → List (Fin n)} (hn : 0 < n) (hs : 0 < s) (hsn : s ≤ n) :
    SfwRegular (sfwTrace f A b svds1 alpha x0 variant s E tol order) (nucBall M N alpha) f.phi f.curv
      ((∑ i, Real.sqrt (dot (A i) (A i))) * (2 * alpha)) where
  samples := hn
  batch := hs
  batch_le := hsn
  step := rfl
  vanilla := rfl
  conv := fun x hx y hy t h0 h1 => nucBall_convex alpha x hx y hy t h0 h1
  lmo := fun u x => by
    obtain ⟨z, h1, h2, h3⟩ := C09_trace_ball_lmo svds1 alpha ha u x (hsv _)
    refine ⟨?_, ?_, z, h1.1, ?_, fun y hy => h1.2 y hy⟩
    · show 0 ≤ (TraceBall.lmo svds1 alpha u x).maxStep
      rw [h3]; norm_num
    · show (TraceBall.lmo svds1 alpha u x).maxStep ≤ 1
      rw [h3]
    · show (TraceBall.lmo svds1 alpha u x).dir = _
      rw [h2]; rfl
  start := hx0
  deriv := f.hasDeriv
  mono := f.mono
  lip := f.lip
  lip_nonneg := f.curv_pos.le
  diam := fun x hx y hy i => by
    have h1 := nucBallE_diam (M := M) (N := N) (alpha := alpha) (WithLp.toLp 2 x) hx (WithLp.toLp 2 y) hy
    have h2 : sfwDot (sfwTrace f A b svds1 alpha x0 variant s E tol order) x i - sfwDot (sfwTrace f A b svds1 alpha x0 variant s E tol order) y i =
        dot (A i) (x - y) := by
      unfold sfwDot dot
      rw [← Finset.sum_sub_distrib]
      exact Finset.sum_congr rfl fun c _ => by simp only [sfwTrace, Pi.sub_apply]; ring
    have h3 := dot_sq_le (A i) (x - y)
    have h4 : dot (x - y) (x - y) ≤ (2 * alpha) ^ 2 := by
      have : ‖WithLp.toLp 2 x - WithLp.toLp 2 y‖ ^ 2 = dot (x - y) (x - y) := by
        rw [norm_sq_ofLp]; rfl
      rw [← this]
      exact pow_le_pow_left₀ (norm_nonneg _) h1 2
    have hAA : 0 ≤ dot (A i) (A i) := Finset.sum_nonneg fun c _ => mul_self_nonneg _
    have h5 : |dot (A i) (x - y)| ≤ Real.sqrt (dot (A i) (A i)) * (2 * alpha) := by
      refine abs_le_of_sq_le_sq ?_ (by positivity)
      rw [mul_pow, Real.sq_sqrt hAA]
      exact h3.trans (mul_le_mul_of_nonneg_left h4 hAA)
    rw [h2]
    refine h5.trans (mul_le_mul_of_nonneg_right ?_ (by linarith))
    exact Finset.single_le_sum (f := fun i => Real.sqrt (dot (A i) (A i))) (fun _ _ => Real.sqrt_nonneg _) (Finset.mem_univ i)

/-- **C106 on the trace-norm ball.** For the losses of the library and every `variant`, with an `svds` that returns a leading singular triple: every run of
`minimize_sfw` with `TraceBall(alpha).lmo` from a point of the ball returns a point of the ball, and whatever the accuracy `eps`, from some `max_iter` on the mean
over the draws of the objective of the returned point is at most `eps` above its value at any point of the ball. -/
theorem C106_trace_ball (f : VRLoss) {A : Fin n → Fin (M * N) → ℝ} {b : Fin n → ℝ} {svds1 : Matrix (Fin M) (Fin N) ℝ → (Fin M → ℝ) × ℝ × (Fin N → ℝ)}
    (hsv : ExactSvds svds1) {alpha : ℝ} (ha : 0 ≤ alpha) {x0 : Fin (M * N) → ℝ} (hx0 : x0 ∈ nucBall M N alpha) {variant : String} {s : ℕ} {tol : ℝ}
    (hn : 0 < n) (hs : 0 < s) (hsn : s ≤ n) (htol : tol ≤ 0) (hv : variant = "SAG" ∨ variant = "SAGA" ∨ variant = "MHK" ∨ variant = "LF") :
    ∃ x : ∀ E : ℕ, SfwDraws n s E → (Fin (M * N) → ℝ),
      (∀ E, 0 < E → ∀ ws, x E ws ∈ nucBall M N alpha ∧
        ∃ r, minimizeSfw (sfwTrace f A b svds1 alpha x0 variant s E tol (sfwOrder E ws)) = .ok r ∧ r.x = some (x E ws)) ∧
      ∀ z ∈ nucBall M N alpha, ∀ eps : ℝ, 0 < eps → ∃ E₀ : ℕ, ∀ E, E₀ ≤ E →
        (∑ ws, f.fn A b 0 (x E ws)) / (Fintype.card (SfwDraws n s E) : ℝ) ≤ f.fn A b 0 z + eps :=
  sfw_mean_eventually f (P := sfwTrace f A b svds1 alpha x0 variant s 0 tol fun _ => []) (sfwTrace_regular f hsv ha hx0 hn hs hsn) htol hv fun _ _ => rfl

/-- The hypotheses are met: one observation of a 2x3 matrix, the ball of radius 1 and an exact `svds`; the runs come within any accuracy of the value at
the zero matrix. -/
example : ∃ svds1 : Matrix (Fin 2) (Fin 3) ℝ → (Fin 2 → ℝ) × ℝ × (Fin 3 → ℝ), ∃ x : ∀ E : ℕ, SfwDraws 1 1 E → (Fin (2 * 3) → ℝ),
    (∀ E, 0 < E → ∀ ws, x E ws ∈ nucBall 2 3 1) ∧ ∀ eps : ℝ, 0 < eps → ∃ E₀ : ℕ, ∀ E, E₀ ≤ E →
      (∑ ws, VRLoss.square.fn (n := 1) (p := 2 * 3) (fun _ => Pi.single (⟨0, by decide⟩ : Fin (2 * 3)) 1) (fun _ => 1 / 2) 0 (x E ws)) / (Fintype.card (SfwDraws 1 1 E) : ℝ) ≤
        VRLoss.square.fn (n := 1) (p := 2 * 3) (fun _ => Pi.single (⟨0, by decide⟩ : Fin (2 * 3)) 1) (fun _ => 1 / 2) 0 0 + eps := by
  obtain ⟨svds1, hsv⟩ := exactSvds_exists (M := 2) (N := 3) (by norm_num) (by norm_num)
  have h0 : (0 : Fin (2 * 3) → ℝ) ∈ nucBall 2 3 1 := by
    show nuc (unravel (M := 2) (N := 3) (0 : Fin (2 * 3) → ℝ)) ≤ 1
    refine (nuc_le (a := 0) fun Z _ => ?_).trans zero_le_one
    simp [frob, unravel]
  obtain ⟨x, h1, h2⟩ := C106_trace_ball .square (A := fun _ : Fin 1 => Pi.single (⟨0, by decide⟩ : Fin (2 * 3)) 1) (b := fun _ => 1 / 2) hsv zero_le_one h0 (variant := "LF") (s := 1)
    (tol := 0) (by norm_num) (by norm_num) (by norm_num) le_rfl (by simp)
  exact ⟨svds1, x, fun E hE ws => (h1 E hE ws).1, fun eps he => h2 0 h0 eps he⟩

end Copt
