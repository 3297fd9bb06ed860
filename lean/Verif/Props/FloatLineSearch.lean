import Verif.Proof.FloatLineSearchInit
import Verif.Props.FloatConstrained
import Verif.Props.FloatLineSearchWitness

/-!
# C132: the proximal gradient method with its default line search and rounded arithmetic
-/

set_option linter.unusedSectionVars false

namespace Copt

open Spec

open scoped InnerProductSpace

variable {n d : ℕ}

local notation "ℓ²" => EuclideanSpace ℝ (Fin d)

/-- Guarantee of a run with `nit + 1` iterations, for an arithmetic of precision `w` and the minimiser `xs`. -/
structure FlBtGuarantee (G : ExtFun ℓ²) (xs X0 : ℓ²) (C q w tol : ℝ) (maxIter : ℕ) (r : FlBtResult d) : Prop where
  dist : ‖(WithLp.toLp 2 r.x : ℓ²) - xs‖ ≤ q ^ (r.nit + 1) * ‖X0 - xs‖ + C * (√w + (r.nit + 1) * w)
  success : r.success = true → ‖(WithLp.toLp 2 r.x : ℓ²) - xs‖ ≤ C * (tol + √w + (r.nit + 1) * w)
  certificate : r.success = true → ∃ c, r.certificate = some c ∧ c < tol
  failure : r.success = false → r.nit = maxIter
  nit : r.nit ≤ maxIter
  feasible : ∃ z ∈ G.dom, ‖(WithLp.toLp 2 r.x : ℓ²) - z‖ ≤ C * w

set_option maxHeartbeats 2000000 in
/-- **C132 (oracles).** `f` strongly convex and smooth, `G` convex with proximal operator `proxE`, oracles of relative accuracy `K w`, a rounding without underflow.  For every bound `R` on the starting
point and `b ≤ backtracking_factor ≤ 1 - b` there are `C` and `q < 1` such that, if the gradient at the starting point and the tolerance are larger than `C √w`, there are enough line search
iterations to reduce the step size to the order of `w` and `max_iter` is small compared to `1/w`, then the run with the default line search ends without exception, with the error bound of
`FlBtGuarantee`. -/
theorem C132_rounded_search_oracles {f : ℓ² → ℝ} {g : ℓ² → ℓ²} {G : ExtFun ℓ²} {proxE : ℓ² → ℝ → ℓ²} {mu L : ℝ} {xs : ℓ²} (hmu : 0 < mu) (hL : 0 < L) (hf : StrongGrad f g mu)
    (hq : UpperQuad f g L) (hG : G.IsConvex) (hp : IsProxOf G proxE) (hd : xs ∈ G.dom) (hmin : ∀ y ∈ G.dom, f xs + G.val xs ≤ f y + G.val y) {K : ℝ} (hK : 0 ≤ K) (R : ℝ) {b : ℝ} (hb : 0 < b) :
    ∃ C q, 0 < C ∧ 0 ≤ q ∧ q < 1 ∧ ∀ (rd : ℝ → ℝ) (u w : ℝ), Rounding rd u 0 → u ≤ w → ∀ P : FlBtArgs d, FlBtOracles rd P f g proxE K w (2200 + 4 / mu) → norm2 P.x0 ≤ R →
      b ≤ P.factor → P.factor ≤ 1 - b → C * √w ≤ ‖g (WithLp.toLp 2 P.x0)‖ → C * √w < P.tol → C * ((P.maxIter + 1) * w) ≤ 1 → C * (1 - b / 2) ^ P.btIter ≤ w →
      ∃ r, flMinimizeBt rd P = .ok r ∧ FlBtGuarantee G xs (WithLp.toLp 2 P.x0) C q w P.tol P.maxIter r := by
  have hpb : LsProb f g G proxE mu L xs := ⟨hmu, hL, hf, hq, hG, hp, hd, hmin⟩
  obtain ⟨S, hS⟩ : ∃ S, S = 2200 + 4 / mu := ⟨_, rfl⟩
  have h4mu : 0 < 4 / mu := by positivity
  have hSn : 0 ≤ S := by rw [hS]; linarith
  obtain ⟨A, hA⟩ : ∃ A, A = |R| + ‖xs‖ + 2 := ⟨_, rfl⟩
  have hA0 : 0 ≤ A := by rw [hA]; positivity
  obtain ⟨A2, M, K0, C1, K1, hbd⟩ := exists_lsBounds hpb hK hA0 hSn
  obtain ⟨hA20, hAA, hM, hK00, hC10, hK11, hKK, hK0K, hCK⟩ := hbd.pos hL
  obtain ⟨Ci, hCi⟩ := flInitStep_bounds hpb hK (show 0 ≤ |R| + ‖xs‖ by positivity) (S := S)
  obtain ⟨Λ, hΛ⟩ : ∃ Λ, Λ = 1 / 500 + 11 * L := ⟨_, rfl⟩
  have hΛ0 : 0 < Λ := by rw [hΛ]; positivity
  obtain ⟨tau, htau⟩ : ∃ tau, tau = min (1 / Λ) (b / (4 * L)) := ⟨_, rfl⟩
  have htau0 : 0 < tau := by rw [htau]; exact lt_min (by positivity) (by positivity)
  have htau1 : tau ≤ 1 / Λ := by rw [htau]; exact min_le_left _ _
  have htau2 : tau * (4 * L) ≤ b := by
    rw [← le_div_iff₀ (by positivity), htau]; exact min_le_right _ _
  obtain ⟨D, hD⟩ : ∃ D, D = (L + 2 / (tau / 2)) / mu + 1 := ⟨_, rfl⟩
  have hD0 : 0 ≤ D := by rw [hD]; positivity
  obtain ⟨C4, hC4⟩ : ∃ C4, C4 = 400 * K1 * M ^ 2 := ⟨_, rfl⟩
  have hC40 : 0 ≤ C4 := by rw [hC4]; have : 0 ≤ K1 := by linarith
                           positivity
  obtain ⟨Z1, hZ1⟩ : ∃ Z1, Z1 = 2 * ((1 + S) * C4 * (2 * M + L + L * M) + C4 * (L / 2 * M ^ 2 + 1)) / mu := ⟨_, rfl⟩
  have hZ10 : 0 ≤ Z1 := by rw [hZ1]; positivity
  obtain ⟨CB, hCB⟩ : ∃ CB, CB = D * (√(8 * S * C4) + (1 + S) * C4) + √Z1 := ⟨_, rfl⟩
  have hCB1 : 0 ≤ D * (√(8 * S * C4) + (1 + S) * C4) := by positivity
  have hCB0 : 0 ≤ CB := by rw [hCB]; positivity
  obtain ⟨Z2, hZ2⟩ : ∃ Z2, Z2 = 8 * S * C4 + 2 * (S * L) + S * mu := ⟨_, rfl⟩
  have hZ20 : 0 ≤ Z2 := by rw [hZ2]; positivity
  obtain ⟨Z3, hZ3⟩ : ∃ Z3, Z3 = 2 * mu * √(4 * S * C4) + K := ⟨_, rfl⟩
  have hZ30 : 0 ≤ Z3 := by rw [hZ3]; positivity
  obtain ⟨Z4, hZ4⟩ : ∃ Z4, Z4 = (1 + D) * (4 * S) := ⟨_, rfl⟩
  have hZ40 : 0 ≤ Z4 := by rw [hZ4]; positivity
  obtain ⟨Z5, hZ5⟩ : ∃ Z5, Z5 = (1 + D) * (4 * S * K + (1 + S) * C4) := ⟨_, rfl⟩
  have hZ50 : 0 ≤ Z5 := by rw [hZ5]; positivity
  obtain ⟨Z6, hZ6⟩ : ∃ Z6, Z6 = (1 + S) * C4 := ⟨_, rfl⟩
  have hZ60 : 0 ≤ Z6 := by rw [hZ6]; positivity
  have hCi0 := abs_nonneg Ci
  have h2b : 0 < 2 / b := by positivity
  have hCBsq := sq_nonneg CB
  obtain ⟨q, hqe⟩ : ∃ q, q = √(1 / (1 + tau / 2 * mu)) := ⟨_, rfl⟩
  have hq1 : q < 1 := by
    rw [hqe, Real.sqrt_lt' one_pos, one_pow, div_lt_one (by positivity)]
    have : 0 < tau / 2 * mu := by positivity
    linarith
  obtain ⟨C, hC⟩ : ∃ C, C = 4000 + |Ci| + 10 * Z6 + CB ^ 2 + CB + 2 * Z2 + Z3 + 2 / b + Z4 + Z5 + C1 := ⟨_, rfl⟩
  have g0 : 4000 ≤ C := by linarith
  have g1 : |Ci| ≤ C := by linarith
  have g2 : 10 * Z6 ≤ C := by linarith
  have g3 : CB ^ 2 ≤ C := by linarith
  have g5 : 2 * Z2 ≤ C := by linarith
  have g6 : Z3 ≤ C := by linarith
  have g7 : 2 / b ≤ C := by linarith
  have g10 : C1 ≤ C := by linarith
  have g8 : CB + Z5 ≤ C := by linarith
  have g9 : Z4 ≤ C := by linarith
  have g11 : Z6 ≤ C := by linarith
  have g12 : CB ≤ C := by linarith
  refine ⟨C, q, by linarith, by rw [hqe]; exact Real.sqrt_nonneg _, hq1, ?_⟩
  clear hC
  intro rd u w hr hu P hO hx0 hf1 hf2 hg0 htol hmax hbt
  have hw : 0 ≤ w := hr.u_nonneg.trans hu
  rw [← hS] at hO
  have hb1 : b ≤ 1 := by linarith
  have hmw : (0 : ℝ) ≤ P.maxIter * w := by positivity
  have hCw : C * w ≤ 1 := by
    have : 0 ≤ C * (P.maxIter * w) := mul_nonneg (by linarith) hmw
    linarith
  have hw1 : w ≤ 1 / 4000 := by
    have := mul_le_mul_of_nonneg_right g0 hw
    linarith
  have hsq0 := Real.sqrt_nonneg w
  have hsq : √w * √w = w := Real.mul_self_sqrt hw
  have hsq1 : √w ≤ 1 := Real.sqrt_le_one.mpr (by linarith)
  have hwsq : w ≤ √w := by
    have := mul_le_mul_of_nonneg_right hsq1 hsq0
    linarith
  have hCs0 : 0 ≤ C * √w := mul_nonneg (by linarith) hsq0
  have htol0 : 0 < P.tol := by linarith
  -- the starting point
  obtain ⟨X0, hX0⟩ : ∃ X0 : ℓ², X0 = WithLp.toLp 2 P.x0 := ⟨_, rfl⟩
  have hX0R : ‖X0 - xs‖ ≤ |R| + ‖xs‖ := by
    refine (norm_sub_le _ _).trans (add_le_add_left ?_ _)
    rw [hX0, toLp_norm]
    exact hx0.trans (le_abs_self R)
  have hinit := hCi hr hu (by
      have := mul_le_mul_of_nonneg_right ((le_abs_self Ci).trans g1) hw
      linarith) hO (by rw [← hX0]; exact hX0R) (by
      have := mul_le_mul_of_nonneg_right ((le_abs_self Ci).trans g1) hsq0
      linarith)
  rw [← hΛ] at hinit
  have hX0A : ‖X0 - xs‖ ≤ A := by rw [hA]; linarith
  obtain ⟨m1, m2, m3⟩ := hbd.M_ball X0 (hX0A.trans hAA)
  have hn1 : norm2 P.x0 ≤ M := by rw [← toLp_norm, ← hX0]; exact m1
  have hn0 := norm2_nonneg' P.x0
  have hst : LsState f g (K1 * w) P.x0 (P.start P.x0).1 (P.start P.x0).2 := by
    obtain ⟨o1, o2⟩ := hO.start P.x0
    have hKM : 0 ≤ K * (1 + M) ^ 2 := by positivity
    have hd0 : (0 : ℝ) ≤ d := Nat.cast_nonneg d
    have hdK : 0 ≤ d * (K * (1 + M) ^ 2) := mul_nonneg hd0 hKM
    have hK0 := hbd.K0_ge
    have hKw := mul_le_mul_of_nonneg_right hK0K hw
    constructor
    · refine o1.trans ?_
      have h1 : (1 + norm2 P.x0) ^ 2 ≤ (1 + M) ^ 2 := pow_le_pow_left₀ (by linarith) (by linarith) 2
      have h2 := mul_le_mul_of_nonneg_left h1 (mul_nonneg hK hw)
      have h3 := mul_le_mul_of_nonneg_right (show K * (1 + M) ^ 2 ≤ K0 by linarith only [hK0, hdK]) hw
      linarith only [h2, h3, hKw]
    · refine (norm_le_of_coord _ o2).trans ?_
      have h1 : 1 + norm2 P.x0 ≤ (1 + M) ^ 2 := by linarith only [hn1, sq_nonneg M, hM]
      have h2 := mul_le_mul_of_nonneg_left h1 (mul_nonneg hK hw)
      have h3 := mul_le_mul_of_nonneg_right (show d * (K * (1 + M) ^ 2) ≤ K0 by linarith only [hK0, hKM]) hw
      have h4 := mul_le_mul_of_nonneg_left h2 hd0
      linarith only [h3, h4, hKw]
  -- the constants
  obtain ⟨B, hB⟩ : ∃ B, B = CB * √w := ⟨_, rfl⟩
  have hB0 : 0 ≤ B := by rw [hB]; positivity
  have hB1 : B ≤ 1 := by
    have h1 : B ^ 2 ≤ 1 ^ 2 := by
      rw [hB, mul_pow, Real.sq_sqrt hw, one_pow]
      have := mul_le_mul_of_nonneg_right g3 hw
      linarith
    exact abs_le_of_sq_le_sq' h1 zero_le_one |>.2
  have hball : LsBall mu L M S (400 * K1 * M ^ 2 * w) tau D B := by
    rw [← hC4]
    refine ⟨htau0, hD, hB0, ?_, ?_⟩
    · have h1 : Z1 ≤ CB ^ 2 := by
        have h2 := pow_le_pow_left₀ (Real.sqrt_nonneg Z1) (show √Z1 ≤ CB by rw [hCB]; linarith) 2
        rwa [Real.sq_sqrt hZ10] at h2
      have h2 := mul_le_mul_of_nonneg_right (mul_le_mul_of_nonneg_left h1 hmu.le) hw
      have e : mu * Z1 = 2 * ((1 + S) * C4 * (2 * M + L + L * M) + C4 * (L / 2 * M ^ 2 + 1)) := by rw [hZ1]; field_simp
      rw [e] at h2
      rw [hB, mul_pow, Real.sq_sqrt hw]
      linarith only [h2]
    · have e : √(8 * S * (C4 * w)) = √(8 * S * C4) * √w := by rw [← mul_assoc, Real.sqrt_mul (by positivity)]
      rw [e, hB, hCB]
      have h1 : (1 + S) * (C4 * w) ≤ (1 + S) * C4 * √w := by
        rw [← mul_assoc]; exact mul_le_mul_of_nonneg_left hwsq (by positivity)
      have h2 := mul_le_mul_of_nonneg_left h1 hD0
      have h3 : 0 ≤ √Z1 * √w := by positivity
      linarith only [h2, h3]
  have hfac : ∀ t, 0 < t → b / 2 * t ≤ rd (t * P.factor) ∧ rd (t * P.factor) ≤ (1 - b / 2) * t := by
    intro t ht
    have h1 := rel_bounds hr hu (show 0 ≤ t * P.factor from mul_nonneg ht.le (by linarith))
    have h2 : t * b ≤ t * P.factor := mul_le_mul_of_nonneg_left hf1 ht.le
    have h3 : t * P.factor ≤ t * (1 - b) := mul_le_mul_of_nonneg_left hf2 ht.le
    have hwb : w ≤ b / 2 := by
      have h4 := mul_le_mul_of_nonneg_right g7 hw
      have h5 : 2 / b * w ≤ 1 := by linarith
      rw [div_mul_eq_mul_div, div_le_one hb] at h5
      linarith
    have hbt : 0 ≤ t * P.factor := mul_nonneg ht.le (by linarith)
    have h4 : w * (t * P.factor) ≤ b / 2 * t := by
      have h5 := mul_le_mul hwb (show t * P.factor ≤ t by linarith [mul_pos ht hb]) hbt (by linarith)
      exact h5
    have h5 : w * (t * P.factor) ≤ 1 / 2 * (t * P.factor) := mul_le_mul_of_nonneg_right (by linarith) hbt
    constructor
    · linarith only [h1.1, h5, h2]
    · linarith only [h1.2, h4, h3]
  have hhalf : 1 / 2 ≤ 1 - b / 2 := by linarith
  have hbtne : P.btIter - 1 ≠ 0 := by
    intro h0
    have h1 : (1 / 2 : ℝ) ≤ (1 - b / 2) ^ P.btIter := by
      rcases (show P.btIter = 0 ∨ P.btIter = 1 by omega) with h | h <;> rw [h]
      · rw [pow_zero]; norm_num
      · rw [pow_one]; exact hhalf
    have h2 := mul_le_mul g0 h1 (by norm_num) (by linarith)
    linarith
  have hp0 : 0 ≤ (1 - b / 2) ^ (P.btIter - 1) := pow_nonneg (by linarith) _
  have hex : Z2 * (1 - b / 2) ^ (P.btIter - 1) ≤ w := by
    have e : (1 - b / 2) ^ P.btIter = (1 - b / 2) ^ (P.btIter - 1) * (1 - b / 2) := by
      rw [← pow_succ]; congr 1; omega
    rw [e] at hbt
    have h1 := mul_le_mul_of_nonneg_left hhalf hp0
    have h2 := mul_le_mul g5 h1 (by linarith) (by linarith)
    linarith
  have hδ1 : (P.maxIter + 1) * (Z6 * w) ≤ 1 := by
    have := mul_le_mul_of_nonneg_right g11 (show (0 : ℝ) ≤ (P.maxIter + 1) * w by positivity)
    linarith
  have hz6w : (1 + S) * (C4 * w) = Z6 * w := by rw [hZ6]; ring
  have hS0 : 2 / mu ≤ 1810 + 2 / mu := by linarith
  have h2mu : 4 / mu = 2 * (2 / mu) := by ring
  have hrun := flBtLoop_out hpb hbd hr hu (by
      have h1 := mul_le_mul_of_nonneg_right g2 hw
      have e : (1 + S) * (4000 * K1 * M ^ 2 * w) = 10 * Z6 * w := by rw [hZ6, hC4]; ring
      rw [e]; linarith) hO hb hb1 htau2 hfac hball hqe hS0 (show 12 / 10 * (1810 + 2 / mu) ≤ S by rw [hS, h2mu]; linarith [show 0 < 2 / mu by positivity]) rfl (norm_nonneg (X0 - xs))
    (by rw [← hC4, ← hZ2]; exact hex) hbtne (by
      rw [← hC4, ← mul_assoc, Real.sqrt_mul (by positivity)]
      have h1 := mul_le_mul_of_nonneg_right g6 hsq0
      have h2 := mul_le_mul_of_nonneg_left hwsq hK
      rw [hZ3] at h1
      linarith only [h1, h2, htol]) (by
      rw [← hC4, hz6w, hA]
      linarith) P.maxIter 0 P.x0 (P.start P.x0).1 (P.start P.x0).2 (flInitStep rd P) (Nat.zero_add _) hst
    (lt_of_lt_of_le (by positivity) hinit.1) (hinit.2.trans (by linarith [show 0 < 2 / mu by positivity]))
    (Or.inl ⟨htau1.trans hinit.1, by rw [← hX0, pow_zero, one_mul]; simp; exact hB0⟩)
  obtain ⟨r, e, hr'⟩ := hrun
  rw [← hC4, hz6w] at hr'
  refine ⟨r, by unfold flMinimizeBt; rw [if_neg (by omega)]; exact e, ?_⟩
  have hBC : B ≤ C * √w := by rw [hB]; exact mul_le_mul_of_nonneg_right g12 hsq0
  have hnw : (0 : ℝ) ≤ (r.nit + 1) * w := by positivity
  have hδC : (r.nit + 1) * (Z6 * w) ≤ C * ((r.nit + 1) * w) := by
    have := mul_le_mul_of_nonneg_right g11 hnw
    linarith only [this]
  refine ⟨?_, fun hs => ?_, hr'.cert, hr'.failure, hr'.nit, ?_⟩
  · rw [← hX0]
    linarith only [hr'.dist, hBC, hδC]
  · have h1 := hr'.success hs
    have e1 : (1 + D) * (4 * S * (P.tol + K * w) + Z6 * w) = Z4 * P.tol + Z5 * w := by rw [hZ4, hZ5, hZ6]; ring
    rw [e1, hB] at h1
    have h2 := mul_le_mul_of_nonneg_right g9 htol0.le
    have h3 := mul_le_mul_of_nonneg_left hwsq hZ50
    have h4 := mul_le_mul_of_nonneg_right g8 hsq0
    linarith only [h1, h2, h3, h4, hδC]
  · obtain ⟨z, hz, hzd⟩ := hr'.feas
    exact ⟨z, hz, hzd.trans (mul_le_mul_of_nonneg_right g10 hw)⟩

/-! ### The losses and penalties of the library -/

/-- Oracles of a run on a loss and a penalty of the library: `fun = f.f_grad` with `jac=True`, `prox = pen.prox`. -/
structure FlBtLib (rd fexp flog1p : ℝ → ℝ) (f : LossObj n d) (pen : PenObj d) (P : FlBtArgs d) : Prop where
  init : ∀ i x, f.FlValue rd fexp flog1p x (P.init i x).1 ∧ f.FlGrad rd fexp x (P.init i x).2
  start : ∀ x, f.FlValue rd fexp flog1p x (P.start x).1 ∧ f.FlGrad rd fexp x (P.start x).2
  fg : ∀ k i x, f.FlValue rd fexp flog1p x (P.fg k i x).1 ∧ f.FlGrad rd fexp x (P.fg k i x).2
  prox : ∀ k i v s, pen.FlProxE rd v s (P.prox k i v s)
  dotG : ∀ k i a b, FlDot rd (List.ofFn fun j => (a j, b j)) (P.dotG k i a b)
  dotD : ∀ k i a b, FlDot rd (List.ofFn fun j => (a j, b j)) (P.dotD k i a b)
  norm : ∀ k v, FlNorm rd v (P.norm k v)

/-- `C121_value` without underflow; the bound on the precision only concerns the logistic loss. -/
theorem LossObj.value_error (hn : 0 < n) (f : LossObj n d) (hf : f.Good) : ∃ K, 0 ≤ K ∧ ∀ (rd fexp flog1p : ℝ → ℝ) (u w : ℝ), Rounding rd u 0 → u ≤ w → (∀ g, f = .log g → 2⁻¹ ^ 53 ≤ w) → 4 * n * w ≤ 1 →
    4 * d * w ≤ 1 → 8 * w ≤ 1 → (∀ t ≤ 18, 0 ≤ fexp t ∧ |fexp t - Real.exp t| ≤ w * Real.exp t) → (∀ s, 0 ≤ s → |flog1p s - Real.log (1 + s)| ≤ w * Real.log (1 + s)) →
      ∀ x v, f.FlValue rd fexp flog1p x v → |v - f.fn (WithLp.toLp 2 x)| ≤ K * w * (1 + norm2 x) ^ 2 := by
  have hsc : ∀ {rd : ℝ → ℝ} {u w : ℝ} (x : Fin d → ℝ), Rounding rd u 0 → u ≤ w → 8 * w ≤ 1 → Scale rd u 0 w (1 + norm2 x) := fun x hr hu h8 => by
    have hw := hr.u_nonneg.trans hu
    exact ⟨hr, hu, by positivity, hw, by linarith, by linarith [norm2_nonneg' x]⟩
  cases f with
  | log f =>
    obtain ⟨K, hK, h⟩ := C121_value hn (.log f) hf
    refine ⟨K, hK.le, fun rd fexp flog1p u w hr hu hw hnw hdw h8 hexp hlog => h rd fexp flog1p u 0 w hr hu (by positivity) (hw f rfl) hnw hdw h8 ?_ ?_⟩
    · simpa using hexp
    · simpa using hlog
  | square f =>
    obtain ⟨K, hK, h⟩ := squareValue_error hn f
    refine ⟨K, hK, fun rd fexp flog1p u w hr hu hw hnw hdw h8 hexp hlog x v hv => ?_⟩
    rw [pow_two]
    exact h rd u 0 w _ (hsc x hr hu h8) hnw hdw x v (fun j => by linarith [abs_le_norm2 x j]) hv
  | huber f =>
    obtain ⟨K, hK, h⟩ := huberValue_error hn f hf.2
    refine ⟨K, hK, fun rd fexp flog1p u w hr hu hw hnw hdw h8 hexp hlog x v hv => ?_⟩
    rw [pow_two]
    exact h rd u 0 w _ (hsc x hr hu h8) hnw hdw x v (fun j => by linarith [abs_le_norm2 x j]) hv

/-- A dot product is computed with an error relative to the product of the norms. -/
theorem flDot_norms {rd : ℝ → ℝ} {u w : ℝ} (hr : Rounding rd u 0) (hu : u ≤ w) (hd : 4 * d * w ≤ 1) {a b : Fin d → ℝ} {s : ℝ} (h : FlDot rd (List.ofFn fun j => (a j, b j)) s) :
    |s - ∑ j, a j * b j| ≤ 4 * d * w * (norm2 a * norm2 b) := by
  have hd0 : (0 : ℝ) ≤ d := Nat.cast_nonneg d
  have h1 := h.error_vec hr (by have := mul_le_mul_of_nonneg_left hu hd0; linarith)
  refine h1.trans ?_
  have h2 : ∑ j, |a j * b j| ≤ norm2 a * norm2 b := by
    have h3 := dot_le_norm2 (fun j => |a j|) (fun j => |b j|)
    have e : ∀ c : Fin d → ℝ, norm2 (fun j => |c j|) = norm2 c := fun c => by unfold norm2 dot; simp only [abs_mul_abs_self]
    rw [e, e] at h3
    simpa only [dot, abs_mul] using h3
  have h3 : u * ∑ j, |a j * b j| ≤ w * (norm2 a * norm2 b) := mul_le_mul hu h2 (Finset.sum_nonneg fun j _ => abs_nonneg _) (hr.u_nonneg.trans hu)
  have h4 := mul_le_mul_of_nonneg_left h3 (show (0 : ℝ) ≤ 4 * d by positivity)
  rw [add_zero]
  linarith

/-- The oracles of the library satisfy `FlBtOracles`. -/
theorem flBtOracles_library (hn : 0 < n) (f : LossObj n d) (hf : f.Good) (pen : PenObj d) (hpen : pen.FlGoodE) {S : ℝ} (hS : 0 ≤ S) :
    ∃ K M, 0 ≤ K ∧ 0 ≤ M ∧ ∀ (rd fexp flog1p : ℝ → ℝ) (u w : ℝ), Rounding rd u 0 → u ≤ w → (∀ g, f = .log g → 2⁻¹ ^ 53 ≤ w) →
      (∀ t ≤ 18, 0 ≤ fexp t ∧ |fexp t - Real.exp t| ≤ w * Real.exp t) → (∀ s, 0 ≤ s → |flog1p s - Real.log (1 + s)| ≤ w * Real.log (1 + s)) → M * w ≤ 1 →
      ∀ P : FlBtArgs d, FlBtLib rd fexp flog1p f pen P → FlBtOracles rd P f.fn f.gradE pen.proxE K w S := by
  obtain ⟨K1, hK1, g1⟩ := f.flGrad_error hf
  obtain ⟨K2, hK2, g2⟩ := pen.flProxE_error' hpen hS le_rfl
  obtain ⟨K3, hK3, g3⟩ := f.value_error hn hf
  obtain ⟨K, hK⟩ : ∃ K, K = K1 + K2 + K3 + (12 * d + 2) := ⟨_, rfl⟩
  have hn0 : (0 : ℝ) ≤ n := Nat.cast_nonneg n
  have hd0 : (0 : ℝ) ≤ d := Nat.cast_nonneg d
  refine ⟨K, 4 * n + 16 * d + K2 + 10, by rw [hK]; positivity, by positivity, ?_⟩
  intro rd fexp flog1p u w hr hu hwl hexp hlog hCw P hP
  have hw0 : 0 ≤ w := hr.u_nonneg.trans hu
  have hnw : 0 ≤ n * w := by positivity
  have hdw : 0 ≤ d * w := by positivity
  have hKw0 : 0 ≤ K2 * w := by positivity
  rw [add_mul, add_mul, add_mul] at hCw
  have hsc : Scale rd u 0 w 1 := ⟨hr, hu, by positivity, hw0, by linarith, le_rfl⟩
  have mono : ∀ k, k ≤ K → ∀ a, 0 ≤ a → k * w * a ≤ K * w * a := fun k hk a ha => mul_le_mul_of_nonneg_right (mul_le_mul_of_nonneg_right hk hw0) ha
  have hfg : ∀ x v gr, f.FlValue rd fexp flog1p x v ∧ f.FlGrad rd fexp x gr →
      |v - f.fn (WithLp.toLp 2 x)| ≤ K * w * (1 + norm2 x) ^ 2 ∧ ∀ j, |gr j - f.gradE (WithLp.toLp 2 x) j| ≤ K * w * (1 + norm2 x) := by
    intro x v gr ⟨hv, hgr⟩
    have hx0 := norm2_nonneg' x
    constructor
    · exact (g3 rd fexp flog1p u w hr hu hwl (by linarith) (by linarith) (by linarith) hexp hlog x v hv).trans (mono _ (by rw [hK]; linarith) _ (by positivity))
    · intro j
      refine (g1 rd u 0 w hsc (by linarith) (by linarith) (by linarith) fexp (fun t ht => ?_) x _ hgr j).trans (mono _ (by rw [hK]; linarith) _ (by positivity))
      have h1 := (hexp t (by linarith)).2
      have h2 := mul_le_mul_of_nonneg_left (Real.exp_le_one_iff.mpr ht) hw0
      linarith
  have hnn : ∀ v : Fin d → ℝ, 0 ≤ 1 + norm2 v := fun v => by linarith [norm2_nonneg' v]
  refine ⟨fun i x => hfg x _ _ (hP.init i x), fun x => hfg x _ _ (hP.start x), fun k i x => hfg x _ _ (hP.fg k i x), fun k i v s hv hs hsS hKv => ?_, fun k i a b => ?_, fun k i a b => ?_, fun k v => ?_⟩
  · have hm := mono K2 (by rw [hK]; linarith) _ (hnn v)
    obtain ⟨p, e, herr⟩ := g2 rd u 0 w hsc (by linarith) (by linarith) v s _ hv (hm.trans hKv) hs hsS (by simp) (hP.prox k i v s)
    exact ⟨p, e, fun j => (herr j).trans hm⟩
  · exact (flDot_norms hr hu (by linarith) (hP.dotG k i a b)).trans (mono _ (by rw [hK]; linarith) _ (mul_nonneg (norm2_nonneg' _) (norm2_nonneg' _)))
  · exact (flDot_norms hr hu (by linarith) (hP.dotD k i a b)).trans (mono _ (by rw [hK]; linarith) _ (mul_nonneg (norm2_nonneg' _) (norm2_nonneg' _)))
  · exact (flNorm_error hsc (by linarith) (hP.norm k v)).trans (mono _ (by rw [hK]; linarith) _ (hnn v))

/-- **C132 (partial).** `minimize_proximal_gradient(f.f_grad, x0, pen.prox, jac=True)` with its default line search, for a loss of the library with `alpha > 0` and any penalty or constraint on vectors
but `FusedLasso`, everything computed in rounded arithmetic.  The problem has a unique solution.  For every bound `R` on the starting point and `b` with `b ≤ backtracking_factor ≤ 1 - b` there are
`C` and `q < 1` such that with an arithmetic of precision `w` the run does not raise and its result is within `q^(nit + 1) ‖x0 - xs‖ + C (√w + (nit + 1) w)` of the solution and within `C w` of the
constraint set, and a success is within `C (tol + √w + (nit + 1) w)` of the solution; this if `C √w` is below the tolerance and the norm of the first gradient, `C (max_iter + 1) w ≤ 1`, and
`max_iter_backtracking` allows to reduce the step size to the order of `w`.  Missing with respect to C132: a bound for every tolerance, which `C132_refuted` excludes.  The logistic loss is covered for
precisions that are not higher than that of doubles, because of the constants in `logsig` (C121). -/
theorem C132_rounded_search_partial (hn : 0 < n) (f : LossObj n d) (hf : f.Good) (hreg : 0 < f.reg) {sv : ℝ} (hsv : IsLargestSingular f.mat sv) (pen : PenObj d) (hpen : pen.FlGoodE) {b : ℝ} (hb : 0 < b) :
    ∃ xs ∈ pen.fn.dom, (∀ y ∈ pen.fn.dom, f.fn xs + pen.fn.val xs ≤ f.fn y + pen.fn.val y) ∧
      (∀ z ∈ pen.fn.dom, (∀ y ∈ pen.fn.dom, f.fn z + pen.fn.val z ≤ f.fn y + pen.fn.val y) → z = xs) ∧
      ∀ R, ∃ C q, 0 < C ∧ 0 ≤ q ∧ q < 1 ∧ ∀ (rd fexp flog1p : ℝ → ℝ) (u w : ℝ), Rounding rd u 0 → u ≤ w → (∀ g, f = .log g → 2⁻¹ ^ 53 ≤ w) →
        (∀ t ≤ 18, 0 ≤ fexp t ∧ |fexp t - Real.exp t| ≤ w * Real.exp t) → (∀ s, 0 ≤ s → |flog1p s - Real.log (1 + s)| ≤ w * Real.log (1 + s)) →
        ∀ P : FlBtArgs d, FlBtLib rd fexp flog1p f pen P → norm2 P.x0 ≤ R → b ≤ P.factor → P.factor ≤ 1 - b → C * √w ≤ ‖f.gradE (WithLp.toLp 2 P.x0)‖ → C * √w < P.tol →
          C * ((P.maxIter + 1) * w) ≤ 1 → C * (1 - b / 2) ^ P.btIter ≤ w →
          ∃ r, flMinimizeBt rd P = .ok r ∧ FlBtGuarantee pen.fn xs (WithLp.toLp 2 P.x0) C q w P.tol P.maxIter r := by
  obtain ⟨hstr, -, hq, -, -⟩ := C92_loss f hf hsv
  obtain ⟨hG, hp, -, -⟩ := C92_prox_exact pen hpen.good
  have hL : 0 < f.lipschitz sv := by
    obtain ⟨phi, phi', c, hc, hLc, -⟩ := f.erm_form hf
    rw [hLc]
    have : 0 ≤ c * (sv * sv) / n := by have := mul_self_nonneg sv; positivity
    linarith
  obtain ⟨xs, hxs, hmin, huniq⟩ := exists_minimiser hreg hL hstr hq hG hp
  refine ⟨xs, hxs, hmin, huniq, fun R => ?_⟩
  obtain ⟨K, M, hK0, hM, hO⟩ := flBtOracles_library hn f hf pen hpen (show (0 : ℝ) ≤ 2200 + 4 / f.reg by positivity)
  obtain ⟨C, q, hC, hq0, hq1, h⟩ := C132_rounded_search_oracles hreg hL hstr hq hG hp hxs hmin hK0 R hb
  obtain ⟨C', hC'⟩ : ∃ C', C' = C + M := ⟨_, rfl⟩
  have hCC : C ≤ C' := by rw [hC']; linarith
  have hMC : M ≤ C' := by rw [hC']; linarith
  refine ⟨C', q, by linarith, hq0, hq1, ?_⟩
  intro rd fexp flog1p u w hr hu hwl hexp hlog P hP hx0 hf1 hf2 hg htol hmax hbt
  have hw0 : 0 ≤ w := hr.u_nonneg.trans hu
  have hsq0 := Real.sqrt_nonneg w
  have hmw : (0 : ℝ) ≤ (P.maxIter + 1) * w := by positivity
  have hsqC := mul_le_mul_of_nonneg_right hCC hsq0
  have hpw : 0 ≤ (1 - b / 2) ^ P.btIter := pow_nonneg (by linarith) _
  have hMw : M * w ≤ 1 := by
    have h1 := mul_le_mul_of_nonneg_right hMC hmw
    have h2 : 0 ≤ M * (P.maxIter * w) := by positivity
    linarith
  have hmC := mul_le_mul_of_nonneg_right hCC hmw
  have hpC := mul_le_mul_of_nonneg_right hCC hpw
  obtain ⟨r, e, c⟩ := h rd u w hr hu P (hO rd fexp flog1p u w hr hu hwl hexp hlog hMw P hP) hx0 hf1 hf2 (by linarith) (by linarith) (by linarith) (by linarith)
  have hnw : (0 : ℝ) ≤ (r.nit + 1) * w := by positivity
  have htol0 : 0 ≤ P.tol := by have : 0 ≤ C' * √w := mul_nonneg (by linarith) hsq0
                               linarith
  refine ⟨r, e, c.dist.trans ?_, fun hs => (c.success hs).trans (mul_le_mul_of_nonneg_right hCC (by positivity)), c.certificate, c.failure, c.nit, ?_⟩
  · have := mul_le_mul_of_nonneg_right hCC (show (0 : ℝ) ≤ √w + (r.nit + 1) * w by positivity)
    linarith
  · obtain ⟨z, hz, hzd⟩ := c.feasible
    exact ⟨z, hz, hzd.trans (mul_le_mul_of_nonneg_right hCC hw0)⟩

/-! ### Instances -/

theorem exists_flSum0 (rd : ℝ → ℝ) (l : List ℝ) : ∃ r, FlSum0 rd l r := by
  rcases l with _ | ⟨a, l⟩
  · exact ⟨0, Or.inl ⟨rfl, rfl⟩⟩
  · obtain ⟨r, hr⟩ := exists_flSum rd (a :: l) (by simp)
    exact ⟨r, Or.inr hr⟩

theorem LossObj.exists_flValue (rd fexp flog1p : ℝ → ℝ) (hn : 0 < n) (hd : 0 < d) (f : LossObj n d) (x : Fin d → ℝ) : ∃ v, f.FlValue rd fexp flog1p x v := by
  have hne : ∀ g : Fin n → ℝ, List.ofFn g ≠ [] := fun g h => by have := congrArg List.length h; simp at this; omega
  obtain ⟨q, hq⟩ := exists_flDot_vec rd hd fun j => (x j, x j)
  choose z hz using fun i => exists_flDot_vec rd hd fun j => (f.mat i j, x j)
  cases f with
  | log f =>
    obtain ⟨s, hs⟩ := exists_flSum rd (List.ofFn fun i => rd (rd (rd (1 - f.b i) * z i) - flLogsig rd fexp flog1p (z i))) (hne _)
    exact ⟨_, z, s, q, hz, hs, hq, rfl⟩
  | square f =>
    obtain ⟨s, hs⟩ := exists_flSum rd (List.ofFn fun i => rd (rd (z i - f.b i) * rd (z i - f.b i))) (hne _)
    exact ⟨_, z, s, q, hz, hs, hq, rfl⟩
  | huber f =>
    obtain ⟨s, hs⟩ := exists_flSum0 rd (((List.finRange n).filter fun i => |rd (z i - f.b i)| < f.delta).map fun i => rd (rd (z i - f.b i) * rd (z i - f.b i)))
    obtain ⟨s', hs'⟩ := exists_flSum0 rd (((List.finRange n).filter fun i => ¬ |rd (z i - f.b i)| < f.delta).map fun i => rd (f.delta * rd (|rd (z i - f.b i)| - rd (0.5 * f.delta))))
    exact ⟨_, z, s, s', q, hz, hs, hs', hq, rfl⟩

/-- Runs of the library exist, for every rounding. -/
theorem exists_flBtLib (rd fexp flog1p : ℝ → ℝ) (hn : 0 < n) (hd : 0 < d) (f : LossObj n d) (pen : PenObj d) (hpen : pen.FlGoodE) (x0 : Fin d → ℝ) (tol factor : ℝ) (maxIter btIter : ℕ) :
    ∃ P : FlBtArgs d, FlBtLib rd fexp flog1p f pen P ∧ P.x0 = x0 ∧ P.tol = tol ∧ P.factor = factor ∧ P.maxIter = maxIter ∧ P.btIter = btIter := by
  choose gr hgr using fun x => f.exists_flGrad rd fexp hn hd x
  choose va hva using fun x => f.exists_flValue rd fexp flog1p hn hd x
  choose pr hpr using fun v s => pen.exists_flProxE rd hd hpen v s
  choose no hno using fun v : Fin d → ℝ => exists_flNorm rd hd v
  choose dt hdt using fun a b : Fin d → ℝ => exists_flDot_vec rd hd fun j => (a j, b j)
  exact ⟨⟨fun _ x => (va x, gr x), fun x => (va x, gr x), fun _ _ x => (va x, gr x), fun _ _ => pr, fun _ _ => dt, fun _ _ => dt, fun _ => no, x0, tol, maxIter, btIter, factor⟩,
    ⟨fun _ x => ⟨hva x, hgr x⟩, fun x => ⟨hva x, hgr x⟩, fun _ _ x => ⟨hva x, hgr x⟩, fun _ _ => hpr, fun _ _ => hdt, fun _ _ => hdt, fun _ => hno⟩, rfl, rfl, rfl, rfl, rfl⟩

/-- C132 for every square or Huber loss, penalty, starting point with non-zero gradient, tolerance and `max_iter`: rounding to `p + 1` bits for every large enough `p`, with the default
`backtracking_factor=0.6`, and enough line search iterations. -/
example (hn : 0 < n) (hd : 0 < d) (f : LossObj n d) (hf : f.Good) (hlog : ∀ g, f ≠ .log g) (hreg : 0 < f.reg) {sv : ℝ} (hsv : IsLargestSingular f.mat sv) (pen : PenObj d) (hpen : pen.FlGoodE)
    (x0 : Fin d → ℝ) (hg0 : f.gradE (WithLp.toLp 2 x0) ≠ 0) {tol : ℝ} (htol : 0 < tol) (maxIter : ℕ) :
    ∃ xs, (∀ y ∈ pen.fn.dom, f.fn xs + pen.fn.val xs ≤ f.fn y + pen.fn.val y) ∧ ∃ C q, 0 < C ∧ 0 ≤ q ∧ q < 1 ∧ ∃ p0, ∀ p ≥ p0, ∃ N, ∀ btIter ≥ N,
      ∃ P : FlBtArgs d, FlBtLib (flBits p) (fun t => flBits p (Real.exp t)) (fun s => flBits p (Real.log (1 + s))) f pen P ∧ P.x0 = x0 ∧ P.tol = tol ∧ P.factor = flBits p (6 / 10) ∧
        P.maxIter = maxIter ∧ P.btIter = btIter ∧ ∃ r, flMinimizeBt (flBits p) P = .ok r ∧ FlBtGuarantee pen.fn xs (WithLp.toLp 2 x0) C q (2⁻¹ ^ p) tol maxIter r := by
  obtain ⟨xs, -, hmin, -, hR⟩ := C132_rounded_search_partial hn f hf hreg hsv pen hpen (show (0 : ℝ) < 1 / 10 by norm_num)
  obtain ⟨C, q, hC, hq0, hq1, h⟩ := hR (norm2 x0)
  have hng := norm_pos_iff.mpr hg0
  obtain ⟨e, he⟩ : ∃ e, e = min (min (‖f.gradE (WithLp.toLp 2 x0)‖ / C) (tol / C)) 1 / 2 := ⟨_, rfl⟩
  have he0 : 0 < e := by rw [he]; have := lt_min (lt_min (div_pos hng hC) (div_pos htol hC)) one_pos; linarith
  obtain ⟨e', he'⟩ : ∃ e', e' = min (e ^ 2) (min (1 / 10) (1 / (C * (maxIter + 1)))) := ⟨_, rfl⟩
  have he'0 : 0 < e' := by rw [he']; exact lt_min (by positivity) (lt_min (by norm_num) (by positivity))
  obtain ⟨p0, hp0⟩ := exists_pow_lt_of_lt_one he'0 (show (2⁻¹ : ℝ) < 1 by norm_num)
  refine ⟨xs, hmin, C, q, hC, hq0, hq1, p0, fun p hp => ?_⟩
  have hw : (2⁻¹ : ℝ) ^ p ≤ e' := (pow_le_pow_of_le_one (by norm_num) (by norm_num) hp).trans hp0.le
  have hpos : (0 : ℝ) < 2⁻¹ ^ p := by positivity
  obtain ⟨N, hN⟩ := exists_pow_lt_of_lt_one (show 0 < 2⁻¹ ^ p / C by positivity) (show (1 - (1 / 10 : ℝ) / 2) < 1 by norm_num)
  refine ⟨N, fun btIter hbt => ?_⟩
  have hr := flBits_rounding (p := p) (eta := 0) le_rfl
  have hhalf : (2⁻¹ : ℝ) ^ (p + 1) = 2⁻¹ ^ p / 2 := by rw [pow_succ]; ring
  have hu : (2⁻¹ : ℝ) ^ (p + 1) ≤ 2⁻¹ ^ p := by rw [hhalf]; linarith
  obtain ⟨P, hP, hx, ht, hfa, hm, hbi⟩ := exists_flBtLib (flBits p) (fun t => flBits p (Real.exp t)) (fun s => flBits p (Real.log (1 + s))) hn hd f pen hpen x0 tol (flBits p (6 / 10)) maxIter btIter
  have h6 := rel_bounds hr hu (show (0 : ℝ) ≤ 6 / 10 by norm_num)
  have hw10 : (2⁻¹ : ℝ) ^ p ≤ 1 / 10 := hw.trans (by rw [he']; exact (min_le_right _ _).trans (min_le_left _ _))
  have hsq : √(2⁻¹ ^ p) ≤ e := by
    rw [Real.sqrt_le_left he0.le]
    exact hw.trans (by rw [he']; exact min_le_left _ _)
  have hCe : C * √(2⁻¹ ^ p) ≤ C * e := mul_le_mul_of_nonneg_left hsq hC.le
  have hmin1 : min (min (‖f.gradE (WithLp.toLp 2 x0)‖ / C) (tol / C)) 1 ≤ ‖f.gradE (WithLp.toLp 2 x0)‖ / C := (min_le_left _ _).trans (min_le_left _ _)
  have hmin2 : min (min (‖f.gradE (WithLp.toLp 2 x0)‖ / C) (tol / C)) 1 ≤ tol / C := (min_le_left _ _).trans (min_le_right _ _)
  rw [le_div_iff₀ hC] at hmin1 hmin2
  have hCe2 : C * e = min (min (‖f.gradE (WithLp.toLp 2 x0)‖ / C) (tol / C)) 1 * C / 2 := by rw [he]; ring
  obtain ⟨r, er, hg⟩ := h (flBits p) (fun t => flBits p (Real.exp t)) (fun s => flBits p (Real.log (1 + s))) (2⁻¹ ^ (p + 1)) (2⁻¹ ^ p) hr hu (fun g hg => absurd hg (hlog g))
    (fun t _ => ⟨hr.nonneg (Real.exp_pos t).le, by have := rel_err hr hu (Real.exp t); rwa [abs_of_pos (Real.exp_pos t)] at this⟩)
    (fun s hs => by have := rel_err hr hu (Real.log (1 + s)); rwa [abs_of_nonneg (Real.log_nonneg (by linarith))] at this) P hP (by rw [hx])
    (by rw [hfa]; linarith [h6.1]) (by rw [hfa]; linarith [h6.2]) (by rw [hx]; linarith) (by rw [ht]; linarith)
    (by
      rw [hm]
      have h1 : (2⁻¹ : ℝ) ^ p ≤ 1 / (C * (maxIter + 1)) := hw.trans (by rw [he']; exact (min_le_right _ _).trans (min_le_right _ _))
      rw [le_div_iff₀ (by positivity)] at h1
      linarith)
    (by
      rw [hbi]
      have h1 : (1 - (1 / 10 : ℝ) / 2) ^ btIter ≤ 2⁻¹ ^ p / C := (pow_le_pow_of_le_one (by norm_num) (by norm_num) hbt).trans hN.le
      rw [le_div_iff₀ hC] at h1
      linarith)
  rw [hx, ht, hm] at hg
  exact ⟨P, hP, hx, ht, hfa, hm, hbi, r, er, hg⟩

/-- Doubles with the default arguments and one penalty-free loss meet the hypotheses of `C132_refuted`. -/
example (tol : ℝ) (htol : 0 < tol) : ∃ P : FlBtArgs 1, FlBtLoss (flBits 52) Real.exp (fun s => Real.log (1 + s)) (.square LsWitness.loss) P ∧ P.x0 = (fun _ => 1) ∧ P.tol = tol ∧
    P.factor = flBits 52 (6 / 10) ∧ P.btIter = 1000 ∧ P.maxIter = 500 ∧ ∃ r, flMinimizeBt (flBits 52) P = .ok r ∧ r.success = true ∧ r.x = fun _ => 1 := by
  choose gr hgr using fun x => (LossObj.square LsWitness.loss).exists_flGrad (flBits 52) Real.exp (by norm_num) (by norm_num) x
  choose va hva using fun x => (LossObj.square LsWitness.loss).exists_flValue (flBits 52) Real.exp (fun s => Real.log (1 + s)) (by norm_num) (by norm_num) x
  choose no hno using fun v : Fin 1 → ℝ => exists_flNorm (flBits 52) one_pos v
  choose dt hdt using fun a b : Fin 1 → ℝ => exists_flDot_vec (flBits 52) one_pos fun j => (a j, b j)
  obtain ⟨⟨r, e, h1, -, h2, -⟩, -⟩ := C132_refuted nearest_flBits
    (P := ⟨fun _ x => (va x, gr x), fun x => (va x, gr x), fun _ _ x => (va x, gr x), fun _ _ v _ => .ok v, fun _ _ => dt, fun _ _ => dt, fun _ => no, fun _ => 1, tol, 500, 1000, flBits 52 (6 / 10)⟩)
    ⟨fun _ x => ⟨hva x, hgr x⟩, fun x => ⟨hva x, hgr x⟩, fun _ _ x => ⟨hva x, hgr x⟩, fun _ _ _ _ => rfl, fun _ _ => hdt, fun _ _ => hdt, fun _ => hno⟩ rfl htol rfl (by norm_num)
  exact ⟨_, ⟨fun _ x => ⟨hva x, hgr x⟩, fun x => ⟨hva x, hgr x⟩, fun _ _ x => ⟨hva x, hgr x⟩, fun _ _ _ _ => rfl, fun _ _ => hdt, fun _ _ => hdt, fun _ => hno⟩, rfl, rfl, rfl, rfl, rfl, r, e, h1, h2⟩

end Copt
