import Verif.Proof.FloatOracles
import Verif.Proof.RoundingBits
import Verif.Props.FloatProj

/-!
# Properties C117-C119: `minimize_proximal_gradient` with rounded arithmetic
-/

set_option linter.unusedSectionVars false

namespace Copt

open Spec

open scoped InnerProductSpace

variable {n d : ℕ}

local notation "ℓ²" => EuclideanSpace ℝ (Fin d)

/-! ### C117 -/

theorem flSoft_eq {rd : ℝ → ℝ} {u eta : ℝ} (hr : Rounding rd u eta) {x t : ℝ} (hx : 0 ≤ x) (ht : 0 ≤ t) :
    rd (max (rd (x - t)) 0 - max (rd (-x - t)) 0) = max (rd (x - t)) 0 := by
  rw [max_eq_right (hr.nonpos (by linarith : -x - t ≤ 0)), sub_zero]
  rcases le_total (rd (x - t)) 0 with h | h
  · rw [max_eq_right h, hr.zero]
  · rw [max_eq_left h, hr.idem]

theorem flSoft_neg {rd : ℝ → ℝ} {u eta : ℝ} (hr : Rounding rd u eta) (x t : ℝ) :
    rd (max (rd (-x - t)) 0 - max (rd (- -x - t)) 0) = -rd (max (rd (x - t)) 0 - max (rd (-x - t)) 0) := by
  rw [neg_neg, ← hr.neg, neg_sub]

/-- **C117.** `L1Norm(alpha).prox(x, step)` with rounded arithmetic, on representable vectors: no entry grows or changes sign; entries below the rounded threshold become zero exactly;
and each entry is within `u (|x| + alpha step) + 2 eta` of the exact proximal point. -/
theorem C117_l1_prox_rounded {rd : ℝ → ℝ} {u eta : ℝ} (hr : Rounding rd u eta) {alpha step : ℝ} (ha : 0 ≤ alpha) (hs : 0 ≤ step) (x : Fin d → ℝ) (hx : ∀ j, rd (x j) = x j) :
    (∀ j, |L1Norm.flProx rd alpha x step j| ≤ |x j| ∧ 0 ≤ L1Norm.flProx rd alpha x step j * x j) ∧
      (∀ j, |x j| ≤ rd (alpha * step) → L1Norm.flProx rd alpha x step j = 0) ∧
      (∀ j, rd (L1Norm.flProx rd alpha x step j) = L1Norm.flProx rd alpha x step j) ∧
      ∃ P, IsProx (fun y => alpha * norm1 y) step x P ∧ ∀ j, |L1Norm.flProx rd alpha x step j - P j| ≤ u * (|x j| + alpha * step) + 2 * eta := by
  have hτ : 0 ≤ alpha * step := mul_nonneg ha hs
  have ht : 0 ≤ rd (alpha * step) := hr.nonneg hτ
  have herr := hr.err (alpha * step)
  rw [abs_of_nonneg hτ] at herr
  have hu := hr.u_nonneg
  have he := hr.eta_nonneg
  obtain ⟨t, htd⟩ : ∃ t, t = rd (alpha * step) := ⟨_, rfl⟩
  rw [← htd] at ht herr
  obtain ⟨τ, hτd⟩ : ∃ τ, τ = alpha * step := ⟨_, rfl⟩
  have hfl : ∀ j, L1Norm.flProx rd alpha x step j = rd (max (rd (x j - t)) 0 - max (rd (-x j - t)) 0) := fun j => by rw [htd]; rfl
  have hpr : ∀ j, L1Norm.prox alpha x step j = max (x j - τ) 0 - max (-x j - τ) 0 := fun j => by rw [hτd]; rfl
  -- nonnegative entries
  have pos : ∀ v : ℝ, 0 ≤ v → rd v = v → 0 ≤ max (rd (v - t)) 0 ∧ max (rd (v - t)) 0 ≤ v ∧ (v ≤ t → max (rd (v - t)) 0 = 0) ∧
      |max (rd (v - t)) 0 - max (v - τ) 0| ≤ u * (v + τ) + 2 * eta := by
    intro v hv hrv
    have h1 : rd (v - t) ≤ v := by have := hr.mono (show v - t ≤ v by linarith); rwa [hrv] at this
    refine ⟨le_max_right _ _, max_le h1 hv, fun h => max_eq_right (hr.nonpos (by linarith)), ?_⟩
    rw [← hτd] at herr hτ
    have h2 := abs_le.mp herr
    have huv : 0 ≤ u * v := mul_nonneg hu hv
    have huτ : 0 ≤ u * τ := mul_nonneg hu hτ
    rcases le_total v t with hvt | hvt
    · rw [max_eq_right (hr.nonpos (by linarith : v - t ≤ 0)), zero_sub, abs_neg, abs_of_nonneg (le_max_right _ _)]
      refine max_le ?_ (by linarith)
      linarith [h2.1, h2.2]
    · rw [max_eq_left (hr.nonneg (by linarith : 0 ≤ v - t))]
      have h3 := hr.err (v - t)
      rw [abs_of_nonneg (by linarith : 0 ≤ v - t)] at h3
      have h4 : u * (v - t) ≤ u * v := mul_le_mul_of_nonneg_left (by linarith) hu
      have h5 : |v - t - max (v - τ) 0| ≤ u * τ + eta := by
        rcases le_total τ v with h | h
        · rw [max_eq_left (by linarith), show v - t - (v - τ) = -(t - τ) by ring, abs_neg]; exact herr
        · rw [max_eq_right (by linarith), sub_zero, abs_of_nonneg (by linarith)]; linarith [h2.1]
      have h6 := abs_sub_le (rd (v - t)) (v - t) (max (v - τ) 0)
      linarith
  have hpe : ∀ v : ℝ, 0 ≤ v → max (v - τ) 0 - max (-v - τ) 0 = max (v - τ) 0 := fun v hv => by
    rw [max_eq_right (by rw [hτd]; linarith : -v - τ ≤ 0), sub_zero]
  have hneg : ∀ j, rd (max (rd (x j - t)) 0 - max (rd (-x j - t)) 0) = -rd (max (rd (-x j - t)) 0 - max (rd (- -x j - t)) 0) := fun j => by
    rw [flSoft_neg hr, neg_neg]
  have hneg' : ∀ j, max (x j - τ) 0 - max (-x j - τ) 0 = -(max (-x j - τ) 0 - max (- -x j - τ) 0) := fun j => by rw [neg_neg]; ring
  have hx' : ∀ j, rd (-x j) = -x j := fun j => by rw [hr.neg, hx]
  refine ⟨fun j => ?_, fun j hj => ?_, fun j => ?_, _, C10_l1_prox_exact alpha step ha hs x, fun j => ?_⟩
  · rw [hfl]
    rcases le_total 0 (x j) with h | h
    · rw [flSoft_eq hr h ht, abs_of_nonneg (pos _ h (hx j)).1, abs_of_nonneg h]
      exact ⟨(pos _ h (hx j)).2.1, mul_nonneg (pos _ h (hx j)).1 h⟩
    · have h' : 0 ≤ -x j := by linarith
      rw [hneg j, flSoft_eq hr h' ht, abs_neg, abs_of_nonneg (pos _ h' (hx' j)).1, abs_of_nonpos h]
      exact ⟨(pos _ h' (hx' j)).2.1, by nlinarith [(pos _ h' (hx' j)).1]⟩
  · rw [hfl]
    rw [← htd] at hj
    rcases le_total 0 (x j) with h | h
    · rw [abs_of_nonneg h] at hj
      rw [flSoft_eq hr h ht, (pos _ h (hx j)).2.2.1 hj]
    · have h' : 0 ≤ -x j := by linarith
      rw [abs_of_nonpos h] at hj
      rw [hneg j, flSoft_eq hr h' ht, (pos _ h' (hx' j)).2.2.1 hj, neg_zero]
  · rw [hfl, hr.idem]
  · rw [hfl, hpr, ← hτd]
    rcases le_total 0 (x j) with h | h
    · rw [flSoft_eq hr h ht, hpe _ h, abs_of_nonneg h]
      exact (pos _ h (hx j)).2.2.2
    · have h' : 0 ≤ -x j := by linarith
      rw [hneg j, hneg' j, flSoft_eq hr h' ht, hpe _ h', abs_of_nonpos h, neg_sub_neg, abs_sub_comm]
      exact (pos _ h' (hx' j)).2.2.2

/-! ### C118 -/

set_option maxHeartbeats 1000000 in
/-- **C118.** Proximal gradient method on a strongly convex problem, with rounded arithmetic and inexact oracles.  There are a constant `C` and a factor `q < 1`, which depend on the problem, the range
`[s1, s2]` of the step sizes and the accuracy `K` of the oracles but neither on the arithmetic nor on the run, such that, if the arithmetic has precision `w` with `C w ≤ 1`:
the result is at distance at most `q^(nit + 1) ‖x0 - xs‖ + C w` of the solution; if the flag `success` is set, at distance at most `C (tol + w)`;
and if `tol > C w` the flag is set as soon as `max_iter` is large enough. -/
theorem C118_rounded_proximal_gradient {f : ℓ² → ℝ} {g : ℓ² → ℓ²} {G : ExtFun ℓ²} (hG : G.IsConvex) {proxE : ℓ² → ℝ → ℓ²} (hp : IsProxOf G proxE)
    {mu L : ℝ} (hmu : 0 < mu) (hL : 0 < L) (hf : StrongGrad f g mu) (hq : UpperQuad f g L) {xs : ℓ²} (hxs : xs ∈ G.dom) (hmin : ∀ y ∈ G.dom, f xs + G.val xs ≤ f y + G.val y)
    {s1 s2 : ℝ} (hs1 : 0 < s1) (h12 : s1 ≤ s2) (hs2 : s2 * L < 2) {K : ℝ} (hK : 0 ≤ K) :
    ∃ C q, 0 < C ∧ 0 ≤ q ∧ q < 1 ∧ ∀ (rd : ℝ → ℝ) (u eta w : ℝ), Rounding rd u eta → u ≤ w → eta ≤ w ^ 2 → C * w ≤ 1 →
      ∀ P : FlPGArgs d, (∀ k, s1 ≤ P.step k ∧ P.step k ≤ s2) → FlOracles P g proxE K w →
        ‖(WithLp.toLp 2 (flMinimizePG rd P).x : ℓ²) - xs‖ ≤ q ^ ((flMinimizePG rd P).nit + 1) * ‖(WithLp.toLp 2 P.x0 : ℓ²) - xs‖ + C * w ∧
        (0 ≤ P.tol → (flMinimizePG rd P).success = true → ‖(WithLp.toLp 2 (flMinimizePG rd P).x : ℓ²) - xs‖ ≤ C * (P.tol + w)) ∧
        ((flMinimizePG rd P).success = false → (flMinimizePG rd P).nit = P.maxIter) ∧
        (C * w < P.tol → ∃ N, ∀ m ≥ N, (flMinimizePG rd { P with maxIter := m }).success = true) := by
  have hs20 : 0 < s2 := by linarith
  have hconv := hf.convex hmu.le
  -- constants
  obtain ⟨Bg, hBgdef⟩ : ∃ Bg, Bg = ‖g xs‖ + L * ‖xs‖ + L := ⟨_, rfl⟩
  have hBg0 : 0 ≤ Bg := by rw [hBgdef]; positivity
  have hBg : ∀ x, ‖g x‖ ≤ Bg * (1 + ‖x‖) := by
    intro x
    have h1 := lip_of_cocoercive hL hconv hq x xs
    have h2 : ‖g x‖ ≤ ‖g x - g xs‖ + ‖g xs‖ := by
      have := norm_add_le (g x - g xs) (g xs)
      rwa [sub_add_cancel] at this
    have h3 := mul_le_mul_of_nonneg_left (norm_sub_le x xs) hL.le
    have h4 : 0 ≤ (‖g xs‖ + L * ‖xs‖) * ‖x‖ := by positivity
    rw [hBgdef]; nlinarith [norm_nonneg x]
  obtain ⟨D, hD0, hD⟩ := flPgNext_error (d := d) hG hp hK hBg0 hs20.le hBg
  obtain ⟨M, hM0, hM⟩ := flPgCert_error (d := d) (g := g) (proxE := proxE) hK hs1
  obtain ⟨q, hqdef⟩ : ∃ q, q = Real.sqrt (1 - s1 * mu * (2 - s2 * L)) := ⟨_, rfl⟩
  have hq0 : 0 ≤ q := by rw [hqdef]; exact Real.sqrt_nonneg _
  have hq1 : q < 1 := by
    rw [hqdef, Real.sqrt_lt' one_pos]
    have : 0 < s1 * mu * (2 - s2 * L) := mul_pos (mul_pos hs1 hmu) (by linarith)
    linarith
  obtain ⟨R, hR⟩ : ∃ R, R = 1 + ‖xs‖ := ⟨_, rfl⟩
  have hR0 : 0 ≤ R := by rw [hR]; positivity
  obtain ⟨q', hq'⟩ : ∃ q', q' = (1 + q) / 2 := ⟨_, rfl⟩
  have hq'0 : 0 ≤ q' := by rw [hq']; linarith
  have hq'1 : q' < 1 := by rw [hq']; linarith
  obtain ⟨F, hF⟩ : ∃ F, F = D * R / (1 - q') := ⟨_, rfl⟩
  have hF0 : 0 ≤ F := by rw [hF]; exact div_nonneg (by positivity) (by linarith)
  have hFeq : F * (1 - q') = D * R := by rw [hF]; exact div_mul_cancel₀ _ (by linarith)
  obtain ⟨I, hI⟩ : ∃ I, I = (1 - q')⁻¹ := ⟨_, rfl⟩
  have hI0 : 0 ≤ I := by rw [hI]; exact inv_nonneg.mpr (by linarith)
  have hII : I * (1 - q') = 1 := by rw [hI]; exact inv_mul_cancel₀ (by linarith)
  have hi1 : 0 ≤ s1⁻¹ := by positivity
  obtain ⟨C, hC⟩ : ∃ C, C = 1 + D * I + 2 * M * s2 + F + (I * (2 * s2) + I * (2 * s2 * M + D * R) + D * R) + 2 * ((2 * F + D * R) * (s1⁻¹ + M) + M) := ⟨_, rfl⟩
  have hDI : 0 ≤ D * I := by positivity
  have t1 : 0 ≤ 2 * M * s2 := by positivity
  have t2 : 0 ≤ I * (2 * s2) := by positivity
  have t3 : 0 ≤ I * (2 * s2 * M + D * R) := by positivity
  have t4 : 0 ≤ D * R := by positivity
  have t5 : 0 ≤ (2 * F + D * R) * (s1⁻¹ + M) := by positivity
  refine ⟨C, q', by rw [hC]; linarith, hq'0, hq'1, ?_⟩
  intro rd u eta w hr hu he hCw P hst hO
  have hw0 : 0 ≤ w := hr.u_nonneg.trans hu
  have hle : ∀ c, c ≤ C → c * w ≤ C * w := fun c hc => mul_le_mul_of_nonneg_right hc hw0
  have hw1 : w ≤ 1 := by have := hle 1 (by rw [hC]; linarith); linarith
  have hDw : D * w ≤ 1 - q' := by
    have h1 := (hle (D * I) (by rw [hC]; linarith)).trans hCw
    have h2 := mul_le_mul_of_nonneg_right h1 (by linarith : 0 ≤ 1 - q')
    have h3 : D * I * w * (1 - q') = D * w * (I * (1 - q')) := by ring
    rw [h3, hII] at h2
    linarith
  have hMw : 2 * M * s2 * w ≤ 1 := (hle _ (by rw [hC]; linarith)).trans hCw
  -- one iteration
  have hnext : ∀ k x, ‖(WithLp.toLp 2 (flPgNext rd P k x) : ℓ²) - xs‖ ≤ q' * ‖(WithLp.toLp 2 x : ℓ²) - xs‖ + D * R * w ∧
      ‖(WithLp.toLp 2 x : ℓ²) - xs‖ ≤ ‖(WithLp.toLp 2 x : ℓ²) - WithLp.toLp 2 (flPgNext rd P k x)‖ + (q' * ‖(WithLp.toLp 2 x : ℓ²) - xs‖ + D * R * w) := by
    intro k x
    have hk := hst k
    have e1 := hD rd u eta w hr hu he hw0 hw1 P hO k (by linarith) hk.2 x
    have e2 := step_contracts hmu hL hf hq hG hxs hmin hs1 hk.1 hk.2 hs2 (hp (WithLp.toLp 2 x - P.step k • g (WithLp.toLp 2 x)) _ (by linarith [hk.1]))
    rw [← hqdef] at e2
    set X : ℓ² := WithLp.toLp 2 x
    set X' : ℓ² := WithLp.toLp 2 (flPgNext rd P k x)
    set T : ℓ² := proxE (X - P.step k • g X) (P.step k)
    have e3 : norm2 x ≤ ‖xs‖ + ‖X - xs‖ := by
      rw [← toLp_norm x]
      have := norm_add_le xs (X - xs)
      rwa [add_sub_cancel] at this
    have e4 : D * w * (1 + norm2 x) ≤ D * w * (R + ‖X - xs‖) := mul_le_mul_of_nonneg_left (by rw [hR]; linarith) (by positivity)
    have e5 : D * w * ‖X - xs‖ ≤ (1 - q') * ‖X - xs‖ := mul_le_mul_of_nonneg_right hDw (norm_nonneg _)
    have e6 : ‖X' - xs‖ ≤ ‖X' - T‖ + ‖T - xs‖ := norm_sub_le_norm_sub_add_norm_sub _ _ _
    have hq2 : q + (1 - q') = q' := by rw [hq']; ring
    have e7 : q * ‖X - xs‖ + (1 - q') * ‖X - xs‖ = q' * ‖X - xs‖ := by rw [← add_mul, hq2]
    have main : ‖X' - xs‖ ≤ q' * ‖X - xs‖ + D * R * w := by linarith only [e1, e2, e4, e5, e6, e7]
    refine ⟨main, ?_⟩
    have e8 : ‖X - xs‖ ≤ ‖X - X'‖ + ‖X' - xs‖ := norm_sub_le_norm_sub_add_norm_sub _ _ _
    linarith
  -- the iterates
  have horb : ∀ k, ‖(WithLp.toLp 2 (flPgOrbit rd P k) : ℓ²) - xs‖ ≤ q' ^ k * ‖(WithLp.toLp 2 P.x0 : ℓ²) - xs‖ + F * w := by
    intro k
    induction k with
    | zero =>
      show ‖(WithLp.toLp 2 P.x0 : ℓ²) - xs‖ ≤ _
      rw [pow_zero, one_mul]
      have : 0 ≤ F * w := by positivity
      linarith
    | succ k ih =>
      have h1 := (hnext k (flPgOrbit rd P k)).1
      have h2 := mul_le_mul_of_nonneg_left ih hq'0
      have h3 : q' * (F * w) + D * R * w = F * w := by rw [← hFeq]; ring
      show ‖(WithLp.toLp 2 (flPgNext rd P k (flPgOrbit rd P k)) : ℓ²) - xs‖ ≤ _
      have h4 : q' * (q' ^ k * ‖(WithLp.toLp 2 P.x0 : ℓ²) - xs‖ + F * w) = q' ^ (k + 1) * ‖(WithLp.toLp 2 P.x0 : ℓ²) - xs‖ + q' * (F * w) := by
        rw [pow_succ]; ring
      linarith only [h1, h2, h3, h4]
  have hFC : F * w ≤ C * w := hle _ (by rw [hC]; linarith)
  obtain ⟨k, -, hk2, hknit, hkx, hkc, hks, hkf⟩ := flPgLoop_spec rd P P.maxIter 0 P.x0 rfl
  have hcert : ∀ k, |flPgCert rd P k (flPgOrbit rd P k) (flPgOrbit rd P (k + 1)) - ‖(WithLp.toLp 2 (flPgOrbit rd P k) : ℓ²) - WithLp.toLp 2 (flPgOrbit rd P (k + 1))‖ / P.step k| ≤
      M * w * (1 + ‖(WithLp.toLp 2 (flPgOrbit rd P k) : ℓ²) - WithLp.toLp 2 (flPgOrbit rd P (k + 1))‖) := fun k =>
    hM rd u eta w hr hu he hw0 hw1 P hO k (hst k).1 _ _
  refine ⟨?_, ?_, ?_, ?_⟩
  · show ‖(WithLp.toLp 2 (flPgLoop rd P P.maxIter 0 P.x0).x : ℓ²) - xs‖ ≤ q' ^ ((flPgLoop rd P P.maxIter 0 P.x0).nit + 1) * _ + _
    rw [hkx, hknit]
    exact (horb (k + 1)).trans (by linarith)
  · intro htol hsucc
    have h1 := hks hsucc
    rw [hkc] at h1
    have h2 := hcert k
    have h3 := hnext k (flPgOrbit rd P k)
    show ‖(WithLp.toLp 2 (flPgLoop rd P P.maxIter 0 P.x0).x : ℓ²) - xs‖ ≤ _
    rw [hkx]
    have hsk := hst k
    have hstep0 : 0 < P.step k := by linarith
    change ‖(WithLp.toLp 2 (flPgOrbit rd P (k + 1)) : ℓ²) - xs‖ ≤ _ ∧ ‖_‖ ≤ ‖(WithLp.toLp 2 (flPgOrbit rd P k) : ℓ²) - WithLp.toLp 2 (flPgOrbit rd P (k + 1))‖ + _ at h3
    obtain ⟨h3, h4⟩ := h3
    have hΔ0 := norm_nonneg ((WithLp.toLp 2 (flPgOrbit rd P k) : ℓ²) - WithLp.toLp 2 (flPgOrbit rd P (k + 1)))
    set Δ := ‖(WithLp.toLp 2 (flPgOrbit rd P k) : ℓ²) - WithLp.toLp 2 (flPgOrbit rd P (k + 1))‖
    set e := ‖(WithLp.toLp 2 (flPgOrbit rd P k) : ℓ²) - xs‖
    have h5 : Δ / s2 ≤ Δ / P.step k := div_le_div_of_nonneg_left hΔ0 hstep0 hsk.2
    have h6 : Δ / s2 ≤ P.tol + M * w * (1 + Δ) := by linarith [(abs_le.mp h2).1]
    rw [div_le_iff₀ hs20] at h6
    have h7 : 2 * M * s2 * w * Δ ≤ 1 * Δ := mul_le_mul_of_nonneg_right hMw hΔ0
    have h8 : Δ ≤ 2 * s2 * P.tol + 2 * s2 * M * w := by linarith only [h6, h7]
    have h9 : I * ((1 - q') * e) ≤ I * (2 * s2 * P.tol + 2 * s2 * M * w + D * R * w) := mul_le_mul_of_nonneg_left (by linarith) hI0
    have h10 : e ≤ I * (2 * s2 * P.tol + 2 * s2 * M * w + D * R * w) := by rwa [← mul_assoc, hII, one_mul] at h9
    have h11 : q' * e ≤ e := mul_le_of_le_one_left (norm_nonneg _) hq'1.le
    have h12 := mul_le_mul_of_nonneg_right (show I * (2 * s2) ≤ C by rw [hC]; linarith) htol
    have h13 := hle (I * (2 * s2 * M + D * R) + D * R) (by rw [hC]; linarith)
    linarith
  · intro hfail
    show (flPgLoop rd P P.maxIter 0 P.x0).nit = _
    rw [hknit, (hkf hfail).1, zero_add]
  · intro htol
    obtain ⟨a, ha⟩ : ∃ a, a = 2 * (s1⁻¹ + M) * ‖(WithLp.toLp 2 P.x0 : ℓ²) - xs‖ := ⟨_, rfl⟩
    have ha0 : 0 ≤ a := by rw [ha]; positivity
    have htol0 : 0 < P.tol := lt_of_le_of_lt (by rw [hC]; positivity) htol
    obtain ⟨N, hN⟩ : ∃ N : ℕ, a * q' ^ N < P.tol / 2 := by
      obtain ⟨N, hN⟩ := exists_pow_lt_of_lt_one (show 0 < P.tol / 2 / (a + 1) by positivity) hq'1
      refine ⟨N, ?_⟩
      rw [lt_div_iff₀ (by linarith)] at hN
      have : 0 ≤ q' ^ N := by positivity
      calc a * q' ^ N ≤ q' ^ N * (a + 1) := by ring_nf; exact le_add_of_nonneg_right this
        _ < _ := hN
    refine ⟨N, fun m hm => ?_⟩
    by_contra hcon
    have hfalse : (flMinimizePG rd { P with maxIter := m }).success = false := by simpa using hcon
    obtain ⟨k, -, -, -, -, -, -, hkf⟩ := flPgLoop_spec rd { P with maxIter := m } m 0 P.x0 rfl
    obtain ⟨hk, hall⟩ := hkf hfalse
    have horb_eq : ∀ i, flPgOrbit rd { P with maxIter := m } i = flPgOrbit rd P i := by
      intro i
      induction i with
      | zero => rfl
      | succ i ih => show flPgNext rd P i _ = flPgNext rd P i _; rw [ih]
    have hNN := hall N (Nat.zero_le _) (by omega)
    rw [horb_eq, horb_eq] at hNN
    apply hNN
    show flPgCert rd P N (flPgOrbit rd P N) (flPgOrbit rd P (N + 1)) < P.tol
    have h2 := (abs_le.mp (hcert N)).2
    have h3 := (hnext N (flPgOrbit rd P N)).1
    change ‖(WithLp.toLp 2 (flPgOrbit rd P (N + 1)) : ℓ²) - xs‖ ≤ _ at h3
    have h4 := horb N
    have hsk := hst N
    have hstep0 : 0 < P.step N := by linarith
    have h5 : ‖(WithLp.toLp 2 (flPgOrbit rd P N) : ℓ²) - WithLp.toLp 2 (flPgOrbit rd P (N + 1))‖ ≤
        ‖(WithLp.toLp 2 (flPgOrbit rd P N) : ℓ²) - xs‖ + ‖(WithLp.toLp 2 (flPgOrbit rd P (N + 1)) : ℓ²) - xs‖ := by
      rw [norm_sub_rev (WithLp.toLp 2 (flPgOrbit rd P (N + 1))) xs]
      exact norm_sub_le_norm_sub_add_norm_sub _ _ _
    have hΔ0 := norm_nonneg ((WithLp.toLp 2 (flPgOrbit rd P N) : ℓ²) - WithLp.toLp 2 (flPgOrbit rd P (N + 1)))
    have he0 := norm_nonneg ((WithLp.toLp 2 (flPgOrbit rd P N) : ℓ²) - xs)
    set Δ := ‖(WithLp.toLp 2 (flPgOrbit rd P N) : ℓ²) - WithLp.toLp 2 (flPgOrbit rd P (N + 1))‖
    set e := ‖(WithLp.toLp 2 (flPgOrbit rd P N) : ℓ²) - xs‖
    set e0 := ‖(WithLp.toLp 2 P.x0 : ℓ²) - xs‖
    have h6 : Δ / P.step N ≤ s1⁻¹ * Δ := by
      rw [div_eq_inv_mul]; exact mul_le_mul_of_nonneg_right (inv_anti₀ hs1 hsk.1) hΔ0
    have h7 : q' * e ≤ e := mul_le_of_le_one_left he0 hq'1.le
    have h8 : Δ ≤ 2 * (q' ^ N * e0) + (2 * F + D * R) * w := by linarith
    have h9 : M * w * Δ ≤ M * Δ := by
      have := mul_le_mul_of_nonneg_left hw1 hM0
      have := mul_le_mul_of_nonneg_right this hΔ0
      linarith
    have h10 := mul_le_mul_of_nonneg_left h8 (show 0 ≤ s1⁻¹ + M by positivity)
    have h11 := hle (2 * ((2 * F + D * R) * (s1⁻¹ + M) + M)) (by rw [hC]; linarith)
    have h12 : a * q' ^ N = (s1⁻¹ + M) * (2 * (q' ^ N * e0)) := by rw [ha]; ring
    linarith

/-! ### C119 -/

/-- **C119.** `minimize_proximal_gradient(f.f_grad, x0, pen.prox, step=…)` for a loss with `alpha > 0` and a penalty or constraint of the library, everything computed in rounded arithmetic:
matrix products with any order of the operations, the exponential to precision `w`, the proximal operator, the certificate.  The problem has a unique solution `xs`; for a constant `C` and
a factor `q < 1` which depend only on the data of the problem and on the range of the step sizes, and every arithmetic of precision `w` with `C w ≤ 1`, the result of a run is
within `q^(nit + 1) ‖x0 - xs‖ + C w` of `xs`; a result flagged as a success is within `C (tol + w)`; and for `tol > C w` every long enough run is a success. -/
theorem C119_rounded_regression (f : LossObj n d) (hf : f.Good) (hreg : 0 < f.reg) {sv : ℝ} (hsv : IsLargestSingular f.mat sv) (pen : PenObj d) (hpen : pen.FlGood)
    {s1 s2 : ℝ} (hs1 : 0 < s1) (h12 : s1 ≤ s2) (hs2 : s2 * f.lipschitz sv < 2) :
    ∃ xs ∈ pen.fn.dom, (∀ y ∈ pen.fn.dom, f.fn xs + pen.fn.val xs ≤ f.fn y + pen.fn.val y) ∧
      (∀ z ∈ pen.fn.dom, (∀ y ∈ pen.fn.dom, f.fn z + pen.fn.val z ≤ f.fn y + pen.fn.val y) → z = xs) ∧
      ∃ C q, 0 < C ∧ 0 ≤ q ∧ q < 1 ∧ ∀ (rd fexp : ℝ → ℝ) (u eta w : ℝ), Rounding rd u eta → u ≤ w → eta ≤ w ^ 2 → (∀ t ≤ 0, |fexp t - Real.exp t| ≤ w) → C * w ≤ 1 →
        ∀ P : FlPGArgs d, (∀ k, s1 ≤ P.step k ∧ P.step k ≤ s2) → (∀ k x, f.FlGrad rd fexp x (P.grad k x)) → (∀ k v, pen.FlProx rd v (P.step k) (P.prox k v (P.step k))) →
          (∀ k v, FlNorm rd v (P.norm k v)) →
          ‖(WithLp.toLp 2 (flMinimizePG rd P).x : ℓ²) - xs‖ ≤ q ^ ((flMinimizePG rd P).nit + 1) * ‖(WithLp.toLp 2 P.x0 : ℓ²) - xs‖ + C * w ∧
          (0 ≤ P.tol → (flMinimizePG rd P).success = true → ‖(WithLp.toLp 2 (flMinimizePG rd P).x : ℓ²) - xs‖ ≤ C * (P.tol + w)) ∧
          ((flMinimizePG rd P).success = false → (flMinimizePG rd P).nit = P.maxIter) ∧
          (C * w < P.tol → ∃ N, ∀ m ≥ N, (flMinimizePG rd { P with maxIter := m }).success = true) := by
  obtain ⟨hstr, -, hq, -, -⟩ := C92_loss f hf hsv
  obtain ⟨hG, hp, -, -⟩ := C92_prox_exact pen hpen.good
  have hL : 0 < f.lipschitz sv := by
    obtain ⟨phi, phi', c, hc, hLc, -⟩ := f.erm_form hf
    rw [hLc]
    have : 0 ≤ c * (sv * sv) / n := by have := mul_self_nonneg sv; positivity
    linarith
  obtain ⟨xs, hxs, hmin, huniq⟩ := exists_minimiser hreg hL hstr hq hG hp
  refine ⟨xs, hxs, hmin, huniq, ?_⟩
  have hs20 : 0 ≤ s2 := by linarith
  obtain ⟨K1, hK1, g1⟩ := f.flGrad_error hf
  obtain ⟨K2, hK2, g2⟩ := pen.flProx_error hpen hs1 h12
  obtain ⟨K, hK⟩ : ∃ K, K = K1 + K2 + (12 * d + 2) := ⟨_, rfl⟩
  have hK0 : 0 ≤ K := by rw [hK]; positivity
  obtain ⟨C, q, hC, hq0, hq1, h⟩ := C118_rounded_proximal_gradient hG hp hreg hL hstr hq hxs hmin hs1 h12 hs2 hK0
  have hn0 : (0 : ℝ) ≤ n := Nat.cast_nonneg n
  have hd0 : (0 : ℝ) ≤ d := Nat.cast_nonneg d
  obtain ⟨C', hC'⟩ : ∃ C', C' = C + 4 * n + 4 * d + K2 + 10 := ⟨_, rfl⟩
  refine ⟨C', q, by rw [hC']; linarith, hq0, hq1, ?_⟩
  intro rd fexp u eta w hr hu he hexp hCw P hst hgr hpr hno
  have hw0 : 0 ≤ w := hr.u_nonneg.trans hu
  have hnw : 0 ≤ n * w := by positivity
  have hdw : 0 ≤ d * w := by positivity
  have hCw0 : 0 ≤ C * w := by positivity
  have hKw0 : 0 ≤ K2 * w := by positivity
  rw [hC', add_mul, add_mul, add_mul, add_mul] at hCw
  have hsc : Scale rd u eta w 1 := ⟨hr, hu, he, hw0, by linarith, le_rfl⟩
  have hO : FlOracles P f.gradE pen.proxE K w := by
    have mono : ∀ k, 0 ≤ k → k ≤ K → ∀ v : Fin d → ℝ, k * w * (1 + norm2 v) ≤ K * w * (1 + norm2 v) := fun k _ hk v =>
      mul_le_mul_of_nonneg_right (mul_le_mul_of_nonneg_right hk hw0) (by linarith [norm2_nonneg' v])
    refine ⟨fun k x j => ?_, fun k v j => ?_, fun k v => ?_⟩
    · exact (g1 rd u eta w hsc (by linarith) (by linarith) (by linarith) fexp hexp x _ (hgr k x) j).trans (mono _ hK1 (by rw [hK]; linarith) x)
    · exact (g2 rd u eta w hsc (by linarith) (by linarith) v _ _ (hst k).1 (hst k).2 (hpr k v) j).trans (mono _ hK2 (by rw [hK]; linarith) v)
    · exact (flNorm_error hsc (by linarith) (hno k v)).trans (mono _ (by linarith) (by rw [hK]; linarith) v)
  obtain ⟨c1, c2, c3, c4⟩ := h rd u eta w hr hu he (by linarith) P hst hO
  have hCC : C * w ≤ C' * w := mul_le_mul_of_nonneg_right (by rw [hC']; linarith) hw0
  refine ⟨c1.trans (by linarith), fun h0 hsu => (c2 h0 hsu).trans ?_, c3, fun ht => c4 (by linarith)⟩
  exact mul_le_mul_of_nonneg_right (by rw [hC']; linarith) (by linarith)

/-! ### Instances -/

theorem exists_flDot (rd : ℝ → ℝ) : ∀ l : List (ℝ × ℝ), l ≠ [] → ∃ r, FlDot rd l r
  | [], h => (h rfl).elim
  | [p], _ => ⟨_, FlDot.single p.1 p.2⟩
  | p :: p' :: l, _ => by
    obtain ⟨r, hr⟩ := exists_flDot rd (p' :: l) (by simp)
    exact ⟨_, FlDot.fma p.1 p.2 hr⟩

theorem exists_flDot_vec (rd : ℝ → ℝ) {m : ℕ} (hm : 0 < m) (g : Fin m → ℝ × ℝ) : ∃ r, FlDot rd (List.ofFn g) r :=
  exists_flDot rd _ (by intro h; have := congrArg List.length h; simp at this; omega)

theorem exists_flErmGrad (rd : ℝ → ℝ) (hn : 0 < n) (hd : 0 < d) (A : Fin n → Fin d → ℝ) (alpha : ℝ) (deriv : Fin n → ℝ → ℝ) (x : Fin d → ℝ) : ∃ g, FlErmGrad rd A alpha deriv x g := by
  choose p hp using fun i => exists_flDot_vec rd hd fun j => (A i j, x j)
  choose q hq using fun j => exists_flDot_vec rd hn fun i => (A i j, deriv i (p i))
  exact ⟨_, p, q, hp, hq, fun j => rfl⟩

theorem LossObj.exists_flGrad (rd fexp : ℝ → ℝ) (hn : 0 < n) (hd : 0 < d) (f : LossObj n d) (x : Fin d → ℝ) : ∃ g, f.FlGrad rd fexp x g := by
  cases f with
  | log f => exact exists_flErmGrad rd hn hd _ _ _ x
  | square f => exact exists_flErmGrad rd hn hd f.A f.alpha (fun i p => rd (p - f.b i)) x
  | huber f =>
    have h0 : ∀ l, ∃ r, FlDot0 rd l r := fun l => by
      by_cases h : l = []
      · exact ⟨0, Or.inl ⟨h, rfl⟩⟩
      · obtain ⟨r, hr⟩ := exists_flDot rd l h
        exact ⟨r, Or.inr hr⟩
    choose p hp using fun i => exists_flDot_vec rd hd fun j => (f.A i j, x j)
    choose q hq using fun (j : Fin d) => h0 _
    choose q' hq' using fun (j : Fin d) => h0 _
    exact ⟨_, p, q, q', hp, hq, hq', fun j => rfl⟩

theorem exists_flNorm (rd : ℝ → ℝ) (hd : 0 < d) (v : Fin d → ℝ) : ∃ s, FlNorm rd v s := by
  obtain ⟨q, hq⟩ := exists_flDot_vec rd hd fun j => (v j, v j)
  exact ⟨_, q, hq, rfl⟩

theorem PenObj.exists_flProx (rd : ℝ → ℝ) (hd : 0 < d) (pen : PenObj d) (hp : pen.FlGood) (v : Fin d → ℝ) (s : ℝ) : ∃ p, pen.FlProx rd v s p := by
  cases pen with
  | l1Norm alpha => exact ⟨_, rfl⟩
  | groupL1 alpha groups =>
    have : ∀ g : List ℕ, ∃ s, g ∈ groups → FlNorm rd (takeIdx v g) s := fun g => by
      by_cases hg : g ∈ groups
      · obtain ⟨s, hs⟩ := exists_flNorm rd (List.length_pos_of_ne_nil (hp.2.1.1 g hg).1) (takeIdx v g)
        exact ⟨s, fun _ => hs⟩
      · exact ⟨0, fun h => absurd h hg⟩
    choose norm hnorm using this
    exact ⟨_, hp.2.2, norm, fun g hg => hnorm g hg, rfl⟩
  | linfBall alpha => exact ⟨_, rfl⟩
  | l2Ball alpha =>
    obtain ⟨N, hN⟩ := exists_flNorm rd hd v
    exact ⟨_, N, hN, rfl⟩
  | _ => exact hp.elim

/-- C117 in double precision. -/
example : ∃ P, IsProx (fun y => 1 * norm1 y) 1 ![2, -1] P ∧ ∀ j, |L1Norm.flProx fl64 1 ![2, -1] 1 j - P j| ≤ 2⁻¹ ^ 53 * (|(![2, -1] : Fin 2 → ℝ) j| + 1 * 1) + 2 * 2⁻¹ ^ 1075 := by
  refine (C117_l1_prox_rounded (fl64_rounding (by positivity)) zero_le_one zero_le_one _ ?_).2.2.2
  have h1 : fl64 1 = 1 := by exact_mod_cast fl64_small (m := 1) (by norm_num) (by norm_num)
  have h2 : fl64 2 = 2 := by exact_mod_cast fl64_small (m := 2) (by norm_num) (by norm_num)
  intro j; fin_cases j
  · exact h2
  · show fl64 (-1) = -1
    rw [fl64_neg, h1]

/-- C118 and C119 for every loss, data set and penalty: rounding to `p + 1` bits for every large enough `p`, with step `s1` and the results of a sequential implementation with fused
multiply-add instructions.  Runs of any length end close to the solution, and with a fixed positive tolerance they succeed. -/
example (hn : 0 < n) (hd : 0 < d) (f : LossObj n d) (hf : f.Good) (hreg : 0 < f.reg) {sv : ℝ} (hsv : IsLargestSingular f.mat sv) (pen : PenObj d) (hpen : pen.FlGood) (x0 : Fin d → ℝ)
    {tol s1 : ℝ} (htol : 0 < tol) (hs1 : 0 < s1) (hs2 : s1 * f.lipschitz sv < 2) : ∃ xs, (∀ y ∈ pen.fn.dom, f.fn xs + pen.fn.val xs ≤ f.fn y + pen.fn.val y) ∧
      ∃ C p0, ∀ p ≥ p0, ∃ P : FlPGArgs d, P.x0 = x0 ∧ P.tol = tol ∧ (∀ k x, f.FlGrad (flBits p) (fun t => flBits p (Real.exp t)) x (P.grad k x)) ∧
        ∃ N, ∀ m ≥ N, (flMinimizePG (flBits p) { P with maxIter := m }).success = true ∧
          ‖(WithLp.toLp 2 (flMinimizePG (flBits p) { P with maxIter := m }).x : ℓ²) - xs‖ ≤ C * (tol + 2⁻¹ ^ p) := by
  obtain ⟨xs, -, hmin, -, C, q, hC, -, -, h⟩ := C119_rounded_regression f hf hreg hsv pen hpen hs1 le_rfl hs2
  obtain ⟨p0, hp0⟩ := exists_pow_lt_of_lt_one (show 0 < min 1 tol / C by have := lt_min one_pos htol; positivity) (show (2⁻¹ : ℝ) < 1 by norm_num)
  refine ⟨xs, hmin, C, p0, fun p hp => ?_⟩
  have hw : (2⁻¹ : ℝ) ^ p * C < min 1 tol := by
    rw [← lt_div_iff₀ hC]
    exact lt_of_le_of_lt (pow_le_pow_of_le_one (by norm_num) (by norm_num) hp) hp0
  have hpos : (0 : ℝ) < 2⁻¹ ^ p := by positivity
  have hhalf : (2⁻¹ : ℝ) ^ (p + 1) = 2⁻¹ ^ p / 2 := by rw [pow_succ]; ring
  have hr := flBits_rounding (p := p) (eta := 0) le_rfl
  choose gr hgr using fun x => f.exists_flGrad (flBits p) (fun t => flBits p (Real.exp t)) hn hd x
  choose pr hpr using fun v => pen.exists_flProx (flBits p) hd hpen v s1
  choose no hno using fun v : Fin d → ℝ => exists_flNorm (flBits p) hd v
  have key : ∀ m, _ := fun m => h (flBits p) (fun t => flBits p (Real.exp t)) (2⁻¹ ^ (p + 1)) 0 (2⁻¹ ^ p) hr (by rw [hhalf]; linarith) (by positivity) (fun t ht => by
      have h1 := hr.err (Real.exp t)
      rw [abs_of_pos (Real.exp_pos t), add_zero] at h1
      have h2 : Real.exp t ≤ 1 := Real.exp_le_one_iff.mpr ht
      have h3 := mul_le_mul_of_nonneg_left h2 (show (0 : ℝ) ≤ 2⁻¹ ^ (p + 1) by positivity)
      rw [hhalf] at h1 h3
      linarith) (by linarith [min_le_left 1 tol])
    ⟨fun _ => gr, fun _ v _ => pr v, fun _ => no, fun _ => s1, x0, tol, m⟩ (fun _ => ⟨le_rfl, le_rfl⟩) (fun _ => hgr) (fun _ => hpr) (fun _ => hno)
  refine ⟨⟨fun _ => gr, fun _ v _ => pr v, fun _ => no, fun _ => s1, x0, tol, 0⟩, rfl, rfl, fun _ => hgr, ?_⟩
  obtain ⟨N, hN⟩ := (key 0).2.2.2 (show C * 2⁻¹ ^ p < tol by linarith [min_le_right 1 tol])
  exact ⟨N, fun m hm => ⟨hN m hm, (key m).2.1 htol.le (hN m hm)⟩⟩

/-- The elastic net with data `(3, 4)`, target `0`, `alpha = 1/2`: the hypotheses of C119 hold with steps between `1/51` and `2/51`. -/
example : (LossObj.square ⟨fun _ : Fin 1 => ![3, 4], ![0], 1 / 2⟩).Good ∧ 0 < (LossObj.square ⟨fun _ : Fin 1 => ![3, (4 : ℝ)], ![0], 1 / 2⟩).reg ∧
    IsLargestSingular (LossObj.square ⟨fun _ : Fin 1 => ![3, 4], ![0], 1 / 2⟩).mat 5 ∧ (PenObj.l1Norm (d := 2) 1).FlGood ∧
    2 / 51 * (LossObj.square ⟨fun _ : Fin 1 => ![3, (4 : ℝ)], ![0], 1 / 2⟩).lipschitz 5 < 2 := by
  refine ⟨by show (0 : ℝ) ≤ 1 / 2; norm_num, by show (0 : ℝ) < 1 / 2; norm_num, largestSingular_example, by show (0 : ℝ) ≤ 1; norm_num, ?_⟩
  show 2 / 51 * (5 * 5 / ((1 : ℕ) : ℝ) + 1 / 2) < 2
  norm_num

end Copt
