import Verif.Proof.FloatVR
import Verif.Proof.FloatSaga

/-! # C126, C127: SVRG and SAGA with rounded arithmetic -/

set_option linter.unusedSectionVars false

namespace Copt

open Spec

variable {n p : ℕ} {P : VRArgs ℝ n p} {pen : Fin P.blocks.nb → (Fin p → ℝ) → ℝ} {f : ℝ → ℝ → ℝ} {M R D : ℝ}

theorem flMinimizeSvrg_of_loop {fl : ℝ → ℝ} {sum : ℕ → (Fin p → ℝ) → ℝ} {fd : ℝ → ℝ → ℝ} {fp : SparseProx ℝ p} {order : ℕ → List ℕ} {tol : ℝ} {maxIter : ℕ}
    (hp : 0 < p) (hq : PenProblem P pen f M R D) (hP : P.Good) {step : ℝ} (hss : P.stepSize = some step) {S : Support n P.blocks.nb}
    (hS : P.support = some S) (hok : SupportOk P.A hP.blocks S) {k : ℕ} (hk : maxIter = k + 1) {r : VRResult ℝ p (SvrgState ℝ p)}
    (hr : flSvrgLoop fl sum (P.flWith fd fp order tol maxIter) S step k 0 { x := P.x0, tmp := fun _ => 0 } = some r) :
    flMinimizeSvrg fl sum (P.flWith fd fp order tol maxIter) = .ok r := by
  have hS' : (P.flWith fd fp order tol maxIter).support = some S := hS
  unfold flMinimizeSvrg
  rw [hss, hS']
  subst hk
  simp only [orFault, bind, Except.bind]
  rw [if_neg (hq.support_ne_nil hP hp hok), hr]

/-- A recursion `v' ≤ v / q + e` started at `v0`. -/
theorem geo_step {q v v' e v0 E : ℝ} {k : ℕ} (hq : 1 < q) (hE : e * q ≤ E * (q - 1)) (h1 : v ≤ v0 / q ^ k + E) (h2 : v' ≤ v / q + e) : v' ≤ v0 / q ^ (k + 1) + E := by
  have hq0 : 0 < q := by linarith
  have h3 : v / q ≤ (v0 / q ^ k + E) / q := div_le_div_of_nonneg_right h1 hq0.le
  have h4 : E / q + e ≤ E := by
    have : E / q + e = (E + e * q) / q := by field_simp
    rw [this, div_le_iff₀ hq0]
    linarith
  rw [add_div, div_div, ← pow_succ] at h3
  linarith

/-- **C126.** (Concrete case: `C128_svrg`, with its examples.) `minimize_svrg` with rounded arithmetic, any block structure and any convex block penalty, passes in any order, when every sample stores all the features of the blocks it
touches and the computed derivative and proximal operator have errors of the order of the precision.  There is a constant, the same for all roundings, orders, tolerances and iteration limits,
such that once the precision is fine enough the run returns, the objective of the result exceeds the minimum by at most a geometrically decreasing term plus `C` times the precision, success
guarantees an accuracy of the order of `tol` plus the precision, and without success all passes were made and `tol` is below a bound of the order of the square root of the remaining error. -/
theorem C126_rounded_svrg (hp : 0 < p) (hP : P.Good) (hq : PenProblem P pen f M R D) (hfull : FullBlocks P) {step : ℝ} (hss : P.stepSize = some step)
    (hstep : 0 < step) (hs1 : 10 * n * (M * R + P.alpha) * (step * D) ≤ 1) {xs : Fin p → ℝ} {mu : ℝ} (hmu : 0 < mu)
    (hgrow : ∀ y, vrObj P pen f xs + mu / 2 * sqDist y xs ≤ vrObj P pen f y) {K : ℝ} (hK : 0 ≤ K) :
    ∃ C, 0 ≤ C ∧ ∀ (fl : ℝ → ℝ) (u eta w : ℝ) (fd : ℝ → ℝ → ℝ) (fp : SparseProx ℝ p) (sum : ℕ → (Fin p → ℝ) → ℝ) (order : ℕ → List ℕ) (tol : ℝ) (maxIter : ℕ),
      Scale fl u eta w 1 → C * w ≤ 1 → FlVROracles P step fl fd fp K w → (∀ k v, FlSum fl (List.ofFn v) (sum k v)) → (∀ k, (order k).Perm (List.range n)) → 0 ≤ tol → 0 < maxIter →
      ∃ r, flMinimizeSvrg fl sum (P.flWith fd fp order tol maxIter) = .ok r ∧ r.nit < maxIter ∧
        vrObj P pen f r.x - vrObj P pen f xs ≤ (vrObj P pen f P.x0 - vrObj P pen f xs) / (1 + mu * step / (20 * D)) ^ (r.nit + 1) + C * w ∧
        (r.success = true → vrObj P pen f r.x - vrObj P pen f xs ≤ C * (tol + w)) ∧
        (r.success = false → r.nit + 1 = maxIter ∧
          tol ≤ C * √((vrObj P pen f P.x0 - vrObj P pen f xs) / (1 + mu * step / (20 * D)) ^ r.nit + w)) := by
  obtain ⟨S, hS, hok⟩ := hP.support
  have hD1 := hq.D_one hP hp
  have hD0 : 0 < D := by linarith
  set Fs := vrObj P pen f xs with hFsdef
  obtain ⟨V, hV⟩ : ∃ V, V = vrObj P pen f P.x0 - Fs := ⟨_, rfl⟩
  obtain ⟨q, hqd⟩ : ∃ q, q = 1 + mu * step / (20 * D) := ⟨_, rfl⟩
  have hq1 : 0 < q - 1 := by rw [hqd]; simp only [add_sub_cancel_left]; positivity
  have hq0 : 0 < q := by linarith
  have hFs : ∀ y, Fs ≤ vrObj P pen f y := fun y => by
    have := hgrow y
    have h0 : 0 ≤ sqDist y xs := Finset.sum_nonneg fun c _ => sq_nonneg _
    have := mul_nonneg (by linarith : 0 ≤ mu / 2) h0
    linarith
  have hV0 : 0 ≤ V := by rw [hV]; exact sub_nonneg.mpr (hFs _)
  obtain ⟨C, hC, hpass⟩ := svrg_pass_fl hp hP hq hfull hok hstep hs1 hmu hgrow hK (V + 1)
  obtain ⟨A, hA⟩ : ∃ A, A = C * q / (q - 1) := ⟨_, rfl⟩
  have hA0 : 0 ≤ A := by rw [hA]; positivity
  have hAq : A * (q - 1) = C * q := by rw [hA]; field_simp
  obtain ⟨Bt, hBt⟩ : ∃ Bt, Bt = √(p * n * (2 * (step * D))) := ⟨_, rfl⟩
  have hBt0 : 0 ≤ Bt := by rw [hBt]; exact Real.sqrt_nonneg _
  refine ⟨2 * C + A + C * (C + 1) + C + Bt * (A + 1) + 2 * C, by positivity, ?_⟩
  obtain ⟨E, hE⟩ : ∃ E, E = 2 * C + A + C * (C + 1) + C + Bt * (A + 1) + 2 * C := ⟨_, rfl⟩
  have n1 : 0 ≤ C * (C + 1) := by positivity
  have n2 : 0 ≤ Bt * (A + 1) := by positivity
  have hEge : C ≤ E ∧ A ≤ E ∧ C * (C + 1) + C ≤ E ∧ Bt * (A + 1) + 2 * C ≤ E := by
    rw [hE]; exact ⟨by linarith, by linarith, by linarith, by linarith⟩
  rw [← hE, ← hqd, ← hV]
  intro fl u eta w fd fp sum order tol maxIter hs hw1 hO hsum horder htol hmax
  have hw := hs.w_nonneg
  have hm : ∀ {a : ℝ}, a ≤ E → a * w ≤ E * w := fun h => mul_le_mul_of_nonneg_right h hw
  obtain ⟨k, rfl⟩ : ∃ k, maxIter = k + 1 := ⟨maxIter - 1, by omega⟩
  have hpow : ∀ j, 1 ≤ q ^ j := fun j => one_le_pow₀ (by linarith)
  let I : ℕ → SvrgState ℝ p → Prop := fun k st => vrObj P pen f st.x - Fs ≤ V / q ^ k + A * w
  let J : ℕ → SvrgState ℝ p → SvrgState ℝ p → Prop := fun k st st' =>
    vrObj P pen f st'.x - Fs ≤ C * (∑ c, |st'.x c - st.x c| + w) ∧
      ∑ c, |st'.x c - st.x c| ≤ √(p * n * (2 * (step * D) * (vrObj P pen f st.x - Fs))) + C * w ∧
        ∀ s, FlSum fl (List.ofFn fun c => |fl (st'.x c - st.x c)|) s → abs (s - ∑ c, |st'.x c - st.x c|) ≤ C * w
  obtain ⟨r, hr, -, h2, h3, h4, prev, h5, ⟨h6, h7, h8⟩, h9, h10⟩ := flSvrgLoop_inv (fl := fl) (sum := sum) (P := P.flWith fd fp order tol (k + 1)) (S := S) (step := step) I J (by
    intro j st hst
    obtain ⟨avg', st', k1, k2, k3, k4⟩ := hpass fl u eta w fd fp order tol (k + 1) st (order j) hs ((hm hEge.1).trans hw1) hO (by
      have h1 : V / q ^ j ≤ V := div_le_self hV0 (hpow j)
      have h2 := (hm hEge.2.1).trans hw1
      have h3 : vrObj P pen f st.x - Fs ≤ V / q ^ j + A * w := hst
      linarith) (horder j)
    rw [← hqd] at k3
    refine ⟨avg', st', k1, k2, ?_, k4⟩
    exact geo_step (by linarith) (by rw [mul_right_comm, mul_right_comm A, hAq]) hst k3) k 0 { x := P.x0, tmp := fun _ => 0 } (by
      show vrObj P pen f P.x0 - Fs ≤ V / q ^ 0 + A * w
      rw [← hV, pow_zero, div_one]
      have := mul_nonneg hA0 hw
      linarith)
  have h8' := h8 _ (hsum r.nit _)
  refine ⟨r, flMinimizeSvrg_of_loop hp hq hP hss hS hok rfl hr, by omega, ?_, fun hsu => ?_, fun hfa => ?_⟩
  · rw [h3]
    have h4 : vrObj P pen f r.final.x - Fs ≤ V / q ^ (r.nit + 1) + A * w := h4
    linarith [hm hEge.2.1]
  · rw [h3]
    have k1 : sum r.nit (fun c => |fl (r.final.x c - prev.x c)|) < tol := h9 hsu
    have k2 := (abs_le.mp h8').1
    have k3 := mul_le_mul_of_nonneg_left (by linarith : ∑ c, |r.final.x c - prev.x c| + w ≤ tol + (C + 1) * w) hC
    have k4 := mul_le_mul_of_nonneg_right hEge.1 htol
    have k5 := hm (a := C * (C + 1)) (by linarith [hEge.2.2.1])
    linarith
  · obtain ⟨k1, k2⟩ := h10 hfa
    have k2 : tol ≤ sum r.nit (fun c => |fl (r.final.x c - prev.x c)|) := k2
    refine ⟨by omega, ?_⟩
    have k3 := (abs_le.mp h8').2
    have h5 : vrObj P pen f prev.x - Fs ≤ V / q ^ r.nit + A * w := h5
    have hVq : 0 ≤ V / q ^ r.nit := div_nonneg hV0 (pow_pos hq0 _).le
    obtain ⟨T, hT⟩ : ∃ T, T = V / q ^ r.nit + w := ⟨_, rfl⟩
    have hT0 : 0 ≤ T := by rw [hT]; linarith
    have hwT : w ≤ √T := by
      rw [← Real.sqrt_sq hw]
      refine Real.sqrt_le_sqrt ?_
      have : w ^ 2 ≤ w := by
        have := mul_le_mul_of_nonneg_left hs.w_le hw
        linarith [sq w]
      linarith
    have k4 : √(p * n * (2 * (step * D) * (vrObj P pen f prev.x - Fs))) ≤ Bt * (A + 1) * √T := by
      have e1 : √(p * n * (2 * (step * D) * (vrObj P pen f prev.x - Fs))) = Bt * √(vrObj P pen f prev.x - Fs) := by
        rw [hBt, ← Real.sqrt_mul (by positivity)]
        ring_nf
      rw [e1, mul_assoc]
      refine mul_le_mul_of_nonneg_left ?_ hBt0
      have e2 : (A + 1) * √T = √((A + 1) ^ 2 * T) := by rw [Real.sqrt_mul (sq_nonneg _), Real.sqrt_sq (by linarith)]
      rw [e2]
      refine Real.sqrt_le_sqrt (h5.trans ?_)
      rw [hT]
      have a1 := mul_nonneg hA0 hVq
      have a2 := mul_nonneg hA0 hw
      have a3 := mul_nonneg (mul_nonneg hA0 hA0) hw
      have a4 := mul_nonneg (mul_nonneg hA0 hA0) hVq
      linarith
    have k5 : C * w ≤ C * √T := mul_le_mul_of_nonneg_left hwT hC
    have k6 : (Bt * (A + 1) + 2 * C) * √T ≤ E * √T := mul_le_mul_of_nonneg_right hEge.2.2.2 (Real.sqrt_nonneg _)
    rw [← hT]
    linarith

theorem flMinimizeSaga_of_loop {fl : ℝ → ℝ} {sum : ℕ → (Fin p → ℝ) → ℝ} {fd : ℝ → ℝ → ℝ} {fp : SparseProx ℝ p} {order : ℕ → List ℕ} {tol : ℝ} {maxIter : ℕ}
    (hp : 0 < p) (hq : PenProblem P pen f M R D) (hP : P.Good) {step : ℝ} (hss : P.stepSize = some step) {S : Support n P.blocks.nb}
    (hS : P.support = some S) (hok : SupportOk P.A hP.blocks S) {k : ℕ} (hk : maxIter = k + 1) {r : VRResult ℝ p (SagaState ℝ n p)}
    (hr : flSagaLoop fl sum (P.flWith fd fp order tol maxIter) S step k 0 (sagaInit P) = some r) :
    flMinimizeSaga fl sum (P.flWith fd fp order tol maxIter) = .ok r := by
  have hS' : (P.flWith fd fp order tol maxIter).support = some S := hS
  have hi : sagaInit (P.flWith fd fp order tol maxIter) = sagaInit P := rfl
  unfold flMinimizeSaga
  rw [hss, hS', hi]
  subst hk
  simp only [orFault, bind, Except.bind]
  rw [if_neg (hq.support_ne_nil hP hp hok), hr]

theorem sagaFix_clean {st : SagaState ℝ n p} (h : st.tmp = fun _ => 0) : SagaClean P (sagaFix P st) := ⟨fun _ => rfl, h⟩

theorem sagaFix_init : sagaFix P (sagaInit P) = sagaInit P := by
  unfold sagaFix sagaInit
  congr 1
  funext c
  simp [memMean]

/-- `(√Q + κ m)²` exceeds `Q` by a multiple of `m`. -/
theorem sq_excess {Q Qm κ m : ℝ} (hQ : 0 ≤ Q) (hQm : Q ≤ Qm) (hκ : 0 ≤ κ) (hm : 0 ≤ m) (hm1 : m ≤ 1) : (√Q + m * κ) ^ 2 ≤ Q + (2 * √Qm * κ + κ ^ 2) * m := by
  have h1 : √Q ≤ √Qm := Real.sqrt_le_sqrt hQm
  have h2 := Real.sq_sqrt hQ
  have h3 := mul_le_mul_of_nonneg_right h1 (mul_nonneg hκ hm)
  have h4 := mul_le_mul_of_nonneg_right hm1 (mul_nonneg (sq_nonneg κ) hm)
  nlinarith

set_option maxHeartbeats 1600000 in
/-- **C127.** (Concrete case: `C128_saga`, with its examples.) `minimize_saga` with rounded arithmetic, any block structure and any convex block penalty, passes in any order, when the computed derivative and proximal operator have errors of
the order of the precision.  There is a constant, the same for all roundings, orders, tolerances and iteration limits, such that once the precision is fine enough for the number of passes the
run returns; the objective of the result exceeds the minimum by at most a geometrically decreasing term plus `C` times the precision times the number of passes made; the stored average differs
from the mean of the stored gradients by at most the same amount; and without success all passes were made and `tol` is below a bound of the order of the square root of the remaining error. -/
theorem C127_rounded_saga (hp : 0 < p) (hP : P.Good) (hq : PenProblem P pen f M R D) {step : ℝ} (hss : P.stepSize = some step)
    (hstep : 0 < step) (hs1 : 10 * n * (M * R + P.alpha) * (step * D) ≤ 1) {xs : Fin p → ℝ} {mu : ℝ} (hmu : 0 < mu) (hmuL : mu ≤ M * R + P.alpha)
    (hgrow : ∀ y, vrObj P pen f xs + mu / 2 * sqDist y xs ≤ vrObj P pen f y) {K : ℝ} (hK : 0 ≤ K) {m : ℝ} (hm0 : 0 ≤ m)
    (hm : ∀ j : Fin n, |P.deriv (∑ c : Fin p, P.A.ent j c * P.x0 c) (P.b j)| * √(∑ c : Fin p, P.A.ent j c ^ 2) ≤ m) :
    ∃ C, 0 ≤ C ∧ ∀ (fl : ℝ → ℝ) (u eta w : ℝ) (fd : ℝ → ℝ → ℝ) (fp : SparseProx ℝ p) (sum : ℕ → (Fin p → ℝ) → ℝ) (order : ℕ → List ℕ) (tol : ℝ) (maxIter : ℕ),
      Scale fl u eta w 1 → C * maxIter * w ≤ 1 → FlVROracles P step fl fd fp K w → (∀ k v, FlSum fl (List.ofFn v) (sum k v)) → (∀ k, (order k).Perm (List.range n)) → 0 < maxIter →
      ∃ r, flMinimizeSaga fl sum (P.flWith fd fp order tol maxIter) = .ok r ∧ r.nit < maxIter ∧ r.x = r.final.x ∧
        vrObj P pen f r.x - vrObj P pen f xs ≤
          (vrObj P pen f P.x0 - vrObj P pen f xs + 8 * n * (step * D) * m ^ 2) / (1 + mu * step / (40 * D)) ^ r.nit + C * (r.nit + 1) * w ∧
        (∀ c, |r.final.avg c - (∑ j, r.final.mem j * P.A.ent j c) / n| ≤ C * (r.nit + 1) * w) ∧ r.final.tmp = (fun _ => 0) ∧
        (r.success = false → r.nit + 1 = maxIter ∧
          tol ≤ C * √((vrObj P pen f P.x0 - vrObj P pen f xs + 8 * n * (step * D) * m ^ 2) / (1 + mu * step / (40 * D)) ^ (r.nit - 1) + (r.nit + 1) * w)) := by
  obtain ⟨S, hS, hok⟩ := hP.support
  have hD1 := hq.D_one hP hp
  have hD0 : 0 < D := by linarith
  have hn1 : (1 : ℝ) ≤ n := by exact_mod_cast hq.samples
  have hp0 : (0 : ℝ) ≤ p := Nat.cast_nonneg p
  have hgD : 0 < step * D := by positivity
  have hL0 : 0 < M * R + P.alpha := hmu.trans_le hmuL
  set Fs := vrObj P pen f xs with hFsdef
  obtain ⟨V, hV⟩ : ∃ V, V = vrObj P pen f P.x0 - Fs + 8 * n * (step * D) * m ^ 2 := ⟨_, rfl⟩
  obtain ⟨q, hqd⟩ : ∃ q, q = 1 + mu * step / (40 * D) := ⟨_, rfl⟩
  have hq1 : 0 < q - 1 := by rw [hqd]; simp only [add_sub_cancel_left]; positivity
  have hq0 : 0 < q := by linarith
  have hFs : ∀ y, Fs ≤ vrObj P pen f y := fun y => by
    have := hgrow y
    have h0 : 0 ≤ sqDist y xs := Finset.sum_nonneg fun c _ => sq_nonneg _
    have := mul_nonneg (by linarith : 0 ≤ mu / 2) h0
    linarith
  have hm8 : 0 ≤ 8 * n * (step * D) * m ^ 2 := by positivity
  have hV0 : 0 ≤ V := by rw [hV]; linarith [hFs P.x0]
  obtain ⟨Cd, E, Bm, hCd, hCE, hBm, hpass⟩ := saga_pass_fl hP hq hok hstep hD0 hmu hgrow hK (V := V + 2) (by linarith)
  have hE0 : 0 ≤ E := hCd.trans hCE
  obtain ⟨κ, hκ⟩ : ∃ κ, κ = 1 / ((M * R + P.alpha) * √n) := ⟨_, rfl⟩
  have hκ0 : 0 ≤ κ := by rw [hκ]; positivity
  obtain ⟨Bp, hBp⟩ : ∃ Bp, Bp = 1 / (step * D) / 4 := ⟨_, rfl⟩
  have hBp0 : 0 ≤ Bp := by rw [hBp]; positivity
  have hBpi : ∀ Q : ℝ, Q = 4 * (step * D) * (Bp * Q) := fun Q => by rw [hBp]; field_simp
  obtain ⟨c1, hc1⟩ : ∃ c1, c1 = Bp * (2 * √(4 * (step * D) * (V + 1)) * κ + κ ^ 2) := ⟨_, rfl⟩
  have hc10 : 0 ≤ c1 := by
    rw [hc1]
    have := Real.sqrt_nonneg (4 * (step * D) * (V + 1))
    positivity
  obtain ⟨A, hA⟩ : ∃ A, A = (c1 * E + E) * q / (q - 1) := ⟨_, rfl⟩
  have hcE : 0 ≤ c1 * E := by positivity
  have hA0 : 0 ≤ A := by rw [hA]; positivity
  have hAq : A * (q - 1) = (c1 * E + E) * q := by rw [hA]; field_simp
  have hAE : E ≤ A := by
    have h1 : E * (q - 1) ≤ A * (q - 1) := by
      rw [hAq]
      have := mul_nonneg hcE hq0.le
      linarith
    exact le_of_mul_le_mul_right h1 hq1
  obtain ⟨Bt, hBt⟩ : ∃ Bt, Bt = √(p * n * (4 * (step * D))) := ⟨_, rfl⟩
  have hBt0 : 0 ≤ Bt := by rw [hBt]; exact Real.sqrt_nonneg _
  have n2 : 0 ≤ Bt * (A + c1 * E + 1) := by positivity
  refine ⟨1 + A + c1 * E + Bt * (A + c1 * E + 1) + 2 * E, by positivity, ?_⟩
  obtain ⟨G, hG⟩ : ∃ G, G = 1 + A + c1 * E + Bt * (A + c1 * E + 1) + 2 * E := ⟨_, rfl⟩
  have hGge : 1 ≤ G ∧ A ≤ G ∧ c1 * E ≤ G ∧ Bt * (A + c1 * E + 1) + 2 * E ≤ G ∧ E ≤ G := by
    rw [hG]; exact ⟨by linarith, by linarith, by linarith, by linarith, by linarith⟩
  rw [← hG, ← hqd, ← hV]
  intro fl u eta w fd fp sum order tol maxIter hs hw1 hO hsum horder hmax
  have hw := hs.w_nonneg
  obtain ⟨N, rfl⟩ : ∃ N, maxIter = N + 1 := ⟨maxIter - 1, by omega⟩
  have hG0 : 0 ≤ G := by linarith
  have hsmall : ∀ {a : ℝ} {k : ℕ}, a ≤ G → k ≤ N → a * (k + 1) * w ≤ 1 := fun {a k} ha hk => by
    have hkN : (k : ℝ) ≤ N := by exact_mod_cast hk
    have h1 : (k + 1) * w ≤ (N + 1) * w := mul_le_mul_of_nonneg_right (by linarith) hw
    have h2 : a * ((k + 1) * w) ≤ G * ((k + 1) * w) := mul_le_mul_of_nonneg_right ha (by positivity)
    have h3 := mul_le_mul_of_nonneg_left h1 hG0
    push_cast at hw1
    linarith
  have hpow : ∀ j, 1 ≤ q ^ j := fun j => one_le_pow₀ (by linarith)
  have hVle : ∀ j, V / q ^ j ≤ V := fun j => div_le_self hV0 (hpow j)
  let I : ℕ → SagaState ℝ n p → Prop := fun k st => match k with
    | 0 => st = sagaInit P
    | k + 1 => st.tmp = (fun _ => 0) ∧ (∀ c, |st.avg c - memMean P st.mem c| ≤ Cd * (k + 1) * w) ∧ (∀ j, |st.mem j| ≤ Bm) ∧
        ∃ Wp Qp : ℝ, 0 ≤ Wp ∧ 0 ≤ Qp ∧ Wp ^ 2 ≤ n * Qp ∧ (∀ j, |st.mem j - P.gi st.x j| * ‖rowV P j‖ ≤ M * R * Wp + E * (k + 1) * w) ∧
          vrObj P pen f st.x - Fs + Bp * Qp ≤ V / q ^ k + A * (k + 1) * w
  let J : ℕ → SagaState ℝ n p → SagaState ℝ n p → Prop := fun k st st' =>
    (∑ c, |st'.x c - st.x c| ≤ √(p * n * (4 * (step * D) * (V / q ^ (k - 1) + (A + c1 * E) * (k + 1) * w))) + E * (k + 1) * w) ∧
        ∀ s, FlSum fl (List.ofFn fun c => |fl (st'.x c - st.x c)|) s → abs (s - ∑ c, |st'.x c - st.x c|) ≤ E * (k + 1) * w
  have hlift : ∀ k ≤ N, ∀ st, I k st → ∃ st', flSagaEpoch fl (P.flWith fd fp order tol (N + 1)) S step st (order k) = some st' ∧ I (k + 1) st' ∧ J k st st' := by
    intro k hk st hst
    have hEk := hsmall (k := k) hGge.2.2.2.2 hk
    have hAk := hsmall (k := k) hGge.2.1 hk
    cases k with
    | zero =>
      obtain rfl : st = sagaInit P := hst
      obtain ⟨t, h1, ⟨hcl, W, Q, hW, hQ, hWQ, hstale, hVt⟩, h3⟩ := saga_first hp hq hP hok hstep hs1 hFs hm0 hm (horder 0)
      rw [← hV] at hVt h3
      have hQp : 0 ≤ Bp * Q := mul_nonneg hBp0 hQ
      have hxx : (sagaInit P).x = P.x0 := rfl
      have hVt' : vrObj P pen f t.x - Fs + Bp * Q ≤ V := by rw [hBp]; exact hVt
      obtain ⟨t', k1, k2, k3, k4, k5, k6, k7, k8⟩ := hpass fl u eta w fd fp order tol (N + 1) (sagaInit P) t (order 0) 0 W Q _ hs hEk hO
        (by rw [hxx]; linarith) (fun j => by simpa [sagaInit] using hBm) rfl (fun c => by simp [sagaInit, memMean]) (horder 0) (by rw [sagaFix_init]; exact h1) hW hQ hWQ hstale
        (by rw [← hBp]; linarith) h3
      refine ⟨t', k1, ⟨k2, k3, k4, W, Q, hW, hQ, hWQ, k5, ?_⟩, k7.trans (add_le_add (Real.sqrt_le_sqrt ?_) le_rfl), k8⟩
      · rw [pow_zero, div_one]
        have := mul_le_mul_of_nonneg_right hAE (by positivity : 0 ≤ (((0 : ℕ) : ℝ) + 1) * w)
        linarith
      · refine mul_le_mul_of_nonneg_left (mul_le_mul_of_nonneg_left ?_ (by positivity)) (by positivity)
        rw [Nat.zero_sub, pow_zero, div_one]
        have : 0 ≤ (A + c1 * E) * (((0 : ℕ) : ℝ) + 1) * w := by positivity
        linarith
    | succ k =>
      obtain ⟨htmp, hdr, hmem, Wp, Qp, hWp, hQp, hWQ, hstale, hVa⟩ := hst
      obtain ⟨T, hT⟩ : ∃ T, T = ((k : ℝ) + 1) * w := ⟨_, rfl⟩
      have hT0 : 0 ≤ T := by rw [hT]; positivity
      have hk' : k ≤ N := by omega
      have hAT : A * T ≤ 1 := by have := hsmall (k := k) hGge.2.1 hk'; rw [hT]; linarith
      have hcT : c1 * E * T ≤ 1 := by have := hsmall (k := k) hGge.2.2.1 hk'; rw [hT]; linarith
      have hET : E * T ≤ 1 := by have := hsmall (k := k) hGge.2.2.2.2 hk'; rw [hT]; linarith
      rw [mul_assoc A, ← hT] at hVa
      simp only [mul_assoc E, ← hT] at hstale
      have hVk := hVle k
      have hBQ : 0 ≤ Bp * Qp := mul_nonneg hBp0 hQp
      have hQpm : Qp ≤ 4 * (step * D) * (V + 1) := by
        rw [hBpi Qp]
        exact mul_le_mul_of_nonneg_left (by linarith [hFs st.x]) (by positivity)
      obtain ⟨t, h1, W, Q, hW, hQ, hWQ', hstale', hVt, hdisp⟩ := saga_exact_pass hp hP hq hok hstep hs1 hmu hmuL hgrow (sagaFix P st) (sagaFix_clean htmp) hWp hQp hWQ
        (m := E * T) (by positivity) hstale (horder (k + 1))
      have hex := mul_le_mul_of_nonneg_left (sq_excess hQp hQpm hκ0 (mul_nonneg hE0 hT0) hET) hBp0
      have ekm : E * T / ((M * R + P.alpha) * √n) = E * T * κ := by rw [hκ]; ring
      have hxf : (sagaFix P st).x = st.x := rfl
      rw [← hqd, ← hBp, ekm, hxf] at hVt
      have hc1' : Bp * ((2 * √(4 * (step * D) * (V + 1)) * κ + κ ^ 2) * (E * T)) = c1 * E * T := by rw [hc1]; ring
      obtain ⟨a, ha⟩ : ∃ a, a = V / q ^ k + A * T + c1 * E * T := ⟨_, rfl⟩
      have hVta : q * (vrObj P pen f t.x - Fs + Bp * Q) ≤ a := by
        rw [mul_add, hc1'] at hex
        rw [ha]
        linarith
      have hBQ' : 0 ≤ Bp * Q := mul_nonneg hBp0 hQ
      have hVt0 : 0 ≤ vrObj P pen f t.x - Fs + Bp * Q := by linarith [hFs t.x]
      have hVta' : vrObj P pen f t.x - Fs + Bp * Q ≤ a := by
        have := mul_nonneg hq1.le hVt0
        linarith
      have ha2 : a ≤ V + 2 := by rw [ha]; linarith
      have hQa : Q ≤ 4 * (step * D) * a := by
        rw [hBpi Q]
        exact mul_le_mul_of_nonneg_left (by linarith [hFs t.x]) (by positivity)
      obtain ⟨t', k1, k2, k3, k4, k5, k6, k7, k8⟩ := hpass fl u eta w fd fp order tol (N + 1) st t (order (k + 1)) (k + 1) W Q _ hs hEk hO
        (by linarith) hmem htmp (fun c => by have := hdr c; push_cast; exact this) (horder (k + 1)) h1 hW hQ hWQ' hstale' (by rw [← hBp]; linarith) hdisp
      have hTT : T ≤ (((k + 1 : ℕ) : ℝ) + 1) * w := by rw [hT]; push_cast; linarith
      refine ⟨t', k1, ⟨k2, k3, k4, W, Q, hW, hQ, hWQ', k5, ?_⟩, k7.trans (add_le_add (Real.sqrt_le_sqrt ?_) le_rfl), k8⟩
      · obtain ⟨T2, hT2⟩ : ∃ T2, T2 = (((k + 1 : ℕ) : ℝ) + 1) * w := ⟨_, rfl⟩
        rw [mul_assoc E, ← hT2] at k6
        rw [mul_assoc A, ← hT2]
        rw [← hT2] at hTT
        have hT20 : 0 ≤ T2 := hT0.trans hTT
        refine geo_step (v := V / q ^ k + A * T2) (e := (c1 * E + E) * T2) (by linarith) (k := k) (v0 := V) (le_of_eq ?_) le_rfl ?_
        · rw [mul_right_comm, ← hAq]; ring
        · have g1 : vrObj P pen f t.x - Fs + Bp * Q ≤ a / q := by rw [le_div_iff₀ hq0]; linarith
          have g2 : a / q ≤ (V / q ^ k + A * T2) / q + c1 * E * T2 := by
            rw [div_add' _ _ _ hq0.ne', ha]
            refine div_le_div_of_nonneg_right ?_ hq0.le
            have g3 := mul_le_mul_of_nonneg_left hTT hA0
            have g4 := mul_le_mul_of_nonneg_left hTT hcE
            have g5 := mul_nonneg (mul_nonneg hcE hT20) hq1.le
            linarith
          linarith
      · rw [Nat.add_sub_cancel]
        refine mul_le_mul_of_nonneg_left (hQa.trans (mul_le_mul_of_nonneg_left ?_ (by positivity))) (by positivity)
        rw [ha, mul_assoc (A + c1 * E)]
        have := mul_le_mul_of_nonneg_left hTT (by positivity : 0 ≤ A + c1 * E)
        linarith
  obtain ⟨r, hr, -, h2, h3, h4, prev, h5, ⟨h6, h7⟩, h9, h10⟩ := flSagaLoop_inv (fl := fl) (sum := sum) (P := P.flWith fd fp order tol (N + 1)) (S := S) (step := step) (N := N) I J hlift
    N 0 (sagaInit P) (by omega) rfl
  obtain ⟨j1, j2, j3, Wp, Qp, -, hQp, -, -, j4⟩ : I (r.nit + 1) r.final := h4
  obtain ⟨T, hT⟩ : ∃ T, T = ((r.nit : ℝ) + 1) * w := ⟨_, rfl⟩
  have hT0 : 0 ≤ T := by rw [hT]; positivity
  have hm : ∀ {a : ℝ}, a ≤ G → a * T ≤ G * T := fun h => mul_le_mul_of_nonneg_right h hT0
  refine ⟨r, flMinimizeSaga_of_loop hp hq hP hss hS hok rfl hr, by omega, h3, ?_, fun c => ?_, j1, fun hfa => ?_⟩
  · rw [h3, mul_assoc G, ← hT]
    have := mul_nonneg hBp0 hQp
    have h1 := hm hGge.2.1
    rw [mul_assoc A, ← hT] at j4
    linarith
  · rw [mul_assoc G, ← hT]
    have h1 := j2 c
    rw [mul_assoc Cd, ← hT] at h1
    exact h1.trans (hm (hCE.trans hGge.2.2.2.2))
  · obtain ⟨k1, k2⟩ := h10 hfa
    have k2 : tol ≤ sum r.nit (fun c => |fl (r.final.x c - prev.x c)|) := k2
    refine ⟨by omega, ?_⟩
    have k3 := (abs_le.mp (h7 _ (hsum r.nit _))).2
    have hVq : 0 ≤ V / q ^ (r.nit - 1) := div_nonneg hV0 (pow_pos hq0 _).le
    obtain ⟨U, hU⟩ : ∃ U, U = V / q ^ (r.nit - 1) + T := ⟨_, rfl⟩
    have hT1 : T ≤ 1 := by have := hsmall (k := r.nit) hGge.1 h2; rw [hT]; linarith
    have hU0 : 0 ≤ U := by rw [hU]; linarith
    have hwT : T ≤ √U := by
      rw [← Real.sqrt_sq hT0]
      refine Real.sqrt_le_sqrt ?_
      have := mul_le_mul_of_nonneg_left hT1 hT0
      linarith [sq T]
    rw [mul_assoc (A + c1 * E), ← hT, mul_assoc E, ← hT] at h6
    rw [mul_assoc E, ← hT] at k3
    obtain ⟨H, hH⟩ : ∃ H, H = A + c1 * E := ⟨_, rfl⟩
    have hH0 : 0 ≤ H := by rw [hH]; positivity
    have k4 : √(p * n * (4 * (step * D) * (V / q ^ (r.nit - 1) + H * T))) ≤ Bt * (H + 1) * √U := by
      have e1 : √(p * n * (4 * (step * D) * (V / q ^ (r.nit - 1) + H * T))) = Bt * √(V / q ^ (r.nit - 1) + H * T) := by
        rw [hBt, ← Real.sqrt_mul (by positivity)]
        ring_nf
      rw [e1, mul_assoc]
      refine mul_le_mul_of_nonneg_left ?_ hBt0
      have e2 : (H + 1) * √U = √((H + 1) ^ 2 * U) := by rw [Real.sqrt_mul (sq_nonneg _), Real.sqrt_sq (by linarith)]
      rw [e2]
      refine Real.sqrt_le_sqrt ?_
      rw [hU]
      have a1 := mul_nonneg hH0 hVq
      have a2 := mul_nonneg hH0 hT0
      have a3 := mul_nonneg (mul_nonneg hH0 hH0) hT0
      have a4 := mul_nonneg (mul_nonneg hH0 hH0) hVq
      linarith
    rw [← hH] at h6
    have k5 : E * T ≤ E * √U := mul_le_mul_of_nonneg_left hwT hE0
    have k6 : (Bt * (H + 1) + 2 * E) * √U ≤ G * √U := mul_le_mul_of_nonneg_right (by rw [hH]; exact hGge.2.2.2.1) (Real.sqrt_nonneg _)
    rw [← hT, ← hU]
    linarith

end Copt
