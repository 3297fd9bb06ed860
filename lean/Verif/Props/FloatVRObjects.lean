import Verif.Props.FloatRandomized
import Verif.Proof.FloatVRObjects
import Verif.Props.FloatValue

/-! # C128: SAGA and SVRG with rounded arithmetic on the losses and penalties of the library -/

set_option linter.unusedSectionVars false

namespace Copt

open Spec

variable {n p : ℕ} (l : VRLoss) (A : Fin n → Fin p → ℝ) (b : Fin n → ℝ) (x0 : Fin p → ℝ) (pen : VRPen) {alpha step D : ℝ}

/-- **C128 (SVRG).** `minimize_svrg(f.partial_deriv, A, b, x0, step, prox=pen.prox_factory(p), alpha=alpha)` with every operation rounded, on a dense array, for the logistic and the squared loss, no
penalty, the l1 norm or the group lasso, in the setting of C100: up to `C` times the precision the objective decreases geometrically, success means an accuracy of the order of `tol` plus the
precision, and without success all passes were made and `tol` is of the order of the square root of the remaining error. -/
theorem C128_svrg (hn : 0 < n) (hp : 0 < p) (hb : l.Labels b) (hpen : pen.Good p) (hwhole : pen.Whole A) (halpha : 0 < alpha)
    (hD : ∀ c, (n : ℝ) ≤ D * (Finset.univ.filter fun i => A i c ≠ 0).card) (hstep : 0 < step) (hs1 : 10 * n * l.maxLipschitz A b alpha * (step * D) ≤ 1) {xs : Fin p → ℝ}
    (hxs : ∀ y, vrProblem l A b alpha pen xs ≤ vrProblem l A b alpha pen y) :
    ∃ C, 0 ≤ C ∧ ∀ (fl fexp : ℝ → ℝ) (u eta w : ℝ) (sum : ℕ → (Fin p → ℝ) → ℝ) (order : ℕ → List ℕ) (tol : ℝ) (maxIter : ℕ), Scale fl u eta w 1 → C * w ≤ 1 → FlExp fexp w →
      (∀ k v, FlSum fl (List.ofFn v) (sum k v)) → (∀ k, (order k).Perm (List.range n)) → 0 ≤ tol → 0 < maxIter →
      ∃ P r, flVrCall fl fexp l A b x0 (some step) pen alpha maxIter tol order = some P ∧ flMinimizeSvrg fl sum P = .ok r ∧ r.nit < maxIter ∧
        alpha / 2 * sqDist r.x xs ≤ vrProblem l A b alpha pen r.x - vrProblem l A b alpha pen xs ∧
        vrProblem l A b alpha pen r.x - vrProblem l A b alpha pen xs ≤
          (vrProblem l A b alpha pen x0 - vrProblem l A b alpha pen xs) / (1 + alpha * step / (20 * D)) ^ (r.nit + 1) + C * w ∧
        (r.success = true → vrProblem l A b alpha pen r.x - vrProblem l A b alpha pen xs ≤ C * (tol + w)) ∧
        (r.success = false → r.nit + 1 = maxIter ∧
          tol ≤ C * √((vrProblem l A b alpha pen x0 - vrProblem l A b alpha pen xs) / (1 + alpha * step / (20 * D)) ^ r.nit + w)) := by
  obtain ⟨P, penB, hcall, rfl, rfl, hss, -, -, -, hbb, hdd, hent, hgood, hq, hfull, hobj⟩ := vr_problem l A b x0 (some step) pen hpen halpha.le 0 0 (fun _ => []) hn hD
  have hgrow := (C100_minimiser l A b pen hb hpen halpha).2 xs hxs
  rw [l.maxLipschitz_eq] at hs1
  obtain ⟨K, hK, hfl⟩ := flVrCall_ok l A hb P.x0 hstep.le hpen P.alpha hcall
  obtain ⟨C, hC, h⟩ := C126_rounded_svrg hp hgood hq (hfull hwhole) hss hstep hs1 (xs := xs) halpha (fun y => by rw [hobj, hobj]; exact hgrow y) hK
  simp only [hobj] at h
  refine ⟨C + 10, by linarith, fun fl fexp u eta w sum order tol maxIter hs hw he hsum hord htol hmax => ?_⟩
  have hw0 := hs.w_nonneg
  have hCw := mul_nonneg hC hw0
  obtain ⟨fp, e1, e2⟩ := hfl fl fexp u eta w tol order maxIter hs (by linarith) he
  obtain ⟨r, h1, h2, h3, h4, h5⟩ := h fl u eta w _ fp sum order tol maxIter hs (by linarith) e2 hsum hord htol hmax
  refine ⟨_, r, e1, h1, h2, ?_, by linarith, fun hsu => (h4 hsu).trans (by linarith), fun hfa => ⟨(h5 hfa).1, (h5 hfa).2.trans ?_⟩⟩
  · have := hgrow r.x; linarith
  · exact mul_le_mul_of_nonneg_right (by linarith) (Real.sqrt_nonneg _)

/-- **C128 (SAGA).** The same for `minimize_saga`, without condition on the groups; the multiple of the precision grows with the number of passes, and the stored average stays that close to the
mean of the stored gradients. -/
theorem C128_saga (hn : 0 < n) (hp : 0 < p) (hb : l.Labels b) (hpen : pen.Good p) (halpha : 0 < alpha)
    (hD : ∀ c, (n : ℝ) ≤ D * (Finset.univ.filter fun i => A i c ≠ 0).card) (hstep : 0 < step) (hs1 : 10 * n * l.maxLipschitz A b alpha * (step * D) ≤ 1) {xs : Fin p → ℝ}
    (hxs : ∀ y, vrProblem l A b alpha pen xs ≤ vrProblem l A b alpha pen y) :
    ∃ C, 0 ≤ C ∧ ∀ (fl fexp : ℝ → ℝ) (u eta w : ℝ) (sum : ℕ → (Fin p → ℝ) → ℝ) (order : ℕ → List ℕ) (tol : ℝ) (maxIter : ℕ), Scale fl u eta w 1 → C * maxIter * w ≤ 1 → FlExp fexp w →
      (∀ k v, FlSum fl (List.ofFn v) (sum k v)) → (∀ k, (order k).Perm (List.range n)) → 0 < maxIter →
      ∃ P r, flVrCall fl fexp l A b x0 (some step) pen alpha maxIter tol order = some P ∧ flMinimizeSaga fl sum P = .ok r ∧ r.nit < maxIter ∧ r.x = r.final.x ∧
        alpha / 2 * sqDist r.x xs ≤ vrProblem l A b alpha pen r.x - vrProblem l A b alpha pen xs ∧
        vrProblem l A b alpha pen r.x - vrProblem l A b alpha pen xs ≤ (vrProblem l A b alpha pen x0 - vrProblem l A b alpha pen xs +
          8 / 5 * n * vrProblem l A b alpha pen x0) / (1 + alpha * step / (40 * D)) ^ r.nit + C * (r.nit + 1) * w ∧
        (∀ c, |r.final.avg c - (∑ j, r.final.mem j * A j c) / n| ≤ C * (r.nit + 1) * w) ∧
        (r.success = false → r.nit + 1 = maxIter ∧ tol ≤ C * √((vrProblem l A b alpha pen x0 - vrProblem l A b alpha pen xs +
          8 / 5 * n * vrProblem l A b alpha pen x0) / (1 + alpha * step / (40 * D)) ^ (r.nit - 1) + (r.nit + 1) * w)) := by
  have hDp := D_pos A hn hp hD
  obtain ⟨m, hm0, hm, hm8⟩ := first_gradients l A b x0 pen hb hpen halpha.le hn hstep hDp hs1
  obtain ⟨P, penB, hcall, rfl, rfl, hss, -, -, -, hbb, hdd, hent, hgood, hq, -, hobj⟩ := vr_problem l A b x0 (some step) pen hpen halpha.le 0 0 (fun _ => []) hn hD
  have hgrow := (C100_minimiser l A b pen hb hpen halpha).2 xs hxs
  rw [l.maxLipschitz_eq] at hs1
  obtain ⟨K, hK, hfl⟩ := flVrCall_ok l A hb P.x0 hstep.le hpen P.alpha hcall
  obtain ⟨C, hC, h⟩ := C127_rounded_saga hp hgood hq hss hstep hs1 (xs := xs) halpha (le_add_of_nonneg_left (mul_nonneg hq.nonneg hq.R_nonneg))
    (fun y => by rw [hobj, hobj]; exact hgrow y) hK hm0 (fun j => by
      rw [hbb, hdd]
      simp only [hent]
      exact hm j)
  simp only [hobj, hent] at h
  refine ⟨C + 10, by linarith, fun fl fexp u eta w sum order tol maxIter hs hw he hsum hord hmax => ?_⟩
  have hw0 := hs.w_nonneg
  have hmw : w ≤ maxIter * w := le_mul_of_one_le_left hw0 (by exact_mod_cast hmax)
  have hCw := mul_nonneg hC (hw0.trans hmw)
  obtain ⟨fp, e1, e2⟩ := hfl fl fexp u eta w tol order maxIter hs (by linarith) he
  obtain ⟨r, h1, h2, h3, h4, h5, -, h6⟩ := h fl u eta w _ fp sum order tol maxIter hs (by linarith) e2 hsum hord hmax
  have hT : 0 ≤ ((r.nit : ℝ) + 1) * w := by positivity
  have hq0 : ∀ k : ℕ, 0 < (1 + P.alpha * step / (40 * D)) ^ k := fun k => by positivity
  refine ⟨_, r, e1, h1, h2, h3, ?_, ?_, fun c => (h5 c).trans (by linarith), fun hfa => ⟨(h6 hfa).1, (h6 hfa).2.trans ?_⟩⟩
  · have := hgrow r.x; linarith
  · have := div_le_div_of_nonneg_right (add_le_add_right hm8 (vrProblem l A b P.alpha pen P.x0 - vrProblem l A b P.alpha pen xs)) (hq0 r.nit).le
    linarith
  · refine mul_le_mul (by linarith) (Real.sqrt_le_sqrt (add_le_add (div_le_div_of_nonneg_right (add_le_add_right hm8 _) (hq0 _).le) le_rfl)) (Real.sqrt_nonneg _) (by linarith)

/-- **C128 (success of SVRG).** With a fixed positive tolerance, every long enough run succeeds as soon as the precision is fine enough - the same for all lengths. -/
theorem C128_svrg_succeeds (hn : 0 < n) (hp : 0 < p) (hb : l.Labels b) (hpen : pen.Good p) (hwhole : pen.Whole A) (halpha : 0 < alpha)
    (hD : ∀ c, (n : ℝ) ≤ D * (Finset.univ.filter fun i => A i c ≠ 0).card) (hstep : 0 < step) (hs1 : 10 * n * l.maxLipschitz A b alpha * (step * D) ≤ 1) {xs : Fin p → ℝ}
    (hxs : ∀ y, vrProblem l A b alpha pen xs ≤ vrProblem l A b alpha pen y) {tol : ℝ} (htol : 0 < tol) :
    ∃ C, 0 ≤ C ∧ ∃ (w0 : ℝ) (N : ℕ), 0 < w0 ∧ ∀ (fl fexp : ℝ → ℝ) (u eta w : ℝ) (sum : ℕ → (Fin p → ℝ) → ℝ) (order : ℕ → List ℕ) (maxIter : ℕ), Scale fl u eta w 1 → w ≤ w0 → FlExp fexp w →
      (∀ k v, FlSum fl (List.ofFn v) (sum k v)) → (∀ k, (order k).Perm (List.range n)) → N ≤ maxIter →
      ∃ P r, flVrCall fl fexp l A b x0 (some step) pen alpha maxIter tol order = some P ∧ flMinimizeSvrg fl sum P = .ok r ∧ r.success = true ∧
        vrProblem l A b alpha pen r.x - vrProblem l A b alpha pen xs ≤ C * (tol + w) := by
  obtain ⟨C, hC, h⟩ := C128_svrg l A b x0 pen hn hp hb hpen hwhole halpha hD hstep hs1 hxs
  have hDp := D_pos A hn hp hD
  obtain ⟨q, hq⟩ : ∃ q, q = 1 + alpha * step / (20 * D) := ⟨_, rfl⟩
  have hq1 : 1 < q := by rw [hq]; have : 0 < alpha * step / (20 * D) := by positivity
                         linarith
  obtain ⟨V, hV⟩ : ∃ V, V = vrProblem l A b alpha pen x0 - vrProblem l A b alpha pen xs := ⟨_, rfl⟩
  have hV0 : 0 ≤ V := by rw [hV]; exact sub_nonneg.mpr (hxs _)
  obtain ⟨e, he⟩ : ∃ e, e = (tol / (C + 1)) ^ 2 / 4 := ⟨_, rfl⟩
  have he0 : 0 < e := by rw [he]; positivity
  obtain ⟨N, hN⟩ : ∃ N : ℕ, V / q ^ N ≤ e := by
    obtain ⟨N, hN⟩ := pow_unbounded_of_one_lt (V / e) hq1
    refine ⟨N, ?_⟩
    rw [div_le_iff₀ (by positivity)]
    rw [div_lt_iff₀ he0] at hN
    linarith
  refine ⟨C, hC, min e (1 / (C + 1)), N + 1, by positivity, fun fl fexp u eta w sum order maxIter hs hw hexp hsum hord hmax => ?_⟩
  have hw0 := hs.w_nonneg
  have hw1 := hw.trans (min_le_left _ _)
  have hw2 := hw.trans (min_le_right _ _)
  rw [le_div_iff₀ (by linarith)] at hw2
  obtain ⟨P, r, h1, h2, h3, h4, h5, h6, h7⟩ := h fl fexp u eta w sum order tol maxIter hs (by linarith) hexp hsum hord htol.le (by omega)
  refine ⟨P, r, h1, h2, ?_⟩
  cases hsu : r.success with
  | true => exact ⟨rfl, h6 hsu⟩
  | false =>
    exfalso
    obtain ⟨k1, k2⟩ := h7 hsu
    rw [← hq, ← hV] at k2
    have h8 : V / q ^ r.nit ≤ V / q ^ N := div_le_div_of_nonneg_left hV0 (by positivity) (pow_le_pow_right₀ hq1.le (by omega))
    have h9 : √(V / q ^ r.nit + w) ≤ √((tol / (C + 1)) ^ 2) := Real.sqrt_le_sqrt (by linarith [sq_nonneg (tol / (C + 1))])
    rw [Real.sqrt_sq (by positivity)] at h9
    have h10 := mul_le_mul_of_nonneg_left h9 hC
    have h11 : (C + 1) * (tol / (C + 1)) = tol := by field_simp
    have h12 : 0 < tol / (C + 1) := by positivity
    linarith

/-- **C128 (success of SAGA).** With a fixed positive tolerance there is a number of passes within which the run succeeds, once the precision is fine enough. -/
theorem C128_saga_succeeds (hn : 0 < n) (hp : 0 < p) (hb : l.Labels b) (hpen : pen.Good p) (halpha : 0 < alpha)
    (hD : ∀ c, (n : ℝ) ≤ D * (Finset.univ.filter fun i => A i c ≠ 0).card) (hstep : 0 < step) (hs1 : 10 * n * l.maxLipschitz A b alpha * (step * D) ≤ 1) {xs : Fin p → ℝ}
    (hxs : ∀ y, vrProblem l A b alpha pen xs ≤ vrProblem l A b alpha pen y) {tol : ℝ} (htol : 0 < tol) :
    ∃ N0 : ℕ, ∀ maxIter ≥ N0, ∃ w0 : ℝ, 0 < w0 ∧ ∀ (fl fexp : ℝ → ℝ) (u eta w : ℝ) (sum : ℕ → (Fin p → ℝ) → ℝ) (order : ℕ → List ℕ), Scale fl u eta w 1 → w ≤ w0 → FlExp fexp w →
      (∀ k v, FlSum fl (List.ofFn v) (sum k v)) → (∀ k, (order k).Perm (List.range n)) →
      ∃ P r, flVrCall fl fexp l A b x0 (some step) pen alpha maxIter tol order = some P ∧ flMinimizeSaga fl sum P = .ok r ∧ r.success = true := by
  obtain ⟨C, hC, h⟩ := C128_saga l A b x0 pen hn hp hb hpen halpha hD hstep hs1 hxs
  have hDp := D_pos A hn hp hD
  obtain ⟨q, hq⟩ : ∃ q, q = 1 + alpha * step / (40 * D) := ⟨_, rfl⟩
  have hq1 : 1 < q := by rw [hq]; have : 0 < alpha * step / (40 * D) := by positivity
                         linarith
  obtain ⟨V, hV⟩ : ∃ V, V = vrProblem l A b alpha pen x0 - vrProblem l A b alpha pen xs + 8 / 5 * n * vrProblem l A b alpha pen x0 := ⟨_, rfl⟩
  have hV0 : 0 ≤ V := by
    rw [hV]
    have h1 := vrProblem_nonneg l A b pen hb hpen halpha.le x0
    have h2 := hxs x0
    have : 0 ≤ 8 / 5 * n * vrProblem l A b alpha pen x0 := by positivity
    linarith
  obtain ⟨e, he⟩ : ∃ e, e = (tol / (C + 1)) ^ 2 / 4 := ⟨_, rfl⟩
  have he0 : 0 < e := by rw [he]; positivity
  obtain ⟨N, hN⟩ : ∃ N : ℕ, V / q ^ N ≤ e := by
    obtain ⟨N, hN⟩ := pow_unbounded_of_one_lt (V / e) hq1
    refine ⟨N, ?_⟩
    rw [div_le_iff₀ (by positivity)]
    rw [div_lt_iff₀ he0] at hN
    linarith
  refine ⟨N + 2, fun maxIter hmax => ?_⟩
  have hm0 : (0 : ℝ) < maxIter := by exact_mod_cast (by omega : 0 < maxIter)
  refine ⟨min e (1 / (C + 1)) / maxIter, by positivity, fun fl fexp u eta w sum order hs hw hexp hsum hord => ?_⟩
  have hw0 := hs.w_nonneg
  rw [le_div_iff₀ hm0] at hw
  have hw1 := hw.trans (min_le_left _ _)
  have hw2 := hw.trans (min_le_right _ _)
  rw [le_div_iff₀ (by linarith)] at hw2
  have hmw : 0 ≤ w * maxIter := by positivity
  obtain ⟨P, r, h1, h2, h3, -, -, -, -, h7⟩ := h fl fexp u eta w sum order tol maxIter hs (by linarith) hexp hsum hord (by omega)
  refine ⟨P, r, h1, h2, ?_⟩
  cases hsu : r.success with
  | true => rfl
  | false =>
    exfalso
    obtain ⟨k1, k2⟩ := h7 hsu
    rw [← hq, ← hV] at k2
    have h8 : V / q ^ (r.nit - 1) ≤ V / q ^ N := div_le_div_of_nonneg_left hV0 (by positivity) (pow_le_pow_right₀ hq1.le (by omega))
    have hk : ((r.nit : ℝ) + 1) * w = w * maxIter := by rw [← k1]; push_cast; ring
    have h9 : √(V / q ^ (r.nit - 1) + (r.nit + 1) * w) ≤ √((tol / (C + 1)) ^ 2) := Real.sqrt_le_sqrt (by linarith [sq_nonneg (tol / (C + 1))])
    rw [Real.sqrt_sq (by positivity)] at h9
    have h10 := mul_le_mul_of_nonneg_left h9 hC
    have h11 : (C + 1) * (tol / (C + 1)) = tol := by field_simp
    have h12 : 0 < tol / (C + 1) := by positivity
    linarith

/-! ### Instances -/

/-- Rounding to `k + 1` bits meets the hypotheses with any precision `w ≥ 2^-k`. -/
theorem flBits_vr {k : ℕ} {w : ℝ} (hw : (2⁻¹ : ℝ) ^ k ≤ w) (hw1 : w ≤ 1) : Scale (flBits k) (2⁻¹ ^ (k + 1)) 0 w 1 ∧ FlExp (fun t => flBits k (Real.exp t)) w := by
  have hr := flBits_rounding (p := k) (eta := 0) le_rfl
  have hpos : (0 : ℝ) < 2⁻¹ ^ k := by positivity
  have hhalf : (2⁻¹ : ℝ) ^ (k + 1) = 2⁻¹ ^ k / 2 := by rw [pow_succ]; ring
  have hu : (2⁻¹ : ℝ) ^ (k + 1) ≤ w := by rw [hhalf]; linarith
  refine ⟨⟨hr, hu, sq_nonneg _, by linarith, hw1, le_rfl⟩, fun t ht => ?_⟩
  have h1 := hr.err (Real.exp t)
  rw [abs_of_pos (Real.exp_pos t), add_zero] at h1
  have h2 : Real.exp t ≤ 1 := Real.exp_le_one_iff.mpr ht
  have h3 := mul_le_mul_of_nonneg_left h2 (show (0 : ℝ) ≤ 2⁻¹ ^ (k + 1) by positivity)
  linarith

/-- A data set without zeros. -/
def exFull : Fin 2 → Fin 2 → ℝ := ![![1, 2], ![1, 1]]

theorem exFull_ne (i c : Fin 2) : exFull i c ≠ 0 := by fin_cases i <;> fin_cases c <;> norm_num [exFull]

theorem exFull_count (c : Fin 2) : ((2 : ℕ) : ℝ) ≤ 1 * (Finset.univ.filter fun i => exFull i c ≠ 0).card := by
  have : (Finset.univ.filter fun i => exFull i c ≠ 0) = Finset.univ := Finset.filter_true_of_mem fun i _ => exFull_ne i c
  rw [this]; simp

theorem exFull_rows : LogLoss.maxRowSq exFull ≤ 5 := by
  unfold LogLoss.maxRowSq
  rw [dif_pos (by norm_num)]
  refine Finset.sup'_le _ _ fun i _ => ?_
  rw [Fin.sum_univ_two]
  fin_cases i <;> norm_num [exFull]

theorem exGroup_good : (VRPen.groupL1 (1 / 2) [[0, 1]]).Good 2 := ⟨by norm_num, by unfold GoodGroups; simp [IsRun]; exact ⟨0, rfl⟩, by simp⟩

theorem exists_sums (k : ℕ) : ∃ sum : ℕ → (Fin 2 → ℝ) → ℝ, ∀ i v, FlSum (flBits k) (List.ofFn v) (sum i v) := by
  choose sm hsm using fun v : Fin 2 → ℝ => exists_flSum (flBits k) (List.ofFn v) (by simp)
  exact ⟨fun _ => sm, fun _ => hsm⟩

/-- Logistic regression with a group penalty by SVRG, rounding to `k + 1` bits for every large enough `k`, alternating orders: long enough runs succeed. -/
example : ∃ k0 N : ℕ, ∀ k ≥ k0, ∃ sum : ℕ → (Fin 2 → ℝ) → ℝ, (∀ i v, FlSum (flBits k) (List.ofFn v) (sum i v)) ∧
    ∃ P r, flVrCall (flBits k) (fun t => flBits k (Real.exp t)) .log exFull ![1, 0] ![3, -2] (some (1 / 100)) (.groupL1 (1 / 2) [[0, 1]]) 1 N (1 / 10)
      (fun k => if k % 2 = 0 then [0, 1] else [1, 0]) = some P ∧ flMinimizeSvrg (flBits k) sum P = .ok r ∧ r.success = true := by
  have hb : VRLoss.log.Labels ![(1 : ℝ), 0] := fun i => by fin_cases i <;> norm_num
  obtain ⟨xs, hxs⟩ := (C100_minimiser (alpha := 1) .log exFull ![1, 0] (.groupL1 (1 / 2) [[0, 1]]) hb exGroup_good one_pos).1
  obtain ⟨C, -, w0, N, hw0, h⟩ := C128_svrg_succeeds (n := 2) (p := 2) .log exFull ![1, 0] ![3, -2] (.groupL1 (1 / 2) [[0, 1]]) (alpha := 1) (step := 1 / 100) (D := 1)
    (by norm_num) (by norm_num) hb exGroup_good (fun g _ i => .inr fun c _ => exFull_ne i c) one_pos exFull_count (by norm_num)
    (by
      rw [VRLoss.maxLipschitz_eq]
      have := exFull_rows
      norm_num [VRLoss.curv]
      linarith) hxs (tol := 1 / 10) (by norm_num)
  obtain ⟨k0, hk0⟩ := exists_pow_lt_of_lt_one (show 0 < min w0 1 by positivity) (show (2⁻¹ : ℝ) < 1 by norm_num)
  refine ⟨k0, N, fun k hk => ?_⟩
  have hk1 : (2⁻¹ : ℝ) ^ k ≤ min w0 1 := (pow_le_pow_of_le_one (by norm_num) (by norm_num) hk).trans hk0.le
  obtain ⟨sum, hsum⟩ := exists_sums k
  obtain ⟨s1, s2⟩ := flBits_vr (k := k) le_rfl (hk1.trans (min_le_right _ _))
  obtain ⟨P, r, h1, h2, h3, -⟩ := h (flBits k) _ _ _ _ sum _ N s1 (hk1.trans (min_le_left _ _)) s2 hsum exOrder_perm le_rfl
  exact ⟨sum, hsum, P, r, h1, h2, h3⟩

/-- The same problem by SAGA, on data with a zero. -/
example : ∃ N k0 : ℕ, ∀ k ≥ k0, ∃ sum : ℕ → (Fin 2 → ℝ) → ℝ, (∀ i v, FlSum (flBits k) (List.ofFn v) (sum i v)) ∧
    ∃ P r, flVrCall (flBits k) (fun t => flBits k (Real.exp t)) .log exDense ![1, 0] ![3, -2] (some (1 / 60)) (.groupL1 (1 / 2) [[0, 1]]) 1 N (1 / 10)
      (fun k => if k % 2 = 0 then [0, 1] else [1, 0]) = some P ∧ flMinimizeSaga (flBits k) sum P = .ok r ∧ r.success = true := by
  have hb : VRLoss.log.Labels ![(1 : ℝ), 0] := fun i => by fin_cases i <;> norm_num
  obtain ⟨xs, hxs⟩ := (C100_minimiser (alpha := 1) .log exDense ![1, 0] (.groupL1 (1 / 2) [[0, 1]]) hb exGroup_good one_pos).1
  obtain ⟨N, h⟩ := C128_saga_succeeds (n := 2) (p := 2) .log exDense ![1, 0] ![3, -2] (.groupL1 (1 / 2) [[0, 1]]) (alpha := 1) (step := 1 / 60) (D := 2)
    (by norm_num) (by norm_num) hb exGroup_good one_pos exDense_count (by norm_num)
    (by
      rw [VRLoss.maxLipschitz_eq]
      have := exDense_rows
      norm_num [VRLoss.curv]
      linarith) hxs (tol := 1 / 10) (by norm_num)
  obtain ⟨w0, hw0, h⟩ := h N le_rfl
  obtain ⟨k0, hk0⟩ := exists_pow_lt_of_lt_one (show 0 < min w0 1 by positivity) (show (2⁻¹ : ℝ) < 1 by norm_num)
  refine ⟨N, k0, fun k hk => ?_⟩
  have hk1 : (2⁻¹ : ℝ) ^ k ≤ min w0 1 := (pow_le_pow_of_le_one (by norm_num) (by norm_num) hk).trans hk0.le
  obtain ⟨sum, hsum⟩ := exists_sums k
  obtain ⟨s1, s2⟩ := flBits_vr (k := k) le_rfl (hk1.trans (min_le_right _ _))
  obtain ⟨P, r, h1, h2, h3⟩ := h (flBits k) _ _ _ _ sum _ s1 (hk1.trans (min_le_left _ _)) s2 hsum exOrder_perm
  exact ⟨sum, hsum, P, r, h1, h2, h3⟩

end Copt
