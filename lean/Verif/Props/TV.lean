import Verif.Proof.TV2DExtra

/-! # Properties of copt/tv_prox.py, `FusedLasso.prox` and `TotalVariation2D` (C15, C16, C19, C20, C75) -/

set_option linter.unusedSectionVars false

namespace Copt

open Spec

variable {K : Type} [Field K] [LinearOrder K] [IsStrictOrderedRing K] {n R C : ℕ}

/-- **C15.** `prox_tv1d(w, step)` returns the proximal point of the 1-D total variation, whatever the uninitialised
memory contains. -/
theorem C15_prox_tv1d_exact (hn : 0 < n) (junk : TV1D.Junk n K) {step : K} (hs : 0 ≤ step) (w : Fin n → K) :
    ∃ out, proxTv1d true junk step w = .ok out ∧ IsProx tv1 step w out := by
  obtain ⟨out, e, h⟩ := TV1D.lowLevel_spec hn junk hs w
  exact ⟨out, by simp [proxTv1d, e, fault], isProx_of_subgrad h⟩

/-- **C15 (`FusedLasso.prox`).** The proximal point of `alpha * TV` with step `step`. -/
theorem C15_fused_lasso_prox_exact (hn : 0 < n) (junk : TV1D.Junk n K) {alpha step : K} (ha : 0 ≤ alpha) (hs : 0 ≤ step)
    (x : Fin n → K) :
    ∃ out, FusedLasso.prox true junk alpha x step = .ok out ∧ IsProx (fun y => alpha * tv1 y) step x out := by
  obtain ⟨out, e, h⟩ := TV1D.lowLevel_spec hn junk (mul_nonneg hs ha) x
  refine ⟨out, by simp [FusedLasso.prox, proxTv1d, e, fault], isProx_of_subgrad fun y => ?_⟩
  have := h y
  rw [mul_assoc, mul_assoc] at this
  exact this

/-- **C15 (dtype).** Arrays that are not of floating dtype are refused. -/
theorem C15_dtype_error (junk : TV1D.Junk n K) (step : K) (w : Fin n → K) :
    proxTv1d false junk step w = .error .valueError := rfl

/-- C15 on a signal with a plateau, a spike and a tie. -/
example (junk : TV1D.Junk 5 ℚ) : ∃ out, proxTv1d true junk (1 / 2) ![1, 1, 7, 0, 0] = .ok out ∧
    IsProx tv1 (1 / 2) ![1, 1, 7, 0, 0] out := C15_prox_tv1d_exact (by norm_num) junk (by norm_num) _

/-- A run of the model (a test, not a proof): the whole procedure is executable over `ℚ`. -/
example : (proxTv1d true (n := 3) (K := ℚ) ⟨fun _ => 7, fun _ => -9, fun _ => 100, 0, 0⟩ 1 ![0, 3, 0]).toOption =
    some ![1, 1, 1] := by decide +kernel

/-- **C16.** For every non-empty input no access of the low level routine is out of bounds, no division by zero
occurs and all loops end (the checked model returns `some`); and every output element is written: the result
depends on neither the previous content of the output array nor that of any scratch buffer. -/
theorem C16_memory_safe_and_defined (hn : 0 < n) {step : K} (hs : 0 ≤ step) (w : Fin n → K) :
    ∃ out, ∀ junk : TV1D.Junk n K, TV1D.lowLevel junk step w = some out := by
  obtain ⟨out, _, h⟩ := TV1D.lowLevel_spec hn ⟨fun _ => 0, fun _ => 0, fun _ => 0, 0, 0⟩ hs w
  refine ⟨out, fun junk => ?_⟩
  obtain ⟨out', e', h'⟩ := TV1D.lowLevel_spec hn junk hs w
  rw [e', isUniqueMin_unique (isProx_of_subgrad h) (isProx_of_subgrad h')]

/-- **C16 (empty input).** The guard is needed: on an empty array the routine accesses memory out of bounds. -/
theorem C16_empty_input_fault (junk : TV1D.Junk 0 K) (step : K) (w : Fin 0 → K) : TV1D.lowLevel junk step w = none := by
  simp [TV1D.lowLevel, TV1D.tubes, TV1D.fillY, wr, rd]

example : (0 < 4) ∧ (0 : ℚ) ≤ 0 := by norm_num

/-! ### 2-D total variation -/

/-- **C19 (total).** On a non-empty image and with `max_iter ≥ 1` the call returns. -/
theorem C19_total (hR : 0 < R) (hC : 0 < C) (junkC : ℕ → TVJunk R C C R K) (junkR : ℕ → TVJunk R C R C K)
    {step : K} (hs : 0 ≤ step) (tol : K) (w : Fin (R * C) → K) {maxIter : ℕ} (hm : 0 < maxIter) :
    ∃ out, proxTv2d junkC junkR w step maxIter tol = .ok out := by
  obtain ⟨out, e, -⟩ := tv2dLoop_spec hR hC junkC junkR (tol := tol) hs maxIter 0 none ⟨w, fun _ => 0, fun _ => 0⟩
    (dykInv_init hs w) (by omega)
  exact ⟨out, e⟩

/-- **C19 (accuracy).** If `prox_tv2d` returns without the non-convergence warning, its result is within
`‖x - x*‖² ≤ 4 * step * N * tol` of the proximal point `x*` of the 2-D total variation. -/
theorem C19_no_warning_accurate (hR : 0 < R) (hC : 0 < C) (junkC : ℕ → TVJunk R C C R K) (junkR : ℕ → TVJunk R C R C K)
    {step tol : K} (hs : 0 ≤ step) (w : Fin (R * C) → K) (maxIter : ℕ) {out : TV2DOut (R * C) K}
    (hrun : proxTv2d junkC junkR w step maxIter tol = .ok out) (hconv : out.warned = false)
    {xs : Fin (R * C) → K} (hx : IsProx (tv2 R C) step w xs) :
    sqDist out.x xs ≤ 4 * step * (R * C : ℕ) * tol := by
  rcases Nat.eq_zero_or_pos maxIter with rfl | hm
  · simp [proxTv2d, tv2dLoop] at hrun
  · obtain ⟨out', e, h1, -⟩ := tv2dLoop_spec hR hC junkC junkR (tol := tol) hs maxIter 0 none
      ⟨w, fun _ => 0, fun _ => 0⟩ (dykInv_init hs w) (by omega)
    have : out' = out := by
      have := e.symm.trans hrun
      simpa using this
    subst this
    obtain ⟨st, y, acc, hc, hx', ha, hlt⟩ := h1 hconv
    rw [← hx']
    refine le_trans (hc.accuracy hs ha hx) ?_
    exact mul_le_mul_of_nonneg_left hlt.le (mul_nonneg (mul_nonneg (by norm_num) hs) (Nat.cast_nonneg _))

/-- **C19 (`TotalVariation2D.prox`).** The same for the penalty object, with its `alpha`. -/
theorem C19_tv2d_penalty_accurate (hR : 0 < R) (hC : 0 < C) (junkC : ℕ → TVJunk R C C R K)
    (junkR : ℕ → TVJunk R C R C K) {alpha step tol : K} (ha : 0 ≤ alpha) (hs : 0 ≤ step) (x : Fin (R * C) → K)
    (maxIter : ℕ) {out : TV2DOut (R * C) K}
    (hrun : TotalVariation2D.prox junkC junkR alpha maxIter tol x step = .ok out) (hconv : out.warned = false)
    {xs : Fin (R * C) → K} (hx : IsProx (TotalVariation2D.call R C alpha) step x xs) :
    sqDist out.x xs ≤ 4 * (alpha * step) * (R * C : ℕ) * tol := by
  have hx' : IsProx (tv2 R C) (step * alpha) x xs := by
    refine ⟨trivial, fun y hy hne => ?_⟩
    have hcall : ∀ z, TotalVariation2D.call R C alpha z = alpha * tv2 R C z := by
      intro z
      unfold TotalVariation2D.call tv2 tvCols tvRows tv1
      rw [Finset.sum_comm]; rfl
    have := hx.2 y hy hne
    simp only [hcall, ← mul_assoc] at this
    exact this
  have := C19_no_warning_accurate hR hC junkC junkR (mul_nonneg hs ha) x maxIter hrun hconv hx'
  rwa [mul_comm step alpha] at this

/-- **C19 (the true proximal point exists).** Over the reals `x*` of the accuracy theorem exists, for every image. -/
theorem C19_prox_exists {step : ℝ} (hs : 0 ≤ step) (w : Fin (R * C) → ℝ) : ∃ xs, IsProx (tv2 R C) step w xs :=
  exists_isProx continuous_tv2 tv2_nonneg tv2_semi.convex hs w

/-- **C19 (decomposition).** After every number of iterations, `x` plus the two correction terms equals the input. -/
theorem C19_decomposition (hR : 0 < R) (hC : 0 < C) (junkC : ℕ → TVJunk R C C R K) (junkR : ℕ → TVJunk R C R C K)
    {step : K} (hs : 0 ≤ step) (w : Fin (R * C) → K) (k : ℕ) :
    ∃ st, tv2dIterate junkC junkR step w k = .ok st ∧ ∀ i, st.x i + st.p i + st.q i = w i := by
  induction k with
  | zero => exact ⟨_, rfl, fun i => by simp⟩
  | succ k ih =>
    obtain ⟨st, e, h⟩ := ih
    obtain ⟨st', acc, y, e', hc, -⟩ := tv2dStep_spec hR hC (junkC k) (junkR k) hs st h
    refine ⟨st', ?_, hc.sum⟩
    rw [tv2dIterate, e]
    show (do let r ← tv2dStep (junkC k) (junkR k) step st; return r.1) = _
    rw [e']; rfl

/-- **C19 (`max_iter = 0`).** The call fails: the warning formats a variable that was never assigned. -/
theorem C19_max_iter_zero (junkC : ℕ → TVJunk R C C R K) (junkR : ℕ → TVJunk R C R C K) (step tol : K)
    (w : Fin (R * C) → K) : proxTv2d junkC junkR w step 0 tol = .error .unboundLocalError := rfl

/-- **C75.** The Dykstra loop of `prox_tv2d` converges: with `tol > 0` and more than `‖w‖² / tol²` iterations allowed,
no warning is issued. -/
theorem C75_tv2d_converges (hR : 0 < R) (hC : 0 < C) (junkC : ℕ → TVJunk R C C R K) (junkR : ℕ → TVJunk R C R C K)
    {step tol : K} (hs : 0 ≤ step) (ht : 0 < tol) (w : Fin (R * C) → K) {maxIter : ℕ}
    (hm : dot w w < maxIter * tol ^ 2) :
    ∃ out, proxTv2d junkC junkR w step maxIter tol = .ok out ∧ out.warned = false := by
  have hm0 : maxIter ≠ 0 := by
    rintro rfl
    have := dot_self_nonneg w
    simp at hm; linarith
  obtain ⟨out, e, -, h⟩ := tv2dLoop_spec hR hC junkC junkR (tol := tol) hs maxIter 0 none ⟨w, fun _ => 0, fun _ => 0⟩
    (dykInv_init hs w) (by omega)
  refine ⟨out, e, ?_⟩
  by_contra hw
  have := h (by simpa using hw) ht.le
  exact absurd hm (not_lt.mpr this)

/-- A 2 x 2 image for which the hypotheses of C19 and C75 hold with `tol = 1/10`. -/
example : (0 < 2) ∧ (0 : ℚ) ≤ 1 ∧ dot ![1, 2, 3, (4 : ℚ)] ![1, 2, 3, 4] < (3001 : ℕ) * (1 / 10 : ℚ) ^ 2 := by
  refine ⟨by norm_num, by norm_num, ?_⟩
  have : dot ![1, 2, 3, (4 : ℚ)] ![1, 2, 3, 4] = 30 := by simp [dot, Fin.sum_univ_succ]; norm_num
  rw [this]; norm_num

/-- **C20.** For every shape other than 1 x 1, the product `tv2d_linear_operator(n_rows, n_cols) @ x` is defined and its
l1 norm is the value of `TotalVariation2D(1, shape)(x)`.  (Full statement: for all shapes; see
`C20_one_pixel_fails`.) -/
theorem C20_linear_operator_partial (hRC : R * C ≠ 1) (x : Fin (R * C) → K) :
    ∃ l, tv2dApply R C x = .ok l ∧ (l.map abs).sum = TotalVariation2D.call R C 1 x := by
  refine ⟨(tv2dRows R C).map fun row => ∑ k, row k * x k, ?_, ?_⟩
  · unfold tv2dApply
    rw [if_neg]
    rintro ⟨h1, h2⟩
    have := tv2dRows_empty.mp h1
    omega
  · rw [tv2dRows_norm]
    unfold TotalVariation2D.call tv2 tvCols tvRows tv1
    rw [Finset.sum_comm, one_mul]; rfl

/-- **C20 (the excluded shape).** For a 1 x 1 image the operator is an empty 1-D array and the product raises. -/
theorem C20_one_pixel_fails (x : Fin (1 * 1) → K) : tv2dApply 1 1 x = .error .valueError := by
  unfold tv2dApply
  rw [if_pos ⟨tv2dRows_empty.mpr le_rfl, by norm_num⟩]

/-- **C20 (penalty).** `TotalVariation2D(alpha, shape)(x)` is `alpha` times the anisotropic 2-D total variation. -/
theorem C20_call (alpha : K) (x : Fin (R * C) → K) : TotalVariation2D.call R C alpha x = alpha * tv2 R C x := by
  unfold TotalVariation2D.call tv2 tvCols tvRows tv1
  rw [Finset.sum_comm]; rfl

example : 1 * 3 ≠ 1 := by norm_num

end Copt
