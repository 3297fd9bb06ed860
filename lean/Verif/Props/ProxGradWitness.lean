import Mathlib.Tactic.NormNum
import Mathlib.Algebra.Order.Floor.Ring
import Mathlib.Algebra.Order.Round
import Verif.Props.ProxGrad

/-! # Witness runs for C44, C46, C48 and C72 (refutations), and satisfiability of the hypotheses -/

namespace Copt

open Spec

open scoped InnerProductSpace

/-- `f(x) = c x² / 2` on the line, no penalty, backtracking with one iteration. -/
noncomputable def quadArgs (c factor tol : ℝ) (maxIter : ℕ) : PGArgs ℝ where
  fg x := (c / 2 * x ^ 2, c * x)
  x0 := 1
  prox := none
  tol := tol
  maxIter := maxIter
  callback := none
  step := .str "backtracking"
  btIter := 1
  factor := factor
  traceCert := false
  store := id

/-- The initial Lipschitz estimate of the quadratic is 1 when `1/5 < c ≤ 2`. -/
theorem quad_initLip {c factor tol : ℝ} {m : ℕ} (h0 : 1 / 5 < c) (h1 : c ≤ 2) :
    (initLipschitz (quadArgs c factor tol m).fg (quadArgs c factor tol m).x0).1 = 1 := by
  have key : ∀ L : ℝ, 0 < L → (c / 2 * (1 - 1 / L * (c * 1)) ^ 2 ≤ c / 2 * 1 ^ 2 ↔ c ≤ 2 * L) := by
    intro L hL
    have e : c / 2 * (1 - 1 / L * (c * 1)) ^ 2 - c / 2 * 1 ^ 2 = c / 2 * (c / L) * (c - 2 * L) / L := by field_simp; ring
    rw [← sub_nonpos, e]
    have hp : 0 < c / 2 * (c / L) := by positivity
    constructor
    · intro h
      by_contra hc
      push Not at hc
      have : 0 < c / 2 * (c / L) * (c - 2 * L) / L := div_pos (mul_pos hp (by linarith)) hL
      linarith
    · intro h
      exact div_nonpos_of_nonpos_of_nonneg (mul_nonpos_of_nonneg_of_nonpos hp.le (by linarith)) hL.le
  have no : ∀ L : ℝ, 0 < L → L ≤ 1 / 10 → ¬ c / 2 * (1 - 1 / L * (c * 1)) ^ 2 ≤ c / 2 * 1 ^ 2 := fun L hL hl => by
    rw [key L hL]; linarith
  have yes : c / 2 * (1 - 1 / (1 : ℝ) * (c * 1)) ^ 2 ≤ c / 2 * 1 ^ 2 := (key 1 one_pos).mpr (by linarith)
  unfold initLipschitz
  simp only [quadArgs, smul_eq_mul]
  rw [show (100 : ℕ) = 96 + 1 + 1 + 1 + 1 from rfl]
  rw [initLipLoop, if_neg (no _ (by norm_num) (by norm_num))]
  simp only [smul_eq_mul]
  rw [initLipLoop, if_neg (no _ (by norm_num) (by norm_num))]
  simp only [smul_eq_mul]
  rw [initLipLoop, if_neg (no _ (by norm_num) (by norm_num))]
  simp only [smul_eq_mul]
  rw [initLipLoop, if_pos]
  · norm_num
  · have : (1e-3 : ℝ) * 10 * 10 * 10 = 1 := by norm_num
    rw [this]; exact yes

theorem exactProx_none {P : PGArgs ℝ} (h : P.prox = none) : ExactProx P ExtFun.zero := by
  refine ⟨ExtFun.isConvex_zero, ?_⟩
  unfold PGArgs.proxFn
  rw [h]; exact isProxOf_zero

/-- One pass with `max_iter_backtracking = 1` whose single test fails. -/
theorem quad_body_fail {c factor tol : ℝ} {m : ℕ} {st : PGState ℝ} {t : ℝ} (ht : 0 < t) (hf : 0 < factor)
    (hst : st.stepSize = some t)
    (hfail : st.fk + st.grad * (st.x - t * st.grad - st.x) + (st.x - t * st.grad - st.x) ^ 2 / (2 * (t * (11 / 10))) <
      c / 2 * (st.x - t * st.grad) ^ 2) :
    pgStepBranch (quadArgs c factor tol m) st = .ok ⟨st.x - t * (11 / 10) * factor * st.grad, t * (11 / 10) * factor,
      t * (11 / 10) * factor, c / 2 * (st.x - t * st.grad) ^ 2, c * (st.x - t * st.grad), false⟩ := by
  unfold pgStepBranch
  simp only [quadArgs, if_true, hst, pgSearch, PGArgs.proxFn, Option.getD_none, smul_eq_mul]
  rw [show ((1 : ℤ).toNat - 1) = 0 from rfl, lsLoop]
  simp only [smul_eq_mul]
  rw [if_neg]
  rw [lsTest_pos (by positivity)]
  rw [Real.norm_eq_abs, sq_abs]
  have : ⟪st.grad, st.x - t * st.grad - st.x⟫_ℝ = st.grad * (st.x - t * st.grad - st.x) := by
    show (st.x - t * st.grad - st.x) * st.grad = _; ring
  rw [this]
  exact not_le.mpr hfail

theorem quad_body_pass {c factor tol : ℝ} {m : ℕ} {st : PGState ℝ} {t : ℝ} (ht : 0 < t)
    (hst : st.stepSize = some t)
    (hpass : c / 2 * (st.x - t * st.grad) ^ 2 ≤
      st.fk + st.grad * (st.x - t * st.grad - st.x) + (st.x - t * st.grad - st.x) ^ 2 / (2 * (t * (11 / 10)))) :
    pgStepBranch (quadArgs c factor tol m) st = .ok ⟨st.x - t * st.grad, t, t * (11 / 10), c / 2 * (st.x - t * st.grad) ^ 2,
      c * (st.x - t * st.grad), true⟩ := by
  unfold pgStepBranch
  simp only [quadArgs, if_true, hst, pgSearch, PGArgs.proxFn, Option.getD_none, smul_eq_mul]
  rw [show ((1 : ℤ).toNat - 1) = 0 from rfl, lsLoop]
  simp only [smul_eq_mul]
  rw [if_pos]
  rw [lsTest_pos (by positivity)]
  rw [Real.norm_eq_abs, sq_abs]
  have : ⟪st.grad, st.x - t * st.grad - st.x⟫_ℝ = st.grad * (st.x - t * st.grad - st.x) := by
    show (st.x - t * st.grad - st.x) * st.grad = _; ring
  rw [this]; exact hpass

/-- One pass of the witness runs: the state it leads to, field by field. -/
theorem quad_body {c factor tol : ℝ} {m : ℕ} {st : PGState ℝ} {r : LsOut ℝ}
    (hr : pgStepBranch (quadArgs c factor tol m) st = .ok r) (hs : r.step ≠ 0) {w : Option PGWhy}
    (hw : (|r.step⁻¹ * (st.x - r.xNext)| < tol ∧ w = some .success) ∨ (tol ≤ |r.step⁻¹ * (st.x - r.xNext)| ∧ w = none)) :
    ∃ st', pgBody (quadArgs c factor tol m) st = .ok (st', w) ∧ st'.x = r.xNext ∧ st'.fk = r.fNext ∧ st'.grad = r.gradNext ∧
      st'.stepSize = some r.step ∧ st'.certificate = some |r.step⁻¹ * (st.x - r.xNext)| ∧ st'.nit = st.nit ∧
      st'.log = st.log ++ [⟨st.x, r.xNext, r.used, r.step, r.ok⟩] := by
  have hc : (pgNext (quadArgs c factor tol m) st r).certificate = some |r.step⁻¹ * (st.x - r.xNext)| := by
    show pgCert _ _ _ = _
    unfold pgCert
    rw [if_neg hs, smul_eq_mul, Real.norm_eq_abs]
  have hcb : pgCallback (quadArgs c factor tol m) st = (st, false) := rfl
  refine ⟨pgNext (quadArgs c factor tol m) st r, ?_, rfl, rfl, rfl, rfl, hc, rfl, rfl⟩
  unfold pgBody
  rw [hcb]
  simp only [Bool.false_eq_true, if_false, hr, bind, Except.bind, pure, Except.pure]
  rcases hw with ⟨h, rfl⟩ | ⟨h, rfl⟩
  · rw [if_pos]
    rw [hc]; exact ⟨_, rfl, h⟩
  · rw [if_neg]
    rw [hc]
    rintro ⟨r', hr', hlt⟩
    simp only [Option.some.injEq] at hr'
    rw [← hr'] at hlt
    exact absurd hlt (not_lt.mpr h)

theorem quad_init {c factor tol : ℝ} {m : ℕ} (h0 : 1 / 5 < c) (h1 : c ≤ 2) :
    pgInit (quadArgs c factor tol m) = ⟨1, c / 2 * 1 ^ 2, c * 1, some (18 / 10), none, 0, [], [], 0⟩ := by
  unfold pgInit pgStep0
  simp only [quadArgs, if_true]
  have := quad_initLip (factor := factor) (tol := tol) (m := m) h0 h1
  simp only [quadArgs] at this
  rw [this, div_one]

/-- **C46 (refuted).** `f(x) = 5x²/18`, `x0 = 1`, `max_iter_backtracking = 1`: the first line search is exhausted at the
minimiser 0, so the next iteration uses the gradient at 0 although `x = 0.34`; the run then reports success, with certificate
0, at a point that is not near stationary - for every `max_iter ≥ 1`. -/
theorem C46_refuted (m : ℕ) : ∃ (P : PGArgs ℝ) (res : PGResult ℝ), P.maxIter = m + 1 ∧ P.tol = 1 / 1000 ∧ P.store = id ∧ PGStepOk P ∧
    0 < P.btIter ∧ ExactProx P ExtFun.zero ∧ LipGrad (fun x => (P.fg x).2) (5 / 9) ∧
    UpperQuad (fun x => (P.fg x).1) (fun x => (P.fg x).2) (5 / 9) ∧
    minimizeProximalGradient P = .ok res ∧ res.success = true ∧ res.certificate = some 0 ∧ res.x = 17 / 50 ∧
    ¬ ∃ w s, IsSubgrad ExtFun.zero res.x w ∧ res.stepSize = some s ∧ ‖(P.fg res.x).2 + w‖ ≤ (11 / 10 + 5 / 9 * s) * P.tol := by
  set P := quadArgs (5 / 9) (6 / 10) (1 / 1000) (m + 1) with hP
  have hi := quad_init (c := 5 / 9) (factor := 6 / 10) (tol := 1 / 1000) (m := m + 1) (by norm_num) (by norm_num)
  have hr1 := quad_body_fail (c := 5 / 9) (factor := 6 / 10) (tol := 1 / 1000) (m := m + 1) (st := pgInit P) (t := 18 / 10)
    (by norm_num) (by norm_num) (by rw [hP, hi]) (by rw [hP, hi]; norm_num)
  obtain ⟨st1, hb1, hx1, hf1, hg1, hs1, -, hn1, -⟩ := quad_body hr1 (by norm_num) (w := none)
    (Or.inr ⟨by rw [hP, hi]; norm_num [abs_of_pos], rfl⟩)
  simp only [hP, hi] at hx1 hf1 hg1 hs1
  norm_num at hx1 hf1 hg1 hs1
  have hr2 := quad_body_fail (c := 5 / 9) (factor := 6 / 10) (tol := 1 / 1000) (m := m + 1)
    (st := { st1 with nit := st1.nit + 1 }) (t := 297 / 250)
    (by norm_num) (by norm_num) hs1 (by simp only; rw [hf1, hg1, hx1]; norm_num)
  obtain ⟨st2, hb2, hx2, hf2, hg2, hs2, hc2, hn2, -⟩ := quad_body hr2 (by norm_num) (w := some .success)
    (Or.inl ⟨by simp only; rw [hg1]; simp, rfl⟩)
  simp only [hx1, hg1] at hx2 hc2 hs2
  norm_num at hx2 hc2 hs2
  have hloop : pgLoop P P.maxIter (pgInit P) = .ok (st2, .success) := by
    rw [show P.maxIter = m + 1 from rfl, pgLoop, hb1]
    simp only [bind, Except.bind]
    rw [pgLoop, hb2]
    rfl
  refine ⟨P, { x := st2.x, success := true, certificate := st2.certificate, nit := st2.nit, stepSize := st2.stepSize,
                 trace := st2.trace, warned := false, why := .success, log := st2.log, warnLs := st2.warnLs },
    rfl, rfl, rfl, Or.inl ⟨rfl, by norm_num [hP, quadArgs]⟩, by simp [hP, quadArgs], exactProx_none rfl, ?_, ?_, ?_, rfl, hc2, hx2, ?_⟩
  · intro x y
    show |5 / 9 * x - 5 / 9 * y| ≤ 5 / 9 * |x - y|
    rw [← mul_sub, abs_mul, abs_of_pos (by norm_num : (0 : ℝ) < 5 / 9)]
  · intro x y
    show 5 / 9 / 2 * y ^ 2 ≤ 5 / 9 / 2 * x ^ 2 + (y - x) * (5 / 9 * x) + 5 / 9 / 2 * |y - x| ^ 2
    rw [sq_abs]; nlinarith
  · unfold minimizeProximalGradient
    rw [if_neg (by simp [hP, quadArgs]), hloop]
    rfl
  · rintro ⟨w, s, hw, hs, hle⟩
    have hw0 : w = 0 := by
      have := hw.2 (st2.x + w) (Set.mem_univ _)
      simp only [ExtFun.zero, add_sub_cancel_left, real_inner_self_eq_norm_sq] at this
      rw [← norm_eq_zero]
      nlinarith [norm_nonneg w]
    simp only [hs2, Option.some.injEq] at hs
    rw [hw0, ← hs] at hle
    simp only [hx2] at hle
    rw [show (P.fg (17 / 50)).2 = 5 / 9 * (17 / 50) from rfl, show P.tol = 1 / 1000 from rfl, Real.norm_eq_abs] at hle
    norm_num [abs_of_pos] at hle

/-- **C44 (refuted).** `f(x) = 5x²/6`, `x0 = 1`, factor 1/10, `max_iter_backtracking = 1`: the first line search is exhausted, so
the second iteration uses values of `f` and its gradient that belong to another point; its line search succeeds and
yet `f` grows. -/
theorem C44_refuted : ∃ (P : PGArgs ℝ) (res : PGResult ℝ) (e : PGEntry ℝ), P.store = id ∧
    P.step = .str "backtracking" ∧ 0 < P.factor ∧ P.factor < 1 ∧ 0 < P.btIter ∧ ExactProx P ExtFun.zero ∧
    minimizeProximalGradient P = .ok res ∧ e ∈ res.log ∧ e.ok = true ∧ (P.fg e.x).1 < (P.fg e.xNext).1 := by
  set P := quadArgs (5 / 3) (1 / 10) (1 / 1000) 1 with hP
  have hi := quad_init (c := 5 / 3) (factor := 1 / 10) (tol := 1 / 1000) (m := 1) (by norm_num) (by norm_num)
  have hr1 := quad_body_fail (c := 5 / 3) (factor := 1 / 10) (tol := 1 / 1000) (m := 1) (st := pgInit P) (t := 18 / 10)
    (by norm_num) (by norm_num) (by rw [hP, hi]) (by rw [hP, hi]; norm_num)
  obtain ⟨st1, hb1, hx1, hf1, hg1, hs1, -, hn1, hl1⟩ := quad_body hr1 (by norm_num) (w := none)
    (Or.inr ⟨by rw [hP, hi]; norm_num [abs_of_pos], rfl⟩)
  simp only [hP, hi] at hx1 hf1 hg1 hs1
  norm_num at hx1 hf1 hg1 hs1
  have hr2 := quad_body_pass (c := 5 / 3) (factor := 1 / 10) (tol := 1 / 1000) (m := 1)
    (st := { st1 with nit := st1.nit + 1 }) (t := 99 / 500)
    (by norm_num) hs1 (by simp only; rw [hf1, hg1, hx1]; norm_num)
  obtain ⟨st2, hb2, hx2, hf2, hg2, hs2, hc2, hn2, hl2⟩ := quad_body hr2 (by norm_num) (w := none)
    (Or.inr ⟨by simp only; rw [hg1, hx1]; norm_num [abs_of_neg], rfl⟩)
  have hloop : pgLoop P P.maxIter (pgInit P) = .ok (st2, .exhausted) := by
    rw [show P.maxIter = 0 + 1 from rfl, pgLoop, hb1]
    simp only [bind, Except.bind]
    rw [pgLoop, hb2]
    rfl
  refine ⟨P, { x := st2.x, success := false, certificate := st2.certificate, nit := st2.nit, stepSize := st2.stepSize,
                 trace := st2.trace, warned := false, why := .exhausted, log := st2.log, warnLs := st2.warnLs },
    _, rfl, rfl, by norm_num [hP, quadArgs], by norm_num [hP, quadArgs], by simp [hP, quadArgs], exactProx_none rfl, ?_,
    by rw [hl2]; exact List.mem_append_right _ (List.mem_singleton.mpr rfl), rfl, ?_⟩
  · unfold minimizeProximalGradient
    rw [if_neg (by simp [hP, quadArgs]), hloop]
    rfl
  · simp only [hx1, hg1]
    show 5 / 3 / 2 * _ < 5 / 3 / 2 * _
    norm_num

/-- **C48 (refuted).** A run that exhausts `max_iter` without a RuntimeWarning. -/
theorem C48_refuted : ∃ (P : PGArgs ℝ) (res : PGResult ℝ), minimizeProximalGradient P = .ok res ∧ res.why = .exhausted ∧
    res.success = false ∧ res.warned = false := by
  set P := quadArgs (5 / 3) (1 / 10) (1 / 1000) 0 with hP
  have hi := quad_init (c := 5 / 3) (factor := 1 / 10) (tol := 1 / 1000) (m := 0) (by norm_num) (by norm_num)
  have hr1 := quad_body_fail (c := 5 / 3) (factor := 1 / 10) (tol := 1 / 1000) (m := 0) (st := pgInit P) (t := 18 / 10)
    (by norm_num) (by norm_num) (by rw [hP, hi]) (by rw [hP, hi]; norm_num)
  obtain ⟨st1, hb1, -⟩ := quad_body hr1 (by norm_num) (w := none)
    (Or.inr ⟨by rw [hP, hi]; norm_num [abs_of_pos], rfl⟩)
  refine ⟨P, { x := st1.x, success := false, certificate := st1.certificate, nit := st1.nit, stepSize := st1.stepSize,
                 trace := st1.trace, warned := false, why := .exhausted, log := st1.log, warnLs := st1.warnLs }, ?_, rfl, rfl, rfl⟩
  unfold minimizeProximalGradient
  rw [if_neg (by simp [hP, quadArgs]), show P.maxIter = 0 from rfl, pgLoop, hb1]
  rfl

/-- The hypotheses of C44, C45, C46 and C47 hold together for `f(x) = x²/2` with the default factor, 1000 line search iterations and
500 iterations. -/
example : ∃ P : PGArgs ℝ, ExactProx P ExtFun.zero ∧ P.store = id ∧ P.step = .str "backtracking" ∧ 0 < P.factor ∧ P.factor ≤ 1 ∧
    0 < P.btIter ∧ PGStepOk P ∧ P.fg = (fun x => (x ^ 2 / 2, x)) ∧ UpperQuad (fun x : ℝ => x ^ 2 / 2) (fun x => x) 1 ∧
    ConvexGrad (fun x : ℝ => x ^ 2 / 2) (fun x => x) ∧ LipGrad (fun x : ℝ => x) 1 ∧ P.maxIter = 10 ∧
    (11 / 10) ^ (P.maxIter + 1) * ((18 / 10) / (initLipschitz P.fg P.x0).1) * P.factor ^ (P.btIter.toNat - 1) ≤ 1 / 1 := by
  have h1 := quad_initLip (c := 1) (factor := 6 / 10) (tol := 1 / 1000) (m := 10) (by norm_num) (by norm_num)
  have hfg : (fun x : ℝ => ((1 : ℝ) / 2 * x ^ 2, 1 * x)) = (fun x => (x ^ 2 / 2, x)) := by
    funext x; rw [one_mul]; congr 1; ring
  refine ⟨{ quadArgs 1 (6 / 10) (1 / 1000) 10 with btIter := 10 }, exactProx_none rfl, rfl, rfl, by norm_num [quadArgs], by norm_num [quadArgs],
    by norm_num, Or.inl ⟨rfl, by norm_num [quadArgs]⟩, hfg, ?_, ?_, ?_, rfl, ?_⟩
  · intro x y
    show y ^ 2 / 2 ≤ x ^ 2 / 2 + (y - x) * x + 1 / 2 * |y - x| ^ 2
    rw [sq_abs]; nlinarith
  · intro x y
    show x ^ 2 / 2 + (y - x) * x ≤ y ^ 2 / 2
    nlinarith [sq_nonneg (x - y)]
  · intro x y; rw [one_mul]
  · simp only
    rw [h1, show ((10 : ℤ).toNat - 1) = 9 from rfl]
    norm_num [quadArgs]

/-! ### C72 -/

/-- The conversion of `x[:] = x_next` for an integer array: truncation towards zero. -/
noncomputable def truncInt (x : ℝ) : ℝ := if 0 ≤ x then ⌊x⌋ else ⌈x⌉

/-- `f(x) = (x - 1/2)²/2` from `x0 = 0` with the exact step 1, stored as float or int. -/
noncomputable def intArgs (store : ℝ → ℝ) (m : ℕ) : PGArgs ℝ where
  fg x := ((x - 1 / 2) ^ 2 / 2, x - 1 / 2)
  x0 := 0
  prox := none
  tol := 1 / 1000
  maxIter := m
  callback := none
  step := .callable fun _ _ => 1
  btIter := 1000
  factor := 6 / 10
  traceCert := false
  store := store

theorem intArgs_body (store : ℝ → ℝ) (m : ℕ) (st : PGState ℝ) {w : Option PGWhy}
    (hw : (|st.grad| < 1 / 1000 ∧ w = some .success) ∨ (1 / 1000 ≤ |st.grad| ∧ w = none)) :
    ∃ st', pgBody (intArgs store m) st = .ok (st', w) ∧ st'.x = store (st.x - st.grad) ∧ st'.grad = st.x - st.grad - 1 / 2 := by
  have hcb : pgCallback (intArgs store m) st = (st, false) := rfl
  have hr : pgStepBranch (intArgs store m) st = .ok ⟨st.x - 1 * st.grad, 1, 1, (st.x - 1 * st.grad - 1 / 2) ^ 2 / 2,
      st.x - 1 * st.grad - 1 / 2, true⟩ := rfl
  rw [one_mul] at hr
  have hc : (pgNext (intArgs store m) st ⟨st.x - st.grad, 1, 1, (st.x - st.grad - 1 / 2) ^ 2 / 2,
      st.x - st.grad - 1 / 2, true⟩).certificate = some |st.grad| := by
    show pgCert _ _ _ = _
    unfold pgCert
    rw [if_neg one_ne_zero, inv_one, one_smul, sub_sub_cancel, Real.norm_eq_abs]
  refine ⟨pgNext (intArgs store m) st ⟨st.x - st.grad, 1, 1, (st.x - st.grad - 1 / 2) ^ 2 / 2,
      st.x - st.grad - 1 / 2, true⟩, ?_, rfl, rfl⟩
  unfold pgBody
  rw [hcb]
  simp only [Bool.false_eq_true, if_false, hr, bind, Except.bind, pure, Except.pure]
  rcases hw with ⟨h, rfl⟩ | ⟨h, rfl⟩
  · rw [if_pos]
    rw [hc]; exact ⟨_, rfl, h⟩
  · rw [if_neg]
    rw [hc]
    rintro ⟨r', hr', hlt⟩
    simp only [Option.some.injEq] at hr'
    rw [← hr'] at hlt
    exact absurd hlt (not_lt.mpr h)

/-- **C72 (refuted).** `f(x) = (x - 1/2)²/2`, `x0 = 0`, step 1: stored as floats the run returns the minimiser 1/2; stored as
integers it reports success too, but returns 0, where the gradient is -1/2 - for every `max_iter ≥ 1`. -/
theorem C72_refuted (m : ℕ) : (∃ res, minimizeProximalGradient (intArgs id (m + 1)) = .ok res ∧ res.success = true ∧ res.x = 1 / 2) ∧
    (∃ res, minimizeProximalGradient (intArgs truncInt (m + 1)) = .ok res ∧ res.success = true ∧ res.x = 0) := by
  have run : ∀ store : ℝ → ℝ, (store (1 / 2) = 1 / 2 ∨ store (1 / 2) = 0) → ∃ res, minimizeProximalGradient (intArgs store (m + 1)) = .ok res ∧
      res.success = true ∧ res.x = store (store (1 / 2)) := by
    intro store hs
    obtain ⟨st1, hb1, hx1, hg1⟩ := intArgs_body store (m + 1) (pgInit (intArgs store (m + 1))) (w := none) (Or.inr ⟨by
      show 1 / 1000 ≤ |(0 : ℝ) - 1 / 2|
      norm_num [abs_of_neg], rfl⟩)
    rw [show (pgInit (intArgs store (m + 1))).x = 0 from rfl, show (pgInit (intArgs store (m + 1))).grad = 0 - 1 / 2 from rfl] at hx1 hg1
    norm_num at hx1 hg1
    obtain ⟨st2, hb2, hx2, hg2⟩ := intArgs_body store (m + 1) { st1 with nit := st1.nit + 1 } (w := some .success) (Or.inl ⟨by
      simp only; rw [hg1]; norm_num, rfl⟩)
    simp only [hx1, hg1, sub_zero] at hx2
    refine ⟨{ x := st2.x, success := true, certificate := st2.certificate, nit := st2.nit, stepSize := st2.stepSize,
              trace := st2.trace, warned := false, why := .success, log := st2.log, warnLs := st2.warnLs }, ?_, rfl, hx2⟩
    unfold minimizeProximalGradient
    rw [if_neg (by simp [intArgs]), show (intArgs store (m + 1)).maxIter = m + 1 from rfl, pgLoop, hb1]
    simp only [bind, Except.bind]
    rw [pgLoop, hb2]
    rfl
  have hfl : ⌊(1 / 2 : ℝ)⌋ = 0 := by rw [Int.floor_eq_iff]; norm_num
  have ht : truncInt (1 / 2) = 0 := by
    unfold truncInt
    rw [if_pos (by norm_num), hfl]; simp
  refine ⟨?_, ?_⟩
  · obtain ⟨res, h1, h2, h3⟩ := run id (Or.inl rfl)
    exact ⟨res, h1, h2, h3⟩
  · obtain ⟨res, h1, h2, h3⟩ := run truncInt (Or.inr ht)
    refine ⟨res, h1, h2, ?_⟩
    rw [h3, ht]
    unfold truncInt
    simp

end Copt

namespace Copt

variable {E : Type} [NormedAddCommGroup E] [InnerProductSpace ℝ E]

/-- The log only grows. -/
theorem pgBody_log {P : PGArgs E} {st st' : PGState E} {w : Option PGWhy} (h : pgBody P st = .ok (st', w)) :
    ∃ l, st'.log = st.log ++ l := by
  have e8 := (pgCallback_eq P st).2.2.2.2.2.2.2.1
  rcases pgBody_cases h with ⟨-, -, rfl⟩ | ⟨-, r, -, rfl, -⟩
  · exact ⟨[], by rw [e8]; simp⟩
  · refine ⟨[⟨(pgCallback P st).1.x, r.xNext, r.used, r.step, r.ok⟩], ?_⟩
    show (pgCallback P st).1.log ++ _ = _
    rw [e8]

theorem pgLoop_log {P : PGArgs E} : ∀ (rem : ℕ) (st st' : PGState E) (w : PGWhy), pgLoop P rem st = .ok (st', w) →
    ∃ l, st'.log = st.log ++ l := by
  intro rem
  induction rem with
  | zero =>
    intro st st' w h
    rw [pgLoop] at h
    cases hb : pgBody P st with
    | error e => rw [hb] at h; simp [bind, Except.bind] at h
    | ok r =>
      rw [hb] at h
      obtain ⟨st1, w1⟩ := r
      cases w1 <;>
      · simp only [bind, Except.bind, pure, Except.pure, Except.ok.injEq, Prod.mk.injEq] at h
        rw [← h.1]; exact pgBody_log hb
  | succ rem ih =>
    intro st st' w h
    rw [pgLoop] at h
    cases hb : pgBody P st with
    | error e => rw [hb] at h; simp [bind, Except.bind] at h
    | ok r =>
      rw [hb] at h
      obtain ⟨st1, w1⟩ := r
      cases w1 with
      | some w1 =>
        simp only [bind, Except.bind, pure, Except.pure, Except.ok.injEq, Prod.mk.injEq] at h
        rw [← h.1]; exact pgBody_log hb
      | none =>
        simp only [bind, Except.bind] at h
        obtain ⟨l1, h1⟩ := pgBody_log hb
        obtain ⟨l2, h2⟩ := ih _ _ _ h
        exact ⟨l1 ++ l2, by rw [h2]; simp only [h1, List.append_assoc]⟩

/-- **C72 (partial).** The stored type makes no difference to a run all of whose iterates are represented exactly: if the floating
point run returns and the conversion leaves every iterate unchanged, the run with the conversion is
identical.  Missing: iterates that are not integers, for which the claim is false (`C72_refuted`). -/
theorem C72_exact_partial (P : PGArgs E) (hstore : P.store = id) (conv : E → E) {res : PGResult E}
    (h : minimizeProximalGradient P = .ok res) (hfix : ∀ e ∈ res.log, conv e.xNext = e.xNext) :
    minimizeProximalGradient { P with store := conv } = .ok res := by
  set Q : PGArgs E := { P with store := conv } with hQ
  have hcb : ∀ st, pgCallback Q st = pgCallback P st := fun st => rfl
  have hsb : ∀ st, pgStepBranch Q st = pgStepBranch P st := fun st => rfl
  have hbody : ∀ st st' w, pgBody P st = .ok (st', w) → (∀ e ∈ st'.log, conv e.xNext = e.xNext) → pgBody Q st = .ok (st', w) := by
    intro st st' w hb hf
    rcases pgBody_cases hb with ⟨rfl, hc, rfl⟩ | ⟨hc, r, hr, rfl, hw⟩
    · unfold pgBody
      rw [hcb, if_pos hc]; rfl
    · have hx : conv r.xNext = r.xNext := hf ⟨(pgCallback P st).1.x, r.xNext, r.used, r.step, r.ok⟩ (by
        show _ ∈ (pgCallback P st).1.log ++ [_]
        simp)
      have hn : pgNext Q (pgCallback P st).1 r = pgNext P (pgCallback P st).1 r := by
        unfold pgNext
        simp only [hQ, hx, hstore, id]
      unfold pgBody
      rw [hcb, if_neg (by rw [hc]; simp), hsb, hr]
      simp only [bind, Except.bind, pure, Except.pure, hn]
      rcases hw with ⟨rfl, hlt⟩ | ⟨rfl, hlt⟩
      · rw [if_pos (show certLt (pgNext Q (pgCallback P st).1 r).certificate Q.tol by rw [hn]; exact hlt)]
      · rw [if_neg (show ¬ certLt (pgNext Q (pgCallback P st).1 r).certificate Q.tol by rw [hn]; exact hlt)]
  have hloop : ∀ rem st st' w, pgLoop P rem st = .ok (st', w) → (∀ e ∈ st'.log, conv e.xNext = e.xNext) → pgLoop Q rem st = .ok (st', w) := by
    intro rem
    induction rem with
    | zero =>
      intro st st' w hl hf
      rw [pgLoop] at hl ⊢
      cases hb : pgBody P st with
      | error e => rw [hb] at hl; simp [bind, Except.bind] at hl
      | ok r =>
        rw [hb] at hl
        obtain ⟨st1, w1⟩ := r
        cases w1 <;>
        · simp only [bind, Except.bind, pure, Except.pure, Except.ok.injEq, Prod.mk.injEq] at hl
          obtain ⟨rfl, rfl⟩ := hl
          rw [hbody _ _ _ hb hf]; rfl
    | succ rem ih =>
      intro st st' w hl hf
      rw [pgLoop] at hl ⊢
      cases hb : pgBody P st with
      | error e => rw [hb] at hl; simp [bind, Except.bind] at hl
      | ok r =>
        rw [hb] at hl
        obtain ⟨st1, w1⟩ := r
        cases w1 with
        | some w1 =>
          simp only [bind, Except.bind, pure, Except.pure, Except.ok.injEq, Prod.mk.injEq] at hl
          obtain ⟨rfl, rfl⟩ := hl
          rw [hbody _ _ _ hb hf]; rfl
        | none =>
          simp only [bind, Except.bind] at hl
          obtain ⟨l, hl'⟩ := pgLoop_log _ _ _ _ hl
          have hf1 : ∀ e ∈ st1.log, conv e.xNext = e.xNext := fun e he => hf e (by
            rw [hl']; exact List.mem_append_left _ he)
          rw [hbody _ _ _ hb hf1]
          simp only [bind, Except.bind]
          exact ih _ _ _ hl hf
  obtain ⟨hbt, st, w, hr, rfl⟩ := minimizePG_ok h
  unfold minimizeProximalGradient
  rw [if_neg (show ¬ Q.btIter ≤ 0 by show ¬ P.btIter ≤ 0; omega), show pgInit Q = pgInit P from rfl, hloop _ _ _ _ hr hfix]
  rfl

end Copt
