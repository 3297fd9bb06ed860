import Verif.Props.ThreeSplit

/-! # Property C79: growing the step size when `h_Lipschitz` is given -/

set_option linter.unusedSectionVars false

namespace Copt

open Spec

open scoped InnerProductSpace

variable {E : Type} [NormedAddCommGroup E] [InnerProductSpace ℝ E]

theorem tsGrow_bounds {ls : Bool} {h step lsTol : ℝ} (hs : 0 < step) (htol : 2 * lsTol < step * h ^ 2) :
    ∃ s, tsGrow ls (some h) step lsTol = some s ∧ 0 < s ∧ s ≤ step * (102 / 100) ∧ (ls = true → lsTol ≤ 0 → step ≤ s) := by
  cases ls
  · exact ⟨step, rfl, hs, by nlinarith, by simp⟩
  · unfold tsGrow
    simp only
    by_cases h0 : h = 0
    · rw [if_pos h0]; exact ⟨_, rfl, by positivity, le_refl _, fun _ _ => by nlinarith⟩
    · have hh : 0 < h ^ 2 := by positivity
      have e : step ^ 2 + (2 * step / h ^ 2) * (-lsTol) = step / h ^ 2 * (step * h ^ 2 - 2 * lsTol) := by field_simp; ring
      have ha : 0 < step ^ 2 + (2 * step / h ^ 2) * (-lsTol) := by
        rw [e]; exact mul_pos (by positivity) (by linarith)
      simp only [if_neg h0, if_neg (not_lt.mpr ha.le)]
      refine ⟨_, rfl, lt_min (Real.sqrt_pos.mpr ha) (by positivity), min_le_right _ _, fun _ hl => le_min ?_ (by nlinarith)⟩
      refine Real.le_sqrt_of_sq_le ?_
      have : 0 ≤ (2 * step / h ^ 2) * (-lsTol) := mul_nonneg (by positivity) (by linarith)
      linarith

/-- **C79 (partial).** With `h_Lipschitz = h` and from a finite state with positive step size: an iteration leaves a positive step size, at most 2%
above the one it used, as long as the quantity `ls_tol` left by its line search stays below `step * h²/2`; when `ls_tol ≤ 0` the step size does not
shrink.  Missing: the condition on `ls_tol`, which can fail (`C79_refuted`). -/
theorem C79_grow_partial {P : TSArgs E} (hP : TSOk P) {h : ℝ} (hh : P.hLip = some h) {st : TSState E} {s : ℝ} (hn : st.nan = false)
    (hst : st.step = some s) (hs : 0 < s)
    (htol : 2 * (tsStep P st.z st.u s).1.lsTol < (tsStep P st.z st.u s).1.step * h ^ 2) :
    ∃ s', (tsNext P st).step = some s' ∧ (tsNext P st).nan = false ∧ 0 < s' ∧ s' ≤ (tsStep P st.z st.u s).1.step * (102 / 100) ∧
      ((tsStep P st.z st.u s).2 = true → (tsStep P st.z st.u s).1.lsTol ≤ 0 → (tsStep P st.z st.u s).1.step ≤ s') := by
  have hp := (tsStep_spec hP.factor st.z st.u hs).2.1
  rw [tsNext_eq hn hst hp.ne', hh]
  obtain ⟨s', h1, h2, h3, h4⟩ := tsGrow_bounds (ls := (tsStep P st.z st.u s).2) (h := h) hp htol
  exact ⟨s', h1, rfl, h2, h3, h4⟩

/-- The search of one iteration succeeds when its last trial step is at most `1/L`. -/
theorem tsSearch_ok {f : E → ℝ} {g : E → E} {L : ℝ} (hq : UpperQuad f g L) {prox1 : E → ℝ → E} {z u : E} {factor : ℝ} (hf : 0 < factor) :
    ∀ k step, 0 < step → step * factor ^ k * L ≤ 1 → (tsSearch (fun x => (f x, g x)) prox1 z u (g z) (f z) factor k step).ok = true := by
  have key : ∀ (s : ℝ) (x : E), 0 < s → s * L ≤ 1 → f x - (f z + ⟪g z, x - z⟫_ℝ + ‖x - z‖ ^ 2 / (2 * s)) ≤ lsEps := by
    intro s x hs hL
    have h1 := hq z x
    have h2 : L / 2 * ‖x - z‖ ^ 2 ≤ ‖x - z‖ ^ 2 / (2 * s) := by
      rw [le_div_iff₀ (by positivity)]
      nlinarith [mul_le_mul_of_nonneg_right hL (sq_nonneg ‖x - z‖)]
    have h3 : 0 ≤ lsEps := by unfold lsEps; positivity
    linarith
  intro k
  induction k with
  | zero =>
    intro step hs h
    rw [tsSearch]
    simp only
    rw [if_pos (key _ _ hs (by simpa using h))]
  | succ k ih =>
    intro step hs h
    rw [tsSearch]
    simp only
    split
    · rfl
    · exact ih _ (by positivity) (by rw [mul_assoc step, mul_comm factor, ← pow_succ]; exact h)

/-- **C79 (enough trials).** If `f` has quadratic upper bound `L` and the last trial step is at most `1/L`, `ls_tol` is at most the machine
epsilon; so a step size above `2 eps / h²` stays positive and finite. -/
theorem C79_enough_trials_partial {P : TSArgs E} (hP : TSOk P) {f : E → ℝ} {g : E → E} (hfg : P.fg = fun x => (f x, g x)) {L : ℝ}
    (hq : UpperQuad f g L) {h : ℝ} (hh : P.hLip = some h) {st : TSState E} {s : ℝ} (hn : st.nan = false) (hst : st.step = some s) (hs : 0 < s)
    (hbt : s * P.factor ^ (P.btIter.toNat - 1) * L ≤ 1) (hbig : 2 * lsEps < (tsStep P st.z st.u s).1.step * h ^ 2) :
    ∃ s', (tsNext P st).step = some s' ∧ (tsNext P st).nan = false ∧ 0 < s' ∧ s' ≤ (tsStep P st.z st.u s).1.step * (102 / 100) := by
  have hl : (tsStep P st.z st.u s).1.lsTol ≤ lsEps := by
    rcases hb : (tsStep P st.z st.u s).2 with _ | _
    · have : (tsStep P st.z st.u s).1.lsTol = 0 := by
        unfold tsStep at hb ⊢
        simp only at hb ⊢
        rw [hb]
        rfl
      rw [this]; unfold lsEps; positivity
    · refine ((tsStep_spec hP.factor st.z st.u hs).2.2.2.2.2.2.2 hb).2 ?_
      unfold tsStep at hb ⊢
      simp only at hb ⊢
      rw [hb, if_pos rfl, hfg]
      exact tsSearch_ok hq hP.factor _ _ hs hbt
  obtain ⟨s', h1, h2, h3, h4, -⟩ := C79_grow_partial hP hh hn hst hs (by linarith)
  exact ⟨s', h1, h2, h3, h4⟩

/-- Arguments for the witnesses: `f(x) = x²/2` from `x0 = 1`, no penalties, first step size `4`, one line search trial, `h_Lipschitz = 1`. -/
noncomputable def tsNanArgs : TSArgs ℝ :=
  { fg := fun x => (x ^ 2 / 2, x), x0 := 1, prox1 := none, prox2 := none, tol := 1 / 1000000, maxIter := 1000, callback := none,
    lineSearch := true, stepSize := some 4, btIter := 1, factor := 1 / 2, hLip := some 1 }

/-- **C79 refuted.** For these arguments the first step size computed is the square root of a negative number: every later iterate is nan, the
run uses its 1000 iterations and returns nan. -/
theorem C79_refuted : (tsIter tsNanArgs 1).step = none ∧
    ∃ res, minimizeThreeSplit tsNanArgs = .ok res ∧ res.success = false ∧ res.x = none ∧ res.certificate = none ∧ res.nit = 999 := by
  have h1 : (tsIter tsNanArgs 1).step = none := by
    rw [tsIter_succ]
    have e : tsStep tsNanArgs (tsIter tsNanArgs 0).z (tsIter tsNanArgs 0).u 4 = (⟨-3, 4, 2, 6, false⟩, true) := by
      show tsStep tsNanArgs 1 0 4 = _
      unfold tsStep
      have hls : (decide (1 / 10 ^ 7 < ‖tsNanArgs.p1 (1 - (4 : ℝ) • (0 + (tsNanArgs.fg 1).2)) 4 - 1‖) && tsNanArgs.search) = true := by
        simp only [tsNanArgs, TSArgs.p1, TSArgs.search, Bool.and_eq_true]
        norm_num
      simp only [hls, if_true]
      rw [show tsNanArgs.btIter.toNat - 1 = 0 from rfl, tsSearch]
      have hx : tsNanArgs.p1 (1 - (4 : ℝ) • (0 + (tsNanArgs.fg 1).2)) 4 = -3 := by
        simp only [tsNanArgs, TSArgs.p1]; norm_num
      have hl : (tsNanArgs.fg (-3)).1 - ((tsNanArgs.fg 1).1 + ⟪(tsNanArgs.fg 1).2, (-3 : ℝ) - 1⟫_ℝ + ‖(-3 : ℝ) - 1‖ ^ 2 / (2 * 4)) = 6 := by
        rw [show ⟪(tsNanArgs.fg 1).2, (-3 : ℝ) - 1⟫_ℝ = ((-3 : ℝ) - 1) * 1 from rfl]
        simp only [tsNanArgs]
        norm_num
      simp only [hx, hl]
      rw [if_neg (by unfold lsEps; norm_num)]
      simp only [tsNanArgs]
      norm_num
    rw [tsNext_eq (step := 4) rfl rfl (by rw [e]; norm_num), e]
    show tsGrow true (some 1) 2 6 = none
    unfold tsGrow
    simp only
    rw [if_neg one_ne_zero]
    rw [if_pos (by norm_num)]
  refine ⟨h1, ?_⟩
  have h2 : ∀ k, (tsIter tsNanArgs (k + 2)).nan = true ∧ (tsIter tsNanArgs (k + 2)).certificate = none := by
    intro k
    induction k with
    | zero => rw [tsIter_succ, tsNext_nan (Or.inr (Or.inl h1))]; exact ⟨rfl, rfl⟩
    | succ k ih => rw [tsIter_succ, tsNext_nan (Or.inl ih.1)]; exact ⟨rfl, rfl⟩
  obtain ⟨res, hres⟩ := minimizeTS_total (P := tsNanArgs) (by decide) (by decide)
  obtain ⟨-, -, hx, hc, -, -, -, -, hsuc, -, hcb, hdone, hexh⟩ := minimizeTS_ok hres
  have hncb : res.why ≠ .callback := fun h => by
    have := hcb.mp h
    rw [show tsCallback tsNanArgs res.nit (tsIter tsNanArgs (res.nit + 1)) = false from rfl] at this
    cases this
  have hns : res.why ≠ .success := fun h => by
    obtain ⟨-, hpos, c, hcc, -⟩ := hdone.mp h
    obtain ⟨j, hj⟩ := Nat.exists_eq_add_one_of_ne_zero hpos.ne'
    rw [hj, (h2 j).2] at hcc
    cases hcc
  have hex : res.why = .exhausted := by
    cases hw : res.why
    · exact absurd hw hncb
    · exact absurd hw hns
    · rfl
  have hnit : res.nit = 999 := by have := hexh hex; simp only [tsNanArgs] at this; omega
  refine ⟨res, hres, ?_, ?_, ?_, hnit⟩
  · by_contra h
    exact hns (hsuc.mp (by simpa using h))
  · rw [hx, hnit, (h2 998).1]; rfl
  · rw [hc, hnit]; exact (h2 998).2

/-- The hypotheses of `C79_enough_trials_partial` hold for the same problem with step size `1` and the default number of trials. -/
example : let P : TSArgs ℝ := { tsNanArgs with stepSize := some 1, btIter := 100 }
    TSOk P ∧ UpperQuad (fun x : ℝ => x ^ 2 / 2) (fun x => x) 1 ∧ (tsInit P).step = some 1 ∧ (tsInit P).nan = false ∧
      (1 : ℝ) * P.factor ^ (P.btIter.toNat - 1) * 1 ≤ 1 := by
  refine ⟨⟨by norm_num [tsNanArgs], by intro s h; cases h; norm_num⟩, ?_, rfl, rfl, ?_⟩
  · intro x y
    show y ^ 2 / 2 ≤ x ^ 2 / 2 + (y - x) * x + 1 / 2 * |y - x| ^ 2
    rw [sq_abs]; nlinarith
  · rw [one_mul, mul_one]
    exact pow_le_one₀ (by norm_num [tsNanArgs]) (by norm_num [tsNanArgs])

end Copt
