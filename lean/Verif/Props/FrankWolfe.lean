import Mathlib.Order.Bounds.Basic
import Verif.Proof.FrankWolfe

/-! # Properties C35-C40, C43: `minimize_frank_wolfe`, vanilla variant -/

set_option linter.unusedSectionVars false

namespace Copt

open Spec

open scoped InnerProductSpace

variable {E Rep : Type} [NormedAddCommGroup E] [InnerProductSpace ℝ E]

/-! ### C38 backtracking -/

/-- **C38 (contract).** For every objective and every positive gap. -/
theorem C38_backtracking (fg : E → ℝ × E) (x d : E) (fT : ℝ) (oldF : Option ℝ) {cert lip maxStep normD : ℝ}
    (hc : 0 < cert) (hl : 0 ≤ lip) (hm : 0 ≤ maxStep) (hn : 0 ≤ normD) :
    let r := backtrackingStepSize x fT oldF fg cert lip maxStep d normD
    0 ≤ r.step ∧ r.step ≤ maxStep ∧ 9 / 10 * lip ≤ r.lip ∧ (r.fNext, r.gradNext) = fg (x + r.step • d) ∧
      (r.warned = false → r.fNext ≤ fT - r.step * cert / 2 + fwEPS) := by
  have h0 := btInit_bounds hl oldF fT cert normD
  obtain ⟨h1, h2, h3, h4, h5⟩ := btLoop_spec fg x d fT hc hn hm 99 (btInit oldF fT cert normD lip) (by linarith)
  exact ⟨h1, h2, by unfold backtrackingStepSize; linarith, h4, h5⟩

/-- **C38 (termination of the search).** If the objective satisfies the quadratic upper bound with constant
`L ≤ 2^99 * 0.9 * lipschitz_t` the search does not warn and the new estimate is at most `max(lipschitz_t, 2 L)`. -/
theorem C38_no_warning {f : E → ℝ} {g : E → E} {L : ℝ} (hq : UpperQuad f g L) (x d : E) (oldF : Option ℝ)
    {lip maxStep : ℝ} (hc : 0 < ⟪d, -g x⟫_ℝ) (hl : 0 ≤ lip) (hm : 0 ≤ maxStep) (hL : L ≤ 2 ^ 99 * (9 / 10 * lip)) :
    let r := backtrackingStepSize x (f x) oldF (fun x => (f x, g x)) ⟪d, -g x⟫_ℝ lip maxStep d (‖d‖ ^ 2)
    r.warned = false ∧ r.lip ≤ max lip (2 * L) := by
  have h0 := btInit_bounds hl oldF (f x) ⟪d, -g x⟫_ℝ (‖d‖ ^ 2)
  have h := btLoop_smooth (fun x => (f x, g x)) x d (f x) (L := L) hc (sq_nonneg ‖d‖) hm (fun s _ _ => by
    have := hq x (x + s • d)
    rw [add_sub_cancel_left, inner_smul_right, norm_smul, mul_pow, Real.norm_eq_abs, sq_abs] at this
    have hin : ⟪g x, d⟫_ℝ = -⟪d, -g x⟫_ℝ := by rw [inner_neg_right, real_inner_comm]; ring
    rw [hin] at this
    show f (x + s • d) ≤ _
    linarith) 99 (btInit oldF (f x) ⟪d, -g x⟫_ℝ (‖d‖ ^ 2) lip) (by linarith)
    (le_trans hL (mul_le_mul_of_nonneg_left h0.1 (by positivity)))
  exact ⟨h.1, le_trans h.2 (max_le_max_right _ h0.2)⟩

/-- The hypotheses hold e.g. for `x^2/2` at 1 with direction -1, estimate 1 and maximal step 1. -/
example : (0 : ℝ) < ⟪(-1 : ℝ), -(1 : ℝ)⟫_ℝ ∧ (1 : ℝ) ≤ 2 ^ 99 * (9 / 10 * 1) ∧
    UpperQuad (fun x : ℝ => x ^ 2 / 2) (fun x => x) 1 := by
  refine ⟨by norm_num [inner], by norm_num, fun x y => ?_⟩
  simp only [Real.norm_eq_abs, sq_abs]
  have : ⟪x, y - x⟫_ℝ = (y - x) * x := rfl
  rw [this]; nlinarith

variable [DecidableEq Rep]

/-! ### C35 feasibility -/

/-- **C35.** With a convex set, an LMO returning `s - x` for some `s` of the set and a maximal step in `[0, 1]`, and any
of the three step rules, every iterate, every `x` shown to the callback and the returned `x` are in the set - for every
objective (`fg` is arbitrary), tolerance, callback and number of iterations. -/
theorem C35_feasible (P : FWArgs E Rep) {C : Set E} (hC : Convex ℝ C) (hv : P.variant = "vanilla") (hx0 : P.x0 ∈ C)
    (hstep : P.step = .str "backtracking" ∨ P.step = .str "DR" ∨ P.step = .str "sublinear")
    (hlip : ∀ L, P.lipschitz = some L → 0 ≤ L)
    (hlmo : ∀ it u x o, x ∈ C → P.lmo it u x none = .ok o → ∃ s ∈ C, o.dir = s - x)
    (hmax : ∀ it u x o, P.lmo it u x none = .ok o → 0 ≤ o.maxStep ∧ o.maxStep ≤ 1)
    {res : FWResult E Rep} (h : minimizeFrankWolfe P = .ok res) :
    res.x ∈ C ∧ (∀ l ∈ res.cbs, l.x ∈ C) ∧ ∀ y ∈ res.iters, y ∈ C := by
  obtain ⟨htol, act, st, w, ha, hloop, hfin⟩ := minimizeFW_ok h
  have htol := not_lt.mp htol
  obtain rfl := vanilla_act hv ha
  obtain ⟨l, hl, hrx, -, -, -, -, hri, hrc⟩ := fwFinish_ok hfin
  have key := fwLoop_induct (P := P)
    (fun it st => FWBase P it st ∧ st.x ∈ C ∧ (∀ l ∈ st.cbs, l.x ∈ C) ∧ ∀ y ∈ st.iters, y ∈ C)
    (fun _ st _ => st.x ∈ C ∧ (∀ l ∈ st.cbs, l.x ∈ C) ∧ ∀ y ∈ st.iters, y ∈ C)
    (by
      rintro it st st' ⟨hB, hx, hcb, hi⟩ hb
      obtain ⟨o, s, ho, hc, hs, hl0, hx', hi', -, -, hcb', hB'⟩ :=
        fw_step htol hB (fun it u x o ho => (hmax it u x o ho).1) hb
      refine ⟨hB', ?_, ?_, ?_⟩
      · obtain ⟨v, hv, hdir⟩ := hlmo _ _ _ _ hx ho
        have hcert : 0 < (fwLocals P it st o).certificate := by
          show 0 < ⟪o.dir, -st.grad⟫_ℝ
          rw [show st.grad = (P.fg st.x).2 by rw [← hB.fg]]; linarith
        have hstep01 : 0 ≤ s.step ∧ s.step ≤ 1 := by
          rcases hstep with h1 | h1 | h1
          · have := fwStepSize_le_max (Or.inl h1) hs hcert hl0 (hmax _ _ _ _ ho).1
            exact ⟨this.1, le_trans this.2 (hmax _ _ _ _ ho).2⟩
          · have := fwStepSize_le_max (Or.inr h1) hs hcert hl0 (hmax _ _ _ _ ho).1
            exact ⟨this.1, le_trans this.2 (hmax _ _ _ _ ho).2⟩
          · unfold fwStepSize at hs
            rw [h1] at hs
            simp only [show ("sublinear" = "backtracking") = False by decide, show ("sublinear" = "DR") = False by decide,
              if_false, if_true, Except.ok.injEq] at hs
            subst hs
            have ht : (0 : ℝ) ≤ ((fwLocals P it st o).it : ℝ) := Nat.cast_nonneg _
            exact ⟨by positivity, by rw [div_le_one (by linarith)]; linarith⟩
        rw [hx', hdir]
        exact hC.add_smul_sub_mem hx hv ⟨hstep01.1, hstep01.2⟩
      · rw [hcb']
        cases P.callback with
        | none => exact hcb
        | some cb =>
          intro l hl
          rcases List.mem_append.mp hl with hl | hl
          · exact hcb l hl
          · rw [List.mem_singleton.mp hl]; exact hx
      · rw [hi']
        intro y hy
        rcases List.mem_append.mp hy with hy | hy
        · exact hi y hy
        · rw [List.mem_singleton.mp hy]; exact hx)
    (by
      rintro it st st' w ⟨hB, hx, hcb, hi⟩ hb
      obtain ⟨o, l, ho, hx', hi', -, -, hlx, -, -, -, -, -, hw⟩ := fw_stop hB hb
      refine ⟨hx' ▸ hx, ?_, hi' ▸ hi⟩
      rcases hw with ⟨-, -, hcb'⟩ | ⟨-, -, hcb', -⟩
      · rw [hcb']; exact hcb
      · rw [hcb']
        intro l' hl'
        rcases List.mem_append.mp hl' with hl' | hl'
        · exact hcb l' hl'
        · rw [List.mem_singleton.mp hl', hlx]; exact hx)
    P.maxIter 0 _ ⟨fwBase_init hlip, hx0, by simp [fwInit], by simp [fwInit]⟩ st w hloop
  have hst : st.x ∈ C ∧ (∀ l ∈ st.cbs, l.x ∈ C) ∧ ∀ y ∈ st.iters, y ∈ C := by
    rcases key with ⟨_, -, -, h1⟩ | ⟨-, -, h1⟩ <;> exact h1
  refine ⟨hrx ▸ hst.1, ?_, ?_⟩
  · rw [hrc]
    cases P.callback with
    | none => exact hst.2.1
    | some cb =>
      intro l hl
      rcases List.mem_append.mp hl with hl | hl
      · exact hst.2.1 l hl
      · rw [List.mem_singleton.mp hl]; exact hst.1
  · rw [hri]
    intro y hy
    rcases List.mem_append.mp hy with hy | hy
    · exact hst.2.2 y hy
    · rw [List.mem_singleton.mp hy]; exact hst.1

/-! ### C36, C37 certificates -/

/-- The LMO is exact over `C`: it returns `s - x` with `s` maximising `⟪u, ·⟫` over `C`. -/
def ExactLmo (C : Set E) (lmo : ℕ → E → E → Option (ActiveSet Rep ℝ) → Except PyErr (LmoOut E Rep ℝ)) : Prop :=
  ∀ it u x o, lmo it u x none = .ok o → ∃ s ∈ C, o.dir = s - x ∧ ∀ s' ∈ C, ⟪u, s'⟫_ℝ ≤ ⟪u, s⟫_ℝ

/-- `G` is the Frank-Wolfe gap of a function with gradient `gx` at `x` over `C`. -/
def IsFWGap (C : Set E) (gx x : E) (G : ℝ) : Prop := IsGreatest ((fun s => ⟪gx, x - s⟫_ℝ) '' C) G

theorem gap_of_exact {C : Set E} {lmo : ℕ → E → E → Option (ActiveSet Rep ℝ) → Except PyErr (LmoOut E Rep ℝ)}
    (hex : ExactLmo C lmo) {it : ℕ} {gx x : E} {o : LmoOut E Rep ℝ} (ho : lmo it (-gx) x none = .ok o) :
    IsFWGap C gx x ⟪o.dir, -gx⟫_ℝ := by
  obtain ⟨s, hs, hd, hmax⟩ := hex _ _ _ _ ho
  have e : ∀ v, ⟪gx, x - v⟫_ℝ = ⟪v - x, -gx⟫_ℝ := fun v => by
    rw [inner_neg_right, real_inner_comm, ← inner_neg_left, neg_sub]
  refine ⟨⟨s, hs, ?_⟩, ?_⟩
  · simp only [e, hd]
  · rintro _ ⟨v, hv, rfl⟩
    simp only [e, hd]
    have := hmax v hv
    rw [real_inner_comm, real_inner_comm s] at this
    rw [inner_sub_left, inner_sub_left]
    linarith

/-- **C37 (partial).** Unless the iterations were exhausted, the reported certificate is the Frank-Wolfe gap at the
returned `x`.  Missing: runs stopped by `max_iter`, for which the claim is false (`C37_refuted`). -/
theorem C37_certificate_partial (P : FWArgs E Rep) {C : Set E} (hv : P.variant = "vanilla")
    (hlip : ∀ L, P.lipschitz = some L → 0 ≤ L) (hex : ExactLmo C P.lmo)
    (hmax : ∀ it u x o, P.lmo it u x none = .ok o → 0 ≤ o.maxStep)
    {res : FWResult E Rep} (h : minimizeFrankWolfe P = .ok res) (hw : res.why ≠ .exhausted) :
    IsFWGap C (P.fg res.x).2 res.x res.certificate ∧ (res.why = .converged ↔ res.certificate ≤ P.tol) := by
  obtain ⟨htol, act, st, w, ha, hloop, hfin⟩ := minimizeFW_ok h
  have htol := not_lt.mp htol
  obtain rfl := vanilla_act hv ha
  obtain ⟨l, hl, hrx, -, hrc, -, hrw, -⟩ := fwFinish_ok hfin
  have key := fwLoop_induct (P := P) (fun it st => FWBase P it st)
    (fun _ st w => ∃ l, st.last = some l ∧ IsFWGap C (P.fg st.x).2 st.x l.certificate ∧
      (w = .converged ↔ l.certificate ≤ P.tol))
    (by
      intro it st st' hB hb
      obtain ⟨_, _, _, _, _, _, _, _, _, _, _, hB'⟩ := fw_step htol hB hmax hb
      exact hB')
    (by
      intro it st st' w hB hb
      obtain ⟨o, l, ho, hx', -, hl, -, -, -, hcert, -, -, -, hw⟩ := fw_stop hB hb
      refine ⟨l, hl, ?_, ?_⟩
      · rw [hx', hcert]; exact gap_of_exact hex ho
      · rcases hw with ⟨h1, h2, -⟩ | ⟨h1, h2, -⟩
        · exact ⟨fun _ => h2, fun _ => h1⟩
        · exact ⟨fun h3 => (by rw [h1] at h3; cases h3), fun h3 => absurd h3 (not_le.mpr h2)⟩)
    P.maxIter 0 _ (fwBase_init hlip) st w hloop
  rcases key with ⟨_, -, -, l', hl', hg, hiff⟩ | ⟨hex, -⟩
  · rw [hl] at hl'
    simp only [Option.some.injEq] at hl'
    subst hl'
    rw [hrx, hrc, hrw]
    exact ⟨hg, hiff⟩
  · exact absurd (hrw.trans hex) hw

/-- On exhaustion the reported certificate is above the tolerance. -/
theorem exhausted_certificate (P : FWArgs E Rep) (hv : P.variant = "vanilla")
    (hlip : ∀ L, P.lipschitz = some L → 0 ≤ L) (hmax : ∀ it u x o, P.lmo it u x none = .ok o → 0 ≤ o.maxStep)
    {res : FWResult E Rep} (h : minimizeFrankWolfe P = .ok res) (hw : res.why = .exhausted) :
    P.tol < res.certificate := by
  obtain ⟨htol, act, st, w, ha, hloop, hfin⟩ := minimizeFW_ok h
  have htol := not_lt.mp htol
  obtain rfl := vanilla_act hv ha
  obtain ⟨l, hl, -, -, hrc, -, hrw, -⟩ := fwFinish_ok hfin
  have key := fwLoop_induct (P := P)
    (fun it st => FWBase P it st ∧ ∀ l, st.last = some l → P.tol < l.certificate)
    (fun _ st w => w ≠ .exhausted)
    (by
      rintro it st st' ⟨hB, -⟩ hb
      obtain ⟨o, s, ho, hc, _, _, _, _, _, hl, _, hB'⟩ := fw_step htol hB hmax hb
      refine ⟨hB', fun l hl' => ?_⟩
      rw [hl] at hl'
      simp only [Option.some.injEq] at hl'
      subst hl'
      show P.tol < ⟪o.dir, -st.grad⟫_ℝ
      rw [show st.grad = (P.fg st.x).2 by rw [← hB.fg]]; exact hc)
    (by
      rintro it st st' w ⟨hB, -⟩ hb
      obtain ⟨_, _, _, _, _, _, _, _, _, _, _, _, _, hw⟩ := fw_stop hB hb
      rcases hw with ⟨h1, -⟩ | ⟨h1, -⟩ <;> rw [h1] <;> decide)
    P.maxIter 0 _ ⟨fwBase_init hlip, by simp [fwInit]⟩ st w hloop
  rcases key with ⟨_, -, -, h1⟩ | ⟨-, -, h1⟩
  · exact absurd (hrw.symm.trans hw) h1
  · rw [hrc]; exact h1 l hl

/-- **C36.** If `f` is convex on the (convex or not) set `C` and the LMO is exact over `C`, a run that reports a
certificate of at most `tol` returns an `x` with `f(x) ≤ f(y) + certificate ≤ f(y) + tol` for all `y ∈ C`, and the
certificate is its Frank-Wolfe gap. -/
theorem C36_certificate_bound (P : FWArgs E Rep) {C : Set E} {f : E → ℝ} {g : E → E} (hfg : ∀ x, (P.fg x).2 = g x)
    (hconv : ∀ x, ∀ y ∈ C, f x + ⟪g x, y - x⟫_ℝ ≤ f y) (hv : P.variant = "vanilla")
    (hlip : ∀ L, P.lipschitz = some L → 0 ≤ L) (hex : ExactLmo C P.lmo)
    (hmax : ∀ it u x o, P.lmo it u x none = .ok o → 0 ≤ o.maxStep)
    {res : FWResult E Rep} (h : minimizeFrankWolfe P = .ok res) (hc : res.certificate ≤ P.tol) :
    IsFWGap C (g res.x) res.x res.certificate ∧ ∀ y ∈ C, f res.x ≤ f y + res.certificate ∧ f res.x ≤ f y + P.tol := by
  have hw : res.why ≠ .exhausted := fun hw =>
    absurd hc (not_le.mpr (exhausted_certificate P hv hlip hmax h hw))
  have hg := (C37_certificate_partial P hv hlip hex hmax h hw).1
  rw [hfg] at hg
  refine ⟨hg, fun y hy => ?_⟩
  have h1 := hg.2 ⟨y, hy, rfl⟩
  have h2 := hconv res.x y hy
  simp only at h1
  have h3 : ⟪g res.x, y - res.x⟫_ℝ = -⟪g res.x, res.x - y⟫_ℝ := by rw [← inner_neg_right, neg_sub]
  constructor <;> linarith

/-- The exact LMO of `[-1, 1]` (no active set, maximal step 1). -/
noncomputable def intervalLmo : ℕ → ℝ → ℝ → Option (ActiveSet Unit ℝ) → Except PyErr (LmoOut ℝ Unit ℝ) :=
  fun _ u x _ => .ok ⟨(if 0 ≤ u then 1 else -1) - x, some (), none, 1⟩

theorem intervalLmo_exact : ExactLmo (Set.Icc (-1 : ℝ) 1) intervalLmo := by
  intro it u x o ho
  simp only [intervalLmo, Except.ok.injEq] at ho
  subst ho
  refine ⟨if 0 ≤ u then 1 else -1, by split <;> simp, rfl, fun s' hs' => ?_⟩
  have e : ∀ a b : ℝ, ⟪a, b⟫_ℝ = b * a := fun _ _ => rfl
  rw [e, e]
  split
  · rename_i h; nlinarith [hs'.2]
  · rename_i h; nlinarith [hs'.1, not_le.mp h]

/-- A run of one iteration with the DR step. -/
noncomputable def oneStepArgs : FWArgs ℝ Unit :=
  { fg := fun x => (x ^ 2 / 2, x), x0 := 1, lmo := intervalLmo, x0Rep := none, variant := "vanilla",
    step := .str "DR", lipschitz := some 1, maxIter := 1, tol := 0, callback := none }

theorem oneStep_result : ∃ res, minimizeFrankWolfe oneStepArgs = .ok res ∧ res.x = 0 ∧ res.certificate = 2 := by
  have e : ∀ a b : ℝ, ⟪a, b⟫_ℝ = b * a := fun _ _ => rfl
  have hcert : ⟪(-1 - 1 : ℝ), -(1 : ℝ)⟫_ℝ = 2 := by rw [e]; norm_num
  have hstep : btStep 2 (‖(-1 - 1 : ℝ)‖ ^ 2) 1 1 = 1 / 2 := by
    have hn : ‖(-1 - 1 : ℝ)‖ ^ 2 = 4 := by rw [Real.norm_eq_abs, sq_abs]; norm_num
    rw [hn, btStep, if_pos]
    · norm_num
    · constructor <;> norm_num
  refine ⟨_, by
    simp only [minimizeFrankWolfe, oneStepArgs, fwActive0, fwInit, fwLoop, fwBody, intervalLmo, bind, Except.bind,
      lt_self_iff_false, if_true, if_false, fwLocals, fwLip, fwStepSize, pure, Except.pure]
    rw [if_neg (by norm_num : ¬ (0:ℝ) ≤ -1), hcert, if_neg (by norm_num : ¬ (2:ℝ) ≤ 0)]
    simp only [show ("DR" = "backtracking") = False by decide, if_false, reduceCtorEq, fwCallback, fwMove, fwUpdateActive,
      Bool.false_eq_true, bind, Except.bind, pure, Except.pure, fwFinish, hstep]
    rfl, ?_, ?_⟩
  · simp only; norm_num
  · rfl

/-- **C37 (refuted).** Minimising `x^2/2` over `[-1, 1]` from 1 with one DR step (`lipschitz = 1`), the returned point is 0,
whose gap is 0, but the reported certificate is 2. -/
theorem C37_refuted : ∃ res, minimizeFrankWolfe oneStepArgs = .ok res ∧ ExactLmo (Set.Icc (-1 : ℝ) 1) oneStepArgs.lmo ∧
    ¬ IsFWGap (Set.Icc (-1 : ℝ) 1) (oneStepArgs.fg res.x).2 res.x res.certificate := by
  obtain ⟨res, h, hx, hc⟩ := oneStep_result
  refine ⟨res, h, intervalLmo_exact, fun hg => ?_⟩
  obtain ⟨s, -, hs⟩ := hg.1
  have e : ∀ a b : ℝ, ⟪a, b⟫_ℝ = b * a := fun _ _ => rfl
  rw [hx, hc] at hs
  simp only [oneStepArgs, e, mul_zero] at hs
  norm_num at hs

/-! ### C39, C40 rates -/

/-- Common part of the rates: every iteration satisfies the recursion, hence every iterate the rate. -/
theorem fw_rate (P : FWArgs E Rep) {f : E → ℝ} {B : ℝ} (hB0 : 0 ≤ B) (y : E) (hv : P.variant = "vanilla")
    (hlip : ∀ L, P.lipschitz = some L → 0 ≤ L) (hmax : ∀ it u x o, P.lmo it u x none = .ok o → 0 ≤ o.maxStep)
    (J : FWState E Rep → Prop) (hJ0 : J (fwInit P none)) (htol : 0 ≤ P.tol)
    (hJ : ∀ it st st', FWBase P it st → J st → fwBody P it st = .ok (st', none) → J st' ∧
      f st'.x - f y ≤ (1 - 2 / ((it : ℝ) + 2)) * (f st.x - f y) + (2 / ((it : ℝ) + 2)) ^ 2 * B / 2)
    {res : FWResult E Rep} (h : minimizeFrankWolfe P = .ok res) {t : ℕ} {xt : E} (ht : 1 ≤ t)
    (hxt : res.iters[t]? = some xt) : f xt - f y ≤ 2 * B / ((t : ℝ) + 2) := by
  obtain ⟨-, act, st, w, ha, hloop, hfin⟩ := minimizeFW_ok h
  obtain rfl := vanilla_act hv ha
  obtain ⟨l, hl, -, -, -, -, -, hri, -⟩ := fwFinish_ok hfin
  have key := fwLoop_induct (P := P)
    (fun it st => FWBase P it st ∧ J st ∧
      ∀ (t : ℕ) (z : E), 1 ≤ t → (st.iters ++ [st.x])[t]? = some z → f z - f y ≤ 2 * B / ((t : ℝ) + 2))
    (fun _ st _ => ∀ (t : ℕ) (z : E), 1 ≤ t → (st.iters ++ [st.x])[t]? = some z → f z - f y ≤ 2 * B / ((t : ℝ) + 2))
    (by
      rintro it st st' ⟨hB, hj, hr⟩ hb
      obtain ⟨_, _, _, _, _, _, hx', hi', _, _, _, hB'⟩ := fw_step htol hB hmax hb
      obtain ⟨hj', hrec⟩ := hJ it st st' hB hj hb
      refine ⟨hB', hj', fun t z ht hz => ?_⟩
      have hlen : (st.iters ++ [st.x]).length = it + 1 := by simp [hB.len]
      rw [hi'] at hz
      rcases Nat.lt_trichotomy t (it + 1) with h1 | h1 | h1
      · rw [List.getElem?_append_left (by omega)] at hz
        exact hr t z ht hz
      · subst h1
        rw [List.getElem?_append_right (by omega), hlen] at hz
        simp only [Nat.sub_self, List.getElem?_cons_zero, Option.some.injEq] at hz
        subst hz
        refine fw_rate_step it hB0 (fun h1 => hr it st.x h1 ?_) hrec
        rw [List.getElem?_append_right (by rw [hB.len])]
        simp [hB.len]
      · rw [List.getElem?_eq_none (by simp [hB.len]; omega)] at hz
        cases hz)
    (by
      rintro it st st' w ⟨hB, -, hr⟩ hb
      obtain ⟨_, _, _, hx', hi', _⟩ := fw_stop hB hb
      rw [hx', hi']; exact hr)
    P.maxIter 0 _ ⟨fwBase_init hlip, hJ0, by
      intro t z ht hz
      simp only [fwInit, List.nil_append] at hz
      rw [List.getElem?_eq_none (by simp; omega)] at hz
      cases hz⟩ st w hloop
  have hst : ∀ (t : ℕ) (z : E), 1 ≤ t → (st.iters ++ [st.x])[t]? = some z → f z - f y ≤ 2 * B / ((t : ℝ) + 2) := by
    rcases key with ⟨_, -, -, h1⟩ | ⟨-, -, -, h1⟩ <;> exact h1
  rw [hri] at hxt
  exact hst t xt ht hxt

theorem gap_ge {C : Set E} {f : E → ℝ} {g : E → E} {x y : E} {cert : ℝ} (hg : IsFWGap C (g x) x cert)
    (hconv : f x + ⟪g x, y - x⟫_ℝ ≤ f y) (hy : y ∈ C) : f x - f y ≤ cert := by
  have h1 := hg.2 ⟨y, hy, rfl⟩
  simp only at h1
  have h3 : ⟪g x, y - x⟫_ℝ = -⟪g x, x - y⟫_ℝ := by rw [← inner_neg_right, neg_sub]
  linarith

/-- **C39.** Sublinear steps: for every convex objective with the quadratic upper bound of constant `L` on a convex set
of diameter at most `D`, the iterate at iteration `t ≥ 1` of every run satisfies `f(x_t) - f(y) ≤ 2 L D² / (t + 2)` for all
feasible `y`. -/
theorem C39_sublinear_rate (P : FWArgs E Rep) {C : Set E} (hC : Convex ℝ C) {f : E → ℝ} {g : E → E}
    (hfg : ∀ x, (P.fg x).2 = g x) {L D : ℝ} (hL : 0 ≤ L)
    (hconv : ∀ x ∈ C, ∀ y ∈ C, f x + ⟪g x, y - x⟫_ℝ ≤ f y)
    (hq : ∀ x ∈ C, ∀ y ∈ C, f y ≤ f x + ⟪g x, y - x⟫_ℝ + L / 2 * ‖y - x‖ ^ 2)
    (hD : ∀ x ∈ C, ∀ y ∈ C, ‖x - y‖ ≤ D) (hv : P.variant = "vanilla") (hx0 : P.x0 ∈ C)
    (hstep : P.step = .str "sublinear") (hlip : ∀ L, P.lipschitz = some L → 0 ≤ L) (hex : ExactLmo C P.lmo)
    (hmax : ∀ it u x o, P.lmo it u x none = .ok o → 0 ≤ o.maxStep)
    {res : FWResult E Rep} (h : minimizeFrankWolfe P = .ok res) {t : ℕ} {xt : E} (ht : 1 ≤ t)
    (hxt : res.iters[t]? = some xt) {y : E} (hy : y ∈ C) : f xt - f y ≤ 2 * (L * D ^ 2) / ((t : ℝ) + 2) := by
  have htol := not_lt.mp (minimizeFW_ok h).1
  refine fw_rate P (by positivity) y hv hlip hmax (fun st => st.x ∈ C) hx0 htol ?_ h ht hxt
  intro it st st' hB hx hb
  obtain ⟨o, s, ho, hc, hs, -, hx', -⟩ := fw_step htol hB hmax hb
  obtain ⟨v, hvC, hdir, -⟩ := hex _ _ _ _ ho
  have hs' : s.step = 2 / ((it : ℝ) + 2) := by
    unfold fwStepSize at hs
    rw [hstep] at hs
    simp only [show ("sublinear" = "backtracking") = False by decide, show ("sublinear" = "DR") = False by decide,
      if_false, if_true, Except.ok.injEq] at hs
    rw [← hs]
    rfl
  have ht : (0 : ℝ) ≤ (it : ℝ) := Nat.cast_nonneg _
  have h01 : 0 ≤ s.step ∧ s.step ≤ 1 := by
    rw [hs']; exact ⟨by positivity, by rw [div_le_one (by linarith)]; linarith⟩
  have hxC : st.x + s.step • o.dir ∈ C := by
    rw [hdir]; exact hC.add_smul_sub_mem hx hvC h01
  rw [hx']
  refine ⟨hxC, ?_⟩
  have hgap := gap_of_exact hex ho
  rw [hfg] at hgap ho
  have h1 := gap_ge hgap (hconv _ hx y hy) hy
  have h2 := hq _ hx _ hxC
  rw [add_sub_cancel_left, inner_smul_right, norm_smul, mul_pow, Real.norm_eq_abs, sq_abs] at h2
  have hin : ⟪g st.x, o.dir⟫_ℝ = -⟪o.dir, -g st.x⟫_ℝ := by rw [inner_neg_right, real_inner_comm]; ring
  rw [hin] at h2
  have h3 : ‖o.dir‖ ^ 2 ≤ D ^ 2 := by
    rw [hdir]; exact pow_le_pow_left₀ (norm_nonneg _) (hD v hvC _ hx) 2
  rw [← hs']
  have h4 := mul_le_mul_of_nonneg_left h1 h01.1
  have h5 := mul_le_mul_of_nonneg_left h3 (by positivity : (0:ℝ) ≤ L / 2 * s.step ^ 2)
  nlinarith

/-- The DR step size. -/
theorem dr_step_eq {P : FWArgs E Rep} {l : FWLocals E Rep} {oldF : Option ℝ} {s : FWStepOut E}
    (hstep : P.step = .str "DR") (hs : fwStepSize P l oldF = .ok s) :
    s.step = btStep l.certificate (‖l.dir‖ ^ 2) l.lip l.maxStep ∧ s.lip = l.lip := by
  unfold fwStepSize at hs
  rw [hstep] at hs
  simp only [show ("DR" = "backtracking") = False by decide, if_false, if_true] at hs
  split at hs
  · cases hs
  · simp only [Except.ok.injEq] at hs
    rw [← hs]
    exact ⟨rfl, rfl⟩

/-- One DR iteration. -/
theorem dr_iteration (P : FWArgs E Rep) {C : Set E} (hC : Convex ℝ C) {f : E → ℝ} {g : E → E}
    (hfg : ∀ x, (P.fg x).2 = g x) {L : ℝ} (hL : 0 < L)
    (hq : ∀ x ∈ C, ∀ y ∈ C, f y ≤ f x + ⟪g x, y - x⟫_ℝ + L / 2 * ‖y - x‖ ^ 2)
    (hstep : P.step = .str "DR") (hex : ExactLmo C P.lmo)
    (hmax : ∀ it u x o, P.lmo it u x none = .ok o → o.maxStep = 1) (htol : 0 ≤ P.tol)
    {it : ℕ} {st st' : FWState E Rep} (hB : FWBase P it st) (hx : st.x ∈ C) (hl : st.lip = some L)
    (hb : fwBody P it st = .ok (st', none)) :
    st'.x ∈ C ∧ st'.lip = some L ∧ ∃ s ∈ C, IsFWGap C (g st.x) st.x ⟪s - st.x, -g st.x⟫_ℝ ∧
      0 < ⟪s - st.x, -g st.x⟫_ℝ ∧
      ∀ γ ≤ 1, f st'.x ≤ f st.x - γ * ⟪s - st.x, -g st.x⟫_ℝ + L / 2 * γ ^ 2 * ‖s - st.x‖ ^ 2 := by
  have hmax' : ∀ it u x o, P.lmo it u x none = .ok o → 0 ≤ o.maxStep := fun it u x o ho => by
    rw [hmax it u x o ho]; exact zero_le_one
  obtain ⟨o, s, ho, hc, hs, hl0, hx', -, -, -⟩ := fw_step htol hB hmax' hb
  obtain ⟨o2, s2, ho2, -, hs2, -, hm⟩ := fwBody_none hb
  obtain ⟨act, -, hst'⟩ := fwMove_ok hm
  obtain ⟨v, hvC, hdir, -⟩ := hex _ _ _ _ ho
  have hgap := gap_of_exact hex ho
  have hgst : st.grad = (P.fg st.x).2 := by rw [← hB.fg]
  rw [hgst, hB.act, ho] at ho2
  simp only [Except.ok.injEq] at ho2
  subst ho2
  rw [hs] at hs2
  simp only [Except.ok.injEq] at hs2
  subst hs2
  obtain ⟨hs', hlip'⟩ := dr_step_eq hstep hs
  have hg : (P.fg st.x).2 = g st.x := by rw [hfg]
  have hcertE : (fwLocals P it st o).certificate = ⟪o.dir, -g st.x⟫_ℝ := by
    show ⟪o.dir, -st.grad⟫_ℝ = _
    rw [hgst, hg]
  have hlipE : (fwLocals P it st o).lip = L := by
    show fwLip P st o.dir = L
    rw [fwLip, hl]
  have hmaxE : (fwLocals P it st o).maxStep = 1 := hmax _ _ _ _ ho
  have hdirE : (fwLocals P it st o).dir = o.dir := rfl
  rw [hcertE, hlipE, hmaxE, hdirE] at hs'
  rw [hg] at hc hgap
  have hpos : 0 < ⟪o.dir, -g st.x⟫_ℝ := by linarith
  have h01 : 0 ≤ s.step ∧ s.step ≤ 1 := by
    rw [hs']; exact ⟨btStep_nonneg hpos (sq_nonneg _) hL.le zero_le_one, btStep_le⟩
  have hxC : st.x + s.step • o.dir ∈ C := by
    rw [hdir]; exact hC.add_smul_sub_mem hx hvC h01
  have hqq := hq _ hx _ hxC
  rw [add_sub_cancel_left, hs'] at hqq
  refine ⟨hx' ▸ hxC, by rw [hst', hlip', hlipE], v, hvC, ?_, ?_, ?_⟩
  · rw [← hdir]; exact hgap
  · rw [← hdir]; exact hpos
  · intro γ hγ
    rw [hx', ← hdir, hs']
    exact dr_decrease hL rfl hpos hqq hγ

/-- **C40 (monotone decrease, no convexity).** Consecutive iterates of a run with DR steps and `lipschitz = L` satisfy
`f(x_{t+1}) ≤ f(x_t) - min(gap/2, gap²/(2 L ‖d‖²))`, where `d = s - x_t` attains the gap. -/
theorem C40_dr_decrease (P : FWArgs E Rep) {C : Set E} (hC : Convex ℝ C) {f : E → ℝ} {g : E → E}
    (hfg : ∀ x, (P.fg x).2 = g x) {L : ℝ} (hL : 0 < L)
    (hq : ∀ x ∈ C, ∀ y ∈ C, f y ≤ f x + ⟪g x, y - x⟫_ℝ + L / 2 * ‖y - x‖ ^ 2)
    (hv : P.variant = "vanilla") (hx0 : P.x0 ∈ C) (hstep : P.step = .str "DR") (hlip : P.lipschitz = some L)
    (hex : ExactLmo C P.lmo) (hmax : ∀ it u x o, P.lmo it u x none = .ok o → o.maxStep = 1)
    {res : FWResult E Rep} (h : minimizeFrankWolfe P = .ok res) {t : ℕ} {a b : E}
    (hat : res.iters[t]? = some a) (hbt : res.iters[t + 1]? = some b) :
    f b ≤ f a ∧ ∃ s ∈ C, ∃ G, IsFWGap C (g a) a G ∧ G = ⟪g a, a - s⟫_ℝ ∧ 0 < G ∧
      f b ≤ f a - min (G / 2) (G ^ 2 / (2 * L * ‖s - a‖ ^ 2)) := by
  obtain ⟨htol, act, st, w, ha, hloop, hfin⟩ := minimizeFW_ok h
  have htol := not_lt.mp htol
  obtain rfl := vanilla_act hv ha
  obtain ⟨l, hl, -, -, -, -, -, hri, -⟩ := fwFinish_ok hfin
  have hmax' : ∀ it u x o, P.lmo it u x none = .ok o → 0 ≤ o.maxStep := fun it u x o ho => by
    rw [hmax it u x o ho]; exact zero_le_one
  let R : E → E → Prop := fun a b => ∃ s ∈ C, IsFWGap C (g a) a ⟪s - a, -g a⟫_ℝ ∧ 0 < ⟪s - a, -g a⟫_ℝ ∧
      ∀ γ ≤ 1, f b ≤ f a - γ * ⟪s - a, -g a⟫_ℝ + L / 2 * γ ^ 2 * ‖s - a‖ ^ 2
  have key := fwLoop_induct (P := P)
    (fun it st => FWBase P it st ∧ (st.x ∈ C ∧ st.lip = some L) ∧
      ∀ t a b, (st.iters ++ [st.x])[t]? = some a → (st.iters ++ [st.x])[t + 1]? = some b → R a b)
    (fun _ st _ => ∀ t a b, (st.iters ++ [st.x])[t]? = some a → (st.iters ++ [st.x])[t + 1]? = some b → R a b)
    (by
      rintro it st st' ⟨hB, ⟨hx, hl⟩, hr⟩ hb
      obtain ⟨_, _, _, _, _, _, hx', hi', _, _, _, hB'⟩ := fw_step htol hB hmax' hb
      obtain ⟨h1, h2, h3⟩ := dr_iteration P hC hfg hL hq hstep hex hmax htol hB hx hl hb
      refine ⟨hB', ⟨h1, h2⟩, fun t a b hat hbt => ?_⟩
      have hlen : (st.iters ++ [st.x]).length = it + 1 := by simp [hB.len]
      rw [hi'] at hat hbt
      rcases Nat.lt_trichotomy t it with h4 | h4 | h4
      · rw [List.getElem?_append_left (by omega)] at hat hbt
        exact hr t a b hat hbt
      · subst h4
        rw [List.getElem?_append_left (by omega)] at hat
        rw [List.getElem?_append_right (by omega), hlen] at hbt
        rw [List.getElem?_append_right (by rw [hB.len])] at hat
        simp only [hB.len, Nat.sub_self, List.getElem?_cons_zero, Option.some.injEq] at hat hbt
        subst hat hbt
        exact h3
      · rw [List.getElem?_eq_none (by simp [hB.len]; omega)] at hbt
        cases hbt)
    (by
      rintro it st st' w ⟨hB, -, hr⟩ hb
      obtain ⟨_, _, _, hx', hi', _⟩ := fw_stop hB hb
      rw [hx', hi']; exact hr)
    P.maxIter 0 _ ⟨fwBase_init (fun L' h' => by rw [hlip] at h'; cases h'; exact hL.le), ⟨hx0, hlip⟩, by
      intro t a b _ hz
      simp only [fwInit, List.nil_append] at hz
      rw [List.getElem?_eq_none (by simp)] at hz
      cases hz⟩ st w hloop
  have hst : ∀ t a b, (st.iters ++ [st.x])[t]? = some a → (st.iters ++ [st.x])[t + 1]? = some b → R a b := by
    rcases key with ⟨_, -, -, h1⟩ | ⟨-, -, -, h1⟩ <;> exact h1
  rw [hri] at hat hbt
  obtain ⟨s, hs, hgap, hpos, hdec⟩ := hst t a b hat hbt
  have hGe : ⟪s - a, -g a⟫_ℝ = ⟪g a, a - s⟫_ℝ := by
    rw [inner_neg_right, real_inner_comm, ← inner_neg_right, neg_sub]
  set G := ⟪s - a, -g a⟫_ℝ with hG
  have hN : 0 < ‖s - a‖ ^ 2 := by
    have hne : s - a ≠ 0 := fun h0 => by rw [hG, h0, inner_zero_left] at hpos; exact lt_irrefl _ hpos
    have := norm_pos_iff.mpr hne
    positivity
  have hmain : f b ≤ f a - min (G / 2) (G ^ 2 / (2 * L * ‖s - a‖ ^ 2)) := by
    by_cases hcase : G ≤ L * ‖s - a‖ ^ 2
    · have h1 := hdec (G / (L * ‖s - a‖ ^ 2)) (by rw [div_le_one (by positivity)]; exact hcase)
      have e : -(G / (L * ‖s - a‖ ^ 2) * G) + L / 2 * (G / (L * ‖s - a‖ ^ 2)) ^ 2 * ‖s - a‖ ^ 2 =
          -(G ^ 2 / (2 * L * ‖s - a‖ ^ 2)) := by field_simp; ring
      have := min_le_right (G / 2) (G ^ 2 / (2 * L * ‖s - a‖ ^ 2))
      linarith
    · have h1 := hdec 1 (le_refl _)
      have := min_le_left (G / 2) (G ^ 2 / (2 * L * ‖s - a‖ ^ 2))
      push Not at hcase
      nlinarith
  refine ⟨?_, s, hs, G, hgap, hGe, hpos, hmain⟩
  have : 0 ≤ min (G / 2) (G ^ 2 / (2 * L * ‖s - a‖ ^ 2)) := le_min (by linarith) (by positivity)
  linarith

/-- **C40 (rate).** For convex objectives, DR steps with `lipschitz = L`: `f(x_t) - f(y) ≤ 2 L D² / (t + 2)`, `t ≥ 1`. -/
theorem C40_dr_rate (P : FWArgs E Rep) {C : Set E} (hC : Convex ℝ C) {f : E → ℝ} {g : E → E}
    (hfg : ∀ x, (P.fg x).2 = g x) {L D : ℝ} (hL : 0 < L)
    (hconv : ∀ x ∈ C, ∀ y ∈ C, f x + ⟪g x, y - x⟫_ℝ ≤ f y)
    (hq : ∀ x ∈ C, ∀ y ∈ C, f y ≤ f x + ⟪g x, y - x⟫_ℝ + L / 2 * ‖y - x‖ ^ 2)
    (hD : ∀ x ∈ C, ∀ y ∈ C, ‖x - y‖ ≤ D)
    (hv : P.variant = "vanilla") (hx0 : P.x0 ∈ C) (hstep : P.step = .str "DR") (hlip : P.lipschitz = some L)
    (hex : ExactLmo C P.lmo) (hmax : ∀ it u x o, P.lmo it u x none = .ok o → o.maxStep = 1)
    {res : FWResult E Rep} (h : minimizeFrankWolfe P = .ok res) {t : ℕ} {xt : E} (ht : 1 ≤ t)
    (hxt : res.iters[t]? = some xt) {y : E} (hy : y ∈ C) : f xt - f y ≤ 2 * (L * D ^ 2) / ((t : ℝ) + 2) := by
  have htol := not_lt.mp (minimizeFW_ok h).1
  refine fw_rate P (by positivity) y hv (fun L' h' => by rw [hlip] at h'; cases h'; exact hL.le)
    (fun it u x o ho => by rw [hmax it u x o ho]; exact zero_le_one) (fun st => st.x ∈ C ∧ st.lip = some L)
    ⟨hx0, hlip⟩ htol ?_ h ht hxt
  rintro it st st' hB ⟨hx, hl⟩ hb
  obtain ⟨h1, h2, s, hs, hgap, hpos, hdec⟩ := dr_iteration P hC hfg hL hq hstep hex hmax htol hB hx hl hb
  refine ⟨⟨h1, h2⟩, ?_⟩
  have ht : (0 : ℝ) ≤ (it : ℝ) := Nat.cast_nonneg _
  set γ : ℝ := 2 / ((it : ℝ) + 2) with hγ
  have h01 : 0 ≤ γ ∧ γ ≤ 1 := by
    rw [hγ]; exact ⟨by positivity, by rw [div_le_one (by linarith)]; linarith⟩
  have h3 := hdec γ h01.2
  have h4 := mul_le_mul_of_nonneg_left (gap_ge hgap (hconv _ hx y hy) hy) h01.1
  have h5 : ‖s - st.x‖ ^ 2 ≤ D ^ 2 := pow_le_pow_left₀ (norm_nonneg _) (hD s hs _ hx) 2
  have h6 := mul_le_mul_of_nonneg_left h5 (by positivity : (0:ℝ) ≤ L / 2 * γ ^ 2)
  nlinarith

/-- All hypotheses of C35-C40 hold in the run `oneStepArgs` (with `L = 1`, `D = 2`), which makes a step. -/
example : (∀ x ∈ Set.Icc (-1 : ℝ) 1, ∀ y ∈ Set.Icc (-1 : ℝ) 1, x ^ 2 / 2 + ⟪x, y - x⟫_ℝ ≤ y ^ 2 / 2) ∧
    (∀ x ∈ Set.Icc (-1 : ℝ) 1, ∀ y ∈ Set.Icc (-1 : ℝ) 1,
      y ^ 2 / 2 ≤ x ^ 2 / 2 + ⟪x, y - x⟫_ℝ + 1 / 2 * ‖y - x‖ ^ 2) ∧
    (∀ x ∈ Set.Icc (-1 : ℝ) 1, ∀ y ∈ Set.Icc (-1 : ℝ) 1, ‖x - y‖ ≤ 2) ∧
    oneStepArgs.x0 ∈ Set.Icc (-1 : ℝ) 1 ∧ (∀ it u x o, oneStepArgs.lmo it u x none = .ok o → o.maxStep = 1) ∧
    ∃ res, minimizeFrankWolfe oneStepArgs = .ok res ∧ res.x ≠ oneStepArgs.x0 := by
  have e : ∀ a b : ℝ, ⟪a, b⟫_ℝ = b * a := fun _ _ => rfl
  refine ⟨fun x _ y _ => ?_, fun x _ y _ => ?_, fun x hx y hy => ?_, ⟨by norm_num [oneStepArgs], by norm_num [oneStepArgs]⟩,
    fun it u x o ho => ?_, ?_⟩
  · rw [e]; nlinarith [sq_nonneg (x - y)]
  · rw [e, Real.norm_eq_abs, sq_abs]; nlinarith
  · rw [Real.norm_eq_abs, abs_le]; constructor <;> linarith [hx.1, hx.2, hy.1, hy.2]
  · simp only [oneStepArgs, intervalLmo, Except.ok.injEq] at ho; rw [← ho]
  · obtain ⟨res, h, hx, -⟩ := oneStep_result
    exact ⟨res, h, by rw [hx]; norm_num [oneStepArgs]⟩

/-! ### C43 validation, callbacks, iteration count -/

/-- **C43 (tol).** -/
theorem C43_negative_tol (P : FWArgs E Rep) (h : P.tol < 0) : minimizeFrankWolfe P = .error .valueError := by
  rw [minimizeFrankWolfe, if_pos h]

/-- **C43 (variant).** -/
theorem C43_unknown_variant (P : FWArgs E Rep) (htol : 0 ≤ P.tol) (h1 : P.variant ≠ "vanilla")
    (h2 : P.variant ≠ "pairwise") : minimizeFrankWolfe P = .error .valueError := by
  rw [minimizeFrankWolfe, if_neg (not_lt.mpr htol), fwActive0, if_neg h1, if_neg h2]
  rfl

/-- The step argument is usable. -/
def StepOK (P : FWArgs E Rep) : Prop :=
  match P.step with
  | .callable _ => True
  | .str s => s = "backtracking" ∨ (s = "DR" ∧ P.lipschitz ≠ none) ∨ s = "sublinear"

theorem fwStepSize_ok_iff (P : FWArgs E Rep) (l : FWLocals E Rep) (oldF : Option ℝ) :
    (StepOK P → ∃ s, fwStepSize P l oldF = .ok s) ∧ (¬ StepOK P → fwStepSize P l oldF = .error .valueError) := by
  unfold StepOK fwStepSize
  cases P.step with
  | callable r => exact ⟨fun _ => ⟨_, rfl⟩, fun h => absurd trivial h⟩
  | str s =>
    simp only
    by_cases h1 : s = "backtracking"
    · exact ⟨fun _ => ⟨_, by rw [if_pos h1]⟩, fun h => absurd (Or.inl h1) h⟩
    · by_cases h2 : s = "DR"
      · rw [if_neg h1, if_pos h2]
        by_cases h3 : P.lipschitz = none
        · rw [if_pos h3]
          refine ⟨fun h => ?_, fun _ => rfl⟩
          rcases h with h | h | h
          · exact absurd h h1
          · exact absurd h3 h.2
          · rw [h2] at h; exact absurd h (by decide)
        · rw [if_neg h3]
          exact ⟨fun _ => ⟨_, rfl⟩, fun h => absurd (Or.inr (Or.inl ⟨h2, h3⟩)) h⟩
      · rw [if_neg h1, if_neg h2]
        by_cases h3 : s = "sublinear"
        · rw [if_pos h3]
          exact ⟨fun _ => ⟨_, rfl⟩, fun h => absurd (Or.inr (Or.inr h3)) h⟩
        · rw [if_neg h3]
          refine ⟨fun h => ?_, fun _ => rfl⟩
          rcases h with h | h | h
          · exact absurd h h1
          · exact absurd h.1 h2
          · exact absurd h h3

/-- **C43 (step argument).** With an unknown step, or `"DR"` without `lipschitz`, the run raises ValueError exactly when a
step is needed, i.e. when the gap at `x0` is above `tol`; otherwise it returns `x0`. -/
theorem C43_bad_step (P : FWArgs E Rep) (htol : 0 ≤ P.tol) (hv : P.variant = "vanilla") (hmi : 1 ≤ P.maxIter)
    (hbad : ¬ StepOK P) {o : LmoOut E Rep ℝ} (ho : P.lmo 0 (-(P.fg P.x0).2) P.x0 none = .ok o) :
    (P.tol < ⟪o.dir, -(P.fg P.x0).2⟫_ℝ → minimizeFrankWolfe P = .error .valueError) ∧
      (⟪o.dir, -(P.fg P.x0).2⟫_ℝ ≤ P.tol → ∃ res, minimizeFrankWolfe P = .ok res ∧ res.x = P.x0 ∧ res.nit = 0) := by
  obtain ⟨n, hn⟩ : ∃ n, P.maxIter = n + 1 := ⟨P.maxIter - 1, by omega⟩
  have ho' : P.lmo 0 (-(fwInit P none).grad) (fwInit P none).x (fwInit P none).active = .ok o := ho
  constructor
  · intro hc
    have hc' : ¬ (fwLocals P 0 (fwInit P none) o).certificate ≤ P.tol := not_le.mpr hc
    have hb : fwBody P 0 (fwInit P none) = .error .valueError := by
      unfold fwBody
      rw [ho']
      simp only [bind, Except.bind]
      rw [if_neg hc', (fwStepSize_ok_iff P _ _).2 hbad]
    rw [minimizeFrankWolfe, if_neg (not_lt.mpr htol), fwActive0_vanilla hv]
    simp only [bind, Except.bind]
    rw [hn, fwLoop, hb]
    rfl
  · intro hc
    have hc' : (fwLocals P 0 (fwInit P none) o).certificate ≤ P.tol := hc
    have hb : fwBody P 0 (fwInit P none) = .ok ({ fwInit P none with
        lip := some (fwLocals P 0 (fwInit P none) o).lip, last := some (fwLocals P 0 (fwInit P none) o) },
        some FWWhy.converged) := by
      unfold fwBody
      rw [ho']
      simp only [bind, Except.bind]
      rw [if_pos hc']
      rfl
    rw [minimizeFrankWolfe, if_neg (not_lt.mpr htol), fwActive0_vanilla hv]
    simp only [bind, Except.bind]
    rw [hn, fwLoop, hb]
    exact ⟨_, rfl, rfl, rfl⟩

/-- **C43 (max_iter = 0).** No iteration is made and the function fails with UnboundLocalError. -/
theorem C43_max_iter_zero (P : FWArgs E Rep) (htol : 0 ≤ P.tol) (hv : P.variant = "vanilla") (h0 : P.maxIter = 0) :
    minimizeFrankWolfe P = .error .unboundLocalError := by
  rw [minimizeFrankWolfe, if_neg (not_lt.mpr htol), fwActive0_vanilla hv, h0]
  rfl

/-- **C43 (normal return).** In all other cases the run returns: a vanilla run with `tol ≥ 0`, `max_iter ≥ 1`, a usable
step and an LMO that does not raise. -/
theorem C43_returns (P : FWArgs E Rep) (htol : 0 ≤ P.tol) (hv : P.variant = "vanilla") (hmi : 1 ≤ P.maxIter)
    (hstep : StepOK P) (hlmo : ∀ it u x, ∃ o, P.lmo it u x none = .ok o) : ∃ res, minimizeFrankWolfe P = .ok res := by
  have hok : ∀ it st, st.active = none → ∃ r, fwBody P it st = .ok r := by
    intro it st hact
    obtain ⟨o, ho⟩ := hlmo it (-st.grad) st.x
    obtain ⟨s, hs⟩ := (fwStepSize_ok_iff P (fwLocals P it st o) st.oldF).1 hstep
    unfold fwBody
    rw [hact, ho]
    simp only [bind, Except.bind, pure, Except.pure]
    split
    · exact ⟨_, rfl⟩
    · rw [hs]
      simp only
      split
      · exact ⟨_, rfl⟩
      · have : fwUpdateActive st.active o s.step = .ok none := by rw [hact, fwUpdateActive]
        simp only [fwMove, this, bind, Except.bind, pure, Except.pure]
        exact ⟨_, rfl⟩
  have hnext : ∀ (it : ℕ) (st st' : FWState E Rep), st.active = none → fwBody P it st = .ok (st', none) →
      st'.active = none ∧ st'.last ≠ none := by
    intro it st st' hact hb
    obtain ⟨o, s, -, -, -, -, hm⟩ := fwBody_none hb
    obtain ⟨act, ha, rfl⟩ := fwMove_ok hm
    rw [hact] at ha
    simp only [fwUpdateActive, Except.ok.injEq] at ha
    exact ⟨ha.symm, by simp⟩
  obtain ⟨⟨st, w⟩, hr⟩ := fwLoop_total (P := P) (fun _ st => st.active = none) hok
    (fun it st st' h hb => (hnext it st st' h hb).1) P.maxIter 0 (fwInit P none) rfl
  have hlast := fwLoop_induct (P := P) (fun it st => st.active = none ∧ (it ≠ 0 → st.last ≠ none))
    (fun _ st _ => st.last ≠ none)
    (fun it st st' h hb => ⟨(hnext it st st' h.1 hb).1, fun _ => (hnext it st st' h.1 hb).2⟩)
    (fun it st st' w h hb => by
      obtain ⟨o, -, hor⟩ := fwBody_some hb
      rcases hor with ⟨-, -, rfl⟩ | ⟨-, -, s, cb, -, -, -, rfl⟩ <;> simp)
    P.maxIter 0 _ ⟨rfl, by simp⟩ st w hr
  have hne : st.last ≠ none := by
    rcases hlast with ⟨_, -, -, h1⟩ | ⟨-, -, h1⟩
    · exact h1
    · exact h1 (by omega)
  obtain ⟨l, hl⟩ := Option.ne_none_iff_exists'.mp hne
  rw [minimizeFrankWolfe, if_neg (not_lt.mpr htol), fwActive0_vanilla hv]
  simp only [bind, Except.bind]
  rw [hr]
  simp only [fwFinish, hl]
  exact ⟨_, rfl⟩

/-- **C43 (iteration count and callback protocol).** For every run that returns: `nit < max_iter`; the callback is called
once in every iteration that computes a step and once at the end (`nit + 1` calls when the run converged, `nit + 2`
otherwise); call `i` of the loop belongs to iteration `i` and shows the iterate before the step; a callback that returns
False at iteration `i` ends the run there, with the iterate shown to it. -/
theorem C43_callback (P : FWArgs E Rep) (hv : P.variant = "vanilla") (hlip : ∀ L, P.lipschitz = some L → 0 ≤ L)
    (hmax : ∀ it u x o, P.lmo it u x none = .ok o → 0 ≤ o.maxStep)
    {res : FWResult E Rep} (h : minimizeFrankWolfe P = .ok res) :
    res.nit < P.maxIter ∧ (res.why = .exhausted → res.nit + 1 = P.maxIter) ∧
    res.iters.length = (if res.why = .exhausted then res.nit + 2 else res.nit + 1) ∧
    ∀ cb, P.callback = some cb →
      res.cbs.length = (if res.why = .converged then res.nit + 1 else res.nit + 2) ∧
      (∀ i l, i + 1 < res.cbs.length → res.cbs[i]? = some l → l.it = i ∧ res.iters[i]? = some l.x) ∧
      (∀ i l, i + 1 < res.cbs.length → res.cbs[i]? = some l →
        (cb i l = true ↔ res.why = .callback ∧ i = res.nit)) ∧
      (res.why = .callback → ∃ l, res.cbs[res.nit]? = some l ∧ cb res.nit l = true ∧ res.x = l.x) := by
  obtain ⟨htol, act, st, w, ha, hloop, hfin⟩ := minimizeFW_ok h
  have htol := not_lt.mp htol
  obtain rfl := vanilla_act hv ha
  obtain ⟨l, hl, hrx, hrn, -, -, hrw, hri, hrc⟩ := fwFinish_ok hfin
  let Hist : ℕ → FWState E Rep → Prop := fun it st => ∀ cb, P.callback = some cb → st.cbs.length = it ∧
    ∀ i l, st.cbs[i]? = some l → l.it = i ∧ (st.iters ++ [st.x])[i]? = some l.x ∧ cb i l = false
  have key := fwLoop_induct (P := P)
    (fun it st => FWBase P it st ∧ Hist it st ∧ ∀ l, st.last = some l → l.it + 1 = it)
    (fun it st w => w ≠ .exhausted ∧ (∃ l, st.last = some l ∧ l.it = it) ∧ st.iters.length = it ∧
      ∀ cb, P.callback = some cb →
        (w = .converged → st.cbs.length = it ∧
          ∀ i l, st.cbs[i]? = some l → l.it = i ∧ (st.iters ++ [st.x])[i]? = some l.x ∧ cb i l = false) ∧
        (w = .callback → st.cbs.length = it + 1 ∧
          (∀ i l, st.cbs[i]? = some l → l.it = i ∧ (st.iters ++ [st.x])[i]? = some l.x ∧ (cb i l = true ↔ i = it)) ∧
          ∃ l, st.cbs[it]? = some l ∧ l.x = st.x))
    (by
      rintro it st st' ⟨hB, hH, -⟩ hb
      obtain ⟨o, s, _, _, _, _, hx', hi', _, hl', hcb', hB'⟩ := fw_step htol hB hmax hb
      obtain ⟨o2, s2, ho2, -, hs2, hcbf, hm⟩ := fwBody_none hb
      refine ⟨hB', fun cb hcb => ?_, fun l hl => ?_⟩
      · obtain ⟨h1, h2⟩ := hH cb hcb
        obtain ⟨act, -, hst'⟩ := fwMove_ok hm
        simp only [fwCallback, hcb] at hcbf hst'
        have hlen : (st.iters ++ [st.x]).length = it + 1 := by simp [hB.len]
        have hcbs : st'.cbs = st.cbs ++ [{ fwLocals P it st o2 with lip := s2.lip, stepSize := some s2.step }] := by
          rw [hst']
        rw [hcbs, hi']
        refine ⟨by simp [h1], fun i l hil => ?_⟩
        rcases Nat.lt_trichotomy i it with h3 | h3 | h3
        · rw [List.getElem?_append_left (by omega)] at hil
          obtain ⟨e1, e2, e3⟩ := h2 i l hil
          exact ⟨e1, by rw [List.getElem?_append_left (by omega)]; exact e2, e3⟩
        · subst h3
          rw [List.getElem?_append_right (by omega), h1] at hil
          simp only [Nat.sub_self, List.getElem?_cons_zero, Option.some.injEq] at hil
          subst hil
          refine ⟨rfl, ?_, hcbf⟩
          rw [List.getElem?_append_left (by omega), List.getElem?_append_right (by rw [hB.len])]
          simp [hB.len, fwLocals]
        · rw [List.getElem?_eq_none (by simp [h1]; omega)] at hil
          cases hil
      · rw [hl'] at hl
        simp only [Option.some.injEq] at hl
        rw [← hl]; rfl)
    (by
      rintro it st st' w ⟨hB, hH, -⟩ hb
      obtain ⟨o, l, ho, hx', hi', hl', hlit, hlx, -, -, -, -, -, hw⟩ := fw_stop hB hb
      refine ⟨by rcases hw with ⟨h1, -⟩ | ⟨h1, -⟩ <;> rw [h1] <;> decide, ⟨l, hl', hlit⟩, by rw [hi']; exact hB.len,
        fun cb hcb => ⟨fun hwc => ?_, fun hwc => ?_⟩⟩
      · rcases hw with ⟨-, -, hcb'⟩ | ⟨h1, -⟩
        · rw [hcb', hx', hi']; exact hH cb hcb
        · rw [h1] at hwc; cases hwc
      · rcases hw with ⟨h1, -⟩ | ⟨-, -, hcb', cb', hcb2, htrue⟩
        · rw [h1] at hwc; cases hwc
        · rw [hcb] at hcb2
          simp only [Option.some.injEq] at hcb2
          subst hcb2
          obtain ⟨h1, h2⟩ := hH cb hcb
          have hlast : (st.cbs ++ [l])[it]? = some l := by
            rw [List.getElem?_append_right (by omega), h1]; simp
          rw [hcb', hx', hi']
          refine ⟨by simp [h1], fun i l' hil => ?_, l, hlast, hlx⟩
          rcases Nat.lt_trichotomy i it with h3 | h3 | h3
          · rw [List.getElem?_append_left (by omega)] at hil
            obtain ⟨e1, e2, e3⟩ := h2 i l' hil
            exact ⟨e1, e2, by rw [e3]; simp; omega⟩
          · subst h3
            rw [hlast] at hil
            simp only [Option.some.injEq] at hil
            subst hil
            refine ⟨hlit, ?_, by simp [htrue]⟩
            rw [List.getElem?_append_right (by rw [hB.len]), hlx]
            simp [hB.len]
          · rw [List.getElem?_eq_none (by simp [h1]; omega)] at hil
            cases hil)
    P.maxIter 0 _ ⟨fwBase_init hlip, fun cb _ => ⟨rfl, by simp [fwInit]⟩, by simp [fwInit]⟩ st w hloop
  rcases key with ⟨it, -, hit, hne, ⟨l', hl', hlit⟩, hlen, hcbs⟩ | ⟨hex, hB, hH, hlast⟩
  · rw [hl] at hl'
    simp only [Option.some.injEq] at hl'
    subst hl'
    rw [hlit] at hrn
    have hwne : res.why ≠ .exhausted := by rw [hrw]; exact hne
    refine ⟨by omega, fun hh => absurd hh hwne, by rw [if_neg hwne, hri, hrn]; simp [hlen], fun cb hcb => ?_⟩
    rw [hcb] at hrc
    simp only at hrc
    have hw2 : w = .converged ∨ w = .callback := by cases w <;> simp_all
    rcases hw2 with hw2 | hw2
    · obtain ⟨h1, h2⟩ := (hcbs cb hcb).1 hw2
      have hlen2 : res.cbs.length = it + 1 := by rw [hrc]; simp [h1]
      refine ⟨by rw [if_pos (hrw.trans hw2), hlen2, hrn], fun i l' hi hil => ?_, fun i l' hi hil => ?_, fun hh => ?_⟩
      · rw [hrc, List.getElem?_append_left (by omega)] at hil
        obtain ⟨e1, e2, -⟩ := h2 i l' hil
        exact ⟨e1, by rw [hri]; exact e2⟩
      · rw [hrc, List.getElem?_append_left (by omega)] at hil
        obtain ⟨-, -, e3⟩ := h2 i l' hil
        rw [e3, hrw, hw2]; simp
      · rw [hrw, hw2] at hh; cases hh
    · obtain ⟨h1, h2, l', h3, h4⟩ := (hcbs cb hcb).2 hw2
      have hlen2 : res.cbs.length = it + 2 := by rw [hrc]; simp [h1]
      refine ⟨by rw [if_neg (by rw [hrw, hw2]; decide), hlen2, hrn], fun i l' hi hil => ?_, fun i l' hi hil => ?_,
        fun hh => ⟨l', ?_, ?_, ?_⟩⟩
      · rw [hrc, List.getElem?_append_left (by omega)] at hil
        obtain ⟨e1, e2, -⟩ := h2 i l' hil
        exact ⟨e1, by rw [hri]; exact e2⟩
      · rw [hrc, List.getElem?_append_left (by omega)] at hil
        obtain ⟨-, -, e3⟩ := h2 i l' hil
        rw [e3, hrw, hw2, hrn]; simp
      · rw [hrc, hrn, List.getElem?_append_left (by omega)]; exact h3
      · rw [hrn]; exact ((h2 it l' h3).2.2).mpr rfl
      · rw [hrx]; exact h4.symm
  · have hnit : res.nit + 1 = P.maxIter := by
      have := hlast l hl
      omega
    have hwe : res.why = .exhausted := hrw.trans hex
    refine ⟨by omega, fun _ => hnit, by rw [if_pos hwe, hri]; simp [hB.len]; omega, fun cb hcb => ?_⟩
    rw [hcb] at hrc
    simp only at hrc
    obtain ⟨h1, h2⟩ := hH cb hcb
    have hlen2 : res.cbs.length = P.maxIter + 1 := by rw [hrc]; simp [h1]
    refine ⟨by rw [if_neg (by rw [hwe]; decide), hlen2]; omega, fun i l' hi hil => ?_, fun i l' hi hil => ?_, fun hh => ?_⟩
    · rw [hrc, List.getElem?_append_left (by omega)] at hil
      obtain ⟨e1, e2, -⟩ := h2 i l' hil
      exact ⟨e1, by rw [hri]; exact e2⟩
    · rw [hrc, List.getElem?_append_left (by omega)] at hil
      obtain ⟨-, -, e3⟩ := h2 i l' hil
      rw [e3, hwe]; simp
    · rw [hwe] at hh; cases hh

end Copt
